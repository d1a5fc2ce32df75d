import Verif.Spec.Report
import Verif.Lemmas.PlainSteps
import Verif.Lemmas.PathStep

/-! Planning looks at the shapes of the operands, beyond the sizes of the labels, only for the BLAS flags. -/

namespace OE
open OE.Py OE.Parser OE.Contract OE.Helpers OE.Spec OE.Blas

/-! ## Sizes -/

/-- The dictionary with its values replaced by those of `D`. -/
def reval (D e : Dict Nat Nat) : Dict Nat Nat := e.map fun p => (p.1, dsize D p.1)

theorem reval_get? (D e : Dict Nat Nat) (c : Nat) : (reval D e).get? c = (e.get? c).map fun _ => dsize D c := by
  induction e with
  | nil => rfl
  | cons p t ih =>
    obtain ⟨k, v⟩ := p
    simp only [reval, List.map_cons, Dict.get?] at ih ⊢
    by_cases h : k = c
    · subst h; simp
    · simp only [if_neg h]; exact ih

theorem reval_set (D e : Dict Nat Nat) (c v : Nat) : reval D (e.set c v) = (reval D e).set c (dsize D c) := by
  induction e with
  | nil => rfl
  | cons p t ih =>
    obtain ⟨k, w⟩ := p
    simp only [reval, List.map_cons, Dict.set] at ih ⊢
    by_cases h : k = c
    · subst h; simp
    · simp only [if_neg h, List.map_cons, ih]

theorem reval_set_same (D e : Dict Nat Nat) (c : Nat) (h : (e.get? c).isSome) : (reval D e).set c (dsize D c) = reval D e := by
  induction e with
  | nil => simp [Dict.get?] at h
  | cons p t ih =>
    obtain ⟨k, w⟩ := p
    simp only [reval, List.map_cons, Dict.set, Dict.get?] at ih h ⊢
    by_cases hk : k = c
    · subst hk; simp
    · rw [if_neg hk] at h
      simp only [if_neg hk, ih h]

theorem set_keys (e : Dict Nat Nat) (c v : Nat) (h : (e.map Prod.fst).Nodup) : ((e.set c v).map Prod.fst).Nodup := by
  have hk : (e.set c v).map Prod.fst = e.map Prod.fst ∨ (c ∉ e.map Prod.fst ∧ (e.set c v).map Prod.fst = e.map Prod.fst ++ [c]) := by
    clear h
    induction e with
    | nil => right; simp [Dict.set]
    | cons p t ih =>
      obtain ⟨k, w⟩ := p
      simp only [Dict.set]
      by_cases hk : k = c
      · subst hk; left; simp
      · rw [if_neg hk]
        rcases ih with h | ⟨h1, h2⟩
        · left; simp [h]
        · right
          refine ⟨?_, by simp [h2]⟩
          simp only [List.map_cons, List.mem_cons, not_or]
          exact ⟨fun e => hk e.symm, h1⟩
  rcases hk with h1 | ⟨h1, h2⟩
  · rw [h1]; exact h
  · rw [h2, List.nodup_append]
    exact ⟨h, by simp, by rintro a ha b hb rfl; simp at hb; exact h1 (hb ▸ ha)⟩

theorem reval_self (D : Dict Nat Nat) (h : (D.map Prod.fst).Nodup) : reval D D = D := by
  have key : ∀ p ∈ D, dsize D p.1 = p.2 := by
    induction D with
    | nil => simp
    | cons q t ih =>
      obtain ⟨k, v⟩ := q
      simp only [List.map_cons, List.nodup_cons] at h
      intro p hp
      rcases List.mem_cons.mp hp with rfl | hp
      · simp [dsize, Dict.get?]
      · have hne : k ≠ p.1 := fun e => h.1 (e ▸ List.mem_map_of_mem hp)
        have := ih h.2 p hp
        simp only [dsize, Dict.get?, if_neg hne] at this ⊢
        exact this
  unfold reval
  conv_rhs => rw [← List.map_id D]
  apply List.map_congr_left
  intro p hp
  simp only [key p hp, id_eq]

theorem sizeTerm_nodup {d d' : Dict Nat Nat} {ps : List (Nat × Nat)} (h : sizeTerm d ps = .ok d') (hn : (d.map Prod.fst).Nodup) :
    (d'.map Prod.fst).Nodup := by
  induction ps generalizing d with
  | nil => simp only [sizeTerm, Except.ok.injEq] at h; subst h; exact hn
  | cons p t ih =>
    obtain ⟨a, dim⟩ := p
    rw [sizeTerm] at h
    split at h
    · split at h
      · exact ih h (set_keys _ _ _ hn)
      · split at h
        · cases h
        · exact ih h hn
    · exact ih h (set_keys _ _ _ hn)

theorem sizeTerm_reval (D : Dict Nat Nat) {d' : Dict Nat Nat} (term : Str) : ∀ (sh : Shape), sh.length = term.length →
    ∀ {d : Dict Nat Nat}, sizeTerm d (term.zip sh) = .ok d' → sizeTerm (reval D d) (term.zip (term.map (dsize D))) = .ok (reval D d') := by
  induction term with
  | nil => intro sh _ d h; simp only [List.zip_nil_left, sizeTerm, Except.ok.injEq] at h; subst h; rfl
  | cons a t ih =>
    intro sh hl d h
    cases sh with
    | nil => simp at hl
    | cons dim sh =>
      have hl' : sh.length = t.length := by simpa using hl
      simp only [List.zip_cons_cons, List.map_cons] at h ⊢
      rw [sizeTerm] at h ⊢
      rw [reval_get?]
      rcases hg : d.get? a with _ | old
      · rw [hg] at h
        simp only [Option.map_none] at h ⊢
        rw [← reval_set D d a dim]
        exact ih sh hl' h
      · rw [hg] at h
        have hs : (d.get? a).isSome := by rw [hg]; rfl
        simp only [Option.map_some] at h ⊢
        have main : sizeTerm (reval D d) (t.zip (t.map (dsize D))) = .ok (reval D d') := by
          split at h
          · have := ih sh hl' h
            rwa [reval_set, reval_set_same D d a hs] at this
          · split at h
            · cases h
            · exact ih sh hl' h
        split
        · rw [reval_set_same D d a hs]; exact main
        · rw [if_neg (by tauto)]; exact main

theorem sizeLoop_reval (D : Dict Nat Nat) {d' : Dict Nat Nat} (terms : List Str) : ∀ (shapes : List Shape) {d : Dict Nat Nat},
    (d.map Prod.fst).Nodup → sizeLoop d terms shapes = .ok d' →
    sizeLoop (reval D d) terms (terms.map fun t => t.map (dsize D)) = .ok (reval D d') ∧ (d'.map Prod.fst).Nodup ∧
      (terms.length ≤ shapes.length ∧ ∀ (i : Nat) (t : Str) (s : Shape), terms[i]? = some t → shapes[i]? = some s → s.length = t.length) := by
  induction terms with
  | nil =>
    intro shapes d hn h
    simp only [sizeLoop, Except.ok.injEq] at h; subst h
    exact ⟨rfl, hn, by simp, by simp⟩
  | cons t ts ih =>
    intro shapes d hn h
    cases shapes with
    | nil => cases h
    | cons sh shs =>
      rw [sizeLoop] at h
      split at h
      · cases h
      · rename_i hl
        simp only [bind, Except.bind] at h
        split at h
        · cases h
        · rename_i d1 hd1
          obtain ⟨h1, h2, h3, h4⟩ := ih shs (sizeTerm_nodup hd1 hn) h
          refine ⟨?_, h2, by simpa using h3, ?_⟩
          · rw [List.map_cons, sizeLoop, if_neg (by simp)]
            simp only [bind, Except.bind]
            rw [sizeTerm_reval D (d := d) t sh (by simpa using hl) hd1]
            exact h1
          · intro i u s hu hs
            cases i with
            | zero =>
              simp only [List.getElem?_cons_zero, Option.some.injEq] at hu hs
              subst hu; subst hs; simpa using hl
            | succ i => exact h4 i u s (by simpa using hu) (by simpa using hs)

/-- The sizes are found again from the shapes that they make. -/
theorem sizeLoop_again {d : Dict Nat Nat} {terms : List Str} {shapes : List Shape} (h : sizeLoop [] terms shapes = .ok d) :
    sizeLoop [] terms (terms.map fun t => t.map (dsize d)) = .ok d := by
  obtain ⟨h1, h2, _⟩ := sizeLoop_reval d terms shapes (by simp) h
  rw [reval_self d h2] at h1
  exact h1

/-! ## The loop -/

/-- The record of a step without its BLAS flag. -/
def plainOut (o : StepOut) : StepOut := { o with step := unflagged o.step }

/-- The shapes have the ranks of the terms. -/
def RanksFit (terms : List Str) (shapes : List Shape) : Prop := shapes.map List.length = terms.map List.length

theorem find?_spec {s : Str} {c : Nat} : (c ∉ s → find? s c = none) ∧ (c ∈ s → ∃ i, find? s c = some i ∧ i < s.length) := by
  unfold find?
  constructor
  · intro h; exact List.idxOf?_eq_none_iff.mpr h
  · intro h
    rcases hf : List.idxOf? c s with _ | i
    · exact absurd h (List.idxOf?_eq_none_iff.mp hf)
    · refine ⟨i, rfl, ?_⟩
      have := List.of_findIdx?_eq_some (by simpa [List.idxOf?] using hf : List.findIdx? _ s = some i)
      by_contra hn
      rw [List.getElem?_eq_none (by omega)] at this
      simp at this

theorem findOutputDim_fit {terms : List Str} {shapes : List Shape} (h : RanksFit terms shapes) (c : Nat) :
    ((∃ t ∈ terms, c ∈ t) → ∃ d, findOutputDim terms shapes c = .ok d) ∧
    ((¬ ∃ t ∈ terms, c ∈ t) → findOutputDim terms shapes c = .error .value) := by
  have hdims : ∃ dims : List Nat, ((shapes.zip terms).filterMap (fun p => (find? p.2 c).map (fun loc => p.1[loc]?))).mapM optIndex = .ok dims ∧
      (dims = [] ↔ ¬ ∃ t ∈ terms, c ∈ t) := by
    unfold RanksFit at h
    induction terms generalizing shapes with
    | nil => exact ⟨[], by rw [List.zip_nil_right]; rfl, by simp⟩
    | cons t ts ih =>
      cases shapes with
      | nil => simp at h
      | cons sh shs =>
        simp only [List.map_cons, List.cons.injEq] at h
        obtain ⟨dims, h1, h2⟩ := ih h.2
        rw [List.zip_cons_cons, List.filterMap_cons]
        by_cases hc : c ∈ t
        · obtain ⟨i, hi, hlt⟩ := find?_spec.2 hc
          simp only [hi, Option.map_some]
          rw [List.getElem?_eq_getElem (by omega), List.mapM_cons]
          exact ⟨sh[i] :: dims, by simp only [optIndex, h1]; rfl, by simp [hc]⟩
        · simp only [find?_spec.1 hc, Option.map_none]
          exact ⟨dims, h1, by simp [h2, hc]⟩
  obtain ⟨dims, h1, h2⟩ := hdims
  unfold findOutputDim
  simp only [bind, Except.bind, h1]
  cases dims with
  | nil => exact ⟨fun hc => absurd hc (h2.mp rfl), fun _ => rfl⟩
  | cons d ds => exact ⟨fun _ => ⟨_, rfl⟩, fun hc => by have := h2.mpr hc; cases this⟩

theorem findOutputShape_fit {terms : List Str} {s s' : List Shape} (h : RanksFit terms s) (h' : RanksFit terms s') (out : Str) :
    (findOutputShape terms s out = .error .value ∧ findOutputShape terms s' out = .error .value) ∨
    ∃ r r', findOutputShape terms s out = .ok r ∧ findOutputShape terms s' out = .ok r' ∧ r.length = out.length ∧ r'.length = out.length := by
  unfold findOutputShape
  induction out with
  | nil => exact Or.inr ⟨[], [], rfl, rfl, rfl, rfl⟩
  | cons c t ih =>
    simp only [List.mapM_cons, bind, Except.bind]
    by_cases hc : ∃ u ∈ terms, c ∈ u
    · obtain ⟨d, hd⟩ := (findOutputDim_fit h c).1 hc
      obtain ⟨d', hd'⟩ := (findOutputDim_fit h' c).1 hc
      rw [hd, hd']
      rcases ih with ⟨h1, h2⟩ | ⟨r, r', h1, h2, h3, h4⟩
      · left; simp only [h1, h2, and_self]
      · right
        exact ⟨d :: r, d' :: r', by simp only [h1]; rfl, by simp only [h2]; rfl, by simp [h3], by simp [h4]⟩
    · left
      rw [(findOutputDim_fit h c).2 hc, (findOutputDim_fit h' c).2 hc]
      exact ⟨rfl, rfl⟩

theorem popAll_ranks {terms P Q : List Str} {shapes : List Shape} (h : RanksFit terms shapes) {xs : List Nat} (hp : popAll xs terms = .ok (P, Q)) :
    ∃ sP sQ, popAll xs shapes = .ok (sP, sQ) ∧ RanksFit P sP ∧ RanksFit Q sQ := by
  induction xs generalizing terms P Q shapes with
  | nil =>
    simp only [popAll, Except.ok.injEq, Prod.mk.injEq] at hp
    obtain ⟨rfl, rfl⟩ := hp
    exact ⟨[], shapes, rfl, rfl, h⟩
  | cons x xs ih =>
    have hl : shapes.length = terms.length := by simpa using congrArg List.length h
    rw [popAll_cons] at hp ⊢
    by_cases hx : x < terms.length
    · rw [List.getElem?_eq_getElem hx] at hp
      rw [List.getElem?_eq_getElem (by omega)]
      simp only at hp ⊢
      have he : RanksFit (terms.eraseIdx x) (shapes.eraseIdx x) := by
        unfold RanksFit at h ⊢
        rw [← List.eraseIdx_map, ← List.eraseIdx_map, h]
      rcases hpop : popAll xs (terms.eraseIdx x) with e | ⟨P', Q'⟩
      · rw [hpop] at hp; cases hp
      · rw [hpop] at hp
        simp only [Except.ok.injEq, Prod.mk.injEq] at hp
        obtain ⟨rfl, rfl⟩ := hp
        obtain ⟨sP, sQ, h1, h2, h3⟩ := ih he hpop
        refine ⟨shapes[x] :: sP, sQ, by rw [h1], ?_, h3⟩
        unfold RanksFit at h h2 ⊢
        have hx' : (shapes.map List.length)[x]? = (terms.map List.length)[x]? := by rw [h]
        rw [List.getElem?_map, List.getElem?_map, List.getElem?_eq_getElem hx, List.getElem?_eq_getElem (by omega)] at hx'
        simp only [List.map_cons, h2]
        simp only [Option.map_some, Option.some.injEq] at hx'
        rw [hx']
    · rw [List.getElem?_eq_none (by omega)] at hp; cases hp

/-- One step for two lists of shapes of the same ranks: the same error, or the same record but for the flag. -/
theorem pathStep_shapes (ub : Bool) (output : Str) (d : Dict Nat Nat) (inputs : List Str) (sets : List (Finset Nat)) (s s' : List Shape)
    (h : RanksFit inputs s) (h' : RanksFit inputs s') (p : List Nat) (last : Bool) :
    (∃ e, pathStep ub output d ⟨inputs, sets, s⟩ p last = .error e ∧ pathStep ub output d ⟨inputs, sets, s'⟩ p last = .error e) ∨
    ∃ i2 sets2 s2 s2' o o', pathStep ub output d ⟨inputs, sets, s⟩ p last = .ok (⟨i2, sets2, s2⟩, o) ∧
      pathStep ub output d ⟨inputs, sets, s'⟩ p last = .ok (⟨i2, sets2, s2'⟩, o') ∧ plainOut o = plainOut o' ∧ RanksFit i2 s2 ∧ RanksFit i2 s2' := by
  unfold pathStep
  simp only [bind, Except.bind]
  rcases findContraction (sortedDesc p) sets output.toFinset with e | c
  · exact Or.inl ⟨e, rfl, rfl⟩
  simp only
  rcases hpop : popAll (sortedDesc p) inputs with e | ⟨P, Q⟩
  · exact Or.inl ⟨e, rfl, rfl⟩
  obtain ⟨sP, sQ, h1, h2, h3⟩ := popAll_ranks h hpop
  obtain ⟨sP', sQ', h1', h2', h3'⟩ := popAll_ranks h' hpop
  simp only [h1, h1']
  rcases flopCount (enum P.flatten c.idxContract) (decide (c.idxRemoved ≠ ∅)) (sortedDesc p).length d with e | cost
  · exact Or.inl ⟨e, rfl, rfl⟩
  simp only
  rcases computeSizeByDict (enum P.flatten c.newResult) d with e | size
  · exact Or.inl ⟨e, rfl, rfl⟩
  simp only
  rcases findOutputShape_fit h2 h2' (if last then output else tensordotOrder P.flatten c.newResult) with ⟨g1, g2⟩ | ⟨r, r', g1, g2, g3, g4⟩
  · left; exact ⟨.value, by rw [g1], by rw [g2]⟩
  · right
    rw [g1, g2]
    refine ⟨_, _, _, _, _, _, rfl, rfl, rfl, ?_, ?_⟩
    · unfold RanksFit at h3 ⊢; simp only [List.map_append, h3, List.map_cons, g3, List.map_nil]
    · unfold RanksFit at h3' ⊢; simp only [List.map_append, h3', List.map_cons, g4, List.map_nil]

/-- The loop for two lists of shapes of the same ranks. -/
theorem pathLoop_shapes (ub : Bool) (output : Str) (d : Dict Nat Nat) (path : List (List Nat)) :
    ∀ (inputs : List Str) (sets : List (Finset Nat)) (s s' : List Shape), RanksFit inputs s → RanksFit inputs s' →
    (∃ e, pathLoop ub output d ⟨inputs, sets, s⟩ path = .error e ∧ pathLoop ub output d ⟨inputs, sets, s'⟩ path = .error e) ∨
    ∃ st st' outs outs', pathLoop ub output d ⟨inputs, sets, s⟩ path = .ok (st, outs) ∧
      pathLoop ub output d ⟨inputs, sets, s'⟩ path = .ok (st', outs') ∧ outs.map plainOut = outs'.map plainOut := by
  induction path with
  | nil => intro i sets s s' _ _; exact Or.inr ⟨_, _, [], [], rfl, rfl, rfl⟩
  | cons p ps ih =>
    intro i sets s s' h h'
    simp only [pathLoop, bind, Except.bind]
    rcases pathStep_shapes ub output d i sets s s' h h' p ps.isEmpty with ⟨e, g1, g2⟩ | ⟨i2, sets2, s2, s2', o, o', g1, g2, g3, g4, g5⟩
    · left; exact ⟨e, by rw [g1], by rw [g2]⟩
    · rw [g1, g2]
      simp only
      rcases ih i2 sets2 s2 s2' g4 g5 with ⟨e, k1, k2⟩ | ⟨st, st', outs, outs', k1, k2, k3⟩
      · left; exact ⟨e, by rw [k1], by rw [k2]⟩
      · right; exact ⟨st, st', o :: outs, o' :: outs', by rw [k1], by rw [k2], by simp [g3, k3]⟩

end OE
