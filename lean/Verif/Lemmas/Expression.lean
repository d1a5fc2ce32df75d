import Verif.Model.Expression
import Verif.Spec.Expression
import Verif.Spec.Contract
import Verif.Lemmas.Pop

/-!
# Evaluating the constants of an expression first
-/

namespace OE.Expression
open OE OE.Py OE.Spec OE.Contract

section Fill
variable {α β : Type}

theorem fill_length {os : List (Option α)} {vs full : List α} (h : fill os vs = .ok full) : full.length = os.length := by
  induction os generalizing vs full with
  | nil => cases h; rfl
  | cons o os ih =>
    cases o with
    | some a =>
      simp only [fill, bind, Except.bind] at h
      cases h1 : fill os vs with
      | error e => rw [h1] at h; cases h
      | ok f => rw [h1] at h; cases h; simp [ih h1]
    | none =>
      cases vs with
      | nil => cases h
      | cons v vs =>
        simp only [fill, bind, Except.bind] at h
        cases h1 : fill os vs with
        | error e => rw [h1] at h; cases h
        | ok f => rw [h1] at h; cases h; simp [ih h1]

theorem fill_some {os : List (Option α)} {vs full : List α} (h : fill os vs = .ok full) {i : Nat} {a : α} (ha : os[i]? = some (some a)) :
    full[i]? = some a ∧ fill (os.eraseIdx i) vs = .ok (full.eraseIdx i) := by
  induction os generalizing vs full i with
  | nil => simp at ha
  | cons o os ih =>
    cases o with
    | some b =>
      simp only [fill, bind, Except.bind] at h
      cases h1 : fill os vs with
      | error e => rw [h1] at h; cases h
      | ok f =>
        rw [h1] at h; cases h
        cases i with
        | zero => simp only [List.getElem?_cons_zero, Option.some.injEq] at ha; subst ha; exact ⟨rfl, h1⟩
        | succ i =>
          obtain ⟨g1, g2⟩ := ih h1 (i := i) (by simpa using ha)
          refine ⟨by simpa using g1, ?_⟩
          simp only [List.eraseIdx_cons_succ, fill, bind, Except.bind, g2]
    | none =>
      cases vs with
      | nil => cases h
      | cons v vs =>
        simp only [fill, bind, Except.bind] at h
        cases h1 : fill os vs with
        | error e => rw [h1] at h; cases h
        | ok f =>
          rw [h1] at h; cases h
          cases i with
          | zero => simp at ha
          | succ i =>
            obtain ⟨g1, g2⟩ := ih h1 (i := i) (by simpa using ha)
            refine ⟨by simpa using g1, ?_⟩
            simp only [List.eraseIdx_cons_succ, fill, bind, Except.bind, g2]

theorem fill_append {os : List (Option α)} {vs full : List α} (h : fill os vs = .ok full) (a : α) :
    fill (os ++ [some a]) vs = .ok (full ++ [a]) := by
  induction os generalizing vs full with
  | nil => cases h; rfl
  | cons o os ih =>
    cases o with
    | some b =>
      simp only [fill, bind, Except.bind] at h
      cases h1 : fill os vs with
      | error e => rw [h1] at h; cases h
      | ok f => rw [h1] at h; cases h; simp only [List.cons_append, fill, bind, Except.bind, ih h1]
    | none =>
      cases vs with
      | nil => cases h
      | cons v vs =>
        simp only [fill, bind, Except.bind] at h
        cases h1 : fill os vs with
        | error e => rw [h1] at h; cases h
        | ok f => rw [h1] at h; cases h; simp only [List.cons_append, fill, bind, Except.bind, ih h1]

/-- Popping constants only is the same before and after the variables are filled in. -/
theorem popAll_fill {xs : List Nat} {os tmp rest : List (Option α)} {vs full tmp' : List α} (h : fill os vs = .ok full)
    (hp : popAll xs os = .ok (tmp, rest)) (ht : present tmp = .ok tmp') :
    ∃ rest', popAll xs full = .ok (tmp', rest') ∧ fill rest vs = .ok rest' := by
  induction xs generalizing os tmp full tmp' with
  | nil => cases hp; cases ht; exact ⟨full, rfl, h⟩
  | cons x xs ih =>
    rw [popAll_cons] at hp
    cases ho : os[x]? with
    | none => rw [ho] at hp; cases hp
    | some o =>
      rw [ho] at hp
      cases h1 : popAll xs (os.eraseIdx x) with
      | error e => rw [h1] at hp; cases hp
      | ok r =>
        obtain ⟨t, r⟩ := r
        rw [h1] at hp
        cases hp
        cases o with
        | none => cases ht
        | some a =>
          simp only [present, bind, Except.bind] at ht
          cases h2 : present t with
          | error e => rw [h2] at ht; cases ht
          | ok t' =>
            rw [h2] at ht
            cases ht
            obtain ⟨g1, g2⟩ := fill_some h ho
            obtain ⟨rest', k1, k2⟩ := ih g2 h1 h2
            refine ⟨rest', ?_, k2⟩
            rw [popAll_cons, g1]
            simp only [k1]

theorem anyNone_false {os : List (Option α)} {xs : List Nat} (h : anyNone os xs = .ok false) :
    ∀ x ∈ xs, ∃ a, os[x]? = some (some a) := by
  induction xs with
  | nil => simp
  | cons x xs ih =>
    simp only [anyNone] at h
    intro y hy
    cases ho : os[x]? with
    | none => rw [ho] at h; cases h
    | some o =>
      rw [ho] at h
      cases o with
      | none => cases h
      | some a =>
        rcases List.mem_cons.mp hy with rfl | hy
        · exact ⟨a, ho⟩
        · exact ih h y hy

theorem anyNone_error {os : List (Option α)} {xs : List Nat} {e : PyErr} (h : anyNone os xs = .error e) :
    e = .index ∧ ∃ x ∈ xs, os[x]? = none := by
  induction xs with
  | nil => cases h
  | cons x xs ih =>
    simp only [anyNone] at h
    cases ho : os[x]? with
    | none => rw [ho] at h; cases h; exact ⟨rfl, x, by simp, ho⟩
    | some o =>
      rw [ho] at h
      cases o with
      | none => cases h
      | some a => obtain ⟨h1, y, hy, h2⟩ := ih h; exact ⟨h1, y, by simp [hy], h2⟩

theorem present_of_all {l : List (Option α)} (h : ∀ o ∈ l, o.isSome) : ∃ l', present l = .ok l' := by
  induction l with
  | nil => exact ⟨[], rfl⟩
  | cons o l ih =>
    cases o with
    | none => simpa using h none (by simp)
    | some a =>
      obtain ⟨l', h'⟩ := ih (fun o ho => h o (by simp [ho]))
      exact ⟨a :: l', by simp only [present, bind, Except.bind, h']⟩

theorem present_popped {xs : List Nat} {os tmp rest : List (Option α)} (hd : xs.Pairwise (· > ·)) (hn : anyNone os xs = .ok false)
    (hp : popAll xs os = .ok (tmp, rest)) : ∃ tmp', present tmp = .ok tmp' := by
  apply present_of_all
  intro o ho
  have hs := (popAll_spec hd hp).1
  have : some o ∈ xs.map (fun x => os[x]?) := by rw [← hs]; exact List.mem_map_of_mem ho
  obtain ⟨x, hx, he⟩ := List.mem_map.mp this
  obtain ⟨a, ha⟩ := anyNone_false hn x hx
  rw [ha] at he
  cases he
  rfl

theorem popAll_out_of_range {xs : List Nat} {l : List α} (hd : xs.Pairwise (· > ·)) {x : Nat} (hx : x ∈ xs) (hl : l[x]? = none) :
    popAll xs l = .error .index := by
  cases h : popAll xs l with
  | error e => rw [popAll_error h]
  | ok r =>
    obtain ⟨P, Q⟩ := r
    have hs := (popAll_spec hd h).1
    have : (none : Option α) ∈ xs.map (fun x => l[x]?) := List.mem_map.mpr ⟨x, hx, hl⟩
    rw [← hs] at this
    simp at this

end Fill

variable {R : Type} [CommSemiring R]

/-- A partial evaluation of the constants leaves a contraction with the same outcome. -/
theorem evalLoop_fill (noE : Bool) (steps : List Step) (hd : ∀ s ∈ steps, s.inds.Pairwise (· > ·)) {ops : List (Option (Tensor R))}
    {vs full : List (Tensor R)} (hf : fill ops vs = .ok full) :
    (∀ ops' ss, evalLoop noE steps ops = .ok (some (ops', ss)) →
      ∃ full', fill ops' vs = .ok full' ∧ coreLoop noE steps full = coreLoop noE ss full') ∧
    (∀ e, evalLoop noE steps ops = .error e → coreLoop noE steps full = .error e) := by
  induction steps generalizing ops full with
  | nil => exact ⟨fun _ _ h => (by cases h), fun _ h => (by cases h)⟩
  | cons s ss ih =>
    have hs := hd s (by simp)
    have hih := fun {o : List (Option (Tensor R))} {f : List (Tensor R)} (h : fill o vs = .ok f) => ih (fun t ht => hd t (by simp [ht])) h
    simp only [evalLoop, coreLoop, bind, Except.bind]
    cases ha : anyNone ops s.inds with
    | error e =>
      obtain ⟨he, x, hx, hox⟩ := anyNone_error ha
      have hfx : full[x]? = none := by
        rw [List.getElem?_eq_none_iff] at hox ⊢
        rw [fill_length hf]; exact hox
      rw [popAll_out_of_range hs hx hfx]
      simp only
      exact ⟨fun _ _ h => (by cases h), fun e' h => by cases h; rw [he]⟩
    | ok b =>
      cases b with
      | true =>
        refine ⟨fun ops' ss' h => ?_, fun _ h => (by cases h)⟩
        simp only [if_true, Except.ok.injEq, Option.some.injEq, Prod.mk.injEq] at h
        obtain ⟨rfl, rfl⟩ := h
        refine ⟨full, hf, ?_⟩
        simp only [coreLoop, bind, Except.bind]
      | false =>
        simp only [Bool.false_eq_true, if_false]
        cases hp : popAll s.inds ops with
        | error e =>
          have hall := anyNone_false ha
          obtain ⟨P, Q, hPQ⟩ := popAll_desc (l := ops) hs (fun x hx => by
            obtain ⟨a, h⟩ := hall x hx
            exact (List.getElem?_eq_some_iff.mp h).1)
          rw [hPQ] at hp; cases hp
        | ok r =>
          obtain ⟨tmp, rest⟩ := r
          obtain ⟨tmp', ht⟩ := present_popped hs ha hp
          obtain ⟨rest', k1, k2⟩ := popAll_fill hf hp ht
          simp only [ht, k1]
          cases hv : stepResult noE s tmp' with
          | error e => exact ⟨fun _ _ h => (by cases h), fun _ h => by cases h; rfl⟩
          | ok view => exact hih (fill_append k2 view)

/-- With a variable left, the evaluation of the constants stops before the end. -/
theorem evalLoop_ne_done (noE : Bool) {steps : List Step} {path : List (List Nat)} (hpath : steps.map Step.inds = path.map sortedDesc)
    {ops : List (Option (Tensor R))} (hc : CompletePath ops.length path) (hn : none ∈ ops) : evalLoop noE steps ops ≠ .ok none := by
  induction path generalizing steps ops with
  | nil => exact absurd hc (by simp [CompletePath])
  | cons p ps ih =>
    cases steps with
    | nil => simp at hpath
    | cons s ss =>
      simp only [List.map_cons, List.cons.injEq] at hpath
      obtain ⟨hs, hss⟩ := hpath
      intro h
      simp only [evalLoop, bind, Except.bind] at h
      cases ha : anyNone ops s.inds with
      | error e => rw [ha] at h; cases h
      | ok b =>
        rw [ha] at h
        cases b with
        | true => cases h
        | false =>
          simp only [Bool.false_eq_true, if_false] at h
          cases hp : popAll s.inds ops with
          | error e => rw [hp] at h; cases h
          | ok r =>
            obtain ⟨tmp, rest⟩ := r
            rw [hp] at h
            simp only at h
            cases ht : present tmp with
            | error e => rw [ht] at h; cases h
            | ok tmp' =>
              rw [ht] at h
              simp only at h
              cases hv : stepResult noE s tmp' with
              | error e => rw [hv] at h; cases h
              | ok view =>
                rw [hv] at h
                simp only at h
                have hlen := popAll_length hp
                have hnr : none ∈ rest := by
                  have := (popAll_perm hp).mem_iff.mpr hn
                  rcases List.mem_append.mp this with h1 | h1
                  · exfalso
                    have : ∀ (l : List (Option (Tensor R))) (l' : List (Tensor R)), present l = .ok l' → none ∉ l := by
                      intro l
                      induction l with
                      | nil => simp
                      | cons o l ih =>
                        intro l' hl
                        cases o with
                        | none => cases hl
                        | some a =>
                          simp only [present, bind, Except.bind] at hl
                          cases h2 : present l with
                          | error e => rw [h2] at hl; cases hl
                          | ok l'' => simp [ih _ h2]
                    exact this _ _ ht h1
                  · exact h1
                have hr : 0 < rest.length := List.length_pos_of_mem hnr
                cases ps with
                | nil =>
                  have : p.length = ops.length := hc.2
                  rw [hs, sortedDesc_length] at hlen
                  omega
                | cons q qs =>
                  have hl : s.inds.length = p.length := by rw [hs, sortedDesc_length]
                  refine ih hss (ops := rest ++ [some view]) ?_ (by simp [hnr]) h
                  have hc' := hc.2
                  have hlp := hc.1
                  have : (rest ++ [some view]).length = ops.length + 1 - p.length := by simp; omega
                  rw [this]; exact hc'

/-- The steps that remain after evaluating the constants do not depend on the library or on the contents of the constants. -/
theorem evalLoop_same_rest {noE₁ noE₂ : Bool} {steps : List Step} {ops₁ ops₂ : List (Option (Tensor R))}
    (hm : ops₁.map Option.isSome = ops₂.map Option.isSome) {a b : List (Option (Tensor R))} {ss₁ ss₂ : List Step}
    (h₁ : evalLoop noE₁ steps ops₁ = .ok (some (a, ss₁))) (h₂ : evalLoop noE₂ steps ops₂ = .ok (some (b, ss₂))) : ss₁ = ss₂ := by
  induction steps generalizing ops₁ ops₂ with
  | nil => cases h₁
  | cons s ss ih =>
    have hany : ∀ xs, anyNone ops₁ xs = anyNone ops₂ xs := by
      intro xs
      induction xs with
      | nil => rfl
      | cons x xs ihx =>
        simp only [anyNone]
        have : ops₁[x]?.map Option.isSome = ops₂[x]?.map Option.isSome := by rw [← List.getElem?_map, ← List.getElem?_map, hm]
        cases e1 : ops₁[x]? with
        | none => cases e2 : ops₂[x]? with
          | none => rfl
          | some o => rw [e1, e2] at this; cases this
        | some o => cases e2 : ops₂[x]? with
          | none => rw [e1, e2] at this; cases this
          | some o' => cases o <;> cases o' <;> first | rfl | exact ihx | (rw [e1, e2] at this; cases this)
    simp only [evalLoop, bind, Except.bind] at h₁ h₂
    rw [hany] at h₁
    cases ha : anyNone ops₂ s.inds with
    | error e => rw [ha] at h₁; cases h₁
    | ok t =>
      rw [ha] at h₁ h₂
      cases t with
      | true => cases h₁; cases h₂; rfl
      | false =>
        simp only [Bool.false_eq_true, if_false] at h₁ h₂
        cases hp₁ : popAll s.inds ops₁ with
        | error e => rw [hp₁] at h₁; cases h₁
        | ok r₁ =>
          cases hp₂ : popAll s.inds ops₂ with
          | error e => rw [hp₂] at h₂; cases h₂
          | ok r₂ =>
            obtain ⟨t₁, q₁⟩ := r₁
            obtain ⟨t₂, q₂⟩ := r₂
            have e1 := popAll_map_ok Option.isSome hp₁
            have e2 := popAll_map_ok Option.isSome hp₂
            rw [hm, e2] at e1
            simp only [Except.ok.injEq, Prod.mk.injEq] at e1
            rw [hp₁] at h₁; rw [hp₂] at h₂
            simp only at h₁ h₂
            cases p1 : present t₁ with
            | error e => rw [p1] at h₁; cases h₁
            | ok u₁ =>
              cases p2 : present t₂ with
              | error e => rw [p2] at h₂; cases h₂
              | ok u₂ =>
                rw [p1] at h₁; rw [p2] at h₂
                simp only at h₁ h₂
                cases v1 : stepResult noE₁ s u₁ with
                | error e => rw [v1] at h₁; cases h₁
                | ok w₁ =>
                  cases v2 : stepResult noE₂ s u₂ with
                  | error e => rw [v2] at h₂; cases h₂
                  | ok w₂ =>
                    rw [v1] at h₁; rw [v2] at h₂
                    exact ih (by simp [e1.2]) h₁ h₂

end OE.Expression
