import Verif.Lemmas.Parser
import Verif.Spec.Parser

/-! Lemmas about `alpha_canonicalize`. -/

namespace OE.Parser
open OE OE.Py OE.Spec

/-- Collect the distinct labels in order of first occurrence. -/
def addLabel (acc : List Nat) (c : Nat) : List Nat :=
  if c ∈ [cDot, cComma, cDash, cGt] then acc else if c ∈ acc then acc else acc ++ [c]

/-- The labels of `e` in order of first occurrence. -/
def labelsOf (e : Str) : List Nat := e.foldl addLabel []

/-- The renaming dictionary for a list of labels. -/
def mkRename : Nat → List Nat → Dict Nat Nat
  | _, [] => []
  | k, c :: cs => (c, getSymbol k) :: mkRename (k + 1) cs

theorem isPunct_iff (c : Nat) : c ∈ [cDot, cComma, cDash, cGt] ↔ IsPunct c := by
  simp [IsPunct]

theorem mkRename_length (k : Nat) (l : List Nat) : (mkRename k l).length = l.length := by
  induction l generalizing k with
  | nil => rfl
  | cons c cs ih => simp [mkRename, ih]

theorem mkRename_get (k : Nat) (l : List Nat) (c : Nat) :
    (mkRename k l).get? c = (l.idxOf? c).map (fun i => getSymbol (k + i)) := by
  induction l generalizing k with
  | nil => simp [mkRename, Dict.get?]
  | cons a t ih =>
    simp only [mkRename, Dict.get?, List.idxOf?_cons]
    by_cases h : a = c
    · subst h; simp
    · rw [if_neg h, ih]
      have hb : (a == c) = false := by simpa using h
      rw [hb]
      simp only [Bool.false_eq_true, if_false, Option.map_map]
      congr 1
      funext i
      simp; congr 1; omega

theorem idxOf?_isSome (l : List Nat) (c : Nat) : (l.idxOf? c).isSome ↔ c ∈ l := by
  simp

theorem mkRename_has (k : Nat) (l : List Nat) (c : Nat) :
    (mkRename k l).has c = decide (c ∈ l) := by
  rw [Dict.has, mkRename_get, Option.isSome_map]
  rw [Bool.eq_iff_iff]; simp

theorem mkRename_set (k : Nat) (l : List Nat) (c : Nat) (h : c ∉ l) :
    (mkRename k l).set c (getSymbol (k + l.length)) = mkRename k (l ++ [c]) := by
  induction l generalizing k with
  | nil => simp [mkRename, Dict.set]
  | cons a t ih =>
    simp only [List.mem_cons, not_or] at h
    simp only [mkRename, Dict.set, List.cons_append]
    rw [if_neg (Ne.symm h.1)]
    have := ih (k + 1) h.2
    rw [← this]
    simp; congr 2; omega

theorem alphaStep_mk (acc : List Nat) (c : Nat) :
    alphaStep (mkRename 0 acc) c = mkRename 0 (addLabel acc c) := by
  unfold alphaStep addLabel
  by_cases hp : c ∈ [cDot, cComma, cDash, cGt]
  · rw [if_pos hp, if_pos hp]
  · rw [if_neg hp, if_neg hp, mkRename_has]
    by_cases hm : c ∈ acc
    · simp [hm]
    · simp only [hm, decide_false, Bool.false_eq_true, if_false]
      rw [mkRename_length, ← mkRename_set 0 acc c hm, Nat.zero_add]

theorem foldl_alphaStep (e : Str) (acc : List Nat) :
    e.foldl alphaStep (mkRename 0 acc) = mkRename 0 (e.foldl addLabel acc) := by
  induction e generalizing acc with
  | nil => rfl
  | cons c t ih => simp only [List.foldl_cons]; rw [alphaStep_mk, ih]

/-- Closed form of `alpha_canonicalize`. -/
theorem alphaCanonicalize_eq (e : Str) :
    alphaCanonicalize e = e.map (fun x => (((labelsOf e).idxOf? x).map getSymbol).getD x) := by
  unfold alphaCanonicalize labelsOf
  have := foldl_alphaStep e []
  simp only [mkRename] at this
  simp only [this, mkRename_get, Nat.zero_add]

theorem foldl_addLabel_prefix (e : Str) (acc : List Nat) :
    ∃ t, e.foldl addLabel acc = acc ++ t := by
  induction e generalizing acc with
  | nil => exact ⟨[], by simp⟩
  | cons c t ih =>
    obtain ⟨u, hu⟩ := ih (addLabel acc c)
    simp only [List.foldl_cons, hu]
    unfold addLabel
    split
    · exact ⟨u, rfl⟩
    · split
      · exact ⟨u, rfl⟩
      · exact ⟨[c] ++ u, by simp⟩

theorem foldl_addLabel_nodup (e : Str) (acc : List Nat) (h : acc.Nodup) :
    (e.foldl addLabel acc).Nodup := by
  induction e generalizing acc with
  | nil => simpa
  | cons c t ih =>
    simp only [List.foldl_cons]
    apply ih
    unfold addLabel
    split
    · exact h
    · split
      · exact h
      · rename_i hc; exact List.Nodup.append h (by simp) (by simpa using hc)

theorem mem_foldl_addLabel (e : Str) (acc : List Nat) (c : Nat) :
    c ∈ e.foldl addLabel acc ↔ c ∈ acc ∨ (c ∈ e ∧ ¬ IsPunct c) := by
  induction e generalizing acc with
  | nil => simp
  | cons x t ih =>
    simp only [List.foldl_cons, ih, List.mem_cons]
    unfold addLabel
    by_cases hp : x ∈ [cDot, cComma, cDash, cGt]
    · rw [if_pos hp]
      rw [isPunct_iff] at hp
      constructor
      · rintro (h | h)
        · exact Or.inl h
        · exact Or.inr ⟨Or.inr h.1, h.2⟩
      · rintro (h | ⟨rfl | h, h'⟩)
        · exact Or.inl h
        · exact absurd hp h'
        · exact Or.inr ⟨h, h'⟩
    · rw [if_neg hp]
      rw [isPunct_iff] at hp
      by_cases hm : x ∈ acc
      · rw [if_pos hm]
        constructor
        · rintro (h | h)
          · exact Or.inl h
          · exact Or.inr ⟨Or.inr h.1, h.2⟩
        · rintro (h | ⟨rfl | h, h'⟩)
          · exact Or.inl h
          · exact Or.inl hm
          · exact Or.inr ⟨h, h'⟩
      · rw [if_neg hm]
        simp only [List.mem_append, List.mem_singleton]
        constructor
        · rintro ((h | h) | h)
          · exact Or.inl h
          · exact Or.inr ⟨Or.inl h, h ▸ hp⟩
          · exact Or.inr ⟨Or.inr h.1, h.2⟩
        · rintro (h | ⟨h | h, h'⟩)
          · exact Or.inl (Or.inl h)
          · exact Or.inl (Or.inr h)
          · exact Or.inr ⟨h, h'⟩

theorem labelsOf_nodup (e : Str) : (labelsOf e).Nodup := foldl_addLabel_nodup e [] List.nodup_nil

theorem mem_labelsOf (e : Str) (c : Nat) : c ∈ labelsOf e ↔ c ∈ labelSet e := by
  unfold labelsOf labelSet
  rw [mem_foldl_addLabel]; simp

/-- Renaming commutes with collecting labels. -/
theorem foldl_addLabel_map (f : Nat → Nat) (e acc : List Nat)
    (hfix : ∀ c, IsPunct c → f c = c) (hlab : ∀ c ∈ e, ¬ IsPunct c → ¬ IsPunct (f c))
    (hinj : ∀ a b, (a ∈ acc ∨ a ∈ e ∧ ¬ IsPunct a) → (b ∈ acc ∨ b ∈ e ∧ ¬ IsPunct b) → f a = f b → a = b) :
    (e.map f).foldl addLabel (acc.map f) = (e.foldl addLabel acc).map f := by
  induction e generalizing acc with
  | nil => simp
  | cons c t ih =>
    simp only [List.map_cons, List.foldl_cons]
    have hstep : addLabel (acc.map f) (f c) = (addLabel acc c).map f := by
      unfold addLabel
      by_cases hp : IsPunct c
      · rw [if_pos ((isPunct_iff _).2 (by rw [hfix c hp]; exact hp)), if_pos ((isPunct_iff _).2 hp)]
      · have h2 := hlab c (by simp) hp
        rw [if_neg (fun h => h2 ((isPunct_iff _).1 h)), if_neg (fun h => hp ((isPunct_iff _).1 h))]
        by_cases hm : c ∈ acc
        · rw [if_pos hm, if_pos (List.mem_map_of_mem hm)]
        · rw [if_neg hm, if_neg]
          · simp
          · intro hx
            obtain ⟨a, ha, hfa⟩ := List.mem_map.1 hx
            have := hinj a c (Or.inl ha) (Or.inr ⟨by simp, hp⟩) hfa
            exact hm (this ▸ ha)
    rw [hstep]
    apply ih
    · intro a ha; exact hlab a (by simp [ha])
    · intro a b ha hb
      have key : ∀ a, (a ∈ addLabel acc c ∨ a ∈ t ∧ ¬ IsPunct a) → (a ∈ acc ∨ a ∈ c :: t ∧ ¬ IsPunct a) := by
        intro a ha
        rcases ha with ha | ha
        · have := (mem_foldl_addLabel [c] acc a).1 ha
          rcases this with h | h
          · exact Or.inl h
          · exact Or.inr ⟨by simp at h; simp [h.1], h.2⟩
        · exact Or.inr ⟨by simp [ha.1], ha.2⟩
      exact hinj a b (key a ha) (key b hb)

theorem labelsOf_map {f : Nat → Nat} {e : Str} (h : Renaming f e) :
    labelsOf (e.map f) = (labelsOf e).map f := by
  unfold labelsOf
  have := foldl_addLabel_map f e [] h.fixes (fun c hc hp => h.labels c ⟨hc, hp⟩)
    (by
      intro a b ha hb hab
      simp only [List.not_mem_nil, false_or] at ha hb
      exact h.inj ha hb hab)
  simpa using this

theorem idxOf?_map_of_inj {f : Nat → Nat} (l : List Nat) (c : Nat)
    (h : ∀ a ∈ l, f a = f c → a = c) : (l.map f).idxOf? (f c) = l.idxOf? c := by
  induction l with
  | nil => rfl
  | cons a t ih =>
    simp only [List.map_cons, List.idxOf?_cons]
    rw [ih (fun a ha => h a (by simp [ha]))]
    by_cases hac : a = c
    · subst hac; simp
    · have : f a ≠ f c := fun hh => hac (h a (by simp) hh)
      have e1 : (f a == f c) = false := by simpa using this
      have e2 : (a == c) = false := by simpa using hac
      rw [e1, e2]

theorem getSymbol_not_isPunct (i : Nat) : ¬ IsPunct (getSymbol i) :=
  fun h => getSymbol_not_punct i ((isPunct_iff _).2 h)

/-- The function that `alpha_canonicalize` applies to each character. -/
def canonFun (e : Str) (x : Nat) : Nat := (((labelsOf e).idxOf? x).map getSymbol).getD x

theorem alphaCanonicalize_eq' (e : Str) : alphaCanonicalize e = e.map (canonFun e) :=
  alphaCanonicalize_eq e

theorem canonFun_punct (e : Str) (c : Nat) (h : IsPunct c) : canonFun e c = c := by
  unfold canonFun
  have : c ∉ labelsOf e := fun hc => ((mem_labelsOf e c).1 hc).2 h
  rw [List.idxOf?_eq_none_iff.2 this]; rfl

theorem canonFun_label (e : Str) (c : Nat) (h : c ∈ labelSet e) :
    ∃ i, (labelsOf e).idxOf? c = some i ∧ (labelsOf e)[i]? = some c ∧ canonFun e c = getSymbol i := by
  have hm := (mem_labelsOf e c).2 h
  have hs := (idxOf?_isSome (labelsOf e) c).2 hm
  obtain ⟨i, hi⟩ := Option.isSome_iff_exists.1 hs
  refine ⟨i, hi, ?_, by unfold canonFun; rw [hi]; rfl⟩
  rw [List.idxOf?_eq_some_iff] at hi
  obtain ⟨hlt, heq, _⟩ := hi
  rw [List.getElem?_eq_getElem hlt, heq]

theorem canon_renaming (e : Str) : Renaming (canonFun e) e where
  fixes := canonFun_punct e
  labels := by
    intro c hc
    obtain ⟨i, _, _, h⟩ := canonFun_label e c hc
    rw [h]; exact getSymbol_not_isPunct i
  inj := by
    intro a ha b hb hab
    obtain ⟨i, _, hi', h1⟩ := canonFun_label e a ha
    obtain ⟨j, _, hj', h2⟩ := canonFun_label e b hb
    rw [h1, h2] at hab
    have := getSymbol_injective hab
    subst this
    rw [hi'] at hj'; exact Option.some.inj hj'

theorem alphaCanonicalize_of_renaming {f : Nat → Nat} {e : Str} (h : Renaming f e) :
    alphaCanonicalize (e.map f) = alphaCanonicalize e := by
  rw [alphaCanonicalize_eq', alphaCanonicalize_eq', List.map_map]
  apply List.map_congr_left
  intro c hc
  simp only [Function.comp]
  by_cases hp : IsPunct c
  · rw [h.fixes c hp, canonFun_punct _ c hp, canonFun_punct _ c hp]
  · have hcl : c ∈ labelSet e := ⟨hc, hp⟩
    unfold canonFun
    rw [labelsOf_map h, idxOf?_map_of_inj]
    · have hs := (idxOf?_isSome (labelsOf e) c).2 ((mem_labelsOf e c).2 hcl)
      obtain ⟨i, hi⟩ := Option.isSome_iff_exists.1 hs
      rw [hi]; rfl
    · intro a ha hfa
      exact h.inj ((mem_labelsOf e a).1 ha) hcl hfa

theorem alphaEq_of_canon_eq {e₁ e₂ : Str} (h : alphaCanonicalize e₁ = alphaCanonicalize e₂) :
    AlphaEq e₁ e₂ := by
  rw [alphaCanonicalize_eq', alphaCanonicalize_eq'] at h
  have hlen : e₁.length = e₂.length := by simpa using congrArg List.length h
  have hpt : ∀ k (h1 : k < e₁.length) (h2 : k < e₂.length), canonFun e₁ e₁[k] = canonFun e₂ e₂[k] := by
    intro k h1 h2
    have := congrArg (fun l => l[k]?) h
    simpa [h1, h2] using this
  let f : Nat → Nat := fun x => match (labelsOf e₁).idxOf? x with
    | some i => (labelsOf e₂).getD i 0
    | none => x
  -- pointwise facts
  have hfk : ∀ k (h1 : k < e₁.length) (h2 : k < e₂.length), e₂[k] = f e₁[k] := by
    intro k h1 h2
    have hk := hpt k h1 h2
    by_cases hp : IsPunct e₁[k]
    · rw [canonFun_punct _ _ hp] at hk
      have hp2 : IsPunct e₂[k] := by
        by_contra hn
        obtain ⟨j, _, _, hj⟩ := canonFun_label e₂ e₂[k] ⟨List.getElem_mem _, hn⟩
        rw [hj] at hk
        exact getSymbol_not_isPunct j (hk ▸ hp)
      rw [canonFun_punct _ _ hp2] at hk
      have : e₁[k] ∉ labelsOf e₁ := fun hc => ((mem_labelsOf e₁ _).1 hc).2 hp
      simp only [f, List.idxOf?_eq_none_iff.2 this]
      exact hk.symm
    · obtain ⟨i, hi, _, hci⟩ := canonFun_label e₁ e₁[k] ⟨List.getElem_mem _, hp⟩
      have hp2 : ¬ IsPunct e₂[k] := by
        intro hn
        rw [canonFun_punct _ _ hn, hci] at hk
        exact getSymbol_not_isPunct i (hk ▸ hn)
      obtain ⟨j, _, hj', hcj⟩ := canonFun_label e₂ e₂[k] ⟨List.getElem_mem _, hp2⟩
      rw [hci, hcj] at hk
      have := getSymbol_injective hk
      subst this
      simp only [f, hi]
      rw [List.getD_eq_getElem?_getD, hj']; rfl
  have hlab : ∀ c ∈ labelSet e₁, ∃ (i d : Nat), (labelsOf e₁)[i]? = some c ∧ (labelsOf e₂)[i]? = some d ∧
      f c = d ∧ d ∈ labelSet e₂ := by
    intro c hc
    obtain ⟨k, hk1, hk⟩ := List.getElem_of_mem hc.1
    have hk2 : k < e₂.length := hlen ▸ hk1
    obtain ⟨i, hi, hi', hci⟩ := canonFun_label e₁ c hc
    have hcan := hpt k hk1 hk2
    rw [hk, hci] at hcan
    have hp2 : ¬ IsPunct e₂[k] := by
      intro hn
      rw [canonFun_punct _ _ hn] at hcan
      exact getSymbol_not_isPunct i (hcan ▸ hn)
    obtain ⟨j, _, hj', hcj⟩ := canonFun_label e₂ e₂[k] ⟨List.getElem_mem _, hp2⟩
    rw [hcj] at hcan
    have := getSymbol_injective hcan
    subst this
    refine ⟨i, e₂[k], hi', hj', ?_, List.getElem_mem _, hp2⟩
    have := hfk k hk1 hk2
    rw [hk] at this
    exact this.symm
  refine ⟨f, ⟨?_, ?_, ?_⟩, ?_⟩
  · intro c hc
    have : c ∉ labelsOf e₁ := fun h => ((mem_labelsOf e₁ _).1 h).2 hc
    simp only [f, List.idxOf?_eq_none_iff.2 this]
  · intro c hc
    obtain ⟨i, d, _, _, hfd, hd⟩ := hlab c hc
    rw [hfd]; exact hd.2
  · intro a ha b hb hab
    obtain ⟨i, d, hi1, hi2, hfd, _⟩ := hlab a ha
    obtain ⟨j, d', hj1, hj2, hfd', _⟩ := hlab b hb
    rw [hfd, hfd'] at hab
    subst hab
    have hij : i = j := by
      have hnd := labelsOf_nodup e₂
      exact (List.getElem?_inj (by
        by_contra hh
        rw [List.getElem?_eq_none (by omega)] at hi2
        cases hi2) hnd).1 (hi2.trans hj2.symm)
    subst hij
    rw [hi1] at hj1; exact Option.some.inj hj1
  · apply List.ext_getElem
    · simpa using hlen.symm
    · intro k h2 h1
      simp only [List.getElem_map]
      exact hfk k (by simpa using h1) h2

end OE.Parser
