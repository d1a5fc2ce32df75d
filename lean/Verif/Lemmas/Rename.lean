import Verif.Lemmas.Spec

/-! The Einstein summation does not depend on the names of the labels. -/

namespace OE
open OE.Py OE.Spec
variable {R : Type} [CommSemiring R] {κ : Type} [DecidableEq κ]

theorem idxOf_map_label {f : κ → Nat} {S : Set κ} (hf : Set.InjOn f S) {l : List κ} (hl : ∀ c ∈ l, c ∈ S) {c : κ} (hc : c ∈ S) :
    (l.map f).idxOf (f c) = l.idxOf c := by
  induction l with
  | nil => rfl
  | cons a t ih =>
    rw [List.map_cons, List.idxOf_cons, List.idxOf_cons]
    by_cases h : a = c
    · subst h; simp
    · have : f a ≠ f c := fun e => h (hf (hl a (by simp)) hc e)
      simp only [beq_eq_false_iff_ne.mpr h, beq_eq_false_iff_ne.mpr this, cond_false]
      rw [ih (fun c hc => hl c (by simp [hc]))]

theorem mem_summed {inputs : List (List κ)} {output : List κ} {c : κ} :
    c ∈ summed inputs output ↔ (∃ t ∈ inputs, c ∈ t) ∧ c ∉ output := by
  unfold summed
  rw [Finset.mem_sdiff, List.mem_toFinset, List.mem_flatten, List.mem_toFinset]

/-- An Einstein summation of the equation with the labels renamed injectively is one of the equation. -/
theorem isEinsum_of_rename {f : κ → Nat} {inputs : List (List κ)} {output : List κ} {ops : List (Tensor R)} {T : Tensor R}
    {size : κ → Nat} {size' : Nat → Nat} (hf : Set.InjOn f {c | ∃ t ∈ inputs, c ∈ t}) (hsub : ∀ c ∈ output, ∃ t ∈ inputs, c ∈ t)
    (hs : ∀ c, (∃ t ∈ inputs, c ∈ t) → size' (f c) = size c)
    (h : IsEinsum size' (inputs.map (List.map f)) (output.map f) ops T) : IsEinsum size inputs output ops T := by
  obtain ⟨h1, h2⟩ := h
  refine ⟨?_, ?_⟩
  · rw [h1, List.map_map]
    exact List.map_congr_left (fun c hc => hs c (hsub c hc))
  intro coords hlen hin
  rw [h2 coords (by simpa using hlen) (by
    intro i c x hc hx
    rw [List.getElem?_map, Option.map_eq_some_iff] at hc
    obtain ⟨k, hk, rfl⟩ := hc
    rw [hs k (hsub k (List.mem_of_getElem? hk))]
    exact hin i k x hk hx)]
  have hmem : ∀ c, c ∈ summed inputs output → f c ∈ summed (inputs.map (List.map f)) (output.map f) := by
    intro c hc
    rw [mem_summed] at hc ⊢
    obtain ⟨⟨t, ht, hct⟩, ho⟩ := hc
    refine ⟨⟨t.map f, List.mem_map_of_mem ht, List.mem_map_of_mem hct⟩, ?_⟩
    intro hm
    obtain ⟨y, hy, he⟩ := List.mem_map.mp hm
    have := hf (hsub y hy) ⟨t, ht, hct⟩ he
    subst this
    exact ho hy
  let g : {c // c ∈ summed inputs output} → {c // c ∈ summed (inputs.map (List.map f)) (output.map f)} := fun c => ⟨f c.1, hmem c.1 c.2⟩
  have hbij : Function.Bijective g := by
    constructor
    · rintro ⟨a, ha⟩ ⟨b, hb⟩ hab
      have : f a = f b := congrArg Subtype.val hab
      exact Subtype.ext (hf (mem_summed.mp ha).1 (mem_summed.mp hb).1 this)
    · rintro ⟨c', hc'⟩
      rw [mem_summed] at hc'
      obtain ⟨⟨t', ht', hct'⟩, ho'⟩ := hc'
      obtain ⟨t, ht, rfl⟩ := List.mem_map.mp ht'
      obtain ⟨c, hc, rfl⟩ := List.mem_map.mp hct'
      exact ⟨⟨c, mem_summed.mpr ⟨⟨t, ht, hc⟩, fun ho => ho' (List.mem_map_of_mem ho)⟩⟩, rfl⟩
  let e := Equiv.ofBijective g hbij
  have hsz : ∀ c : {c // c ∈ summed inputs output}, size c.1 = size' (e c).1 := fun c => (hs c.1 (mem_summed.mp c.2).1).symm
  symm
  apply Fintype.sum_equiv (Equiv.piCongr e (fun c => finCongr (hsz c)))
  intro v
  rw [List.zip_map_left, List.map_map]
  congr 1
  apply List.map_congr_left
  rintro ⟨t, A⟩ hp
  have ht : t ∈ inputs := (List.of_mem_zip hp).1
  simp only [Function.comp, Prod.map, id]
  unfold operandEntry
  congr 1
  rw [List.zip_map_left, List.map_map]
  apply List.map_congr_left
  rintro ⟨c, d⟩ hcd
  have hct : c ∈ t := (List.of_mem_zip hcd).1
  simp only [Function.comp, Prod.map, id]
  split
  · rfl
  unfold labelValue
  by_cases hc : c ∈ summed inputs output
  · rw [dif_pos hc, dif_pos (hmem c hc)]
    have := Equiv.piCongr_apply_apply (W := fun c : {c // c ∈ summed inputs output} => Fin (size c.1))
      (Z := fun c : {c // c ∈ summed (inputs.map (List.map f)) (output.map f)} => Fin (size' c.1)) e (fun c => finCongr (hsz c)) v ⟨c, hc⟩
    have hval := congrArg Fin.val this
    simp only [finCongr_apply, Fin.val_cast] at hval
    exact hval.symm
  · have hn : f c ∉ summed (inputs.map (List.map f)) (output.map f) := by
      intro hm
      have ho : c ∈ output := by
        by_contra ho
        exact hc (mem_summed.mpr ⟨⟨t, ht, hct⟩, ho⟩)
      exact (mem_summed.mp hm).2 (List.mem_map_of_mem ho)
    rw [dif_neg hc, dif_neg hn, idxOf_map_label hf hsub ⟨t, ht, hct⟩]

omit [DecidableEq κ] in
theorem dimOccurs_rename {f : κ → Nat} {inputs : List (List κ)} {shapes : List Shape} {c' d : Nat} :
    DimOccurs (inputs.map (List.map f)) shapes c' d ↔ ∃ c, f c = c' ∧ DimOccurs inputs shapes c d := by
  unfold DimOccurs
  constructor
  · rintro ⟨i, j, t, s, h1, h2, h3, h4⟩
    rw [List.getElem?_map, Option.map_eq_some_iff] at h1
    obtain ⟨t0, ht0, rfl⟩ := h1
    rw [List.getElem?_map, Option.map_eq_some_iff] at h3
    obtain ⟨c, hc, rfl⟩ := h3
    exact ⟨c, rfl, i, j, t0, s, ht0, h2, hc, h4⟩
  · rintro ⟨c, rfl, i, j, t, s, h1, h2, h3, h4⟩
    exact ⟨i, j, t.map f, s, by simp [h1], h2, by simp [h3], h4⟩

omit [DecidableEq κ] in
theorem dimOccurs_mem {inputs : List (List κ)} {shapes : List Shape} {c : κ} {d : Nat} (h : DimOccurs inputs shapes c d) :
    ∃ t ∈ inputs, c ∈ t := by
  obtain ⟨i, j, t, s, h1, h2, h3, h4⟩ := h
  exact ⟨t, List.mem_of_getElem? h1, List.mem_of_getElem? h3⟩

omit [DecidableEq κ] in
/-- Operands that fit the equation fit the equation with the labels renamed injectively. -/
theorem operandsFit_rename {f : κ → Nat} {inputs : List (List κ)} {shapes : List Shape} {size : κ → Nat} {size' : Nat → Nat}
    (hf : Set.InjOn f {c | ∃ t ∈ inputs, c ∈ t}) (hs : ∀ c, (∃ t ∈ inputs, c ∈ t) → size' (f c) = size c)
    (h : OperandsFit size inputs shapes) : OperandsFit size' (inputs.map (List.map f)) shapes := by
  have hinj : ∀ {a b d d'}, DimOccurs inputs shapes a d → DimOccurs inputs shapes b d' → f a = f b → a = b :=
    fun ha hb e => hf (dimOccurs_mem ha) (dimOccurs_mem hb) e
  refine ⟨?_, ?_, ?_, ?_⟩
  · intro i t s ht hsh
    rw [List.getElem?_map, Option.map_eq_some_iff] at ht
    obtain ⟨t0, ht0, rfl⟩ := ht
    simpa using h.rank i t0 s ht0 hsh
  · intro t ht c hc
    obtain ⟨t0, ht0, rfl⟩ := List.mem_map.mp ht
    obtain ⟨k, hk, rfl⟩ := List.mem_map.mp hc
    obtain ⟨h1, h2⟩ := h.size t0 ht0 k hk
    rw [hs k ⟨t0, ht0, hk⟩]
    refine ⟨dimOccurs_rename.mpr ⟨k, rfl, h1⟩, ?_⟩
    intro d hd
    obtain ⟨k', hk', hd'⟩ := dimOccurs_rename.mp hd
    have := hinj hd' h1 hk'
    subst this
    exact h2 d hd'
  · intro i j k t s c d d' ht hsh hj hk hd hd'
    rw [List.getElem?_map, Option.map_eq_some_iff] at ht
    obtain ⟨t0, ht0, rfl⟩ := ht
    rw [List.getElem?_map, Option.map_eq_some_iff] at hj hk
    obtain ⟨a, ha, rfl⟩ := hj
    obtain ⟨b, hb, hab⟩ := hk
    have hmem := List.mem_of_getElem? ht0
    have := hf (⟨t0, hmem, List.mem_of_getElem? hb⟩ : b ∈ {c | ∃ t ∈ inputs, c ∈ t}) ⟨t0, hmem, List.mem_of_getElem? ha⟩ hab
    subst this
    exact h.diag i j k t0 s b d d' ht0 hsh ha hb hd hd'
  · rintro c ⟨h0, h1⟩
    obtain ⟨a, ha, h0⟩ := dimOccurs_rename.mp h0
    obtain ⟨b, hb, h1⟩ := dimOccurs_rename.mp h1
    have := hinj h0 h1 (ha.trans hb.symm)
    subst this
    exact h.nzo a ⟨h0, h1⟩

end OE
