import Verif.Props.EndToEnd

/-!
# C89: what the reported figures lie between
-/

namespace OE.Props
open OE OE.Py OE.Spec OE.Parser OE.Contract OE.Paths

/-- All labels of the terms. -/
def labelsOfAll (terms : List (Finset Nat)) : Finset Nat := terms.foldr (· ∪ ·) ∅

theorem mem_allLabels {terms : List (Finset Nat)} {c : Nat} : c ∈ labelsOfAll terms ↔ ∃ t ∈ terms, c ∈ t := by
  unfold labelsOfAll
  induction terms with
  | nil => simp
  | cons a l ih => simp [ih]

theorem mem_of_unselected {α : Type} {l : List α} {p : List Nat} {x : α} (h : x ∈ unselected l p) : x ∈ l := by
  unfold unselected at h
  obtain ⟨i, -, hi⟩ := List.mem_filterMap.mp h
  exact List.mem_of_getElem? hi

theorem labelsAt_sub {terms : List (Finset Nat)} {p : List Nat} : labelsAt terms p ⊆ labelsOfAll terms := by
  intro c hc
  obtain ⟨i, -, s, hs, hcs⟩ := mem_labelsAt.mp hc
  exact mem_allLabels.mpr ⟨s, List.mem_of_getElem? hs, hcs⟩

theorem kept_sub {out : Finset Nat} {terms : List (Finset Nat)} {p : List Nat} : keptLabels out terms p ⊆ labelsAt terms p :=
  Finset.filter_subset _ _

theorem after_sub {out : Finset Nat} {terms : List (Finset Nat)} {p : List Nat} : labelsOfAll (afterStep out terms p) ⊆ labelsOfAll terms := by
  intro c hc
  obtain ⟨t, ht, hct⟩ := mem_allLabels.mp hc
  rcases List.mem_append.mp ht with h | h
  · exact mem_allLabels.mpr ⟨t, mem_of_unselected h, hct⟩
  · rw [List.mem_singleton] at h
    subst h
    exact labelsAt_sub (kept_sub hct)

/-- A label that a step removes is gone. -/
theorem removed_gone {out : Finset Nat} {terms : List (Finset Nat)} {p : List Nat} {c : Nat} (h1 : c ∈ labelsAt terms p)
    (h2 : c ∉ keptLabels out terms p) : c ∉ out ∧ c ∉ labelsOfAll (afterStep out terms p) := by
  have h3 : ¬ (c ∈ out ∨ ∃ t ∈ unselected terms p, c ∈ t) := fun h => h2 (Finset.mem_filter.mpr ⟨h1, h⟩)
  refine ⟨fun h => h3 (Or.inl h), fun h => ?_⟩
  obtain ⟨t, ht, hct⟩ := mem_allLabels.mp h
  rcases List.mem_append.mp ht with h | h
  · exact h3 (Or.inr ⟨t, h, hct⟩)
  · rw [List.mem_singleton] at h
    subst h
    exact h2 hct

theorem after_length {out : Finset Nat} {terms : List (Finset Nat)} {p : List Nat} (hv : ValidStep terms.length p) :
    (afterStep out terms p).length = terms.length + 1 - p.length := by
  have h := unselected_length hv.2.1 hv.2.2
  have h2 : p.length ≤ terms.length := by
    have := (hv.2.1.subperm (fun x hx => List.mem_range.mpr (hv.2.2 x hx)) : p.Subperm (List.range terms.length)).length_le
    simpa using this
  unfold afterStep
  rw [List.length_append, List.length_singleton]
  omega

theorem step_le_length {n : Nat} {p : List Nat} (hv : ValidStep n p) : p.length ≤ n := by
  have := (hv.2.1.subperm (fun x hx => List.mem_range.mpr (hv.2.2 x hx)) : p.Subperm (List.range n)).length_le
  simpa using this

section Cost
variable {size : Nat → Nat} {out : Finset Nat}

theorem prod_mono {a b : Finset Nat} (h : a ⊆ b) (hs : ∀ c ∈ b, 1 ≤ size c) : ∏ c ∈ a, size c ≤ ∏ c ∈ b, size c :=
  Finset.prod_le_prod_of_subset_of_one_le' h (fun c hc _ => hs c hc)

/-- A path whose steps join at least two operands costs at most the product of all sizes for each operand. -/
theorem cost_le_all (path : List (List Nat)) (terms : List (Finset Nat)) (hv : ValidPath terms.length path)
    (h2 : ∀ p ∈ path, 2 ≤ p.length) (hs : ∀ c ∈ labelsOfAll terms, 1 ≤ size c)
    (hs2 : ∀ c ∈ labelsOfAll terms, c ∉ out → 2 ≤ size c) :
    ((planFigures size out terms path).map StepFigures.flops).sum ≤ terms.length * ∏ c ∈ labelsOfAll terms, size c := by
  induction path generalizing terms with
  | nil => simp [planFigures]
  | cons p ps ih =>
    obtain ⟨hv1, hv2⟩ := hv
    have hk := h2 p (by simp)
    have hkn := step_le_length hv1
    have hal := after_length (out := out) hv1
    have hU' : labelsOfAll (afterStep out terms p) ⊆ labelsOfAll terms := after_sub
    have hih := ih (afterStep out terms p) (by rw [hal]; exact hv2) (fun q hq => h2 q (by simp [hq]))
      (fun c hc => hs c (hU' hc)) (fun c hc => hs2 c (hU' hc))
    simp only [planFigures, List.map_cons, List.sum_cons]
    have hL : ∏ c ∈ labelsAt terms p, size c ≤ ∏ c ∈ labelsOfAll terms, size c := prod_mono labelsAt_sub hs
    have hA : ∏ c ∈ labelsOfAll (afterStep out terms p), size c ≤ ∏ c ∈ labelsOfAll terms, size c := prod_mono hU' hs
    have hmax : max 1 (p.length - 1) = p.length - 1 := by omega
    rw [hal] at hih
    unfold stepFlops
    rw [hmax]
    split
    · rename_i he
      have h1 : (∏ c ∈ labelsAt terms p, size c) * (p.length - 1 + 0) ≤ (∏ c ∈ labelsOfAll terms, size c) * (p.length - 1) := by
        rw [Nat.add_zero]; exact Nat.mul_le_mul_right _ hL
      have h3 : (terms.length + 1 - p.length) * ∏ c ∈ labelsOfAll (afterStep out terms p), size c ≤
          (terms.length + 1 - p.length) * ∏ c ∈ labelsOfAll terms, size c := Nat.mul_le_mul_left _ hA
      have h4 : terms.length = (p.length - 1) + (terms.length + 1 - p.length) := by omega
      calc _ ≤ (∏ c ∈ labelsOfAll terms, size c) * (p.length - 1) + (terms.length + 1 - p.length) * ∏ c ∈ labelsOfAll terms, size c := by omega
        _ = ((p.length - 1) + (terms.length + 1 - p.length)) * ∏ c ∈ labelsOfAll terms, size c := by ring
        _ = terms.length * ∏ c ∈ labelsOfAll terms, size c := by rw [← h4]
    · rename_i he
      obtain ⟨c, hc1, hc2⟩ : ∃ c ∈ labelsAt terms p, c ∉ keptLabels out terms p := by
        by_contra hno
        push Not at hno
        exact he (Finset.Subset.antisymm hno kept_sub)
      obtain ⟨hco, hca⟩ := removed_gone hc1 hc2
      have hc3 := labelsAt_sub hc1
      have hhalf : 2 * ∏ c ∈ labelsOfAll (afterStep out terms p), size c ≤ ∏ c ∈ labelsOfAll terms, size c := by
        have h5 : ∏ c ∈ insert c (labelsOfAll (afterStep out terms p)), size c ≤ ∏ c ∈ labelsOfAll terms, size c :=
          prod_mono (Finset.insert_subset hc3 hU') hs
        rw [Finset.prod_insert hca] at h5
        exact le_trans (Nat.mul_le_mul_right _ (hs2 c hc3 hco)) h5
      have h1 : (∏ c ∈ labelsAt terms p, size c) * (p.length - 1 + 1) ≤ (∏ c ∈ labelsOfAll terms, size c) * p.length := by
        rw [Nat.sub_add_cancel (by omega)]; exact Nat.mul_le_mul_right _ hL
      by_cases hlast : p.length = terms.length
      · have hnil : ps = [] := by
          cases ps with
          | nil => rfl
          | cons q qs =>
            have hq := step_le_length hv2.1
            have := h2 q (by simp)
            omega
        subst hnil
        simp only [planFigures, List.map_nil, List.sum_nil, Nat.add_zero]
        rw [← hlast]
        calc _ ≤ _ := h1
          _ = _ := by ring
      · obtain ⟨m, hm⟩ : ∃ m, terms.length = p.length + 1 + m := ⟨terms.length - p.length - 1, by omega⟩
        have h6 : terms.length + 1 - p.length = m + 2 := by omega
        rw [h6] at hih
        rw [hm]
        have h7 : (m + 2) * ∏ c ∈ labelsOfAll (afterStep out terms p), size c ≤ (m + 1) * ∏ c ∈ labelsOfAll terms, size c := by
          calc (m + 2) * ∏ c ∈ labelsOfAll (afterStep out terms p), size c
              ≤ (m + 1) * (2 * ∏ c ∈ labelsOfAll (afterStep out terms p), size c) := by
                rw [← mul_assoc]; exact Nat.mul_le_mul_right _ (by omega)
            _ ≤ _ := Nat.mul_le_mul_left _ hhalf
        calc _ ≤ (∏ c ∈ labelsOfAll terms, size c) * p.length + (m + 1) * ∏ c ∈ labelsOfAll terms, size c := by omega
          _ = _ := by ring

/-- If nothing is summed, one product for each operand but one. -/
theorem cost_le_nosum (path : List (List Nat)) (terms : List (Finset Nat)) (hv : ValidPath terms.length path)
    (h2 : ∀ p ∈ path, 2 ≤ p.length) (hs : ∀ c ∈ labelsOfAll terms, 1 ≤ size c) (ho : ∀ c ∈ labelsOfAll terms, c ∈ out) :
    ((planFigures size out terms path).map StepFigures.flops).sum ≤ (terms.length - 1) * ∏ c ∈ labelsOfAll terms, size c := by
  induction path generalizing terms with
  | nil => simp [planFigures]
  | cons p ps ih =>
    obtain ⟨hv1, hv2⟩ := hv
    have hk := h2 p (by simp)
    have hkn := step_le_length hv1
    have hal := after_length (out := out) hv1
    have hU' : labelsOfAll (afterStep out terms p) ⊆ labelsOfAll terms := after_sub
    have hih := ih (afterStep out terms p) (by rw [hal]; exact hv2) (fun q hq => h2 q (by simp [hq]))
      (fun c hc => hs c (hU' hc)) (fun c hc => ho c (hU' hc))
    simp only [planFigures, List.map_cons, List.sum_cons]
    have hL : ∏ c ∈ labelsAt terms p, size c ≤ ∏ c ∈ labelsOfAll terms, size c := prod_mono labelsAt_sub hs
    have hA : ∏ c ∈ labelsOfAll (afterStep out terms p), size c ≤ ∏ c ∈ labelsOfAll terms, size c := prod_mono hU' hs
    have hmax : max 1 (p.length - 1) = p.length - 1 := by omega
    rw [hal] at hih
    unfold stepFlops
    have hkeep : labelsAt terms p = keptLabels out terms p :=
      Finset.Subset.antisymm (fun c hc => Finset.mem_filter.mpr ⟨hc, Or.inl (ho c (labelsAt_sub hc))⟩) kept_sub
    rw [hmax, if_pos hkeep]
    have h1 : (∏ c ∈ labelsAt terms p, size c) * (p.length - 1 + 0) ≤ (∏ c ∈ labelsOfAll terms, size c) * (p.length - 1) := by
      rw [Nat.add_zero]; exact Nat.mul_le_mul_right _ hL
    have h3 : (terms.length + 1 - p.length - 1) * ∏ c ∈ labelsOfAll (afterStep out terms p), size c ≤
        (terms.length + 1 - p.length - 1) * ∏ c ∈ labelsOfAll terms, size c := Nat.mul_le_mul_left _ hA
    have h4 : terms.length - 1 = (p.length - 1) + (terms.length + 1 - p.length - 1) := by omega
    calc _ ≤ (∏ c ∈ labelsOfAll terms, size c) * (p.length - 1) + (terms.length + 1 - p.length - 1) * ∏ c ∈ labelsOfAll terms, size c := by omega
      _ = ((p.length - 1) + (terms.length + 1 - p.length - 1)) * ∏ c ∈ labelsOfAll terms, size c := by ring
      _ = (terms.length - 1) * ∏ c ∈ labelsOfAll terms, size c := by rw [← h4]

/-- The array that a step makes is no larger than the number of operations of that step. -/
theorem elements_le_cost (path : List (List Nat)) (terms : List (Finset Nat)) (hs : ∀ c ∈ labelsOfAll terms, 1 ≤ size c) :
    ∀ x ∈ (planFigures size out terms path).map StepFigures.elements,
      x ≤ ((planFigures size out terms path).map StepFigures.flops).sum := by
  induction path generalizing terms with
  | nil => simp [planFigures]
  | cons p ps ih =>
    have hU' : labelsOfAll (afterStep out terms p) ⊆ labelsOfAll terms := after_sub
    have hih := ih (afterStep out terms p) (fun c hc => hs c (hU' hc))
    intro x hx
    simp only [planFigures, List.map_cons, List.sum_cons, List.mem_cons] at hx ⊢
    rcases hx with rfl | hx
    · have h1 : ∏ c ∈ keptLabels out terms p, size c ≤ ∏ c ∈ labelsAt terms p, size c :=
        prod_mono kept_sub (fun c hc => hs c (labelsAt_sub hc))
      have h2 : (∏ c ∈ labelsAt terms p, size c) * 1 ≤ stepFlops size (labelsAt terms p) (keptLabels out terms p) p.length :=
        Nat.mul_le_mul_left _ (by omega)
      omega
    · have := hih x hx
      omega

/-- A complete path ends with an array of the output's labels. -/
theorem output_in_elements (path : List (List Nat)) (terms : List (Finset Nat)) (hv : CompletePath terms.length path)
    (ho : ∀ c ∈ out, c ∈ labelsOfAll terms) :
    ∏ c ∈ out, size c ∈ (planFigures size out terms path).map StepFigures.elements := by
  induction path generalizing terms with
  | nil => exact absurd hv (by simp [CompletePath])
  | cons p ps ih =>
    simp only [planFigures, List.map_cons, List.mem_cons]
    cases ps with
    | nil =>
      left
      obtain ⟨hv1, hv2⟩ := hv
      have hall : ∀ i < terms.length, i ∈ p := by
        intro i hi
        have hsub : p.Subperm (List.range terms.length) := hv1.2.1.subperm (fun x hx => List.mem_range.mpr (hv1.2.2 x hx))
        have := hsub.perm_of_length_le (by simp [hv2])
        exact this.mem_iff.mpr (List.mem_range.mpr hi)
      have : keptLabels out terms p = out := by
        ext c
        unfold keptLabels
        rw [Finset.mem_filter, unselected_all _ hall]
        constructor
        · rintro ⟨-, h | ⟨t, ht, -⟩⟩
          · exact h
          · simp at ht
        · intro hc
          refine ⟨?_, Or.inl hc⟩
          obtain ⟨t, ht, hct⟩ := mem_allLabels.mp (ho c hc)
          obtain ⟨i, hi, rfl⟩ := List.getElem_of_mem ht
          exact mem_labelsAt.mpr ⟨i, hall i hi, _, List.getElem?_eq_getElem hi, hct⟩
      rw [this]
    | cons q qs =>
      right
      obtain ⟨hv1, hv2⟩ := hv
      refine ih (afterStep out terms p) (by rw [after_length hv1]; exact hv2) (fun c hc => ?_)
      obtain ⟨t, ht, hct⟩ := mem_allLabels.mp (ho c hc)
      by_cases h : ∃ u ∈ unselected terms p, c ∈ u
      · obtain ⟨u, hu, hcu⟩ := h
        exact mem_allLabels.mpr ⟨u, List.mem_append_left _ hu, hcu⟩
      · refine mem_allLabels.mpr ⟨keptLabels out terms p, List.mem_append_right _ (by simp), Finset.mem_filter.mpr ⟨?_, Or.inl hc⟩⟩
        obtain ⟨i, hi, rfl⟩ := List.getElem_of_mem ht
        by_cases hip : i ∈ p
        · exact mem_labelsAt.mpr ⟨i, hip, _, List.getElem?_eq_getElem hi, hct⟩
        · exfalso
          refine h ⟨terms[i], ?_, hct⟩
          unfold unselected
          exact List.mem_filterMap.mpr ⟨i, List.mem_filter.mpr ⟨List.mem_range.mpr hi, by simpa using hip⟩, List.getElem?_eq_getElem hi⟩

end Cost

/-- A label occurs in two of the terms. -/
def SharesLabel (inputs : List Str) : Prop :=
  ∃ (i j : Nat) (s t : Str) (c : Nat), i ≠ j ∧ inputs[i]? = some s ∧ inputs[j]? = some t ∧ c ∈ s ∧ c ∈ t

theorem allLabels_inputs (inputs : List Str) : labelsOfAll (inputs.map List.toFinset) = inputs.flatten.toFinset := by
  ext c
  rw [mem_allLabels, List.mem_toFinset, List.mem_flatten]
  constructor
  · rintro ⟨t, ht, hc⟩
    obtain ⟨s, hs, rfl⟩ := List.mem_map.mp ht
    exact ⟨s, hs, by simpa using hc⟩
  · rintro ⟨s, hs, hc⟩
    exact ⟨s.toFinset, List.mem_map.mpr ⟨s, hs, rfl⟩, by simpa using hc⟩

/-- C89: what `contract_path` reports for a complete path: the largest intermediate is at least as large as the result and at most the
number of operations, if no axis has length 0. -/
theorem C89_largest_intermediate {size : Nat → Nat} {inputs : List Str} {output : Str} {shapes : List Shape} {opt : Optimize} {mem : MemLimit}
    {useBlas : Bool} {info : PathInfo} (hlen : inputs.length = shapes.length) (hsize : ∀ c s, IsLabelSize inputs shapes c s → size c = s)
    (hout : output.Nodup ∧ ∀ c ∈ output, ∃ t ∈ inputs, c ∈ t)
    (h : contractPath inputs output shapes opt mem useBlas = .ok info) (hv : CompletePath inputs.length info.path) :
    (output.map size).prod ≤ info.largestIntermediate ∧
    ((∀ t ∈ inputs, ∀ c ∈ t, 1 ≤ size c) → info.largestIntermediate ≤ info.optCost) := by
  obtain ⟨h1, -, h3, h4, h5, -⟩ := C05_path_info size inputs output shapes opt mem useBlas info hlen hsize h (completePath_valid hv)
  have hne : info.path ≠ [] := by
    intro e
    rw [e] at hv
    exact hv
  constructor
  · have hm := output_in_elements (size := size) (out := output.toFinset) info.path (inputs.map List.toFinset) (by simpa using hv) (by
      intro c hc
      rw [allLabels_inputs, List.mem_toFinset, List.mem_flatten]
      exact hout.2 c (by simpa using hc))
    rw [← h3, List.prod_toFinset _ hout.1] at hm
    exact h4 _ hm
  · intro hs
    rw [h1]
    apply elements_le_cost
    · intro c hc
      rw [allLabels_inputs, List.mem_toFinset, List.mem_flatten] at hc
      obtain ⟨t, ht, hct⟩ := hc
      exact hs t ht c hct
    · rw [← h3]; exact h5 hne

/-- C89: the reported speedup is at least 1: no path whose steps join two or more operands costs more than what is reported for doing
everything in one step, if summed axes have a length of at least 2, others of at least 1, and two operands share a label or nothing is
summed. -/
theorem C89_speedup {size : Nat → Nat} {inputs : List Str} {output : Str} {shapes : List Shape} {opt : Optimize} {mem : MemLimit}
    {useBlas : Bool} {info : PathInfo} (hlen : inputs.length = shapes.length) (hsize : ∀ c s, IsLabelSize inputs shapes c s → size c = s)
    (hpos : ∀ t ∈ inputs, ∀ c ∈ t, 1 ≤ size c) (htwo : ∀ t ∈ inputs, ∀ c ∈ t, c ∉ output → 2 ≤ size c)
    (hshare : SharesLabel inputs ∨ ∀ t ∈ inputs, ∀ c ∈ t, c ∈ output)
    (h : contractPath inputs output shapes opt mem useBlas = .ok info) (hv : ValidPath inputs.length info.path)
    (hjoin : ∀ p ∈ info.path, 2 ≤ p.length) : info.optCost ≤ info.naiveCost := by
  obtain ⟨h1, -, -, -, -, h6⟩ := C05_path_info size inputs output shapes opt mem useBlas info hlen hsize h hv
  have hmem : ∀ c ∈ labelsOfAll (inputs.map List.toFinset), ∃ t ∈ inputs, c ∈ t := by
    intro c hc
    rw [allLabels_inputs, List.mem_toFinset, List.mem_flatten] at hc
    exact hc
  have hs : ∀ c ∈ labelsOfAll (inputs.map List.toFinset), 1 ≤ size c := by
    intro c hc
    obtain ⟨t, ht, hct⟩ := hmem c hc
    exact hpos t ht c hct
  rw [h1, h6]
  unfold naiveFlops
  rw [← allLabels_inputs]
  rcases hshare with ⟨i, j, s, t, c, hij, hi, hj, hcs, hct⟩ | ho
  · obtain ⟨hi', rfl⟩ := List.getElem?_eq_some_iff.mp hi
    obtain ⟨hj', rfl⟩ := List.getElem?_eq_some_iff.mp hj
    rw [if_pos ⟨⟨i, hi'⟩, ⟨j, hj'⟩, by simpa using hij, c, hcs, hct⟩]
    have := cost_le_all (size := size) (out := output.toFinset) info.path (inputs.map List.toFinset) (by simpa using hv) hjoin hs (by
      intro c hc hco
      obtain ⟨t, ht, hct⟩ := hmem c hc
      exact htwo t ht c hct (by simpa using hco))
    rw [List.length_map] at this
    refine le_trans this ?_
    rw [mul_comm]
    exact Nat.mul_le_mul_left _ (by omega)
  · have := cost_le_nosum (size := size) (out := output.toFinset) info.path (inputs.map List.toFinset) (by simpa using hv) hjoin hs (by
      intro c hc
      obtain ⟨t, ht, hct⟩ := hmem c hc
      simpa using ho t ht c hct)
    rw [List.length_map] at this
    refine le_trans this ?_
    rw [mul_comm]
    exact Nat.mul_le_mul_left _ (by omega)

-- the hypotheses of both theorems hold for 'ab,bc,cd->ad' with sizes 2, 3, 4, 5
example : (contractPath [S "ab", S "bc", S "cd"] (S "ad") [[2, 3], [3, 4], [4, 5]] (.path [[1, 2], [0, 1]]) .none true).map
    (fun i => (i.largestIntermediate, i.optCost, i.naiveCost)) = .ok (15, 180, 360) := by decide +kernel
-- the bound on the speedup is attained: matrix product in two ways, 'ab,bc->ac'
example : (contractPath [S "ab", S "bc"] (S "ac") [[2, 3], [3, 4]] (.path [[0, 1]]) .none true).map
    (fun i => (i.largestIntermediate, i.optCost, i.naiveCost)) = .ok (8, 48, 48) := by decide +kernel

/-- C89, the conditions of the second theorem are needed: 'ab,bc,cd->ad' with b, c and d of length 1, 'a,b->' with sizes 2 (nothing shared), and a
path with a step for one operand cost more than what is reported for one step. -/
theorem C89_counterexample :
    (contractPath [S "ab", S "bc", S "cd"] (S "ad") [[2, 1], [1, 1], [1, 1]] (.path [[0, 1], [0, 1]]) .none true).map
      (fun i => (i.optCost, i.naiveCost)) = .ok (8, 6) ∧
    (contractPath [S "a", S "b"] [] [[2], [2]] (.path [[0, 1]]) .none true).map (fun i => (i.optCost, i.naiveCost)) = .ok (8, 4) ∧
    (contractPath [S "ab", S "bc"] (S "ac") [[2, 3], [3, 4]] (.path [[0], [0, 1]]) .none true).map (fun i => (i.optCost, i.naiveCost)) =
      .ok (54, 48) := by
  refine ⟨?_, ?_, ?_⟩ <;> decide +kernel

/-- The docstring of `contract` (contract.py:568-569) says that by default the worst intermediate formed will be equal to that of the largest input
array. With the defaults of `optimize` and `memory_limit` it may be larger: 'ab,ac,ad->bcd' with axes of size 2 has operands of 4 elements, and the
intermediate formed has 8. -/
theorem C89_counterexample_default :
    (contractPath [S "ab", S "ac", S "ad"] (S "bcd") [[2, 2], [2, 2], [2, 2]]
      (Registry.resolve asciiLower (optionFns exampleEnv Registry.pathOptions) (.name (S "auto"))) .none true).map (fun i => (i.path, i.sizeList)) =
      .ok ([[0, 1], [0, 1]], [8, 8]) := by
  decide +kernel

end OE.Props
