import Verif.Lemmas.ContractLoop
import Verif.Spec.Einsum
import Mathlib.Algebra.BigOperators.Fin

/-! The iterated sums of the model equal the explicit formula of the specification. -/

namespace OE.Contract
open OE OE.Py OE.Parser OE.Helpers OE.Blas OE.Spec OE.Props
variable {R : Type} [CommSemiring R]

/-- Summing over a list of labels, as one sum over all assignments. -/
theorem sumOver_eq_sum (size : Nat → Nat) (l : List Nat) (hn : l.Nodup) (f : (Nat → Nat) → R) (env : Nat → Nat) :
    sumOver size l f env = ∑ v : ((c : {c // c ∈ l}) → Fin (size c)), f (fun c => if h : c ∈ l then (v ⟨c, h⟩).val else env c) := by
  induction l generalizing env with
  | nil =>
    simp only [sumOver]
    have : IsEmpty {c : Nat // c ∈ ([] : List Nat)} := ⟨fun c => by simpa using c.2⟩
    rw [Fintype.sum_unique]
    simp
  | cons a l ih =>
    rw [List.nodup_cons] at hn
    simp only [sumOver]
    have h1 : ∀ i ∈ Finset.range (size a), sumOver size l f (upd env a i) =
        ∑ v : ((c : {c // c ∈ l}) → Fin (size c)), f (fun c => if h : c ∈ l then (v ⟨c, h⟩).val else upd env a i c) :=
      fun i _ => ih hn.2 (upd env a i)
    rw [Finset.sum_congr rfl h1, Finset.sum_range]
    rw [← Fintype.sum_prod_type']
    refine Fintype.sum_bijective
      (fun p : Fin (size a) × ((c : {c // c ∈ l}) → Fin (size c)) => fun c : {c // c ∈ a :: l} =>
        if h : c.1 = a then (Fin.cast (by rw [h]) p.1 : Fin (size c)) else p.2 ⟨c.1, (List.mem_cons.mp c.2).resolve_left h⟩) ?_ _ _ ?_
    · constructor
      · rintro ⟨i, v⟩ ⟨j, w⟩ h
        simp only at h
        have h0 := congrFun h ⟨a, by simp⟩
        simp only [dif_pos] at h0
        have hij : i = j := by
          apply Fin.ext
          have := congrArg Fin.val h0
          simpa using this
        subst hij
        congr 1
        funext c
        have hc := congrFun h ⟨c.1, List.mem_cons_of_mem _ c.2⟩
        have hne : c.1 ≠ a := fun e => hn.1 (e ▸ c.2)
        simp only [dif_neg hne] at hc
        exact hc
      · intro w
        refine ⟨(w ⟨a, by simp⟩, fun c => w ⟨c.1, List.mem_cons_of_mem _ c.2⟩), ?_⟩
        funext c
        simp only
        split
        · rename_i h
          obtain ⟨c, hc⟩ := c
          simp only at h
          subst h
          rfl
        · rfl
    · rintro ⟨i, v⟩
      simp only
      congr 1
      funext c
      by_cases hca : c = a
      · subst hca
        simp [hn.1, upd]
      · by_cases hcl : c ∈ l
        · simp [hcl, hca]
        · simp [hcl, hca, upd]

theorem labels_perm (terms : List Str) (output : Str) :
    (summed terms output).toList.Perm (innerLabels terms output) := by
  rw [List.perm_ext_iff_of_nodup (Finset.nodup_toList _) (innerLabels_nodup _ _)]
  intro c
  rw [Finset.mem_toList, mem_innerLabels, summed, Finset.mem_sdiff, List.mem_toFinset, List.mem_toFinset, List.mem_flatten]

omit [CommSemiring R] in
theorem get_eq_operandEntry [CommSemiring R] (t : Str) (A : Tensor R) (e : Nat → Nat) : A.get (t.map e) = operandEntry t A e := by
  unfold Tensor.get operandEntry
  congr 1
  apply List.ext_getElem?
  intro i
  simp only [List.getElem?_zipWith, List.getElem?_map]
  cases hs : A.shape[i]? with
  | none =>
    rw [List.zip, List.getElem?_zipWith, hs]
    cases t[i]? <;> rfl
  | some d =>
    cases ht : t[i]? with
    | none => rw [List.zip, List.getElem?_zipWith, hs, ht]; rfl
    | some c => rw [List.zip, List.getElem?_zipWith, hs, ht]; rfl

theorem prodVal_eq (ops : List (Str × Tensor R)) (e : Nat → Nat) :
    prodVal ops e = (ops.map (fun p => operandEntry p.1 p.2 e)).prod := by
  unfold prodVal
  congr 1
  apply List.map_congr_left
  intro p _
  exact get_eq_operandEntry p.1 p.2 e

theorem map_envOf {output : Str} {coords : List Nat} (hn : output.Nodup) (hl : coords.length = output.length) :
    output.map (envOf output coords) = coords := by
  apply List.ext_getElem
  · simp [hl]
  · intro i h1 h2
    simp only [List.getElem_map, envOf]
    rw [hn.idxOf_getElem i (by simpa using h1), List.getD_eq_getElem?_getD, List.getElem?_eq_getElem h2]
    rfl

/-- The iterated sum over the inner labels is the sum of the specification. -/
theorem sumOver_spec (size : Nat → Nat) (output : Str) (terms : List Str) (ops : List (Tensor R)) (coords : List Nat) :
    sumOver size (innerLabels terms output) (prodVal (terms.zip ops)) (envOf output coords) =
      ∑ v : ((c : {c // c ∈ summed terms output}) → Fin (size c)),
        ((terms.zip ops).map (fun p => operandEntry p.1 p.2 (labelValue (summed terms output) size output coords v))).prod := by
  rw [← sumOver_perm (labels_perm terms output) (Finset.nodup_toList _), sumOver_eq_sum _ _ (Finset.nodup_toList _)]
  refine Fintype.sum_bijective
    (fun v : ((c : {c // c ∈ (summed terms output).toList}) → Fin (size c)) =>
      fun c : {c // c ∈ summed terms output} => v ⟨c.1, Finset.mem_toList.mpr c.2⟩) ?_ _ _ ?_
  · constructor
    · intro v w hvw
      funext c
      exact congrFun hvw ⟨c.1, Finset.mem_toList.mp c.2⟩
    · intro w
      exact ⟨fun c => w ⟨c.1, Finset.mem_toList.mp c.2⟩, rfl⟩
  · intro v
    rw [prodVal_eq]
    congr 2
    funext p
    congr 1
    funext c
    unfold labelValue
    by_cases hc : c ∈ summed terms output
    · rw [dif_pos hc, dif_pos (Finset.mem_toList.mpr hc)]
    · rw [dif_neg hc, dif_neg (fun h => hc (Finset.mem_toList.mp h))]
      rfl

theorem isEinsum_of_total {size : Nat → Nat} {output : Str} {terms : List Str} {ops : List (Tensor R)} {T : Tensor R}
    (hlen : terms.length = ops.length) (hn : output.Nodup) (h : IsTotal size output (terms.zip ops) T) :
    IsEinsum size terms output ops T := by
  refine ⟨h.shape, ?_⟩
  intro coords hl hr
  have hval : T.val coords = T.get (output.map (envOf output coords)) := by
    unfold Tensor.get
    rw [map_envOf hn hl]
    congr 1
    rw [h.shape]
    apply List.ext_getElem
    · simp [hl]
    · intro i h1 h2
      simp only [List.getElem_zipWith, List.getElem_map, bc]
      split
      · rename_i hs
        have hi : i < output.length := by omega
        have := hr i output[i] coords[i] (List.getElem?_eq_getElem hi) (List.getElem?_eq_getElem h1)
        omega
      · rfl
  rw [hval, h.get]
  unfold totalSum
  have hfst : (terms.zip ops).map Prod.fst = terms := List.map_fst_zip (by omega)
  rw [hfst]
  exact sumOver_spec size output terms ops coords

omit [CommSemiring R] in
theorem mem_zip_get {α β : Type} {l : List α} {m : List β} {p : α × β} :
    p ∈ l.zip m ↔ ∃ i : Nat, l[i]? = some p.1 ∧ m[i]? = some p.2 := by
  rw [List.mem_iff_getElem?]
  simp only [List.getElem?_zip_eq_some]

omit [CommSemiring R] in
theorem hasDim_iff {terms : List Str} {ops : List (Tensor R)} {c d : Nat} :
    HasDim (terms.zip ops) c d ↔ DimOccurs terms (ops.map Tensor.shape) c d := by
  unfold HasDim DimOccurs
  constructor
  · rintro ⟨p, hp, hd⟩
    obtain ⟨i, h1, h2⟩ := mem_zip_get.mp hp
    obtain ⟨j, h3, h4⟩ := mem_zip_get.mp hd
    exact ⟨i, j, p.1, p.2.shape, h1, by simp [h2], h3, h4⟩
  · rintro ⟨i, j, t, s, h1, h2, h3, h4⟩
    rw [List.getElem?_map] at h2
    cases ho : ops[i]? with
    | none => rw [ho] at h2; cases h2
    | some A =>
      rw [ho] at h2
      simp only [Option.map_some, Option.some.injEq] at h2
      subst h2
      exact ⟨(t, A), mem_zip_get.mpr ⟨i, h1, ho⟩, mem_zip_get.mpr ⟨j, h3, h4⟩⟩

omit [CommSemiring R] in
theorem occurs_zip {terms : List Str} {ops : List (Tensor R)} (hlen : terms.length = ops.length) {c : Nat} :
    Occurs (terms.zip ops) c ↔ ∃ t ∈ terms, c ∈ t := by
  rw [← occurs_iff, List.map_fst_zip (by omega)]

omit [CommSemiring R] in
/-- A well-posed equation satisfies the invariant. -/
theorem inv_of_wellPosed {size : Nat → Nat} {output : Str} {terms : List Str} {ops : List (Tensor R)}
    (h : WellPosed size terms output (ops.map Tensor.shape)) : Inv size output (terms.zip ops) := by
  have hlen : terms.length = ops.length := by simpa using h.len
  refine ⟨⟨?_, ?_, ?_, ?_⟩, ?_, ?_, ?_⟩
  · intro p hp
    obtain ⟨i, h1, h2⟩ := mem_zip_get.mp hp
    exact (h.rank i p.1 p.2.shape h1 (by simp [h2])).symm
  · intro p hp c d d' hd hd'
    obtain ⟨i, h1, h2⟩ := mem_zip_get.mp hp
    obtain ⟨j, h3, h4⟩ := mem_zip_get.mp hd
    obtain ⟨k, h5, h6⟩ := mem_zip_get.mp hd'
    exact h.diag i j k p.1 p.2.shape c d d' h1 (by simp [h2]) h3 h5 h4 h6
  · intro c d hd
    obtain ⟨t, ht, hc⟩ := (occurs_zip hlen).mp hd.occurs
    exact (h.size t ht c hc).2 d (hasDim_iff.mp hd)
  · intro c hc
    obtain ⟨t, ht, hc⟩ := (occurs_zip hlen).mp hc
    exact hasDim_iff.mpr (h.size t ht c hc).1
  · intro c h0 h1
    exact h.nzo c ⟨hasDim_iff.mp h0, hasDim_iff.mp h1⟩
  · intro c hc
    obtain ⟨t, ht, hc⟩ := (occurs_zip hlen).mp hc
    exact h.punct t ht c hc
  · intro c hc
    exact (occurs_zip hlen).mpr (h.sub c hc)

theorem compatible_of_wellPosed {size : Nat → Nat} {output : Str} {terms : List Str} {shapes : List Shape}
    (h : WellPosed size terms output shapes) : Compatible terms shapes := by
  refine ⟨h.rank, ?_⟩
  intro c d d' hd hd' h1 h2
  have hocc : ∃ t ∈ terms, c ∈ t := by
    obtain ⟨i, j, t, s, g1, g2, g3, g4⟩ := hd
    exact ⟨t, List.mem_of_getElem? g1, List.mem_of_getElem? g3⟩
  obtain ⟨t, ht, hc⟩ := hocc
  have hs := (h.size t ht c hc).2
  rcases hs d hd with e | e
  · exact absurd e h1
  · rcases hs d' hd' with e' | e'
    · exact absurd e' h2
    · rw [e, e']

/-- The size dictionary of a well-posed equation. -/
theorem sizeLoop_wellPosed {size : Nat → Nat} {output : Str} {terms : List Str} {shapes : List Shape}
    (h : WellPosed size terms output shapes) :
    ∃ d, sizeLoop [] terms shapes = .ok d ∧ (∀ c, (∃ t ∈ terms, c ∈ t) → d.get? c = some (size c)) := by
  obtain ⟨d, h1, h2⟩ := (C06_size_dict terms shapes h.len).1 (compatible_of_wellPosed h)
  refine ⟨d, h1, ?_⟩
  rintro c ⟨t, ht, hc⟩
  exact (h2 c (size c)).mpr (h.size t ht c hc)

theorem mapM_ok {α β : Type} {f : α → Except PyErr β} {g : α → β} {l : List α} (h : ∀ x ∈ l, f x = .ok (g x)) :
    l.mapM f = .ok (l.map g) := by
  induction l with
  | nil => rfl
  | cons a t ih =>
    rw [List.mapM_cons, h a (by simp), ih (fun x hx => h x (by simp [hx]))]
    rfl

end OE.Contract
