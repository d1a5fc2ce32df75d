import Verif.Props.Contract2

/-! numpy's functions look only at the entries inside the shapes. -/

namespace OE.Props
open OE OE.Py OE.Parser OE.Contract OE.Spec
variable {R : Type}

theorem SameArray.refl (T : Tensor R) : SameArray T T := ⟨rfl, fun _ _ _ => rfl⟩

theorem SameArray.symm {S T : Tensor R} (h : SameArray S T) : SameArray T S := by
  refine ⟨h.1.symm, fun coords h1 h2 => ?_⟩
  rw [← h.1] at h1 h2
  exact (h.2 coords h1 h2).symm

theorem SameArray.trans {S T U : Tensor R} (h : SameArray S T) (g : SameArray T U) : SameArray S U := by
  refine ⟨h.1.trans g.1, fun coords h1 h2 => ?_⟩
  rw [h.2 coords h1 h2]
  rw [h.1] at h1 h2
  exact g.2 coords h1 h2

/-- Indices inside a shape. -/
def InShape (shape coords : List Nat) : Prop :=
  coords.length = shape.length ∧ ∀ (i d x : Nat), shape[i]? = some d → coords[i]? = some x → x < d

theorem sumIdx_congr [AddCommMonoid R] {dims : List Nat} {f g : List Nat → R} (h : ∀ k, InShape dims k → f k = g k) :
    sumIdx dims f = sumIdx dims g := by
  induction dims generalizing f g with
  | nil => exact h [] ⟨rfl, by simp⟩
  | cons d ds ih =>
    simp only [sumIdx]
    apply Finset.sum_congr rfl
    intro i hi
    apply ih
    intro k hk
    apply h
    refine ⟨by simp [hk.1], ?_⟩
    intro j e x h1 h2
    cases j with
    | zero => simp at h1 h2; subst h1 h2; exact Finset.mem_range.mp hi
    | succ j => simp at h1 h2; exact hk.2 j e x h1 h2

/-- Every axis gets an index inside its length. -/
theorem tdIndex_inShape {shape la k coords : List Nat} (hk : InShape (la.map (fun p => shape.getD p 0)) k)
    (hc : InShape ((freeAxes shape.length la).map (fun p => shape.getD p 0)) coords) :
    InShape shape (tdIndex shape.length la k coords) := by
  refine ⟨by simp [tdIndex], ?_⟩
  intro i d x h1 h2
  have hi : i < shape.length := (List.getElem?_eq_some_iff.mp h1).1
  have hd : shape.getD i 0 = d := by simp [List.getD, h1]
  unfold tdIndex at h2
  rw [List.getElem?_map, List.getElem?_range hi] at h2
  simp only [Option.map_some, Option.some.injEq] at h2
  have key : ∀ (l cs : List Nat), InShape (l.map (fun p => shape.getD p 0)) cs → i ∈ l → cs.getD (l.idxOf i) 0 < d := by
    intro l cs hcs him
    have hlt : l.idxOf i < l.length := List.idxOf_lt_length_of_mem him
    have hlt' : l.idxOf i < cs.length := by rw [hcs.1]; simpa using hlt
    apply hcs.2 (l.idxOf i) d
    · rw [List.getElem?_map, List.getElem?_eq_getElem hlt, List.getElem_idxOf hlt]
      simp only [Option.map_some, hd]
    · simp [List.getD, List.getElem?_eq_getElem hlt']
  rw [← h2]
  split
  · rename_i him
    exact key la k hk him
  · rename_i him
    apply key _ coords hc
    simp [freeAxes, hi, him]

theorem InShape.take {s t coords : List Nat} (h : InShape (s ++ t) coords) : InShape s (coords.take s.length) := by
  refine ⟨by rw [List.length_take, h.1]; simp, ?_⟩
  intro i d x h1 h2
  have hi := (List.getElem?_eq_some_iff.mp h1).1
  rw [List.getElem?_take_of_lt hi] at h2
  exact h.2 i d x (by rw [List.getElem?_append_left hi]; exact h1) h2

theorem InShape.drop {s t coords : List Nat} (h : InShape (s ++ t) coords) : InShape t (coords.drop s.length) := by
  refine ⟨by rw [List.length_drop, h.1]; simp, ?_⟩
  intro i d x h1 h2
  rw [List.getElem?_drop] at h2
  exact h.2 (s.length + i) d x (by rw [List.getElem?_append_right (by omega)]; simpa using h1) h2

theorem npTensordot_congr [CommSemiring R] {a b X Y Z : Tensor R} {la lb : List Nat} (ha : SameArray a X) (hb : SameArray b Y)
    (h : npTensordot X Y la lb = .ok Z) : ∃ c, npTensordot a b la lb = .ok c ∧ SameArray c Z := by
  unfold npTensordot at h ⊢
  rw [ha.1, hb.1]
  split at h
  · cases h
  · rename_i hcond
    rw [if_neg hcond]
    simp only [not_or, not_not] at hcond
    obtain ⟨_, _, _, _, _, hdims⟩ := hcond
    cases h
    refine ⟨_, rfl, rfl, ?_⟩
    intro coords h1 h2
    have hin : InShape ((freeAxes X.shape.length la).map (fun p => X.shape.getD p 0) ++
      (freeAxes Y.shape.length lb).map (fun p => Y.shape.getD p 0)) coords := ⟨h1, h2⟩
    simp only
    apply sumIdx_congr
    intro k hk
    have e1 : InShape a.shape (tdIndex X.shape.length la k (coords.take (freeAxes X.shape.length la).length)) := by
      rw [ha.1]
      apply tdIndex_inShape hk
      simpa using hin.take
    have e2 : InShape b.shape (tdIndex Y.shape.length lb k (coords.drop (freeAxes X.shape.length la).length)) := by
      rw [hb.1]
      apply tdIndex_inShape (by rw [← hdims]; exact hk)
      simpa using hin.drop
    rw [ha.2 _ e1.1 e1.2, hb.2 _ e2.1 e2.2]

theorem npTranspose_congr {a X Z : Tensor R} {axes : List Nat} (ha : SameArray a X) (h : npTranspose X axes = .ok Z) :
    ∃ c, npTranspose a axes = .ok c ∧ SameArray c Z := by
  unfold npTranspose at h ⊢
  rw [ha.1]
  split at h
  · cases h
  · rename_i hcond
    rw [if_neg hcond]
    simp only [not_or, not_not, List.any_eq_true, decide_eq_true_eq, not_exists, not_and, not_le] at hcond
    obtain ⟨hl, hn, hlt⟩ := hcond
    cases h
    refine ⟨_, rfl, rfl, ?_⟩
    intro coords h1 h2
    simp only
    apply ha.2
    · simp [ha.1]
    · intro i d x g1 g2
      rw [ha.1] at g1
      have hi : i < X.shape.length := (List.getElem?_eq_some_iff.mp g1).1
      rw [List.getElem?_map, List.getElem?_range hi] at g2
      simp only [Option.map_some, Option.some.injEq] at g2
      have him : i ∈ axes := by
        have hsub : axes.toFinset = Finset.range X.shape.length := by
          apply Finset.eq_of_subset_of_card_le
          · intro p hp
            rw [List.mem_toFinset] at hp
            exact Finset.mem_range.mpr (hlt p hp)
          · rw [Finset.card_range, List.toFinset_card_of_nodup hn, hl]
        rw [← List.mem_toFinset, hsub]
        exact Finset.mem_range.mpr hi
      have hlt1 : axes.idxOf i < axes.length := List.idxOf_lt_length_of_mem him
      simp only [List.length_map] at h1
      rw [← g2]
      apply h2 (axes.idxOf i) d
      · rw [List.getElem?_map, List.getElem?_eq_getElem hlt1, List.getElem_idxOf hlt1]
        simp [List.getD, g1]
      · simp [List.getD, List.getElem?_eq_getElem (show axes.idxOf i < coords.length by omega)]

/-- The Einstein summation of equal arrays. -/
theorem isEinsum_congr [CommSemiring R] {size : Nat → Nat} {terms : List Str} {out : Str} {as Ts : List (Tensor R)} {T : Tensor R}
    (hrep : List.Forall₂ SameArray as Ts) (hlen : terms.length = Ts.length) (hfit : OperandsFit size terms (Ts.map Tensor.shape))
    (h : IsEinsum size terms out as T) : IsEinsum size terms out Ts T := by
  refine ⟨h.1, ?_⟩
  intro coords h1 h2
  rw [h.2 coords h1 h2]
  apply Finset.sum_congr rfl
  intro v _
  congr 1
  have hlen' := hrep.length_eq
  apply List.ext_getElem
  · simp [hlen']
  · intro i g1 g2
    simp only [List.length_map, List.length_zip] at g1 g2
    have i1 : i < as.length := by omega
    have i2 : i < Ts.length := by omega
    have i3 : i < terms.length := by omega
    simp only [List.getElem_map, List.getElem_zip]
    have hs : SameArray as[i] Ts[i] := by
      have := (List.forall₂_iff_get.mp hrep).2 i i1 i2
      simpa using this
    unfold operandEntry
    rw [hs.1]
    have hrank : Ts[i].shape.length = terms[i].length := hfit.rank i terms[i] Ts[i].shape (by simp [i3]) (by simp [i2])
    have hin : InShape as[i].shape ((terms[i].zip Ts[i].shape).map
        (fun p => if p.2 = 1 then 0 else labelValue (summed terms out) size out coords v p.1)) := by
      rw [hs.1]
      refine ⟨by simp [hrank], ?_⟩
      intro j d x e1 e2
      rw [List.getElem?_map] at e2
      obtain ⟨⟨c, d'⟩, e3, e4⟩ := Option.map_eq_some_iff.mp e2
      rw [List.getElem?_zip_eq_some] at e3
      simp only at e3
      rw [e1] at e3
      obtain ⟨e3, e5⟩ := e3
      cases e5
      simp only at e4
      have hcm : c ∈ terms[i] := List.mem_of_getElem? e3
      have htm : terms[i] ∈ terms := List.getElem_mem i3
      split at e4
      · rename_i hd; omega
      · rename_i hd
        have hsz := (hfit.size terms[i] htm c hcm).2 d ⟨i, j, terms[i], Ts[i].shape, by simp [i3], by simp [i2], e3, e1⟩
        have hd' : d = size c := by rcases hsz with h | h; exact absurd h hd; exact h
        rw [← e4, hd']
        unfold labelValue
        split
        · exact (v _).2
        · rename_i hc
          have hco : c ∈ out := by
            by_contra hno
            apply hc
            unfold summed
            rw [Finset.mem_sdiff, List.mem_toFinset, List.mem_toFinset, List.mem_flatten]
            exact ⟨⟨_, htm, hcm⟩, hno⟩
          have hlt : out.idxOf c < out.length := List.idxOf_lt_length_of_mem hco
          apply h2 (out.idxOf c) c
          · rw [List.getElem?_eq_getElem hlt, List.getElem_idxOf hlt]
          · simp [List.getD, List.getElem?_eq_getElem (show out.idxOf c < coords.length by omega)]
    exact hs.2 _ hin.1 hin.2

end OE.Props
