import Verif.Lemmas.Ellipsis
import Verif.Model.Tensor

/-! `numpy.einsum` on equations without an ellipsis. -/

namespace OE
open OE.Py OE.Parser
variable {R : Type} [CommSemiring R]

theorem mapM_npTerm_plain (l : List (Str × Nat)) (h : ∀ p ∈ l, cDot ∉ p.1) : l.mapM (fun p => npTerm p.1 p.2) = .ok (l.map Prod.fst) := by
  induction l with
  | nil => rfl
  | cons a t ih =>
    rw [List.mapM_cons, ih (fun p hp => h p (by simp [hp]))]
    simp [npTerm, h a (by simp), bind, Except.bind, pure, Except.pure]

theorem npBroadcast_plain (l : List (Str × Nat)) (h : ∀ p ∈ l, cDot ∉ p.1) : npBroadcast l = 0 := by
  unfold npBroadcast
  induction l with
  | nil => rfl
  | cons a t ih =>
    rw [List.foldl_cons, if_neg (h a (by simp))]
    exact ih (fun p hp => h p (by simp [hp]))

theorem splitOn_plain {l : Str} (h : cDot ∉ l) : ∀ t ∈ splitOn cComma l, cDot ∉ t := by
  intro t ht hc
  have := mem_join_of_mem [cComma] (splitOn cComma l) _ t ht hc
  rw [join_splitOn] at this
  exact h this

theorem npSubscripts_plain {l : Str} {out : Option Str} {ranks : List Nat} (hd : cDot ∉ l) (h1 : cDash ∉ l) (h2 : cGt ∉ l)
    (hlen : (splitOn cComma l).length = ranks.length) (ho : ∀ r, out = some r → cDot ∉ r) :
    npSubscripts l out ranks = .ok (splitOn cComma l, match out with | some r => r | none => findOutputStr l) := by
  have hp : ∀ p ∈ (splitOn cComma l).zip ranks, cDot ∉ p.1 := fun p hp => splitOn_plain hd p.1 (List.of_mem_zip hp).1
  unfold npSubscripts
  simp only
  rw [if_neg (by simp [h1, h2, hlen]), mapM_npTerm_plain _ hp, npBroadcast_plain _ hp, List.map_fst_zip (by omega)]
  cases out with
  | some r => simp [bind, Except.bind, npOutput, ho r rfl]
  | none =>
    have : removeChar cDot l = l := by
      unfold removeChar
      rw [List.filter_eq_self]
      intro a ha
      simp only [decide_eq_true_eq]
      exact fun e => hd (e ▸ ha)
    simp [bind, Except.bind, bcastLabels, this]

theorem einsumCore_length {ts : List Str} {r : Str} {ops : List (Tensor R)} (h : ts.length ≠ ops.length) : einsumCore ts r ops = .error .value := by
  unfold einsumCore
  simp [h]

theorem npEinsum_two {s l r : Str} {ops : List (Tensor R)} (hv : hasValidEinsumCharsOnly s = true) (hs : splitArrow s = [l, r])
    (hd : cDot ∉ l) (h1 : cDash ∉ l) (h2 : cGt ∉ l) (hr : cDot ∉ r) : npEinsum s ops = einsumCore (splitOn cComma l) r ops := by
  unfold npEinsum
  rw [if_neg (by simp [hv]), hs]
  simp only
  by_cases hlen : (splitOn cComma l).length = ops.length
  · rw [npSubscripts_plain hd h1 h2 (by simpa using hlen) (by rintro r' h; cases h; exact hr)]
    rfl
  · unfold npSubscripts
    simp only
    rw [if_pos (Or.inl (by simpa using hlen)), einsumCore_length hlen]
    rfl

theorem npEinsum_one {s : Str} {ops : List (Tensor R)} (hv : hasValidEinsumCharsOnly s = true) (hs : splitArrow s = [s])
    (hd : cDot ∉ s) (h1 : cDash ∉ s) (h2 : cGt ∉ s) : npEinsum s ops = einsumCore (splitOn cComma s) (findOutputStr s) ops := by
  unfold npEinsum
  rw [if_neg (by simp [hv]), hs]
  simp only
  by_cases hlen : (splitOn cComma s).length = ops.length
  · rw [npSubscripts_plain hd h1 h2 (by simpa using hlen) (by rintro r' h; cases h)]
    rfl
  · unfold npSubscripts
    simp only
    rw [if_pos (Or.inl (by simpa using hlen)), einsumCore_length hlen]
    rfl

end OE
