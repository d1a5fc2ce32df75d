import Verif.Lemmas.PathStep
import Mathlib.Data.Prod.Lex

/-! Set iteration order does not matter where the code sorts. -/

namespace OE.Contract
open OE OE.Py OE.Parser OE.Helpers OE.Blas

/-- Sorting with an injective key does not depend on the order of the list. -/
theorem sortedBy_unique {α : Type} (key : α → Nat) {l m : List α} (hp : l.Perm m)
    (hm : m.Pairwise (fun a b => key a < key b)) : sortedBy key l = m := by
  have h1 : (sortedBy key l).Perm m := (List.perm_insertionSort _ l).trans hp
  have h2 : (sortedBy key l).Pairwise (fun a b => key a ≤ key b) := by
    have : Std.Total (fun a b : α => key a ≤ key b) := ⟨fun a b => le_total _ _⟩
    have : IsTrans α (fun a b : α => key a ≤ key b) := ⟨fun a b c => le_trans⟩
    exact List.pairwise_insertionSort _ l
  have hinj : ∀ a ∈ m, ∀ b ∈ m, key a = key b → a = b := by
    intro a ha b hb hab
    by_contra hne
    obtain ⟨i, hi, rfl⟩ := List.getElem_of_mem ha
    obtain ⟨j, hj, rfl⟩ := List.getElem_of_mem hb
    rw [List.pairwise_iff_getElem] at hm
    rcases Nat.lt_trichotomy i j with h | h | h
    · have := hm i j hi hj h; omega
    · subst h; exact hne rfl
    · have := hm j i hj hi h; omega
  exact h1.eq_of_pairwise (le := fun a b => key a ≤ key b)
    (fun a b ha hb g1 g2 => hinj a (h1.mem_iff.mp ha) b hb (Nat.le_antisymm g1 g2)) h2 (hm.imp (fun h => Nat.le_of_lt h))

theorem firstOccs_sorted (s : Str) : (firstOccs s).Pairwise (fun a b => s.idxOf a < s.idxOf b) := by
  induction s with
  | nil => simp [firstOccs]
  | cons c t ih =>
    simp only [firstOccs, List.pairwise_cons]
    constructor
    · intro b hb
      simp only [List.mem_filter, decide_eq_true_eq] at hb
      rw [List.idxOf_cons_self, List.idxOf_cons_ne _ (Ne.symm hb.2)]
      omega
    · apply List.Pairwise.imp_of_mem _ (ih.filter _)
      intro a b ha hb hab
      simp only [List.mem_filter, decide_eq_true_eq] at ha hb
      rw [List.idxOf_cons_ne _ (Ne.symm ha.2), List.idxOf_cons_ne _ (Ne.symm hb.2)]
      omega

/-- `sorted(out_inds, key=all_input_inds.find)` for any iteration order `l` of the set `out_inds`. -/
theorem tensordotOrder_eq_sorted (allInputInds : Str) (outInds : Finset Nat) (l : List Nat) (hn : l.Nodup)
    (hl : ∀ c, c ∈ l ↔ c ∈ outInds) (hsub : ∀ c ∈ outInds, c ∈ allInputInds) :
    sortedBy (fun c => allInputInds.idxOf c) l = tensordotOrder allInputInds outInds := by
  apply sortedBy_unique
  · rw [List.perm_ext_iff_of_nodup hn (tensordotOrder_nodup _ _)]
    intro c
    rw [mem_tensordotOrder, hl]
    exact ⟨fun h => ⟨hsub c h, h⟩, fun h => h.2⟩
  · exact (firstOccs_sorted allInputInds).filter _

/-- `sorted` on pairs of integers (lexicographic). -/
def sortedPairs (l : List (Nat × Nat)) : List (Nat × Nat) :=
  l.insertionSort (fun a b => a.1 < b.1 ∨ (a.1 = b.1 ∧ a.2 ≤ b.2))

/-- `tuple(zip(*sorted(zip(left_pos, right_pos))))` for any iteration order `l` of the set `idx_rm`. -/
theorem blasAxes_eq_sorted (left right : Str) (removed : Finset Nat) (l : List Nat) (hn : l.Nodup)
    (hl : ∀ c, c ∈ l ↔ c ∈ removed) (hleft : left.Nodup) (hsub : ∀ c ∈ removed, c ∈ left) :
    (sortedPairs (l.map (fun c => (left.idxOf c, right.idxOf c)))).unzip = blasAxes left right removed := by
  have hfn : (left.filter (fun c => c ∈ removed)).Nodup := hleft.filter _
  have hperm : l.Perm (left.filter (fun c => c ∈ removed)) := by
    rw [List.perm_ext_iff_of_nodup hn hfn]
    intro c
    rw [hl, List.mem_filter, decide_eq_true_eq]
    exact ⟨fun h => ⟨hsub c h, h⟩, fun h => h.2⟩
  have hkey : sortedPairs (l.map (fun c => (left.idxOf c, right.idxOf c))) =
      (left.filter (fun c => c ∈ removed)).map (fun c => (left.idxOf c, right.idxOf c)) := by
    have h1 : (sortedPairs (l.map (fun c => (left.idxOf c, right.idxOf c)))).Perm
        ((left.filter (fun c => c ∈ removed)).map (fun c => (left.idxOf c, right.idxOf c))) :=
      (List.perm_insertionSort _ _).trans (hperm.map _)
    have h2 : (sortedPairs (l.map (fun c => (left.idxOf c, right.idxOf c)))).Pairwise
        (fun a b => a.1 < b.1 ∨ (a.1 = b.1 ∧ a.2 ≤ b.2)) := by
      have : Std.Total (fun a b : Nat × Nat => a.1 < b.1 ∨ (a.1 = b.1 ∧ a.2 ≤ b.2)) := ⟨fun a b => by omega⟩
      have : IsTrans (Nat × Nat) (fun a b : Nat × Nat => a.1 < b.1 ∨ (a.1 = b.1 ∧ a.2 ≤ b.2)) := ⟨fun a b c => by omega⟩
      exact List.pairwise_insertionSort _ _
    have hself : left.Pairwise (fun a b => left.idxOf a < left.idxOf b) := by
      rw [List.pairwise_iff_getElem]
      intro i j hi hj hij
      rw [hleft.idxOf_getElem i hi, hleft.idxOf_getElem j hj]
      exact hij
    have h3 : ((left.filter (fun c => c ∈ removed)).map (fun c => (left.idxOf c, right.idxOf c))).Pairwise
        (fun a b => a.1 < b.1 ∨ (a.1 = b.1 ∧ a.2 ≤ b.2)) := by
      rw [List.pairwise_map]
      exact (hself.filter _).imp (fun h => Or.inl h)
    exact h1.eq_of_pairwise (le := fun a b : Nat × Nat => a.1 < b.1 ∨ (a.1 = b.1 ∧ a.2 ≤ b.2))
      (fun a b _ _ h1 h2 => by
        apply Prod.ext
        · omega
        · omega) h2 h3
  rw [hkey]
  unfold blasAxes
  simp only [List.unzip_eq_map, List.map_map]
  rfl

end OE.Contract
