import Verif.Props.Paths1
import Verif.Spec.Tree

/-!
# C13: contraction trees become equivalent paths
-/

namespace OE.Props
open OE OE.Py OE.Spec OE.Paths

/-! ## Inserting the integers of a node -/

/-- The position of an element in an increasing list is the number of smaller elements. -/
theorem idxOf_eq_count {l : List Nat} (h : l.Pairwise (· < ·)) {i : Nat} (hi : i ∈ l) :
    l.idxOf i = (l.filter (fun q => q < i)).length := by
  induction l with
  | nil => simp at hi
  | cons a t ih =>
    rw [List.pairwise_cons] at h
    rcases List.mem_cons.mp hi with rfl | hm
    · have : t.filter (fun q => decide (q < i)) = [] := by
        rw [List.filter_eq_nil_iff]
        intro x hx; have := h.1 x hx; simp; omega
      simp [this]
    · have := h.1 i hm
      rw [List.idxOf_cons_ne _ (by omega), ih h.2 hm, List.filter_cons_of_pos (by simpa using this), List.length_cons]

theorem insertIdx_sorted {l : List Nat} (h : l.Pairwise (· < ·)) {i : Nat} (hi : i ∉ l) :
    (l.insertIdx (l.filter (fun q => q < i)).length i).Pairwise (· < ·) ∧
    (l.insertIdx (l.filter (fun q => q < i)).length i).Perm (i :: l) := by
  refine ⟨?_, List.perm_insertIdx _ _ (List.length_filter_le _ _)⟩
  induction l with
  | nil => simp
  | cons a t ih =>
    rw [List.pairwise_cons] at h
    have hia : i ≠ a := fun e => hi (by simp [e])
    have hit : i ∉ t := fun e => hi (by simp [e])
    by_cases ha : a < i
    · rw [List.filter_cons_of_pos (by simpa using ha), List.length_cons, List.insertIdx_succ_cons, List.pairwise_cons]
      refine ⟨?_, ih h.2 hit⟩
      intro x hx
      rw [List.mem_insertIdx (List.length_filter_le _ _)] at hx
      rcases hx with rfl | hx
      · exact ha
      · exact h.1 x hx
    · have hnil : (a :: t).filter (fun q => decide (q < i)) = [] := by
        rw [List.filter_eq_nil_iff]
        intro x hx
        rcases List.mem_cons.mp hx with rfl | hx
        · simpa using Nat.le_of_not_lt ha
        · have := h.1 x hx; simp; omega
      rw [hnil]
      simp only [List.length_nil, List.insertIdx_zero, List.pairwise_cons]
      refine ⟨?_, h⟩
      intro x hx
      rcases List.mem_cons.mp hx with rfl | hx
      · omega
      · have := h.1 x hx; omega

theorem insertLeaves_spec (is : List Nat) {t : List Nat} (ht : t.Pairwise (· < ·)) (his : is.Pairwise (· < ·))
    (hd : ∀ i ∈ is, i ∉ t) :
    (insertLeaves t is).2.Pairwise (· < ·) ∧ (insertLeaves t is).2.Perm (is ++ t) ∧
      (insertLeaves t is).1 = is.map (insertLeaves t is).2.idxOf := by
  induction is generalizing t with
  | nil => exact ⟨ht, List.Perm.refl _, rfl⟩
  | cons i is ih =>
    rw [List.pairwise_cons] at his
    have hi : i ∉ t := hd i (by simp)
    obtain ⟨h1, h2⟩ := insertIdx_sorted ht hi
    have hd' : ∀ j ∈ is, j ∉ t.insertIdx (t.filter (fun q => q < i)).length i := by
      intro j hj hm
      rcases List.mem_cons.mp (h2.mem_iff.mp hm) with rfl | hm
      · have := his.1 j hj; omega
      · exact hd j (by simp [hj]) hm
    obtain ⟨g1, g2, g3⟩ := ih h1 his.2 hd'
    have hp : (insertLeaves t (i :: is)).2.Perm (i :: is ++ t) := by
      refine g2.trans ((h2.append_left is).trans ?_)
      exact List.perm_middle
    refine ⟨g1, hp, ?_⟩
    simp only [insertLeaves, List.map_cons]
    rw [← g3]
    congr 1
    have hmem : i ∈ (insertLeaves (t.insertIdx (t.filter (fun q => q < i)).length i) is).2 := by
      rw [g2.mem_iff, List.mem_append, h2.mem_iff]; simp
    rw [idxOf_eq_count g1 hmem]
    have hpf := (hp.filter (fun q => decide (q < i))).length_eq
    rw [show (insertLeaves t (i :: is)).2 = (insertLeaves (t.insertIdx (t.filter (fun q => q < i)).length i) is).2 from rfl] at hpf
    rw [hpf, List.filter_append, List.length_append]
    have : (i :: is).filter (fun q => decide (q < i)) = [] := by
      rw [List.filter_eq_nil_iff]
      intro x hx
      rcases List.mem_cons.mp hx with rfl | hx
      · simp
      · have := his.1 x hx; simp; omega
    rw [this]; simp

theorem pushNodes_spec (lenT : Nat) (js c : List (List Tree)) :
    (pushNodes lenT c js).2 = js.reverse ++ c ∧
    (pushNodes lenT c js).1 = (List.range js.length).map (fun k => lenT + c.length + k) := by
  induction js generalizing c with
  | nil => simp [pushNodes]
  | cons j js ih =>
    obtain ⟨h1, h2⟩ := ih (j :: c)
    constructor
    · simp [pushNodes, h1]
    · simp only [pushNodes, h2, List.length_cons, List.range_succ_eq_map, List.map_cons, List.map_map]
      congr 1
      apply List.map_congr_left
      intro k _
      simp only [Function.comp_apply]
      omega

/-! ## The two parts of a node -/

variable {α : Type}

theorem treeValues_split (combine : Multiset α → α) (v : Nat → α) (cs : List Tree) :
    Multiset.ofList (treeValues combine v cs) =
      Multiset.ofList ((leavesOf cs).map v) +
      Multiset.ofList ((nodesOf cs).map (fun j => combine (Multiset.ofList (treeValues combine v j)))) := by
  induction cs with
  | nil => simp [treeValues, leavesOf, nodesOf]
  | cons t ts ih =>
    cases t with
    | leaf i =>
      simp only [treeValues, treeValue, leavesOf, nodesOf, List.map_cons, ← Multiset.cons_coe, ih, Multiset.cons_add]
    | node c =>
      simp only [treeValues, treeValue, leavesOf, nodesOf, List.map_cons, ← Multiset.cons_coe, ih, Multiset.add_cons]

theorem forestLeaves_split (cs : List Tree) : (forestLeaves cs).Perm (leavesOf cs ++ (nodesOf cs).flatMap forestLeaves) := by
  induction cs with
  | nil => simp [forestLeaves, leavesOf, nodesOf]
  | cons t ts ih =>
    cases t with
    | leaf i => simpa [forestLeaves, treeLeaves, leavesOf, nodesOf] using ih
    | node c =>
      simp only [forestLeaves, treeLeaves, leavesOf, nodesOf, List.flatMap_cons]
      refine (ih.append_left _).trans ?_
      rw [← List.append_assoc, ← List.append_assoc]
      exact List.perm_append_comm.append_right _

theorem forestNodes_split (cs : List Tree) : forestNodes cs = ((nodesOf cs).map (fun j => forestNodes j + 1)).sum := by
  induction cs with
  | nil => simp [forestNodes, nodesOf]
  | cons t ts ih =>
    cases t with
    | leaf i => simpa [forestNodes, treeNodes, nodesOf] using ih
    | node c => simp [forestNodes, treeNodes, nodesOf, ih]

theorem forestProper_nodes {cs : List Tree} (h : ForestProper cs) : ∀ j ∈ nodesOf cs, j ≠ [] ∧ ForestProper j := by
  induction cs with
  | nil => simp [nodesOf]
  | cons t ts ih =>
    rw [ForestProper] at h
    cases t with
    | leaf i => exact ih h.2
    | node c =>
      intro j hj
      rcases List.mem_cons.mp hj with rfl | hj
      · rw [TreeProper] at h; exact h.1
      · exact ih h.2 j hj

theorem split_length (cs : List Tree) : (leavesOf cs).length + (nodesOf cs).length = cs.length := by
  induction cs with
  | nil => rfl
  | cons t ts ih => cases t <;> simp [leavesOf, nodesOf] <;> omega

/-! ## One step, backwards -/

/-- The operands before a step, given the state of the loop after handling it (the columns in the comment of the
source): the inputs `t`, then the remaining contractions. -/
def column (combine : Multiset α → α) (v : Nat → α) (t : List Nat) (c : List (List Tree)) : List α :=
  t.map v ++ c.reverse.map (fun j => combine (Multiset.ofList (treeValues combine v j)))

theorem column_step (combine : Multiset α → α) (v : Nat → α) {t : List Nat} (c : List (List Tree)) {j : List Tree}
    (ht : t.Pairwise (· < ·)) (hn : (leavesOf j).Nodup) (hd : ∀ i ∈ leavesOf j, i ∉ t) (hj : j ≠ []) :
    let a := insertLeaves t (sorted (leavesOf j))
    let b := pushNodes a.2.length c (nodesOf j)
    let col := column combine v a.2 b.2
    ValidStep col.length (a.1 ++ b.1) ∧
      unselected col (a.1 ++ b.1) ++ [combine (pick col (a.1 ++ b.1))] = column combine v t (j :: c) := by
  intro a b col
  have hperm := sorted_perm (leavesOf j)
  obtain ⟨h1, h2, h3⟩ := insertLeaves_spec (sorted (leavesOf j)) ht (sorted_strict hn) (fun i hi => hd i (hperm.mem_iff.mp hi))
  obtain ⟨g1, g2⟩ := pushNodes_spec a.2.length (nodesOf j) c
  have hdef : col = a.2.map v ++ ((c.reverse.map (fun j => combine (Multiset.ofList (treeValues combine v j)))) ++
      (nodesOf j).map (fun j => combine (Multiset.ofList (treeValues combine v j)))) := by
    show column combine v a.2 b.2 = _
    unfold column
    rw [show b.2 = _ from g1]
    simp
  have hnd : a.2.Nodup := h1.imp (fun h => Nat.ne_of_lt h)
  have hmem : ∀ i ∈ sorted (leavesOf j), i ∈ a.2 := fun i hi => by rw [h2.mem_iff]; simp [hi]
  have ha1 : ∀ x ∈ a.1, x < a.2.length := by
    intro x hx
    rw [show a.1 = _ from h3] at hx
    obtain ⟨i, hi, rfl⟩ := List.mem_map.mp hx
    exact List.idxOf_lt_length_of_mem (hmem i hi)
  have hb1 : ∀ x, x ∈ b.1 ↔ ∃ k < (nodesOf j).length, x = a.2.length + c.length + k := by
    intro x
    rw [show b.1 = _ from g2, List.mem_map]
    simp only [List.mem_range]
    constructor
    · rintro ⟨k, hk, rfl⟩; exact ⟨k, hk, rfl⟩
    · rintro ⟨k, hk, rfl⟩; exact ⟨k, hk, rfl⟩
  have hlen : col.length = a.2.length + c.length + (nodesOf j).length := by
    rw [hdef]; simp; omega
  constructor
  · refine ⟨?_, ?_, ?_⟩
    · intro h0
      have hl := congrArg List.length h0
      rw [List.length_append, show a.1 = _ from h3, show b.1 = _ from g2] at hl
      simp only [List.length_map, List.length_range, List.length_nil, hperm.length_eq] at hl
      have := split_length j
      have : j.length = 0 := by omega
      exact hj (List.length_eq_zero_iff.mp this)
    · rw [List.nodup_append]
      refine ⟨?_, ?_, ?_⟩
      · rw [show a.1 = _ from h3]
        exact idxOf_map_nodup hmem ((hperm.nodup_iff).mpr hn)
      · rw [show b.1 = _ from g2]
        exact List.Nodup.map (fun x y h => by simpa using h) List.nodup_range
      · intro x hx y hy hxy
        obtain ⟨k, _, rfl⟩ := (hb1 y).mp hy
        have := ha1 x hx
        omega
    · intro x hx
      rw [hlen]
      rcases List.mem_append.mp hx with hx | hx
      · have := ha1 x hx; omega
      · obtain ⟨k, hk, rfl⟩ := (hb1 x).mp hx; omega
  · -- what is not selected
    have hu : unselected col (a.1 ++ b.1) = t.map v ++ c.reverse.map (fun j => combine (Multiset.ofList (treeValues combine v j))) := by
      rw [hdef, unselected_append, unselected_map, unselected_append]
      congr 1
      · have : unselected a.2 (a.1 ++ b.1) = a.2.filter (· ∉ sorted (leavesOf j)) := by
          rw [unselected_eq_filter hnd]
          apply List.filter_congr
          intro x hx
          simp only [decide_eq_decide, not_iff_not, List.mem_append]
          have hlt := List.idxOf_lt_length_of_mem hx
          constructor
          · rintro (h | h)
            · rw [show a.1 = _ from h3] at h
              obtain ⟨y, hy, hxy⟩ := List.mem_map.mp h
              rw [← (List.idxOf_inj (hmem y hy)).mp hxy]; exact hy
            · obtain ⟨k, _, hk⟩ := (hb1 _).mp h
              omega
          · intro h
            left
            rw [show a.1 = _ from h3]
            exact List.mem_map.mpr ⟨x, h, rfl⟩
        rw [this]
        congr 1
        apply strict_ext
        · exact (h1.filter _).imp (fun h => Nat.le_of_lt h)
        · exact ht.imp (fun h => Nat.le_of_lt h)
        · refine (h2.filter _).trans ?_
          rw [List.filter_append]
          have e1 : (sorted (leavesOf j)).filter (fun x => decide (x ∉ sorted (leavesOf j))) = [] := by
            rw [List.filter_eq_nil_iff]; intro x hx; simp [hx]
          have e2 : t.filter (fun x => decide (x ∉ sorted (leavesOf j))) = t := by
            rw [List.filter_eq_self]
            intro x hx
            simp only [decide_eq_true_eq, hperm.mem_iff]
            exact fun h => hd x h hx
          rw [e1, e2]; simp
      · have hsel : ∀ x, x ∈ (((a.1 ++ b.1).filter (fun x => (a.2.map v).length ≤ x)).map (· - (a.2.map v).length)) ↔
            ∃ k < (nodesOf j).length, x = c.length + k := by
          intro x
          simp only [List.mem_map, List.mem_filter, List.mem_append, decide_eq_true_eq, List.length_map]
          constructor
          · rintro ⟨y, ⟨hy | hy, hle⟩, rfl⟩
            · have := ha1 y hy; omega
            · obtain ⟨k, hk, rfl⟩ := (hb1 y).mp hy
              exact ⟨k, hk, by omega⟩
          · rintro ⟨k, hk, rfl⟩
            exact ⟨a.2.length + c.length + k, ⟨Or.inr ((hb1 _).mpr ⟨k, hk, rfl⟩), by omega⟩, by omega⟩
        rw [unselected_all (List.map _ (nodesOf j)), List.append_nil]
        · apply unselected_none
          intro i hi
          obtain ⟨k, _, rfl⟩ := (hsel i).mp hi
          simp
        · intro i hi
          simp only [List.length_map] at hi
          refine List.mem_map.mpr ⟨c.length + i, List.mem_filter.mpr ⟨(hsel _).mpr ⟨i, hi, rfl⟩, by simp⟩, by simp⟩
    rw [hu]
    -- what is selected
    have hp : pick col (a.1 ++ b.1) = Multiset.ofList (treeValues combine v j) := by
      rw [pick_append, treeValues_split]
      congr 1
      · unfold Spec.pick
        rw [show a.1 = _ from h3, List.filterMap_map]
        have : (sorted (leavesOf j)).filterMap ((fun i => col[i]?) ∘ fun x => a.2.idxOf x) = (sorted (leavesOf j)).map v := by
          rw [← List.filterMap_eq_map]
          apply List.filterMap_congr
          intro x hx
          have hlt := List.idxOf_lt_length_of_mem (hmem x hx)
          simp only [Function.comp_apply]
          rw [hdef, List.getElem?_append_left (by simpa using hlt), List.getElem?_map, List.getElem?_eq_getElem hlt,
            List.getElem_idxOf]
          rfl
        rw [this]
        exact Multiset.coe_eq_coe.mpr (hperm.map _)
      · unfold Spec.pick
        rw [show b.1 = _ from g2, List.filterMap_map]
        congr 1
        rw [hdef]
        have : ∀ k ∈ List.range (nodesOf j).length,
            ((fun i => (a.2.map v ++ (c.reverse.map (fun j => combine (Multiset.ofList (treeValues combine v j))) ++
              (nodesOf j).map (fun j => combine (Multiset.ofList (treeValues combine v j)))))[i]?) ∘ fun k => a.2.length + c.length + k) k
              = ((nodesOf j).map (fun j => combine (Multiset.ofList (treeValues combine v j))))[k]? := by
          intro k _
          simp only [Function.comp_apply]
          rw [List.getElem?_append_right (by simp; omega), List.getElem?_append_right (by simp; omega)]
          congr 1
          simp; omega
        rw [List.filterMap_congr this]
        have h := range_filterMap_get ((nodesOf j).map (fun j => combine (Multiset.ofList (treeValues combine v j))))
        rw [List.length_map] at h
        exact h
    rw [hp]
    simp [column]

/-! ## The loop -/

theorem treeLoop_spec (fuel : Nat) (c : List (List Tree)) (t : List Nat) (s : Path)
    (hfuel : (c.map (fun j => forestNodes j + 1)).sum ≤ fuel) (ht : t.Pairwise (· < ·))
    (hn : (c.flatMap forestLeaves ++ t).Nodup) (hp : ∀ j ∈ c, j ≠ [] ∧ ForestProper j) :
    ∃ (tF : List Nat) (sF : Path), treeLoop fuel c t s = some sF ∧ tF.Pairwise (· < ·) ∧ tF.Perm (c.flatMap forestLeaves ++ t) ∧
      ∀ (α : Type) (combine : Multiset α → α) (v : Nat → α),
        (ValidPath (column combine v t c).length s → ValidPath tF.length sF) ∧
        linExec combine (tF.map v) sF = linExec combine (column combine v t c) s := by
  induction fuel generalizing c t s with
  | zero =>
    cases c with
    | nil => exact ⟨t, s, rfl, ht, by simp, fun α combine v => by simp [column]⟩
    | cons j c => simp at hfuel
  | succ fuel ih =>
    cases c with
    | nil => exact ⟨t, s, rfl, ht, by simp, fun α combine v => by simp [column]⟩
    | cons j c =>
      have hsplit : ((j :: c).flatMap forestLeaves ++ t).Perm
          ((nodesOf j).flatMap forestLeaves ++ (c.flatMap forestLeaves ++ (leavesOf j ++ t))) := by
        rw [List.flatMap_cons]
        refine (((forestLeaves_split j).append_right _).append_right _).trans ?_
        rw [List.append_assoc, List.append_assoc]
        refine (List.perm_append_comm_assoc _ _ _).trans (List.Perm.append_left _ ?_)
        exact List.perm_append_comm_assoc _ _ _
      have hn2 := hsplit.nodup_iff.mp hn
      have hn3 := (List.nodup_append.mp (List.nodup_append.mp hn2).2.1).2.1
      obtain ⟨hn4, _, hn5⟩ := List.nodup_append.mp hn3
      have hd : ∀ i ∈ leavesOf j, i ∉ t := fun i hi hit => hn5 i hi i hit rfl
      have hperm := sorted_perm (leavesOf j)
      obtain ⟨h1, h2, h3⟩ := insertLeaves_spec (sorted (leavesOf j)) ht (sorted_strict hn4) (fun i hi => hd i (hperm.mem_iff.mp hi))
      obtain ⟨g1, g2⟩ := pushNodes_spec (insertLeaves t (sorted (leavesOf j))).2.length (nodesOf j) c
      have hstep := fun (α : Type) (combine : Multiset α → α) (v : Nat → α) => column_step combine v c ht hn4 hd (hp j (by simp)).1
      have hpl : ((nodesOf j).reverse ++ c).flatMap forestLeaves ++ (insertLeaves t (sorted (leavesOf j))).2 |>.Perm
          ((j :: c).flatMap forestLeaves ++ t) := by
        refine List.Perm.trans ?_ hsplit.symm
        rw [List.flatMap_append, List.append_assoc]
        refine ((List.reverse_perm _).flatMap_right _).append (List.Perm.append_left _ ?_)
        exact h2.trans (hperm.append_right _)
      obtain ⟨tF, sF, hr, hs1, hs2, hs3⟩ := ih (c := (nodesOf j).reverse ++ c) (t := (insertLeaves t (sorted (leavesOf j))).2)
        (s := ((insertLeaves t (sorted (leavesOf j))).1 ++ (pushNodes (insertLeaves t (sorted (leavesOf j))).2.length c (nodesOf j)).1) :: s)
        (by
          simp only [List.map_cons, List.sum_cons, List.map_append, List.sum_append, List.map_reverse, List.sum_reverse] at hfuel ⊢
          rw [forestNodes_split] at hfuel; omega)
        h1 (hpl.nodup_iff.mpr hn)
        (by
          intro k hk
          rcases List.mem_append.mp hk with hk | hk
          · exact forestProper_nodes (hp j (by simp)).2 k (List.mem_reverse.mp hk)
          · exact hp k (by simp [hk]))
      refine ⟨tF, sF, ?_, hs1, hs2.trans hpl, ?_⟩
      · rw [treeLoop]
        simp only [g1]
        exact hr
      · intro α combine v
        obtain ⟨k1, k2⟩ := hs3 α combine v
        obtain ⟨m1, m2⟩ := hstep α combine v
        simp only [g1] at m1 m2
        constructor
        · intro hv
          apply k1
          refine ⟨m1, ?_⟩
          have hl := unselected_length m1.2.1 m1.2.2
          have hl2 := congrArg List.length m2
          rw [List.length_append, List.length_singleton] at hl2
          have : (column combine v t (j :: c)).length = (column combine v (insertLeaves t (sorted (leavesOf j))).2 ((nodesOf j).reverse ++ c)).length + 1 -
              ((insertLeaves t (sorted (leavesOf j))).1 ++ (pushNodes (insertLeaves t (sorted (leavesOf j))).2.length c (nodesOf j)).1).length := by
            omega
          rw [← this]; exact hv
        · rw [k2, linExec, m2]

/-- **C13.** For every contraction tree whose leaves are `0..n-1` once each and that is not a bare input,
`_tree_to_sequence` terminates with a complete path for `n` tensors, and executing the path gives exactly the tensor
the tree stands for, whatever a tensor is and whatever contracting means (in particular for formal terms, so it performs
exactly the contractions of the tree). -/
theorem C13_tree_to_sequence {n : Nat} {cs : List Tree} (hleaves : (treeLeaves (.node cs)).Perm (List.range n))
    (hproper : TreeProper (.node cs)) {fuel : Nat} (hfuel : treeNodes (.node cs) ≤ fuel) :
    ∃ path, treeToSequence fuel (.node cs) = some path ∧ CompletePath n path ∧
      ∀ (α : Type) (combine : Multiset α → α) (v : Nat → α),
        linExec combine ((List.range n).map v) path = [treeValue combine v (.node cs)] := by
  rw [treeLeaves] at hleaves
  rw [TreeProper] at hproper
  rw [treeNodes] at hfuel
  obtain ⟨tF, sF, h1, h2, h3, h4⟩ := treeLoop_spec fuel [cs] [] [] (by simpa using hfuel) (by simp)
    (by simpa using hleaves.nodup_iff.mpr List.nodup_range) (by simpa using hproper)
  have ht : tF = List.range n := by
    apply strict_ext (h2.imp (fun h => Nat.le_of_lt h)) (List.pairwise_lt_range.imp (fun h => Nat.le_of_lt h))
    exact h3.trans (by simpa using hleaves)
  subst ht
  have hval := fun (α : Type) (combine : Multiset α → α) (v : Nat → α) => (h4 α combine v).2
  have hv := (h4 Nat (fun _ => 0) id).1 trivial
  rw [List.length_range] at hv
  have hres := fun (α : Type) (combine : Multiset α → α) (v : Nat → α) => (hval α combine v).trans
    (show linExec combine (column combine v [] [cs]) [] = [treeValue combine v (.node cs)] by simp [linExec, column, treeValue])
  refine ⟨sF, h1, ?_, hres⟩
  have hl := linExec_length (fun _ => 0) sF ((List.range n).map id) (by simpa using hv)
  rw [hres] at hl
  simp only [List.length_singleton, List.length_map, List.length_range] at hl
  rw [completePath_iff]
  refine ⟨?_, hv, by omega⟩
  intro h0
  subst h0
  have := hres (Option Nat) (fun _ => none) some
  simp only [linExec, treeValue] at this
  have hn1 : n = 1 := by simpa using congrArg List.length this
  subst hn1
  simp at this

/-- A bare input needs no contraction. -/
theorem C13_leaf (fuel i : Nat) : treeToSequence fuel (.leaf i) = some [] := rfl

-- C13: the example of the documentation, ((1,2),(0,(4,5,3)))
example : treeToSequence 4 (.node [.node [.leaf 1, .leaf 2], .node [.leaf 0, .node [.leaf 4, .leaf 5, .leaf 3]]]) =
    some [[1, 2], [1, 2, 3], [0, 2], [0, 1]] := by decide
example : (treeLeaves (.node [.node [.leaf 1, .leaf 2], .node [.leaf 0, .node [.leaf 4, .leaf 5, .leaf 3]]])).Perm (List.range 6) ∧
    TreeProper (.node [.node [.leaf 1, .leaf 2], .node [.leaf 0, .node [.leaf 4, .leaf 5, .leaf 3]]]) ∧
    treeNodes (.node [.node [.leaf 1, .leaf 2], .node [.leaf 0, .node [.leaf 4, .leaf 5, .leaf 3]]]) = 4 := by
  refine ⟨by decide, by simp [TreeProper, ForestProper], by decide⟩

end OE.Props
