import Verif.Spec.DpReport
import Verif.Props.Optimal2
import Verif.Props.Dp2
import Verif.Props.EndToEnd

/-!
# Paths in pairs and binary trees

What the steps of a path contract, counted without regard to order, is what the nodes of a binary tree contract.
-/

namespace OE.Props
open OE OE.Py OE.Spec OE.Paths

/-! ## The steps of a path, collected in its result -/

/-- A tensor together with the contractions that were needed to make it. -/
abbrev Made := Tag × Multiset (Multiset Tag)

/-- A contraction: those of its operands, and itself. -/
def make (m : Multiset Made) : Made := (combineTag (m.map Prod.fst), (m.map Prod.snd).sum + {m.map Prod.fst})

theorem pick_map {α β : Type} (f : α → β) (l : List α) (p : List Nat) : pick (l.map f) p = (pick l p).map f := by
  unfold pick
  rw [Multiset.map_coe, List.map_filterMap]
  simp only [List.getElem?_map]

theorem sum_select {α : Type} [AddCommMonoid α] {β : Type} (f : β → α) {l : List β} {p : List Nat} (hv : ValidStep l.length p) :
    (l.map f).sum = ((unselected l p).map f).sum + ((pick l p).map f).sum := by
  obtain ⟨sel, hperm, hpick, -, -⟩ := select hv
  rw [← (hperm.map f).sum_eq, hpick, List.map_append, List.sum_append, Multiset.map_coe, Multiset.sum_coe, add_comm]

theorem step_length {α : Type} {l : List α} {p : List Nat} (hv : ValidStep l.length p) (x : α) :
    (unselected l p ++ [x]).length = l.length + 1 - p.length := by
  have := unselected_length hv.2.1 hv.2.2
  rw [List.length_append, List.length_singleton]
  omega

theorem made_trace (q : Path) {l : List Made} (hv : ValidPath l.length q) :
    ((linExec make l q).map Prod.snd).sum = (l.map Prod.snd).sum + Multiset.ofList (linTrace combineTag (l.map Prod.fst) q) := by
  induction q generalizing l with
  | nil => simp [linExec, linTrace]
  | cons p ps ih =>
    obtain ⟨h1, h2⟩ := hv
    simp only [linExec, linTrace]
    rw [ih (by rw [step_length h1]; exact h2), sum_select Prod.snd h1, unselected_map, pick_map]
    simp only [List.map_append, List.map_singleton, List.sum_append, List.sum_singleton, make]
    rw [← Multiset.cons_coe, ← Multiset.singleton_add]
    simp only [add_assoc]

/-! ## Trees -/

/-- The tensor that a tree makes. -/
def tagOf : BTree → Tag
  | .leaf i => ({i}, false)
  | .node l r => ((BTree.node l r).set, true)

/-- The contractions of a tree. -/
def treeTrace : BTree → Multiset (Multiset Tag)
  | .leaf _ => 0
  | .node l r => treeTrace l + treeTrace r + {{tagOf l, tagOf r}}

/-- A tensor made as the tree says. -/
def madeOf (b : BTree) : Made := (tagOf b, treeTrace b)

theorem tagOf_set (b : BTree) : (tagOf b).1 = b.set := by
  cases b with
  | leaf i => rw [BTree.set_leaf]; rfl
  | node l r => rfl

theorem set_node (l r : BTree) : (BTree.node l r).set = l.set ∪ r.set := by
  unfold BTree.set
  rw [BTree.leaves, List.toFinset_append]

theorem madeOf_node (l r : BTree) : madeOf (.node l r) = make {madeOf l, madeOf r} := by
  unfold make madeOf
  simp only [Multiset.insert_eq_cons, Multiset.map_cons, Multiset.map_singleton, Multiset.sum_cons, Multiset.sum_singleton, treeTrace, combineTag]
  congr 1
  show ((BTree.node l r).set, true) = _
  rw [set_node]
  simp [tagOf_set]

/-- The tree of a nested tuple without wrapped inputs. -/
theorem treeValue_make {inputs : List (Finset Nat)} {output : Finset Nat} {t : Tree} {b : BTree} (h : Represents inputs output t b)
    (hlone : ∀ i ∈ b.leaves, ¬ HasLone inputs output i) : treeValue make (fun i => madeOf (.leaf i)) t = madeOf b := by
  induction h with
  | leaf i _ => rfl
  | wrapped i hi => exact absurd hi (hlone i (by simp [BTree.leaves]))
  | node h1 h2 ih1 ih2 =>
    rw [BTree.leaves] at hlone
    rw [madeOf_node, ← ih1 (fun i hi => hlone i (List.mem_append_left _ hi)), ← ih2 (fun i hi => hlone i (List.mem_append_right _ hi))]
    rfl

theorem madeOf_leaves (n : Nat) : (List.range n).map (fun i => (madeOf (.leaf i)).1) = tags n := rfl

/-- If a path makes what a tree says, its steps are the nodes of the tree. -/
theorem trace_of_made {n : Nat} {q : Path} (hv : ValidPath n q) {b : BTree}
    (h : linExec make ((List.range n).map (fun i => madeOf (.leaf i))) q = [madeOf b]) :
    Multiset.ofList (linTrace combineTag (tags n) q) = treeTrace b := by
  have := made_trace q (l := (List.range n).map (fun i => madeOf (.leaf i))) (by simpa using hv)
  rw [h] at this
  rw [← madeOf_leaves]
  have h0 : (((List.range n).map (fun i => madeOf (.leaf i))).map Prod.snd).sum = 0 := by
    apply List.sum_eq_zero
    intro x hx
    simp only [List.map_map, List.mem_map, Function.comp] at hx
    obtain ⟨i, -, rfl⟩ := hx
    rfl
  rw [h0, zero_add, List.map_map, List.map_singleton, List.sum_singleton] at this
  exact this.symm

/-- Two trees made one; any other number of trees does not occur. -/
noncomputable def joinTrees (m : Multiset BTree) : BTree :=
  match m.toList with
  | [l, r] => .node l r
  | _ => .leaf 0

theorem joinTrees_pair {m : Multiset BTree} (h : m.card = 2) : ∃ l r, m = {l, r} ∧ joinTrees m = .node l r := by
  unfold joinTrees
  rw [← Multiset.length_toList] at h
  have hm := Multiset.coe_toList m
  generalize m.toList = L at h hm
  match L, h with
  | [l, r], _ =>
    refine ⟨l, r, ?_, rfl⟩
    rw [← hm]
    rfl

theorem pick_card {α : Type} {l : List α} {p : List Nat} (hv : ValidStep l.length p) : (pick l p).card = p.length := by
  obtain ⟨sel, -, hpick, hlen, -⟩ := select hv
  rw [hpick, Multiset.coe_card, hlen]

theorem exec_trees (q : Path) {l : List BTree} (hv : ValidPath l.length q) (hp : Pairwise2 q) :
    linExec make (l.map madeOf) q = (linExec joinTrees l q).map madeOf ∧
    ((linExec joinTrees l q).flatMap BTree.leaves).Perm (l.flatMap BTree.leaves) := by
  induction q generalizing l with
  | nil => exact ⟨rfl, List.Perm.refl _⟩
  | cons p ps ih =>
    obtain ⟨h1, h2⟩ := hv
    obtain ⟨a, b, hab, hj⟩ := joinTrees_pair (m := pick l p) (by rw [pick_card h1]; exact hp p (by simp))
    obtain ⟨i1, i2⟩ := ih (l := unselected l p ++ [joinTrees (pick l p)]) (by rw [step_length h1]; exact h2) (fun x hx => hp x (by simp [hx]))
    simp only [linExec]
    refine ⟨?_, i2.trans ?_⟩
    · rw [← i1, unselected_map, pick_map, List.map_append, List.map_singleton, hj, madeOf_node, hab]
      rfl
    · obtain ⟨sel, hperm, hpick, -, -⟩ := select h1
      rw [List.flatMap_append, List.flatMap_singleton, hj, BTree.leaves]
      refine List.Perm.trans ?_ (hperm.flatMap_right _)
      rw [List.flatMap_append]
      refine List.perm_append_comm.trans (List.Perm.append_right _ ?_)
      have : [a, b].Perm sel := by
        rw [hpick] at hab
        exact (Multiset.coe_eq_coe.mp hab).symm
      have := this.flatMap_right BTree.leaves
      simpa using this

theorem complete_pairs {n : Nat} {q : Path} (hc : CompletePath n q) {α : Type} (combine : Multiset α → α) {l : List α} (hl : l.length = n) :
    ∃ x, linExec combine l q = [x] := by
  subst hl
  induction q generalizing l with
  | nil => exact absurd hc (by simp [CompletePath])
  | cons p ps ih =>
    cases ps with
    | nil =>
      obtain ⟨h1, h2⟩ := hc
      refine ⟨combine (pick l p), ?_⟩
      simp only [linExec]
      have := unselected_length h1.2.1 h1.2.2
      rw [List.length_eq_zero_iff.mp (show (unselected l p).length = 0 by omega)]
      rfl
    | cons p' ps =>
      obtain ⟨h1, h2⟩ := hc
      simp only [linExec]
      exact ih (by rw [step_length h1]; exact h2)

/-- The steps of a complete path in pairs are the nodes of a binary tree. -/
theorem tree_of_path {n : Nat} {q : Path} (hc : CompletePath n q) (hp : Pairwise2 q) :
    ∃ b : BTree, b.leaves.Perm (List.range n) ∧ Multiset.ofList (linTrace combineTag (tags n) q) = treeTrace b := by
  have hv := validPath_of_complete hc
  obtain ⟨b, hb⟩ := complete_pairs hc joinTrees (l := (List.range n).map BTree.leaf) (by simp)
  obtain ⟨h1, h2⟩ := exec_trees q (l := (List.range n).map BTree.leaf) (by simpa using hv) hp
  rw [hb] at h1 h2
  refine ⟨b, ?_, trace_of_made hv ?_⟩
  · have : ((List.range n).map BTree.leaf).flatMap BTree.leaves = List.range n := by
      rw [List.flatMap_map]
      simp only [BTree.leaves]
      rw [List.flatMap_singleton']
    rw [this] at h2
    simpa using h2
  · rw [List.map_map] at h1
    exact h1

/-! ## Figures -/

section
variable {size : Nat → Nat} {ins : List (Finset Nat)} {out : Finset Nat}

theorem legs_open (X : Finset Nat) : legs ins out X = openLabels ins out X := by
  ext c
  rw [mem_legs, mem_openLabels]

theorem getD_some {s : List (Finset Nat)} {i : Nat} {c : Nat} (h : c ∈ s.getD i ∅) : ∃ t, s[i]? = some t ∧ c ∈ t := by
  rw [List.getD_eq_getElem?_getD] at h
  cases hg : s[i]? with
  | none => rw [hg] at h; simp at h
  | some t => rw [hg] at h; exact ⟨t, rfl, h⟩

theorem countP_pos_two {P : Finset Nat → Bool} {l : List (Finset Nat)} {i : Nat} (h : ∀ k t, l[k]? = some t → P t = true → k = i) : l.countP P ≤ 1 := by
  induction l generalizing i with
  | nil => simp
  | cons a l ih =>
    rw [List.countP_cons]
    by_cases ha : P a = true
    · have hi := h 0 a rfl ha
      subst hi
      have : l.countP P = 0 := by
        rw [List.countP_eq_zero]
        intro t ht hPt
        obtain ⟨k, hk⟩ := List.mem_iff_getElem?.mp ht
        have := h (k + 1) t (by simpa using hk) hPt
        omega
      rw [this, if_pos ha]
    · rw [if_neg ha]
      cases i with
      | zero =>
        have : l.countP P = 0 := by
          rw [List.countP_eq_zero]
          intro t ht hPt
          obtain ⟨k, hk⟩ := List.mem_iff_getElem?.mp ht
          have := h (k + 1) t (by simpa using hk) hPt
          omega
        omega
      | succ i =>
        have := ih (i := i) (fun k t hk hP => by
          have := h (k + 1) t (by simpa using hk) hP
          omega)
        omega

/-- Without lone labels no input has one. -/
theorem noLone_input (h : NoLoneLabels ins out) (i : Nat) : ¬ HasLone ins out i := by
  unfold HasLone
  rw [not_not]
  ext c
  rw [mem_openLabels]
  simp only [Finset.mem_singleton, exists_eq_left]
  refine ⟨fun hc => hc.1, fun hc => ⟨hc, ?_⟩⟩
  by_cases hout : c ∈ out
  · exact Or.inl hout
  right
  by_contra hno
  obtain ⟨s, hs, hcs⟩ := getD_some hc
  have h2 := h s (List.mem_of_getElem? hs) c hcs
  unfold occurrences at h2
  rw [if_neg hout] at h2
  have := countP_pos_two (P := fun s => decide (c ∈ s)) (l := ins) (i := i) (fun k t hk hP => by
    by_contra hne
    refine hno ⟨k, (List.getElem?_eq_some_iff.mp hk).1, hne, ?_⟩
    rw [List.getD_eq_getElem?_getD, hk]
    simpa using hP)
  omega

theorem term_tagOf (h : NoLoneLabels ins out) (b : BTree) : termOf ins out (tagOf b) = openLabels ins out b.set := by
  cases b with
  | leaf i =>
    have := noLone_input h i
    unfold HasLone at this
    rw [not_not] at this
    rw [BTree.set_leaf, this]
    simp [termOf, tagOf, labels]
  | node l r =>
    simp only [termOf, tagOf, if_true]
    exact legs_open _

theorem term_pair (l r : BTree) : termOf ins out (combineTag {tagOf l, tagOf r}) = openLabels ins out (l.set ∪ r.set) := by
  simp [termOf, combineTag, tagOf_set, legs_open]

theorem mLabels_pair (h : NoLoneLabels ins out) (l r : BTree) :
    mLabels ins out {tagOf l, tagOf r} = openLabels ins out l.set ∪ openLabels ins out r.set := by
  simp [mLabels, term_tagOf h]

/-- Operations of a node: once or twice the size of the contraction. -/
theorem gPlan_pair (h : NoLoneLabels ins out) (l r : BTree) : gPlan size ins out {tagOf l, tagOf r} =
    (∏ c ∈ openLabels ins out l.set ∪ openLabels ins out r.set, size c) *
      (1 + if openLabels ins out l.set ∪ openLabels ins out r.set = openLabels ins out (l.set ∪ r.set) then 0 else 1) := by
  simp only [gPlan, stepFlops, mLabels_pair h, term_pair]
  rfl

/-- Without hyperedges a common label that is not an output is summed by the contraction. -/
theorem inner_summed (hh : NoHyperEdges ins out) {X Y : Finset Nat} (hd : Disjoint X Y) {c : Nat} (hX : c ∈ openLabels ins out X)
    (hY : c ∈ openLabels ins out Y) (hc : c ∉ out) : c ∉ openLabels ins out (X ∪ Y) := by
  intro hXY
  rw [mem_openLabels] at hX hY hXY
  obtain ⟨⟨i, hi, hci⟩, -⟩ := hX
  obtain ⟨⟨j, hj, hcj⟩, -⟩ := hY
  obtain ⟨-, h | ⟨k, hk, hkn, hck⟩⟩ := hXY
  · exact hc h
  have hij : i ≠ j := fun e => Finset.disjoint_left.mp hd hi (e ▸ hj)
  have hik : i ≠ k := fun e => hkn (e ▸ Finset.mem_union_left _ hi)
  have hjk : j ≠ k := fun e => hkn (e ▸ Finset.mem_union_right _ hj)
  have hle := hh c hc
  obtain ⟨s, hs, hcs⟩ := getD_some hci
  obtain ⟨t, ht, hct⟩ := getD_some hcj
  obtain ⟨u, hu, hcu⟩ := getD_some hck
  have key : 3 ≤ ins.countP (fun s => decide (c ∈ s)) := by
    rw [List.countP_eq_length_filter]
    have hsub : List.Subperm [i, j, k] ((List.range ins.length).filter (fun x => decide (c ∈ ins.getD x ∅))) := by
      apply List.subperm_of_subset
      · simp [hij, hik, hjk]
      · intro x hx
        rw [List.mem_filter, List.mem_range]
        simp only [List.mem_cons, List.not_mem_nil, or_false] at hx
        rcases hx with rfl | rfl | rfl
        · exact ⟨(List.getElem?_eq_some_iff.mp hs).1, by simpa using hci⟩
        · exact ⟨(List.getElem?_eq_some_iff.mp ht).1, by simpa using hcj⟩
        · exact ⟨hk, by simpa using hck⟩
    have h1 := hsub.length_le
    have h2 : ins.filter (fun s => decide (c ∈ s)) =
        ((List.range ins.length).filter (fun x => decide (c ∈ ins.getD x ∅))).filterMap (fun x => ins[x]?) := by
      conv_lhs => rw [← range_filterMap_get ins]
      rw [List.filter_filterMap, List.filterMap_filter]
      apply List.filterMap_congr
      intro x hx
      have hx := List.mem_range.mp hx
      rw [List.getElem?_eq_getElem hx, List.getD_eq_getElem?_getD, List.getElem?_eq_getElem hx]
      simp [Option.filter_some]
    rw [h2]
    have h3 : (((List.range ins.length).filter (fun x => decide (c ∈ ins.getD x ∅))).filterMap (fun x => ins[x]?)).length =
        ((List.range ins.length).filter (fun x => decide (c ∈ ins.getD x ∅))).length := by
      generalize hL : (List.range ins.length).filter (fun x => decide (c ∈ ins.getD x ∅)) = L
      have hb : ∀ x ∈ L, x < ins.length := by
        intro x hx
        rw [← hL, List.mem_filter, List.mem_range] at hx
        exact hx.1
      clear hL
      induction L with
      | nil => rfl
      | cons x L ih =>
        rw [List.filterMap_cons, List.getElem?_eq_getElem (hb x (by simp))]
        simp only [List.length_cons]
        rw [ih (fun y hy => hb y (by simp [hy]))]
    rw [h3]
    simpa using h1
  omega

theorem gSize_pair (l r : BTree) : gSize size ins out {tagOf l, tagOf r} = ∏ c ∈ openLabels ins out (l.set ∪ r.set), size c := by
  unfold gSize
  rw [term_pair]

theorem fits_iff (limit : Option Nat) (b : BTree) : Spec.Fits size (openLabels ins out) limit b ↔
    ∀ m ∈ treeTrace b, ∀ k, limit = some k → gSize size ins out m ≤ k := by
  induction b with
  | leaf i => simp [Spec.Fits, treeTrace]
  | node l r ihl ihr =>
    simp only [Spec.Fits, treeTrace, Multiset.mem_add, Multiset.mem_singleton, ihl, ihr]
    constructor
    · rintro ⟨h1, h2, h3⟩ m ((hm | hm) | rfl)
      · exact h2 m hm
      · exact h3 m hm
      · rw [gSize_pair]; exact h1
    · intro h
      refine ⟨?_, fun m hm => h m (Or.inl (Or.inl hm)), fun m hm => h m (Or.inl (Or.inr hm))⟩
      rw [← gSize_pair]
      exact h _ (Or.inr rfl)

theorem noOuter_iff (h : NoLoneLabels ins out) (b : BTree) : NoOuter out (openLabels ins out) b ↔
    ∀ m ∈ treeTrace b, ∃ c, c ∉ out ∧ ∀ t ∈ m, c ∈ termOf ins out t := by
  induction b with
  | leaf i => simp [NoOuter, treeTrace]
  | node l r ihl ihr =>
    simp only [NoOuter, treeTrace, Multiset.mem_add, Multiset.mem_singleton, ihl, ihr]
    constructor
    · rintro ⟨⟨c, h1, h2, h3⟩, h4, h5⟩ m ((hm | hm) | rfl)
      · exact h4 m hm
      · exact h5 m hm
      · refine ⟨c, h3, ?_⟩
        intro t ht
        simp only [Multiset.insert_eq_cons, Multiset.mem_cons, Multiset.mem_singleton] at ht
        rcases ht with rfl | rfl <;> rw [term_tagOf h] <;> assumption
    · intro hall
      refine ⟨?_, fun m hm => hall m (Or.inl (Or.inl hm)), fun m hm => hall m (Or.inl (Or.inr hm))⟩
      obtain ⟨c, hc, hm⟩ := hall _ (Or.inr rfl)
      refine ⟨c, ?_, ?_, hc⟩
      · rw [← term_tagOf h]; exact hm _ (by simp)
      · rw [← term_tagOf h]; exact hm _ (by simp)

/-- Every contraction of a tree is one of a pair. -/
theorem treeTrace_card (b : BTree) : ∀ m ∈ treeTrace b, m.card = 2 := by
  induction b with
  | leaf i => simp [treeTrace]
  | node l r ihl ihr =>
    intro m hm
    simp only [treeTrace, Multiset.mem_add, Multiset.mem_singleton] at hm
    rcases hm with (hm | hm) | rfl
    · exact ihl m hm
    · exact ihr m hm
    · rfl

theorem pairwise_of_trace {α : Type} (combine : Multiset α → α) (q : Path) {l : List α} (hv : ValidPath l.length q)
    (h : ∀ m ∈ linTrace combine l q, m.card = 2) : Pairwise2 q := by
  induction q generalizing l with
  | nil => intro p hp; simp at hp
  | cons p ps ih =>
    obtain ⟨h1, h2⟩ := hv
    simp only [linTrace, List.mem_cons, forall_eq_or_imp] at h
    intro x hx
    rcases List.mem_cons.mp hx with rfl | hx
    · rw [← pick_card h1]; exact h.1
    · exact ih (l := unselected l p ++ [combine (pick l p)]) (by rw [step_length h1]; exact h2) h.2 x hx

/-- The last step makes the result. -/
theorem last_trace {α : Type} (combine : Multiset α → α) {q : Path} {l : List α} (hc : CompletePath l.length q) :
    ∃ init m, linTrace combine l q = init ++ [m] ∧ linExec combine l q = [combine m] := by
  induction q generalizing l with
  | nil => exact absurd hc (by simp [CompletePath])
  | cons p ps ih =>
    cases ps with
    | nil =>
      obtain ⟨h1, h2⟩ := hc
      refine ⟨[], pick l p, rfl, ?_⟩
      simp only [linExec]
      have := unselected_length h1.2.1 h1.2.2
      rw [List.length_eq_zero_iff.mp (show (unselected l p).length = 0 by omega)]
      rfl
    | cons p' ps =>
      obtain ⟨h1, h2⟩ := hc
      obtain ⟨init, m, e1, e2⟩ := ih (l := unselected l p ++ [combine (pick l p)]) (by rw [step_length h1]; exact h2)
      rw [linTrace, linExec, e1, e2]
      exact ⟨pick l p :: init, m, rfl, rfl⟩

/-- Outer products in terms of what is contracted. -/
theorem noOuterPath_trace (q : Path) {l : List Tag} (hpart : Part ins.length l) (hv : ValidPath l.length q) :
    NoOuterPath out (l.map (termOf ins out)) q ↔ ∀ m ∈ linTrace combineTag l q, ∃ c, c ∉ out ∧ ∀ t ∈ m, c ∈ termOf ins out t := by
  induction q generalizing l with
  | nil => simp [NoOuterPath, linTrace]
  | cons p ps ih =>
    obtain ⟨h1, h2⟩ := hv
    simp only [NoOuterPath, linTrace, List.mem_cons, forall_eq_or_imp]
    rw [afterStep_tags hpart h1, ih (part_step hpart h1) (by rw [step_length h1]; exact h2)]
    apply and_congr_left
    intro _
    apply exists_congr
    intro c
    apply and_congr_right
    intro _
    constructor
    · intro h t ht
      obtain ⟨i, hi, hl⟩ := mem_pick.mp ht
      have := h i hi
      rw [List.getD_eq_getElem?_getD, List.getElem?_map, hl] at this
      exact this
    · intro h i hi
      have hlt := h1.2.2 i hi
      rw [List.getD_eq_getElem?_getD, List.getElem?_map, List.getElem?_eq_getElem hlt]
      exact h _ (mem_pick.mpr ⟨i, hi, List.getElem?_eq_getElem hlt⟩)

/-! ## The score of a path and the cost of its tree -/

/-- The weight of one contraction. -/
def gScore (metric : Metric) (size : Nat → Nat) (ins : List (Finset Nat)) (out : Finset Nat) (m : Multiset Tag) : Nat :=
  match metric with
  | .flops => gPlan size ins out m
  | .size => gSize size ins out m
  | .write => gSize size ins out m
  | .combo k => gPlan size ins out m + 2 * k * gSize size ins out m
  | .limit k => max (gPlan size ins out m) (2 * k * gSize size ins out m)
  | .custom _ => 0

/-- The score of a collection of contractions. -/
def scoreOf (metric : Metric) (size : Nat → Nat) (ins : List (Finset Nat)) (out : Finset Nat) (T : Multiset (Multiset Tag)) : Nat :=
  match metric with
  | .size => (T.map (gScore .size size ins out)).fold max 0
  | m => (T.map (gScore m size ins out)).sum

theorem map_two {α : Type} {figs : List StepFigures} {tr : List α} {f g : α → Nat} (h1 : figs.map StepFigures.flops = tr.map f)
    (h2 : figs.map StepFigures.elements = tr.map g) (F : Nat → Nat → Nat) :
    figs.map (fun x => F x.flops x.elements) = tr.map (fun x => F (f x) (g x)) := by
  induction figs generalizing tr with
  | nil =>
    cases tr with
    | nil => rfl
    | cons _ _ => simp at h1
  | cons a figs ih =>
    cases tr with
    | nil => simp at h1
    | cons b tr =>
      simp only [List.map_cons, List.cons.injEq] at h1 h2 ⊢
      exact ⟨by rw [h1.1, h2.1], ih h1.2 h2.2⟩

theorem score_trace {q : Path} (hc : CompletePath ins.length q) (metric : Metric) :
    planScore metric (planFigures size out ins q) = scoreOf metric size ins out (Multiset.ofList (linTrace combineTag (tags ins.length) q)) := by
  obtain ⟨-, h2, h3⟩ := figures_complete (size := size) (out := out) hc
  rw [← elements_eq_resultSizes] at h2
  cases metric with
  | flops => simp only [planScore, scoreOf, h3, Multiset.map_coe, Multiset.sum_coe]; rfl
  | size => simp only [planScore, scoreOf, h2, Multiset.map_coe, Multiset.coe_fold_r]; rfl
  | write => simp only [planScore, scoreOf, h2, Multiset.map_coe, Multiset.sum_coe]; rfl
  | combo k => simp only [planScore, scoreOf, map_two h3 h2 (fun a b => a + 2 * k * b), Multiset.map_coe, Multiset.sum_coe]; rfl
  | limit k => simp only [planScore, scoreOf, map_two h3 h2 (fun a b => max a (2 * k * b)), Multiset.map_coe, Multiset.sum_coe]; rfl
  | custom fn =>
    have : (gScore (.custom fn) size ins out) = fun _ => 0 := rfl
    simp only [planScore, scoreOf, this, Multiset.map_const', Multiset.sum_replicate, nsmul_zero]

theorem scoreOf_node (metric : Metric) (l r : BTree) : scoreOf metric size ins out (treeTrace (.node l r)) =
    match metric with
    | .size => max (max (scoreOf .size size ins out (treeTrace l)) (scoreOf .size size ins out (treeTrace r))) (gScore .size size ins out {tagOf l, tagOf r})
    | m => scoreOf m size ins out (treeTrace l) + scoreOf m size ins out (treeTrace r) + gScore m size ins out {tagOf l, tagOf r} := by
  cases metric with
  | size =>
    simp only [scoreOf, treeTrace, Multiset.map_add, Multiset.map_singleton]
    generalize ((treeTrace l).map (gScore .size size ins out)) = A
    generalize ((treeTrace r).map (gScore .size size ins out)) = B
    generalize gScore .size size ins out {tagOf l, tagOf r} = x
    have h1 := Multiset.fold_add max 0 0 (A + B) {x}
    have h2 := Multiset.fold_add max 0 0 A B
    rw [max_self] at h1 h2
    rw [h1, h2, Multiset.fold_singleton]
    omega
  | _ => simp only [scoreOf, treeTrace, Multiset.map_add, Multiset.sum_add, Multiset.map_singleton, Multiset.sum_singleton]

/-- The cost of a tree, doubled unless it counts elements only. -/
def costTwice : Metric → Nat → Nat
  | .size, x => x
  | .write, x => x
  | _, x => 2 * x

/-- The score of a tree is between its cost and twice its cost. -/
theorem score_bounds (h : NoLoneLabels ins out) {metric : Metric} (hm : Named metric) (b : BTree) :
    btCost metric size (openLabels ins out) b ≤ scoreOf metric size ins out (treeTrace b) ∧
    scoreOf metric size ins out (treeTrace b) ≤ costTwice metric (btCost metric size (openLabels ins out) b) := by
  induction b with
  | leaf i => cases metric <;> simp [btCost, treeTrace, scoreOf, costTwice]
  | node l r ihl ihr =>
    rw [scoreOf_node]
    cases metric <;> simp only [btCost, stepCost, costTwice, gScore, gPlan_pair h, gSize_pair] at ihl ihr ⊢
    case custom fn => exact absurd rfl (hm fn)
    case size => omega
    case write => omega
    all_goals
      generalize (∏ c ∈ openLabels ins out l.set ∪ openLabels ins out r.set, size c) = P at *
      generalize (∏ c ∈ openLabels ins out (l.set ∪ r.set), size c) = Q at *
    case flops => split <;> omega
    case combo k =>
      rw [Nat.mul_assoc]
      generalize k * Q = X
      split <;> omega
    case limit k =>
      rw [Nat.mul_assoc]
      generalize k * Q = X
      split <;> omega

/-- The score of a tree without hyperedges and outer products. -/
theorem score_exact (h : NoLoneLabels ins out) (hh : NoHyperEdges ins out) {metric : Metric} (hm : Named metric) {b : BTree} (hnd : b.leaves.Nodup)
    (hno : NoOuter out (openLabels ins out) b) :
    scoreOf metric size ins out (treeTrace b) = costTwice metric (btCost metric size (openLabels ins out) b) := by
  induction b with
  | leaf i => cases metric <;> simp [btCost, treeTrace, scoreOf, costTwice]
  | node l r ihl ihr =>
    rw [BTree.leaves, List.nodup_append] at hnd
    obtain ⟨⟨c, hcl, hcr, hc⟩, hl, hr⟩ := hno
    have hd : Disjoint l.set r.set := by
      rw [Finset.disjoint_left]
      intro x hx hy
      exact hnd.2.2 x (List.mem_toFinset.mp hx) x (List.mem_toFinset.mp hy) rfl
    have hs := inner_summed hh hd hcl hcr hc
    have hne : ¬ openLabels ins out l.set ∪ openLabels ins out r.set = openLabels ins out (l.set ∪ r.set) :=
      fun e => hs (e ▸ Finset.mem_union_left _ hcl)
    replace ihl := ihl hnd.1 hl
    replace ihr := ihr hnd.2.1 hr
    rw [scoreOf_node]
    cases metric <;> simp only [btCost, stepCost, costTwice, gScore, gPlan_pair h, gSize_pair, if_neg hne] at ihl ihr ⊢
    case custom fn => exact absurd rfl (hm fn)
    case size => omega
    case write => omega
    all_goals
      generalize (∏ c ∈ openLabels ins out l.set ∪ openLabels ins out r.set, size c) = P at *
      generalize (∏ c ∈ openLabels ins out (l.set ∪ r.set), size c) = Q at *
    case flops => omega
    case combo k =>
      rw [Nat.mul_assoc]
      generalize k * Q = X
      omega
    case limit k =>
      rw [Nat.mul_assoc]
      generalize k * Q = X
      omega

end

end OE.Props
