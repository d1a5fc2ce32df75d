import Verif.Spec.DpParts
import Verif.Props.CostLaws

/-!
# C92: dynamic programming on networks in several parts
-/

namespace OE.Props
open OE OE.Py OE.Spec OE.Parser OE.Helpers OE.Contract OE.Paths OE.Registry

/-! ## Products of ascending numbers -/

theorem take_prod_le {l : List Nat} (hl : l.Pairwise (· ≤ ·)) {t : List Nat} (ht : t.Subperm l) : (l.take t.length).prod ≤ t.prod := by
  induction l generalizing t with
  | nil => rw [List.subperm_nil.mp ht]; simp
  | cons x xs ih =>
    rw [List.pairwise_cons] at hl
    cases ht0 : t with
    | nil => simp
    | cons y0 t0 =>
      have hex : ∃ y u, t.Perm (y :: u) ∧ x ≤ y ∧ u.Subperm xs := by
        by_cases hx : x ∈ t
        · refine ⟨x, t.erase x, List.perm_cons_erase hx, le_refl _, ?_⟩
          have := ht.erase x
          rwa [List.erase_cons_head] at this
        · have hs : t.Subperm xs := by
            have := ht.erase x
            rwa [List.erase_cons_head, List.erase_of_not_mem hx] at this
          rw [ht0] at hs
          exact ⟨y0, t0, by rw [ht0], hl.1 y0 (hs.subset List.mem_cons_self), (List.sublist_cons_self y0 t0).subperm.trans hs⟩
      obtain ⟨y, u, h1, h2, h3⟩ := hex
      rw [← ht0, h1.length_eq, h1.prod_eq, List.length_cons, List.take_succ_cons, List.prod_cons, List.prod_cons]
      exact Nat.mul_le_mul h2 (ih hl.2 h3)

/-- The products of the number and the first, the first two, ... of the list. -/
def prefixProds (p : Nat) : List Nat → List Nat
  | [] => []
  | x :: xs => (p * x) :: prefixProds (p * x) xs

theorem prefixProds_length (p : Nat) (l : List Nat) : (prefixProds p l).length = l.length := by
  induction l generalizing p with
  | nil => rfl
  | cons x xs ih => simp [prefixProds, ih]

theorem prefixProds_get (p : Nat) (l : List Nat) {k : Nat} (hk : k < l.length) : (prefixProds p l)[k]? = some (((p :: l).take (k + 2)).prod) := by
  induction l generalizing p k with
  | nil => simp at hk
  | cons x xs ih =>
    cases k with
    | zero => simp [prefixProds]
    | succ k =>
      rw [prefixProds, List.getElem?_cons_succ, ih _ (by simpa using hk)]
      simp only [List.take_succ_cons, List.prod_cons, Nat.mul_assoc]

/-- The ascending order has the smallest products. -/
theorem prefixProds_le {a a' : Nat} {l l' : List Nat} (hp : (a :: l).Perm (a' :: l')) (hs : (a :: l).Pairwise (· ≤ ·)) :
    List.Forall₂ (· ≤ ·) (prefixProds a l) (prefixProds a' l') := by
  have hlen : l.length = l'.length := by simpa using hp.length_eq
  rw [List.forall₂_iff_get]
  refine ⟨by rw [prefixProds_length, prefixProds_length, hlen], ?_⟩
  intro k h1 h2
  rw [prefixProds_length] at h1 h2
  have e1 := prefixProds_get a l h1
  have e2 := prefixProds_get a' l' h2
  rw [List.getElem?_eq_some_iff] at e1 e2
  obtain ⟨_, e1⟩ := e1
  obtain ⟨_, e2⟩ := e2
  rw [List.get_eq_getElem, List.get_eq_getElem, e1, e2]
  have := take_prod_le hs (t := (a' :: l').take (k + 2)) ((List.take_sublist _ _).subperm.trans hp.symm.subperm)
  rw [List.length_take, List.length_cons, Nat.min_eq_left (by omega)] at this
  exact this

theorem sum_le_of_forall₂ {l l' : List Nat} (h : List.Forall₂ (· ≤ ·) l l') : l.sum ≤ l'.sum := by
  induction h with
  | nil => exact le_refl _
  | cons h _ ih => simp only [List.sum_cons]; exact Nat.add_le_add h ih

theorem max_le_of_forall₂ {l l' : List Nat} (h : List.Forall₂ (· ≤ ·) l l') : l.foldr max 0 ≤ l'.foldr max 0 := by
  induction h with
  | nil => exact le_refl _
  | cons h _ ih => simp only [List.foldr_cons]; exact max_le_max h ih

theorem prefixProds_two {p : Nat} {l : List Nat} (h : ∀ x ∈ l, 2 ≤ x) : (prefixProds p l).sum + 2 * p ≤ 2 * (p * l.prod) := by
  induction l generalizing p with
  | nil => simp [prefixProds]
  | cons x xs ih =>
    have h1 := ih (p := p * x) (fun y hy => h y (List.mem_cons_of_mem _ hy))
    have h2 : p * 2 ≤ p * x := Nat.mul_le_mul_left p (h x List.mem_cons_self)
    rw [prefixProds, List.sum_cons, List.prod_cons, ← Nat.mul_assoc p x]
    omega

theorem prefixProds_one {l : List Nat} (hs : l.Pairwise (· ≤ ·)) (h : ∀ x ∈ l, 1 ≤ x) : (prefixProds 1 l).sum ≤ 2 * l.prod + (l.length - 1) := by
  induction l with
  | nil => simp [prefixProds]
  | cons x xs ih =>
    rw [List.pairwise_cons] at hs
    have hx := h x List.mem_cons_self
    by_cases h1 : x = 1
    · subst h1
      have := ih hs.2 (fun y hy => h y (List.mem_cons_of_mem _ hy))
      rw [prefixProds, List.sum_cons, List.prod_cons, Nat.one_mul, Nat.one_mul, List.length_cons]
      cases xs with
      | nil => simp [prefixProds]
      | cons y ys =>
        rw [List.length_cons] at this ⊢
        omega
    · have := prefixProds_two (p := 1) (l := x :: xs) (fun y hy => by
        rcases List.mem_cons.mp hy with rfl | hy
        · omega
        · have := hs.1 y hy
          omega)
      omega

/-- The products of ascending numbers add up to hardly more than twice the last. -/
theorem prefixProds_sum {a : Nat} {l : List Nat} (hs : (a :: l).Pairwise (· ≤ ·)) (h : ∀ x ∈ a :: l, 1 ≤ x) :
    (prefixProds a l).sum ≤ 2 * (a :: l).prod + (l.length - 1) := by
  rw [List.pairwise_cons] at hs
  by_cases h1 : a = 1
  · subst h1
    rw [List.prod_cons, Nat.one_mul]
    exact prefixProds_one hs.2 (fun y hy => h y (List.mem_cons_of_mem _ hy))
  · have ha := h a List.mem_cons_self
    have := prefixProds_two (p := a) (l := l) (fun y hy => by have := hs.1 y hy; omega)
    rw [List.prod_cons]
    omega

theorem prefixProds_max {a : Nat} {l : List Nat} (h : ∀ x ∈ a :: l, 1 ≤ x) : ∀ y ∈ prefixProds a l, y ≤ (a :: l).prod := by
  induction l generalizing a with
  | nil => simp [prefixProds]
  | cons x xs ih =>
    have hpos : ∀ y ∈ xs, 1 ≤ y := fun y hy => h y (List.mem_cons_of_mem _ (List.mem_cons_of_mem _ hy))
    have hax : 1 ≤ a * x := Nat.mul_pos (h a List.mem_cons_self) (h x (List.mem_cons_of_mem _ List.mem_cons_self))
    have hxs : 1 ≤ xs.prod := List.prod_pos (fun y hy => hpos y hy)
    intro y hy
    rw [prefixProds, List.mem_cons] at hy
    rw [List.prod_cons, List.prod_cons, ← Nat.mul_assoc]
    rcases hy with rfl | hy
    · exact Nat.le_mul_of_pos_right _ hxs
    · have := ih (a := a * x) (by
        intro z hz
        rcases List.mem_cons.mp hz with rfl | hz
        · exact hax
        · exact hpos z hz) y hy
      rwa [List.prod_cons] at this

/-! ## The sizes of joins -/

/-- The sizes of the results of the joins, given those of the parts. -/
def joinSizes (sz : BTree → Nat) : Joined → List Nat
  | .part _ => []
  | .join l r => joinSizes sz l ++ joinSizes sz r ++ [((Joined.join l r).parts.map sz).prod]

theorem inTurn_snoc (b : BTree) (bs : List BTree) (u : BTree) : Joined.inTurn b (bs ++ [u]) = .join (Joined.inTurn b bs) (.part u) := by
  simp [Joined.inTurn]

theorem inTurn_parts (b : BTree) (bs : List BTree) : (Joined.inTurn b bs).parts = b :: bs := by
  induction bs using List.reverseRecOn with
  | nil => rfl
  | append_singleton bs u ih => rw [inTurn_snoc, Joined.parts, ih]; rfl

theorem inTurn_tree (b : BTree) (bs : List BTree) : (Joined.inTurn b bs).tree = bs.foldl .node b := by
  induction bs using List.reverseRecOn with
  | nil => rfl
  | append_singleton bs u ih => rw [inTurn_snoc, Joined.tree, ih, List.foldl_append]; rfl

theorem prefixProds_snoc (p : Nat) (l : List Nat) (x : Nat) : prefixProds p (l ++ [x]) = prefixProds p l ++ [(p :: (l ++ [x])).prod] := by
  induction l generalizing p with
  | nil => simp [prefixProds]
  | cons y ys ih => simp only [List.cons_append, prefixProds, ih, List.prod_cons, Nat.mul_assoc]

theorem joinSizes_inTurn (sz : BTree → Nat) (b : BTree) (bs : List BTree) : joinSizes sz (Joined.inTurn b bs) = prefixProds (sz b) (bs.map sz) := by
  induction bs using List.reverseRecOn with
  | nil => rfl
  | append_singleton bs u ih =>
    rw [inTurn_snoc, joinSizes, ih, List.map_append, List.map_singleton, prefixProds_snoc, Joined.parts, inTurn_parts]
    simp only [joinSizes, List.append_nil, Joined.parts, List.map_append, List.map_cons, List.map_nil, List.cons_append]

theorem parts_pos (j : Joined) : 0 < j.parts.length := by
  induction j with
  | part b => simp [Joined.parts]
  | join l r ihl _ => rw [Joined.parts, List.length_append]; omega

theorem joins_count {sz : BTree → Nat} (j : Joined) (h : ∀ b ∈ j.parts, 1 ≤ sz b) : j.parts.length ≤ (joinSizes sz j).sum + 1 := by
  induction j with
  | part b => simp [Joined.parts]
  | join l r ihl ihr =>
    have hp : 1 ≤ ((Joined.join l r).parts.map sz).prod := by
      apply Nat.succ_le_of_lt
      apply List.prod_pos
      intro x hx
      obtain ⟨b, hb, rfl⟩ := List.mem_map.mp hx
      exact h b hb
    rw [Joined.parts] at h
    replace ihl := ihl (fun b hb => h b (List.mem_append_left _ hb))
    replace ihr := ihr (fun b hb => h b (List.mem_append_right _ hb))
    rw [joinSizes, List.sum_append, List.sum_append, List.sum_singleton]
    rw [show (Joined.join l r).parts.length = l.parts.length + r.parts.length from List.length_append]
    omega

theorem joins_below {sz : BTree → Nat} (j : Joined) (h : ∀ b ∈ j.parts, 1 ≤ sz b) (h2 : 2 ≤ j.parts.length) :
    (j.parts.map sz).prod + (j.parts.length - 2) ≤ (joinSizes sz j).sum ∧ (j.parts.map sz).prod ∈ joinSizes sz j := by
  cases j with
  | part b => simp [Joined.parts] at h2
  | join l r =>
    have hl := joins_count (sz := sz) l (fun b hb => h b (by rw [Joined.parts]; exact List.mem_append_left _ hb))
    have hr := joins_count (sz := sz) r (fun b hb => h b (by rw [Joined.parts]; exact List.mem_append_right _ hb))
    have := parts_pos l
    have := parts_pos r
    refine ⟨?_, by simp [joinSizes]⟩
    rw [joinSizes, List.sum_append, List.sum_append, List.sum_singleton]
    rw [show (Joined.join l r).parts.length = l.parts.length + r.parts.length from List.length_append]
    omega

/-! ## Parts and the labels of their results -/

section
variable {size : Nat → Nat} {ins : List (Finset Nat)} {out : Finset Nat}

/-- Shares no summed label with the rest. -/
def Apart (ins : List (Finset Nat)) (out G : Finset Nat) : Prop := ∀ i ∈ G, ∀ j, j < ins.length → j ∉ G → ¬ Share ins out i j

theorem Apart.union {A B : Finset Nat} (hA : Apart ins out A) (hB : Apart ins out B) : Apart ins out (A ∪ B) := by
  intro i hi j hj hn
  rw [Finset.mem_union, not_or] at hn
  rcases Finset.mem_union.mp hi with hi | hi
  · exact hA i hi j hj hn.1
  · exact hB i hi j hj hn.2

theorem apart_labels {A : Finset Nat} (hA : Apart ins out A) : openLabels ins out A = (A.biUnion (fun i => ins.getD i ∅)).filter (· ∈ out) := by
  unfold openLabels
  apply Finset.filter_congr
  intro c hc
  refine ⟨fun h => ?_, Or.inl⟩
  rcases h with h | ⟨k, hk, hck⟩
  · exact h
  · by_contra hn
    obtain ⟨i, hi, hci⟩ := Finset.mem_biUnion.mp hc
    rw [Finset.mem_sdiff, Finset.mem_range] at hk
    exact hA i hi k hk.1 hk.2 ⟨c, hci, hck, hn⟩

theorem apart_union_labels {A B : Finset Nat} (hA : Apart ins out A) (hB : Apart ins out B) :
    openLabels ins out (A ∪ B) = openLabels ins out A ∪ openLabels ins out B := by
  rw [apart_labels (hA.union hB), apart_labels hA, apart_labels hB, Finset.union_biUnion, Finset.filter_union]

theorem apart_closed {A : Finset Nat} (hA : Apart ins out A) {i j : Nat} (hch : Chain ins out (Finset.range ins.length) i j) (hi : i ∈ A) : j ∈ A := by
  induction hch with
  | refl _ => exact hi
  | step h1 h2 h3 ih =>
    by_contra hn
    exact hA _ ih _ (Finset.mem_range.mp h3) hn h2

theorem apart_disjoint (hd : PartsDisjoint ins out) {A B : Finset Nat} (hA : Apart ins out A) (hAB : Disjoint A B)
    (hAl : ∀ i ∈ A, i < ins.length) (hBl : ∀ i ∈ B, i < ins.length) : Disjoint (openLabels ins out A) (openLabels ins out B) := by
  rw [Finset.disjoint_left]
  intro c hcA hcB
  rw [mem_openLabels] at hcA hcB
  obtain ⟨⟨i, hi, hci⟩, -⟩ := hcA
  obtain ⟨⟨j, hj, hcj⟩, -⟩ := hcB
  exact Finset.disjoint_left.mp hAB (apart_closed hA (hd i (hAl i hi) j (hBl j hj) c hci hcj) hi) hj

/-- What a join costs, for each element of its result. -/
def joinCoef : Metric → Nat
  | .combo k => 1 + 2 * k
  | .limit k => max 1 (2 * k)
  | .custom _ => 0
  | _ => 1

theorem tree_leaves (j : Joined) : j.tree.leaves = j.parts.flatMap BTree.leaves := by
  induction j with
  | part b => simp [Joined.tree, Joined.parts]
  | join l r ihl ihr => rw [Joined.tree, BTree.leaves, ihl, ihr, Joined.parts, List.flatMap_append]

theorem joined_apart (j : Joined) (h : ∀ b ∈ j.parts, Apart ins out b.set) : Apart ins out j.tree.set := by
  induction j with
  | part b => exact h b (by simp [Joined.parts])
  | join l r ihl ihr =>
    rw [Joined.tree, set_node]
    exact (ihl (fun b hb => h b (List.mem_append_left _ hb))).union (ihr (fun b hb => h b (List.mem_append_right _ hb)))

/-- The result of joined parts, and each join. -/
theorem joined_size (hd : PartsDisjoint ins out) (j : Joined) (h : ∀ b ∈ j.parts, Apart ins out b.set) (hnd : j.tree.leaves.Nodup)
    (hlt : ∀ i ∈ j.tree.leaves, i < ins.length) : outSize size ins out j.tree = (j.parts.map (outSize size ins out)).prod := by
  induction j with
  | part b => simp [Joined.tree, Joined.parts]
  | join l r ihl ihr =>
    rw [Joined.tree, BTree.leaves] at hnd hlt
    have hl := joined_apart l (fun b hb => h b (List.mem_append_left _ hb))
    have hr := joined_apart r (fun b hb => h b (List.mem_append_right _ hb))
    have hnd' := List.nodup_append.mp hnd
    have hdis : Disjoint l.tree.set r.tree.set := by
      rw [Finset.disjoint_left]
      intro x hx hy
      exact hnd'.2.2 x (List.mem_toFinset.mp hx) x (List.mem_toFinset.mp hy) rfl
    rw [Joined.parts, List.map_append, List.prod_append, ← ihl (fun b hb => h b (List.mem_append_left _ hb)) hnd'.1 (fun i hi => hlt i (List.mem_append_left _ hi)),
      ← ihr (fun b hb => h b (List.mem_append_right _ hb)) hnd'.2.1 (fun i hi => hlt i (List.mem_append_right _ hi))]
    unfold outSize
    rw [Joined.tree, set_node, apart_union_labels hl hr, Finset.prod_union (apart_disjoint hd hl hdis
      (fun i hi => hlt i (List.mem_append_left _ (List.mem_toFinset.mp hi))) (fun i hi => hlt i (List.mem_append_right _ (List.mem_toFinset.mp hi))))]

theorem gScore_join (hlone : NoLoneLabels ins out) {metric : Metric} {l r : BTree} (hl : Apart ins out l.set) (hr : Apart ins out r.set) :
    gScore metric size ins out {tagOf l, tagOf r} = joinCoef metric * outSize size ins out (.node l r) := by
  have hu := apart_union_labels hl hr
  have hp : gPlan size ins out {tagOf l, tagOf r} = outSize size ins out (.node l r) := by
    rw [gPlan_pair hlone, if_pos hu.symm, outSize, set_node, hu]
    omega
  have hs : gSize size ins out {tagOf l, tagOf r} = outSize size ins out (.node l r) := by
    rw [gSize_pair, outSize, set_node]
  cases metric with
  | flops => simp only [gScore, joinCoef, hp, Nat.one_mul]
  | size => simp only [gScore, joinCoef, hs, Nat.one_mul]
  | write => simp only [gScore, joinCoef, hs, Nat.one_mul]
  | combo k => simp only [gScore, joinCoef, hp, hs, Nat.add_mul, Nat.one_mul]
  | limit k => simp only [gScore, joinCoef, hp, hs, max_mul, Nat.one_mul]
  | custom f => simp only [gScore, joinCoef, Nat.zero_mul]

/-- The score of a tree of joined parts. -/
theorem score_joined (hlone : NoLoneLabels ins out) (hd : PartsDisjoint ins out) {metric : Metric} (j : Joined) (h : ∀ b ∈ j.parts, Apart ins out b.set)
    (hnd : j.tree.leaves.Nodup) (hlt : ∀ i ∈ j.tree.leaves, i < ins.length) :
    scoreOf metric size ins out (treeTrace j.tree) =
      match metric with
      | .size => max ((j.parts.map (fun b => scoreOf .size size ins out (treeTrace b))).foldr max 0) ((joinSizes (outSize size ins out) j).foldr max 0)
      | m => (j.parts.map (fun b => scoreOf m size ins out (treeTrace b))).sum + joinCoef m * (joinSizes (outSize size ins out) j).sum := by
  induction j with
  | part b => cases metric <;> simp [Joined.tree, Joined.parts, joinSizes]
  | join l r ihl ihr =>
    have hsz := joined_size (size := size) hd (.join l r) h hnd hlt
    rw [Joined.tree] at hsz
    rw [Joined.tree, BTree.leaves] at hnd hlt
    have hnd' := List.nodup_append.mp hnd
    have hg := fun m => gScore_join (size := size) (metric := m) hlone (joined_apart l (fun b hb => h b (List.mem_append_left _ hb)))
      (joined_apart r (fun b hb => h b (List.mem_append_right _ hb)))
    replace ihl := ihl (fun b hb => h b (List.mem_append_left _ hb)) hnd'.1 (fun i hi => hlt i (List.mem_append_left _ hi))
    replace ihr := ihr (fun b hb => h b (List.mem_append_right _ hb)) hnd'.2.1 (fun i hi => hlt i (List.mem_append_right _ hi))
    have hpl : ∀ f : BTree → Nat, (Joined.join l r).parts.map f = l.parts.map f ++ r.parts.map f := fun f => List.map_append
    have hmax : ∀ a b : List Nat, (a ++ b).foldr max 0 = max (a.foldr max 0) (b.foldr max 0) := by
      intro a b
      induction a with
      | nil => simp
      | cons x a ih => rw [List.cons_append, List.foldr_cons, List.foldr_cons, ih, max_assoc]
    rw [Joined.tree, scoreOf_node]
    rw [hsz] at hg
    cases metric with
    | size =>
      simp only at ihl ihr ⊢
      rw [ihl, ihr, hg, joinSizes, hmax, hmax, hpl, hpl, hmax]
      simp only [joinCoef, Nat.one_mul, List.foldr_cons, List.foldr_nil]
      generalize (List.map (outSize size ins out) l.parts ++ _).prod = X
      omega
    | _ =>
      simp only at ihl ihr ⊢
      rw [ihl, ihr, hg, joinSizes, List.sum_append, List.sum_append, List.sum_singleton, hpl, hpl, List.sum_append]
      simp only [Nat.mul_add]
      omega

theorem btValue_make (b : BTree) : btValue make (fun i => madeOf (.leaf i)) b = madeOf b := by
  induction b with
  | leaf i => rfl
  | node l r ihl ihr => rw [madeOf_node, btValue, ihl, ihr]

/-- What a nested tuple stands for, if no input is wrapped. -/
theorem treeValue_bt {α : Type} {combine : Multiset α → α} {v : Nat → α} {t : Tree} {b : BTree} (h : Represents ins out t b)
    (hlone : ∀ i ∈ b.leaves, ¬ HasLone ins out i) : treeValue combine v t = btValue combine v b := by
  induction h with
  | leaf i _ => rfl
  | wrapped i hi => exact absurd hi (hlone i (by simp [BTree.leaves]))
  | node h1 h2 ih1 ih2 =>
    rw [BTree.leaves] at hlone
    rw [btValue, ← ih1 (fun i hi => hlone i (List.mem_append_left _ hi)), ← ih2 (fun i hi => hlone i (List.mem_append_right _ hi))]
    rfl

theorem contracts_trace {n : Nat} {q : Path} (hv : ValidPath n q) {b : BTree} (h : Contracts n q b) :
    Multiset.ofList (linTrace combineTag (tags n) q) = treeTrace b := by
  apply trace_of_made hv
  rw [h, btValue_make]

theorem fits_all {P : Nat → Prop} {m : Option Nat} (h : ∀ s, P s ↔ ∀ k, m = some k → s ≤ k) {size' : Nat → Nat}
    (hs : ∀ s ∈ ins, ∀ c ∈ s, size c = size' c) (b : BTree) : AllResults P size (openLabels ins out) b ↔ Spec.Fits size' (openLabels ins out) m b := by
  induction b with
  | leaf i => exact Iff.rfl
  | node l r ihl ihr =>
    have : ∏ c ∈ openLabels ins out (l.set ∪ r.set), size c = ∏ c ∈ openLabels ins out (l.set ∪ r.set), size' c := by
      apply Finset.prod_congr rfl
      intro c hc
      rw [mem_openLabels] at hc
      obtain ⟨⟨i, -, hci⟩, -⟩ := hc
      obtain ⟨t, ht, hct⟩ := getD_some hci
      exact hs t (List.mem_of_getElem? ht) c hct
    simp only [AllResults, Spec.Fits, ihl, ihr, h, this]

/-- Two lists of trees over the same parts, matched. -/
theorem match_parts {bs cs : List BTree} (hb : ∀ c ∈ cs, ∃ b ∈ bs, b.set = c.set) (hbn : (bs.map BTree.set).Nodup) (hcn : (cs.map BTree.set).Nodup)
    (hc : ∀ b ∈ bs, ∃ c ∈ cs, c.set = b.set) : ∃ bs', bs'.Perm bs ∧ List.Forall₂ (fun b c => b.set = c.set) bs' cs := by
  have hperm : (cs.map BTree.set).Perm (bs.map BTree.set) := by
    rw [List.perm_ext_iff_of_nodup hcn hbn]
    intro G
    constructor
    · intro hG
      obtain ⟨c, hc', rfl⟩ := List.mem_map.mp hG
      obtain ⟨b, h1, h2⟩ := hb c hc'
      exact List.mem_map.mpr ⟨b, h1, h2⟩
    · intro hG
      obtain ⟨b, hb', rfl⟩ := List.mem_map.mp hG
      obtain ⟨c, h1, h2⟩ := hc b hb'
      exact List.mem_map.mpr ⟨c, h1, h2⟩
  have hrel : List.Forall₂ (fun G b => BTree.set b = G) (bs.map BTree.set) bs := by
    rw [List.forall₂_map_left_iff, List.forall₂_same]
    intro _ _
    rfl
  obtain ⟨bs', h1, h2⟩ := List.perm_comp_forall₂ hperm hrel
  exact ⟨bs', h2, (List.forall₂_map_left_iff.mp h1).flip⟩

theorem sets_nodup {bs : List BTree} (h : (bs.flatMap BTree.leaves).Nodup) : (bs.map BTree.set).Nodup := by
  have hleaf : ∀ a : BTree, ∃ x, x ∈ a.leaves := by
    intro a
    induction a with
    | leaf i => exact ⟨i, by simp [BTree.leaves]⟩
    | node l r ihl _ => exact ihl.elim (fun x hx => ⟨x, by rw [BTree.leaves]; exact List.mem_append_left _ hx⟩)
  rw [List.nodup_flatMap] at h
  unfold List.Nodup
  rw [List.pairwise_map]
  apply h.2.imp
  intro a b hab he
  obtain ⟨x, hx⟩ := hleaf a
  have : x ∈ b.set := by rw [← he]; exact List.mem_toFinset.mpr hx
  exact hab hx (List.mem_toFinset.mp this)

/-- Trees for the parts, as dynamic programming wants them: cheapest for each part. -/
structure CheapParts (metric : Metric) (size : Nat → Nat) (ins : List (Finset Nat)) (out : Finset Nat) (m : Option Nat) (bs : List BTree) : Prop where
  all : (bs.flatMap BTree.leaves).Perm (List.range ins.length)
  part : ∀ b ∈ bs, IsPart ins out b.set
  noOuter : ∀ b ∈ bs, NoOuter out (openLabels ins out) b
  fits : ∀ b ∈ bs, Spec.Fits size (openLabels ins out) m b
  minimal : ∀ b ∈ bs, ∀ b' : BTree, b'.set = b.set → Spec.Allowed false size out (openLabels ins out) m b' →
    btCost metric size (openLabels ins out) b ≤ btCost metric size (openLabels ins out) b'

theorem leaf_exists (a : BTree) : ∃ x, x ∈ a.leaves := by
  induction a with
  | leaf i => exact ⟨i, by simp [BTree.leaves]⟩
  | node l r ihl _ => exact ihl.elim (fun x hx => ⟨x, by rw [BTree.leaves]; exact List.mem_append_left _ hx⟩)

/-- What dynamic programming returns for a network without lone labels. -/
theorem dp_parts {order : PopOrder} (ho : PopOK order) {cfg : DPCfg} {limit : Option Nat} (hso : cfg.searchOuter = false) (h2 : 2 ≤ ins.length)
    (hl : NoLoneLabels ins out) {fuel : Nat} {path : Path} (hcall : dpCall cfg order size limit ins out fuel = some (.ok path)) :
    CompletePath ins.length path ∧ ∃ b bs, Contracts ins.length path (Joined.inTurn b bs).tree ∧ CheapParts cfg.metric size ins out limit (b :: bs) ∧
      ((b :: bs).map (outSize size ins out)).Pairwise (· ≤ ·) := by
  have hne : ins ≠ [] := by intro e; rw [e] at h2; simp at h2
  have hcomp : CompletePath ins.length path := by
    rcases (C17_dp_complete_partial ho cfg size ins hne out).2 limit fuel path hcall with h | ⟨h, -⟩
    · exact h
    · omega
  refine ⟨hcomp, ?_⟩
  obtain ⟨t, ts, bs, h⟩ := dp_result ho hne hcall
  have htr := h.trees
  cases htr with
  | @cons _ b _ bs hr hrs =>
    refine ⟨b, bs, ?_, ⟨h.partition, ?_, fun x hx => (h.groups x hx).allowed.2.1 hso, fun x hx => (h.groups x hx).allowed.2.2, ?_⟩, h.ascending⟩
    · intro α combine v
      rw [h.exec, inTurn_tree]
      congr 1
      have hb : treeValue combine v t = btValue combine v b := treeValue_bt hr (fun i _ => noLone_input hl i)
      rw [hb]
      clear hb hcomp h hr
      induction hrs generalizing b with
      | nil => rfl
      | cons h1 _ ih =>
        rw [List.foldl_cons, List.foldl_cons, ← ih, treeValue_bt h1 (fun i _ => noLone_input hl i)]
        rfl
    · intro x hx
      have hg := h.groups x hx
      refine ⟨(leaf_exists x).elim (fun i hi => ⟨i, List.mem_toFinset.mpr hi⟩), ?_, hg.apart, hg.linked hso⟩
      intro i hi
      exact List.mem_range.mp (h.partition.mem_iff.mp (List.mem_flatMap.mpr ⟨x, hx, List.mem_toFinset.mp hi⟩))
    · intro x hx b' hb' hall
      exact (h.groups x hx).minimal b' hb' (hso ▸ hall)

/-- Two parts that have an operand in common are the same. -/
theorem part_unique {A B : Finset Nat} (hA : IsPart ins out A) (hB : IsPart ins out B) {i : Nat} (hiA : i ∈ A) (hiB : i ∈ B) : A = B := by
  have key : ∀ {A B : Finset Nat}, IsPart ins out A → IsPart ins out B → i ∈ A → i ∈ B → A ⊆ B := by
    intro A B hA hB hiA hiB j hj
    exact apart_closed hB.apart ((hA.linked i hiA j hj).mono (fun x hx => Finset.mem_range.mpr (hA.lt x hx))) hiB
  exact Finset.Subset.antisymm (key hA hB hiA hiB) (key hB hA hiB hiA)

theorem parts_cover {bs cs : List BTree} (hb : ∀ b ∈ bs, IsPart ins out b.set) (hc : ∀ c ∈ cs, IsPart ins out c.set)
    (hall : (bs.flatMap BTree.leaves).Perm (List.range ins.length)) : ∀ c ∈ cs, ∃ b ∈ bs, b.set = c.set := by
  intro c hc'
  obtain ⟨i, hi⟩ := (hc c hc').nonempty
  have : i ∈ bs.flatMap BTree.leaves := hall.mem_iff.mpr (List.mem_range.mpr ((hc c hc').lt i hi))
  obtain ⟨b, hb', hib⟩ := List.mem_flatMap.mp this
  exact ⟨b, hb', part_unique (hb b hb') (hc c hc') (List.mem_toFinset.mpr hib) hi⟩

theorem costTwice_mono (m : Metric) {a b : Nat} (h : a ≤ b) : costTwice m a ≤ costTwice m b := by
  cases m <;> simp only [costTwice] <;> omega

theorem costTwice_le (m : Metric) (a : Nat) : costTwice m a ≤ (match m with | .size => 1 | _ => 2) * a := by
  cases m <;> simp only [costTwice] <;> omega

theorem forall₂_sums {α β : Type} {R : α → β → Prop} {f : α → Nat} {g : β → Nat} {k : Nat} {l : List α} {l' : List β} (h : List.Forall₂ R l l')
    (hR : ∀ a ∈ l, ∀ b ∈ l', R a b → f a ≤ k * g b) : (l.map f).sum ≤ k * (l'.map g).sum ∧ (l.map f).foldr max 0 ≤ k * (l'.map g).foldr max 0 := by
  induction h with
  | nil => simp
  | @cons a b l l' h1 _ ih =>
    obtain ⟨i1, i2⟩ := ih (fun a ha b hb => hR a (List.mem_cons_of_mem _ ha) b (List.mem_cons_of_mem _ hb))
    have := hR a List.mem_cons_self b List.mem_cons_self h1
    simp only [List.map_cons, List.sum_cons, List.foldr_cons, Nat.mul_add]
    refine ⟨Nat.add_le_add this i1, ?_⟩
    rw [← Nat.mul_max_mul_left]
    exact max_le_max this i2

theorem max_mem {l : List Nat} {k : Nat} (h : ∀ x ∈ l, x ≤ k) : l.foldr max 0 ≤ k := by
  induction l with
  | nil => simp
  | cons x l ih => exact max_le (h x List.mem_cons_self) (ih (fun y hy => h y (List.mem_cons_of_mem _ hy)))

theorem le_max_mem {l : List Nat} {x : Nat} (h : x ∈ l) : x ≤ l.foldr max 0 := by
  induction l with
  | nil => cases h
  | cons y l ih =>
    rcases List.mem_cons.mp h with rfl | h
    · exact le_max_left _ _
    · exact le_trans (ih h) (le_max_right _ _)

theorem max_perm {l l' : List Nat} (h : l.Perm l') : l.foldr max 0 = l'.foldr max 0 :=
  le_antisymm (max_mem (fun _ hx => le_max_mem (h.mem_iff.mp hx))) (max_mem (fun _ hx => le_max_mem (h.mem_iff.mpr hx)))

/-- What dynamic programming makes of the parts, against other trees for the parts. -/
theorem parts_compare (hlone : NoLoneLabels ins out) (hd : PartsDisjoint ins out) {metric : Metric} (hm : Named metric) {limit : Option Nat} {b : BTree} {bs : List BTree}
    (hc : CheapParts metric size ins out limit (b :: bs)) (hasc : ((b :: bs).map (outSize size ins out)).Pairwise (· ≤ ·)) {j : Joined}
    (hall : (j.parts.flatMap BTree.leaves).Perm (List.range ins.length)) (hpart : ∀ c ∈ j.parts, IsPart ins out c.set)
    (hno : ∀ c ∈ j.parts, NoOuter out (openLabels ins out) c) (hfit : ∀ c ∈ j.parts, Spec.Fits size (openLabels ins out) limit c) :
    (NoHyperEdges ins out → ∀ b' bs', j = Joined.inTurn b' bs' →
      scoreOf metric size ins out (treeTrace (Joined.inTurn b bs).tree) ≤ scoreOf metric size ins out (treeTrace j.tree)) ∧
    ((∀ i, ∀ c ∈ ins.getD i ∅, c ∈ out → 1 ≤ size c) → scoreOf metric size ins out (treeTrace (Joined.inTurn b bs).tree) ≤ slackOf metric * scoreOf metric size ins out (treeTrace j.tree)) := by
  have hnd1 : ((b :: bs).flatMap BTree.leaves).Nodup := hc.all.nodup_iff.mpr List.nodup_range
  have hnd2 : (j.parts.flatMap BTree.leaves).Nodup := hall.nodup_iff.mpr List.nodup_range
  obtain ⟨bs', hperm, hrel⟩ := match_parts (parts_cover hc.part hpart hc.all) (sets_nodup hnd1) (sets_nodup hnd2) (parts_cover hpart hc.part hall)
  have hs1 := score_joined (size := size) (metric := metric) hlone hd (Joined.inTurn b bs) (by rw [inTurn_parts]; exact fun x hx => (hc.part x hx).apart)
    (by rw [tree_leaves, inTurn_parts]; exact hnd1) (by rw [tree_leaves, inTurn_parts]; exact fun i hi => List.mem_range.mp (hc.all.mem_iff.mp hi))
  have hs2 := score_joined (size := size) (metric := metric) hlone hd j (fun x hx => (hpart x hx).apart) (by rw [tree_leaves]; exact hnd2)
    (by rw [tree_leaves]; exact fun i hi => List.mem_range.mp (hall.mem_iff.mp hi))
  rw [inTurn_parts, joinSizes_inTurn] at hs1
  -- the sizes of the parts are the same
  have hsz : ((b :: bs).map (outSize size ins out)).Perm (j.parts.map (outSize size ins out)) := by
    have : bs'.map (outSize size ins out) = j.parts.map (outSize size ins out) := by
      clear hs1 hs2 hperm hnd2 hall hpart hno hfit
      generalize j.parts = cs at hrel
      induction hrel with
      | nil => rfl
      | cons h _ ih => rw [List.map_cons, List.map_cons, ih]; unfold outSize; rw [h]
    rw [← this]
    exact (hperm.map _).symm
  -- the cost of a part
  have hcost : ∀ x ∈ bs', ∀ c ∈ j.parts, x.set = c.set → btCost metric size (openLabels ins out) x ≤ btCost metric size (openLabels ins out) c := by
    intro x hx c hc' he
    refine hc.minimal x (hperm.mem_iff.mp hx) c he.symm ⟨?_, fun _ => hno c hc', hfit c hc'⟩
    exact (List.nodup_flatMap.mp hnd2).1 c hc'
  have hsum : ((b :: bs).map (fun x => scoreOf metric size ins out (treeTrace x))).sum = (bs'.map (fun x => scoreOf metric size ins out (treeTrace x))).sum :=
    ((hperm.map _).sum_eq).symm
  have hmaxp : ((b :: bs).map (fun x => scoreOf metric size ins out (treeTrace x))).foldr max 0 =
      (bs'.map (fun x => scoreOf metric size ins out (treeTrace x))).foldr max 0 := (max_perm (hperm.map _)).symm
  constructor
  · intro hh b2 bs2 hj
    subst hj
    have hparts := forall₂_sums (k := 1) (f := fun x => scoreOf metric size ins out (treeTrace x)) (g := fun x => scoreOf metric size ins out (treeTrace x)) hrel
      (fun x hx c hc' he => by
        have hxn : x.leaves.Nodup := (List.nodup_flatMap.mp hnd1).1 x (hperm.mem_iff.mp hx)
        have hcn : c.leaves.Nodup := (List.nodup_flatMap.mp hnd2).1 c hc'
        rw [Nat.one_mul, score_exact hlone hh hm hxn (hc.noOuter x (hperm.mem_iff.mp hx)), score_exact hlone hh hm hcn (hno c hc')]
        exact costTwice_mono _ (hcost x hx c hc' he))
    rw [Nat.one_mul, Nat.one_mul] at hparts
    rw [inTurn_parts] at hsz hparts hs2
    rw [joinSizes_inTurn] at hs2
    have hpre := prefixProds_le hsz hasc
    rw [hs1, hs2]
    rw [← hsum, ← hmaxp] at hparts
    cases metric with
    | size => exact max_le_max hparts.2 (max_le_of_forall₂ hpre)
    | _ => exact Nat.add_le_add hparts.1 (Nat.mul_le_mul_left _ (sum_le_of_forall₂ hpre))
  · intro hpos
    have hparts := forall₂_sums (k := slackOf metric) (f := fun x => scoreOf metric size ins out (treeTrace x)) (g := fun x => scoreOf metric size ins out (treeTrace x)) hrel
      (fun x hx c hc' he => by
        refine (score_bounds hlone hm x).2.trans ((costTwice_mono _ ((hcost x hx c hc' he).trans (score_bounds (size := size) hlone hm c).1)).trans ?_)
        cases metric <;> simp only [costTwice, slackOf] <;> omega)
    rw [← hsum, ← hmaxp] at hparts
    have hone : ∀ c ∈ j.parts, 1 ≤ outSize size ins out c := by
      intro c hc'
      unfold outSize
      rw [apart_labels (hpart c hc').apart]
      refine Nat.succ_le_of_lt (Finset.prod_pos (fun x hx => ?_))
      obtain ⟨hx, hxo⟩ := Finset.mem_filter.mp hx
      obtain ⟨i, -, hi⟩ := Finset.mem_biUnion.mp hx
      exact hpos i x hi hxo
    have hone' : ∀ x ∈ (b :: bs).map (outSize size ins out), 1 ≤ x := by
      intro x hx
      obtain ⟨c, hc', rfl⟩ := List.mem_map.mp (hsz.mem_iff.mp hx)
      exact hone c hc'
    have hlen : bs.length + 1 = j.parts.length := by simpa using hsz.length_eq
    have hjoin : (prefixProds (outSize size ins out b) (bs.map (outSize size ins out))).sum ≤ 2 * (joinSizes (outSize size ins out) j).sum ∧
        (prefixProds (outSize size ins out b) (bs.map (outSize size ins out))).foldr max 0 ≤ (joinSizes (outSize size ins out) j).foldr max 0 := by
      cases hbs : bs with
      | nil => simp [prefixProds]
      | cons b2 bs2 =>
        rw [← hbs]
        have h2 : 2 ≤ j.parts.length := by rw [← hlen, hbs, List.length_cons]; omega
        obtain ⟨g1, g2⟩ := joins_below j hone h2
        have g3 := prefixProds_sum (a := outSize size ins out b) (l := bs.map (outSize size ins out)) hasc hone'
        have g4 : (outSize size ins out b :: bs.map (outSize size ins out)).prod = (j.parts.map (outSize size ins out)).prod := hsz.prod_eq
        rw [g4, List.length_map] at g3
        refine ⟨by omega, ?_⟩
        apply max_mem
        intro y hy
        refine le_trans (prefixProds_max (a := outSize size ins out b) (l := bs.map (outSize size ins out)) hone' y hy) ?_
        rw [g4]
        exact le_max_mem g2
    rw [hs1, hs2]
    cases metric with
    | size =>
      simp only [slackOf, Nat.one_mul] at hparts ⊢
      exact max_le_max hparts.2 hjoin.2
    | _ =>
      simp only [slackOf] at hparts ⊢
      rw [Nat.mul_add, Nat.mul_left_comm]
      exact Nat.add_le_add hparts.1 (Nat.mul_le_mul_left _ hjoin.1)

end

/-- **C92.** Three or more operands, no axis summed alone, any `minimize`, `cost_cap`, `memory_limit`, sizes and set orders: if `contract_path` with a
`DynamicProgramming` optimizer (without `search_outer`) returns, its path first contracts the connected parts of the network, each without outer products
and within the limit, and joins their results one after the other, the smallest first. If no label is on two parts, then
against any path, given by the user, that contracts the parts without outer products and within the limit and then joins their results: the
reported figures that `minimize` names are at most the same, without hyperedges, if that path too joins one result after the other,
in any order; and at most twice the same (not larger, for `size`), whatever that path's order and nesting of the joins, if the sizes of the
axes of the output are at least 1. -/
theorem C92_dp_parts {order : PopOrder} (ho : PopOK order) {metric : Metric} (hmet : Named metric) {cap : CostCap} {fuel : Nat} {size : Nat → Nat} {inputs : List Str}
    {output : Str} {shapes : List Shape} (hn : 2 < inputs.length) (hlen : inputs.length = shapes.length)
    (hsize : ∀ c s, IsLabelSize inputs shapes c s → size c = s) (hlone : NoLoneLabels (inputs.map List.toFinset) output.toFinset) {mem : MemLimit} {ub : Bool} {info : PathInfo}
    (h : contractPath inputs output shapes (.finder (dpFinder ⟨metric, cap, false⟩ order fuel)) mem ub = .ok info) :
    (∃ b bs, Contracts inputs.length info.path (Joined.inTurn b bs).tree ∧ PartsFirst mem size inputs output (Joined.inTurn b bs) ∧
      ((b :: bs).map (outSize size (inputs.map List.toFinset) output.toFinset)).Pairwise (· ≤ ·)) ∧
    (PartsDisjoint (inputs.map List.toFinset) output.toFinset → ∀ j q mem' ub' info', CompletePath inputs.length q → Contracts inputs.length q (Joined.tree j) →
      PartsFirst mem size inputs output j → contractPath inputs output shapes (.path q) mem' ub' = .ok info' →
      (NoHyperEdges (inputs.map List.toFinset) output.toFinset → (∃ b bs, j = Joined.inTurn b bs) →
        reportedScore metric size inputs output info ≤ reportedScore metric size inputs output info') ∧
      ((∀ c ∈ output, 1 ≤ size c) → reportedScore metric size inputs output info ≤ slackOf metric * reportedScore metric size inputs output info')) := by
  obtain ⟨m, w1, s1, c1⟩ := dp_call hn hlen hsize h
  obtain ⟨d1, b, bs, d2, d3, d4⟩ := dp_parts ho rfl (by rw [List.length_map]; omega) hlone c1
  rw [List.length_map] at d1 d2
  have hout : outSize size (inputs.map List.toFinset) output.toFinset = outSize (labelSize info.sizeDict) (inputs.map List.toFinset) output.toFinset := by
    funext x
    unfold outSize
    apply Finset.prod_congr rfl
    intro c hc
    rw [mem_openLabels] at hc
    obtain ⟨⟨i, -, hci⟩, -⟩ := hc
    obtain ⟨t, ht, hct⟩ := getD_some hci
    exact s1 t (List.mem_of_getElem? ht) c hct
  refine ⟨⟨b, bs, d2, ⟨?_, ?_, ?_, ?_⟩, hout ▸ d4⟩, ?_⟩
  · rw [inTurn_parts]
    simpa using d3.all
  · rw [inTurn_parts]
    exact d3.part
  · rw [inTurn_parts]
    exact d3.noOuter
  · rw [inTurn_parts]
    exact fun x hx => (fits_all w1 s1 x).mpr (d3.fits x hx)
  intro hd j q mem' ub' info' q1 q2 q3 q4
  obtain ⟨hdict, -, -⟩ := contractPath_chosen_args h
  obtain ⟨hdict', -, m', -, hp'⟩ := contractPath_chosen_args q4
  have g1 : info'.path = q := (Except.ok.inj hp').symm
  have hcmp := parts_compare hlone hd hmet d3 d4 (j := j) (by simpa using q3.all) q3.part q3.noOuter (fun x hx => (fits_all w1 s1 x).mp (q3.fits x hx))
  have e1 : reportedScore metric size inputs output info =
      scoreOf metric (labelSize info.sizeDict) (inputs.map List.toFinset) output.toFinset (treeTrace (Joined.inTurn b bs).tree) := by
    rw [reportedScore_plan hlen hsize h d1, planFigures_congr _ s1, score_trace (by simpa using d1), contracts_trace (by simpa using completePath_valid d1) (by simpa using d2)]
  have e2 : reportedScore metric size inputs output info' =
      scoreOf metric (labelSize info.sizeDict) (inputs.map List.toFinset) output.toFinset (treeTrace (Joined.tree j)) := by
    rw [reportedScore_plan hlen hsize q4 (g1 ▸ q1), planFigures_congr _ s1, g1, score_trace (by simpa using q1),
      contracts_trace (by simpa using completePath_valid q1) (by simpa using q2)]
  rw [e1, e2]
  refine ⟨fun hh ⟨b', bs', hj⟩ => hcmp.1 hh b' bs' hj, fun hpos => hcmp.2 ?_⟩
  intro i c hc hco
  obtain ⟨t, ht, hct⟩ := getD_some hc
  rw [← s1 t (List.mem_of_getElem? ht) c hct]
  exact hpos c (List.mem_toFinset.mp hco)

/-- The comment in the code says that the ascending order will give the cheapest contractions. It does not, if other orders than one result after the
other are counted: 'a,b,c,d->abcd' with axes of size 2 is reported at 28 operations, and the path that pairs the operands at 24. Nor, among these, if the parts share
labels of the output: 'za,zb,c->zabc' with sizes 5, 2, 2 and 3 is reported at 90, and the path that first contracts the first two at 80. -/
theorem C92_counterexample :
    (dpReport .flops false [S "a", S "b", S "c", S "d"] (S "abcd") [[2], [2], [2], [2]] .none).map PathInfo.optCost = .ok 28 ∧
    (contractPath [S "a", S "b", S "c", S "d"] (S "abcd") [[2], [2], [2], [2]] (.path [[0, 1], [0, 1], [0, 1]]) .none true).map PathInfo.optCost = .ok 24 ∧
    (dpReport .flops false [S "za", S "zb", S "c"] (S "zabc") [[5, 2], [5, 2], [3]] .none).map PathInfo.optCost = .ok 90 ∧
    (contractPath [S "za", S "zb", S "c"] (S "zabc") [[5, 2], [5, 2], [3]] (.path [[0, 1], [0, 1]]) .none true).map PathInfo.optCost = .ok 80 := by
  refine ⟨?_, ?_, ?_, ?_⟩ <;> decide +kernel

/-- docs/paths/dp_path.md:18-20 says that optimizing disconnected parts independently still results in an optimal path. By the reported operations it
does not: in 'b,bc,y->cy' with sizes 2, 10 and 1 the vector y on its own is cheaper to put in first. -/
theorem C92_counterexample_independent :
    (dpReport .flops false [S "b", S "bc", S "y"] (S "cy") [[2], [2, 10], [1]] .none).map PathInfo.optCost = .ok 50 ∧
    (contractPath [S "b", S "bc", S "y"] (S "cy") [[2], [2, 10], [1]] (.path [[0, 2], [0, 1]]) .none true).map PathInfo.optCost = .ok 42 := by
  constructor <;> decide +kernel

/-- docs/paths/dp_path.md:15-16 says that summing axes of single operands in the very beginning can never lead to a non-optimal path. By the reported
operations it can: 'ab,b,c->c' with axes of size 2, 2 and 1. -/
theorem C92_counterexample_traces :
    (dpReport .flops false [S "ab", S "b", S "c"] (S "c") [[2, 2], [2], [1]] .none).map (fun i => (i.path, i.optCost)) = .ok ([[0], [0, 2], [0, 1]], 13) ∧
    (contractPath [S "ab", S "b", S "c"] (S "c") [[2, 2], [2], [1]] (.path [[0, 1], [0, 1]]) .none true).map PathInfo.optCost = .ok 9 := by
  constructor <;> decide +kernel

-- the hypotheses, for 'ab,bc,d,e->acde' with d of size 3 and the others of size 2, in three parts
theorem exampleParts_noHyper : NoHyperEdges ([S "ab", S "bc", S "d", S "e"].map List.toFinset) (S "acde").toFinset := by
  intro c _
  by_cases h : c ∈ ({97, 98, 99, 100, 101} : Finset Nat)
  · have : ∀ c ∈ ({97, 98, 99, 100, 101} : Finset Nat),
        ([S "ab", S "bc", S "d", S "e"].map List.toFinset).countP (fun s => decide (c ∈ s)) ≤ 2 := by decide +kernel
    exact this c h
  · rw [List.countP_eq_zero.mpr]
    · exact Nat.zero_le _
    · intro s hs hc
      refine h ?_
      have hc : c ∈ s := by simpa using hc
      have : ∀ s ∈ [S "ab", S "bc", S "d", S "e"].map List.toFinset, ∀ c ∈ s, c ∈ ({97, 98, 99, 100, 101} : Finset Nat) := by decide +kernel
      exact this s hs c hc

theorem exampleParts_share : Share ([S "ab", S "bc", S "d", S "e"].map List.toFinset) (S "acde").toFinset 0 1 := by
  have : 98 ∈ ([S "ab", S "bc", S "d", S "e"].map List.toFinset).getD 0 ∅ ∧ 98 ∈ ([S "ab", S "bc", S "d", S "e"].map List.toFinset).getD 1 ∅ ∧
    98 ∉ (S "acde").toFinset := by decide +kernel
  exact ⟨98, this⟩

theorem exampleParts_chain {G : Finset Nat} {i j : Nat} (hi : i ∈ G) (hj : j ∈ G) (h : i = j ∨ i < 2 ∧ j < 2) :
    Chain ([S "ab", S "bc", S "d", S "e"].map List.toFinset) (S "acde").toFinset G i j := by
  rcases h with rfl | ⟨h1, h2⟩
  · exact .refl hi
  · have : i = 0 ∧ j = 0 ∨ i = 0 ∧ j = 1 ∨ i = 1 ∧ j = 0 ∨ i = 1 ∧ j = 1 := by omega
    rcases this with ⟨rfl, rfl⟩ | ⟨rfl, rfl⟩ | ⟨rfl, rfl⟩ | ⟨rfl, rfl⟩
    · exact .refl hi
    · exact .step (.refl hi) exampleParts_share hj
    · exact .step (.refl hi) exampleParts_share.symm hj
    · exact .refl hi

theorem exampleParts_common {i j : Nat} (hi : i < 4) (hj : j < 4) {c : Nat} (h1 : c ∈ ([S "ab", S "bc", S "d", S "e"].map List.toFinset).getD i ∅)
    (h2 : c ∈ ([S "ab", S "bc", S "d", S "e"].map List.toFinset).getD j ∅) : i = j ∨ i < 2 ∧ j < 2 := by
  have : ∀ i ∈ Finset.range 4, ∀ j ∈ Finset.range 4, ∀ c ∈ ([S "ab", S "bc", S "d", S "e"].map List.toFinset).getD i ∅,
      c ∈ ([S "ab", S "bc", S "d", S "e"].map List.toFinset).getD j ∅ → i = j ∨ i < 2 ∧ j < 2 := by decide +kernel
  exact this i (Finset.mem_range.mpr hi) j (Finset.mem_range.mpr hj) c h1 h2

theorem exampleParts_part {G : Finset Nat} (hG : G = {0, 1} ∨ G = {2} ∨ G = {3}) : IsPart ([S "ab", S "bc", S "d", S "e"].map List.toFinset) (S "acde").toFinset G := by
  have hlt : ∀ i ∈ G, i < 4 := by
    rcases hG with rfl | rfl | rfl <;> simp
  have hin : ∀ i ∈ G, ∀ j ∈ G, i = j ∨ i < 2 ∧ j < 2 := by
    rcases hG with rfl | rfl | rfl <;> simp
  have hout : ∀ i ∈ G, ∀ j, j < 4 → j ∉ G → ¬ (i = j ∨ i < 2 ∧ j < 2) := by
    rcases hG with rfl | rfl | rfl <;> simp only [Finset.mem_insert, Finset.mem_singleton] <;> omega
  refine ⟨?_, hlt, ?_, ?_⟩
  · rcases hG with rfl | rfl | rfl <;> simp
  · rintro i hi j hj hn ⟨c, h1, h2, -⟩
    exact hout i hi j hj hn (exampleParts_common (hlt i hi) hj h1 h2)
  · exact fun i hi j hj => exampleParts_chain hi hj (hin i hi j hj)

example (order : PopOrder) (ho : PopOK order) (cap : CostCap) (fuel : Nat) (info : PathInfo)
    (h : contractPath [S "ab", S "bc", S "d", S "e"] (S "acde") [[2, 2], [2, 2], [3], [2]] (.finder (dpFinder ⟨.flops, cap, false⟩ order fuel)) .none true = .ok info) :
    info.optCost ≤ 52 := by
  have hrun : (contractPath [S "ab", S "bc", S "d", S "e"] (S "acde") [[2, 2], [2, 2], [3], [2]] (.path [[0, 1], [0, 2], [0, 1]]) .none true).map PathInfo.optCost = .ok 52 := by
    decide +kernel
  have hsize : ∀ c s, IsLabelSize [S "ab", S "bc", S "d", S "e"] [[2, 2], [2, 2], [3], [2]] c s → (if c = 100 then 3 else 2) = s := by
    intro c s hs
    obtain ⟨⟨i, j, t, sh, g1, g2, g3, g4⟩, -⟩ := hs
    have key : ∀ p ∈ [S "ab", S "bc", S "d", S "e"].zip [[2, 2], [2, 2], [3], [2]], ∀ x ∈ p.1.zip p.2, (if x.1 = 100 then 3 else 2) = x.2 := by
      decide +kernel
    exact key (t, sh) (List.mem_of_getElem? (List.getElem?_zip_eq_some.mpr ⟨g1, g2⟩)) (c, s) (List.mem_of_getElem? (List.getElem?_zip_eq_some.mpr ⟨g3, g4⟩))
  have hlone : NoLoneLabels ([S "ab", S "bc", S "d", S "e"].map List.toFinset) (S "acde").toFinset := by
    unfold NoLoneLabels
    decide +kernel
  have hd : PartsDisjoint ([S "ab", S "bc", S "d", S "e"].map List.toFinset) (S "acde").toFinset :=
    fun i hi j hj c h1 h2 => exampleParts_chain (Finset.mem_range.mpr hi) (Finset.mem_range.mpr hj) (exampleParts_common hi hj h1 h2)
  have hq : CompletePath 4 [[0, 1], [0, 2], [0, 1]] := by
    simp [CompletePath, ValidStep]
  have hcon : Contracts 4 [[0, 1], [0, 2], [0, 1]] (Joined.inTurn (.node (.leaf 0) (.leaf 1)) [.leaf 2, .leaf 3]).tree := by
    intro α combine v
    have he : ∀ a b c d : α, linExec combine [a, b, c, d] [[0, 1], [0, 2], [0, 1]] = [combine {d, combine {c, combine {a, b}}}] := by
      intro a b c d
      simp [linExec, pick, unselected]
      rfl
    rw [show (List.range 4).map v = [v 0, v 1, v 2, v 3] from rfl, he, Multiset.pair_comm (v 3), Multiset.pair_comm (v 2)]
    rfl
  have hparts : PartsFirst .none (fun c => if c = 100 then 3 else 2) [S "ab", S "bc", S "d", S "e"] (S "acde") (Joined.inTurn (.node (.leaf 0) (.leaf 1)) [.leaf 2, .leaf 3]) := by
    have hps : (Joined.inTurn (.node (.leaf 0) (.leaf 1)) [.leaf 2, .leaf 3]).parts = [.node (.leaf 0) (.leaf 1), .leaf 2, .leaf 3] := rfl
    constructor
    · rw [hps]; decide
    · rw [hps]
      intro b hb
      apply exampleParts_part
      simp only [List.mem_cons, List.not_mem_nil, or_false] at hb
      rcases hb with rfl | rfl | rfl
      · exact Or.inl rfl
      · exact Or.inr (Or.inl rfl)
      · exact Or.inr (Or.inr rfl)
    · rw [hps]
      intro b hb
      simp only [List.mem_cons, List.not_mem_nil, or_false] at hb
      rcases hb with rfl | rfl | rfl
      · refine ⟨⟨98, ?_⟩, trivial, trivial⟩
        decide +kernel
      · trivial
      · trivial
    · rw [hps]
      intro b hb
      simp only [List.mem_cons, List.not_mem_nil, or_false] at hb
      rcases hb with rfl | rfl | rfl
      · exact ⟨trivial, trivial, trivial⟩
      · trivial
      · trivial
  cases hr : contractPath [S "ab", S "bc", S "d", S "e"] (S "acde") [[2, 2], [2, 2], [3], [2]] (.path [[0, 1], [0, 2], [0, 1]]) .none true with
  | error e => rw [hr] at hrun; cases hrun
  | ok info' =>
    rw [hr] at hrun
    rw [← Except.ok.inj hrun]
    have key := C92_dp_parts (inputs := [S "ab", S "bc", S "d", S "e"]) (shapes := [[2, 2], [2, 2], [3], [2]]) ho (metric := .flops) (fun fn h => by cases h) (by decide) rfl
      hsize hlone h
    exact (key.2 hd _ _ _ _ info' hq hcon hparts hr).1 exampleParts_noHyper ⟨_, _, rfl⟩

end OE.Props
