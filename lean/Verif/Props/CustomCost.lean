import Verif.Props.Minimize
import Verif.Props.DpExactly

/-!
# C83: cost functions of the user that are written like the built-in ones
-/

namespace OE.Props
open OE OE.Py OE.Spec OE.Paths OE.Minimize

/-! ## The state of the function does not matter -/

theorem foldlM_forget {α β γ : Type} {f : β × γ → α → Except PyErr (β × γ)} {g : β → α → β} {l : List α} (h : ∀ t a, (f t a).map Prod.fst = .ok (g t.1 a))
    (t : β × γ) : (l.foldlM f t).map Prod.fst = .ok (l.foldl g t.1) := by
  induction l generalizing t with
  | nil => rfl
  | cons a l ih =>
    rw [List.foldlM_cons, List.foldl_cons]
    have := h t a
    cases hr : f t a with
    | error e => rw [hr] at this; cases this
    | ok u =>
      rw [hr] at this
      rw [← Except.ok.inj this]
      exact ih u

theorem map_fst_ok {β γ : Type} {r : Except PyErr (β × γ)} {b : β} (h : r.map Prod.fst = .ok b) : ∃ c, r = .ok (b, c) := by
  cases r with
  | error e => cases h
  | ok u => exact ⟨u.2, by rw [← Except.ok.inj h]⟩

section
variable {σ : Type} {check : Check σ} {fn : StepFn}

/-- What `Follows` says, in terms of the model. -/
theorem follows_eq (h : Follows check fn.step) (ctx : DPCtx) (st : σ) (cap : WithTop Nat) (s1 s2 : Nat) (e1 e2 : DPEntry) (cut union : Finset Nat) (xn : DPTable) :
    (check ctx st cap s1 s2 e1 e2 cut union xn).map Prod.fst = .ok (dpCompareCustom fn ctx cap s1 s2 e1 e2 cut union xn) := by
  obtain ⟨h1, h2⟩ := h ctx st cap s1 s2 e1 e2 cut union xn
  unfold dpCompareCustom
  simp only
  rw [nested_if]
  have hiff : ∀ c, improves xn (s1 ||| s2) c = true ↔ ∀ e, xn.get? (s1 ||| s2) = some e → c < e.cost := by
    intro c
    unfold improves
    cases xn.get? (s1 ||| s2) <;> simp
  have hmem : ∀ k, memOk ctx.memoryLimit k = true ↔ ∀ m, ctx.memoryLimit = some m → k ≤ m := by
    intro k
    unfold memOk
    cases ctx.memoryLimit <;> simp
  split
  · rename_i hc
    rw [hiff, hmem] at hc
    obtain ⟨st', hst⟩ := h1 hc
    rw [hst]
    rfl
  · rename_i hc
    rw [hiff, hmem] at hc
    obtain ⟨st', hst⟩ := h2 hc
    rw [hst]
    rfl

/-- The search of a subgraph, as with the cost model `custom`. -/
theorem dpWhileWith_follows (h : Follows check fn.step) (ctx ctx' : DPCtx) (hctx : ctx' = { ctx with metric := .custom fn }) (naive : WithTop Nat)
    (increment fuel : Nat) (cap : WithTop Nat) (x : List DPTable) (st : σ) :
    (dpWhileWith check ctx naive increment fuel cap x st).map (fun r => r.map Prod.fst) = dpWhile ctx' naive increment fuel cap x := by
  subst hctx
  have htry : ∀ (cap : WithTop Nat) (n m : Nat) (p1 : Nat × DPEntry) (a : DPTable × σ) (p2 : Nat × DPEntry),
      (tryPairWith check ctx cap n m p1 p2 a).map Prod.fst = .ok (tryPair { ctx with metric := .custom fn } cap n m p1 p2 a.1) := by
    intro cap n m p1 a p2
    unfold tryPairWith tryPair
    split
    · simp only
      split
      · exact follows_eq h ..
      · rfl
    · rfl
  have hfill : ∀ (cap : WithTop Nat) (x : List DPTable) (n : Nat) (st : σ),
      (fillTableWith check ctx cap x n st).map Prod.fst = .ok (fillTable { ctx with metric := .custom fn } cap x n) := by
    intro cap x n st
    unfold fillTableWith fillTable
    exact foldlM_forget (fun t m => foldlM_forget (fun t p1 => foldlM_forget (fun t p2 => htry cap n m p1 t p2) t) t) (x.getD n [], st)
  have hround : ∀ (cap : WithTop Nat) (x : List DPTable) (st : σ),
      (dpRoundWith check ctx cap x st).map Prod.fst = .ok (dpRound { ctx with metric := .custom fn } cap x) := by
    intro cap x st
    unfold dpRoundWith dpRound
    apply foldlM_forget (t := (x, st))
    intro t n
    obtain ⟨st', hst⟩ := map_fst_ok (hfill cap t.1 n t.2)
    rw [hst]
    rfl
  induction fuel generalizing cap x st with
  | zero =>
    unfold dpWhileWith dpWhile
    split <;> rfl
  | succ fuel ih =>
    unfold dpWhileWith dpWhile
    split
    · rfl
    · obtain ⟨st', hst⟩ := map_fst_ok (hround cap x st)
      simp only [hst]
      split
      · rfl
      · exact ih _ _ _

/-- The call with a function that is written like the built-in ones, as with the cost model `custom`. -/
theorem dpMinimize_follows (digit : Nat → Option Nat) (h : Follows check fn.step) (st : σ) (opts : Opts) (order : PopOrder) (size : Nat → Nat)
    (limit : Option Nat) (inputs : List (Finset Nat)) (output : Finset Nat) (fuel : Nat) :
    dpMinimize digit (.function check st) opts order size limit inputs output fuel =
      dpCall ⟨.custom fn, opts.costCap, opts.searchOuter⟩ order size limit inputs output fuel := by
  have hsub : ∀ (ins : List (Finset Nat)) (contractions : List Tree) (naive : WithTop Nat) (g : List Nat) (st : σ),
      (dpSubgraphWith check ⟨.flops, opts.costCap, opts.searchOuter⟩ size output limit ins contractions naive fuel g st).map (fun r => r.map Prod.fst) =
        dpSubgraph ⟨.custom fn, opts.costCap, opts.searchOuter⟩ size output limit ins contractions naive fuel g := by
    intro ins contractions naive g st
    unfold dpSubgraphWith dpSubgraph
    simp only
    have key := dpWhileWith_follows h (⟨size, output, limit, opts.searchOuter, .flops, ins, (g.map (fun j => 1 <<< j)).foldl (· ||| ·) 0, (1 <<< ins.length) - 1⟩ : DPCtx)
      _ rfl naive
    simp only at key
    simp only [← key _ _ _ _ st]
    generalize dpWhileWith check _ _ _ _ _ _ _ = r
    match r with
    | none => rfl
    | some (.error e) => rfl
    | some (.ok (x, st')) =>
      simp only [Option.map_some, Except.map]
      cases x.getLastD [] <;> rfl
  have hloop : ∀ (ins : List (Finset Nat)) (contractions : List Tree) (naive : WithTop Nat) (gs : List (List Nat)) (acc : List (Tree × Nat)) (st : σ),
      dpSubgraphsWith (dpSubgraphWith check ⟨.flops, opts.costCap, opts.searchOuter⟩ size output limit ins contractions naive fuel) size gs acc st =
        dpSubgraphs (dpSubgraph ⟨.custom fn, opts.costCap, opts.searchOuter⟩ size output limit ins contractions naive fuel) size gs acc := by
    intro ins contractions naive gs
    induction gs with
    | nil => intro acc st; rfl
    | cons g gs ih =>
      intro acc st
      rw [dpSubgraphsWith, dpSubgraphs, ← hsub ins contractions naive g st]
      cases dpSubgraphWith check ⟨.flops, opts.costCap, opts.searchOuter⟩ size output limit ins contractions naive fuel g st with
      | none => rfl
      | some r =>
        cases r with
        | error e => rfl
        | ok e => exact ih _ _
  unfold dpMinimize dpCallWith dpCall
  simp only [hloop]
  rfl

end

/-- A regular cost, as the model has it. -/
def _root_.OE.Spec.Regular.fn {cost : (f mem c1 c2 : Nat) → Nat} (h : Regular cost) : StepFn := ⟨cost, h.comm, h.le, h.mono⟩

theorem treeCost_eq (fn : StepFn) (size : Nat → Nat) (L : Finset Nat → Finset Nat) (b : BTree) :
    btCost (.custom fn) size L b = treeCost fn.step size L b := by
  induction b with
  | leaf i => rfl
  | node l r ihl ihr => rw [btCost, treeCost, ihl, ihr]; rfl

section
variable {σ : Type} {check : Check σ} {cost : (f mem c1 c2 : Nat) → Nat} {order : PopOrder} {size : Nat → Nat} {limit : Option Nat} {inputs : List (Finset Nat)}
  {output : Finset Nat}

/-- **C83, cheapest trees.** With a function that is written like the built-in ones, has a regular cost, and may keep any state, the path that
`DynamicProgramming` returns for a connected network (or for any, with `search_outer`, if no input loses all its labels at once) contracts one binary tree,
which costs least by the user's cost among those that respect the memory limit and, without `search_outer`, have no outer product. -/
theorem C83_custom_cheapest {digit : Nat → Option Nat} (hf : Follows check cost) (hr : Regular cost) (ho : PopOK order) (hne : inputs ≠ []) {opts : Opts}
    {st : σ} {fuel : Nat} {path : Path}
    (hconn : (∀ i, i < inputs.length → ∀ j, j < inputs.length → Chain inputs output (Finset.range inputs.length) i j) ∨
      opts.searchOuter = true ∧ ∀ i, i < inputs.length → ¬ Lone inputs output i)
    (hcall : dpMinimize digit (.function check st) opts order size limit inputs output fuel = some (.ok path)) :
    ∃ t b, Represents inputs output t b ∧ b.leaves.Perm (List.range inputs.length) ∧
      (∀ (α : Type) (combine : Multiset α → α) (v : Nat → α), linExec combine ((List.range inputs.length).map v) path = [treeValue combine v t]) ∧
      Allowed opts.searchOuter size output (openLabels inputs output) limit b ∧
      ∀ b' : BTree, b'.leaves.Perm (List.range inputs.length) → Allowed opts.searchOuter size output (openLabels inputs output) limit b' →
        treeCost cost size (openLabels inputs output) b ≤ treeCost cost size (openLabels inputs output) b' := by
  rw [dpMinimize_follows (fn := hr.fn) digit hf] at hcall
  obtain ⟨t, b, h1, h2, h3, h4, h5⟩ := C21_dp_cheapest_connected (cfg := ⟨.custom hr.fn, opts.costCap, opts.searchOuter⟩) ho hne hconn hcall
  refine ⟨t, b, h1, h2, h3, h4, fun b' hb' ha' => ?_⟩
  have := h5 b' hb' ha'
  rw [treeCost_eq, treeCost_eq] at this
  exact this

/-- **C83, when such a search ends.** If all sizes are positive and the cost cap is not the number 0: with a function that is written like the built-in ones
and has a regular cost, a path is returned exactly if every part of the network has a tree of the kind searched for that respects the memory limit;
otherwise the search never ends, as the bound that is infinite for functions never stops it. -/
theorem C83_custom_outcome {digit : Nat → Option Nat} (hf : Follows check cost) (hr : Regular cost) (ho : PopOK order) (hne : inputs ≠ []) {opts : Opts}
    (hpos : ∀ c, 0 < size c) (hcap : ∀ n, opts.costCap = .fixed n → 0 < n) (st : σ) :
    ((∀ G, IsPart opts.searchOuter inputs output G → ∃ b : BTree, b.set = G ∧ Allowed opts.searchOuter size output (openLabels inputs output) limit b) →
      ∃ F, ∀ fuel, F ≤ fuel → ∃ path, dpMinimize digit (.function check st) opts order size limit inputs output fuel = some (.ok path)) ∧
    ((∃ G, IsPart opts.searchOuter inputs output G ∧ ∀ b : BTree, b.set = G → ¬ Allowed opts.searchOuter size output (openLabels inputs output) limit b) →
      ∀ fuel, dpMinimize digit (.function check st) opts order size limit inputs output fuel = none) := by
  simp only [dpMinimize_follows (fn := hr.fn) digit hf]
  obtain ⟨h1, h2⟩ := C79_positive (cfg := ⟨.custom hr.fn, opts.costCap, opts.searchOuter⟩) ho ⟨hpos, hcap⟩ limit inputs hne output
  exact ⟨h1, fun h => (h2 h).2 (Or.inr (Or.inr ⟨_, rfl⟩))⟩

/-- Without a memory limit there is always such a tree, and a path is always returned. -/
theorem C83_custom_no_limit {digit : Nat → Option Nat} (hf : Follows check cost) (hr : Regular cost) (ho : PopOK order) (hne : inputs ≠ []) {opts : Opts}
    (hpos : ∀ c, 0 < size c) (hcap : ∀ n, opts.costCap = .fixed n → 0 < n) (st : σ) :
    ∃ F, ∀ fuel, F ≤ fuel → ∃ path, dpMinimize digit (.function check st) opts order size none inputs output fuel = some (.ok path) := by
  apply (C83_custom_outcome hf hr ho hne hpos hcap st).1
  intro G hG
  obtain ⟨b, k1, k2, k3⟩ := grow_tree (searchOuter := opts.searchOuter) (size := size) (output := output) (G := G) (L := openLabels inputs output)
    (fun S hS hSne hSG => part_grows (cfg := ⟨.flops, opts.costCap, opts.searchOuter⟩) hG hS hSne hSG) (G.card - 1) (by have := Finset.card_pos.mpr hG.1; omega)
  refine ⟨b, ?_, k1⟩
  apply Finset.eq_of_subset_of_card_le k2
  rw [set_card b k1.1, k3]
  omega

end

/-! ## Concrete cases -/

/-- The cost `max(cost1, cost2) + flops + 3 * mem`, as of two operands that are computed at the same time. -/
def parallelCost (f mem c1 c2 : Nat) : Nat := max c1 c2 + f + 3 * mem

theorem parallelCost_regular : Regular parallelCost :=
  ⟨fun _ _ _ _ => by unfold parallelCost; omega, fun _ _ _ _ => by unfold parallelCost; omega, fun _ _ _ _ _ _ => by unfold parallelCost; omega⟩

/-- A function written like `_dp_compare_combo`, with a cost of its own, that counts its calls. -/
def countingCheck (cost : (f mem c1 c2 : Nat) → Nat) : Check Nat := fun ctx st cap s1 s2 e1 e2 cut union xn =>
  let s := s1 ||| s2
  let i := dpCalcLegs ctx.g ctx.allTensors s ctx.inputs cut union
  let c := cost (Paths.sizeOf ctx.size union) (Paths.sizeOf ctx.size i) e1.cost e2.cost
  .ok (if WithTop.some c ≤ cap ∧ improves xn s c = true ∧ memOk ctx.memoryLimit (Paths.sizeOf ctx.size i) = true then
    xn.set s ⟨i, c, .node [e1.tree, e2.tree]⟩ else xn, st + 1)

theorem countingCheck_follows (cost : (f mem c1 c2 : Nat) → Nat) : Follows (countingCheck cost) cost := by
  intro ctx st cap s1 s2 e1 e2 cut union xn
  have hiff : ∀ c, improves xn (s1 ||| s2) c = true ↔ ∀ e, xn.get? (s1 ||| s2) = some e → c < e.cost := by
    intro c
    unfold improves
    cases xn.get? (s1 ||| s2) <;> simp
  have hmem : ∀ k, memOk ctx.memoryLimit k = true ↔ ∀ m, ctx.memoryLimit = some m → k ≤ m := by
    intro k
    unfold memOk
    cases ctx.memoryLimit <;> simp
  constructor
  · rintro ⟨h1, h2, h3⟩
    exact ⟨st + 1, congrArg (fun t => Except.ok (t, st + 1)) (if_pos ⟨h1, (hiff _).mpr h2, (hmem _).mpr h3⟩)⟩
  · intro hc
    exact ⟨st + 1, congrArg (fun t => Except.ok (t, st + 1)) (if_neg (fun h => hc ⟨h.1, (hiff _).mp h.2.1, (hmem _).mp h.2.2⟩))⟩

/-- Both conditions on the function hold of a real one: for `ab,bc,cd,de->ae` with all sizes 2, `minimize='flops'` contracts one matrix after the other, and
the cost for operands that are computed at the same time contracts the two halves first. -/
example : Follows (countingCheck parallelCost) parallelCost ∧ Regular parallelCost ∧
    dpMinimize asciiDigit (.function (countingCheck parallelCost) 0) ⟨.increase, false⟩ ascendingPop (fun _ => 2) none
      [{0, 1}, {1, 2}, {2, 3}, {3, 4}] {0, 4} 40 = some (.ok [[0, 1], [0, 1], [0, 1]]) :=
  ⟨countingCheck_follows _, parallelCost_regular, by decide +kernel⟩

example : dpMinimize asciiDigit (.str (S "flops") : Arg Unit) ⟨.increase, false⟩ ascendingPop (fun _ => 2) none
    [{0, 1}, {1, 2}, {2, 3}, {3, 4}] {0, 4} 40 = some (.ok [[2, 3], [1, 2], [0, 1]]) := by decide +kernel

/-- A cost with a penalty if the operands together cost exactly 8. -/
def penaltyCost (f _mem c1 c2 : Nat) : Nat := c1 + c2 + f + if c1 + c2 = 8 then 1000 else 0

/-- Sizes for `ab,bc,cd,de->ae`. -/
def penaltySize (c : Nat) : Nat := [1, 1, 2, 3, 1].getD c 1

theorem penalty_exec (α : Type) (combine : Multiset α → α) (v : Nat → α) : linExec combine ((List.range 4).map v) [[2, 3], [1, 2], [0, 1]] =
    [treeValue combine v (.node [.leaf 0, .node [.leaf 1, .node [.leaf 2, .leaf 3]]])] := by
  have h4 : List.range 4 = [0, 1, 2, 3] := by decide
  have h3 : (List.range 3).filter (fun i => !decide (i = 1) && !decide (i = 2)) = [0] := by decide
  have h2 : (List.range 2).filter (fun i => !decide (i = 0) && !decide (i = 1)) = [] := by decide
  simp [h4, h3, h2, linExec, unselected, pick, treeValue, treeValues]

theorem penalty_allowed : Allowed false penaltySize {0, 4} (openLabels [{0, 1}, {1, 2}, {2, 3}, {3, 4}] {0, 4}) none
    (.node (.leaf 0) (.node (.node (.leaf 1) (.leaf 2)) (.leaf 3))) := by
  refine ⟨by decide, fun _ => ?_, ?_⟩
  · exact ⟨⟨1, by decide, by decide, by decide⟩, trivial, ⟨3, by decide, by decide, by decide⟩, ⟨⟨2, by decide, by decide, by decide⟩, trivial, trivial⟩, trivial⟩
  · exact ⟨(fun m h => by cases h), trivial, (fun m h => by cases h), ⟨(fun m h => by cases h), trivial, trivial⟩, trivial⟩

/-- The hypothesis that the cost does not decrease if an operand gets dearer is needed: with the penalty, which keeps the other two conditions, a tree of cost
1009 is found, and there is one of cost 10 without outer products. The search keeps the cheapest tree of the last three inputs only. -/
theorem C83_counterexample_not_monotone :
    Follows (countingCheck penaltyCost) penaltyCost ∧ (∀ f mem c1 c2, penaltyCost f mem c1 c2 = penaltyCost f mem c2 c1) ∧
    (∀ f mem c1 c2, c1 ≤ penaltyCost f mem c1 c2) ∧
    dpMinimize asciiDigit (.function (countingCheck penaltyCost) 0) ⟨.off, false⟩ ascendingPop penaltySize none
      [{0, 1}, {1, 2}, {2, 3}, {3, 4}] {0, 4} 40 = some (.ok [[2, 3], [1, 2], [0, 1]]) ∧
    (∀ (α : Type) (combine : Multiset α → α) (v : Nat → α), linExec combine ((List.range 4).map v) [[2, 3], [1, 2], [0, 1]] =
      [treeValue combine v (.node [.leaf 0, .node [.leaf 1, .node [.leaf 2, .leaf 3]]])]) ∧
    treeCost penaltyCost penaltySize (openLabels [{0, 1}, {1, 2}, {2, 3}, {3, 4}] {0, 4})
      (.node (.leaf 0) (.node (.leaf 1) (.node (.leaf 2) (.leaf 3)))) = 1009 ∧
    treeCost penaltyCost penaltySize (openLabels [{0, 1}, {1, 2}, {2, 3}, {3, 4}] {0, 4})
      (.node (.leaf 0) (.node (.node (.leaf 1) (.leaf 2)) (.leaf 3))) = 10 ∧
    Allowed false penaltySize {0, 4} (openLabels [{0, 1}, {1, 2}, {2, 3}, {3, 4}] {0, 4}) none
      (.node (.leaf 0) (.node (.node (.leaf 1) (.leaf 2)) (.leaf 3))) := by
  refine ⟨countingCheck_follows _, ?_, ?_, by decide +kernel, penalty_exec, by decide +kernel, by decide +kernel, penalty_allowed⟩
  · intro f mem c1 c2
    unfold penaltyCost
    rw [Nat.add_comm c1 c2]
  · intro f mem c1 c2
    unfold penaltyCost
    omega

/-- For a regular cost there is no such tree: the theorem at work on the same network. -/
example (path : Path) (fuel : Nat) (h : dpMinimize asciiDigit (.function (countingCheck parallelCost) 0) ⟨.increase, false⟩ ascendingPop (fun _ => 2) none
    [{0, 1}, {1, 2}] {0, 2} fuel = some (.ok path)) :
    ∃ t b, Represents [{0, 1}, {1, 2}] {0, 2} t b ∧ ∀ b' : BTree, b'.leaves.Perm [0, 1] →
      Allowed false (fun _ => 2) {0, 2} (openLabels [{0, 1}, {1, 2}] {0, 2}) none b' →
      treeCost parallelCost (fun _ => 2) (openLabels [{0, 1}, {1, 2}] {0, 2}) b ≤ treeCost parallelCost (fun _ => 2) (openLabels [{0, 1}, {1, 2}] {0, 2}) b' := by
  have hsh : Share [{0, 1}, {1, 2}] {0, 2} 0 1 := ⟨1, by decide, by decide, by decide⟩
  have h0 : Chain [{0, 1}, {1, 2}] {0, 2} (Finset.range 2) 0 0 := .refl (by simp)
  have h1 : Chain [{0, 1}, {1, 2}] {0, 2} (Finset.range 2) 1 1 := .refl (by simp)
  obtain ⟨t, b, k1, -, -, -, k5⟩ := C83_custom_cheapest (inputs := [{0, 1}, {1, 2}]) (countingCheck_follows parallelCost) parallelCost_regular ascendingPop_ok (by simp)
    (Or.inl (fun i hi j hj => by
      have hi : i = 0 ∨ i = 1 := by have : i < 2 := hi; omega
      have hj : j = 0 ∨ j = 1 := by have : j < 2 := hj; omega
      rcases hi with rfl | rfl <;> rcases hj with rfl | rfl
      · exact h0
      · exact .step h0 hsh (by simp)
      · exact .step h1 hsh.symm (by simp)
      · exact h1)) h
  exact ⟨t, b, k1, k5⟩

end OE.Props
