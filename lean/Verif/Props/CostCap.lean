import Verif.Props.DpParts
import Verif.Props.DpExactly
import Verif.Props.Report

/-!
# C104: what `cost_cap` changes
-/

namespace OE.Props
open OE OE.Py OE.Spec OE.Parser OE.Helpers OE.Contract OE.Paths OE.Registry

/-- **C104, the trees.** Two `DynamicProgramming` optimizers that differ in `cost_cap` only (and in the order of sets) are called with the same connected network
(or search outer products too). If both return, each path contracts one binary tree, and the trees cost the same by the measure that
`minimize` names, whatever the sizes, the memory limit and the measure, one of the user included. -/
theorem C104_trees {order order' : PopOrder} (ho : PopOK order) (ho' : PopOK order') {metric : Metric} {cap cap' : CostCap} {so : Bool} {size : Nat → Nat}
    {limit : Option Nat} {inputs : List (Finset Nat)} (hne : inputs ≠ []) {output : Finset Nat} {fuel fuel' : Nat} {path path' : Path}
    (hconn : (∀ i, i < inputs.length → ∀ j, j < inputs.length → Chain inputs output (Finset.range inputs.length) i j) ∨
      so = true ∧ ∀ i, i < inputs.length → ¬ Lone inputs output i)
    (h : dpCall ⟨metric, cap, so⟩ order size limit inputs output fuel = some (.ok path))
    (h' : dpCall ⟨metric, cap', so⟩ order' size limit inputs output fuel' = some (.ok path')) :
    ∃ t b t' b', Represents inputs output t b ∧ Represents inputs output t' b' ∧
      b.leaves.Perm (List.range inputs.length) ∧ b'.leaves.Perm (List.range inputs.length) ∧
      (∀ (α : Type) (combine : Multiset α → α) (v : Nat → α), linExec combine ((List.range inputs.length).map v) path = [treeValue combine v t]) ∧
      (∀ (α : Type) (combine : Multiset α → α) (v : Nat → α), linExec combine ((List.range inputs.length).map v) path' = [treeValue combine v t']) ∧
      btCost metric size (openLabels inputs output) b = btCost metric size (openLabels inputs output) b' := by
  obtain ⟨t, b, a1, a2, a3, a4, a5⟩ := C21_dp_cheapest_connected ho hne hconn h
  obtain ⟨t', b', c1, c2, c3, c4, c5⟩ := C21_dp_cheapest_connected ho' hne hconn h'
  exact ⟨t, b, t', b', a1, c1, a2, c2, a3, c3, le_antisymm (a5 b' c2 c4) (c5 b a2 a4)⟩

/-- One half of `C104_reported`. -/
theorem cap_reported_le {order order' : PopOrder} (ho : PopOK order) (ho' : PopOK order') {metric : Metric} (hmet : Named metric) {cap cap' : CostCap} {fuel fuel' : Nat}
    {size : Nat → Nat} {inputs : List Str} {output : Str} {shapes : List Shape} (hn : 2 < inputs.length) (hlen : inputs.length = shapes.length)
    (hsize : ∀ c s, IsLabelSize inputs shapes c s → size c = s) (hlone : NoLoneLabels (inputs.map List.toFinset) output.toFinset)
    (hhyper : NoHyperEdges (inputs.map List.toFinset) output.toFinset) (hdisj : PartsDisjoint (inputs.map List.toFinset) output.toFinset)
    {mem : MemLimit} {ub ub' : Bool} {info info' : PathInfo}
    (h : contractPath inputs output shapes (.finder (dpFinder ⟨metric, cap, false⟩ order fuel)) mem ub = .ok info)
    (h' : contractPath inputs output shapes (.finder (dpFinder ⟨metric, cap', false⟩ order' fuel')) mem ub' = .ok info') :
    reportedScore metric size inputs output info ≤ reportedScore metric size inputs output info' := by
  obtain ⟨⟨b, bs, c1, c2, -⟩, -⟩ := C92_dp_parts ho' hmet hn hlen hsize hlone h'
  obtain ⟨m, w1, s1, call⟩ := dp_call hn hlen hsize h'
  have hcomp : CompletePath inputs.length info'.path := by
    have := (dp_parts ho' rfl (by rw [List.length_map]; omega) hlone call).1
    rwa [List.length_map] at this
  exact ((C92_dp_parts ho hmet hn hlen hsize hlone h).2 hdisj _ _ _ _ info' hcomp c1 c2 (contractPath_same_path h')).1 hhyper ⟨b, bs, rfl⟩

/-- **C104, the report.** Three or more operands, no axis summed alone, no hyperedges, no label on two parts of the network. Two calls of `contract_path` with
`DynamicProgramming` optimizers that differ in `cost_cap` only (and in the order of sets) report the same figure of the one that
`minimize` names, if both return. -/
theorem C104_reported {order order' : PopOrder} (ho : PopOK order) (ho' : PopOK order') {metric : Metric} (hmet : Named metric) {cap cap' : CostCap} {fuel fuel' : Nat}
    {size : Nat → Nat} {inputs : List Str} {output : Str} {shapes : List Shape} (hn : 2 < inputs.length) (hlen : inputs.length = shapes.length)
    (hsize : ∀ c s, IsLabelSize inputs shapes c s → size c = s) (hlone : NoLoneLabels (inputs.map List.toFinset) output.toFinset)
    (hhyper : NoHyperEdges (inputs.map List.toFinset) output.toFinset) (hdisj : PartsDisjoint (inputs.map List.toFinset) output.toFinset)
    {mem : MemLimit} {ub ub' : Bool} {info info' : PathInfo}
    (h : contractPath inputs output shapes (.finder (dpFinder ⟨metric, cap, false⟩ order fuel)) mem ub = .ok info)
    (h' : contractPath inputs output shapes (.finder (dpFinder ⟨metric, cap', false⟩ order' fuel')) mem ub' = .ok info') :
    reportedScore metric size inputs output info = reportedScore metric size inputs output info' :=
  le_antisymm (cap_reported_le ho ho' hmet hn hlen hsize hlone hhyper hdisj h h') (cap_reported_le ho' ho hmet hn hlen hsize hlone hhyper hdisj h' h)

/-- **C104, what happens.** If all sizes are at least 1 and neither cap is the number 0, two `DynamicProgramming` optimizers that differ in `cost_cap` only (and
in the order of sets) do the same: both return a path, or both raise a `RuntimeError`, or both never end. -/
theorem C104_outcome {order order' : PopOrder} (ho : PopOK order) (ho' : PopOK order') {metric : Metric} {cap cap' : CostCap} {so : Bool} {size : Nat → Nat}
    (hpos : ∀ c, 0 < size c) (hcap : cap ≠ .fixed 0) (hcap' : cap' ≠ .fixed 0) (limit : Option Nat) (inputs : List (Finset Nat)) (hne : inputs ≠ []) (output : Finset Nat) :
    ((∃ F, ∀ fuel, F ≤ fuel → ∃ path, dpCall ⟨metric, cap, so⟩ order size limit inputs output fuel = some (.ok path)) ∧
      ∃ F, ∀ fuel, F ≤ fuel → ∃ path, dpCall ⟨metric, cap', so⟩ order' size limit inputs output fuel = some (.ok path)) ∨
    ((∃ F, ∀ fuel, F ≤ fuel → dpCall ⟨metric, cap, so⟩ order size limit inputs output fuel = some (.error .runtime)) ∧
      ∃ F, ∀ fuel, F ≤ fuel → dpCall ⟨metric, cap', so⟩ order' size limit inputs output fuel = some (.error .runtime)) ∨
    ((∀ fuel, dpCall ⟨metric, cap, so⟩ order size limit inputs output fuel = none) ∧
      ∀ fuel, dpCall ⟨metric, cap', so⟩ order' size limit inputs output fuel = none) := by
  have hp : ∀ cap : CostCap, cap ≠ .fixed 0 → Positive ⟨metric, cap, so⟩ size := by
    intro cap hc
    refine ⟨hpos, fun n hn => Nat.pos_of_ne_zero ?_⟩
    rintro rfl
    exact hc hn
  obtain ⟨h1, h2⟩ := C79_positive ho (hp cap hcap) limit inputs hne output
  obtain ⟨h1', h2'⟩ := C79_positive ho' (hp cap' hcap') limit inputs hne output
  by_cases hall : ∀ G, IsPart so inputs output G → ∃ b : BTree, b.set = G ∧ OE.Spec.Allowed so size output (openLabels inputs output) limit b
  · exact Or.inl ⟨h1 hall, h1' hall⟩
  · push Not at hall
    cases metric with
    | flops => exact Or.inr (Or.inl ⟨(h2 hall).1 (Or.inl rfl), (h2' hall).1 (Or.inl rfl)⟩)
    | size => exact Or.inr (Or.inl ⟨(h2 hall).1 (Or.inr (Or.inl rfl)), (h2' hall).1 (Or.inr (Or.inl rfl))⟩)
    | write => exact Or.inr (Or.inl ⟨(h2 hall).1 (Or.inr (Or.inr rfl)), (h2' hall).1 (Or.inr (Or.inr rfl))⟩)
    | combo f => exact Or.inr (Or.inr ⟨(h2 hall).2 (Or.inl ⟨f, rfl⟩), (h2' hall).2 (Or.inl ⟨f, rfl⟩)⟩)
    | limit f => exact Or.inr (Or.inr ⟨(h2 hall).2 (Or.inr (Or.inl ⟨f, rfl⟩)), (h2' hall).2 (Or.inr (Or.inl ⟨f, rfl⟩))⟩)
    | custom f => exact Or.inr (Or.inr ⟨(h2 hall).2 (Or.inr (Or.inr ⟨f, rfl⟩)), (h2' hall).2 (Or.inr (Or.inr ⟨f, rfl⟩))⟩)

/-- The conditions of `C104_outcome` are needed. With an axis of size 0, 'ab,ab,z->z' has a path with `cost_cap=False`, and with the default a `RuntimeError` is raised.
With `cost_cap=0` the search for 'ab,ab,z->z' never ends. -/
theorem C104_counterexample :
    dpCall ⟨.flops, .off, false⟩ ascendingPop (fun c => if c = 2 then 0 else 2) none [{0, 1}, {0, 1}, {2}] {2} 20 = some (.ok [[0, 1], [0, 1]]) ∧
    dpCall ⟨.flops, .increase, false⟩ ascendingPop (fun c => if c = 2 then 0 else 2) none [{0, 1}, {0, 1}, {2}] {2} 20 = some (.error .runtime) ∧
    dpCall ⟨.flops, .off, false⟩ ascendingPop (fun _ => 2) none [{0, 1}, {0, 1}, {2}] {2} 20 = some (.ok [[0, 1], [0, 1]]) ∧
    ∀ fuel, dpCall ⟨.flops, .fixed 0, false⟩ ascendingPop (fun _ => 2) none [{0, 1}, {0, 1}, {2}] {2} fuel = none :=
  ⟨by decide +kernel, by decide +kernel, by decide +kernel, fun fuel =>
    C79_cap_zero ascendingPop_ok (by intro fn h; cases h) rfl (fun _ => Nat.zero_lt_two) none (by simp) (G := {0, 1}) example_part (by decide) fuel⟩

/-- `C104_reported` for 'ab,bc,d,e->acde', a network in three parts. -/
example (order order' : PopOrder) (ho : PopOK order) (ho' : PopOK order') (cap cap' : CostCap) (fuel fuel' : Nat) (info info' : PathInfo)
    (h : contractPath [S "ab", S "bc", S "d", S "e"] (S "acde") [[2, 2], [2, 2], [3], [2]] (.finder (dpFinder ⟨.flops, cap, false⟩ order fuel)) .none true = .ok info)
    (h' : contractPath [S "ab", S "bc", S "d", S "e"] (S "acde") [[2, 2], [2, 2], [3], [2]] (.finder (dpFinder ⟨.flops, cap', false⟩ order' fuel')) .none true = .ok info') :
    info.optCost = info'.optCost := by
  have hsize : ∀ c s, IsLabelSize [S "ab", S "bc", S "d", S "e"] [[2, 2], [2, 2], [3], [2]] c s → (if c = 100 then 3 else 2) = s := by
    intro c s hs
    obtain ⟨⟨i, j, t, sh, g1, g2, g3, g4⟩, -⟩ := hs
    have key : ∀ p ∈ [S "ab", S "bc", S "d", S "e"].zip [[2, 2], [2, 2], [3], [2]], ∀ x ∈ p.1.zip p.2, (if x.1 = 100 then 3 else 2) = x.2 := by
      decide +kernel
    exact key (t, sh) (List.mem_of_getElem? (List.getElem?_zip_eq_some.mpr ⟨g1, g2⟩)) (c, s) (List.mem_of_getElem? (List.getElem?_zip_eq_some.mpr ⟨g3, g4⟩))
  have hlone : NoLoneLabels ([S "ab", S "bc", S "d", S "e"].map List.toFinset) (S "acde").toFinset := by
    unfold NoLoneLabels
    decide +kernel
  exact C104_reported (metric := .flops) (inputs := [S "ab", S "bc", S "d", S "e"]) (output := S "acde") (shapes := [[2, 2], [2, 2], [3], [2]]) (size := fun c => if c = 100 then 3 else 2) ho ho' (by intro fn h; cases h) (by decide) rfl hsize hlone exampleParts_noHyper
    (fun i hi j hj c h1 h2 => exampleParts_chain (Finset.mem_range.mpr hi) (Finset.mem_range.mpr hj) (exampleParts_common hi hj h1 h2)) h h'

/-- Both calls do return there, with different caps. -/
example : (contractPath [S "ab", S "bc", S "d", S "e"] (S "acde") [[2, 2], [2, 2], [3], [2]] (.finder (dpFinder ⟨.flops, .off, false⟩ ascendingPop 20)) .none true).map PathInfo.optCost =
    (contractPath [S "ab", S "bc", S "d", S "e"] (S "acde") [[2, 2], [2, 2], [3], [2]] (.finder (dpFinder ⟨.flops, .fixed 3, false⟩ ascendingPop 20)) .none true).map PathInfo.optCost ∧
    (contractPath [S "ab", S "bc", S "d", S "e"] (S "acde") [[2, 2], [2, 2], [3], [2]] (.finder (dpFinder ⟨.flops, .off, false⟩ ascendingPop 20)) .none true).isOk = true := by
  decide +kernel

/-- `C104_trees` applies to 'ab,bc,cd->ad' searched with outer products. -/
example : (∀ i, i < 3 → ¬ Lone [{0, 1}, {1, 2}, {2, 3}] {0, 3} i) ∧
    (dpCall ⟨.size, .off, true⟩ ascendingPop (fun _ => 2) none [{0, 1}, {1, 2}, {2, 3}] {0, 3} 20).isSome = true ∧
    (dpCall ⟨.size, .increase, true⟩ ascendingPop (fun _ => 2) none [{0, 1}, {1, 2}, {2, 3}] {0, 3} 20).isSome = true := by
  refine ⟨?_, by decide +kernel, by decide +kernel⟩
  unfold Lone
  decide +kernel

/-- The three cases of `C104_outcome` occur: without limit, with the limit 1 and `minimize='flops'`, and with the limit 1 and `minimize='combo'`. -/
example : dpCall ⟨.flops, .off, false⟩ ascendingPop (fun _ => 2) none [{0, 1}, {1, 2}, {2, 3}] {0, 3} 20 = some (.ok [[1, 2], [0, 1]]) ∧
    dpCall ⟨.flops, .off, false⟩ ascendingPop (fun _ => 2) (some 1) [{0, 1}, {1, 2}, {2, 3}] {0, 3} 20 = some (.error .runtime) ∧
    dpCall ⟨.combo 64, .off, false⟩ ascendingPop (fun _ => 2) (some 1) [{0, 1}, {1, 2}, {2, 3}] {0, 3} 20 = none := by
  decide +kernel

end OE.Props
