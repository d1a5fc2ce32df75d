import Verif.Props.DpExactly
import Verif.Props.DpReport
import Verif.Props.Report

/-!
# C87 for dynamic programming: raising the memory limit neither makes it fail nor makes its path worse
-/

namespace OE.Props
open OE OE.Py OE.Spec OE.Parser OE.Helpers OE.Contract OE.Paths OE.Registry

theorem fits_more {size : Nat → Nat} {L : Finset Nat → Finset Nat} {limit limit' : Option Nat}
    (hmore : ∀ k', limit' = some k' → ∃ k, limit = some k ∧ k ≤ k') {b : BTree} (h : Spec.Fits size L limit b) : Spec.Fits size L limit' b := by
  induction b with
  | leaf _ => trivial
  | node l r ihl ihr =>
    refine ⟨fun k' hk' => ?_, ihl h.2.1, ihr h.2.2⟩
    obtain ⟨k, hk, hle⟩ := hmore k' hk'
    exact (h.1 k hk).trans hle

/-- **C87, dynamic programming returns.** If `DynamicProgramming` returns a path under a limit, it returns one under every higher limit and without
limit, whatever the cost model, the cost cap, the sizes and the set orders. -/
theorem C87_dp_returns {order order' : PopOrder} (ho : PopOK order) (ho' : PopOK order') {cfg : DPCfg} {size : Nat → Nat} {limit limit' : Option Nat}
    (hmore : ∀ k', limit' = some k' → ∃ k, limit = some k ∧ k ≤ k') {inputs : List (Finset Nat)} (hne : inputs ≠ []) {output : Finset Nat} {fuel : Nat}
    {path : Path} (h : dpCall cfg order size limit inputs output fuel = some (.ok path)) :
    ∃ F, ∀ fuel', F ≤ fuel' → ∃ path', dpCall cfg order' size limit' inputs output fuel' = some (.ok path') := by
  apply (C79_dp_outcome ho' cfg size limit' inputs hne output).1
  intro G hG
  obtain ⟨k, h1, b, h2, ⟨h3, h4, h5⟩, h6⟩ := call_ok ho h hG
  exact ⟨k, h1, b, h2, ⟨h3, h4, fits_more hmore h5⟩, h6⟩

/-- **C87, the path of dynamic programming gets no worse.** Three or more operands, no axis summed alone, and the network connected or `search_outer`
set: raising the limit (or leaving it out), changing the cost cap or setting `search_outer` in addition, the path is no worse in what `minimize` names,
without hyperedges and `search_outer`; in any case where elements count (`size`, `write`), and where operations count by a factor of at most two. -/
theorem C87_dp_no_worse {order order' : PopOrder} (ho : PopOK order) (ho' : PopOK order') {cfg cfg' : DPCfg} (hmet : Named cfg.metric)
    (hsame : cfg'.metric = cfg.metric) (houter : cfg.searchOuter = true → cfg'.searchOuter = true) {fuel fuel' : Nat} {size : Nat → Nat} {inputs : List Str}
    {output : Str} {shapes : List Shape} (hn : 2 < inputs.length) (hlen : inputs.length = shapes.length)
    (hsize : ∀ c s, IsLabelSize inputs shapes c s → size c = s) (hlone : NoLoneLabels (inputs.map List.toFinset) output.toFinset)
    (hconn : Connected (inputs.map List.toFinset) output.toFinset ∨ cfg.searchOuter = true) {mem mem' : MemLimit}
    (hmore : ∀ s, WithinMemory mem size inputs output s → WithinMemory mem' size inputs output s) {ub ub' : Bool} {info info' : PathInfo}
    (h : contractPath inputs output shapes (.finder (dpFinder cfg order fuel)) mem ub = .ok info)
    (h' : contractPath inputs output shapes (.finder (dpFinder cfg' order' fuel')) mem' ub' = .ok info') :
    NoWorse cfg.metric 2 size output.toFinset (inputs.map List.toFinset) info' info ∧
    (NoHyperEdges (inputs.map List.toFinset) output.toFinset → cfg'.searchOuter = false →
      NoWorse cfg.metric 1 size output.toFinset (inputs.map List.toFinset) info' info) := by
  obtain ⟨a1, a2, a3, a4, -⟩ := C71_dp_report ho hmet hn hlen hsize hlone hconn h
  obtain ⟨-, -, -, -, b⟩ := C71_dp_report ho' (by rw [hsame]; exact hmet) hn hlen hsize hlone (hconn.imp_right houter) h'
  rw [hsame] at b
  refine b info.path mem ub info a1 a2 (contractPath_same_path h) (fun s hs => hmore s (a3 s (List.mem_of_mem_dropLast hs))) (fun hs => a4 ?_)
  cases hc : cfg.searchOuter with
  | false => rfl
  | true => rw [houter hc] at hs; cases hs

/-! ## Concrete cases -/

-- 'ab,bc,cd,de->ae' with lengths 2, 6, 2, 6, 2: whatever the limit, dynamic programming reports at least the 112 operations of no limit
example (q : ℚ) (info : PathInfo) (h : dpReport .flops false [S "ab", S "bc", S "cd", S "de"] (S "ae") [[2, 6], [6, 2], [2, 6], [6, 2]] (.num q) = .ok info) :
    112 ≤ info.optCost := by
  have hrun : (dpReport .flops false [S "ab", S "bc", S "cd", S "de"] (S "ae") [[2, 6], [6, 2], [2, 6], [6, 2]] .none).map (fun i => i.optCost) = .ok 112 := by
    decide +kernel
  unfold dpReport at hrun h
  cases hr : contractPath [S "ab", S "bc", S "cd", S "de"] (S "ae") [[2, 6], [6, 2], [2, 6], [6, 2]]
      (.finder (dpFinder ⟨.flops, .increase, false⟩ ascendingPop 60)) .none true with
  | error e => rw [hr] at hrun; cases hrun
  | ok info' =>
    rw [hr] at hrun
    rw [← Except.ok.inj hrun]
    have key := C87_dp_no_worse (size := fun c => if c = 98 ∨ c = 100 then 6 else 2) (inputs := [S "ab", S "bc", S "cd", S "de"]) (output := S "ae")
      (shapes := [[2, 6], [6, 2], [2, 6], [6, 2]]) (mem := .num q) (mem' := .none) ascendingPop_ok ascendingPop_ok (fun fn h => by cases h) rfl id (by decide) rfl exampleReport_sizes exampleReport_noLone
      (Or.inl exampleReport_connected) (fun _ _ => trivial) h hr
    simpa only [NoWorse, Nat.one_mul] using key.2 exampleReport_noHyper rfl

-- a limit under which dynamic programming fails, and a higher one under which it returns
example : (dpReport .flops false [S "ab", S "bc", S "cd"] (S "ad") [[2, 3], [3, 4], [4, 5]] (.num 7)).map (fun i => i.path) = .error .runtime ∧
    (dpReport .flops false [S "ab", S "bc", S "cd"] (S "ad") [[2, 3], [3, 4], [4, 5]] (.num 10)).map (fun i => i.path) = .ok [[0, 1], [0, 1]] := by
  constructor <;> decide +kernel

end OE.Props
