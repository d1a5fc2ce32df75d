import Verif.Model.Auto
import Verif.Props.Random2
import Verif.Props.Dp2

/-!
# C50: `auto` and `auto-hq`
-/

namespace OE.Props
open OE OE.Py OE.Spec OE.Paths

/-- Sets are listed in any order. -/
def OrdersOK (o : Orders) : Prop := OrderOK o.set ∧ GOrderOK o.greedy ∧ PopOK o.pop

/-- **C50, `auto`.** For every non-empty list of inputs, output, sizes, memory limit and set orders, `auto` terminates without error with
a complete path (if there are two inputs or more). -/
theorem C50_auto {orders : Orders} (ho : OrdersOK orders) (size : Nat → Nat) (mem : Option Nat) {inputs : List (Finset Nat)} (hne : inputs ≠ [])
    (output : Finset Nat) :
    ∃ F, ∀ fuel, F ≤ fuel → ∃ path, auto orders fuel size mem inputs output = some (.ok path) ∧ (2 ≤ inputs.length → CompletePath inputs.length path) := by
  have hbr : ∀ nb, nb ≠ some 0 → ∀ fuel, inputs.length ≤ fuel → ∃ path, branchN nb orders fuel size mem inputs output = some (.ok path) ∧
      (2 ≤ inputs.length → CompletePath inputs.length path) := by
    intro nb hnb fuel hf
    obtain ⟨path, h1, -, h3⟩ := C15_branch_function { nbranch := nb, cutoff := 4, bySize := false, cost := costMemoryRemoved } hnb size output mem ho.1 hne hf
    exact ⟨path, h1, h3⟩
  obtain ⟨F, hF⟩ := C16_greedy_complete size mem costMemoryRemoved (chooser := none) (fun c hc => by cases hc) ho.2.1 ho.1 hne output
  refine ⟨max F inputs.length, fun fuel hf => ?_⟩
  unfold auto
  simp only
  split
  · obtain ⟨path, h1, -, h3⟩ := C14_optimal_complete size output mem ho.1 hne (fuel := fuel) (by omega)
    exact ⟨path, h1, h3⟩
  · split
    · exact hbr none (by simp) fuel (by omega)
    · split
      · exact hbr (some 2) (by simp) fuel (by omega)
      · split
        · exact hbr (some 1) (by simp) fuel (by omega)
        · exact hF fuel (by omega)

theorem mapM_some {α β : Type} {f : α → Option β} {g : α → β} {l : List α} (h : ∀ x ∈ l, f x = some (g x)) : l.mapM f = some (l.map g) := by
  induction l with
  | nil => rfl
  | cons x l ih =>
    rw [List.mapM_cons, h x List.mem_cons_self, ih (fun y hy => h y (List.mem_cons_of_mem _ hy))]
    rfl

/-- **`random_greedy` returns a complete path**, whatever is drawn. -/
theorem C53_random_greedy_function {maxRepeats nbranch : Nat} (hm : 0 < maxRepeats) (hb : 0 < nbranch) (cost : Nat → CostFn)
    {pick : Nat → Path → List ℚ → Nat} (hpick : ∀ r, PickOK (pick r)) {order : GOrder} (ho : GOrderOK order) (size : Nat → Nat)
    {inputs : List (Finset Nat)} (h2 : 2 ≤ inputs.length) (output : Finset Nat) :
    ∃ F, ∀ fuel, F ≤ fuel → ∃ path, randomGreedy maxRepeats nbranch cost pick order fuel size inputs output = some (.ok path) ∧
      CompletePath inputs.length path := by
  obtain ⟨F, trial, path, new, h1, h3, h4, -, -⟩ := C53_random_greedy_complete size cost hb hpick ho h2 output false maxRepeats hm (fun _ => false) []
    ROSt.fresh ⟨rfl, rfl, fun _ => ⟨rfl, rfl, rfl⟩, fun h => absurd rfl h⟩ (by simp)
  refine ⟨F, fun fuel hf => ⟨path, ?_, h4⟩⟩
  have hmap : (List.range maxRepeats).mapM (trialGreedy fuel size cost (randomGreedyChooser nbranch pick) order inputs output) =
      some ((List.range maxRepeats).map trial) := by
    apply mapM_some
    intro r hr
    apply h1 fuel hf r
    rw [List.range_eq_range'] at hr
    exact hr
  have hsame : roCall false maxRepeats none (fun _ => false) (fun r => ((List.range maxRepeats).map trial).getD r (.error .index)) ROSt.fresh =
      roCall false maxRepeats none (fun _ => false) trial ROSt.fresh := by
    have : callTrials maxRepeats none (fun r => ((List.range maxRepeats).map trial).getD r (.error .index)) 0 = callTrials maxRepeats none trial 0 := by
      unfold callTrials
      simp only
      apply List.map_congr_left
      intro r hr
      rw [← List.range_eq_range', List.mem_range] at hr
      rw [List.getD_eq_getElem?_getD, List.getElem?_map, List.getElem?_range hr]
      rfl
    unfold roCall
    rw [show ROSt.fresh.costs.length = 0 from rfl, this]
  unfold randomGreedy
  rw [hmap]
  simp only
  rw [hsame, h3]

/-- **C50, `auto_hq` (partial).** For every non-empty list of inputs, output, set orders and random draws: if there is no
memory limit and all sizes are at least 1, or there are fewer than 6 or more than 16 inputs, `auto_hq` terminates without error with a
complete path (if there are two inputs or more); and whatever it returns is complete. (Missing: with 6 to 16 inputs and a memory limit, or sizes of 0, it may raise `RuntimeError`, see
`C50_counterexample`.) -/
theorem C50_auto_hq_partial {orders : Orders} (ho : OrdersOK orders) (cost : Nat → CostFn) {pick : Nat → Path → List ℚ → Nat} (hpick : ∀ r, PickOK (pick r))
    (size : Nat → Nat) (mem : Option Nat) {inputs : List (Finset Nat)} (hne : inputs ≠ []) (output : Finset Nat) :
    ((mem = none ∧ (∀ c, 0 < size c)) ∨ inputs.length < 6 ∨ 16 < inputs.length →
      ∃ F, ∀ fuel, F ≤ fuel → ∃ path, autoHq cost pick orders fuel size mem inputs output = some (.ok path) ∧
        (2 ≤ inputs.length → CompletePath inputs.length path)) ∧
    (∃ F, ∀ fuel, F ≤ fuel → ∀ path, autoHq cost pick orders fuel size mem inputs output = some (.ok path) → 2 ≤ inputs.length → CompletePath inputs.length path) ∧
    ((∀ c, 0 < size c) → ∃ F, ∀ fuel, F ≤ fuel →
      (∃ path, autoHq cost pick orders fuel size mem inputs output = some (.ok path)) ∨ autoHq cost pick orders fuel size mem inputs output = some (.error .runtime)) := by
  have hpos : 0 < inputs.length := List.length_pos_iff.mpr hne
  by_cases h6 : inputs.length < 6
  · have : ∀ fuel, inputs.length ≤ fuel → ∃ path, autoHq cost pick orders fuel size mem inputs output = some (.ok path) ∧
        (2 ≤ inputs.length → CompletePath inputs.length path) := by
      intro fuel hf
      obtain ⟨path, h1, -, h3⟩ := C14_optimal_complete size output mem ho.1 hne hf
      refine ⟨path, ?_, h3⟩
      unfold autoHq
      simp only
      rw [if_pos ⟨hpos, h6⟩, h1]
    refine ⟨fun _ => ⟨inputs.length, this⟩, ⟨inputs.length, fun fuel hf path hp => ?_⟩, fun _ => ⟨inputs.length, fun fuel hf => Or.inl ?_⟩⟩
    · obtain ⟨path', h1, h2⟩ := this fuel hf
      rw [h1] at hp
      cases hp
      exact h2
    · obtain ⟨path', h1, h2⟩ := this fuel hf
      exact ⟨path', h1⟩
  · by_cases h17 : inputs.length < 17
    · have heq : ∀ fuel, autoHq cost pick orders fuel size mem inputs output = dpCall ⟨.flops, .increase, false⟩ orders.pop size mem inputs output fuel := by
        intro fuel
        unfold autoHq
        simp only
        rw [if_neg (by omega), if_pos (by omega)]
      have hfin : ∀ {path}, Complete1 inputs.length path → CompletePath inputs.length path := fun h => h.resolve_right (by omega)
      refine ⟨?_, ⟨0, fun fuel _ path hp _ => ?_⟩, fun hs => ?_⟩
      · rintro (⟨rfl, hs⟩ | h | h)
        · obtain ⟨F, hF⟩ := (C17_dp_complete_partial ho.2.2 ⟨.flops, .increase, false⟩ size inputs hne output).1 ⟨hs, fun n h => by cases h⟩
          refine ⟨F, fun fuel hf => ?_⟩
          obtain ⟨path, h1, h2⟩ := hF fuel hf
          exact ⟨path, (heq fuel).trans h1, fun _ => hfin h2⟩
        · omega
        · omega
      · rw [heq] at hp
        exact hfin ((C17_dp_complete_partial ho.2.2 ⟨.flops, .increase, false⟩ size inputs hne output).2 mem fuel path hp)
      · obtain ⟨F, hF⟩ := (C22_dp_memory_partial ho.2.2 ⟨.flops, .increase, false⟩ size mem inputs hne output).2 (Or.inl rfl) ⟨hs, fun n h => by cases h⟩
        refine ⟨F, fun fuel hf => ?_⟩
        rw [heq]
        exact (hF fuel hf).imp_right And.left
    · obtain ⟨F, hF⟩ := C53_random_greedy_function (maxRepeats := 128) (nbranch := 8) (by omega) (by omega) cost hpick ho.2.1 size (by omega : 2 ≤ inputs.length) output
      have : ∀ fuel, F ≤ fuel → ∃ path, autoHq cost pick orders fuel size mem inputs output = some (.ok path) ∧
          (2 ≤ inputs.length → CompletePath inputs.length path) := by
        intro fuel hf
        obtain ⟨path, h1, h3⟩ := hF fuel hf
        refine ⟨path, ?_, fun _ => h3⟩
        unfold autoHq
        simp only
        rw [if_neg (by omega), if_neg (by omega), h1]
      refine ⟨fun _ => ⟨F, this⟩, ⟨F, fun fuel hf path hp => ?_⟩, fun _ => ⟨F, fun fuel hf => Or.inl ?_⟩⟩
      · obtain ⟨path', h1, h2⟩ := this fuel hf
        rw [h1] at hp
        cases hp
        exact h2
      · obtain ⟨path', h1, h2⟩ := this fuel hf
        exact ⟨path', h1⟩

/-- Orders for the examples. -/
def exampleOrders : Orders :=
  ⟨ascending, ⟨fun s => (List.range (s.sup id + 1)).filter (· ∈ s), fun _ _ => []⟩, ascendingPop⟩

/-- `C50_auto_hq_partial` does not extend to memory limits: a chain of six matrices with a memory limit of 1 makes `auto_hq` raise `RuntimeError`,
while `auto` returns a path (one contraction of all inputs). -/
theorem C50_counterexample :
    autoHq (fun _ => costMemoryRemoved) (fun _ _ _ => 0) exampleOrders 20 (fun _ => 2) (some 1) [{0, 1}, {1, 2}, {2, 3}, {3, 4}, {4, 5}, {5, 6}] {0, 6} = some (.error .runtime) ∧
    auto exampleOrders 20 (fun _ => 2) (some 1) [{0, 1}, {1, 2}, {2, 3}, {3, 4}, {4, 5}, {5, 6}] {0, 6} = some (.ok [[0, 1, 2, 3, 4, 5]]) := by
  constructor <;> decide +kernel

end OE.Props
