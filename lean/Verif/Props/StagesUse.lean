import Verif.Props.Stages
import Verif.Props.Paths1

/-!
# The three stages in the paths of `greedy`, `random_greedy`, `auto` and `auto_hq`

These return positions in the shrinking list of operands; `linear_to_ssa` gives the SSA path they stand for.
-/

namespace OE.Props
open OE OE.Py OE.Paths OE.Spec

/-- The order within a step does not matter. -/
theorem _root_.OE.Spec.StageSteps.map_sorted {ok : Finset (Finset Nat × Nat) → Finset Nat × Nat → Finset Nat × Nat → Prop} (hok : ∀ live p q, ok live p q → ok live q p)
    {next : Nat} {live live' : Finset (Finset Nat × Nat)} {path : List (List Nat)} (h : StageSteps ok next live path live') :
    StageSteps ok next live (path.map sorted) live' := by
  induction h with
  | done => exact .done _ _
  | @step next live live' p q rest hp hq hne h _ ih =>
    rw [List.map_cons]
    have hs : sorted [p.2, q.2] = if p.2 ≤ q.2 then [p.2, q.2] else [q.2, p.2] := by
      simp [sorted, List.insertionSort, List.orderedInsert]
    rw [hs]
    split
    · exact .step hp hq hne h ih
    · refine .step hq hp hne.symm (hok _ _ _ h) ?_
      rw [Finset.union_comm q.1, Finset.erase_right_comm]
      exact ih

theorem _root_.OE.Spec.ThreeStages.map_sorted {size : Nat → Nat} {inputs : List (Finset Nat)} {output reserved : Finset Nat} {path : List (List Nat)}
    (h : ThreeStages size inputs output reserved path) : ThreeStages size inputs output reserved (path.map sorted) := by
  obtain ⟨first, second, third, live1, live2, live3, hp, h1, h2, h3, h4, h5, h6⟩ := h
  refine ⟨first.map sorted, second.map sorted, third.map sorted, live1, live2, live3, ?_, ?_, h2, ?_, h4, ?_, h6⟩
  · rw [hp, List.map_append, List.map_append]
  · exact h1.map_sorted (fun _ _ _ h => Eq.symm h)
  · rw [List.length_map]
    refine h3.map_sorted ?_
    rintro _ p q (⟨c, hc, h1, h2⟩ | h)
    · exact Or.inl ⟨c, hc, h2, h1⟩
    · exact Or.inr h.symm
  · rw [List.length_map, List.length_map]
    refine h5.map_sorted ?_
    intro live p q h r hr s hs hne
    rw [Nat.add_comm (outerSize size inputs reserved q)]
    exact h r hr s hs hne

/-- From the SSA path of `ssa_greedy_optimize` to positions and back. -/
theorem linear_stages {fuel : Nat} {size : Nat → Nat} {cost : CostFn} {chooser : Option Chooser} (hc : ∀ c, chooser = some c → ChooserFair c)
    {order : GOrder} (ho : GOrderOK order) {inputs : List (Finset Nat)} (h2 : 2 ≤ inputs.length) {output reserved : Finset Nat}
    (hres : IsReserved inputs output reserved) {p path : Path} (hrun : ssaGreedy fuel size cost chooser order inputs output = some (.ok p))
    (hlin : ssaToLinear p = .ok path) : ∃ ssa, linearToSsa path = .ok ssa ∧ ThreeStages size inputs output reserved ssa := by
  have h3 := C101_three_stages hc ho h2 hres hrun
  obtain ⟨F, p', hF, hp', -⟩ := C16_ssa_greedy_complete size cost (fun c h => (hc c h).1) ho (inputs := inputs) (by intro h; rw [h] at h2; simp at h2) output
  have : p' = p := by
    have h := ssaGreedy_fuel (le_max_right F fuel) hrun
    rw [hF _ (le_max_left _ _)] at h
    cases h; rfl
  subst this
  obtain ⟨q, hq, hback⟩ := C12_ssa_round_trip hp'
  rw [hlin] at hq
  cases hq
  exact ⟨_, hback, h3.map_sorted⟩

/-- **C101, `greedy`.** -/
theorem C101_greedy {fuel : Nat} {size : Nat → Nat} {cost : CostFn} {chooser : Option Chooser} (hc : ∀ c, chooser = some c → ChooserFair c)
    {order : GOrder} (ho : GOrderOK order) {setOrder : SetOrder} {inputs : List (Finset Nat)} (h2 : 2 ≤ inputs.length) {output reserved : Finset Nat}
    (hres : IsReserved inputs output reserved) {path : Path}
    (hrun : greedy fuel size none cost chooser order setOrder inputs output = some (.ok path)) :
    ∃ ssa, linearToSsa path = .ok ssa ∧ ThreeStages size inputs output reserved ssa := by
  unfold greedy at hrun
  simp only at hrun
  split at hrun
  · cases hrun
  · cases hrun
  · rename_i p hp
    exact linear_stages hc ho h2 hres hp (Option.some.inj hrun)

/-- The path that `random_greedy` returns is that of one of its trials. -/
theorem randomGreedy_trial {maxRepeats nbranch : Nat} {cost : Nat → CostFn} {pick : Nat → Path → List ℚ → Nat} {order : GOrder} {fuel : Nat}
    {size : Nat → Nat} {inputs : List (Finset Nat)} {output : Finset Nat} {path : Path}
    (hrun : randomGreedy maxRepeats nbranch cost pick order fuel size inputs output = some (.ok path)) :
    ∃ r p, ssaGreedy fuel size (cost r) (if r = 0 then none else randomGreedyChooser nbranch pick r) order inputs output = some (.ok p) ∧
      ssaToLinear p = .ok path := by
  unfold randomGreedy at hrun
  split at hrun
  · cases hrun
  · rename_i ts hts
    have hrun := Option.some.inj hrun
    unfold roCall at hrun
    generalize hL : assessLoop _ _ _ _ _ = L at hrun
    obtain ⟨res, st'⟩ := L
    cases res with
    | error e => cases hrun
    | ok u =>
      simp only at hrun
      cases hp : st'.path with
      | none => rw [hp] at hrun; cases hrun
      | some p =>
        rw [hp] at hrun
        rcases assessLoop_path _ _ _ (by rw [hL]; exact hp) with h0 | ⟨t, ht, rfl⟩
        · cases h0
        · simp only [callTrials, List.mem_map] at ht
          obtain ⟨r, _, hr⟩ := ht
          have : Except.ok t ∈ ts := by
            rw [List.getD_eq_getElem?_getD] at hr
            cases hg : ts[r]? with
            | none => rw [hg] at hr; cases hr
            | some x =>
              rw [hg] at hr
              simp only [Option.getD_some] at hr
              rw [← hr]
              exact List.mem_of_getElem? hg
          obtain ⟨r', _, hr'⟩ := mem_mapM_some hts _ this
          unfold trialGreedy at hr'
          generalize hg : ssaGreedy fuel size (cost r') _ order inputs output = g at hr'
          match g, hr' with
          | some (.ok p), hr' =>
            simp only at hr'
            have hr' := Option.some.inj hr'
            cases hcost : ssaPathCost size p inputs output with
            | error e => rw [hcost] at hr'; cases hr'
            | ok cs =>
              rw [hcost] at hr'
              cases hr'
              exact ⟨r', p, hg, hrun⟩

/-- **C101, `random_greedy`.** -/
theorem C101_random_greedy {maxRepeats nbranch : Nat} (hb : 0 < nbranch) {cost : Nat → CostFn} {pick : Nat → Path → List ℚ → Nat}
    (hpick : ∀ r, PickOK (pick r)) {order : GOrder} (ho : GOrderOK order) {fuel : Nat} {size : Nat → Nat} {inputs : List (Finset Nat)}
    (h2 : 2 ≤ inputs.length) {output reserved : Finset Nat} (hres : IsReserved inputs output reserved) {path : Path}
    (hrun : randomGreedy maxRepeats nbranch cost pick order fuel size inputs output = some (.ok path)) :
    ∃ ssa, linearToSsa path = .ok ssa ∧ ThreeStages size inputs output reserved ssa := by
  obtain ⟨r, p, hp, hlin⟩ := randomGreedy_trial hrun
  refine linear_stages ?_ ho h2 hres hp hlin
  intro c hc
  split at hc
  · cases hc
  · unfold randomGreedyChooser at hc
    split at hc
    · cases hc
    · cases hc; exact thermal_fair nbranch hb (hpick r)

/-- **C101, `auto` and `auto_hq`** for so many operands that they use these two. -/
theorem C101_auto {cost : Nat → CostFn} {pick : Nat → Path → List ℚ → Nat} (hpick : ∀ r, PickOK (pick r)) {orders : Orders}
    (ho : GOrderOK orders.greedy) {fuel : Nat} {size : Nat → Nat} {mem : Option Nat} {inputs : List (Finset Nat)} {output reserved : Finset Nat}
    (hres : IsReserved inputs output reserved) {path : Path}
    (hrun : (15 ≤ inputs.length ∧ auto orders fuel size none inputs output = some (.ok path)) ∨
      (17 ≤ inputs.length ∧ autoHq cost pick orders fuel size mem inputs output = some (.ok path))) :
    ∃ ssa, linearToSsa path = .ok ssa ∧ ThreeStages size inputs output reserved ssa := by
  rcases hrun with ⟨h, hrun⟩ | ⟨h, hrun⟩
  · unfold auto at hrun
    simp only at hrun
    rw [if_neg (by omega), if_neg (by omega), if_neg (by omega), if_neg (by omega)] at hrun
    exact C101_greedy (by rintro c ⟨⟩) ho (by omega) hres hrun
  · unfold autoHq at hrun
    simp only at hrun
    rw [if_neg (by omega), if_neg (by omega)] at hrun
    exact C101_random_greedy (by decide) hpick ho (by omega) hres hrun

/-! ## Examples -/

example : greedy 30 (fun _ => 2) none costMemoryRemoved none gAscending ascending stagesInputs {0, 3, 6} =
    some (.ok [[1, 5], [3, 4], [2, 5], [0, 1], [1, 3], [0, 1], [0, 1]]) := by decide +kernel

end OE.Props
