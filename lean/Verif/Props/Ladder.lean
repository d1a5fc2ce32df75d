import Verif.Spec.Ladder
import Verif.Lemmas.Ladder
import Verif.Props.DpReport
import Verif.Props.Report

/-!
# C97: the path finders compared with each other
-/

namespace OE.Props
open OE OE.Py OE.Spec OE.Parser OE.Helpers OE.Contract OE.Paths OE.Registry

section
variable {lower : Str → Str} {t : Dict Str Builtin} {e : Env} {name : Str} {b : Builtin} {inputs : List Str} {output : Str} {shapes : List Shape}
  {mem : MemLimit} {ub : Bool} {info : PathInfo}

theorem oneBranch_run (hb : RunsOneBranch b inputs.length) (d : Dict Nat Nat) :
    b.fn e (inputs.map List.toFinset) output.toFinset d none =
      (branchN (some 1) e.orders e.fuel (labelSize d) none (inputs.map List.toFinset) output.toFinset).getD (.error .stopIteration) := by
  rcases hb with rfl | ⟨rfl, h9, h15⟩
  · rfl
  · simp only [Builtin.fn, asPathFn, auto, List.length_map]
    rw [if_neg (by omega), if_neg (by omega), if_neg (by omega), if_pos ⟨h9, h15⟩]

theorem moreBranches_run (hb : RunsMoreBranches b inputs.length) (d : Dict Nat Nat) :
    ∃ nb, nb ≠ some 0 ∧ b.fn e (inputs.map List.toFinset) output.toFinset d none =
      (branchN nb e.orders e.fuel (labelSize d) none (inputs.map List.toFinset) output.toFinset).getD (.error .stopIteration) := by
  rcases hb with rfl | rfl | ⟨rfl, h5, h9⟩
  · exact ⟨none, by simp, rfl⟩
  · exact ⟨some 2, by simp, rfl⟩
  · simp only [Builtin.fn, asPathFn, auto, List.length_map]
    rw [if_neg (by omega)]
    by_cases h7 : inputs.length < 7
    · exact ⟨none, by simp, by rw [if_pos ⟨h5, h7⟩]⟩
    · exact ⟨some 2, by simp, by rw [if_neg (by omega), if_pos ⟨by omega, h9⟩]⟩

/-- **C97, `branch-1`.** In a network without hyperedges, the path that `contract_path` reports for three or more operands with
`optimize='branch-1'`, or `'auto'` for nine to fourteen, without memory limit, contracts two tensors without a common label only when no two
of the remaining tensors have one. -/
theorem C97_branch_one (hl : LowerOK lower) (ht : importedOptions lower = .ok t) (he : EnvOK e) (hname : documentedName (lower name) = some b)
    (hn : 2 < inputs.length) (hb : RunsOneBranch b inputs.length) (hfuel : inputs.length ≤ e.fuel)
    (hh : NoHyperEdges (inputs.map List.toFinset) output.toFinset) (hmem : Unlimited mem)
    (h : contractPath inputs output shapes (resolve lower (optionFns e t) (.name name)) mem ub = .ok info) :
    CompletePath inputs.length info.path ∧ Pairwise2 info.path ∧ InnerFirst output.toFinset (inputs.map List.toFinset) info.path := by
  obtain ⟨m, hm, h3, -⟩ := contractPath_named hl ht hname h
  have hfn := h3 hn
  rw [unlimited_arg hmem hm, oneBranch_run hb] at hfn
  obtain ⟨path, e1, e2, e3, e4⟩ := branch_one_innerFirst (cfg := { nbranch := some 1, cutoff := 4, bySize := false, cost := costMemoryRemoved })
    (size := labelSize info.sizeDict) hh rfl he.orders.1 (by rw [List.length_map]; omega) (fuel := e.fuel) (by rwa [List.length_map])
  unfold branchN at hfn
  rw [e1] at hfn
  cases hfn
  rw [List.length_map] at e2
  exact ⟨e2, e3, e4⟩

/-- In a connected network without hyperedges, the names that run the greedy search report paths without outer products, and so do, if
there are no batch dimensions, those that run branch and bound with one branch. -/
theorem C97_no_outer (hl : LowerOK lower) (ht : importedOptions lower = .ok t) (he : EnvOK e) (hname : documentedName (lower name) = some b)
    (hn : 2 < inputs.length)
    (hb : RunsGreedy b inputs.length ∨
      (RunsOneBranch b inputs.length ∧ NoBatch (inputs.map List.toFinset) output.toFinset ∧ inputs.length ≤ e.fuel))
    (hh : NoHyperEdges (inputs.map List.toFinset) output.toFinset) (hconn : Connected (inputs.map List.toFinset) output.toFinset)
    (hmem : Unlimited mem)
    (h : contractPath inputs output shapes (resolve lower (optionFns e t) (.name name)) mem ub = .ok info) :
    CompletePath inputs.length info.path ∧ Pairwise2 info.path ∧ NoOuterPath output.toFinset (inputs.map List.toFinset) info.path := by
  rcases hb with hb | ⟨hb, hu, hfuel⟩
  · obtain ⟨h1, h2, h3⟩ := C61_connected_first hl ht he hname hn (by
      rcases hb with h | h | h | h | h
      · exact Or.inl ⟨hmem, Or.inl h⟩
      · exact Or.inl ⟨hmem, Or.inr h⟩
      · exact Or.inr (Or.inl h)
      · exact Or.inr (Or.inr (Or.inl h))
      · exact Or.inr (Or.inr (Or.inr h))) h
    refine ⟨h1, h2, noOuter_of_connectedFirst ?_ _ (by rw [List.length_map]; exact completePath_valid h1) h2 (conn_of_connected hconn) h3⟩
    intro c
    refine ⟨fun hi => hi.1, fun hc => ⟨hc, ?_⟩⟩
    by_contra hno
    push Not at hno
    have := hh c hc
    rw [List.countP_eq_length.mpr (by simpa using hno), List.length_map] at this
    omega
  · obtain ⟨h1, h2, h3⟩ := C97_branch_one hl ht he hname hn hb hfuel hh hmem h
    exact ⟨h1, h2, noOuter_of_innerFirst _ (by rw [List.length_map]; exact completePath_valid h1) h2 (conn_of_connected hconn) hu h3⟩

/-- **C97, dynamic programming.** In a connected network without hyperedges and without axes that are summed alone, without memory limit,
`contract_path` with `optimize='dp'`, or `'auto-hq'` for six to sixteen operands, reports an `opt_cost` that is at most that of the
names that run the greedy search and, if there are no batch dimensions, at most that of `'branch-1'` and of `'auto'` for nine to fourteen
operands. The two calls may see different set orders and draw different random numbers. -/
theorem C97_dp {e' : Env} {name' : Str} {b' : Builtin} {ub' : Bool} {mem' : MemLimit} {info' : PathInfo}
    (hl : LowerOK lower) (ht : importedOptions lower = .ok t) (he : EnvOK e) (he' : EnvOK e') (hname : documentedName (lower name) = some b)
    (hname' : documentedName (lower name') = some b') (hn : 2 < inputs.length) (hlen : inputs.length = shapes.length)
    (hb : RunsDp b inputs.length)
    (hb' : RunsGreedy b' inputs.length ∨
      (RunsOneBranch b' inputs.length ∧ NoBatch (inputs.map List.toFinset) output.toFinset ∧ inputs.length ≤ e'.fuel))
    (hh : NoHyperEdges (inputs.map List.toFinset) output.toFinset) (hlone : NoLoneLabels (inputs.map List.toFinset) output.toFinset)
    (hconn : Connected (inputs.map List.toFinset) output.toFinset) (hmem : Unlimited mem) (hmem' : Unlimited mem')
    (h : contractPath inputs output shapes (resolve lower (optionFns e t) (.name name)) mem ub = .ok info)
    (h' : contractPath inputs output shapes (resolve lower (optionFns e' t) (.name name')) mem' ub' = .ok info') :
    info.optCost ≤ info'.optCost := by
  obtain ⟨q1, q2, q3⟩ := C97_no_outer hl ht he' hname' hn hb' hh hconn hmem' h'
  have hq := contractPath_same_path h'
  obtain ⟨hd, -⟩ := contractPath_chosen_args h
  rw [C71_named hl ht hname hb] at h
  have key := C71_dp_report he.orders.2.2 (fun fn h => by cases h) hn hlen (size := labelSize info.sizeDict) (fun c s hs => by
    rw [labelSize_spec hlen hd] at hs
    simp [labelSize, hs]) hlone (Or.inl hconn) h
  have := (key.2.2.2.2 info'.path mem' ub' info' q1 q2 hq (fun s _ => by
    rcases hmem with rfl | rfl
    · trivial
    · exact Or.inl rfl) (fun _ => q3)).2 hh rfl
  simpa only [NoWorse, Nat.one_mul] using this

/-- **C97, `optimal`.** In a network without hyperedges and without axes that are summed alone, without memory limit, `contract_path` with a name
that searches all paths reports an `opt_cost` that is at most the one it reports with any other value of `optimize` that leads to
a complete path in pairs. -/
theorem C97_optimal {ub' : Bool} {mem' : MemLimit} {opt' : Optimize} {info' : PathInfo}
    (hl : LowerOK lower) (ht : importedOptions lower = .ok t) (he : EnvOK e) (hname : documentedName (lower name) = some b)
    (hne : inputs ≠ []) (hlen : inputs.length = shapes.length) (hb : SearchesAll b inputs.length) (hfuel : inputs.length ≤ e.fuel)
    (hh : NoHyperEdges (inputs.map List.toFinset) output.toFinset) (hlone : NoLoneLabels (inputs.map List.toFinset) output.toFinset)
    (hmem : Unlimited mem)
    (h : contractPath inputs output shapes (resolve lower (optionFns e t) (.name name)) mem ub = .ok info)
    (h' : contractPath inputs output shapes opt' mem' ub' = .ok info') (hc : CompletePath inputs.length info'.path) (hp : Pairwise2 info'.path) :
    info.optCost ≤ info'.optCost := by
  obtain ⟨hd, -⟩ := contractPath_chosen_args h
  have key := C62_least_cost_partial hl ht he hname hne hlen (size := labelSize info.sizeDict) (fun c s hs => by
    rw [labelSize_spec hlen hd] at hs
    simp [labelSize, hs]) hb hfuel hh hlone h
  exact key.2.2 info'.path mem' ub' info' hc hp (contractPath_same_path h') (fun s _ => by
    rcases hmem with rfl | rfl
    · trivial
    · exact Or.inl rfl)

/-- **C97, more branches.** In a network without hyperedges and without axes that are summed alone, without memory limit and with
the same set orders, `contract_path` with `optimize='branch-all'`, `'branch-2'`, or `'auto'` for five to eight operands, reports a path in pairs that is not
worse than that of `'branch-1'`: `opt_cost` is not larger and, if it is equal, neither is `largest_intermediate`. -/
theorem C97_more_branches {name' : Str} {ub' : Bool} {mem' : MemLimit} {info' : PathInfo}
    (hl : LowerOK lower) (ht : importedOptions lower = .ok t) (he : EnvOK e) (hname : documentedName (lower name) = some b)
    (hname' : documentedName (lower name') = some .branch1) (hn : 2 < inputs.length) (hlen : inputs.length = shapes.length)
    (hb : RunsMoreBranches b inputs.length) (hfuel : inputs.length ≤ e.fuel)
    (hh : NoHyperEdges (inputs.map List.toFinset) output.toFinset) (hlone : NoLoneLabels (inputs.map List.toFinset) output.toFinset)
    (hmem : Unlimited mem) (hmem' : Unlimited mem')
    (h : contractPath inputs output shapes (resolve lower (optionFns e t) (.name name)) mem ub = .ok info)
    (h' : contractPath inputs output shapes (resolve lower (optionFns e t) (.name name')) mem' ub' = .ok info') :
    CompletePath inputs.length info.path ∧ Pairwise2 info.path ∧
    info.optCost ≤ info'.optCost ∧ (info.optCost = info'.optCost → info.largestIntermediate ≤ info'.largestIntermediate) := by
  obtain ⟨m, hm, h3, -⟩ := contractPath_named hl ht hname h
  obtain ⟨m', hm', h3', -⟩ := contractPath_named hl ht hname' h'
  have hfn := h3 hn
  have hfn' := h3' hn
  obtain ⟨hd, -⟩ := contractPath_chosen_args h
  obtain ⟨hd', -⟩ := contractPath_chosen_args h'
  rw [hd] at hd'
  have g2 : info'.sizeDict = info.sizeDict := (Except.ok.inj hd').symm
  obtain ⟨nb, hnb, hrun⟩ := moreBranches_run (e := e) (output := output) hb info.sizeDict
  rw [unlimited_arg hmem hm, hrun] at hfn
  rw [unlimited_arg hmem' hm', oneBranch_run (Or.inl rfl), g2] at hfn'
  have h2 : 2 ≤ (inputs.map List.toFinset).length := by rw [List.length_map]; omega
  have hf : (inputs.map List.toFinset).length ≤ e.fuel := by rwa [List.length_map]
  obtain ⟨path, path1, e1, e2, e3⟩ := C58_more_branches_partial hh { nbranch := nb, cutoff := 4, bySize := false, cost := costMemoryRemoved } hnb
    (labelSize info.sizeDict) he.orders.1 h2 hf
  obtain ⟨_, _, path', -, k1, -, -, -, k2, k3, -, -⟩ := branch_run (cfg := { nbranch := nb, cutoff := 4, bySize := false, cost := costMemoryRemoved })
    (size := labelSize info.sizeDict) (cacheSafe_of_noHyper hh) he.orders.1 hnb h2 hf
  obtain ⟨_, _, path1', -, f1, -, -, -, f2, -, -, -⟩ := branch_run (cfg := { nbranch := some 1, cutoff := 4, bySize := false, cost := costMemoryRemoved })
    (size := labelSize info.sizeDict) (cacheSafe_of_noHyper hh) he.orders.1 (by simp) h2 hf
  rw [e1] at k1
  rw [e2] at f1
  cases k1; cases f1
  unfold branchN at hfn hfn'
  rw [e1] at hfn
  rw [e2] at hfn'
  have p1 : path = info.path := Except.ok.inj hfn
  have p2 : path1 = info'.path := Except.ok.inj hfn'
  subst p1 p2
  rw [List.length_map] at k2 f2
  obtain ⟨-, r2, -, r4⟩ := reported hlen h k2
  obtain ⟨-, s2, -, s4⟩ := reported hlen h' f2
  rw [g2] at s2 s4
  rw [← r2 hlone, ← r4, ← s2 hlone, ← s4] at e3
  refine ⟨k2, k3, ?_, ?_⟩
  · by_contra hlt
    exact e3 (Or.inl (by omega))
  · intro heq
    by_contra hlt
    exact e3 (Or.inr ⟨heq.symm, by omega⟩)

/-- **C97, `auto-hq` (partial).** In a connected network without hyperedges, without axes that are summed alone and without batch dimensions, and without
memory limit, `contract_path` with `optimize='auto-hq'` reports an `opt_cost` that is at most that of `optimize='auto'`, for three to
five and for nine to sixteen operands.

Missing: six to eight operands, for which the claim is false (`C97_counterexample_six`, `_seven`, `_eight`: `auto` also looks at outer
products, `auto-hq` does not); and seventeen or more, where `auto-hq` depends on random numbers (see `C72_counterexample_jitter`). -/
theorem C97_auto_hq_partial {e' : Env} {name' : Str} {ub' : Bool} {mem' : MemLimit} {info' : PathInfo}
    (hl : LowerOK lower) (ht : importedOptions lower = .ok t) (he : EnvOK e) (he' : EnvOK e') (hname : documentedName (lower name) = some .autoHq)
    (hname' : documentedName (lower name') = some .auto) (hn : 2 < inputs.length) (hn6 : inputs.length < 6 ∨ (9 ≤ inputs.length ∧ inputs.length < 17))
    (hlen : inputs.length = shapes.length) (hfuel : inputs.length ≤ e.fuel) (hfuel' : inputs.length ≤ e'.fuel)
    (hh : NoHyperEdges (inputs.map List.toFinset) output.toFinset) (hlone : NoLoneLabels (inputs.map List.toFinset) output.toFinset)
    (hconn : Connected (inputs.map List.toFinset) output.toFinset) (hbatch : NoBatch (inputs.map List.toFinset) output.toFinset)
    (hmem : Unlimited mem) (hmem' : Unlimited mem')
    (h : contractPath inputs output shapes (resolve lower (optionFns e t) (.name name)) mem ub = .ok info)
    (h' : contractPath inputs output shapes (resolve lower (optionFns e' t) (.name name')) mem' ub' = .ok info') :
    info.optCost ≤ info'.optCost := by
  rcases hn6 with h6 | ⟨h9, h17⟩
  · have hne : inputs ≠ [] := by rintro rfl; simp at hn
    have hcp : CompletePath inputs.length info'.path ∧ Pairwise2 info'.path := by
      obtain ⟨m', hm', h3', -⟩ := contractPath_named hl ht hname' h'
      have hfn := h3' hn
      rw [unlimited_arg hmem' hm'] at hfn
      by_cases h5 : inputs.length < 5
      · have hne' : inputs.map List.toFinset ≠ [] := by simpa using hne
        rw [searchesAll_fn (Or.inr (Or.inl ⟨rfl, by simpa using h5⟩)) hne'] at hfn
        obtain ⟨path, e1, e2, e3, -⟩ := C18_optimal_minimal_partial (size := labelSize info'.sizeDict) hh he'.orders.1 (by simpa using hn.le) (fuel := e'.fuel)
          (by simpa using hfuel')
        rw [e1] at hfn
        cases hfn
        rw [List.length_map] at e2
        exact ⟨e2, e3⟩
      · obtain ⟨hd, -⟩ := contractPath_chosen_args h'
        have := C62_branch_all_partial hl ht he' hname' hn hlen (size := labelSize info'.sizeDict) (fun c s hs => by
          rw [labelSize_spec hlen hd] at hs
          simp [labelSize, hs]) (Or.inr ⟨rfl, by omega, by omega⟩) hfuel' hh hlone hmem' h'
        exact ⟨this.1, this.2.1⟩
    exact C97_optimal hl ht he hname hne hlen (Or.inr (Or.inr ⟨rfl, h6⟩)) hfuel hh hlone hmem h h' hcp.1 hcp.2
  · refine C97_dp hl ht he he' hname hname' hn hlen (Or.inr ⟨rfl, by omega, h17⟩) ?_ hh hlone hconn hmem hmem' h h'
    by_cases h15 : inputs.length < 15
    · exact Or.inr ⟨Or.inr ⟨rfl, h9, h15⟩, hbatch, hfuel'⟩
    · exact Or.inl (Or.inr (Or.inl ⟨rfl, by omega⟩))

end

/-! ## Concrete cases -/

/-- `contract_path` with a name, for operands of the given labels and shapes. -/
def ladderReport (name : String) (inputs : List Str) (output : Str) (shapes : List Shape) : Except PyErr PathInfo :=
  contractPath inputs output shapes (resolve asciiLower (optionFns exampleEnv exampleTable) (.name (S name))) .none true

theorem exampleReport_noBatch : NoBatch ([S "ab", S "bc", S "cd", S "de"].map List.toFinset) (S "ae").toFinset := by
  unfold NoBatch
  decide +kernel

-- C97_dp: whatever the set orders and random numbers, no greedy search and no search with one branch reports less than dynamic programming
example (e' : Env) (he' : EnvOK e') (hf : 4 ≤ e'.fuel) (name' : String) (hb' : documentedName (asciiLower (S name')) = some .greedy ∨
      documentedName (asciiLower (S name')) = some .branch1 ∨ documentedName (asciiLower (S name')) = some .randomGreedy) (info' : PathInfo)
    (h' : contractPath [S "ab", S "bc", S "cd", S "de"] (S "ae") [[2, 6], [6, 2], [2, 6], [6, 2]]
      (resolve asciiLower (optionFns e' exampleTable) (.name (S name'))) .none true = .ok info') : 112 ≤ info'.optCost := by
  have hrun : (ladderReport "dp" [S "ab", S "bc", S "cd", S "de"] (S "ae") [[2, 6], [6, 2], [2, 6], [6, 2]]).map (fun i => i.optCost) = .ok 112 := by
    decide +kernel
  have hname : documentedName (asciiLower (S "dp")) = some .dynamicProgramming := by decide +kernel
  have ht : importedOptions asciiLower = .ok exampleTable := importedOptions_ok asciiLower_ok
  unfold ladderReport at hrun
  generalize S "dp" = name at hrun hname
  generalize S name' = name' at hb' h'
  obtain ⟨b', hb', hr'⟩ : ∃ b', documentedName (asciiLower name') = some b' ∧ (RunsGreedy b' 4 ∨
      (RunsOneBranch b' 4 ∧ NoBatch ([S "ab", S "bc", S "cd", S "de"].map List.toFinset) (S "ae").toFinset ∧ 4 ≤ e'.fuel)) := by
    rcases hb' with hb | hb | hb
    · exact ⟨_, hb, Or.inl (Or.inl rfl)⟩
    · exact ⟨_, hb, Or.inr ⟨Or.inl rfl, exampleReport_noBatch, hf⟩⟩
    · exact ⟨_, hb, Or.inl (Or.inr (Or.inr (Or.inl rfl)))⟩
  have key := @C97_dp asciiLower exampleTable exampleEnv name .dynamicProgramming [S "ab", S "bc", S "cd", S "de"] (S "ae")
    [[2, 6], [6, 2], [2, 6], [6, 2]] .none true
  generalize contractPath _ (S "ae") _ (resolve asciiLower (optionFns exampleEnv exampleTable) (.name name)) .none true = r at hrun key
  cases r with
  | error e => cases hrun
  | ok info =>
    rw [← Except.ok.inj hrun]
    exact @key info e' name' b' true .none info' asciiLower_ok ht exampleEnv_ok he' hname hb' (by decide) rfl (Or.inl rfl) hr'
      exampleReport_noHyper exampleReport_noLone exampleReport_connected (Or.inl rfl) (Or.inl rfl) rfl h'

-- the other statements on the same network
example : (ladderReport "optimal" [S "ab", S "bc", S "cd", S "de"] (S "ae") [[2, 6], [6, 2], [2, 6], [6, 2]]).map
    (fun i => (i.path, i.optCost, i.largestIntermediate)) = .ok ([[0, 1], [0, 1], [0, 1]], 112, 4) := by decide +kernel
example : (ladderReport "auto-hq" [S "ab", S "bc", S "cd", S "de"] (S "ae") [[2, 6], [6, 2], [2, 6], [6, 2]]).map
    (fun i => (i.path, i.optCost, i.largestIntermediate)) = .ok ([[0, 1], [0, 1], [0, 1]], 112, 4) := by decide +kernel
example : (ladderReport "auto" [S "ab", S "bc", S "cd", S "de"] (S "ae") [[2, 6], [6, 2], [2, 6], [6, 2]]).map
    (fun i => (i.path, i.optCost, i.largestIntermediate)) = .ok ([[0, 1], [0, 1], [0, 1]], 112, 4) := by decide +kernel
example : (ladderReport "branch-2" [S "ab", S "bc", S "cd", S "de"] (S "ae") [[2, 6], [6, 2], [2, 6], [6, 2]]).map
    (fun i => (i.path, i.optCost, i.largestIntermediate)) = .ok ([[0, 1], [0, 1], [0, 1]], 112, 4) := by decide +kernel
example : (ladderReport "branch-1" [S "ab", S "bc", S "cd", S "de"] (S "ae") [[2, 6], [6, 2], [2, 6], [6, 2]]).map
    (fun i => (i.path, i.optCost, i.largestIntermediate)) = .ok ([[0, 1], [0, 1], [0, 1]], 112, 4) := by decide +kernel

/-- `auto-hq` may be worse than `auto` for six operands: 'ac,abd,b,c,def,e->f', where `auto` (`branch-all`) contracts two operands without a
common label first. -/
theorem C97_counterexample_six :
    (ladderReport "auto" [S "ac", S "abd", S "b", S "c", S "def", S "e"] (S "f") [[1, 4], [1, 2, 8], [2], [4], [8, 3, 16], [3]]).map (fun i => i.optCost) = .ok 848 ∧
    (ladderReport "auto-hq" [S "ac", S "abd", S "b", S "c", S "def", S "e"] (S "f") [[1, 4], [1, 2, 8], [2], [4], [8, 3, 16], [3]]).map (fun i => i.optCost) = .ok 920 := by
  constructor <;> decide +kernel

/-- The same for seven operands. -/
theorem C97_counterexample_seven :
    (ladderReport "auto" [S "acfg", S "ab", S "bgh", S "cde", S "d", S "e", S "fi"] (S "hi")
      [[3, 2, 3, 3], [3, 3], [3, 3, 2], [2, 2, 3], [2], [3], [3, 3]]).map (fun i => i.optCost) = .ok 390 ∧
    (ladderReport "auto-hq" [S "acfg", S "ab", S "bgh", S "cde", S "d", S "e", S "fi"] (S "hi")
      [[3, 2, 3, 3], [3, 3], [3, 3, 2], [2, 2, 3], [2], [3], [3, 3]]).map (fun i => i.optCost) = .ok 392 := by
  constructor <;> decide +kernel

/-- The same for eight operands. -/
theorem C97_counterexample_eight :
    (ladderReport "auto" [S "a", S "abc", S "bdef", S "c", S "d", S "egh", S "f", S "g"] (S "h")
      [[8], [8, 3, 1], [3, 2, 4, 3], [1], [2], [4, 16, 16], [3], [16]]).map (fun i => i.optCost) = .ok 2406 ∧
    (ladderReport "auto-hq" [S "a", S "abc", S "bdef", S "c", S "d", S "egh", S "f", S "g"] (S "h")
      [[8], [8, 3, 1], [3, 2, 4, 3], [1], [2], [4, 16, 16], [3], [16]]).map (fun i => i.optCost) = .ok 2438 := by
  constructor <;> decide +kernel

/-- Dynamic programming may be worse than `branch-1` with a batch dimension: in 'xa,xb,abc->xc' it does not contract the operands that
share the output label x only. -/
theorem C97_counterexample_batch :
    (ladderReport "branch-1" [S "xa", S "xb", S "abc"] (S "xc") [[3, 2], [3, 2], [2, 2, 10]]).map (fun i => i.optCost) = .ok 252 ∧
    (ladderReport "dp" [S "xa", S "xb", S "abc"] (S "xc") [[3, 2], [3, 2], [2, 2, 10]]).map (fun i => i.optCost) = .ok 360 := by
  constructor <;> decide +kernel

end OE.Props
