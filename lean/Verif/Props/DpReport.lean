import Verif.Lemmas.TreePath
import Verif.Props.EndToEnd

/-!
# C71: what `contract_path` reports for dynamic programming
-/

namespace OE.Props
open OE OE.Py OE.Spec OE.Parser OE.Helpers OE.Contract OE.Paths OE.Registry

section
variable {size : Nat → Nat} {ins : List (Finset Nat)} {out : Finset Nat}

/-- The network hangs together: any two inputs are connected by inputs that share summed labels. -/
def Connected (ins : List (Finset Nat)) (out : Finset Nat) : Prop :=
  ∀ i, i < ins.length → ∀ j, j < ins.length → Chain ins out (Finset.range ins.length) i j

theorem tree_result {b : BTree} (hb : b.leaves.Perm (List.range ins.length)) : b.set = Finset.range ins.length := by
  ext x
  unfold BTree.set
  rw [List.mem_toFinset, hb.mem_iff, List.mem_range, Finset.mem_range]

theorem path_tree_sizes {q : Path} (hc : CompletePath ins.length q) {b : BTree}
    (ht : Multiset.ofList (linTrace combineTag (tags ins.length) q) = treeTrace b) (limit : Option Nat) :
    Spec.Fits size (openLabels ins out) limit b ↔ ∀ s ∈ resultSizes size out ins q, ∀ k, limit = some k → s ≤ k := by
  rw [fits_iff, (figures_complete (size := size) (out := out) hc).2.1, ← ht]
  simp only [Multiset.mem_coe, List.mem_map, forall_exists_index, and_imp, forall_apply_eq_imp_iff₂]

theorem part_exec {n : Nat} (q : Path) {l : List Tag} (hp : Part n l) (hv : ValidPath l.length q) : Part n (linExec combineTag l q) := by
  induction q generalizing l with
  | nil => exact hp
  | cons p ps ih => exact ih (part_step hp hv.1) (by rw [step_length hv.1]; exact hv.2)

/-- The last step of a complete path makes a tensor of the output. -/
theorem last_size {q : Path} (hc : CompletePath ins.length q) :
    ∃ init, resultSizes size out ins q = init ++ [∏ c ∈ openLabels ins out (Finset.range ins.length), size c] := by
  rw [(figures_complete (size := size) (out := out) hc).2.1]
  obtain ⟨init, m, h1, h2⟩ := last_trace combineTag (l := tags ins.length) (by rw [tags_length]; exact hc)
  have hp := part_exec q (part_tags ins.length) (by rw [tags_length]; exact completePath_valid hc)
  rw [h2] at hp
  have hset : (combineTag m).1 = Finset.range ins.length := by
    ext a
    rw [Finset.mem_range, hp.cover a]
    simp
  refine ⟨init.map (gSize size ins out), ?_⟩
  rw [h1, List.map_append, List.map_singleton]
  have : gSize size ins out m = ∏ c ∈ openLabels ins out (Finset.range ins.length), size c := by
    unfold gSize
    rw [← hset, ← legs_open]
    rfl
  rw [this]

/-- What dynamic programming returns for a connected network without lone labels, or any network without lone labels with `search_outer`. -/
theorem dp_path {order : PopOrder} (ho : PopOK order) {cfg : DPCfg} {limit : Option Nat} (hm : Named cfg.metric) (h2 : 2 ≤ ins.length) (hl : NoLoneLabels ins out)
    (hconn : Connected ins out ∨ cfg.searchOuter = true) {fuel : Nat} {path : Path}
    (hcall : dpCall cfg order size limit ins out fuel = some (.ok path)) :
    CompletePath ins.length path ∧ Pairwise2 path ∧ (∀ s ∈ resultSizes size out ins path, ∀ k, limit = some k → s ≤ k) ∧
    (cfg.searchOuter = false → NoOuterPath out ins path) ∧
    ∀ q, CompletePath ins.length q → Pairwise2 q → (∀ s ∈ (resultSizes size out ins q).dropLast, ∀ k, limit = some k → s ≤ k) →
      (cfg.searchOuter = false → NoOuterPath out ins q) →
      planScore cfg.metric (planFigures size out ins path) ≤ costTwice cfg.metric (planScore cfg.metric (planFigures size out ins q)) ∧
      (NoHyperEdges ins out → cfg.searchOuter = false →
        planScore cfg.metric (planFigures size out ins path) ≤ planScore cfg.metric (planFigures size out ins q)) := by
  have hne : ins ≠ [] := by intro e; rw [e] at h2; simp at h2
  have hcomp : CompletePath ins.length path := by
    rcases (C17_dp_complete_partial ho cfg size ins hne out).2 limit fuel path hcall with h | ⟨h, -⟩
    · exact h
    · omega
  obtain ⟨t, b, hr, hb, hexec, hall, hmin⟩ := C21_dp_cheapest_connected ho hne (hconn.imp id (fun h => ⟨h, fun i _ hi => by
    have := noLone_input hl i
    unfold HasLone at this
    rw [not_not] at this
    exact hi.2 (this ▸ hi.1)⟩)) hcall
  have htr : Multiset.ofList (linTrace combineTag (tags ins.length) path) = treeTrace b := by
    apply trace_of_made (completePath_valid hcomp)
    rw [hexec, treeValue_make hr (fun i _ => noLone_input hl i)]
  have houter : ∀ {q : Path} (hq : CompletePath ins.length q) {b : BTree}
      (ht : Multiset.ofList (linTrace combineTag (tags ins.length) q) = treeTrace b), NoOuter out (openLabels ins out) b ↔ NoOuterPath out ins q := by
    intro q hq b ht
    have := noOuterPath_trace (ins := ins) (out := out) q (part_tags ins.length) (by rw [tags_length]; exact completePath_valid hq)
    rw [tags_terms] at this
    rw [this, noOuter_iff hl, ← ht]
    rfl
  refine ⟨hcomp, ?_, (path_tree_sizes hcomp htr limit).mp hall.2.2, fun hs => (houter hcomp htr).mp (hall.2.1 hs), ?_⟩
  · apply pairwise_of_trace combineTag path (l := tags ins.length) (by rw [tags_length]; exact completePath_valid hcomp)
    intro m hm
    apply treeTrace_card b
    rw [← htr]
    exact hm
  intro q hq hqp hqs hqo
  obtain ⟨b', hb', htr'⟩ := tree_of_path hq hqp
  have hnd : b'.leaves.Nodup := hb'.nodup_iff.mpr List.nodup_range
  have hfit : Spec.Fits size (openLabels ins out) limit b' := by
    rw [path_tree_sizes hq htr']
    obtain ⟨i1, e1⟩ := last_size (size := size) (out := out) hcomp
    obtain ⟨i2, e2⟩ := last_size (size := size) (out := out) hq
    intro s hs
    rw [e2] at hs hqs
    rw [List.dropLast_concat] at hqs
    rcases List.mem_append.mp hs with hs | hs
    · exact hqs s hs
    · apply (path_tree_sizes hcomp htr limit).mp hall.2.2
      rw [e1]
      exact List.mem_append_right _ hs
  have hle := hmin b' hb' ⟨hnd, fun hs => (houter hq htr').mpr (hqo hs), hfit⟩
  rw [score_trace hcomp, score_trace hq, htr, htr']
  have mono : ∀ {a b : Nat} (m : Metric), a ≤ b → costTwice m a ≤ costTwice m b := by
    intro a b m h
    cases m <;> simp only [costTwice] <;> omega
  refine ⟨(score_bounds hl hm b).2.trans (mono _ (hle.trans (score_bounds hl hm b').1)), ?_⟩
  intro hh hs
  rw [score_exact hl hh hm (hb.nodup_iff.mpr List.nodup_range) (hall.2.1 hs), score_exact hl hh hm hnd ((houter hq htr').mpr (hqo hs))]
  exact mono _ hle

end

theorem planFigures_congr {size size' : Nat → Nat} {out : Finset Nat} (q : Path) {terms : List (Finset Nat)}
    (h : ∀ s ∈ terms, ∀ c ∈ s, size c = size' c) : planFigures size out terms q = planFigures size' out terms q := by
  induction q generalizing terms with
  | nil => rfl
  | cons p q ih =>
    have hlab : ∀ c ∈ labelsAt terms p, size c = size' c := by
      intro c hc
      obtain ⟨i, -, s, hs, hcs⟩ := mem_labelsAt.mp hc
      exact h s (List.mem_of_getElem? hs) c hcs
    have hafter : ∀ s ∈ afterStep out terms p, ∀ c ∈ s, size c = size' c := by
      intro s hs c hc
      unfold afterStep at hs
      rcases List.mem_append.mp hs with hs | hs
      · unfold unselected at hs
        obtain ⟨i, -, hi⟩ := List.mem_filterMap.mp hs
        exact h s (List.mem_of_getElem? hi) c hc
      · rw [List.mem_singleton.mp hs] at hc
        exact hlab c (Finset.mem_filter.mp hc).1
    simp only [planFigures]
    rw [ih hafter]
    unfold stepFlops
    have hk : ∏ c ∈ keptLabels out terms p, size c = ∏ c ∈ keptLabels out terms p, size' c :=
      Finset.prod_congr rfl (fun c hc => hlab c (Finset.mem_filter.mp hc).1)
    rw [Finset.prod_congr rfl hlab, hk]

theorem combo_sum (k : Nat) (l : List StepFigures) :
    planScore (.combo k) l = (l.map StepFigures.flops).sum + 2 * k * (l.map StepFigures.elements).sum := by
  simp only [planScore]
  induction l with
  | nil => simp
  | cons a l ih =>
    simp only [List.map_cons, List.sum_cons, ih]
    rw [Nat.mul_add]
    omega

/-- **C71.** Three or more operands, no axis summed alone, and the network connected (or `search_outer` set): if `contract_path` with a
`DynamicProgramming` optimizer returns, whatever `minimize`, `cost_cap`, `memory_limit`, sizes and set orders, the path contracts pairs
only, all its intermediates and the result are within the limit, without `search_outer` no step is an outer product, and
against any complete path in pairs, given by the user, whose intermediates are within the limit (and that without `search_outer` has no
outer product): the path is no worse in what `minimize` names, without hyperedges and `search_outer`; in any
case where elements count (`size`, `write`), and where operations count by a factor of less than or equal to two. -/
theorem C71_dp_report {order : PopOrder} (ho : PopOK order) {cfg : DPCfg} (hmet : Named cfg.metric) {fuel : Nat} {size : Nat → Nat} {inputs : List Str} {output : Str}
    {shapes : List Shape} (hn : 2 < inputs.length) (hlen : inputs.length = shapes.length)
    (hsize : ∀ c s, IsLabelSize inputs shapes c s → size c = s) (hlone : NoLoneLabels (inputs.map List.toFinset) output.toFinset)
    (hconn : Connected (inputs.map List.toFinset) output.toFinset ∨ cfg.searchOuter = true) {mem : MemLimit} {ub : Bool} {info : PathInfo}
    (h : contractPath inputs output shapes (.finder (dpFinder cfg order fuel)) mem ub = .ok info) :
    CompletePath inputs.length info.path ∧ Pairwise2 info.path ∧ (∀ s ∈ info.sizeList, WithinMemory mem size inputs output s) ∧
    (cfg.searchOuter = false → NoOuterPath output.toFinset (inputs.map List.toFinset) info.path) ∧
    ∀ q mem' ub' info', CompletePath inputs.length q → Pairwise2 q → contractPath inputs output shapes (.path q) mem' ub' = .ok info' →
      (∀ s ∈ info'.sizeList.dropLast, WithinMemory mem size inputs output s) →
      (cfg.searchOuter = false → NoOuterPath output.toFinset (inputs.map List.toFinset) q) →
      NoWorse cfg.metric 2 size output.toFinset (inputs.map List.toFinset) info info' ∧
      (NoHyperEdges (inputs.map List.toFinset) output.toFinset → cfg.searchOuter = false →
        NoWorse cfg.metric 1 size output.toFinset (inputs.map List.toFinset) info info') := by
  obtain ⟨hd, hsome, m, hm, hp⟩ := contractPath_chosen_args h
  have hsz : ∀ t ∈ inputs ++ [output], ∀ c ∈ t, size c = labelSize info.sizeDict c := by
    intro t ht c hc
    obtain ⟨v, hv⟩ := Option.isSome_iff_exists.mp (hsome t ht c hc)
    rw [hsize c v ((labelSize_spec hlen hd c v).mpr hv)]
    simp [labelSize, hv]
  have hwithin : ∀ s, WithinMemory mem size inputs output s ↔ ∀ k, m = some k → s ≤ k := by
    intro s
    rw [← chooseMemory_within hm]
    exact withinMemory_congr hsz s
  have hfig : ∀ q, planFigures size output.toFinset (inputs.map List.toFinset) q =
      planFigures (labelSize info.sizeDict) output.toFinset (inputs.map List.toFinset) q := by
    intro q
    apply planFigures_congr
    intro s hs c hc
    obtain ⟨t, ht, rfl⟩ := List.mem_map.mp hs
    exact hsz t (List.mem_append_left _ ht) c (List.mem_toFinset.mp hc)
  have hcall : dpCall cfg order (labelSize info.sizeDict) m (inputs.map List.toFinset) output.toFinset fuel = some (.ok info.path) := by
    simp only [choosePath, if_neg (not_le.mpr hn), dpFinder, asPathFn] at hp
    generalize dpCall cfg order (labelSize info.sizeDict) m (inputs.map List.toFinset) output.toFinset fuel = r at hp
    cases r with
    | none => cases hp
    | some r => rw [← hp]; rfl
  obtain ⟨d1, d2, d3, d4, d5⟩ := dp_path ho hmet (by rw [List.length_map]; omega) hlone hconn hcall
  rw [List.length_map] at d1 d5
  obtain ⟨r1, -, r3, r4⟩ := reported hlen h d1
  refine ⟨d1, d2, ?_, d4, ?_⟩
  · intro s hs
    rw [hwithin]
    rw [r3] at hs
    exact d3 s hs
  intro q mem' ub' info' q1 q2 q3 q4 q5
  obtain ⟨hd', -, m', -, hp'⟩ := contractPath_chosen_args q3
  rw [hd] at hd'
  have g1 : info'.path = q := (Except.ok.inj hp').symm
  have g2 : info'.sizeDict = info.sizeDict := (Except.ok.inj hd').symm
  obtain ⟨s1, -, s3, s4⟩ := reported hlen q3 (g1 ▸ q1)
  rw [g1, g2] at s1 s3 s4
  obtain ⟨c1, c2⟩ := d5 q q1 q2 (fun s hs => (hwithin s).mp (q4 s (by rw [s3]; exact hs))) q5
  rw [← elements_eq_resultSizes] at r3 s3
  unfold peak at r4 s4
  rw [← elements_eq_resultSizes] at r4 s4
  unfold NoWorse
  generalize cfg.metric = metric at hmet c1 c2
  refine ⟨?_, fun hh hs => ?_⟩
  · cases metric with
    | flops => (simp only [r1, s1]; exact c1)
    | size => (simp only [r4, s4]; exact c1)
    | write => (simp only [r3, s3]; exact c1)
    | combo k =>
      rw [combo_sum, combo_sum] at c1
      (simp only [r1, s1, r3, s3]; exact c1)
    | limit k => (simp only [g1, hfig]; exact c1)
    | custom fn => exact absurd rfl (hmet fn)
  · replace c2 := c2 hh hs
    cases metric with
    | flops => (simp only [r1, s1, Nat.one_mul]; exact c2)
    | size => (simp only [r4, s4]; exact c2)
    | write => (simp only [r3, s3]; exact c2)
    | combo k =>
      rw [combo_sum, combo_sum] at c2
      (simp only [r1, s1, r3, s3, Nat.one_mul]; exact c2)
    | limit k => (simp only [g1, hfig, Nat.one_mul]; exact c2)
    | custom fn => exact absurd rfl (hmet fn)

/-- The finders that run dynamic programming, for `n` operands. -/
def RunsDp (b : Builtin) (n : Nat) : Prop := b = .dynamicProgramming ∨ (b = .autoHq ∧ 6 ≤ n ∧ n < 17)

/-- The names that run dynamic programming do as the optimizer with its defaults does. -/
theorem C71_named {lower : Str → Str} (hl : LowerOK lower) {t : Dict Str Builtin} (ht : importedOptions lower = .ok t) {e : Env}
    {name : Str} {b : Builtin} (hname : documentedName (lower name) = some b) {inputs : List Str} (hb : RunsDp b inputs.length) (output : Str)
    (shapes : List Shape) (mem : MemLimit) (ub : Bool) :
    contractPath inputs output shapes (resolve lower (optionFns e t) (.name name)) mem ub =
      contractPath inputs output shapes (.finder (dpFinder ⟨.flops, .increase, false⟩ e.orders.pop e.fuel)) mem ub := by
  have hchoose : ∀ d m, choosePath (resolve lower (optionFns e t) (.name name)) inputs.length (inputs.map List.toFinset) output.toFinset d m =
      choosePath (.finder (dpFinder ⟨.flops, .increase, false⟩ e.orders.pop e.fuel)) inputs.length (inputs.map List.toFinset) output.toFinset d m := by
    intro d m
    simp only [resolve, choosePath]
    split
    · rfl
    rw [getPathFn_eq, optionFns_get, importedOptions_get hl ht, hname]
    rcases hb with rfl | ⟨rfl, h6, h17⟩
    · rfl
    · show Builtin.fn e .autoHq (inputs.map List.toFinset) output.toFinset d m = _
      simp only [Builtin.fn, asPathFn, autoHq, List.length_map, dpFinder]
      rw [if_neg (by omega), if_pos ⟨h6, h17⟩]
  unfold contractPath
  simp only [hchoose]

/-! ## Concrete cases -/

/-- `contract_path` with `DynamicProgramming(minimize, search_outer)` for operands of two or more labels. -/
def dpReport (metric : Metric) (outer : Bool) (inputs : List Str) (output : Str) (shapes : List Shape) (mem : MemLimit) : Except PyErr PathInfo :=
  contractPath inputs output shapes (.finder (dpFinder ⟨metric, .increase, outer⟩ ascendingPop 60)) mem true

-- 'ab,bc,cd,de->ae' with a, c, e of size 2 and b, d of size 6
example : (dpReport .flops false [S "ab", S "bc", S "cd", S "de"] (S "ae") [[2, 6], [6, 2], [2, 6], [6, 2]] (.num 4)).map
    (fun i => (i.path, i.optCost, i.sizeList)) = .ok ([[0, 1], [0, 1], [0, 1]], 112, [4, 4, 4]) := by decide +kernel

theorem exampleReport_connected : Connected ([S "ab", S "bc", S "cd", S "de"].map List.toFinset) (S "ae").toFinset := by
  have e : ∀ i, i < 4 → i ∈ Finset.range ([S "ab", S "bc", S "cd", S "de"].map List.toFinset).length := by
    intro i hi
    exact Finset.mem_range.mpr hi
  have hs : ∀ i, i < 3 → Share ([S "ab", S "bc", S "cd", S "de"].map List.toFinset) (S "ae").toFinset i (i + 1) := by
    intro i hi
    have : ∀ i ∈ Finset.range 3, 98 + i ∈ ([S "ab", S "bc", S "cd", S "de"].map List.toFinset).getD i ∅ ∧
        98 + i ∈ ([S "ab", S "bc", S "cd", S "de"].map List.toFinset).getD (i + 1) ∅ ∧ 98 + i ∉ (S "ae").toFinset := by decide +kernel
    exact ⟨98 + i, this i (Finset.mem_range.mpr hi)⟩
  have h0 : ∀ i, i < 4 → Chain ([S "ab", S "bc", S "cd", S "de"].map List.toFinset) (S "ae").toFinset
      (Finset.range ([S "ab", S "bc", S "cd", S "de"].map List.toFinset).length) 0 i := by
    intro i
    induction i with
    | zero => exact fun hi => .refl (e 0 hi)
    | succ i ih => exact fun hi => .step (ih (by omega)) (hs i (by omega)) (e _ hi)
  intro i hi j hj
  exact (h0 i hi).symm.trans (h0 j hj)

-- C71_dp_report: no path in pairs without outer products has less than 112 operations
example (q : Path) (info' : PathInfo) (h1 : CompletePath 4 q) (h2 : Pairwise2 q)
    (h3 : NoOuterPath (S "ae").toFinset ([S "ab", S "bc", S "cd", S "de"].map List.toFinset) q)
    (h : contractPath [S "ab", S "bc", S "cd", S "de"] (S "ae") [[2, 6], [6, 2], [2, 6], [6, 2]] (.path q) .none true = .ok info') :
    112 ≤ info'.optCost := by
  have hrun : (dpReport .flops false [S "ab", S "bc", S "cd", S "de"] (S "ae") [[2, 6], [6, 2], [2, 6], [6, 2]] .none).map (fun i => i.optCost) = .ok 112 := by
    decide +kernel
  unfold dpReport at hrun
  cases hr : contractPath [S "ab", S "bc", S "cd", S "de"] (S "ae") [[2, 6], [6, 2], [2, 6], [6, 2]]
      (.finder (dpFinder ⟨.flops, .increase, false⟩ ascendingPop 60)) .none true with
  | error e => rw [hr] at hrun; cases hrun
  | ok info =>
    rw [hr] at hrun
    rw [← Except.ok.inj hrun]
    have key := C71_dp_report (size := fun c => if c = 98 ∨ c = 100 then 6 else 2) (inputs := [S "ab", S "bc", S "cd", S "de"]) (output := S "ae")
      (shapes := [[2, 6], [6, 2], [2, 6], [6, 2]]) ascendingPop_ok (fun fn h => by cases h) (by decide) rfl exampleReport_sizes exampleReport_noLone
      (Or.inl exampleReport_connected) hr
    have := (key.2.2.2.2 q .none true info' h1 h2 h (fun _ _ => trivial) (fun _ => h3)).2 exampleReport_noHyper rfl
    simpa only [NoWorse, Nat.one_mul] using this

/-- The factor is needed with hyperedges: for 'abc,b,ab->c' with a of size 3 and b, c of size 2, dynamic programming with `minimize='flops'`
reports 32 operations, and another path in pairs without outer products 30. -/
theorem C71_counterexample_hyper :
    (dpReport .flops false [S "abc", S "b", S "ab"] (S "c") [[3, 2, 2], [2], [3, 2]] .none).map (fun i => (i.path, i.optCost)) =
      .ok ([[0, 2], [0, 1]], 32) ∧
    (contractPath [S "abc", S "b", S "ab"] (S "c") [[3, 2, 2], [2], [3, 2]] (.path [[1, 2], [0, 1]]) .none true).map (fun i => i.optCost) = .ok 30 := by
  constructor <;> decide +kernel

/-- Outer products may be cheaper: for 'a,b,abc->c' with a, b of size 2 and c of size 10, dynamic programming reports 120 operations without
`search_outer` and 84 with it. -/
theorem C71_counterexample_outer :
    (dpReport .flops false [S "a", S "b", S "abc"] (S "c") [[2], [2], [2, 2, 10]] .none).map (fun i => i.optCost) = .ok 120 ∧
    (dpReport .flops true [S "a", S "b", S "abc"] (S "c") [[2], [2], [2, 2, 10]] .none).map (fun i => i.optCost) = .ok 84 := by
  constructor <;> decide +kernel

end OE.Props
