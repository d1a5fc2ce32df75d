import Verif.Model.Subgraphs
import Mathlib.Data.Finset.Max

/-!
# Model of `opt_einsum/paths.py`: `DynamicProgramming`

Simplifications: the renaming of the labels to `0 … len(all_inds) - 1` (paths.py:1187-1195) is left out here; `Verif.Model.DpSymbols` adds it,
and `C76_dp_symbols` shows that nothing depends on the numbers; costs are exact natural numbers (the factor of `combo` and `limit` is a float with an
integral value in Python); a user-defined `minimize` function and the strings that
name a cost model are in `Verif.Model.Minimize`; a user-given `cost_cap` is a natural number.
-/

namespace OE.Paths
open OE OE.Py

/-- The cost of a contraction as a function of the size `f` of the contraction, the size `mem` of its result and the costs of the two operands: it does
not distinguish between the operands, is at least their costs, and does not decrease if one of them gets dearer. -/
structure StepFn where
  step : (f mem c1 c2 : Nat) → Nat
  comm : ∀ f mem c1 c2, step f mem c1 c2 = step f mem c2 c1
  le : ∀ f mem c1 c2, c1 ≤ step f mem c1 c2
  mono : ∀ f mem c1 c1' c2, c1 ≤ c1' → step f mem c1 c2 ≤ step f mem c1' c2

/-- What `_parse_minimize` (paths.py:1039-1066) distinguishes. Of the functions that a user may supply, `custom` are those written like the built-in
ones; for all others see `Verif.Model.Minimize`. -/
inductive Metric
  | flops | size | write
  | combo (factor : Nat)
  | limit (factor : Nat)
  | custom (cost : StepFn)

/-- The attribute `cost_cap` (paths.py:1133-1136, 1146): `True`, `False` or a number. -/
inductive CostCap
  | increase | off
  | fixed (n : Nat)

/-- A value `(indices, cost, contraction)` of `x[n]` (paths.py:1222). -/
structure DPEntry where
  legs : Finset Nat
  cost : Nat
  tree : Tree

/-- `x[n]`: bitmap to entry. -/
abbrev DPTable := Dict Nat DPEntry

/-- `_bitmap_select` (paths.py:872-880). -/
def bitmapSelect (s : Nat) (seq : List (Finset Nat)) : List (Finset Nat) := (seq.zipIdx.filter (fun p => s.testBit p.2)).map (·.1)

/-- `_dp_calc_legs` (paths.py:883-896). -/
def dpCalcLegs (g allTensors s : Nat) (inputs : List (Finset Nat)) (cut union : Finset Nat) : Finset Nat :=
  let r := g &&& (allTensors ^^^ s)
  let iR := if r ≠ 0 then (bitmapSelect r inputs).foldr (· ∪ ·) ∅ else ∅
  union \ (cut \ iR)

/-- The arguments that do not change while a subgraph is searched. -/
structure DPCtx where
  size : Nat → Nat
  output : Finset Nat
  memoryLimit : Option Nat
  searchOuter : Bool
  metric : Metric
  inputs : List (Finset Nat)
  g : Nat
  allTensors : Nat

/-- `memory_limit is None or mem <= memory_limit`. -/
def memOk (limit : Option Nat) (mem : Nat) : Bool :=
  match limit with
  | none => true
  | some m => decide (mem ≤ m)

/-- `s not in xn or cost < xn[s][1]`. -/
def improves (xn : DPTable) (s cost : Nat) : Bool :=
  match xn.get? s with
  | none => true
  | some e => decide (cost < e.cost)

/-- `_dp_compare_flops` (paths.py:899-934): the new `xn`. -/
def dpCompareFlops (ctx : DPCtx) (cap : WithTop Nat) (s1 s2 : Nat) (e1 e2 : DPEntry) (cut union : Finset Nat) (xn : DPTable) : DPTable :=
  let cost := e1.cost + e2.cost + sizeOf ctx.size union
  if WithTop.some cost ≤ cap then
    let s := s1 ||| s2
    if improves xn s cost then
      let i := dpCalcLegs ctx.g ctx.allTensors s ctx.inputs cut union
      let mem := sizeOf ctx.size i
      if memOk ctx.memoryLimit mem then xn.set s ⟨i, cost, .node [e1.tree, e2.tree]⟩ else xn
    else xn
  else xn

/-- `_dp_compare_size` (paths.py:937-965). -/
def dpCompareSize (ctx : DPCtx) (cap : WithTop Nat) (s1 s2 : Nat) (e1 e2 : DPEntry) (cut union : Finset Nat) (xn : DPTable) : DPTable :=
  let s := s1 ||| s2
  let i := dpCalcLegs ctx.g ctx.allTensors s ctx.inputs cut union
  let mem := sizeOf ctx.size i
  let cost := max (max e1.cost e2.cost) mem
  if WithTop.some cost ≤ cap then
    if improves xn s cost then
      if memOk ctx.memoryLimit mem then xn.set s ⟨i, cost, .node [e1.tree, e2.tree]⟩ else xn
    else xn
  else xn

/-- `_dp_compare_write` (paths.py:968-996). -/
def dpCompareWrite (ctx : DPCtx) (cap : WithTop Nat) (s1 s2 : Nat) (e1 e2 : DPEntry) (cut union : Finset Nat) (xn : DPTable) : DPTable :=
  let s := s1 ||| s2
  let i := dpCalcLegs ctx.g ctx.allTensors s ctx.inputs cut union
  let mem := sizeOf ctx.size i
  let cost := e1.cost + e2.cost + mem
  if WithTop.some cost ≤ cap then
    if improves xn s cost then
      if memOk ctx.memoryLimit mem then xn.set s ⟨i, cost, .node [e1.tree, e2.tree]⟩ else xn
    else xn
  else xn

/-- `_dp_compare_combo` (paths.py:1002-1032); `combine` is `sum` or `max` of two numbers. -/
def dpCompareCombo (factor : Nat) (combine : Nat → Nat → Nat) (ctx : DPCtx) (cap : WithTop Nat) (s1 s2 : Nat) (e1 e2 : DPEntry)
    (cut union : Finset Nat) (xn : DPTable) : DPTable :=
  let s := s1 ||| s2
  let i := dpCalcLegs ctx.g ctx.allTensors s ctx.inputs cut union
  let mem := sizeOf ctx.size i
  let f := sizeOf ctx.size union
  let cost := e1.cost + e2.cost + combine f (factor * mem)
  if WithTop.some cost ≤ cap then
    if improves xn s cost then
      if memOk ctx.memoryLimit mem then xn.set s ⟨i, cost, .node [e1.tree, e2.tree]⟩ else xn
    else xn
  else xn

/-- A function of the user's own, written like `_dp_compare_combo` (paths.py:1002-1032) but for the cost. -/
def dpCompareCustom (fn : StepFn) (ctx : DPCtx) (cap : WithTop Nat) (s1 s2 : Nat) (e1 e2 : DPEntry) (cut union : Finset Nat) (xn : DPTable) : DPTable :=
  let s := s1 ||| s2
  let i := dpCalcLegs ctx.g ctx.allTensors s ctx.inputs cut union
  let mem := sizeOf ctx.size i
  let cost := fn.step (sizeOf ctx.size union) mem e1.cost e2.cost
  if WithTop.some cost ≤ cap then
    if improves xn s cost then
      if memOk ctx.memoryLimit mem then xn.set s ⟨i, cost, .node [e1.tree, e2.tree]⟩ else xn
    else xn
  else xn

/-- `_check_contraction` (paths.py:1184), from `_parse_minimize` (paths.py:1039-1066). -/
def checkContraction (ctx : DPCtx) : WithTop Nat → Nat → Nat → DPEntry → DPEntry → Finset Nat → Finset Nat → DPTable → DPTable :=
  match ctx.metric with
  | .flops => dpCompareFlops ctx
  | .size => dpCompareSize ctx
  | .write => dpCompareWrite ctx
  | .combo factor => dpCompareCombo factor (· + ·) ctx
  | .limit factor => dpCompareCombo factor max ctx
  | .custom fn => dpCompareCustom fn ctx

/-- The body of the innermost loop (paths.py:1259-1281). -/
def tryPair (ctx : DPCtx) (cap : WithTop Nat) (n m : Nat) (p1 p2 : Nat × DPEntry) (xn : DPTable) : DPTable :=
  if p1.1 &&& p2.1 = 0 ∧ (m ≠ n - m ∨ p1.1 < p2.1) then
    let cut := (p1.2.legs ∩ p2.2.legs) \ ctx.output
    if ctx.searchOuter = true ∨ cut ≠ ∅ then checkContraction ctx cap p1.1 p2.1 p1.2 p2.2 cut (p1.2.legs ∪ p2.2.legs) xn else xn
  else xn

/-- The loops over `m`, `s1`, `s2` (paths.py:1254-1281). -/
def fillTable (ctx : DPCtx) (cap : WithTop Nat) (x : List DPTable) (n : Nat) : DPTable :=
  (List.range' 1 (n / 2)).foldl (fun xn m =>
    (x.getD m []).foldl (fun xn p1 => (x.getD (n - m) []).foldl (fun xn p2 => tryPair ctx cap n m p1 p2 xn) xn) xn) (x.getD n [])

/-- One round of the search: the loop over `n` (paths.py:1250-1281). `x[0]` is `None` in Python, an empty table here. -/
def dpRound (ctx : DPCtx) (cap : WithTop Nat) (x : List DPTable) : List DPTable :=
  (List.range' 2 ((x.getD 1 []).length - 1)).foldl (fun x n => x.set n (fillTable ctx cap x n)) x

/-- `cost_increment * cost_cap` (paths.py:1287). -/
def raiseCap (increment : Nat) : WithTop Nat → WithTop Nat
  | ⊤ => ⊤
  | WithTop.some c => WithTop.some (increment * c)

/-- `while len(x[-1]) == 0` (paths.py:1249-1287), with fuel. -/
def dpWhile (ctx : DPCtx) (naive : WithTop Nat) (increment : Nat) : Nat → WithTop Nat → List DPTable → Option (Except PyErr (List DPTable))
  | fuel, cap, x =>
    if x.getLastD [] ≠ [] then some (.ok x)
    else match fuel with
      | 0 => none
      | fuel + 1 =>
        let x := dpRound ctx cap x
        if naive < cap ∧ x.getLastD [] = [] then some (.error .runtime)
        else dpWhile ctx naive increment fuel (raiseCap increment cap) x

/-- `x[1]` and the empty tables (paths.py:1226-1227). -/
def dpStart (inputs : List (Finset Nat)) (contractions : List Tree) (g : List Nat) : List DPTable :=
  [] :: g.map (fun j => (1 <<< j, ⟨inputs.getD j ∅, 0, contractions.getD j (.leaf 0)⟩)) :: List.replicate (g.length - 1) []

/-- The attributes of a `DynamicProgramming` instance (paths.py:1143-1146). -/
structure DPCfg where
  metric : Metric
  costCap : CostCap
  searchOuter : Bool

/-- The search of one subgraph (paths.py:1226-1289): the last table's first entry. `g` lists the subgraph in the order in
which Python iterates over the set. -/
def dpSubgraph (cfg : DPCfg) (size : Nat → Nat) (output : Finset Nat) (limit : Option Nat) (inputs : List (Finset Nat))
    (contractions : List Tree) (naive : WithTop Nat) (fuel : Nat) (g : List Nat) : Option (Except PyErr DPEntry) :=
  let allTensors := (1 <<< inputs.length) - 1
  let bitmapG := (g.map (fun j => 1 <<< j)).foldl (· ||| ·) 0
  let subgraphInds := (bitmapSelect bitmapG inputs).foldr (· ∪ ·) ∅
  let cap : WithTop Nat := match cfg.costCap with
    | .increase => WithTop.some (sizeOf size (subgraphInds ∩ output))
    | .off => ⊤
    | .fixed n => WithTop.some n
  let increment := if subgraphInds.card = 0 then 2 else max ((subgraphInds.image size).min.untopD 0) 2
  let ctx : DPCtx := ⟨size, output, limit, cfg.searchOuter, cfg.metric, inputs, bitmapG, allTensors⟩
  match dpWhile ctx naive increment fuel cap (dpStart inputs contractions g) with
  | none => none
  | some (.error e) => some (.error e)
  | some (.ok x) =>
    match x.getLastD [] with
    | [] => some (.error .index)
    | p :: _ => some (.ok p.2)

/-- The loop over the subgraphs (paths.py:1220-1291): `subgraph_contractions` with `subgraph_contractions_size`. -/
def dpSubgraphs (solve : List Nat → Option (Except PyErr DPEntry)) (size : Nat → Nat) : List (List Nat) → List (Tree × Nat) → Option (Except PyErr (List (Tree × Nat)))
  | [], acc => some (.ok acc)
  | g :: gs, acc =>
    match solve g with
    | none => none
    | some (.error e) => some (.error e)
    | some (.ok e) => dpSubgraphs solve size gs (acc ++ [(e.tree, sizeOf size e.legs)])

/-- `ind_counts[c]` (paths.py:1187): occurrences of a label in the inputs and the output. -/
def indCount (inputs : List (Finset Nat)) (output : Finset Nat) (c : Nat) : Nat :=
  (inputs.map (fun s => if c ∈ s then 1 else 0)).sum + if c ∈ output then 1 else 0

/-- What `_dp_parse_out_single_term_ops` returns: `inputs_parsed` with `inputs_contractions`, and `inputs_done`. -/
structure Parsed where
  inputs : List (Finset Nat)
  contractions : List Tree
  done : List Tree

/-- The loop of `_dp_parse_out_single_term_ops` (paths.py:1095-1103), from input `j` on. -/
def parseSingles (single : Nat → Bool) : Nat → List (Finset Nat) → Parsed
  | _, [] => ⟨[], [], []⟩
  | j, i :: rest =>
    let iReduced := i.filter (fun c => single c = false)
    let p := parseSingles single (j + 1) rest
    if iReduced = ∅ ∧ 0 < i.card then { p with done := .node [.leaf j] :: p.done }
    else { p with inputs := iReduced :: p.inputs, contractions := (if iReduced ≠ i then .node [.leaf j] else .leaf j) :: p.contractions }

/-- `_dp_parse_out_single_term_ops` (paths.py:1081-1105). -/
def dpParse (inputs : List (Finset Nat)) (output : Finset Nat) : Parsed :=
  parseSingles (fun c => indCount inputs output c == 1) 0 inputs

/-- `functools.reduce(lambda x, y: (x, y), seq)`, `simple_tree_tuple` (paths.py:1069-1078). -/
def simpleTreeTuple : List Tree → Except PyErr Tree
  | [] => .error .type
  | t :: ts => .ok (ts.foldl (fun x y => .node [x, y]) t)

/-- `sorted(range(len(sizes)), key=sizes.__getitem__)` and the selection (paths.py:1296-1302); the sort is stable. -/
def sortBySize (l : List (Tree × Nat)) : List Tree := (l.insertionSort (fun a b => a.2 ≤ b.2)).map (·.1)

/-- `naive_cost` (paths.py:1196): `naive_scale` is 1 for `flops`, `size` and `write` and infinite otherwise
(`inf * 0` is `nan` in Python: no comparison with it holds, as with `⊤` here). -/
def naiveCost (metric : Metric) (size : Nat → Nat) (inputs : List (Finset Nat)) (output : Finset Nat) : WithTop Nat :=
  match metric with
  | .combo _ => ⊤
  | .limit _ => ⊤
  | .custom _ => ⊤
  | _ => WithTop.some (inputs.length * sizeOf size (inputs.foldr (· ∪ ·) ∅ ∪ output))

/-- `_tree_to_sequence` of a tree that may be missing because of an error. -/
def sequenceOf (fuel : Nat) : Except PyErr Tree → Option (Except PyErr Path)
  | .error e => some (.error e)
  | .ok t => (treeToSequence fuel t).map Except.ok

/-- The subgraphs that are searched (paths.py:1209-1213). -/
def dpGroups (cfg : DPCfg) (order : PopOrder) (inputs : List (Finset Nat)) (output : Finset Nat) : Option (Except PyErr (List (Finset Nat))) :=
  if cfg.searchOuter then some (.ok [Finset.range inputs.length]) else findDisconnectedSubgraphs order inputs output

/-- `DynamicProgramming.__call__` (paths.py:1148-1306). -/
def dpCall (cfg : DPCfg) (order : PopOrder) (size : Nat → Nat) (limit : Option Nat) (inputs : List (Finset Nat)) (output : Finset Nat)
    (fuel : Nat) : Option (Except PyErr Path) :=
  let p := dpParse inputs output
  if p.inputs = [] then sequenceOf fuel (simpleTreeTuple p.done)
  else
    match dpGroups cfg order p.inputs output with
    | none => none
    | some (.error e) => some (.error e)
    | some (.ok gs) =>
      match dpSubgraphs (dpSubgraph cfg size output limit p.inputs p.contractions (naiveCost cfg.metric size inputs output) fuel) size
          (gs.map (order.list [])) (p.done.map (fun t => (t, 1))) with
      | none => none
      | some (.error e) => some (.error e)
      | some (.ok l) => sequenceOf fuel (simpleTreeTuple (sortBySize l))

end OE.Paths
