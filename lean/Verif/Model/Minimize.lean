import Verif.Model.Dp

/-!
# Model of `opt_einsum/paths.py`: the argument `minimize` of `DynamicProgramming`

`_parse_minimize` (paths.py:1035-1066), and `DynamicProgramming.__call__` (paths.py:1148-1306) with a function given by the user.

Simplifications: the factor of `combo` and `limit` is the exact number that its digits denote (a float in Python, exact up to `2 ** 53`); the cache of
`_parse_minimize` is left out (its result depends on the argument only); costs that the user's function writes are natural numbers (nothing but the
function itself looks at them); labels are numbers from the start, as in `Verif.Model.Dp`. The function may keep any state between its calls, and may
raise any exception.
-/

namespace OE.Minimize
open OE OE.Py OE.Paths

/-- The value of a list of decimal digits, if all are digits: `\d*` with `float` (paths.py:1035, 1060). `digit` tells which characters are decimal
digits, and their values. -/
def digitsValue (digit : Nat → Option Nat) : Str → Nat → Option Nat
  | [], acc => some acc
  | c :: cs, acc =>
    match digit c with
    | none => none
    | some d => digitsValue digit cs (10 * acc + d)

/-- `-*(\d*)` matched against all of a string (paths.py:1035, 1055): the factor, `DEFAULT_COMBO_FACTOR` (paths.py:999) if there are no digits. -/
def parseFactor (digit : Nat → Option Nat) (s : Str) : Option Nat :=
  match s.dropWhile (· == 45) with
  | [] => some 64
  | ds => digitsValue digit ds 0

/-- The rest of a string after a prefix. -/
def dropPrefix : Str → Str → Option Str
  | [], s => some s
  | _ :: _, [] => none
  | p :: ps, c :: cs => if p = c then dropPrefix ps cs else none

/-- `_parse_minimize` (paths.py:1038-1066) of a string. None of the five names begins with another one, so at most one alternative of the pattern
matches. -/
def parseMinimize (digit : Nat → Option Nat) (s : Str) : Except PyErr Metric :=
  if s = S "flops" then .ok .flops
  else if s = S "size" then .ok .size
  else if s = S "write" then .ok .write
  else
    match dropPrefix (S "combo") s with
    | some rest =>
      match parseFactor digit rest with
      | some f => .ok (.combo f)
      | none => .error .value
    | none =>
      match dropPrefix (S "limit") s with
      | some rest =>
        match parseFactor digit rest with
        | some f => .ok (.limit f)
        | none => .error .value
      | none => .error .value

/-- A function given as `minimize` (called at paths.py:1265-1281), with the state `σ` that it keeps: the new `xn` and the new state, or an exception. -/
abbrev Check (σ : Type) :=
  DPCtx → σ → WithTop Nat → Nat → Nat → DPEntry → DPEntry → Finset Nat → Finset Nat → DPTable → Except PyErr (DPTable × σ)

/-- The body of the innermost loop (paths.py:1259-1281). -/
def tryPairWith {σ : Type} (check : Check σ) (ctx : DPCtx) (cap : WithTop Nat) (n m : Nat) (p1 p2 : Nat × DPEntry) (a : DPTable × σ) :
    Except PyErr (DPTable × σ) :=
  if p1.1 &&& p2.1 = 0 ∧ (m ≠ n - m ∨ p1.1 < p2.1) then
    let cut := (p1.2.legs ∩ p2.2.legs) \ ctx.output
    if ctx.searchOuter = true ∨ cut ≠ ∅ then check ctx a.2 cap p1.1 p2.1 p1.2 p2.2 cut (p1.2.legs ∪ p2.2.legs) a.1 else .ok a
  else .ok a

/-- The loops over `m`, `s1`, `s2` (paths.py:1254-1281). -/
def fillTableWith {σ : Type} (check : Check σ) (ctx : DPCtx) (cap : WithTop Nat) (x : List DPTable) (n : Nat) (st : σ) : Except PyErr (DPTable × σ) :=
  (List.range' 1 (n / 2)).foldlM (fun a m =>
    (x.getD m []).foldlM (fun a p1 => (x.getD (n - m) []).foldlM (fun a p2 => tryPairWith check ctx cap n m p1 p2 a) a) a) (x.getD n [], st)

/-- One round of the search (paths.py:1250-1281). -/
def dpRoundWith {σ : Type} (check : Check σ) (ctx : DPCtx) (cap : WithTop Nat) (x : List DPTable) (st : σ) : Except PyErr (List DPTable × σ) :=
  (List.range' 2 ((x.getD 1 []).length - 1)).foldlM (fun (a : List DPTable × σ) n =>
    match fillTableWith check ctx cap a.1 n a.2 with
    | .error e => .error e
    | .ok t => .ok (a.1.set n t.1, t.2)) (x, st)

/-- `while len(x[-1]) == 0` (paths.py:1249-1287), with fuel. -/
def dpWhileWith {σ : Type} (check : Check σ) (ctx : DPCtx) (naive : WithTop Nat) (increment : Nat) :
    Nat → WithTop Nat → List DPTable → σ → Option (Except PyErr (List DPTable × σ))
  | fuel, cap, x, st =>
    if x.getLastD [] ≠ [] then some (.ok (x, st))
    else match fuel with
      | 0 => none
      | fuel + 1 =>
        match dpRoundWith check ctx cap x st with
        | .error e => some (.error e)
        | .ok (x, st) =>
          if naive < cap ∧ x.getLastD [] = [] then some (.error .runtime)
          else dpWhileWith check ctx naive increment fuel (raiseCap increment cap) x st

/-- The search of one subgraph (paths.py:1226-1289). -/
def dpSubgraphWith {σ : Type} (check : Check σ) (cfg : DPCfg) (size : Nat → Nat) (output : Finset Nat) (limit : Option Nat) (inputs : List (Finset Nat))
    (contractions : List Tree) (naive : WithTop Nat) (fuel : Nat) (g : List Nat) (st : σ) : Option (Except PyErr (DPEntry × σ)) :=
  let allTensors := (1 <<< inputs.length) - 1
  let bitmapG := (g.map (fun j => 1 <<< j)).foldl (· ||| ·) 0
  let subgraphInds := (bitmapSelect bitmapG inputs).foldr (· ∪ ·) ∅
  let cap : WithTop Nat := match cfg.costCap with
    | .increase => WithTop.some (sizeOf size (subgraphInds ∩ output))
    | .off => ⊤
    | .fixed n => WithTop.some n
  let increment := if subgraphInds.card = 0 then 2 else max ((subgraphInds.image size).min.untopD 0) 2
  let ctx : DPCtx := ⟨size, output, limit, cfg.searchOuter, cfg.metric, inputs, bitmapG, allTensors⟩
  match dpWhileWith check ctx naive increment fuel cap (dpStart inputs contractions g) st with
  | none => none
  | some (.error e) => some (.error e)
  | some (.ok (x, st)) =>
    match x.getLastD [] with
    | [] => some (.error .index)
    | p :: _ => some (.ok (p.2, st))

/-- The loop over the subgraphs (paths.py:1220-1291). -/
def dpSubgraphsWith {σ : Type} (solve : List Nat → σ → Option (Except PyErr (DPEntry × σ))) (size : Nat → Nat) :
    List (List Nat) → List (Tree × Nat) → σ → Option (Except PyErr (List (Tree × Nat)))
  | [], acc, _ => some (.ok acc)
  | g :: gs, acc, st =>
    match solve g st with
    | none => none
    | some (.error e) => some (.error e)
    | some (.ok (e, st)) => dpSubgraphsWith solve size gs (acc ++ [(e.tree, sizeOf size e.legs)]) st

/-- `DynamicProgramming.__call__` (paths.py:1148-1306) with the function `check` and the bound `naive`. -/
def dpCallWith {σ : Type} (check : Check σ) (naive : WithTop Nat) (cfg : DPCfg) (order : PopOrder) (size : Nat → Nat) (limit : Option Nat)
    (inputs : List (Finset Nat)) (output : Finset Nat) (fuel : Nat) (st : σ) : Option (Except PyErr Path) :=
  let p := dpParse inputs output
  if p.inputs = [] then sequenceOf fuel (simpleTreeTuple p.done)
  else
    match dpGroups cfg order p.inputs output with
    | none => none
    | some (.error e) => some (.error e)
    | some (.ok gs) =>
      match dpSubgraphsWith (dpSubgraphWith check cfg size output limit p.inputs p.contractions naive fuel) size
          (gs.map (order.list [])) (p.done.map (fun t => (t, 1))) st with
      | none => none
      | some (.error e) => some (.error e)
      | some (.ok l) => sequenceOf fuel (simpleTreeTuple (sortBySize l))

/-- What may be passed as `minimize` (paths.py:1143): a string, a function with its state, or anything else. -/
inductive Arg (σ : Type)
  | str (s : Str)
  | function (check : Check σ) (st : σ)
  | other

/-- The other attributes of an instance (paths.py:1143-1146). -/
structure Opts where
  costCap : CostCap
  searchOuter : Bool

/-- `DynamicProgramming.__call__` (paths.py:1148-1306): `_parse_minimize` comes first (paths.py:1183); the bound for a function is infinite
(paths.py:1050-1053); anything else that can be hashed is no argument for `fullmatch` (paths.py:1055), and what cannot be hashed is no argument for a
function with a cache (paths.py:1038): `TypeError` both times. -/
def dpMinimize {σ : Type} (digit : Nat → Option Nat) (arg : Arg σ) (opts : Opts) (order : PopOrder) (size : Nat → Nat) (limit : Option Nat)
    (inputs : List (Finset Nat)) (output : Finset Nat) (fuel : Nat) : Option (Except PyErr Path) :=
  match arg with
  | .str s =>
    match parseMinimize digit s with
    | .error e => some (.error e)
    | .ok metric => dpCall ⟨metric, opts.costCap, opts.searchOuter⟩ order size limit inputs output fuel
  | .function check st => dpCallWith check ⊤ ⟨.flops, opts.costCap, opts.searchOuter⟩ order size limit inputs output fuel st
  | .other => some (.error .type)

end OE.Minimize
