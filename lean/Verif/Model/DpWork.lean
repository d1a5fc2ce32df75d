import Verif.Model.Dp

/-!
# Model of `DynamicProgramming` with a counter

The counter is not in the code: it counts the runs of the innermost loop (paths.py:1257-1258), so of all that is done in a round.
-/

namespace OE.Paths
open OE OE.Py

/-- How many pairs of entries the loops over `m`, `s1`, `s2` run through for `n` (paths.py:1254-1258). -/
def pairsTried (x : List DPTable) (n : Nat) : Nat := ((List.range' 1 (n / 2)).map (fun m => (x.getD m []).length * (x.getD (n - m) []).length)).sum

/-- The loop over `n` (paths.py:1250-1281) with the counter: `dpRound` and the number of pairs. -/
def countedRound (ctx : DPCtx) (cap : WithTop Nat) (x : List DPTable) : List DPTable × Nat :=
  (List.range' 2 ((x.getD 1 []).length - 1)).foldl (fun st n => (st.1.set n (fillTable ctx cap st.1 n), st.2 + pairsTried st.1 n)) (x, 0)

/-- `while len(x[-1]) == 0` (paths.py:1249-1287): the pairs of each round. -/
def dpWhileWork (ctx : DPCtx) (naive : WithTop Nat) (increment : Nat) : Nat → WithTop Nat → List DPTable → List Nat
  | fuel, cap, x =>
    if x.getLastD [] ≠ [] then []
    else match fuel with
      | 0 => []
      | fuel + 1 =>
        let r := countedRound ctx cap x
        if naive < cap ∧ r.1.getLastD [] = [] then [r.2]
        else r.2 :: dpWhileWork ctx naive increment fuel (raiseCap increment cap) r.1

/-- The search of one subgraph (paths.py:1226-1289): the pairs of each round. -/
def dpSubgraphWork (cfg : DPCfg) (size : Nat → Nat) (output : Finset Nat) (limit : Option Nat) (inputs : List (Finset Nat))
    (contractions : List Tree) (naive : WithTop Nat) (fuel : Nat) (g : List Nat) : List Nat :=
  let allTensors := (1 <<< inputs.length) - 1
  let bitmapG := (g.map (fun j => 1 <<< j)).foldl (· ||| ·) 0
  let subgraphInds := (bitmapSelect bitmapG inputs).foldr (· ∪ ·) ∅
  let cap : WithTop Nat := match cfg.costCap with
    | .increase => WithTop.some (sizeOf size (subgraphInds ∩ output))
    | .off => ⊤
    | .fixed n => WithTop.some n
  let increment := if subgraphInds.card = 0 then 2 else max ((subgraphInds.image size).min.untopD 0) 2
  let ctx : DPCtx := ⟨size, output, limit, cfg.searchOuter, cfg.metric, inputs, bitmapG, allTensors⟩
  dpWhileWork ctx naive increment fuel cap (dpStart inputs contractions g)

/-- `DynamicProgramming.__call__` (paths.py:1148-1306): for each subgraph the pairs of each round. If the search of a subgraph raises, the code does not come to the
later ones, which are listed here all the same. -/
def dpWork (cfg : DPCfg) (order : PopOrder) (size : Nat → Nat) (limit : Option Nat) (inputs : List (Finset Nat)) (output : Finset Nat)
    (fuel : Nat) : List (List Nat) :=
  let p := dpParse inputs output
  if p.inputs = [] then []
  else
    match dpGroups cfg order p.inputs output with
    | some (.ok gs) => gs.map (fun G =>
        dpSubgraphWork cfg size output limit p.inputs p.contractions (naiveCost cfg.metric size inputs output) fuel (order.list [] G))
    | _ => []

end OE.Paths
