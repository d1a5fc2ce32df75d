import Verif.Model.Branch

/-!
# `BranchBound(cutoff_flops_factor=None)` (opt_einsum/paths.py:330-510)

The documentation (docs/paths/branching_path.md:50) creates an instance this way. The code does not look for `None`: when it comes to
compare with `self.cutoff_flops_factor * self.best_progress[len(inputs)]`, the product raises `TypeError`. The rest is as in
Model/Branch.lean; the field `cutoff` of the options is not used.
-/

namespace OE.Paths
open OE OE.Py

/-- The comparison with `best_progress` (paths.py:432-437) when the factor is `None`. -/
def progressStepNone (progress : Dict Nat Nat) (depth newFlops : Nat) : Except PyErr (Dict Nat Nat) :=
  match progress.get? depth with
  | none => .ok (progress.set depth newFlops)
  | some b => if newFlops < b then .ok (progress.set depth newFlops) else .error .type

/-- `_assess_candidate` (paths.py:413-452) when the factor is `None`. -/
def assessNone (cfg : BBCfg) (size : Nat → Nat) (output : Finset Nat) (mem : Option Nat) (order : SetOrder) (nd : SearchNode) (sz : Nat)
    (st : BBSt) (ij : Nat × Nat) : Except PyErr (Option Cand × BBSt) :=
  let k1 := nd.inputs.getD ij.1 ∅
  let k2 := nd.inputs.getD ij.2 ∅
  let r := cached st.cache (k1, k2) (calcK12 size nd.inputs output nd.remaining ij.1 ij.2)
  let st := { st with cache := r.2 }
  let newFlops := nd.flops + r.1.2
  let newSize := max sz (sizeOf size r.1.1)
  if better cfg.bySize newFlops newSize st.flops st.size then
    match progressStepNone st.progress nd.inputs.length newFlops with
    | .error e => .error e
    | .ok progress =>
      .ok (assessFit size output mem order nd { st with progress }
        { cost := cfg.cost (nd.path ++ [[ij.1, ij.2]]) (sizeOf size r.1.1) (sizeOf size k1) (sizeOf size k2) r.1.1 k1 k2
          flops12 := r.1.2, newFlops, newSize, i := ij.1, j := ij.2, k12 := r.1.1 })
  else .ok (none, st)

/-- One loop over pairs (paths.py:456-467, 471-477). -/
def assessAllNone (cfg : BBCfg) (size : Nat → Nat) (output : Finset Nat) (mem : Option Nat) (order : SetOrder) (nd : SearchNode) (sz : Nat) :
    List (Nat × Nat) → List Cand × BBSt → Except PyErr (List Cand × BBSt)
  | [], acc => .ok acc
  | ij :: l, acc =>
    match assessNone cfg size output mem order nd sz acc.2 ij with
    | .error e => .error e
    | .ok r => assessAllNone cfg size output mem order nd sz l (acc.1 ++ r.1.toList, r.2)

/-- The candidates (paths.py:454-477). -/
def candidatesNone (cfg : BBCfg) (size : Nat → Nat) (output : Finset Nat) (mem : Option Nat) (order : SetOrder) (nd : SearchNode) (sz : Nat)
    (st : BBSt) : Except PyErr (List Cand × BBSt) :=
  let pairs := (combinations2 (order nd.path nd.remaining)).map orient
  match assessAllNone cfg size output mem order nd sz
      (pairs.filter (fun ij => ¬ Disjoint (nd.inputs.getD ij.1 ∅) (nd.inputs.getD ij.2 ∅))) ([], st) with
  | .error e => .error e
  | .ok first => if first.1 = [] then assessAllNone cfg size output mem order nd sz pairs first else .ok first

/-- The loop with `heappop` (paths.py:480-490) over the candidates that it visits; `recur` is the recursive call. -/
def visitNone (recur : Cand → BBSt → Option (Except PyErr BBSt)) : List Cand → BBSt → Option (Except PyErr BBSt)
  | [], st => some (.ok st)
  | c :: l, st =>
    match recur c st with
    | none => none
    | some (.error e) => some (.error e)
    | some (.ok st') => visitNone recur l st'

/-- `_branch_iterate` (paths.py:405-490), with fuel for the depth of the recursion. -/
def branchIterNone (cfg : BBCfg) (size : Nat → Nat) (output : Finset Nat) (mem : Option Nat) (order : SetOrder) :
    Nat → SearchNode → Nat → BBSt → Option (Except PyErr BBSt)
  | fuel, nd, sz, st =>
    if nd.remaining.card = 1 then some (.ok { st with size := sz, flops := nd.flops, path := some nd.path })
    else match fuel with
      | 0 => none
      | fuel + 1 =>
        match candidatesNone cfg size output mem order nd sz st with
        | .error e => some (.error e)
        | .ok r => visitNone (fun c => branchIterNone cfg size output mem order fuel (nd.child c.i c.j c.k12 c.newFlops) c.newSize)
            (visited cfg.nbranch r.1) r.2

/-- A call of a new instance (paths.py:373-494, 497-510). -/
def branchNone (cfg : BBCfg) (fuel : Nat) (size : Nat → Nat) (mem : Option Nat) (order : SetOrder) (inputs : List (Finset Nat))
    (output : Finset Nat) : Option (Except PyErr Path) :=
  if cfg.nbranch = some 0 then some (.error .value)
  else (branchIterNone cfg size output mem order fuel (rootNode inputs) 0 BBSt.fresh).map (fun r =>
    match r with
    | .error e => .error e
    | .ok st =>
      match st.path with
      | none => .error .key
      | some p => ssaToLinear p)

end OE.Paths
