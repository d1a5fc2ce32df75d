import Verif.Model.Branch

/-!
# The searches of `opt_einsum/paths.py`, with the list of the complete paths that they reach

The same recursions as `branchIter` and `optIter`, carrying in addition the paths at which a call of the recursion finds a
single remaining term. Nothing reads the list; that the other component is the one of the plain model is a theorem
(`branchTrace_state`, `optTrace_state`).
-/

namespace OE.Paths
open OE OE.Py

/-- `_branch_iterate` (paths.py:405-490) with the paths that reach line 408. -/
def branchTrace (cfg : BBCfg) (size : Nat → Nat) (output : Finset Nat) (mem : Option Nat) (order : SetOrder) :
    Nat → SearchNode → Nat → BBSt × List Path → Option (BBSt × List Path)
  | fuel, nd, sz, (st, seen) =>
    if nd.remaining.card = 1 then some ({ st with size := sz, flops := nd.flops, path := some nd.path }, seen ++ [nd.path])
    else match fuel with
      | 0 => none
      | fuel + 1 =>
        let r := candidates cfg size output mem order nd sz st
        (visited cfg.nbranch r.1).foldlM (fun s c =>
          branchTrace cfg size output mem order fuel (nd.child c.i c.j c.k12 c.newFlops) c.newSize s) (r.2, seen)

/-- The loop body of `_optimal_iterate` (paths.py:244-279) with the paths that reach line 239. -/
def optTraceBody (size : Nat → Nat) (output : Finset Nat) (mem : Option Nat) (order : SetOrder)
    (recur : SearchNode → OptSt × List Path → Option (OptSt × List Path)) (nd : SearchNode) (s : OptSt × List Path) (ij0 : Nat × Nat) :
    Option (OptSt × List Path) :=
  let ij := orient ij0
  let r := cached s.1.cache (nd.inputs.getD ij.1 ∅, nd.inputs.getD ij.2 ∅) (calcK12 size nd.inputs output nd.remaining ij.1 ij.2)
  let st := { s.1 with cache := r.2 }
  let newFlops := nd.flops + r.1.2
  if (newFlops : WithTop Nat) < st.bestFlops then
    match mem with
    | some m =>
      if sizeOf size r.1.1 > m then
        let newFlops := nd.flops + oversizeFlops size nd.inputs nd.remaining output
        if (newFlops : WithTop Nat) < st.bestFlops then
          some ({ st with bestFlops := newFlops, bestPath := nd.path ++ [order nd.path nd.remaining] }, s.2)
        else some (st, s.2)
      else recur (nd.child ij.1 ij.2 r.1.1 newFlops) (st, s.2)
    | none => recur (nd.child ij.1 ij.2 r.1.1 newFlops) (st, s.2)
  else some (st, s.2)

/-- `_optimal_iterate` (paths.py:236-279) with the paths that reach line 239. -/
def optTrace (size : Nat → Nat) (output : Finset Nat) (mem : Option Nat) (order : SetOrder) :
    Nat → SearchNode → OptSt × List Path → Option (OptSt × List Path)
  | fuel, nd, (st, seen) =>
    if nd.remaining.card = 1 then some ({ st with bestFlops := nd.flops, bestPath := nd.path }, seen ++ [nd.path])
    else match fuel with
      | 0 => none
      | fuel + 1 => (combinations2 (order nd.path nd.remaining)).foldlM
          (optTraceBody size output mem order (optTrace size output mem order fuel) nd) (st, seen)

end OE.Paths
