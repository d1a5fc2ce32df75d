import Mathlib.Data.Nat.Factorial.Basic
import Mathlib.Data.Nat.Choose.Basic

/-!
# How many paths a search may assess
-/

namespace OE.Spec

/-- The largest number of pairwise paths of `n` terms, if at most `k` pairs are tried at each step (`none`: all of them). -/
def mostPaths (k : Option Nat) : Nat → Nat
  | 0 => 1
  | 1 => 1
  | n + 2 => (match k with | none => (n + 2).choose 2 | some k => min k ((n + 2).choose 2)) * mostPaths k (n + 1)

end OE.Spec
