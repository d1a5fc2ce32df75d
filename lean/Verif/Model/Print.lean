import Verif.Model.Report
import Verif.Model.Expression
import Mathlib.Data.Nat.Digits.Defs
import Mathlib.Data.Int.Log
import Mathlib.Algebra.Order.Field.Rat

/-!
# Printing `PathInfo` and expressions (contract.py:67-99, 906-920)

`decimal.Decimal` is not part of `/repo`: its constructor is exact, a quotient is rounded to 28 significant digits (the default context), the
format `.3e` rounds to four; both round half to even. Zero is written `0.000e+3` by that format.
-/

namespace OE.Print
open OE OE.Py OE.Parser OE.Contract OE.Blas OE.Expression

/-- `str(n)`. -/
def natStr (n : Nat) : Str := if n = 0 then [48] else (Nat.digits 10 n).reverse.map (· + 48)

/-- The nearest natural number, the even one of two. -/
def roundEven (q : ℚ) : Nat :=
  let f := ⌊q⌋₊
  if q - f < 1 / 2 then f
  else if 1 / 2 < q - f then f + 1
  else if f % 2 = 0 then f else f + 1

/-- A positive number rounded to `k` significant digits: the digits as a number, and the exponent of the first one. -/
def roundSig (k : Nat) (q : ℚ) : Nat × Int :=
  let e := Int.log 10 q
  let m := roundEven (q / (10 : ℚ) ^ (e - (k - 1)))
  if m = 10 ^ k then (10 ^ (k - 1), e + 1) else (m, e)

/-- `f"{x:.3e}"` for a `Decimal`. -/
def fmtE3 (q : ℚ) : Str :=
  if q = 0 then S "0.000e+3"
  else
    let r := roundSig 4 q
    (natStr r.1).take 1 ++ [cDot] ++ (natStr r.1).drop 1 ++ S "e" ++ (if 0 ≤ r.2 then S "+" else S "-") ++ natStr r.2.natAbs

/-- `self.naive_cost / max(self.opt_cost, Decimal(1))` (contract.py:57). -/
def speedup (info : PathInfo) : ℚ :=
  if info.naiveCost = 0 then 0
  else
    let r := roundSig 28 ((info.naiveCost : ℚ) / (max info.optCost 1 : Nat))
    r.1 * (10 : ℚ) ^ (r.2 - 27)

/-- The format `>w`. -/
def padLeft (w : Nat) (s : Str) : Str := List.replicate (w - s.length) 32 ++ s

/-- The BLAS flag under a format with a width: `False` is formatted as an integer. -/
def flagStr : Flag → Str
  | .no => S "0"
  | .outerEinsum => S "OUTER/EINSUM"
  | .dot => S "DOT"
  | .dotEinsum => S "DOT/EINSUM"
  | .gemm => S "GEMM"
  | .gemvEinsum => S "GEMV/EINSUM"
  | .tdot => S "TDOT"

/-- `remaining_str` (contract.py:86-89). -/
def remainingStr (output : Str) : Option (List Str) → Str
  | some l => join [cComma] l ++ [cDash, cGt] ++ output
  | none => S "..."

/-- The line of one contraction (contract.py:83-97), without the line break before it. -/
def stepLine (output : Str) (scale : Nat) (s : Step) : Str :=
  padLeft 4 (natStr scale) ++ [32] ++ padLeft 14 (flagStr s.blas) ++ [32] ++ padLeft 22 s.einsumStr ++ [32, 32, 32, 32] ++
    padLeft (56 - max 22 s.einsumStr.length) (remainingStr output s.remaining)

/-- The loop over the contractions (contract.py:83-97); `self.scale_list[n]` past the end is an `IndexError`. -/
def stepLines (output : Str) : List Nat → List Step → Except PyErr Str
  | _, [] => .ok []
  | [], _ :: _ => .error .index
  | n :: ns, s :: ss => do
    let rest ← stepLines output ns ss
    .ok ([10] ++ stepLine output n s ++ rest)

/-- `PathInfo.__repr__` (contract.py:67-99). -/
def reprInfo (r : Report) : Except PyErr Str := do
  let table ← stepLines r.outputSubscript r.info.scaleList r.info.contractionList
  .ok (S "  Complete contraction:  " ++ r.eq ++ [10] ++
    S "         Naive scaling:  " ++ natStr r.info.indices.card ++ [10] ++
    S "     Optimized scaling:  " ++ natStr (r.info.scaleList.max?.getD 0) ++ [10] ++
    S "      Naive FLOP count:  " ++ fmtE3 r.info.naiveCost ++ [10] ++
    S "  Optimized FLOP count:  " ++ fmtE3 r.info.optCost ++ [10] ++
    S "   Theoretical speedup:  " ++ fmtE3 (speedup r.info) ++ [10] ++
    S "  Largest intermediate:  " ++ fmtE3 r.info.largestIntermediate ++ S " elements" ++ [10] ++
    List.replicate 80 cDash ++ [10] ++
    padLeft 6 (S "scaling") ++ [32] ++ padLeft 11 (S "BLAS") ++ [32] ++ padLeft 22 (S "current") ++ [32] ++ padLeft 37 (S "remaining") ++ [10] ++
    List.replicate 80 cDash ++ table)

/-- `str(list)` for a list of integers. -/
def listStr (l : List Nat) : Str := [91] ++ join [44, 32] (l.map natStr) ++ [93]

/-- `ContractExpression.__repr__` (contract.py:906-911). -/
def exprRepr {R : Type} (e : Expr R) : Str :=
  let constants := if e.constants = [] then [] else S ", constants=" ++ listStr (e.constants.keys.insertionSort (· ≤ ·))
  S "<ContractExpression('" ++ e.contraction ++ S "'" ++ constants ++ S ")>"

/-- The loop of `__str__` (contract.py:915-918), from the `i`-th contraction on; without keyword arguments `self.kwargs` is `{}`. -/
def exprSteps : Nat → List Step → Str
  | _, [] => []
  | i, s :: ss =>
    S "\n  " ++ natStr (i + 1) ++ S ".  " ++ (S "'" ++ s.einsumStr ++ S "'" ++ if s.blas = .no then [] else S " [" ++ flagStr s.blas ++ S "]") ++
      S "\neinsum_kwargs={}" ++ exprSteps (i + 1) ss

/-- `ContractExpression.__str__` (contract.py:913-919). -/
def exprStr {R : Type} (e : Expr R) : Str := exprRepr e ++ exprSteps 0 e.list

end OE.Print
