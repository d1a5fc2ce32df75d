import Verif.Model.Print

/-!
# Specification: reading printed text
-/

namespace OE.Spec
open OE OE.Py OE.Print OE.Contract

/-- The number that a string of decimal digits denotes. -/
def readNat (s : Str) : Nat := s.foldl (fun n c => 10 * n + (c - 48)) 0

/-- The number that `i.ffe±x` denotes. -/
def readE (s : Str) : Option ℚ :=
  match splitOn 101 s with
  | [mantissa, sign :: exponent] =>
    match splitOn 46 mantissa with
    | [i, f] =>
      let m : ℚ := readNat (i ++ f) / 10 ^ f.length
      if sign = 43 then some (m * 10 ^ readNat exponent)
      else if sign = 45 then some (m / 10 ^ readNat exponent)
      else none
    | _ => none
  | _ => none

/-- The lines of a text. -/
def lines (s : Str) : List Str := splitOn 10 s

/-- The words of a line: the pieces between spaces. -/
def words (s : Str) : List Str := (splitOn 32 s).filter fun w => w ≠ []

/-- The numbers that occur in a text. -/
def numbers (s : Str) : List Nat := (words (s.map fun c => if 48 ≤ c ∧ c < 58 then c else 32)).map readNat

/-- The name of a kind of contraction; `0` for none. -/
def kindText (f : Blas.Flag) : Str :=
  if f = .gemm then S "GEMM" else if f = .tdot then S "TDOT" else if f = .dot then S "DOT" else if f = .dotEinsum then S "DOT/EINSUM"
  else if f = .gemvEinsum then S "GEMV/EINSUM" else if f = .outerEinsum then S "OUTER/EINSUM" else S "0"

/-- The contraction that remains: its equation, or dots when there are too many operands. -/
def restText (output : Str) (l : Option (List Str)) : Str :=
  if h : l.isSome then [44].intercalate (l.get h) ++ S "->" ++ output else S "..."

/-- What is printed for a report, word by word: the equation, the figures, a heading, and for every contraction its scaling, its kind, its
equation and what remains after it. -/
def table (r : Report) : List (List Str) :=
  [[S "Complete", S "contraction:", r.eq],
   [S "Naive", S "scaling:", natStr r.info.indices.card],
   [S "Optimized", S "scaling:", natStr (r.info.scaleList.max?.getD 0)],
   [S "Naive", S "FLOP", S "count:", fmtE3 r.info.naiveCost],
   [S "Optimized", S "FLOP", S "count:", fmtE3 r.info.optCost],
   [S "Theoretical", S "speedup:", fmtE3 (speedup r.info)],
   [S "Largest", S "intermediate:", fmtE3 r.info.largestIntermediate, S "elements"],
   [List.replicate 80 cDash],
   [S "scaling", S "BLAS", S "current", S "remaining"],
   [List.replicate 80 cDash]] ++
  (r.info.scaleList.zip r.info.contractionList).map fun p =>
    [natStr p.1, kindText p.2.blas, p.2.einsumStr, restText r.outputSubscript p.2.remaining]

end OE.Spec
