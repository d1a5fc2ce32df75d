import Mathlib.Data.Finset.Basic
import Mathlib.Data.List.Sort

/-!
# Python primitives used by the model

Strings are lists of code points, exceptions are values of `PyErr`, dictionaries are
insertion-ordered association lists. Only the behaviour that the modelled code uses is defined.
-/

namespace OE

/-- A Python `str`: its list of code points. -/
abbrev Str := List Nat

/-- A Python shape tuple. -/
abbrev Shape := List Nat

/-- The exception classes that the modelled code raises. -/
inductive PyErr
  | value | key | index | type | runtime | attribute | stopIteration | importError
  deriving DecidableEq, Repr

/-- Notation helper for examples: the code points of a Lean string literal. -/
def S (s : String) : Str := s.toList.map Char.toNat

/-- `,` -/ scoped notation "cComma" => (44 : Nat)
/-- `-` -/ scoped notation "cDash" => (45 : Nat)
/-- `.` -/ scoped notation "cDot" => (46 : Nat)
/-- `>` -/ scoped notation "cGt" => (62 : Nat)
/-- space -/ scoped notation "cSpace" => (32 : Nat)
/-- `[` -/ scoped notation "cLb" => (91 : Nat)
/-- `]` -/ scoped notation "cRb" => (93 : Nat)

namespace Py

/-- `s.split(c)` for a single character `c`. -/
def splitOn (c : Nat) : Str → List Str
  | [] => [[]]
  | x :: xs =>
    if x = c then [] :: splitOn c xs
    else match splitOn c xs with
      | [] => [[x]]
      | h :: t => (x :: h) :: t

/-- `sep.join(parts)`. -/
def join (sep : Str) : List Str → Str
  | [] => []
  | [a] => a
  | a :: b :: t => a ++ sep ++ join sep (b :: t)

/-- `s.split("->")`. -/
def splitArrow : Str → List Str
  | [] => [[]]
  | 45 :: 62 :: xs => [] :: splitArrow xs
  | x :: xs => match splitArrow xs with
      | [] => [[x]]
      | h :: t => (x :: h) :: t

/-- `s.count("->")`. -/
def countArrow : Str → Nat
  | [] => 0
  | 45 :: 62 :: xs => countArrow xs + 1
  | _ :: xs => countArrow xs

/-- `s.count("...")` (non-overlapping occurrences from the left). -/
def countDots : Str → Nat
  | [] => 0
  | 46 :: 46 :: 46 :: xs => countDots xs + 1
  | _ :: xs => countDots xs

/-- `s.replace("...", new)`. -/
def replaceDots (new : Str) : Str → Str
  | [] => []
  | 46 :: 46 :: 46 :: xs => new ++ replaceDots new xs
  | x :: xs => x :: replaceDots new xs

/-- `s.replace("->", "")`. -/
def removeArrow : Str → Str
  | [] => []
  | 45 :: 62 :: xs => removeArrow xs
  | x :: xs => x :: removeArrow xs

/-- `s.replace("],[", ",")`. -/
def mergeBrackets : Str → Str
  | [] => []
  | 93 :: 44 :: 91 :: xs => 44 :: mergeBrackets xs
  | x :: xs => x :: mergeBrackets xs

/-- `s.replace(c, "")` for a single character. -/
def removeChar (c : Nat) (s : Str) : Str := s.filter (· ≠ c)

/-- `s.find(c)` when present; Python's `-1` is `none`. -/
def find? (s : Str) (c : Nat) : Option Nat := s.idxOf? c

/-- Stable `sorted(l, key=key)` (Python's sort is stable, and so is insertion sort). -/
def sortedBy {α : Type} (key : α → Nat) (l : List α) : List α :=
  l.insertionSort (fun a b => key a ≤ key b)

/-- `sorted(l)` on integers / characters. -/
def sorted (l : List Nat) : List Nat := l.insertionSort (· ≤ ·)

/-- `sorted(l, reverse=True)` on integers. -/
def sortedDesc (l : List Nat) : List Nat := l.insertionSort (· ≥ ·)

/-- `sorted(set(s))`: the distinct characters in increasing order. -/
def sortedSet (s : Str) : Str := sorted s.dedup

/-- `list.pop(x)` for a non-negative position: the element and the shortened list; `IndexError` past the end. -/
def pop {α : Type} (l : List α) (x : Nat) : Except PyErr (α × List α) :=
  match l[x]? with
  | some a => .ok (a, l.eraseIdx x)
  | none => .error .index

/-- `[l.pop(x) for x in xs]`: the popped elements in order, and what remains. -/
def popAll {α : Type} : List Nat → List α → Except PyErr (List α × List α)
  | [], l => .ok ([], l)
  | x :: xs, l => do
    let (a, l') ← pop l x
    let (as, l'') ← popAll xs l'
    .ok (a :: as, l'')

/-- The last `n` elements, `l[-n:]` for `n ≥ 1` (all of them if `n` exceeds the length). -/
def lastN {α : Type} (n : Nat) (l : List α) : List α := l.drop (l.length - n)

end Py

/-- An insertion-ordered Python `dict`. -/
abbrev Dict (κ ν : Type) := List (κ × ν)

namespace Dict
variable {κ ν : Type} [DecidableEq κ]

/-- `d.get(k)`. -/
def get? (d : Dict κ ν) (k : κ) : Option ν :=
  match d with
  | [] => none
  | (k', v) :: t => if k' = k then some v else get? t k

/-- `k in d`. -/
def has (d : Dict κ ν) (k : κ) : Bool := (get? d k).isSome

/-- `d[k] = v`: keeps the position of an existing key, appends a new one. -/
def set (d : Dict κ ν) (k : κ) (v : ν) : Dict κ ν :=
  match d with
  | [] => [(k, v)]
  | (k', v') :: t => if k' = k then (k, v) :: t else (k', v') :: set t k v

/-- `del d[k]` / the dictionary left by `d.pop(k)`. -/
def del (d : Dict κ ν) (k : κ) : Dict κ ν := d.filter (fun p => p.1 ≠ k)

/-- `d.keys()`. -/
def keys (d : Dict κ ν) : List κ := d.map Prod.fst

/-- `d[k]`, `KeyError` when absent. -/
def get! (d : Dict κ ν) (k : κ) : Except PyErr ν :=
  match d.get? k with
  | some v => .ok v
  | none => .error .key

end Dict

end OE
