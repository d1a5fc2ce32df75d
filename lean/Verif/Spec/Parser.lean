import Verif.Py.Basic
import Mathlib.Data.Set.Function

/-!
# Specifications for the equation parser (independent of the model's helpers)
-/

namespace OE.Spec
open OE

/-- The characters of an equation that are not labels. -/
def IsPunct (c : Nat) : Prop := c = cDot ∨ c = cComma ∨ c = cDash ∨ c = cGt

/-- The labels occurring in an equation. -/
def labelSet (e : Str) : Set Nat := {c | c ∈ e ∧ ¬ IsPunct c}

/-- `f` renames the labels of `e` injectively to labels and keeps the punctuation. -/
structure Renaming (f : Nat → Nat) (e : Str) : Prop where
  fixes : ∀ c, IsPunct c → f c = c
  labels : ∀ c ∈ labelSet e, ¬ IsPunct (f c)
  inj : Set.InjOn f (labelSet e)

/-- Two equations are the same up to an injective renaming of labels. -/
def AlphaEq (e₁ e₂ : Str) : Prop := ∃ f, Renaming f e₁ ∧ e₂ = e₁.map f

/-- `l` is strictly increasing. -/
def StrictInc (l : List Nat) : Prop := l.Pairwise (· < ·)

end OE.Spec

namespace OE.Spec
open OE

/-- `suf` is the suffix of `E` of length `k`. -/
def IsSuffixOfLength (k : Nat) (E suf : List Nat) : Prop := suf.length = k ∧ ∃ p, E = p ++ suf

/-- Expansion of the term of one operand of the given rank with broadcast labels `E`:
a term without dots is unchanged; in a term `a...b` the ellipsis becomes the last `k` labels of `E`
where `k` makes the term as long as the operand's rank (a 0-d operand gets none). -/
inductive ExpandTerm (E : List Nat) (rank : Nat) : Str → Str → Nat → Prop
  | plain (t : Str) (h : cDot ∉ t) : ExpandTerm E rank t t 0
  | dots (a b suf : Str) (k : Nat) (ha : cDot ∉ a) (hb : cDot ∉ b)
      (hk : (rank = 0 ∧ k = 0) ∨ a.length + k + b.length = rank) (hs : IsSuffixOfLength k E suf) :
      ExpandTerm E rank (a ++ S "..." ++ b) (a ++ suf ++ b) k

/-- Expansion of an explicit output: every ellipsis becomes `eo`. -/
inductive ExpandOut (eo : Str) : Str → Str → Prop
  | nil : ExpandOut eo [] []
  | dots (r r' : Str) : ExpandOut eo r r' → ExpandOut eo (S "..." ++ r) (eo ++ r')
  | char (c : Nat) (r r' : Str) (hc : c ≠ cDot) : ExpandOut eo r r' → ExpandOut eo (c :: r) (c :: r')

end OE.Spec

namespace OE.Spec
open OE

/-- `ts` are the comma-separated pieces of `s`. -/
def IsSplit (ts : List Str) (s : Str) : Prop :=
  ts ≠ [] ∧ List.intercalate [cComma] ts = s ∧ ∀ t ∈ ts, cComma ∉ t

/-- What parsing an equation `t` with ellipses (spaces already removed) must produce.
`E` are the broadcast labels, new to the equation; every operand's ellipsis stands for a suffix of
`E` (dimensions aligned from the right), the output's for the longest of these suffixes. -/
def EllipsisParse (t : Str) (shapes : List Shape) (inp out : Str) : Prop :=
  ∃ (E : List Nat) (lhs : Str) (terms terms' : List Str) (ks : List Nat) (L : Nat) (eo : Str),
    E.Nodup ∧ (∀ c ∈ E, c ∉ t ∧ ¬ IsPunct c) ∧
    IsSplit terms lhs ∧ IsSplit terms' inp ∧
    terms.length = shapes.length ∧ terms'.length = shapes.length ∧ ks.length = shapes.length ∧
    (∀ (i : Nat) (term term' : Str) (k : Nat) (shape : Shape), terms[i]? = some term → terms'[i]? = some term' → ks[i]? = some k →
      shapes[i]? = some shape → ExpandTerm E shape.length term term' k) ∧
    (L ∈ ks ∧ ∀ k ∈ ks, k ≤ L) ∧ IsSuffixOfLength L E eo ∧
    out.Nodup ∧ (∀ c ∈ out, c ∈ inp) ∧
    ((∃ rhs, t = lhs ++ S "->" ++ rhs ∧ ExpandOut eo rhs out) ∨
     (t = lhs ∧ ∃ rest, out = eo ++ rest ∧ StrictInc rest ∧
        ∀ c, c ∈ rest ↔ c ∉ eo ∧ c ≠ cComma ∧ inp.count c = 1)) ∧
    cDash ∉ lhs ∧ cGt ∉ lhs

/-- An explicit output carries the ellipsis, or no operand's ellipsis stands for any dimension. -/
def KeepsEllipsis (eq : Str) (shapes : List Shape) : Prop :=
  ∀ lhs rhs, eq = lhs ++ S "->" ++ rhs →
    (∃ a b, rhs = a ++ S "..." ++ b ∧ cDot ∉ a ∧ cDot ∉ b) ∨
    (cDot ∉ rhs ∧ ∀ (terms : List Str) (i : Nat) (term : Str) (shape : Shape), IsSplit terms lhs → terms[i]? = some term →
      shapes[i]? = some shape → cDot ∈ term → shape.length + 3 ≤ term.length)

/-- The equations that `numpy.einsum` reads as `opt_einsum`'s own parser does, when they are handed to it as the user wrote them: without spaces,
and if they have ellipses, then only the 52 letters as labels, and no ellipsis that is summed over. -/
def NumpyReads (eq : Str) (shapes : List Shape) : Prop :=
  cSpace ∉ eq ∧ (cDot ∈ eq → (∀ c ∈ eq, (97 ≤ c ∧ c ≤ 122) ∨ (65 ≤ c ∧ c ≤ 90) ∨ IsPunct c) ∧ KeepsEllipsis eq shapes)

end OE.Spec
