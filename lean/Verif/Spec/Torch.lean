import Verif.Model.Torch

/-! # What the `axes` argument of `tensordot` means (numpy's documentation) -/

namespace OE.Spec
open OE OE.Torch

/-- The integer `i` denotes axis `p` of an array of rank `nd`; negative integers count from the end. -/
def DenotesAxis (nd : Nat) (i : Int) (p : Nat) : Prop := p < nd ∧ (i = p ∨ i = (p : Int) - nd)

/-- The integers denote the axes, one by one. -/
def DenotesAxes (nd : Nat) : AxArg → List Nat → Prop
  | .one i, ps => ∃ p, ps = [p] ∧ DenotesAxis nd i p
  | .many l, ps => List.Forall₂ (DenotesAxis nd) l ps

/-- `axes=n` pairs the last `n` axes of the first array with the first `n` of the second, in order; a pair gives the two
lists. -/
def AxesMean (xnd ynd : Nat) : Axes → List Nat → List Nat → Prop
  | .int n, la, lb => ∃ m : Nat, n = m ∧ m ≤ xnd ∧ m ≤ ynd ∧ la = List.range' (xnd - m) m ∧ lb = List.range' 0 m
  | .pair x y, la, lb => DenotesAxes xnd x la ∧ DenotesAxes ynd y lb

end OE.Spec
