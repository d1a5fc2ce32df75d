import Verif.Model.Parser

/-!
# `opt_einsum/testing.py`

The values of the arrays (`array_function`, `np.random.rand`) are not modelled: `build_views` and `build_arrays_from_tuples` build one array
per shape. numpy's random draws are parameters.
-/

namespace OE.Testing
open OE OE.Py OE.Parser

/-- `_no_collision_chars` (testing.py:11). -/
def noCollisionChars : Str := (List.range 7).map (· + 7000)

/-- `_valid_chars` (testing.py:12). -/
def validChars : Str := S "abcdefghijklmnopqABC" ++ noCollisionChars

/-- `_sizes` (testing.py:13). -/
def sizes : List Nat := [2, 3, 4, 5, 4, 3, 2, 6, 5, 4, 3, 2, 5, 7, 4, 3, 2, 3, 4, 9, 10, 2, 4, 5, 3, 2, 6]

/-- `_default_dim_dict` (testing.py:14). -/
def defaultDimDict : Dict Nat Nat := validChars.zip sizes

/-- `build_shapes` (testing.py:20-57). -/
def buildShapes (string : Str) (dims : Option (Dict Nat Nat)) (replaceEllipsis : Bool) : Except PyErr (List Shape) :=
  let d := dims.getD defaultDimDict
  if countDots string ≠ 0 ∧ replaceEllipsis = false then .error .value
  else
    let s := replaceDots (noCollisionChars.take 3) string
    (splitOn cComma ((splitArrow s).headD [])).mapM (fun term => term.mapM d.get!)

/-- The random numbers of one call of `rand_equation`: the sizes drawn, the two permutations, and the places drawn one after another. -/
structure Draws where
  size : Nat → Nat
  permute : List Nat → List Nat
  permuteOut : List Nat → List Nat
  place : Nat → Nat

/-- `list(gen())` (testing.py:185-194): the first `n_out` indices once, the others twice. -/
def genList (nOut numInds : Nat) : List Nat :=
  (List.range numInds).flatMap (fun i => if i < nOut then [getSymbol i] else [getSymbol i, getSymbol i])

/-- `inputs[where] += ix`. -/
def addTo (inputs : List Str) (i ix : Nat) : List Str := inputs.modify i (· ++ [ix])

/-- The loop `while ix in inputs[where]` (testing.py:203-205): draws from the `k`-th on; `none` if the fuel runs out. Returns the place and the
number of draws used. -/
def findPlace (place : Nat → Nat) (inputs : List Str) (ix : Nat) : Nat → Nat → Option (Nat × Nat)
  | 0, _ => none
  | f + 1, k => if ix ∈ inputs.getD (place k) [] then findPlace place inputs ix f (k + 1) else some (place k, k + 1)

/-- The loop over the permuted indices (testing.py:197-207). `randint(0, 0)` is a `ValueError`. -/
def placeAll (n : Nat) (place : Nat → Nat) (fuel : Nat) : List (Nat × Nat) → List Str → Nat → Option (Except PyErr (List Str))
  | [], inputs, _ => some (.ok inputs)
  | (ix, i) :: rest, inputs, k =>
    if i < n then placeAll n place fuel rest (addTo inputs i ix) k
    else if n = 0 then some (.error .value)
    else match findPlace place inputs ix fuel k with
      | none => none
      | some (w, k') => placeAll n place fuel rest (addTo inputs w ix) k'

/-- `rand_equation` (testing.py:125-229), with the dictionary of sizes. `none`: still drawing when the fuel runs out. `randint(d_min, d_max + 1)`
with `d_max < d_min` is a `ValueError`. -/
def randEquation (n regularity nOut dMin dMax : Nat) (globalDim : Bool) (D : Draws) (fuel : Nat) :
    Option (Except PyErr (Str × List Shape × Dict Nat Nat)) :=
  let numInds := n * regularity / 2 + nOut
  if dMax < dMin ∧ (numInds ≠ 0 ∨ globalDim = true) then some (.error .value)
  else
    let sizeDict : Dict Nat Nat := (List.range numInds).map (fun i => (getSymbol i, D.size i))
    let output := (List.range nOut).map getSymbol
    match placeAll n D.place fuel (D.permute (genList nOut numInds)).zipIdx (List.replicate n []) 0 with
    | none => none
    | some (.error e) => some (.error e)
    | some (.ok inputs) =>
      let g := getSymbol numInds
      let sizeDict := if globalDim then sizeDict.set g (D.size numInds) else sizeDict
      let inputs := if globalDim then inputs.map (· ++ [g]) else inputs
      let output := D.permuteOut (if globalDim then output ++ [g] else output)
      let eq := join [cComma] inputs ++ [cDash, cGt] ++ output
      match inputs.mapM (fun op => op.mapM sizeDict.get!) with
      | .error e => some (.error e)
      | .ok shapes => some (.ok (eq, shapes, sizeDict))

end OE.Testing
