import Verif.Py.Basic

/-!
# Model of `opt_einsum/parser.py`
-/

namespace OE.Parser
open OE OE.Py

/-- `_einsum_symbols_base` (parser.py:22): the 52 letters `a..z`, `A..Z`. -/
def einsumSymbolsBase : Str := (List.range 26).map (· + 97) ++ (List.range 26).map (· + 65)

/-- `is_valid_einsum_char` (parser.py:25-38). -/
def isValidEinsumChar (x : Nat) : Bool :=
  decide (x ∈ einsumSymbolsBase) || decide (x ∈ [cComma, cDash, cGt, cDot])

/-- `has_valid_einsum_chars_only` (parser.py:41-54). -/
def hasValidEinsumCharsOnly (s : Str) : Bool := s.all isValidEinsumChar

/-- `get_symbol` (parser.py:57-80) as a code point. `chr` raises `ValueError` above `0x10FFFF`;
the model does not bound code points (see `getSymbol_lt_iff`). -/
def getSymbol (i : Nat) : Nat :=
  if i < 52 then einsumSymbolsBase.getD i 0
  else if i ≥ 55296 then i + 2048
  else i + 140

/-- Loop of `gen_unused_symbols` (parser.py:92-99), with fuel. -/
def genUnusedAux (used : Str) : Nat → Nat → Nat → Str
  | 0, _, _ => []
  | _ + 1, _, 0 => []
  | f + 1, i, n + 1 =>
    if getSymbol i ∈ used then genUnusedAux used f (i + 1) (n + 1)
    else getSymbol i :: genUnusedAux used f (i + 1) n

/-- `gen_unused_symbols(used, n)` (parser.py:83-99). The `while` loop is given `len(used) + n`
iterations; `C30_gen_unused_symbols` shows that this is always enough. -/
def genUnusedSymbols (used : Str) (n : Nat) : Str := genUnusedAux used (used.length + n) 0 n

/-- `convert_to_valid_einsum_chars` (parser.py:102-114). -/
def convertToValidEinsumChars (s : Str) : Str :=
  let symbols := sortedSet (s.filter (fun x => x ∉ [cComma, cDash, cGt]))
  s.map (fun x => match symbols.idxOf? x with
    | some i => getSymbol i
    | none => x)

/-- The loop body of `alpha_canonicalize` (parser.py:129-133): extend `rename` by one character. -/
def alphaStep (rename : Dict Nat Nat) (name : Nat) : Dict Nat Nat :=
  if name ∈ [cDot, cComma, cDash, cGt] then rename
  else if rename.has name then rename
  else rename.set name (getSymbol rename.length)

/-- `alpha_canonicalize` (parser.py:117-134). -/
def alphaCanonicalize (equation : Str) : Str :=
  let rename : Dict Nat Nat := equation.foldl alphaStep []
  equation.map (fun x => (rename.get? x).getD x)

/-- `find_output_str` (parser.py:137-153). -/
def findOutputStr (subscripts : Str) : Str :=
  let tmp := removeChar cComma subscripts
  (sortedSet tmp).filter (fun s => tmp.count s = 1)

/-- The result of an indexing `shape[loc]`: `IndexError` when out of range. -/
def optIndex : Option Nat → Except PyErr Nat
  | some d => .ok d
  | none => .error .index

/-- One label of `find_output_shape` (parser.py:169): the `max` over the operands containing it.
`max` of nothing is a `ValueError`, indexing a too short shape an `IndexError`. -/
def findOutputDim (inputs : List Str) (shapes : List Shape) (c : Nat) : Except PyErr Nat := do
  let dims ← ((shapes.zip inputs).filterMap (fun p => (find? p.2 c).map (fun loc => p.1[loc]?))).mapM optIndex
  match dims with
  | [] => .error .value
  | d :: ds => .ok (ds.foldl max d)

/-- `find_output_shape` (parser.py:156-169). -/
def findOutputShape (inputs : List Str) (shapes : List Shape) (output : Str) : Except PyErr Shape :=
  output.mapM (findOutputDim inputs shapes)

/-- An entry of a user subscript list: `Ellipsis` or a hashable, comparable label. -/
inductive Lbl (κ : Type)
  | ellipsis
  | key (k : κ)
  deriving DecidableEq

/-- `sorted(symbol_set)` (parser.py:267-273): the distinct labels in increasing order. -/
def sortedLabels {κ : Type} [LinearOrder κ] (subs : List (List (Lbl κ))) : List κ :=
  ((subs.flatten.filterMap (fun l => match l with | .ellipsis => none | .key k => some k)).dedup).insertionSort (· ≤ ·)

/-- `convert_subscripts` (parser.py:232-249) with `symbol_map[k] = get_symbol(position of k)`.
A label missing from the map is a `KeyError`. -/
def convertSubscripts {κ : Type} [DecidableEq κ] (labels : List κ) : List (Lbl κ) → Except PyErr Str
  | [] => .ok []
  | .ellipsis :: t => do
    let r ← convertSubscripts labels t
    .ok ([cDot, cDot, cDot] ++ r)
  | .key k :: t => do
    match labels.idxOf? k with
    | none => .error .key
    | some i =>
      let r ← convertSubscripts labels t
      .ok (getSymbol i :: r)

/-- `convert_interleaved_input` (parser.py:252-286). The operand list
`op0, sub0, op1, sub1, ...[, output]` is given as pairs plus optional output. The `TypeError` branch
(unhashable or incomparable labels) is excluded by the types. -/
def convertInterleaved {κ α : Type} [LinearOrder κ] (items : List (α × List (Lbl κ)))
    (output : Option (List (Lbl κ))) : Except PyErr (Str × List α) := do
  let labels := sortedLabels (items.map Prod.snd)
  let subs ← (items.map Prod.snd).mapM (convertSubscripts labels)
  let subscripts := join [cComma] subs
  match output with
  | none => .ok (subscripts, items.map Prod.fst)
  | some o => do
    let out ← convertSubscripts labels o
    .ok (subscripts ++ [cDash, cGt] ++ out, items.map Prod.fst)

/-- The check of lines 336-340: `true` when "Subscripts can only contain one '->'." is raised. -/
def badArrow (s : Str) : Bool :=
  (decide (cDash ∈ s) || decide (cGt ∈ s)) &&
    ((decide (s.count cDash > 1) || decide (s.count cGt > 1)) || decide (countArrow s ≠ 1))

/-- `ellipse_count` of one operand (parser.py:362-366). -/
def ellipseCount (shape : Shape) (sub : Str) : Int :=
  if shape = [] then 0 else (max shape.length 1 : Nat) - ((sub.length : Int) - 3)

/-- The loop over the operands' terms (parser.py:357-376): new terms and `longest`. -/
def expandTerms (ellipseInds : Str) (shapes : List Shape) :
    List (Nat × Str) → List Str → Nat → Except PyErr (List Str × Nat)
  | [], acc, longest => .ok (acc.reverse, longest)
  | (num, sub) :: rest, acc, longest =>
    if cDot ∈ sub then
      if sub.count cDot ≠ 3 ∨ countDots sub ≠ 1 then .error .value
      else match shapes[num]? with
        | none => .error .index
        | some shape =>
          let ec := ellipseCount shape sub
          let longest' := if ec > longest then ec.toNat else longest
          if ec < 0 then .error .value
          else if ec = 0 then expandTerms ellipseInds shapes rest (replaceDots [] sub :: acc) longest'
          else expandTerms ellipseInds shapes rest
            (replaceDots (lastN ec.toNat ellipseInds) sub :: acc) longest'
    else expandTerms ellipseInds shapes rest (sub :: acc) longest

/-- Ellipsis handling (parser.py:342-393): the subscripts with every ellipsis replaced and, always,
an explicit output. Only called when `.` occurs and `badArrow` is false. -/
def expandEllipses (subscripts : Str) (shapes : List Shape) : Except PyErr Str := do
  let used := removeArrow (removeChar cComma (removeChar cDot subscripts))
  match (shapes.map List.length).max? with
  | none => .error .value
  | some m =>
    let ellipseInds := genUnusedSymbols used m
    let (splitSubs, outSub) :=
      match splitArrow subscripts with
      | [l, r] => (splitOn cComma l, some r)
      | _ => (splitOn cComma subscripts, none)
    let (terms, longest) ← expandTerms ellipseInds shapes (splitSubs.zipIdx.map Prod.swap) [] 0
    let subs := join [cComma] terms
    let outEllipse := if longest = 0 then [] else lastN longest ellipseInds
    match outSub with
    | some o => .ok (subs ++ [cDash, cGt] ++ replaceDots outEllipse o)
    | none =>
      let out := findOutputStr subs
      let normal := sortedSet (out.filter (fun c => c ∉ outEllipse))
      .ok (subs ++ [cDash, cGt] ++ (outEllipse ++ normal))

/-- Output validation (parser.py:402-406). -/
def checkOutput (inputSubs : Str) (output : Str) : Except PyErr Unit :=
  if output.all (fun c => decide (output.count c = 1) && decide (c ∈ inputSubs)) then .ok ()
  else .error .value

/-- Lines 395-415: split at the arrow, find the implicit output, validate. -/
def finishParse (subscripts : Str) (nOps : Nat) : Except PyErr (Str × Str) := do
  let (inp, out) :=
    match splitArrow subscripts with
    | [l, r] => (l, r)
    | _ => (subscripts, findOutputStr subscripts)
  checkOutput inp out
  if (splitOn cComma inp).length ≠ nOps then .error .value
  else .ok (inp, out)

/-- `parse_einsum_input` (parser.py:289-415) for a string equation after `operands[0]` has been
taken off: `subscripts` is the user's string, `shapes` the operands' shapes. -/
def parseEinsum (subscripts0 : Str) (shapes : List Shape) : Except PyErr (Str × Str) := do
  let subscripts := removeChar cSpace subscripts0
  if badArrow subscripts then .error .value
  else
    let subs ← if cDot ∈ subscripts then expandEllipses subscripts shapes else .ok subscripts
    finishParse subs shapes.length

/-- `parse_einsum_input` for interleaved operands (parser.py:328-329 and following): no space removal. -/
def parseInterleaved {κ α : Type} [LinearOrder κ] (shapeOf : α → Shape)
    (items : List (α × List (Lbl κ))) (output : Option (List (Lbl κ))) :
    Except PyErr (Str × Str × List α) := do
  let (subscripts, ops) ← convertInterleaved items output
  let shapes := ops.map shapeOf
  if badArrow subscripts then .error .value
  else
    let subs ← if cDot ∈ subscripts then expandEllipses subscripts shapes else .ok subscripts
    let (i, o) ← finishParse subs shapes.length
    .ok (i, o, ops)

end OE.Parser

namespace OE.Contract
open OE OE.Py

/-- `format_const_einsum_str` (contract.py:714-737). `constants` is the collection of positions; an
equation with several arrows makes the unpacking raise `ValueError`. -/
def formatConstEinsumStr (einsumStr : Str) (constants : List Nat) : Except PyErr Str :=
  if constants = [] then .ok einsumStr
  else
    let wrap (lhs : Str) : Str :=
      join [cComma] ((splitOn cComma lhs).zipIdx.map (fun p => if p.2 ∈ constants then [cLb] ++ p.1 ++ [cRb] else p.1))
    if countArrow einsumStr = 0 then .ok (mergeBrackets (wrap einsumStr))
    else match splitArrow einsumStr with
      | [lhs, rhs] => .ok (mergeBrackets (wrap lhs ++ [cDash, cGt] ++ rhs))
      | _ => .error .value

end OE.Contract
