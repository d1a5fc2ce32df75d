import Verif.Spec.ArrayLike
import Verif.Props.Contract2

/-!
# C66: operands that are numbers or nested lists
-/

namespace OE.Props
open OE OE.Py OE.Spec OE.Parser OE.Contract

variable {R : Type} [CommSemiring R]

omit [CommSemiring R] in
theorem nest_firstsEnd : ∀ (o : Obj R), NestOfNumbers o → FirstsEnd o
  | .array _, h => by simpa only [NestOfNumbers, FirstsEnd] using h
  | .number _, _ => by simp only [FirstsEnd]
  | .seq [], h => by simp [NestOfNumbers] at h
  | .seq (x :: xs), h => by
    simp only [NestOfNumbers, AllNests] at h
    simp only [FirstsEnd]
    exact nest_firstsEnd x h.2.1
  | .other, h => by simp [NestOfNumbers] at h

theorem asArrays_eq (l : List (Obj R)) : asArrays l = l.mapM asArray := by
  induction l with
  | nil => simp [asArrays]; rfl
  | cons x xs ih => simp only [asArrays, ih, List.mapM_cons]; rfl

theorem asArrays_length {l : List (Obj R)} {ts : List (Tensor R)} (h : asArrays l = .ok ts) : ts.length = l.length := by
  induction l generalizing ts with
  | nil => simp only [asArrays, Except.ok.injEq] at h; subst h; rfl
  | cons x xs ih =>
    simp only [asArrays, bind, Except.bind] at h
    rcases hx : asArray x with e | t
    · rw [hx] at h; simp at h
    · rw [hx] at h
      rcases hxs : asArrays xs with e | us
      · simp only [hxs] at h; simp at h
      · simp only [hxs, Except.ok.injEq] at h
        subst h
        simp [ih hxs]

/-- The shape that numpy's array has, and the one the loop finds. -/
theorem seqShape_spec : ∀ (o : Obj R) (t : Tensor R), asArray o = .ok t →
    (FirstsEnd o → seqShape o = .ok t.shape) ∧
    (¬ FirstsEnd o → seqShape o = .error .index ∨ ∃ s, seqShape o = .ok s ∧ s <+: t.shape ∧ s ≠ t.shape)
  | .array u, t, h => by
    simp only [asArray, Except.ok.injEq] at h
    subst h
    refine ⟨fun hf => ?_, fun hf => Or.inr ⟨[], by simp only [seqShape], List.nil_prefix, ?_⟩⟩
    · simp only [FirstsEnd] at hf; simp only [seqShape, hf]
    · simp only [FirstsEnd] at hf; exact fun e => hf e.symm
  | .number r, t, h => by
    simp only [asArray, Except.ok.injEq] at h
    subst h
    exact ⟨fun _ => by simp only [seqShape], fun hf => absurd (by simp only [FirstsEnd]) hf⟩
  | .seq [], t, h => ⟨fun hf => by simp [FirstsEnd] at hf, fun _ => Or.inl (by simp only [seqShape])⟩
  | .seq (x :: xs), t, h => by
    simp only [asArray, asArrays, bind, Except.bind] at h
    rcases hx : asArray x with e | u
    · rw [hx] at h; simp at h
    · rw [hx] at h
      rcases hxs : asArrays xs with e | us
      · simp only [hxs] at h; simp at h
      · simp only [hxs, stackRows] at h
        split at h
        · simp only [Except.ok.injEq] at h
          subst h
          have ih := seqShape_spec x u hx
          have hl := asArrays_length hxs
          simp only [FirstsEnd, seqShape, bind, Except.bind]
          refine ⟨fun hf => ?_, fun hf => ?_⟩
          · rw [ih.1 hf]; simp only [hl]
          · rcases ih.2 hf with he | ⟨s, hs, hp, hn⟩
            · left; rw [he]
            · right
              refine ⟨(xs.length + 1) :: s, by rw [hs], ?_, ?_⟩
              · simp only [hl]; exact (List.prefix_cons_inj _).mpr hp
              · simp only [ne_eq, List.cons.injEq, not_and]; exact fun _ => hn
        · simp at h
  | .other, t, h => by simp [asArray] at h

/-- C66. For a list of which numpy can make an array, `get_shape` finds the shape of that array exactly when the first items end in a number
(or in something else without axes); otherwise it fails with an `IndexError`, or finds only the first few lengths. -/
theorem C66_get_shape (items : List (Obj R)) (t : Tensor R) (h : asArray (.seq items) = .ok t) :
    (getShape (.seq items) = .ok t.shape ↔ FirstsEnd (.seq items)) ∧
    (¬ FirstsEnd (.seq items) → getShape (.seq items) = .error .index ∨
      ∃ s, getShape (.seq items) = .ok s ∧ s <+: t.shape ∧ s ≠ t.shape) := by
  obtain ⟨h1, h2⟩ := seqShape_spec _ t h
  simp only [getShape]
  refine ⟨⟨fun hs => ?_, h1⟩, h2⟩
  by_contra hf
  rcases h2 hf with he | ⟨s, hs', _, hn⟩
  · rw [he] at hs; simp at hs
  · rw [hs'] at hs; exact hn (Except.ok.inj hs)

theorem getShape_usable {o : Obj R} {t : Tensor R} (ho : Usable o) (h : asArray o = .ok t) : getShape o = .ok t.shape := by
  cases o with
  | array u => simp only [asArray, Except.ok.injEq] at h; subst h; rfl
  | number r => simp only [asArray, Except.ok.injEq] at h; subst h; rfl
  | seq items => exact (C66_get_shape items t h).1.mpr (nest_firstsEnd _ ho)
  | other => simp [Usable, NestOfNumbers] at ho

theorem mapM_getShape {ops : List (Obj R)} {ts : List (Tensor R)} (ho : ∀ o ∈ ops, Usable o) (h : asArrays ops = .ok ts) :
    ops.mapM getShape = .ok (ts.map Tensor.shape) := by
  induction ops generalizing ts with
  | nil => simp only [asArrays, Except.ok.injEq] at h; subst h; rfl
  | cons x xs ih =>
    simp only [asArrays, bind, Except.bind] at h
    rcases hx : asArray x with e | u
    · rw [hx] at h; simp at h
    · rw [hx] at h
      rcases hxs : asArrays xs with e | us
      · simp only [hxs] at h; simp at h
      · simp only [hxs, Except.ok.injEq] at h
        subst h
        rw [List.mapM_cons, getShape_usable (ho x List.mem_cons_self) hx, ih (fun o h' => ho o (List.mem_cons_of_mem _ h')) hxs]
        rfl

theorem asArrays_append {a b : List (Obj R)} {s t : List (Tensor R)} (ha : asArrays a = .ok s) (hb : asArrays b = .ok t) :
    asArrays (a ++ b) = .ok (s ++ t) := by
  induction a generalizing s with
  | nil => simp only [asArrays, Except.ok.injEq] at ha; subst ha; simpa using hb
  | cons x xs ih =>
    simp only [asArrays, bind, Except.bind] at ha
    rcases hx : asArray x with e | u
    · rw [hx] at ha; simp at ha
    · rw [hx] at ha
      rcases hxs : asArrays xs with e | us
      · simp only [hxs] at ha; simp at ha
      · simp only [hxs, Except.ok.injEq] at ha
        subst ha
        simp only [List.cons_append, asArrays, hx, ih hxs, bind, Except.bind]

theorem asArrays_iff {a : List (Obj R)} {s : List (Tensor R)} : asArrays a = .ok s ↔ List.Forall₂ (fun o t => asArray o = .ok t) a s := by
  induction a generalizing s with
  | nil =>
    simp only [asArrays, Except.ok.injEq]
    constructor
    · rintro rfl; exact .nil
    · intro h; cases h; rfl
  | cons x xs ih =>
    simp only [asArrays, bind, Except.bind]
    constructor
    · intro h
      rcases hx : asArray x with e | u
      · rw [hx] at h; simp at h
      · rw [hx] at h
        rcases hxs : asArrays xs with e | us
        · simp only [hxs] at h; simp at h
        · simp only [hxs, Except.ok.injEq] at h
          subst h
          exact .cons hx (ih.mp hxs)
    · intro h
      cases h with
      | cons h1 h2 => rw [h1]; simp only [ih.mpr h2]

theorem popAll_forall2 {α β : Type} {r : α → β → Prop} (xs : List Nat) :
    ∀ (a : List α) (b : List β), List.Forall₂ r a b →
      (∃ e, popAll xs a = .error e ∧ popAll xs b = .error e) ∨
      ∃ p q p' q', popAll xs a = .ok (p, q) ∧ popAll xs b = .ok (p', q') ∧ List.Forall₂ r p p' ∧ List.Forall₂ r q q' := by
  induction xs with
  | nil => intro a b h; exact Or.inr ⟨[], a, [], b, rfl, rfl, .nil, h⟩
  | cons x xs ih =>
    intro a b h
    rw [popAll_cons, popAll_cons]
    by_cases hx : x < a.length
    · have hxb : x < b.length := h.length_eq ▸ hx
      rw [List.getElem?_eq_getElem hx, List.getElem?_eq_getElem hxb]
      have hr : r a[x] b[x] := h.get hx hxb
      have he : List.Forall₂ r (a.eraseIdx x) (b.eraseIdx x) := by
        rw [List.eraseIdx_eq_take_drop_succ, List.eraseIdx_eq_take_drop_succ]
        exact List.rel_append (List.forall₂_take x h) (List.forall₂_drop (x + 1) h)
      rcases ih _ _ he with ⟨e, h1, h2⟩ | ⟨p, q, p', q', h1, h2, h3, h4⟩
      · exact Or.inl ⟨e, by simp only [h1], by simp only [h2]⟩
      · exact Or.inr ⟨a[x] :: p, q, b[x] :: p', q', by simp only [h1], by simp only [h2], .cons hr h3, h4⟩
    · rw [List.getElem?_eq_none (by omega), List.getElem?_eq_none (by rw [← h.length_eq]; omega)]
      exact Or.inl ⟨.index, rfl, rfl⟩

/-- The loop over objects does what the loop over their arrays does. -/
theorem coreLoopObj_spec (steps : List Step) : ∀ (ops : List (Obj R)) (ts : List (Tensor R)), asArrays ops = .ok ts →
    (∃ e, coreLoopObj steps ops = .error e ∧ coreLoop false steps ts = .error e) ∨
    ∃ ops' ts', coreLoopObj steps ops = .ok ops' ∧ coreLoop false steps ts = .ok ts' ∧ asArrays ops' = .ok ts' := by
  induction steps with
  | nil => intro ops ts h; exact Or.inr ⟨ops, ts, rfl, rfl, h⟩
  | cons s ss ih =>
    intro ops ts h
    simp only [coreLoopObj, coreLoop, bind, Except.bind]
    rcases popAll_forall2 s.inds ops ts (asArrays_iff.mp h) with ⟨e, h1, h2⟩ | ⟨p, q, p', q', h1, h2, h3, h4⟩
    · exact Or.inl ⟨e, by rw [h1], by rw [h2]⟩
    · rw [h1, h2]
      simp only [asArrays_iff.mpr h3]
      rcases hs : stepResult false s p' with e | v
      · exact Or.inl ⟨e, rfl, rfl⟩
      · exact ih _ _ (asArrays_append (asArrays_iff.mpr h4) (by simp only [asArrays, asArray, bind, Except.bind]))

theorem inside_cons {n : Nat} {s : List Nat} {i : Nat} {rest : List Nat} : Inside (n :: s) (i :: rest) ↔ i < n ∧ Inside s rest := by
  unfold Inside
  simp only [List.length_cons, Nat.add_right_cancel_iff, List.zip_cons_cons, List.forall_mem_cons]
  tauto

mutual
/-- C66. The array numpy makes of a nested list holds the items of the list where the list has them, and nothing else. -/
theorem C66_entries : ∀ (o : Obj R) (t : Tensor R), asArray o = .ok t → ∀ idx,
    entry o idx = if Inside t.shape idx then some (t.val idx) else none
  | .array u, t, h, idx => by
    simp only [asArray, Except.ok.injEq] at h
    subst h
    simp only [entry]
  | .number r, t, h, idx => by
    simp only [asArray, Except.ok.injEq] at h
    subst h
    cases idx with
    | nil => simp [entry, Inside]
    | cons i rest => simp [entry, Inside]
  | .seq items, t, h, idx => by
    simp only [asArray, bind, Except.bind] at h
    rcases hx : asArrays items with e | ts
    · rw [hx] at h; simp at h
    · rw [hx] at h
      have ih := entries_of items ts hx
      cases ts with
      | nil =>
        simp only [stackRows, Except.ok.injEq] at h
        subst h
        cases idx with
        | nil => simp [entry, Inside]
        | cons i rest => simp [entry, ih i rest, inside_cons]
      | cons u us =>
        simp only [stackRows] at h
        split at h
        · rename_i hall
          simp only [Except.ok.injEq] at h
          subst h
          cases idx with
          | nil => simp [entry, Inside]
          | cons i rest =>
            simp only [entry, ih i rest, inside_cons]
            by_cases hi : i < us.length + 1
            · have hl : i < (u :: us).length := by simpa using hi
              have hsh : (u :: us)[i].shape = u.shape := by
                rcases List.mem_cons.mp (List.getElem_mem hl) with e | e
                · rw [e]
                · simpa using List.all_eq_true.mp hall _ e
              rw [List.getElem?_eq_getElem hl]
              simp only [hsh, hi, true_and]
            · rw [List.getElem?_eq_none (by simpa using hi)]
              simp [hi]
        · simp at h
  | .other, t, h, idx => by simp [asArray] at h

theorem entries_of : ∀ (l : List (Obj R)) (ts : List (Tensor R)), asArrays l = .ok ts → ∀ i rest,
    entryOf l i rest = match ts[i]? with
      | some u => if Inside u.shape rest then some (u.val rest) else none
      | none => none
  | [], ts, h, i, rest => by
    simp only [asArrays, Except.ok.injEq] at h
    subst h
    simp [entryOf]
  | x :: xs, ts, h, i, rest => by
    simp only [asArrays, bind, Except.bind] at h
    rcases hx : asArray x with e | u
    · rw [hx] at h; simp at h
    · rw [hx] at h
      rcases hxs : asArrays xs with e | us
      · simp only [hxs] at h; simp at h
      · simp only [hxs, Except.ok.injEq] at h
        subst h
        cases i with
        | zero => simp only [entryOf, List.getElem?_cons_zero]; exact C66_entries x u hx rest
        | succ i => simp only [entryOf, List.getElem?_cons_succ]; exact entries_of xs us hxs i rest
end

/-- C66. `contract` with operands that are arrays, numbers or nested lists of numbers (no list empty, no arrays with axes inside lists) does
what it does with the arrays numpy makes of them: the same result, or the same error. (An operand that is returned untouched, for an
empty path, is still a list: it stands for the array.) -/
theorem C66_nested_lists (eq : Str) (ops : List (Obj R)) (ts : List (Tensor R)) (ho : ∀ o ∈ ops, Usable o) (h : asArrays ops = .ok ts)
    (opt : Optimize) (mem : MemLimit) (useBlas : Bool) :
    ((contractObj eq ops opt mem useBlas).bind asArray) = contract false eq ts opt mem useBlas := by
  have key : ∀ o : Optimize, o ≠ .off → ((contractObj eq ops o mem useBlas).bind asArray) = contract false eq ts o mem useBlas := by
    intro o hoff
    have e1 : contractObj eq ops o mem useBlas = (do
        let shapes ← ops.mapM getShape
        let (inp, out) ← parseEinsum eq shapes
        let info ← contractPath (splitOn cComma inp) out shapes o mem useBlas
        let ops' ← coreLoopObj info.contractionList ops
        match ops' with
        | a :: _ => .ok a
        | [] => .error .index) := by
      cases o with
      | off => exact absurd rfl hoff
      | path p => rfl
      | finder f => rfl
    have e2 : contract false eq ts o mem useBlas = (do
        let (inp, out) ← parseEinsum eq (ts.map Tensor.shape)
        let info ← contractPath (splitOn cComma inp) out (ts.map Tensor.shape) o mem useBlas
        coreContract false info.contractionList ts) := by
      cases o with
      | off => exact absurd rfl hoff
      | path p => rfl
      | finder f => rfl
    rw [e1, e2, mapM_getShape ho h]
    simp only [bind, Except.bind]
    rcases parseEinsum eq (ts.map Tensor.shape) with e | ⟨inp, out⟩
    · rfl
    · simp only
      rcases contractPath (splitOn cComma inp) out (ts.map Tensor.shape) o mem useBlas with e | info
      · rfl
      · simp only [coreContract, bind, Except.bind]
        rcases coreLoopObj_spec info.contractionList ops ts h with ⟨e, h1, h2⟩ | ⟨ops', ts', h1, h2, h3⟩
        · rw [h1, h2]
        · rw [h1, h2]
          cases asArrays_iff.mp h3 with
          | nil => rfl
          | cons h4 h5 => exact h4
  cases opt with
  | off =>
    simp only [contractObj, contract, h, bind, Except.bind]
    rcases einsumCall false eq ts with e | t
    · rfl
    · simp only [asArray]
  | path p => exact key _ (by simp)
  | finder f => exact key _ (by simp)

/-- C66. The result is the Einstein sum of the arrays. -/
theorem C66_einsum (size : Nat → Nat) (eq : Str) (ops : List (Obj R)) (ts : List (Tensor R)) (ho : ∀ o ∈ ops, Usable o)
    (h : asArrays ops = .ok ts) (inp out : Str)
    (hparse : parseEinsum eq (ts.map Tensor.shape) = .ok (inp, out)) (hcomma : cComma ∉ out)
    (hfit : OperandsFit size (splitOn cComma inp) (ts.map Tensor.shape))
    (hlab : (splitOn cComma inp).flatten.toFinset.card ≤ 52)
    (opt : Optimize) (mem : MemLimit) (hmem : ValidMemory mem)
    (hopt : ChoosesComplete opt size (splitOn cComma inp) out) (useBlas : Bool) :
    ∃ r T, contractObj eq ops opt mem useBlas = .ok r ∧ asArray r = .ok T ∧ IsEinsum size (splitOn cComma inp) out ts T := by
  obtain ⟨T, hT, hE⟩ := C01_contract size eq ts inp out hparse hcomma hfit hlab opt mem hmem hopt useBlas
  rw [← C66_nested_lists eq ops ts ho h opt mem useBlas] at hT
  rcases hc : contractObj eq ops opt mem useBlas with e | r
  · rw [hc] at hT; simp [Except.bind] at hT
  · rw [hc] at hT
    exact ⟨r, T, rfl, hT, hE⟩

/-- C66. An operand with an empty list as its first, or first of first, … item is refused with an `IndexError` however the path is chosen. -/
theorem C66_empty_list_refused (eq : Str) (items : List (Obj R)) (h : seqShape (.seq items) = .error .index) (opt : Optimize) (hopt : opt ≠ .off)
    (mem : MemLimit) (useBlas : Bool) : contractObj eq [.seq items] opt mem useBlas = .error .index := by
  cases opt with
  | off => exact absurd rfl hopt
  | path p => simp only [contractObj, List.mapM_cons, getShape, h, bind, Except.bind]
  | finder f => simp only [contractObj, List.mapM_cons, getShape, h, bind, Except.bind]

/-- C66. `contract("a->", [])` fails unless `optimize=False`, though numpy has an array and a sum for it. -/
theorem C66_empty_list_counterexample (opt : Optimize) (hopt : opt ≠ .off) (mem : MemLimit) (useBlas : Bool) :
    contractObj (S "a->") [(.seq [] : Obj ℤ)] opt mem useBlas = .error .index ∧
    ((contractObj (S "a->") [(.seq [] : Obj ℤ)] .off .none true).bind asArray).map (fun t => (t.shape, t.val [])) = .ok ([], 0) :=
  ⟨C66_empty_list_refused _ _ (by simp only [seqShape]) opt hopt mem useBlas, by decide +kernel⟩

/-- C66. A list of arrays is taken for a vector: `contract("ab->", [array([1, 2]), array([3, 4])])` is refused, `optimize=False` gives 10. -/
theorem C66_list_of_arrays_counterexample :
    let rows : Obj ℤ := .seq [.array ⟨[2], fun i => if i = [0] then 1 else 2⟩, .array ⟨[2], fun i => if i = [0] then 3 else 4⟩]
    ((contractObj (S "ab->") [rows] (.path [[0]]) .none true).bind asArray).map (fun t => (t.shape, t.val [])) = .error .value ∧
    ((contractObj (S "ab->") [rows] .off .none true).bind asArray).map (fun t => (t.shape, t.val [])) = .ok ([], 10) := by
  decide +kernel

-- C66: contract("ab,bc,->ac", [[1, 2], [3, 4]], [[5], [6]], 7) is [[119], [273]]; every operand is usable
def nested : List (Obj ℤ) :=
  [.seq [.seq [.number 1, .number 2], .seq [.number 3, .number 4]], .seq [.seq [.number 5], .seq [.number 6]], .number 7]

example : (∀ o ∈ nested, Usable o) ∧ (asArrays nested).map (fun ts => ts.map Tensor.shape) = .ok [[2, 2], [2, 1], []] ∧
    ((contractObj (S "ab,bc,->ac") nested (.path [[0, 1], [0, 1]]) .none true).bind asArray).map
      (fun t => (t.shape, t.val [0, 0], t.val [1, 0])) = .ok ([2, 1], 119, 273) := by
  refine ⟨?_, by decide +kernel, by decide +kernel⟩
  simp [nested, Usable, NestOfNumbers, AllNests]

-- C66: [[1, 2], [3, 4]][1][0] is 3, and so is the entry of the array
example : entry (.seq [.seq [.number (1 : ℤ), .number 2], .seq [.number 3, .number 4]]) [1, 0] = some 3 ∧
    (asArray (.seq [.seq [.number (1 : ℤ), .number 2], .seq [.number 3, .number 4]])).map (fun t => t.val [1, 0]) = .ok 3 := by
  constructor
  · simp [entry, entryOf]
  · decide +kernel

-- C66: an array as the first row is not enough, as a later row it is
example : ((getShape (.seq [.seq [.number (3 : ℤ), .number 4], .array ⟨[2], fun _ => 1⟩]) : Except PyErr Shape) = .ok [2, 2]) ∧
    (getShape (.seq [.array ⟨[2], fun _ => (1 : ℤ)⟩, .seq [.number 3, .number 4]]) : Except PyErr Shape) = .ok [2] := by
  simp [getShape, seqShape, bind, Except.bind]

end OE.Props
