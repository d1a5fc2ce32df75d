import Verif.Model.InterleavedExpr
import Verif.Props.Interleaved
import Verif.Props.OtherSizes

/-!
# C75: `contract_expression` with interleaved arguments
-/

namespace OE.Props
open OE OE.Py OE.Spec OE.Parser OE.Helpers OE.Blas OE.Contract OE.Paths OE.Expression
variable {R : Type} [CommSemiring R] {κ : Type} [LinearOrder κ]

theorem splitArrow_length (s : Str) : (splitArrow s).length = countArrow s + 1 := by
  fun_induction splitArrow s with
  | case1 => rfl
  | case2 xs ih => simp [countArrow, ih]
  | case3 x xs _ hh ih => exact absurd hh (splitArrow_ne_nil xs)
  | case4 x xs hne h t hh ih =>
    rw [hh] at ih
    rw [countArrow]
    · simpa using ih
    · exact hne

theorem countArrow_le_count (s : Str) : countArrow s ≤ s.count cGt := by
  fun_induction countArrow s with
  | case1 => simp
  | case2 xs ih => simp only [List.count_cons]; simp at ih ⊢; omega
  | case3 x xs _ ih => exact le_trans ih (List.count_le_count_cons)

/-- A string that parses has at most one `>`. -/
theorem count_gt_of_parse {subs : Str} {shapes : List Shape} {r : Str × Str} (h : parseEinsum subs shapes = .ok r) : subs.count cGt ≤ 1 := by
  have hc : subs.count cGt = (removeChar cSpace subs).count cGt := by
    unfold removeChar
    rw [List.count_filter]
    decide
  unfold parseEinsum at h
  simp only at h
  split at h
  · cases h
  · rename_i hb
    rw [hc]
    unfold badArrow at hb
    simp only [Bool.and_eq_true, Bool.or_eq_true, decide_eq_true_eq, not_and, not_or] at hb
    by_cases hm : cGt ∈ removeChar cSpace subs
    · have := (hb (Or.inr hm)).1.2
      omega
    · rw [List.count_eq_zero.mpr hm]
      omega

theorem formatConst_ok {subs : Str} (h : subs.count cGt ≤ 1) (constants : List Nat) : ∃ s, formatConstEinsumStr subs constants = .ok s := by
  unfold formatConstEinsumStr
  split
  · exact ⟨_, rfl⟩
  · simp only
    split
    · exact ⟨_, rfl⟩
    · rename_i hne
      have h1 := splitArrow_length subs
      have h2 := countArrow_le_count subs
      have h3 : countArrow subs = 1 := by omega
      rw [h3] at h1
      rcases hs : splitArrow subs with _ | ⟨a, _ | ⟨b, _ | ⟨c, t⟩⟩⟩
      · rw [hs] at h1; simp at h1
      · rw [hs] at h1; simp at h1
      · exact ⟨_, rfl⟩
      · rw [hs] at h1; simp at h1

omit [CommSemiring R] in
theorem constantsDict_ok {items : List (Item R)} (constants : List Nat) (h : ∀ i ∈ constants, ∃ a, items[i]? = some (.array a)) (d : Dict Nat (Arr R)) :
    ∃ d', constants.foldlM (fun (d : Dict Nat (Arr R)) i => match items[i]? with
      | none => Except.error PyErr.index
      | some (Item.shape _) => .error .type
      | some (Item.array a) => .ok (d.set i a)) d = .ok d' := by
  induction constants generalizing d with
  | nil => exact ⟨d, rfl⟩
  | cons i cs ih =>
    obtain ⟨a, ha⟩ := h i (by simp)
    obtain ⟨d', hd⟩ := ih (fun j hj => h j (by simp [hj])) (d.set i a)
    refine ⟨d', ?_⟩
    rw [List.foldlM_cons]
    simp only [ha, bind, Except.bind]
    exact hd

/-- The arguments of `contract_expression` are arrays at the positions in `constants` and shapes elsewhere. -/
def KindsAsSaid (items : List (Item R)) (constants : List Nat) : Prop :=
  (∀ i ∈ constants, ∃ a, items[i]? = some (Item.array a)) ∧ ∀ (i : Nat) (a : Arr R), items[i]? = some (Item.array a) → i ∈ constants

omit [CommSemiring R] in
/-- An expression is built whenever `contract_path` succeeds for the shapes. -/
theorem contractExpression_builds {subs : Str} {items : List (Item R)} {constants : List Nat} {opt : Optimize} {mem : MemLimit} {ub : Bool}
    (hk : KindsAsSaid items constants) (hoff : opt ≠ .off) (hnil : opt ≠ .path []) {inp out : Str}
    (hparse : parseEinsum subs (items.map itemShape) = .ok (inp, out)) {info : PathInfo}
    (hpath : contractPath (splitOn cComma inp) out (items.map itemShape) opt mem ub = .ok info) :
    ∃ e, contractExpression subs items constants opt mem ub = .ok e := by
  obtain ⟨d, hd⟩ := constantsDict_ok constants hk.1 []
  have hshapes : items.zipIdx.mapM (fun p : Item R × Nat => p.1.shapeAt constants p.2) = .ok (items.map itemShape) := by
    have := mapM_ok (f := fun p : Item R × Nat => p.1.shapeAt constants p.2) (g := fun p => itemShape p.1) (l := items.zipIdx) (by
      rintro ⟨it, i⟩ hmem
      have hi : items[i]? = some it := by
        have := List.mem_zipIdx_iff_getElem?.mp hmem
        simpa using this
      cases it with
      | shape s =>
        have : i ∉ constants := fun hc => by
          obtain ⟨a, ha⟩ := hk.1 i hc
          rw [hi] at ha
          cases ha
        simp [Item.shapeAt, this, itemShape]
      | array a =>
        have := hk.2 i a hi
        simp [Item.shapeAt, this, itemShape])
    rw [this]
    congr 1
    have h2 : (fun p : Item R × Nat => itemShape p.1) = itemShape ∘ Prod.fst := rfl
    rw [h2, ← List.map_map, List.zipIdx_map_fst]
  obtain ⟨s, hs⟩ := formatConst_ok (count_gt_of_parse hparse) d.keys
  have hdict : constantsDict items constants = .ok d := hd
  unfold contractExpression
  split
  · exact absurd rfl hoff
  · exact absurd rfl hnil
  · simp only [bind, Except.bind, hdict, hshapes, hparse, hpath, Expression.init, hs]
    exact ⟨_, rfl⟩

/-- The equation does not depend on what the operands are. -/
theorem convertInterleaved_operands {α β : Type} {items : List (α × List (Lbl κ))} {items' : List (β × List (Lbl κ))} {output : Option (List (Lbl κ))}
    (hs : items.map Prod.snd = items'.map Prod.snd) {eq : Str} {ops : List α} (h : convertInterleaved items output = .ok (eq, ops)) :
    convertInterleaved items' output = .ok (eq, items'.map Prod.fst) := by
  unfold convertInterleaved at h ⊢
  rw [← hs]
  simp only [bind, Except.bind] at h ⊢
  split at h
  · cases h
  · cases output with
    | none => simp only [Except.ok.injEq, Prod.mk.injEq] at h ⊢; exact ⟨h.1, trivial⟩
    | some o =>
      simp only at h ⊢
      split at h
      · cases h
      · simp only [Except.ok.injEq, Prod.mk.injEq] at h ⊢; exact ⟨h.1, trivial⟩

/-- The value of `optimize` always leads to a complete path for `n` operands; `contract_expression` refuses `False` and the empty path. -/
def AlwaysComplete (opt : Optimize) (n : Nat) : Prop :=
  match opt with
  | .off => False
  | .path p => p ≠ [] ∧ CompletePath n p
  | .finder f => ∀ (ins : List (Finset Nat)) (out : Finset Nat) (d : Dict Nat Nat) (m : Option Nat), ins.length = n →
      ∃ p, f ins out d m = .ok p ∧ CompletePath n p

theorem alwaysComplete_chooses {opt : Optimize} {inputs : List Str} (h : AlwaysComplete opt inputs.length) (size : Nat → Nat) (out : Str) :
    ChoosesComplete opt size inputs out := by
  cases opt with
  | off => exact h
  | path p => exact h.2
  | finder f => exact fun _ d m _ => h _ _ d m (by simp)

/-- **C75.** `contract_expression(item0, labels0, item1, labels1, ..., [output], constants=...)` with labels of any ordered type, arrays at the positions
in `constants` — counted in operands, not in arguments — and shapes elsewhere, builds an expression; after any history of uses, a call with arrays of these
shapes returns the Einstein summation over the caller's labels of constants and arrays merged in order. -/
theorem C75_interleaved_expression (L : Lib) (items : List (Item R × List κ)) (hne : items ≠ []) {output : Option (List κ)} {o : List κ}
    (ho : MeansOutput (items.map Prod.snd) output o) (constants : List Nat) (hk : KindsAsSaid (items.map Prod.fst) constants) (size : κ → Nat)
    (hfit : OperandsFit size (items.map Prod.snd) ((items.map Prod.fst).map itemShape)) (hlab : (items.map Prod.snd).flatten.toFinset.card ≤ 52)
    (opt : Optimize) (hopt : AlwaysComplete opt items.length) (mem : MemLimit) (hmem : ValidMemory mem) (ub : Bool) :
    ∃ e, contractExpressionInterleaved (items.map (fun p => (p.1, p.2.map Lbl.key))) (output.map (List.map Lbl.key)) constants opt mem ub = .ok e ∧
      ∀ (arrays ops : List (Arr R)), Merge (slots (items.map Prod.fst)) arrays ops → ShapesAsBuilt (items.map Prod.fst) ops → arrays ≠ [] →
        ∀ (us : List (Use R)) (backend : Option Str) (b : Str), parseBackend L (arrays.map Arr.module) backend = .ok b → b ≠ S "auto" →
          (hasBackend b = true → b ∉ convertBackends → ∃ a ∈ arrays, a.module ≠ S "numpy") → L.hasEinsum b = .ok true →
          ∃ T, (call L (uses L e us) arrays backend).1 = .ok T ∧ IsEinsum size (items.map Prod.snd) o (ops.map Arr.tensor) T := by
  -- the same labels on arrays of these shapes
  let dummies : List (Tensor R × List κ) := items.map (fun q => (({ shape := itemShape q.1, val := fun _ => 0 } : Tensor R), q.2))
  have hsnd : dummies.map Prod.snd = items.map Prod.snd := by simp [dummies]
  have hshp : (dummies.map Prod.fst).map Tensor.shape = (items.map Prod.fst).map itemShape := by simp [dummies]
  obtain ⟨sym, hinj, hcomma, hsub, eq, inp, hparse, hsplit, _, hconv⟩ := interleaved_parse dummies (by simpa [dummies] using hne)
    (by rw [hsnd]; exact ho)
  rw [hsnd] at hinj hsub hsplit
  rw [hshp] at hparse
  obtain ⟨size', hsize⟩ := size_of_sym hinj size
  have hfit' := operandsFit_rename hinj hsize hfit
  have hconv' : convertInterleaved (items.map (fun p => (p.1, p.2.map Lbl.key))) (output.map (List.map Lbl.key)) = .ok (eq, items.map Prod.fst) := by
    have := convertInterleaved_operands (items' := items.map (fun p => (p.1, p.2.map (Lbl.key (κ := κ))))) (by simp [dummies]) hconv
    simpa [Function.comp_def] using this
  rw [← hsplit] at hfit'
  have hlen : (splitOn cComma inp).length = items.length := by rw [hsplit]; simp
  have hch : ChoosesComplete opt size' (splitOn cComma inp) (o.map sym) := alwaysComplete_chooses (by rw [hlen]; exact hopt) _ _
  have hshp' : ((items.map Prod.fst).map itemShape) = (dummies.map Prod.fst).map Tensor.shape := hshp.symm
  obtain ⟨info, hpath, _, _, _⟩ := C01_contract_terms size' (splitOn cComma inp) (o.map sym) (dummies.map Prod.fst)
    (wellPosed_of_parse (by rw [hshp]; exact hparse) hcomma (by rw [hshp]; exact hfit')) opt mem hmem hch ub false
  rw [hshp] at hpath
  have hoff : opt ≠ .off := by rintro rfl; exact hopt
  have hnil : opt ≠ .path [] := by rintro rfl; exact hopt.1 rfl
  obtain ⟨e, he⟩ := contractExpression_builds hk hoff hnil hparse hpath
  refine ⟨e, ?_, ?_⟩
  · unfold contractExpressionInterleaved
    split
    · exact absurd rfl hoff
    · exact absurd rfl hnil
    · simp only [bind, Except.bind, hconv', he]
  · intro arrays ops hm hs hv us backend b hp hauto hname hein
    obtain ⟨shapes, inp', out', info', hb⟩ := contractExpression_inv he
    have hsh : ops.map (fun a => a.tensor.shape) = (items.map Prod.fst).map itemShape := by
      rw [shapes_of_merge hb hm hs, hb.shapes_eq]
    obtain ⟨T, hT, hE⟩ := C39_expression_is_einsum L eq (items.map Prod.fst) constants opt mem hmem ub e he arrays ops hm hs hv size' inp (o.map sym)
      (by rw [hsh]; exact hparse) (by rw [hsh]; exact hfit') (by rw [hsplit, card_map_labels hinj]; exact hlab) hch us backend b hp hauto hname hein
    rw [hsplit] at hE
    exact ⟨T, hT, isEinsum_of_rename hinj hsub hsize hE⟩

omit [CommSemiring R] in
/-- **C75.** `optimize=False` and an empty path are refused before anything else is looked at. -/
theorem C75_refused (items : List (Item R × List (Lbl κ))) (output : Option (List (Lbl κ))) (constants : List Nat) (mem : MemLimit) (ub : Bool) :
    contractExpressionInterleaved items output constants .off mem ub = .error .value ∧
    contractExpressionInterleaved items output constants (.path []) mem ub = .error .value := ⟨rfl, rfl⟩

omit [CommSemiring R] in
/-- **C75.** An expression for a string equation is built whenever `contract_path` accepts it: arrays where `constants` says so, shapes elsewhere. -/
theorem C75_builds (subs : Str) (items : List (Item R)) (constants : List Nat) (hk : KindsAsSaid items constants) (opt : Optimize)
    (hoff : opt ≠ .off) (hnil : opt ≠ .path []) (mem : MemLimit) (ub : Bool) (inp out : Str)
    (hparse : parseEinsum subs (items.map itemShape) = .ok (inp, out)) (info : PathInfo)
    (hpath : contractPath (splitOn cComma inp) out (items.map itemShape) opt mem ub = .ok info) :
    ∃ e, contractExpression subs items constants opt mem ub = .ok e :=
  contractExpression_builds hk hoff hnil hparse hpath

/-- Labels 30, 7, 1000; the first operand is constant. The expression has one step and takes one array. -/
example : ∃ e, contractExpressionInterleaved [(Item.array demoA, [Lbl.key 30, .key 7]), (.shape [2, 2], [.key 7, .key 1000])] (some [.key 1000, .key 30]) [0]
      (.path [[0, 1]]) .none true = .ok e ∧ e.numArgs = 1 ∧ e.contraction = S "[ba],ac->cb" ∧
    (call demoLib e [demoB] none).1.map (fun T => [T.val [0, 0], T.val [0, 1], T.val [1, 0], T.val [1, 1]]) =
      (contract false (S "ba,ac->cb") [demoA.tensor, demoB.tensor] (.path [[0, 1]]) .none true).map
        (fun T => [T.val [0, 0], T.val [0, 1], T.val [1, 0], T.val [1, 1]]) := by
  refine ⟨_, rfl, rfl, by decide, ?_⟩
  decide +kernel

/-- The hypotheses of `C75_interleaved_expression` are met there. -/
example (us : List (Use ℤ)) : ∃ e, contractExpressionInterleaved [(Item.array demoA, [Lbl.key 30, .key 7]), (.shape [2, 2], [.key 7, .key 1000])]
      (some [.key 1000, .key 30]) [0] (.path [[0, 1]]) .none true = .ok e ∧
    ∃ T, (call demoLib (uses demoLib e us) [demoB] none).1 = .ok T ∧
      IsEinsum (fun _ => 2) [[30, 7], [7, 1000]] [1000, 30] [demoA.tensor, demoB.tensor] T := by
  obtain ⟨e, he, h⟩ := C75_interleaved_expression (κ := Nat) demoLib [(Item.array demoA, [30, 7]), (.shape [2, 2], [7, 1000])] (by simp) (output := some [1000, 30])
    (MeansOutput.given [1000, 30] (by decide) (by decide)) [0]
    ⟨by intro i hi; rw [List.mem_singleton] at hi; subst hi; exact ⟨demoA, rfl⟩, by
      intro i a hi
      rcases i with _ | _ | i
      · simp
      · simp at hi
      · simp at hi⟩ (fun _ => 2)
    (operandsFit_of_list (by decide +kernel) (by decide +kernel) (by decide +kernel) (by decide +kernel) (by decide +kernel)) (by decide +kernel)
    (.path [[0, 1]]) ⟨by simp, by simp [CompletePath, ValidStep]⟩ .none trivial true
  refine ⟨e, he, h [demoB] [demoA, demoB] (.const _ _ _ _ (.var _ _ _ _ .nil)) ?_ (by simp) us none (S "numpy") rfl (by decide) (by decide) rfl⟩
  intro i s a hi ha
  rcases i with _ | _ | i
  · simp at hi
  · simp at hi ha; subst hi; subst ha; rfl
  · simp at hi

end OE.Props
