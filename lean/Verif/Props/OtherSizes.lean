import Verif.Lemmas.OtherSizes

/-!
# C63: expressions called with arrays of other sizes
-/

namespace OE.Props
open OE OE.Py OE.Spec OE.Parser OE.Contract OE.Expression OE.Helpers
variable {R : Type} [CommSemiring R]

/-- The shape given for an operand, or that of the constant. -/
def itemShape : Item R → Shape
  | .shape s => s
  | .array a => a.tensor.shape

omit [CommSemiring R] in
theorem Built.shapes_eq {subs : Str} {items : List (Item R)} {opt : Optimize} {mem : MemLimit} {ub : Bool} {e : Expr R}
    {shapes : List Shape} {inp out : Str} {info : PathInfo} (hb : Built subs items opt mem ub e shapes inp out info) :
    shapes = items.map itemShape := by
  apply List.ext_getElem?
  intro i
  rw [List.getElem?_map]
  cases hi : items[i]? with
  | none =>
    rw [List.getElem?_eq_none_iff] at hi
    rw [List.getElem?_eq_none (by rw [hb.len]; exact hi)]; rfl
  | some it =>
    cases it with
    | shape s => rw [hb.shape i s hi]; rfl
    | array a => rw [hb.array i a hi]; rfl

/-- Planned with operands of some shapes, executed with others that broadcast alike. -/
theorem plan_executes {size₀ size : Nat → Nat} {inputs : List Str} {output : Str} {ops₀ ops : List (Tensor R)}
    (h₀ : WellPosed size₀ inputs output (ops₀.map Tensor.shape)) (h : WellPosed size inputs output (ops.map Tensor.shape))
    (ha : BroadcastsAlike inputs (ops₀.map Tensor.shape) (ops.map Tensor.shape)) {opt : Optimize} {mem : MemLimit} (hmem : ValidMemory mem)
    (hopt : ChoosesComplete opt size₀ inputs output) {useBlas : Bool} {info : PathInfo}
    (hinfo : contractPath inputs output (ops₀.map Tensor.shape) opt mem useBlas = .ok info) (noEinsum : Bool) :
    CompletePath inputs.length info.path ∧
      ((∃ T, coreContract noEinsum info.contractionList ops = .ok T ∧ IsEinsum size inputs output ops T) ∨
       (coreContract noEinsum info.contractionList ops = .error .attribute ∧ noEinsum = true ∧
          ∃ s ∈ info.contractionList, s.blas = .no) ∨
       (coreContract noEinsum info.contractionList ops = .error .value ∧ noEinsum = false ∧ 52 < inputs.flatten.toFinset.card)) := by
  obtain ⟨d₀, path, hd₀, hp, -, hplan⟩ := contractPath_eq h₀ hmem hopt useBlas
  obtain ⟨d, _, hd, -, -, -⟩ := contractPath_eq h (opt := .path path) (mem := .none) trivial hp useBlas
  have l₀ : inputs.length = ops₀.length := by simpa using h₀.len
  have l : inputs.length = ops.length := by simpa using h.len
  let X : List (Both R) := inputs.zip (ops₀.zip ops)
  have hzl : (inputs.zip (ops₀.zip ops)).length = inputs.length := by rw [List.length_zip, List.length_zip]; omega
  have hget : ∀ x ∈ X, ∃ i : Nat, inputs[i]? = some x.1 ∧ ops₀[i]? = some x.2.1 ∧ ops[i]? = some x.2.2 := by
    intro x hx
    obtain ⟨i, g1, g2⟩ := mem_zip_get.mp (show (x.1, x.2) ∈ inputs.zip (ops₀.zip ops) from hx)
    rw [List.getElem?_zip_eq_some] at g2
    exact ⟨i, g1, g2.1, g2.2⟩
  have hold : X.map Both.old = inputs.zip ops₀ := by
    apply List.ext_getElem?
    intro i
    simp only [X, List.getElem?_map]
    by_cases hi : i < inputs.length
    · have hi₀ : i < ops₀.length := by omega
      have hi₁ : i < ops.length := by omega
      simp [List.zip, hi, hi₀, hi₁, Both.old]
    · rw [List.getElem?_eq_none (by rw [hzl]; omega), List.getElem?_eq_none (by rw [List.length_zip]; omega)]; rfl
  have hnew : X.map Both.new = inputs.zip ops := by
    apply List.ext_getElem?
    intro i
    simp only [X, List.getElem?_map]
    by_cases hi : i < inputs.length
    · have hi₀ : i < ops₀.length := by omega
      have hi₁ : i < ops.length := by omega
      simp [List.zip, hi, hi₀, hi₁, Both.new]
    · rw [List.getElem?_eq_none (by rw [hzl]; omega), List.getElem?_eq_none (by rw [List.length_zip]; omega)]; rfl
  have hst : ∀ {o : List (Tensor R)}, inputs.length = o.length →
      stateOf (inputs.zip o) = { inputs, sets := inputs.map List.toFinset, shapes := o.map Tensor.shape } := by
    intro o ho
    unfold stateOf
    rw [List.map_fst_zip (by omega), List.map_snd_zip (by omega)]
  have halike : Alike X := by
    intro c
    rcases ha c with hu | hu
    · left
      rw [hnew]
      exact fun e e' g g' => hu e e' (hasDim_iff.mp g) (hasDim_iff.mp g')
    · right
      intro x hx e e' g g'
      obtain ⟨i, g1, g2, g3⟩ := hget x hx
      obtain ⟨j, k1, k2⟩ := mem_zip_get.mp g
      obtain ⟨j', k3, k4⟩ := mem_zip_get.mp g'
      have hlt : j' < x.1.length := (List.getElem?_eq_some_iff.mp k3).1
      have hr : x.2.1.shape.length = x.1.length := h₀.rank i x.1 _ g1 (by simp [g2])
      have he : x.2.1.shape[j']? = some (x.2.1.shape[j']'(by omega)) := List.getElem?_eq_getElem _
      have hdd : e = x.2.1.shape[j']'(by omega) := h₀.diag i j j' x.1 x.2.1.shape c e _ g1 (by simp [g2]) k1 k3 k2 he
      rw [hdd]
      exact hu i j' x.1 x.2.1.shape x.2.2.shape _ e' g1 (by simp [g2]) (by simp [g3]) k3 he k4
  obtain ⟨st₀, outs₀, st, outs, p₀, p₁, hw⟩ := pathLoop_weaker (d₀ := d₀) (d := d) h₀.nodup useBlas path X
    (by rw [hold]; exact inv_of_wellPosed h₀) (by rw [hnew]; exact inv_of_wellPosed h) halike
    (fun c hc => by rw [hold, occurs_zip l₀] at hc; rw [hd₀ c hc]; rfl)
    (fun c hc => by rw [hnew, occurs_zip l] at hc; rw [hd c hc]; rfl) (by rw [show X.length = inputs.length from hzl]; exact hp)
  rw [hold, hst l₀] at p₀
  rw [hplan st₀ outs₀ p₀] at hinfo
  cases hinfo
  refine ⟨hp, ?_⟩
  obtain ⟨st', outs', p₂, ho⟩ := pathLoop_coreLoop (d := d) h.nodup useBlas noEinsum path (inputs.zip ops) (inv_of_wellPosed h)
    (fun c hc => by rw [occurs_zip l] at hc; rw [hd c hc]; rfl) (by rw [List.length_zip, ← l, min_self]; exact hp)
  rw [hnew, p₂] at p₁
  cases p₁
  replace ho := ho _ hw
  rw [List.map_snd_zip (by omega)] at ho
  simp only [coreContract, bind, Except.bind]
  rcases ho with ⟨T, h1, h2⟩ | ⟨h1, h2, s, hs, h3⟩ | ⟨h1, h2, _, h4⟩
  · left
    exact ⟨T, by rw [h1], isEinsum_of_total l h.nodup h2⟩
  · right; left
    exact ⟨by rw [h1], h2, s, hs, h3⟩
  · right; right
    refine ⟨by rw [h1], h2, ?_⟩
    have := h4 inputs.flatten.toFinset.toList (by
      intro c hc
      rw [Finset.mem_toList, List.mem_toFinset, List.mem_flatten]
      exact (occurs_zip l).mp hc)
    rwa [Finset.length_toList] at this

/-- **C63.** An expression built for some shapes and called, after any history of uses, with arrays of other sizes that broadcast no more than
the shapes did (for instance not at all) returns the Einstein summation of these arrays and the constants. `inp` and `out` are the terms
of the equation, the same for both lists of shapes since these have the same ranks. -/
theorem C63_other_sizes (L : Lib) (subs : Str) (items : List (Item R)) (constants : List Nat) (opt : Optimize)
    (mem : MemLimit) (hmem : ValidMemory mem) (ub : Bool) (e : Expr R)
    (hbuild : contractExpression subs items constants opt mem ub = .ok e)
    (size₀ : Nat → Nat) (inp out : Str) (hparse : parseEinsum subs (items.map itemShape) = .ok (inp, out))
    (hfit₀ : OperandsFit size₀ (splitOn cComma inp) (items.map itemShape)) (hopt : ChoosesComplete opt size₀ (splitOn cComma inp) out)
    (arrays ops : List (Arr R)) (hm : Merge (slots items) arrays ops) (hv : arrays ≠ [])
    (size : Nat → Nat) (hfit : OperandsFit size (splitOn cComma inp) (ops.map (fun a => a.tensor.shape)))
    (halike : BroadcastsAlike (splitOn cComma inp) (items.map itemShape) (ops.map (fun a => a.tensor.shape)))
    (hlab : (splitOn cComma inp).flatten.toFinset.card ≤ 52)
    (us : List (Use R)) (backend : Option Str) (b : Str) (hp : parseBackend L (arrays.map Arr.module) backend = .ok b)
    (hauto : b ≠ S "auto") (hname : hasBackend b = true → b ∉ convertBackends → ∃ a ∈ arrays, a.module ≠ S "numpy")
    (hein : L.hasEinsum b = .ok true) :
    ∃ T, (call L (uses L e us) arrays backend).1 = .ok T ∧ IsEinsum size (splitOn cComma inp) out (ops.map Arr.tensor) T := by
  obtain ⟨shapes, inp', out', info, hb⟩ := contractExpression_inv hbuild
  have hsh := hb.shapes_eq
  have hpi := hb.parse
  rw [hsh, hparse] at hpi
  cases hpi
  have hcomma := no_comma_of_path hb.path
  have hw₀ := wellPosed_of_parse hparse hcomma hfit₀
  have hlen : ops.length = items.length := by rw [(merge_count hm).2]; simp [slots]
  have hmap : (ops.map Arr.tensor).map Tensor.shape = ops.map (fun a => a.tensor.shape) := by simp
  have hw : WellPosed size (splitOn cComma inp) out ((ops.map Arr.tensor).map Tensor.shape) := by
    rw [hmap]
    exact { hfit with nonempty := hw₀.nonempty, len := by rw [hw₀.len]; simp [hlen], punct := hw₀.punct, nodup := hw₀.nodup, sub := hw₀.sub }
  -- arrays with the shapes the expression was built with
  have hz : (items.map fun it => (⟨itemShape it, fun _ => 0⟩ : Tensor R)).map Tensor.shape = items.map itemShape := by simp
  have hbp := hb.path
  rw [hsh, ← hz] at hbp
  obtain ⟨hc, ho⟩ := plan_executes (by rw [hz]; exact hw₀) hw (by rw [hz, hmap]; exact halike) hmem hopt hbp false
  have hn : (splitOn cComma inp).length = items.length := by rw [hw₀.len]; simp
  rw [call_merged L hb (by rw [← hn]; exact hc) (uses_inv L (built_inv L hb) us) hm hv hp hauto hname, hein]
  rcases ho with h1 | ⟨_, h1, _⟩ | ⟨_, _, h1⟩
  · exact h1
  · cases h1
  · omega

/-! ## The equation is read in the same way -/

theorem expandTerms_ranks {E : Str} {s s' : List Shape} (h : s.map List.length = s'.map List.length) (l : List (Nat × Str)) (acc : List Str)
    (k : Nat) : expandTerms E s l acc k = expandTerms E s' l acc k := by
  induction l generalizing acc k with
  | nil => rfl
  | cons p rest ih =>
    obtain ⟨num, sub⟩ := p
    have hn : s[num]?.map List.length = s'[num]?.map List.length := by
      rw [← List.getElem?_map, ← List.getElem?_map, h]
    rw [expandTerms, expandTerms]
    split
    · split
      · rfl
      · cases h1 : s[num]? with
        | none =>
          rw [h1] at hn
          cases h2 : s'[num]? with
          | none => rfl
          | some b => rw [h2] at hn; cases hn
        | some a =>
          rw [h1] at hn
          cases h2 : s'[num]? with
          | none => rw [h2] at hn; cases hn
          | some b =>
            rw [h2] at hn
            have hl : a.length = b.length := Option.some.inj hn
            have hec : ellipseCount a sub = ellipseCount b sub := by
              unfold ellipseCount
              rw [hl]
              congr 1
              rw [← List.length_eq_zero_iff, ← List.length_eq_zero_iff (l := b), hl]
            simp only [hec, ih]
    · exact ih _ _

/-- The parser looks at the ranks of the operands only. -/
theorem parseEinsum_ranks {s s' : List Shape} (h : s.map List.length = s'.map List.length) (subs : Str) :
    parseEinsum subs s = parseEinsum subs s' := by
  have hl : s.length = s'.length := by simpa using congrArg List.length h
  unfold parseEinsum
  rw [hl]
  have : expandEllipses (removeChar cSpace subs) s = expandEllipses (removeChar cSpace subs) s' := by
    unfold expandEllipses
    rw [h]
    simp only [expandTerms_ranks h]
  simp only [this]

/-- **C63, against `contract`.** The same call returns what `contract` returns for these arrays and the constants with any path, memory limit,
`use_blas` or backend. -/
theorem C63_same_as_contract (L : Lib) (subs : Str) (items : List (Item R)) (constants : List Nat) (opt : Optimize)
    (mem : MemLimit) (hmem : ValidMemory mem) (ub : Bool) (e : Expr R)
    (hbuild : contractExpression subs items constants opt mem ub = .ok e)
    (size₀ : Nat → Nat) (inp out : Str) (hparse : parseEinsum subs (items.map itemShape) = .ok (inp, out))
    (hfit₀ : OperandsFit size₀ (splitOn cComma inp) (items.map itemShape)) (hopt : ChoosesComplete opt size₀ (splitOn cComma inp) out)
    (arrays ops : List (Arr R)) (hm : Merge (slots items) arrays ops) (hv : arrays ≠ [])
    (size : Nat → Nat) (hfit : OperandsFit size (splitOn cComma inp) (ops.map (fun a => a.tensor.shape)))
    (halike : BroadcastsAlike (splitOn cComma inp) (items.map itemShape) (ops.map (fun a => a.tensor.shape)))
    (hlab : (splitOn cComma inp).flatten.toFinset.card ≤ 52)
    (us : List (Use R)) (backend : Option Str) (b : Str) (hp : parseBackend L (arrays.map Arr.module) backend = .ok b)
    (hauto : b ≠ S "auto") (hname : hasBackend b = true → b ∉ convertBackends → ∃ a ∈ arrays, a.module ≠ S "numpy")
    (hein : L.hasEinsum b = .ok true)
    (opt' : Optimize) (mem' : MemLimit) (hmem' : ValidMemory mem') (hopt' : ChoosesComplete opt' size (splitOn cComma inp) out) (ub' noE' : Bool)
    (T' : Tensor R) (hT' : contract noE' subs (ops.map Arr.tensor) opt' mem' ub' = .ok T') :
    ∃ T, (call L (uses L e us) arrays backend).1 = .ok T ∧ SameArray T T' := by
  obtain ⟨T, h1, h2⟩ := C63_other_sizes L subs items constants opt mem hmem ub e hbuild size₀ inp out hparse hfit₀ hopt arrays ops hm hv size
    hfit halike hlab us backend b hp hauto hname hein
  refine ⟨T, h1, isEinsum_unique h2 ?_⟩
  have hmap : (ops.map Arr.tensor).map Tensor.shape = ops.map (fun a => a.tensor.shape) := by simp
  have hterms := (parse_labels hparse).1
  have hlen : ops.length = items.length := by rw [(merge_count hm).2]; simp [slots]
  have hranks : (items.map itemShape).map List.length = (ops.map (fun a => a.tensor.shape)).map List.length := by
    apply List.ext_getElem
    · simp [hlen]
    · intro i g1 g2
      simp only [List.length_map] at g1 g2
      have ht : i < (splitOn cComma inp).length := by rw [hterms]; simpa using g1
      have r1 := hfit₀.rank i _ _ (List.getElem?_eq_getElem ht) (List.getElem?_eq_getElem (by simpa using g1))
      have r2 := hfit.rank i _ _ (List.getElem?_eq_getElem ht) (List.getElem?_eq_getElem (by simpa using g2))
      rw [List.getElem_map (f := List.length), List.getElem_map (f := List.length)]
      exact r1.trans r2.symm
  refine C01_contract_returns size subs (ops.map Arr.tensor) inp out ?_ (by rw [hmap]; exact hfit) opt' mem' hmem' hopt' ub' noE' T' hT'
  rw [hmap, ← parseEinsum_ranks hranks]
  exact hparse

-- C63: 'ab,bc,cd->ad' built for [3, 2] and [2, 1] around a constant, called with arrays of shapes [1, 2] and [2, 3] after the constants
-- were evaluated
example : ∃ e : Expr ℤ, contractExpression (S "ab,bc,cd->ad") [.shape [3, 2], .array demoB, .shape [2, 1]] [1] (.path [[0, 1], [0, 1]]) .none true = .ok e ∧
    (call demoLib (uses demoLib e [.evaluate none]) [npArray [1, 2] (fun c => match c with | [_, j] => j + 1 | _ => 0), demoC] none).1.map
      (fun T => (T.shape, T.val [0, 2])) = .ok ([1, 3], 15) ∧
    ∃ T, (call demoLib (uses demoLib e [.evaluate none]) [npArray [1, 2] (fun c => match c with | [_, j] => j + 1 | _ => 0), demoC] none).1 = .ok T ∧
      IsEinsum (fun c => if c = 97 then 1 else if c = 100 then 3 else 2) [S "ab", S "bc", S "cd"] (S "ad")
        ([npArray [1, 2] (fun c => match c with | [_, j] => j + 1 | _ => 0), demoB, demoC].map Arr.tensor) T := by
  obtain ⟨e, he⟩ : ∃ e : Expr ℤ, contractExpression (S "ab,bc,cd->ad") [.shape [3, 2], .array demoB, .shape [2, 1]] [1] (.path [[0, 1], [0, 1]]) .none
    true = .ok e := ⟨_, rfl⟩
  have hsplit : splitOn cComma (S "ab,bc,cd") = [S "ab", S "bc", S "cd"] := by decide +kernel
  refine ⟨e, he, ?_, ?_⟩
  · cases he
    decide +kernel
  · rw [← hsplit]
    refine C63_other_sizes demoLib (S "ab,bc,cd->ad") _ [1] (.path [[0, 1], [0, 1]]) .none trivial true e he
      (fun c => if c = 97 then 3 else if c = 100 then 1 else 2) (S "ab,bc,cd") (S "ad") (by decide +kernel)
      (operandsFit_of_list (by decide +kernel) (by decide +kernel) (by decide +kernel) (by decide +kernel) (by decide +kernel))
      (by simp only [ChoosesComplete, CompletePath, ValidStep]; decide +kernel) _ _ (.var _ _ _ _ (.const _ _ _ _ (.var _ _ _ _ .nil))) (by simp) _
      (operandsFit_of_list (by decide +kernel) (by decide +kernel) (by decide +kernel) (by decide +kernel) (by decide +kernel)) ?_
      (by decide +kernel) [.evaluate none] none (S "numpy") (by decide +kernel) (by decide +kernel) ?_ (by decide +kernel)
    · rw [hsplit]
      intro c
      left
      intro d d' h1 h2
      have key : ∀ p ∈ [S "ab", S "bc", S "cd"].zip [[1, 2], [2, 2], [2, 3]], ∀ x ∈ p.1.zip p.2, x.2 = if x.1 = 97 then 1 else if x.1 = 100 then 3 else 2 := by
        decide +kernel
      have go : ∀ d, DimOccurs [S "ab", S "bc", S "cd"] [[1, 2], [2, 2], [2, 3]] c d → d = if c = 97 then 1 else if c = 100 then 3 else 2 := by
        rintro d ⟨i, j, t, sh, g1, g2, g3, g4⟩
        exact key (t, sh) (List.mem_of_getElem? (List.getElem?_zip_eq_some.mpr ⟨g1, g2⟩)) (c, d)
          (List.mem_of_getElem? (List.getElem?_zip_eq_some.mpr ⟨g3, g4⟩))
      rw [go d h1, go d' h2]
    · intro h
      revert h
      decide +kernel

/-- Where the hypothesis is needed: built for `[2, 3]` and `[3, 4]`, a call with `[2, 1]` and `[3, 4]` raises `ValueError`
(the step was marked for `tensordot`, which does not broadcast), though `contract` returns. -/
theorem C63_broadcast_counterexample :
    (∃ e : Expr ℤ, contractExpression (S "ab,bc->ac") [.shape [2, 3], .shape [3, 4]] [] (.path [[0, 1]]) .none true = .ok e ∧
      (match (call demoLib e [npArray [2, 1] (fun _ => 1), npArray [3, 4] (fun _ => 1)] none).1 with
        | .error er => er = .value | .ok _ => False)) ∧
    (contract false (S "ab,bc->ac") [(npArray [2, 1] (fun _ => 1)).tensor, (npArray [3, 4] (fun _ => 1)).tensor] (.path [[0, 1]]) .none true).map
      (fun T => (T.shape, T.val [0, 0])) = .ok ([2, 4], 3) := by
  refine ⟨⟨_, rfl, ?_⟩, ?_⟩
  · rfl
  · rfl

end OE.Props
