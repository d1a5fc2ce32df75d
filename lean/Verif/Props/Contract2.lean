import Verif.Lemmas.Spec
import Verif.Lemmas.NpEllipsis
import Verif.Lemmas.SizeKeys

/-!
# C01, C02: `contract` computes the Einstein summation, whatever the path
-/

namespace OE.Props
open OE OE.Py OE.Spec OE.Parser OE.Helpers OE.Blas OE.Contract
variable {R : Type} [CommSemiring R]

/-- The values of `memory_limit` that are accepted. -/
def ValidMemory : MemLimit → Prop
  | .none => True
  | .maxInput => True
  | .otherStr => False
  | .num q => q = -1 ∨ 1 ≤ q

/-- The `optimize` argument yields a complete path for `n` operands: an explicit path is complete, a path finder
(only asked for more than two operands) answers with a complete path. -/
def ChoosesComplete (opt : Optimize) (size : Nat → Nat) (inputs : List Str) (output : Str) : Prop :=
  match opt with
  | .off => False
  | .path p => CompletePath inputs.length p
  | .finder f => 2 < inputs.length → ∀ (d : Dict Nat Nat) (m : Option Nat),
      (∀ t ∈ inputs, ∀ c ∈ t, d.get? c = some (size c)) →
      ∃ p, f (inputs.map List.toFinset) output.toFinset d m = .ok p ∧ CompletePath inputs.length p

theorem completePath_range {n : Nat} (h : n ≠ 0) : CompletePath n [List.range n] := by
  refine ⟨⟨?_, List.nodup_range, ?_⟩, List.length_range⟩
  · intro e
    rw [List.range_eq_nil] at e
    exact h e
  · intro x hx; exact List.mem_range.mp hx

theorem chooseMemoryArg_ok {mem : MemLimit} (h : ValidMemory mem) {sizes : List Nat} (hs : sizes ≠ []) :
    ∃ m, chooseMemoryArg mem sizes = .ok m := by
  have hc := C07_choose_memory_arg sizes
  cases mem with
  | none => exact ⟨_, hc.1⟩
  | otherStr => exact absurd h (by simp [ValidMemory])
  | maxInput =>
    cases hm : sizes.max? with
    | none => rw [List.max?_eq_none_iff] at hm; exact absurd hm hs
    | some v => exact ⟨some v, by simp [chooseMemoryArg, hm]⟩
  | num q =>
    rcases h with rfl | h
    · exact ⟨_, hc.2.1⟩
    · obtain ⟨n, h1, _⟩ := hc.2.2.2.2.1 q h
      exact ⟨_, h1⟩

/-- Planning a well-posed contraction succeeds up to the path loop. -/
theorem contractPath_eq {size : Nat → Nat} {inputs : List Str} {output : Str} {shapes : List Shape}
    (h : WellPosed size inputs output shapes) {opt : Optimize} {mem : MemLimit} (hmem : ValidMemory mem)
    (hopt : ChoosesComplete opt size inputs output) (useBlas : Bool) :
    ∃ (d : Dict Nat Nat) (path : List (List Nat)), (∀ c, (∃ t ∈ inputs, c ∈ t) → d.get? c = some (size c)) ∧
      CompletePath inputs.length path ∧ (∀ p, opt = .path p → path = p) ∧
      ∀ st outs, pathLoop useBlas output d { inputs, sets := inputs.map List.toFinset, shapes } path = .ok (st, outs) →
        contractPath inputs output shapes opt mem useBlas = .ok
          { contractionList := outs.map StepOut.step, path, indices := inputs.flatten.toFinset, scaleList := outs.map StepOut.scale,
            naiveCost := (∏ c ∈ inputs.flatten.toFinset, dsize d c) *
              opFactor (decide (0 < ((inputs.map List.toFinset).map Finset.card).sum - inputs.flatten.toFinset.card)) inputs.length,
            optCost := (outs.map StepOut.cost).sum, sizeList := outs.map StepOut.size, sizeDict := d,
            largestIntermediate := (outs.map StepOut.size).max?.getD 1 } := by
  obtain ⟨d, hd1, hd2⟩ := sizeLoop_wellPosed h
  have hsome : ∀ c, (∃ t ∈ inputs, c ∈ t) → (d.get? c).isSome := fun c hc => by rw [hd2 c hc]; rfl
  have hsz : (inputs ++ [output]).mapM (fun t => computeSizeByDict t d) =
      .ok ((inputs ++ [output]).map (fun t => (t.map (dsize d)).prod)) := by
    apply mapM_ok
    intro t ht
    apply computeSize_ok
    intro c hc
    rw [List.mem_append, List.mem_singleton] at ht
    rcases ht with ht | rfl
    · exact hsome c ⟨t, ht, hc⟩
    · exact hsome c (h.sub c hc)
  obtain ⟨m, hm⟩ := chooseMemoryArg_ok hmem (sizes := (inputs ++ [output]).map (fun t => (t.map (dsize d)).prod)) (by simp)
  have hflop : ∀ inner : Bool, flopCount (enum inputs.flatten inputs.flatten.toFinset) inner inputs.length d =
      .ok ((∏ c ∈ inputs.flatten.toFinset, dsize d c) * opFactor inner inputs.length) := by
    intro inner
    apply flopCount_enum
    · intro c hc; exact List.mem_toFinset.mp hc
    · intro c hc
      apply hsome
      rw [List.mem_toFinset, List.mem_flatten] at hc
      exact hc
  have hn : inputs.length ≠ 0 := fun e => h.nonempty (List.length_eq_zero_iff.mp e)
  have hpath : ∃ path, choosePath opt inputs.length (inputs.map List.toFinset) output.toFinset d m = .ok path ∧
      CompletePath inputs.length path ∧ (∀ p, opt = .path p → path = p) := by
    cases opt with
    | off => exact absurd hopt (by simp [ChoosesComplete])
    | path p => exact ⟨p, rfl, hopt, fun q hq => by cases hq; rfl⟩
    | finder f =>
      by_cases h2 : inputs.length ≤ 2
      · exact ⟨[List.range inputs.length], by simp [choosePath, h2], completePath_range hn, by simp⟩
      · obtain ⟨p, hp1, hp2⟩ := hopt (by omega) d m (fun t ht c hc => hd2 c ⟨t, ht, hc⟩)
        exact ⟨p, by simp [choosePath, h2, hp1], hp2, by simp⟩
  obtain ⟨path, hp1, hp2, hp3⟩ := hpath
  refine ⟨d, path, hd2, hp2, hp3, ?_⟩
  intro st outs hl
  unfold contractPath
  simp only [bind, Except.bind]
  rw [hd1]
  simp only
  rw [hsz]
  simp only
  rw [hm]
  simp only
  rw [hflop]
  simp only
  rw [hp1]
  simp only
  rw [hl]

/-- C01, planned and executed on parsed terms. The plan never fails. Its execution delivers the Einstein summation of
all operands, except when the backend has no `einsum` and some step is not a BLAS step
(`AttributeError`), or when a step involves more than the 52 labels that `einsum` can name (`ValueError`). -/
theorem C01_contract_terms (size : Nat → Nat) (inputs : List Str) (output : Str) (ops : List (Tensor R))
    (h : WellPosed size inputs output (ops.map Tensor.shape)) (opt : Optimize) (mem : MemLimit) (hmem : ValidMemory mem)
    (hopt : ChoosesComplete opt size inputs output) (useBlas noEinsum : Bool) :
    ∃ info, contractPath inputs output (ops.map Tensor.shape) opt mem useBlas = .ok info ∧
      CompletePath inputs.length info.path ∧ (∀ p, opt = .path p → info.path = p) ∧
      ((∃ T, coreContract noEinsum info.contractionList ops = .ok T ∧ IsEinsum size inputs output ops T) ∨
       (coreContract noEinsum info.contractionList ops = .error .attribute ∧ noEinsum = true ∧
          ∃ s ∈ info.contractionList, s.blas = .no) ∨
       (coreContract noEinsum info.contractionList ops = .error .value ∧ noEinsum = false ∧
          (∃ k ∈ info.scaleList, 52 < k) ∧ 52 < inputs.flatten.toFinset.card)) := by
  obtain ⟨d, path, hd, hp, hpp, hinfo⟩ := contractPath_eq h hmem hopt useBlas
  have hlen : inputs.length = ops.length := by simpa using h.len
  have hinv := inv_of_wellPosed h
  have hzl : (inputs.zip ops).length = inputs.length := by rw [List.length_zip]; omega
  have hst : stateOf (inputs.zip ops) = { inputs, sets := inputs.map List.toFinset, shapes := ops.map Tensor.shape } := by
    unfold stateOf
    rw [List.map_fst_zip (by omega), List.map_snd_zip (by omega)]
  obtain ⟨st, outs, hl, ho⟩ := pathLoop_coreLoop (d := d) h.nodup useBlas noEinsum path (inputs.zip ops) hinv
    (fun c hc => by rw [hd c ((occurs_zip hlen).mp hc)]; rfl) (by rw [hzl]; exact hp)
  rw [hst] at hl
  replace ho := ho _ (List.forall₂_same.mpr fun _ _ => Or.inl rfl)
  rw [List.map_snd_zip (by omega)] at ho
  refine ⟨_, hinfo st outs hl, hp, hpp, ?_⟩
  simp only [coreContract, bind, Except.bind]
  rcases ho with ⟨T, h1, h2⟩ | ⟨h1, h2, o, ho, h3⟩ | ⟨h1, h2, ⟨o, ho, h3⟩, h4⟩
  · left
    exact ⟨T, by rw [h1], isEinsum_of_total hlen h.nodup h2⟩
  · right; left
    exact ⟨by rw [h1], h2, o, ho, h3⟩
  · right; right
    refine ⟨by rw [h1], h2, ⟨o.scale, List.mem_map.mpr ⟨o, ho, rfl⟩, h3⟩, ?_⟩
    have := h4 inputs.flatten.toFinset.toList (by
      intro c hc
      rw [Finset.mem_toList, List.mem_toFinset, List.mem_flatten]
      exact (occurs_zip hlen).mp hc)
    rwa [Finset.length_toList] at this

/-- What a successful parse guarantees about the terms and the output. -/
theorem parse_labels {s : Str} {shapes : List Shape} {inp out : Str} (h : parseEinsum s shapes = .ok (inp, out)) :
    (splitOn cComma inp).length = shapes.length ∧ out.Nodup ∧ (∀ c ∈ out, c ∈ inp) ∧
    ∀ t ∈ splitOn cComma inp, ∀ c ∈ t, ¬ IsPunct c := by
  have hsplit : ∀ (c : Nat), ∀ t ∈ splitOn cComma inp, c ∈ t → c ∈ inp := by
    intro c t ht hc
    rw [← join_splitOn cComma inp]
    exact mem_join_of_mem _ _ _ t ht hc
  by_cases hdot : cDot ∈ s
  · obtain ⟨E, lhs, terms, terms', ks, L, eo, hE, hE', hs, hs', hl1, hl2, hl3, hex, hL, hsuf, hnd, hsub, hform, hda, hga⟩ :=
      C35_ellipsis_expansion s shapes inp out hdot h
    have hinp : splitOn cComma inp = terms' := by
      rw [← hs'.2.1, ← join_eq_intercalate]
      exact splitOn_join _ _ hs'.1 hs'.2.2
    refine ⟨by rw [hinp]; exact hl2, hnd, hsub, ?_⟩
    intro t ht c hc hp
    rw [hinp] at ht
    obtain ⟨i, hi, rfl⟩ := List.getElem_of_mem ht
    have hi1 : i < terms.length := by omega
    have hi2 : i < ks.length := by omega
    have hi3 : i < shapes.length := by omega
    have hx := hex i terms[i] terms'[i] ks[i] shapes[i] (List.getElem?_eq_getElem hi1) (List.getElem?_eq_getElem hi)
      (List.getElem?_eq_getElem hi2) (List.getElem?_eq_getElem hi3)
    have hcomma : c ≠ cComma := fun e => hs'.2.2 _ ht (e ▸ hc)
    have hterm : ∀ x ∈ terms[i], x ≠ cDash ∧ x ≠ cGt := by
      intro x hx
      have : x ∈ lhs := by
        rw [← hs.2.1, ← join_eq_intercalate]
        exact mem_join_of_mem _ _ _ terms[i] (List.getElem_mem hi1) hx
      exact ⟨fun e => hda (e ▸ this), fun e => hga (e ▸ this)⟩
    -- the label comes from the original term, without dots, or is new
    have key : (c ∈ terms[i] ∧ c ≠ cDot) ∨ c ∈ E := by
      generalize terms[i] = u at hx
      generalize terms'[i] = v at hx hc
      generalize ks[i] = k at hx
      cases hx with
      | plain _ hpl => left; exact ⟨hc, fun e => hpl (e ▸ hc)⟩
      | dots a b suf _ ha hb hk hs =>
        simp only [List.mem_append] at hc
        rcases hc with (hc | hc) | hc
        · left; exact ⟨by simp [hc], fun e => ha (e ▸ hc)⟩
        · right
          obtain ⟨_, p, hp⟩ := hs
          rw [hp]; simp [hc]
        · left; exact ⟨by simp [hc], fun e => hb (e ▸ hc)⟩
    rcases key with ⟨h1, h2⟩ | h1
    · have := hterm c h1
      rcases hp with e | e | e | e
      · exact h2 e
      · exact hcomma e
      · exact this.1 e
      · exact this.2 e
    · exact (hE' c h1).2 hp
  · have hw := (C34_parse_einsum_input_iff s shapes hdot inp out).mp h
    have hdt : cDot ∉ s.filter (· ≠ cSpace) := fun h => hdot (List.mem_filter.mp h).1
    generalize hg : s.filter (· ≠ cSpace) = t at hw hdt
    cases hw with
    | explicit _ _ hi hi' ho ho' nodup sub hn =>
      refine ⟨by rw [splitOn_length]; exact hn, nodup, sub, ?_⟩
      intro u hu c hc hp
      have hm := hsplit c u hu hc
      rcases hp with e | e | e | e
      · exact hdt (by rw [← e]; simp [hm])
      · exact splitOn_mem_free _ _ u hu (e ▸ hc)
      · exact hi (e ▸ hm)
      · exact hi' (e ▸ hm)
    | implicit _ _ hi hi' inc once hn =>
      refine ⟨by rw [splitOn_length]; exact hn, inc.imp (fun h => ne_of_lt h), ?_, ?_⟩
      · intro c hc
        have := (once c).mp hc
        apply List.count_pos_iff.mp
        omega
      · intro u hu c hc hp
        have hm := hsplit c u hu hc
        rcases hp with e | e | e | e
        · exact hdt (by rw [← e]; exact hm)
        · exact splitOn_mem_free _ _ u hu (e ▸ hc)
        · exact hi (e ▸ hm)
        · exact hi' (e ▸ hm)

theorem wellPosed_of_parse {size : Nat → Nat} {s : Str} {shapes : List Shape} {inp out : Str}
    (h : parseEinsum s shapes = .ok (inp, out)) (hcomma : cComma ∉ out) (hfit : OperandsFit size (splitOn cComma inp) shapes) :
    WellPosed size (splitOn cComma inp) out shapes := by
  obtain ⟨h1, h2, h3, h4⟩ := parse_labels h
  refine ⟨hfit, splitOn_ne_nil _ _, h1, h4, h2, ?_⟩
  intro c hc
  have hm := h3 c hc
  rw [← join_splitOn cComma inp] at hm
  rcases mem_join _ _ _ hm with h | ⟨t, ht, h⟩
  · rw [List.mem_singleton] at h
    exact absurd (h ▸ hc) hcomma
  · exact ⟨t, ht, h⟩

/-- C01. For an equation accepted by the parser (explicit or implicit output, with or without ellipses; its terms are
`inp` split at commas) and operands that fit, with at most 52 different labels, and any complete path —
given, or found by any path finder that answers with complete paths — `contract` returns, without
raising, the Einstein summation of the operands. (`,` accepted as an output label by the parser is
excluded.) -/
theorem C01_contract (size : Nat → Nat) (eq : Str) (ops : List (Tensor R)) (inp out : Str)
    (hparse : parseEinsum eq (ops.map Tensor.shape) = .ok (inp, out)) (hcomma : cComma ∉ out)
    (hfit : OperandsFit size (splitOn cComma inp) (ops.map Tensor.shape))
    (hlab : (splitOn cComma inp).flatten.toFinset.card ≤ 52)
    (opt : Optimize) (mem : MemLimit) (hmem : ValidMemory mem)
    (hopt : ChoosesComplete opt size (splitOn cComma inp) out) (useBlas : Bool) :
    ∃ T, contract false eq ops opt mem useBlas = .ok T ∧ IsEinsum size (splitOn cComma inp) out ops T := by
  obtain ⟨info, h1, _, _, h2⟩ := C01_contract_terms size (splitOn cComma inp) out ops (wellPosed_of_parse hparse hcomma hfit) opt mem
    hmem hopt useBlas false
  have hc : contract false eq ops opt mem useBlas = coreContract false info.contractionList ops := by
    cases opt with
    | off => exact absurd hopt (by simp [ChoosesComplete])
    | path p => simp only [contract, bind, Except.bind]; rw [hparse]; simp only; rw [h1]
    | finder f => simp only [contract, bind, Except.bind]; rw [hparse]; simp only; rw [h1]
  rw [hc]
  rcases h2 with h2 | ⟨_, h2, _⟩ | ⟨_, _, _, h2⟩
  · exact h2
  · cases h2
  · omega

/-- If `contract`, asked to search a path, returns, then the output holds no comma. -/
theorem no_comma_of_contract {eq : Str} {ops : List (Tensor R)} {inp out : Str} {opt : Optimize} {mem : MemLimit} {useBlas noEinsum : Bool}
    {T : Tensor R} (hparse : parseEinsum eq (ops.map Tensor.shape) = .ok (inp, out)) (hoff : opt ≠ .off)
    (hT : contract noEinsum eq ops opt mem useBlas = .ok T) : cComma ∉ out := by
  have key : ∀ opt' : Optimize, (do
      let info ← contractPath (splitOn cComma inp) out (ops.map Tensor.shape) opt' mem useBlas
      coreContract noEinsum info.contractionList ops) = .ok T → cComma ∉ out := by
    intro opt' h
    cases hp : contractPath (splitOn cComma inp) out (ops.map Tensor.shape) opt' mem useBlas with
    | error e => rw [hp] at h; cases h
    | ok info => exact no_comma_of_path hp
  cases opt with
  | off => exact absurd rfl hoff
  | path p => simp only [contract, bind, Except.bind] at hT; rw [hparse] at hT; exact key _ hT
  | finder f => simp only [contract, bind, Except.bind] at hT; rw [hparse] at hT; exact key _ hT

/-- C01, every backend and any number of labels: whenever `contract` returns, it returns the Einstein summation. -/
theorem C01_contract_returns (size : Nat → Nat) (eq : Str) (ops : List (Tensor R)) (inp out : Str)
    (hparse : parseEinsum eq (ops.map Tensor.shape) = .ok (inp, out))
    (hfit : OperandsFit size (splitOn cComma inp) (ops.map Tensor.shape))
    (opt : Optimize) (mem : MemLimit) (hmem : ValidMemory mem)
    (hopt : ChoosesComplete opt size (splitOn cComma inp) out) (useBlas noEinsum : Bool) (T : Tensor R)
    (hT : contract noEinsum eq ops opt mem useBlas = .ok T) : IsEinsum size (splitOn cComma inp) out ops T := by
  have hcomma : cComma ∉ out := no_comma_of_contract hparse (by rintro rfl; simp [ChoosesComplete] at hopt) hT
  obtain ⟨info, h1, _, _, h2⟩ := C01_contract_terms size (splitOn cComma inp) out ops (wellPosed_of_parse hparse hcomma hfit) opt mem
    hmem hopt useBlas noEinsum
  have hc : contract noEinsum eq ops opt mem useBlas = coreContract noEinsum info.contractionList ops := by
    cases opt with
    | off => exact absurd hopt (by simp [ChoosesComplete])
    | path p => simp only [contract, bind, Except.bind]; rw [hparse]; simp only; rw [h1]
    | finder f => simp only [contract, bind, Except.bind]; rw [hparse]; simp only; rw [h1]
  rw [hc] at hT
  rcases h2 with ⟨T', h2, h3⟩ | ⟨h2, _⟩ | ⟨h2, _⟩
  · rw [h2] at hT; cases hT; exact h3
  · rw [h2] at hT; cases hT
  · rw [h2] at hT; cases hT

/-- Two arrays are equal: same shape, same entry at every index inside the shape. -/
def SameArray (S T : Tensor R) : Prop :=
  S.shape = T.shape ∧ ∀ coords : List Nat, coords.length = S.shape.length →
    (∀ (i d x : Nat), S.shape[i]? = some d → coords[i]? = some x → x < d) → S.val coords = T.val coords

theorem isEinsum_unique {size : Nat → Nat} {inputs : List Str} {output : Str} {ops : List (Tensor R)} {S T : Tensor R}
    (hS : IsEinsum size inputs output ops S) (hT : IsEinsum size inputs output ops T) : SameArray S T := by
  refine ⟨by rw [hS.1, hT.1], ?_⟩
  intro coords hl hr
  have hl' : coords.length = output.length := by rw [hl, hS.1, List.length_map]
  have hr' : ∀ (i : Nat) (c x : Nat), output[i]? = some c → coords[i]? = some x → x < size c := by
    intro i c x h1 h2
    apply hr i (size c) x _ h2
    rw [hS.1, List.getElem?_map, h1]; rfl
  rw [hS.2 coords hl' hr', hT.2 coords hl' hr']

/-- C02. Two calls that differ in the path, in `use_blas`, in `memory_limit` or in the availability of `einsum` return
the same array whenever both return. -/
theorem C02_path_independent (size : Nat → Nat) (eq : Str) (ops : List (Tensor R)) (inp out : Str)
    (hparse : parseEinsum eq (ops.map Tensor.shape) = .ok (inp, out))
    (hfit : OperandsFit size (splitOn cComma inp) (ops.map Tensor.shape))
    (opt₁ opt₂ : Optimize) (mem₁ mem₂ : MemLimit) (hmem₁ : ValidMemory mem₁) (hmem₂ : ValidMemory mem₂)
    (hopt₁ : ChoosesComplete opt₁ size (splitOn cComma inp) out) (hopt₂ : ChoosesComplete opt₂ size (splitOn cComma inp) out)
    (useBlas₁ useBlas₂ noEinsum₁ noEinsum₂ : Bool) (T₁ T₂ : Tensor R)
    (h₁ : contract noEinsum₁ eq ops opt₁ mem₁ useBlas₁ = .ok T₁) (h₂ : contract noEinsum₂ eq ops opt₂ mem₂ useBlas₂ = .ok T₂) :
    SameArray T₁ T₂ :=
  isEinsum_unique
    (C01_contract_returns size eq ops inp out hparse hfit opt₁ mem₁ hmem₁ hopt₁ useBlas₁ noEinsum₁ T₁ h₁)
    (C01_contract_returns size eq ops inp out hparse hfit opt₂ mem₂ hmem₂ hopt₂ useBlas₂ noEinsum₂ T₂ h₂)

/-! ## `optimize=False` -/

/-- An equation written without output is handed to `einsum` with the same meaning as with its implicit output. -/
theorem einsumCall_implicit {inputs : List Str} (hp : ∀ t ∈ inputs, ∀ c ∈ t, ¬ IsPunct c) (ops : List (Tensor R)) :
    einsumCall false (join [cComma] inputs) ops =
      einsumCall false (einsumStrOf inputs (findOutputStr (join [cComma] inputs))) ops := by
  set l := join [cComma] inputs with hl
  have hfree : ∀ c ∈ l, c ≠ cDash ∧ c ≠ cGt := by
    intro c hc
    rcases mem_join _ _ _ hc with h | ⟨t, ht, h⟩
    · rw [List.mem_singleton] at h; subst h; decide
    · exact ⟨fun e => hp t ht c h (by simp [IsPunct, e]), fun e => hp t ht c h (by simp [IsPunct, e])⟩
  have hg : cGt ∉ l := fun h => (hfree _ h).2 rfl
  have hd : cDash ∉ l := fun h => (hfree _ h).1 rfl
  have ho : ∀ c ∈ findOutputStr l, c ∈ l := by
    intro c hc
    have := ((mem_findOutputStr l c).mp hc).2
    apply List.count_pos_iff.mp
    omega
  have hog : cGt ∉ findOutputStr l := fun h => hg (ho _ h)
  have hv : hasValidEinsumCharsOnly (einsumStrOf inputs (findOutputStr l)) = hasValidEinsumCharsOnly l := by
    rw [Bool.eq_iff_iff]
    simp only [hasValidEinsumCharsOnly, List.all_eq_true, einsumStrOf, ← hl]
    constructor
    · intro h x hx; exact h x (by simp [hx])
    · intro h x hx
      simp only [List.append_assoc, List.mem_append, List.mem_cons, List.not_mem_nil, or_false] at hx
      rcases hx with hx | (rfl | rfl) | hx
      · exact h x hx
      · decide
      · decide
      · exact h x (ho x hx)
  have hc0 : countArrow l = 0 := countArrow_of_free l hg
  have hc1 : countArrow (einsumStrOf inputs (findOutputStr l)) ≠ 0 := by
    unfold einsumStrOf
    rw [← hl, List.append_assoc]
    have := countArrow_append l (findOutputStr l) hd
    simp only [List.cons_append, List.nil_append] at this ⊢
    omega
  unfold einsumCall
  simp only [Bool.false_eq_true, if_false, hv, hc0, if_true, hc1]
  by_cases hval : hasValidEinsumCharsOnly l = true
  · simp only [hval, if_true]
    have h1 : splitArrow (einsumStrOf inputs (findOutputStr l)) = [l, findOutputStr l] := splitArrow_two _ _ hd hog
    have hdot : cDot ∉ l := by
      intro hc
      rcases mem_join _ _ _ hc with h | ⟨t, ht, h⟩
      · simp at h
      · exact hp t ht _ h (by simp [IsPunct])
    rw [npEinsum_one hval (splitArrow_of_free l hg) hdot hd hg, npEinsum_two (hv.trans hval) h1 hdot hd hg (fun h => hdot (ho _ h))]
  · simp only [hval, Bool.false_eq_true, if_false]
    rfl

theorem valid_of_numpyChars {eq : Str} (h : ∀ c ∈ eq, (97 ≤ c ∧ c ≤ 122) ∨ (65 ≤ c ∧ c ≤ 90) ∨ IsPunct c) : hasValidEinsumCharsOnly eq = true := by
  unfold hasValidEinsumCharsOnly
  rw [List.all_eq_true]
  intro c hc
  unfold isValidEinsumChar einsumSymbolsBase
  simp only [List.mem_append, List.mem_map, List.mem_range, Bool.or_eq_true, decide_eq_true_eq, List.mem_cons, List.not_mem_nil, or_false]
  rcases h c hc with h | h | h
  · left; left; exact ⟨c - 97, by omega, by omega⟩
  · left; right; exact ⟨c - 65, by omega, by omega⟩
  · unfold IsPunct at h; right; omega

/-- The user's own equation reaches the backend with the meaning that the parser gives it. -/
theorem einsumCall_direct {eq inp out : Str} {ops : List (Tensor R)} (hread : NumpyReads eq (ops.map Tensor.shape))
    (hparse : parseEinsum eq (ops.map Tensor.shape) = .ok (inp, out)) (hcomma : cComma ∉ out)
    (hlab : cDot ∈ eq → ((splitOn cComma inp).flatten ++ out).toFinset.card ≤ 52) :
    einsumCall false eq ops = einsumCall false (einsumStrOf (splitOn cComma inp) out) ops := by
  obtain ⟨hspace, hell⟩ := hread
  have hlabs := parse_labels hparse
  by_cases hdot : cDot ∈ eq
  · obtain ⟨hch, hkeep⟩ := hell hdot
    have hv := valid_of_numpyChars hch
    have hpl : PlainTerms (splitOn cComma inp) out := by
      refine ⟨hlabs.2.2.2, ?_⟩
      intro c hc
      have hm := hlabs.2.2.1 c hc
      rw [← join_splitOn cComma inp] at hm
      rcases mem_join _ _ _ hm with h | ⟨t, ht, h⟩
      · rw [List.mem_singleton] at h
        exact absurd (h ▸ hc) hcomma
      · exact hlabs.2.2.2 t ht c h
    rw [einsumCall_eq (splitOn_ne_nil _ _) hpl, if_pos (hlab hdot), ← npEinsum_ellipsis hv hdot hparse hkeep]
    unfold einsumCall
    simp [hv]
  · have hwf := (C34_parse_einsum_input_iff eq (ops.map Tensor.shape) hdot inp out).mp hparse
    have hfil : eq.filter (· ≠ cSpace) = eq := by
      rw [List.filter_eq_self]
      intro a ha
      simp only [decide_eq_true_eq]
      exact fun e => hspace (e ▸ ha)
    rw [hfil] at hwf
    have harrow : S "->" = [cDash, cGt] := by decide
    have hj : join [cComma] (splitOn cComma inp) = inp := join_splitOn _ _
    cases hwf with
    | explicit _ _ hi hi' ho ho' nodup sub hn =>
      unfold einsumStrOf
      rw [hj, harrow]
    | implicit _ _ hi hi' inc once hn =>
      have hout : out = findOutputStr eq := by
        apply strict_ext inc (findOutputStr_strict _)
        intro c
        rw [mem_findOutputStr, once]
      have := einsumCall_implicit (inputs := splitOn cComma eq) hlabs.2.2.2 ops
      rw [join_splitOn] at this
      rw [this, hout]

/-- C01 for `optimize=False`: an equation, explicit or implicit, that numpy reads as the parser does (see `NumpyReads`) is evaluated to
the Einstein summation. -/
theorem C01_contract_no_optimize (size : Nat → Nat) (eq : Str) (ops : List (Tensor R)) (inp out : Str)
    (hread : NumpyReads eq (ops.map Tensor.shape))
    (hparse : parseEinsum eq (ops.map Tensor.shape) = .ok (inp, out)) (hcomma : cComma ∉ out)
    (hfit : OperandsFit size (splitOn cComma inp) (ops.map Tensor.shape))
    (hlab : (splitOn cComma inp).flatten.toFinset.card ≤ 52) (mem : MemLimit) (useBlas noEinsum : Bool) :
    ∃ T, contract noEinsum eq ops .off mem useBlas = .ok T ∧ IsEinsum size (splitOn cComma inp) out ops T := by
  have hw := wellPosed_of_parse hparse hcomma hfit
  have hstr : einsumCall false eq ops = einsumCall false (einsumStrOf (splitOn cComma inp) out) ops := by
    apply einsumCall_direct hread hparse hcomma
    intro _
    refine le_trans (Finset.card_le_card ?_) hlab
    intro c hc
    rw [List.mem_toFinset, List.mem_append] at hc
    rw [List.mem_toFinset]
    rcases hc with hc | hc
    · exact hc
    · obtain ⟨t, ht, h⟩ := hw.sub c hc
      exact List.mem_flatten.mpr ⟨t, ht, h⟩
  have hinv := inv_of_wellPosed hw
  have hlen : (splitOn cComma inp).length = ops.length := by simpa using hw.len
  have hloc : ∀ c, Occurs ((splitOn cComma inp).zip ops) c → localSize ((splitOn cComma inp).zip ops) c = size c := by
    intro c hc
    apply localSize_removed (Q := []) (output := out) _ hc
    · rintro ⟨p, hp, _⟩; simp at hp
    · rw [List.append_nil]; exact hinv
  have hfits : Fits (localSize ((splitOn cComma inp).zip ops)) ((splitOn cComma inp).zip ops) :=
    hinv.fits.sub (fun p hp => hp)
  have hne : (splitOn cComma inp).zip ops ≠ [] := by
    intro e
    have := congrArg List.length e
    have h0 := splitOn_length cComma inp
    rw [List.length_zip, List.length_nil] at this
    omega
  have hfst : ((splitOn cComma inp).zip ops).map Prod.fst = splitOn cComma inp := List.map_fst_zip (by omega)
  have hsnd : ((splitOn cComma inp).zip ops).map Prod.snd = ops := List.map_snd_zip (by omega)
  have hcall := einsumCall_contraction (size := size) hne hfits hw.nodup hinv.out (fun c hc _ => hloc c hc) hinv.punct
  rw [hfst, hsnd, ← hstr] at hcall
  simp only [contract]
  rcases hcall with ⟨T, h1, h2⟩ | ⟨_, h2⟩
  · refine ⟨T, h1, isEinsum_of_total hlen hw.nodup ⟨?_, h2.get⟩⟩
    rw [h2.shape]
    apply List.map_congr_left
    intro c hc
    exact hloc c (hinv.out c hc)
  · exfalso
    have := h2 (splitOn cComma inp).flatten.toFinset.toList (by
      intro c hc
      rw [Finset.mem_toList, List.mem_toFinset, List.mem_flatten]
      exact (occurs_zip hlen).mp hc)
    rw [Finset.length_toList] at this
    omega

/-- C02 for `optimize=False`: it gives the same array as any path. -/
theorem C02_no_optimize (size : Nat → Nat) (eq : Str) (ops : List (Tensor R)) (inp out : Str)
    (hread : NumpyReads eq (ops.map Tensor.shape))
    (hparse : parseEinsum eq (ops.map Tensor.shape) = .ok (inp, out)) (hcomma : cComma ∉ out)
    (hfit : OperandsFit size (splitOn cComma inp) (ops.map Tensor.shape))
    (hlab : (splitOn cComma inp).flatten.toFinset.card ≤ 52)
    (opt : Optimize) (mem mem' : MemLimit) (hmem : ValidMemory mem)
    (hopt : ChoosesComplete opt size (splitOn cComma inp) out) (useBlas useBlas' noEinsum : Bool) :
    ∃ T T', contract false eq ops opt mem useBlas = .ok T ∧ contract noEinsum eq ops .off mem' useBlas' = .ok T' ∧ SameArray T T' := by
  obtain ⟨T, h1, h2⟩ := C01_contract size eq ops inp out hparse hcomma hfit hlab opt mem hmem hopt useBlas
  obtain ⟨T', h3, h4⟩ := C01_contract_no_optimize size eq ops inp out hread hparse hcomma hfit hlab mem' useBlas' noEinsum
  exact ⟨T, T', h1, h3, isEinsum_unique h2 h4⟩

/-! ## Concrete cases -/

/-- A way to establish `OperandsFit` for concrete operands. -/
theorem operandsFit_of_list {size : Nat → Nat} {inputs : List Str} {shapes : List Shape}
    (h1 : ∀ p ∈ inputs.zip shapes, p.2.length = p.1.length)
    (h2 : ∀ p ∈ inputs.zip shapes, ∀ q ∈ p.1.zip p.2, ∀ q' ∈ p.1.zip p.2, q.1 = q'.1 → q.2 = q'.2)
    (h3 : ∀ c ∈ inputs.flatten, ∃ p ∈ inputs.zip shapes, (c, size c) ∈ p.1.zip p.2)
    (h4 : ∀ p ∈ inputs.zip shapes, ∀ q ∈ p.1.zip p.2, q.2 = 1 ∨ q.2 = size q.1)
    (h5 : ∀ p ∈ inputs.zip shapes, ∀ q ∈ p.1.zip p.2, ∀ p' ∈ inputs.zip shapes, ∀ q' ∈ p'.1.zip p'.2,
      q.1 = q'.1 → ¬ (q.2 = 0 ∧ q'.2 = 1)) : OperandsFit size inputs shapes := by
  have hd : ∀ c d, DimOccurs inputs shapes c d ↔ ∃ p ∈ inputs.zip shapes, (c, d) ∈ p.1.zip p.2 := by
    intro c d
    constructor
    · rintro ⟨i, j, t, s, g1, g2, g3, g4⟩
      exact ⟨(t, s), mem_zip_get.mpr ⟨i, g1, g2⟩, mem_zip_get.mpr ⟨j, g3, g4⟩⟩
    · rintro ⟨p, hp, hq⟩
      obtain ⟨i, g1, g2⟩ := mem_zip_get.mp hp
      obtain ⟨j, g3, g4⟩ := mem_zip_get.mp hq
      exact ⟨i, j, p.1, p.2, g1, g2, g3, g4⟩
  refine ⟨?_, ?_, ?_, ?_⟩
  · intro i t s g1 g2
    exact h1 (t, s) (mem_zip_get.mpr ⟨i, g1, g2⟩)
  · intro t ht c hc
    refine ⟨(hd _ _).mpr (h3 c (List.mem_flatten.mpr ⟨t, ht, hc⟩)), ?_⟩
    intro d hdd
    obtain ⟨p, hp, hq⟩ := (hd _ _).mp hdd
    exact h4 p hp _ hq
  · intro i j k t s c d d' g1 g2 g3 g4 g5 g6
    exact h2 (t, s) (mem_zip_get.mpr ⟨i, g1, g2⟩) (c, d) (mem_zip_get.mpr ⟨j, g3, g5⟩) (c, d') (mem_zip_get.mpr ⟨k, g4, g6⟩) rfl
  · rintro c ⟨g1, g2⟩
    obtain ⟨p, hp, hq⟩ := (hd _ _).mp g1
    obtain ⟨p', hp', hq'⟩ := (hd _ _).mp g2
    exact h5 p hp _ hq p' hp' _ hq' rfl ⟨rfl, rfl⟩

/-- An array filled with ones. -/
def ones (shape : Shape) : Tensor ℕ := ⟨shape, fun _ => 1⟩

/-- Four operands with a repeated label, a broadcast axis, an ellipsis and an implicit output, contracted along a
path with a three-operand step: the hypotheses of `C01_contract` hold. -/
example : ∃ T, contract false (S "...c,bb, dc,->d...") [ones [2, 3, 4], ones [3, 3], ones [5, 1], ones []]
      (.path [[0, 2], [2, 0, 1]]) .maxInput true = .ok T ∧
    IsEinsum (fun c => if c = 98 then 3 else if c = 99 then 4 else if c = 100 then 5 else if c = 102 then 3 else 2)
      (splitOn cComma (S "efc,bb,dc,")) (S "def") [ones [2, 3, 4], ones [3, 3], ones [5, 1], ones []] T := by
  apply C01_contract
  · decide +kernel
  · decide +kernel
  · apply operandsFit_of_list <;> decide +kernel
  · decide +kernel
  · trivial
  · simp only [ChoosesComplete, CompletePath, ValidStep]; decide +kernel

/-- Zero-length axes are fine as long as they do not meet axes of length 1. -/
example : ∃ T, contract false (S "ab,bc,cd") [ones [2, 0], ones [0, 4], ones [4, 2]]
      (.path [[1, 0], [0, 1]]) (.num (3/2)) false = .ok T ∧
    IsEinsum (fun c => if c = 98 then 0 else if c = 99 then 4 else 2)
      (splitOn cComma (S "ab,bc,cd")) (S "ad") [ones [2, 0], ones [0, 4], ones [4, 2]] T := by
  apply C01_contract
  · decide +kernel
  · decide +kernel
  · apply operandsFit_of_list <;> decide +kernel
  · decide +kernel
  · right; norm_num
  · simp only [ChoosesComplete, CompletePath, ValidStep]; decide +kernel

/-- `optimize=False` on an equation with a label outside `[a-zA-Z]` and an implicit output. -/
example : ∃ T, contract false [97, 955, 44, 955, 99] [ones [2, 3], ones [3, 4]] .off .none true = .ok T ∧
    IsEinsum (fun c => if c = 97 then 2 else if c = 99 then 4 else 3)
      (splitOn cComma [97, 955, 44, 955, 99]) (S "ac") [ones [2, 3], ones [3, 4]] T := by
  apply C01_contract_no_optimize
  · exact ⟨by decide, fun h => absurd h (by decide)⟩
  · decide +kernel
  · decide +kernel
  · apply operandsFit_of_list <;> decide +kernel
  · decide +kernel

/-- C52, a fault of the code: with `optimize=False` a space in the equation is renamed like a label, and a contraction
that every other setting evaluates raises `ValueError`. -/
theorem C52_optimize_false_space :
    ∃ (eq : Str) (ops : List (Tensor ℕ)), contract false eq ops .off .none true = .error .value ∧
      ∃ T, contract false eq ops (.path [[0, 1]]) .none true = .ok T := by
  refine ⟨S "ab, bc->ac", [ones [2, 3], ones [3, 4]], ?_, ?_⟩
  · rfl
  · obtain ⟨T, h, _⟩ := C01_contract (R := ℕ) (fun c => if c = 97 then 2 else if c = 98 then 3 else 4) (S "ab, bc->ac")
      [ones [2, 3], ones [3, 4]] (S "ab,bc") (S "ac") (by decide +kernel) (by decide +kernel)
      (by apply operandsFit_of_list <;> decide +kernel) (by decide +kernel) (.path [[0, 1]]) .none trivial
      (by simp only [ChoosesComplete, CompletePath, ValidStep]; decide +kernel) true
    exact ⟨T, h⟩

/-- The arrow of an equation determines its sides. -/
theorem arrow_unique {l r l' r' : Str} (h1 : cDash ∉ l) (h2 : cDash ∉ r) (h : l ++ S "->" ++ r = l' ++ S "->" ++ r') : l = l' ∧ r = r' := by
  have harrow : S "->" = [cDash, cGt] := by decide
  rw [harrow, List.append_assoc, List.append_assoc, List.append_eq_append_iff] at h
  rcases h with ⟨a, h3, h4⟩ | ⟨a, h3, h4⟩
  · cases a with
    | nil => simp at h3 h4; exact ⟨h3.symm, h4⟩
    | cons x a =>
      exfalso
      simp only [List.cons_append, List.nil_append, List.cons.injEq] at h4
      cases a with
      | nil => simp at h4
      | cons y a =>
        simp only [List.cons_append, List.cons.injEq] at h4
        exact h2 (by rw [h4.2.2]; simp)
  · cases a with
    | nil => simp at h3 h4; exact ⟨h3, h4.symm⟩
    | cons x a =>
      exfalso
      simp only [List.cons_append, List.nil_append, List.cons.injEq] at h4
      exact h1 (by rw [h3, ← h4.1]; simp)

/-- `optimize=False` on an equation with ellipses: the batched product of matrices, the second batch broadcast. -/
example : ∃ T, contract false (S "...ab,...bc->...ac") [ones [5, 6, 2, 3], ones [6, 3, 4]] .off .none true = .ok T ∧
    IsEinsum (fun c => if c = 97 then 2 else if c = 98 then 3 else if c = 99 then 4 else if c = 102 then 5 else 6)
      (splitOn cComma (S "fgab,gbc")) (S "fgac") [ones [5, 6, 2, 3], ones [6, 3, 4]] T := by
  apply C01_contract_no_optimize
  · refine ⟨by decide, fun _ => ⟨by simp only [IsPunct]; decide, ?_⟩⟩
    intro lhs rhs h
    have h' : S "...ab,...bc" ++ S "->" ++ S "...ac" = lhs ++ S "->" ++ rhs := by rw [← h]; decide
    obtain ⟨_, rfl⟩ := arrow_unique (by decide) (by decide) h'
    exact Or.inl ⟨[], S "ac", by decide, by decide, by decide⟩
  · decide +kernel
  · decide +kernel
  · apply operandsFit_of_list <;> decide +kernel
  · decide +kernel

/-- C52, a fault of the code: an ellipsis left out of an explicit output is summed over, but with `optimize=False` it is a `ValueError`
(`contract('...a->a', x)` with a matrix `x`). -/
theorem C52_ellipsis_summed :
    ∃ (eq : Str) (ops : List (Tensor ℕ)), contract false eq ops .off .none true = .error .value ∧
      (contract false eq ops (.path [[0]]) .none true).map (fun T => (T.shape, T.val [0])) = .ok ([3], 2) := by
  refine ⟨S "...a->a", [ones [2, 3]], ?_, ?_⟩
  · rfl
  · decide +kernel

/-- C52, a fault of the code: with a label outside `[a-zA-Z]`, `optimize=False` turns the dots of an ellipsis into a repeated label:
`contract('...é', x)` returns `x` of shape (2, 2, 2, 3) as it is, but with `optimize=False` its diagonal, summed. -/
theorem C52_ellipsis_letters :
    ∃ (eq : Str) (ops : List (Tensor ℕ)),
      (contract false eq ops .off .none true).map (fun T => (T.shape, T.val [0])) = .ok ([3], 2) ∧
      (contract false eq ops (.path [[0]]) .none true).map (fun T => (T.shape, T.val [0, 0, 0, 0])) = .ok ([2, 2, 2, 3], 1) := by
  refine ⟨[46, 46, 46, 233], [ones [2, 2, 2, 3]], ?_, ?_⟩
  · decide +kernel
  · decide +kernel

/-- C51, a fault of the code: when a zero-length axis meets an axis of length 1 under the same label, `contract_path`
predicts an intermediate of length 1, so the second step is flagged for `tensordot`, which refuses the
operands; on the other path the contraction succeeds. -/
theorem C51_zero_broadcast :
    ∃ (eq : Str) (ops : List (Tensor ℕ)), contract false eq ops (.path [[0, 1], [0, 1]]) .none true = .error .value ∧
      (contract false eq ops (.path [[0, 1, 2]]) .none true).toOption.isSome = true := by
  refine ⟨S "a,a,a->", [ones [0], ones [1], ones [1]], ?_, ?_⟩
  · rfl
  · rfl

end OE.Props
