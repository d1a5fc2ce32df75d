import Verif.Lemmas.IntPath
import Verif.Props.Contract2

/-! # C65: explicit paths of any integers -/

namespace OE.Contract
open OE OE.Py OE.Parser OE.Helpers OE.Blas OE.Spec OE.Props

/-- Planning a well-posed contraction succeeds up to the path loop. -/
theorem contractPathInt_eq {size : Nat → Nat} {inputs : List Str} {output : Str} {shapes : List Shape}
    (h : WellPosed size inputs output shapes) {mem : MemLimit} (hmem : ValidMemory mem) (path : List (List Int)) (useBlas : Bool) :
    ∃ (d : Dict Nat Nat), (∀ c, (∃ t ∈ inputs, c ∈ t) → d.get? c = some (size c)) ∧
      ∀ st outs, pathLoopInt useBlas output d { inputs, sets := inputs.map List.toFinset, shapes } path = .ok (st, outs) →
        ∃ info, contractPathInt inputs output shapes path mem useBlas = .ok info ∧
          info.contractionList = outs.map (fun o => (o.1, o.2.step)) := by
  obtain ⟨d, hd1, hd2⟩ := sizeLoop_wellPosed h
  have hsome : ∀ c, (∃ t ∈ inputs, c ∈ t) → (d.get? c).isSome := fun c hc => by rw [hd2 c hc]; rfl
  have hsz : (inputs ++ [output]).mapM (fun t => computeSizeByDict t d) =
      .ok ((inputs ++ [output]).map (fun t => (t.map (dsize d)).prod)) := by
    apply mapM_ok
    intro t ht
    apply computeSize_ok
    intro c hc
    rw [List.mem_append, List.mem_singleton] at ht
    rcases ht with ht | rfl
    · exact hsome c ⟨t, ht, hc⟩
    · exact hsome c (h.sub c hc)
  obtain ⟨m, hm⟩ := chooseMemoryArg_ok hmem (sizes := (inputs ++ [output]).map (fun t => (t.map (dsize d)).prod)) (by simp)
  have hflop : ∀ inner : Bool, flopCount (enum inputs.flatten inputs.flatten.toFinset) inner inputs.length d =
      .ok ((∏ c ∈ inputs.flatten.toFinset, dsize d c) * opFactor inner inputs.length) := by
    intro inner
    apply flopCount_enum
    · intro c hc; exact List.mem_toFinset.mp hc
    · intro c hc
      apply hsome
      rw [List.mem_toFinset, List.mem_flatten] at hc
      exact hc
  refine ⟨d, hd2, ?_⟩
  intro st outs hl
  unfold contractPathInt
  simp only [bind, Except.bind]
  rw [hd1]
  simp only
  rw [hsz]
  simp only
  rw [hm]
  simp only
  rw [hflop]
  simp only
  rw [hl]
  exact ⟨_, rfl, rfl⟩

/-! ### Non-negative integers -/

theorem popAllInt_cast {α : Type} (xs : List Nat) (l : List α) : popAllInt (xs.map Int.ofNat) l = popAll xs l := by
  induction xs generalizing l with
  | nil => rfl
  | cons x xs ih =>
    simp only [List.map_cons, popAllInt, popAll]
    have : popInt l (Int.ofNat x) = pop l x := by unfold popInt; simp
    rw [this]
    cases pop l x with
    | error e => rfl
    | ok r => simp only [bind, Except.bind, ih]

theorem sortedDescInt_cast (p : List Nat) : sortedDescInt (p.map Int.ofNat) = (sortedDesc p).map Int.ofNat := by
  refine ((sortedDescInt_perm _).trans ((sortedDesc_perm p).symm.map _)).eq_of_pairwise (le := (· ≥ ·))
    (fun _ _ _ _ h1 h2 => le_antisymm h2 h1) (sortedDescInt_pairwise _) ?_
  rw [List.pairwise_map]
  exact (sortedDesc_pairwise p).imp (fun h => Int.ofNat_le.mpr h)

theorem findContractionInt_cast (p : List Nat) (sets : List (Finset Nat)) (out : Finset Nat) :
    findContractionInt (p.map Int.ofNat) sets out = findContraction p sets out := by
  unfold findContractionInt findContraction
  rw [sortedDescInt_cast, popAllInt_cast]
  cases popAll (sortedDesc p) sets with
  | error e => rfl
  | ok r => cases h : r.1 <;> simp only [bind, Except.bind, h]

/-- A recorded step with its positions taken out. -/
def toIntStep (s : Step) : List Int × Step := (s.inds.map Int.ofNat, { s with inds := [] })

def toIntOut (o : StepOut) : List Int × StepOut := (o.step.inds.map Int.ofNat, { o with step := { o.step with inds := [] } })

theorem pathStepInt_cast (ub : Bool) (output : Str) (d : Dict Nat Nat) (st : PathState) (p : List Nat) (isLast : Bool) :
    pathStepInt ub output d st (p.map Int.ofNat) isLast = (pathStep ub output d st p isLast).map (fun r => (r.1, toIntOut r.2)) := by
  unfold pathStepInt pathStep
  simp only [sortedDescInt_cast, findContractionInt_cast, popAllInt_cast, List.length_map, bind, Except.bind]
  cases findContraction (sortedDesc p) st.sets output.toFinset with
  | error e => rfl
  | ok c =>
    simp only
    cases popAll (sortedDesc p) st.inputs with
    | error e => rfl
    | ok r1 =>
      simp only
      cases popAll (sortedDesc p) st.shapes with
      | error e => rfl
      | ok r2 =>
        simp only
        cases flopCount (enum r1.1.flatten c.idxContract) (decide (c.idxRemoved ≠ ∅)) (sortedDesc p).length d with
        | error e => rfl
        | ok cost =>
          simp only
          cases computeSizeByDict (enum r1.1.flatten c.newResult) d with
          | error e => rfl
          | ok size =>
            simp only
            cases findOutputShape r1.1 r2.1 (if isLast then output else tensordotOrder r1.1.flatten c.newResult) with
            | error e => rfl
            | ok shp => rfl

theorem pathLoopInt_cast (ub : Bool) (output : Str) (d : Dict Nat Nat) (path : List (List Nat)) (st : PathState) :
    pathLoopInt ub output d st (path.map (List.map Int.ofNat)) = (pathLoop ub output d st path).map (fun r => (r.1, r.2.map toIntOut)) := by
  induction path generalizing st with
  | nil => rfl
  | cons p ps ih =>
    simp only [List.map_cons, pathLoopInt, pathLoop, pathStepInt_cast]
    have : (ps.map (List.map Int.ofNat)).isEmpty = ps.isEmpty := by cases ps <;> rfl
    rw [this]
    cases pathStep ub output d st p ps.isEmpty with
    | error e => rfl
    | ok r =>
      simp only [Except.map, bind, Except.bind]
      rw [ih]
      cases pathLoop ub output d r.1 ps <;> rfl

variable {R : Type} [CommSemiring R]

theorem stepResult_inds (ne : Bool) (s : Step) (xs : List Nat) (tmp : List (Tensor R)) :
    stepResult ne { s with inds := xs } tmp = stepResult ne s tmp := rfl

theorem coreLoopInt_cast (ne : Bool) (steps : List Step) (ops : List (Tensor R)) :
    coreLoopInt ne (steps.map toIntStep) ops = coreLoop ne steps ops := by
  induction steps generalizing ops with
  | nil => rfl
  | cons s ss ih =>
    simp only [List.map_cons, coreLoopInt, coreLoop, toIntStep, popAllInt_cast]
    cases popAll s.inds ops with
    | error e => rfl
    | ok r =>
      simp only [bind, Except.bind, stepResult_inds]
      cases stepResult ne s r.1 with
      | error e => rfl
      | ok T => exact ih _

theorem contractPathInt_cast (inputs : List Str) (output : Str) (shapes : List Shape) (path : List (List Nat)) (mem : MemLimit) (ub : Bool) :
    contractPathInt inputs output shapes (path.map (List.map Int.ofNat)) mem ub =
      (contractPath inputs output shapes (.path path) mem ub).map fun i =>
        { contractionList := i.contractionList.map toIntStep, path := i.path.map (List.map Int.ofNat), scaleList := i.scaleList,
          naiveCost := i.naiveCost, optCost := i.optCost, sizeList := i.sizeList } := by
  unfold contractPathInt contractPath
  simp only [bind, Except.bind, choosePath]
  cases sizeLoop [] inputs shapes with
  | error e => rfl
  | ok d =>
    simp only
    cases (inputs ++ [output]).mapM (fun t => computeSizeByDict t d) with
    | error e => rfl
    | ok sl =>
      simp only
      cases chooseMemoryArg mem sl with
      | error e => rfl
      | ok m =>
        simp only
        cases flopCount (enum inputs.flatten inputs.flatten.toFinset) _ inputs.length d with
        | error e => rfl
        | ok nv =>
          simp only
          rw [pathLoopInt_cast]
          cases pathLoop ub output d { inputs, sets := inputs.map List.toFinset, shapes } path with
          | error e => rfl
          | ok r =>
            simp only [Except.map, List.map_map]
            rfl

end OE.Contract

namespace OE.Props
open OE OE.Py OE.Parser OE.Contract OE.Helpers OE.Spec
variable {R : Type} [CommSemiring R]

/-- Planning and execution on parsed terms. -/
theorem C65_terms (size : Nat → Nat) (inputs : List Str) (output : Str) (ops : List (Tensor R))
    (h : WellPosed size inputs output (ops.map Tensor.shape)) (path : List (List Int)) (mem : MemLimit) (hmem : ValidMemory mem)
    (hpath : CompleteInts inputs.length path) (useBlas noEinsum : Bool) :
    ∃ info, contractPathInt inputs output (ops.map Tensor.shape) path mem useBlas = .ok info ∧
      ((∃ T, coreContractInt noEinsum info.contractionList ops = .ok T ∧ IsEinsum size inputs output ops T) ∨
       (coreContractInt noEinsum info.contractionList ops = .error .attribute ∧ noEinsum = true ∧
          ∃ s ∈ info.contractionList, s.2.blas = .no) ∨
       (coreContractInt noEinsum info.contractionList ops = .error .value ∧ noEinsum = false ∧ 52 < inputs.flatten.toFinset.card)) := by
  obtain ⟨d, hd, hinfo⟩ := contractPathInt_eq h hmem path useBlas
  have hlen : inputs.length = ops.length := by simpa using h.len
  have hinv := inv_of_wellPosed h
  have hzl : (inputs.zip ops).length = inputs.length := by rw [List.length_zip]; omega
  have hst : stateOf (inputs.zip ops) = { inputs, sets := inputs.map List.toFinset, shapes := ops.map Tensor.shape } := by
    unfold stateOf
    rw [List.map_fst_zip (by omega), List.map_snd_zip (by omega)]
  obtain ⟨st, outs, hl, ho⟩ := pathLoopInt_coreLoopInt (d := d) h.nodup useBlas noEinsum path (inputs.zip ops) hinv
    (fun c hc => by rw [hd c ((occurs_zip hlen).mp hc)]; rfl) (by rw [hzl]; exact hpath)
  rw [hst] at hl
  rw [List.map_snd_zip (by omega)] at ho
  obtain ⟨info, hi1, hi2⟩ := hinfo st outs hl
  refine ⟨info, hi1, ?_⟩
  rw [hi2]
  simp only [coreContractInt, bind, Except.bind]
  rcases ho with ⟨T, h1, h2⟩ | ⟨h1, h2, o, ho, h3⟩ | ⟨h1, h2, h4⟩
  · left
    exact ⟨T, by rw [h1], isEinsum_of_total hlen h.nodup h2⟩
  · right; left
    exact ⟨by rw [h1], h2, _, List.mem_map.mpr ⟨o, ho, rfl⟩, h3⟩
  · right; right
    refine ⟨by rw [h1], h2, ?_⟩
    have := h4 inputs.flatten.toFinset.toList (by
      intro c hc
      rw [Finset.mem_toList, List.mem_toFinset, List.mem_flatten]
      exact (occurs_zip hlen).mp hc)
    rwa [Finset.length_toList] at this

/-- **C65.** With an explicit path of any integers — negative ones, in any order — that takes operands within range and leaves one,
`contract` returns the Einstein summation of the operands. -/
theorem C65_any_integers (size : Nat → Nat) (eq : Str) (ops : List (Tensor R)) (inp out : Str)
    (hparse : parseEinsum eq (ops.map Tensor.shape) = .ok (inp, out)) (hcomma : cComma ∉ out)
    (hfit : OperandsFit size (splitOn cComma inp) (ops.map Tensor.shape))
    (hlab : (splitOn cComma inp).flatten.toFinset.card ≤ 52) (path : List (List Int)) (hpath : CompleteInts ops.length path)
    (mem : MemLimit) (hmem : ValidMemory mem) (useBlas : Bool) :
    ∃ T, contractInt false eq ops path mem useBlas = .ok T ∧ IsEinsum size (splitOn cComma inp) out ops T := by
  have hw := wellPosed_of_parse hparse hcomma hfit
  have hlen : (splitOn cComma inp).length = ops.length := by simpa using hw.len
  obtain ⟨info, h1, h2⟩ := C65_terms size (splitOn cComma inp) out ops hw path mem hmem (by rw [hlen]; exact hpath) useBlas false
  have hc : contractInt false eq ops path mem useBlas = coreContractInt false info.contractionList ops := by
    simp only [contractInt, bind, Except.bind]
    rw [hparse]
    simp only
    rw [h1]
  rw [hc]
  rcases h2 with h2 | ⟨_, h2, _⟩ | ⟨_, _, h2⟩
  · exact h2
  · cases h2
  · omega

/-- **C65**, refusal: if `contract_path` accepts the path then every step names at least one operand and every position is in range when
its turn comes; so whatever `contract` returns comes from such a path. -/
theorem C65_refused (inputs : List Str) (output : Str) (shapes : List Shape) (path : List (List Int)) (mem : MemLimit) (useBlas : Bool)
    (info : PathInfoInt) (h : contractPathInt inputs output shapes path mem useBlas = .ok info) :
    PathOfInts inputs.length path ∧ info.path = path := by
  unfold contractPathInt at h
  simp only [bind, Except.bind] at h
  cases h1 : sizeLoop [] inputs shapes with
  | error e => rw [h1] at h; cases h
  | ok d =>
    rw [h1] at h
    simp only at h
    cases h2 : (inputs ++ [output]).mapM (fun t => computeSizeByDict t d) with
    | error e => rw [h2] at h; cases h
    | ok sl =>
      rw [h2] at h
      simp only at h
      cases h3 : chooseMemoryArg mem sl with
      | error e => rw [h3] at h; cases h
      | ok m =>
        rw [h3] at h
        simp only at h
        split at h
        · cases h
        · cases h5 : pathLoopInt useBlas output d { inputs, sets := inputs.map List.toFinset, shapes } path with
          | error e => rw [h5] at h; cases h
          | ok r =>
            rw [h5] at h
            cases h
            have := pathLoopInt_valid path (show pathLoopInt useBlas output d _ path = .ok (r.1, r.2) from h5)
            exact ⟨by simpa using this, rfl⟩

/-- Paths of non-negative integers are those of C01-C10. -/
theorem C65_non_negative (noEinsum : Bool) (eq : Str) (ops : List (Tensor R)) (path : List (List Nat)) (mem : MemLimit) (useBlas : Bool) :
    contractInt noEinsum eq ops (path.map (List.map Int.ofNat)) mem useBlas = contract noEinsum eq ops (.path path) mem useBlas := by
  simp only [contractInt, contract, bind, Except.bind, contractPathInt_cast]
  cases parseEinsum eq (ops.map Tensor.shape) with
  | error e => rfl
  | ok io =>
    simp only
    cases contractPath (splitOn cComma io.1) io.2 (ops.map Tensor.shape) (.path path) mem useBlas with
    | error e => rfl
    | ok info =>
      simp only [Except.map, coreContractInt, coreContract, coreLoopInt_cast]
      cases coreLoop noEinsum info.contractionList ops with
      | error e => rfl
      | ok l => cases l <;> rfl

/-- The hypotheses are met by a path with negative positions. -/
example : ∃ T, contractInt false (S "ab,bc,cd,de->ae") [ones [2, 3], ones [3, 4], ones [4, 5], ones [5, 2]]
      [[-1, -1], [0, -1], [-1, -1]] .maxInput true = .ok T ∧
    IsEinsum (fun c => if c = 98 then 3 else if c = 99 then 4 else if c = 100 then 5 else 2)
      (splitOn cComma (S "ab,bc,cd,de")) (S "ae") [ones [2, 3], ones [3, 4], ones [4, 5], ones [5, 2]] T := by
  apply C65_any_integers
  · decide +kernel
  · decide +kernel
  · apply operandsFit_of_list <;> decide +kernel
  · decide +kernel
  · refine ⟨by simp, ?_, rfl⟩
    simp only [PathOfInts, stepOfInts_iff]
    refine ⟨⟨by simp, popAllInt_ok_iff (α := Nat) (l := [0, 1, 2, 3]).mp ⟨[3, 2], [0, 1], rfl⟩⟩,
      ⟨by simp, popAllInt_ok_iff (α := Nat) (l := [0, 1, 2]).mp ⟨[0, 2], [1], rfl⟩⟩,
      ⟨by simp, popAllInt_ok_iff (α := Nat) (l := [0, 1]).mp ⟨[1, 0], [], rfl⟩⟩, trivial⟩
  · trivial

/-- Three times the same array of length 1. -/
def threeTwos : List (Tensor ℕ) := List.replicate 3 { shape := [1], val := fun _ => 2 }

/-- A path that leaves more than one operand is not refused: `contract` returns the first of those left, here the first argument instead of
the product of the three. -/
theorem C65_unfinished_counterexample :
    PathOfInts threeTwos.length [[1, 2]] ∧ leftBy threeTwos.length [[1, 2]] = 2 ∧
      (contractInt false (S "a,a,a->a") threeTwos [[1, 2]] .none true).map (fun T => (T.shape, T.val [0])) = .ok ([1], 2) ∧
      (contractInt false (S "a,a,a->a") threeTwos [[0, 1, 2]] .none true).map (fun T => (T.shape, T.val [0])) = .ok ([1], 8) := by
  refine ⟨?_, rfl, by decide +kernel, by decide +kernel⟩
  simp only [PathOfInts, stepOfInts_iff]
  exact ⟨⟨by simp, popAllInt_ok_iff (α := Nat) (l := [0, 1, 2]).mp ⟨[2, 1], [0], rfl⟩⟩, trivial⟩

/-- Two negative positions do not count from the same end: `(-1, -2)` on three operands contracts the last with the first. -/
theorem C65_negative_pair : popAllInt (sortedDescInt [-2, -1]) [0, 1, 2] = .ok ([2, 0], [1]) ∧ ¬ StepOfInts 2 [-2, -1] := by
  refine ⟨rfl, ?_⟩
  rw [stepOfInts_iff]
  rintro ⟨-, h⟩
  have := h 1 (-2) rfl
  omega

end OE.Props
