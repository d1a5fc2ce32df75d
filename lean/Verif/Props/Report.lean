import Verif.Lemmas.Report
import Verif.Props.Contract3

/-!
# C67: what `contract_path` reports can be fed back
-/

namespace OE.Props
open OE OE.Py OE.Spec OE.Parser OE.Contract OE.Helpers

/-- The equation written out from a parsed one is parsed as the same. -/
theorem parse_again {s inp out : Str} {shapes shapes' : List Shape} (h : parseEinsum s shapes = .ok (inp, out))
    (hl : shapes'.length = shapes.length) : parseEinsum (inp ++ [cDash, cGt] ++ out) shapes' = .ok (inp, out) := by
  obtain ⟨h1, h2, h3, _⟩ := parse_labels h
  have hgood := parse_good h
  have hin : ∀ c ∈ inp, c = cComma ∨ GoodLabel c := by
    intro c hc
    rw [← join_splitOn cComma inp] at hc
    rcases mem_join _ _ _ hc with h | ⟨t, ht, h⟩
    · left; simpa using h
    · right; exact hgood t ht c h
  have hout : ∀ c ∈ out, c = cComma ∨ GoodLabel c := fun c hc => hin c (h3 c hc)
  have hno : ∀ {c : Nat}, (c = cComma ∨ GoodLabel c) → c ≠ cDash ∧ c ≠ cGt ∧ c ≠ cDot ∧ c ≠ cSpace := by
    rintro c (rfl | hg)
    · decide
    · refine ⟨?_, ?_, ?_, hg.2⟩ <;> rintro rfl <;> exact hg.1 (by simp [IsPunct])
  have harrow : S "->" = [cDash, cGt] := by decide
  rw [C34_parse_einsum_input_iff]
  · have hf : (inp ++ [cDash, cGt] ++ out).filter (· ≠ cSpace) = inp ++ S "->" ++ out := by
      rw [harrow, List.filter_eq_self]
      intro c hc
      simp only [List.mem_append, List.mem_cons, List.not_mem_nil, or_false] at hc
      simp only [ne_eq, decide_not, Bool.not_eq_eq_eq_not, Bool.not_true, decide_eq_false_iff_not]
      rcases hc with (hc | rfl | rfl) | hc
      · exact (hno (hin c hc)).2.2.2
      · decide
      · decide
      · exact (hno (hout c hc)).2.2.2
    rw [hf]
    exact .explicit inp out (fun hc => (hno (hin _ hc)).1 rfl) (fun hc => (hno (hin _ hc)).2.1 rfl) (fun hc => (hno (hout _ hc)).1 rfl)
      (fun hc => (hno (hout _ hc)).2.1 rfl) h2 h3 (by rw [hl, ← h1, splitOn_length])
  · intro hc
    simp only [List.mem_append, List.mem_cons, List.not_mem_nil, or_false] at hc
    rcases hc with (hc | hc | hc) | hc
    · exact (hno (hin _ hc)).2.2.1 rfl
    · revert hc; decide
    · revert hc; decide
    · exact (hno (hout _ hc)).2.2.1 rfl

/-- What a successful `contract_path` consists of. -/
theorem contractPath_parts {inputs : List Str} {output : Str} {shapes : List Shape} {opt : Optimize} {mem : MemLimit} {ub : Bool} {info : PathInfo}
    (h : contractPath inputs output shapes opt mem ub = .ok info) :
    ∃ sl mm st outs, sizeLoop [] inputs shapes = .ok info.sizeDict ∧
      (inputs ++ [output]).mapM (fun t => computeSizeByDict t info.sizeDict) = .ok sl ∧ chooseMemoryArg mem sl = .ok mm ∧
      flopCount (enum inputs.flatten inputs.flatten.toFinset)
        (decide (0 < ((inputs.map List.toFinset).map Finset.card).sum - inputs.flatten.toFinset.card)) inputs.length info.sizeDict =
        .ok info.naiveCost ∧
      choosePath opt inputs.length (inputs.map List.toFinset) output.toFinset info.sizeDict mm = .ok info.path ∧
      pathLoop ub output info.sizeDict { inputs, sets := inputs.map List.toFinset, shapes } info.path = .ok (st, outs) ∧
      info = { contractionList := outs.map StepOut.step, path := info.path, indices := inputs.flatten.toFinset,
               scaleList := outs.map StepOut.scale, naiveCost := info.naiveCost, optCost := (outs.map StepOut.cost).sum,
               sizeList := outs.map StepOut.size, sizeDict := info.sizeDict,
               largestIntermediate := (outs.map StepOut.size).max?.getD 1 } := by
  unfold contractPath at h
  simp only [bind, Except.bind] at h
  rcases h1 : sizeLoop [] inputs shapes with e | d
  · rw [h1] at h; cases h
  rw [h1] at h; simp only at h
  rcases h2 : (inputs ++ [output]).mapM (fun t => computeSizeByDict t d) with e | sl
  · rw [h2] at h; cases h
  rw [h2] at h; simp only at h
  rcases h3 : chooseMemoryArg mem sl with e | mm
  · rw [h3] at h; cases h
  rw [h3] at h; simp only at h
  rcases h4 : flopCount (enum inputs.flatten inputs.flatten.toFinset)
    (decide (0 < ((inputs.map List.toFinset).map Finset.card).sum - inputs.flatten.toFinset.card)) inputs.length d with e | naive
  · rw [h4] at h; cases h
  rw [h4] at h; simp only at h
  rcases h5 : choosePath opt inputs.length (inputs.map List.toFinset) output.toFinset d mm with e | path
  · rw [h5] at h; cases h
  rw [h5] at h; simp only at h
  rcases h6 : pathLoop ub output d { inputs, sets := inputs.map List.toFinset, shapes } path with e | ⟨st, outs⟩
  · rw [h6] at h; cases h
  rw [h6] at h
  simp only [Except.ok.injEq] at h
  subst h
  exact ⟨sl, mm, st, outs, rfl, h2, h3, h4, h5, h6, rfl⟩

/-- The converse, for an explicit path. -/
theorem contractPath_of_parts {inputs : List Str} {output : Str} {shapes : List Shape} {mem : MemLimit} {ub : Bool} {d : Dict Nat Nat}
    {sl : List Nat} {mm : Option Nat} {naive : Nat} {path : List (List Nat)} {st : PathState} {outs : List StepOut}
    (h1 : sizeLoop [] inputs shapes = .ok d) (h2 : (inputs ++ [output]).mapM (fun t => computeSizeByDict t d) = .ok sl)
    (h3 : chooseMemoryArg mem sl = .ok mm)
    (h4 : flopCount (enum inputs.flatten inputs.flatten.toFinset)
        (decide (0 < ((inputs.map List.toFinset).map Finset.card).sum - inputs.flatten.toFinset.card)) inputs.length d = .ok naive)
    (h6 : pathLoop ub output d { inputs, sets := inputs.map List.toFinset, shapes } path = .ok (st, outs)) :
    contractPath inputs output shapes (.path path) mem ub =
      .ok { contractionList := outs.map StepOut.step, path, indices := inputs.flatten.toFinset,
            scaleList := outs.map StepOut.scale, naiveCost := naive, optCost := (outs.map StepOut.cost).sum,
            sizeList := outs.map StepOut.size, sizeDict := d, largestIntermediate := (outs.map StepOut.size).max?.getD 1 } := by
  unfold contractPath
  simp only [bind, Except.bind, h1, h2, h3, h4, choosePath, h6]

theorem contractPath_same_path {inputs : List Str} {output : Str} {shapes : List Shape} {opt : Optimize} {mem : MemLimit} {ub : Bool}
    {info : PathInfo} (h : contractPath inputs output shapes opt mem ub = .ok info) :
    contractPath inputs output shapes (.path info.path) mem ub = .ok info := by
  obtain ⟨sl, mm, st, outs, h1, h2, h3, h4, h5, h6, h7⟩ := contractPath_parts h
  rw [contractPath_of_parts h1 h2 h3 h4 h6, ← h7]

/-- The parts of a report. -/
theorem contractPathStr_parts {s : Str} {shapes : List Shape} {opt : Optimize} {mem : MemLimit} {ub : Bool} {r : Report}
    (h : contractPathStr s shapes opt mem ub = .ok r) :
    parseEinsum s shapes = .ok (r.inputSubscripts, r.outputSubscript) ∧
    contractPath (splitOn cComma r.inputSubscripts) r.outputSubscript shapes opt mem ub = .ok r.info ∧
    (splitOn cComma r.inputSubscripts).mapM (fun ks => ks.mapM (sizeAt r.info.sizeDict)) = .ok r.shapes ∧
    r.eq = r.inputSubscripts ++ [cDash, cGt] ++ r.outputSubscript := by
  unfold contractPathStr at h
  simp only [bind, Except.bind] at h
  rcases h1 : parseEinsum s shapes with e | ⟨inp, out⟩
  · rw [h1] at h; cases h
  rw [h1] at h; simp only at h
  rcases h2 : contractPath (splitOn cComma inp) out shapes opt mem ub with e | info
  · rw [h2] at h; cases h
  rw [h2] at h; simp only at h
  rcases h3 : (splitOn cComma inp).mapM (fun ks => ks.mapM (sizeAt info.sizeDict)) with e | shp
  · rw [h3] at h; cases h
  rw [h3] at h
  simp only [Except.ok.injEq] at h
  subst h
  exact ⟨rfl, h2, h3, rfl⟩

theorem contractPathStr_of_parts {s inp out : Str} {shapes shp : List Shape} {opt : Optimize} {mem : MemLimit} {ub : Bool} {info : PathInfo}
    (h1 : parseEinsum s shapes = .ok (inp, out)) (h2 : contractPath (splitOn cComma inp) out shapes opt mem ub = .ok info)
    (h3 : (splitOn cComma inp).mapM (fun ks => ks.mapM (sizeAt info.sizeDict)) = .ok shp) :
    contractPathStr s shapes opt mem ub = .ok ⟨info, inp, out, shp, inp ++ [cDash, cGt] ++ out⟩ := by
  unfold contractPathStr
  simp only [bind, Except.bind, h1, h2, h3]

/-- C67. The path that `contract_path` reports, given back as `optimize`, makes the same report. -/
theorem C67_same_path (s : Str) (shapes : List Shape) (opt : Optimize) (mem : MemLimit) (ub : Bool) (r : Report)
    (h : contractPathStr s shapes opt mem ub = .ok r) : contractPathStr s shapes (.path r.info.path) mem ub = .ok r := by
  obtain ⟨h1, h2, h3, h4⟩ := contractPathStr_parts h
  rw [contractPathStr_of_parts h1 (contractPath_same_path h2) h3, ← h4]

/-- The sizes as `PathInfo.shapes` looks them up. -/
theorem mapM_sizeAt {d : Dict Nat Nat} {l : List Nat} (h : ∀ c ∈ l, (d.get? c).isSome) : l.mapM (sizeAt d) = .ok (l.map (dsize d)) := by
  apply mapM_ok
  intro c hc
  obtain ⟨v, hv⟩ := Option.isSome_iff_exists.mp (h c hc)
  simp only [sizeAt, hv, dsize, Option.getD_some]

theorem sizeAt_some {d : Dict Nat Nat} {l : List Nat} {r : List Nat} (h : l.mapM (sizeAt d) = .ok r) : ∀ c ∈ l, (d.get? c).isSome := by
  induction l generalizing r with
  | nil => simp
  | cons a t ih =>
    rw [List.mapM_cons] at h
    simp only [bind, Except.bind] at h
    rcases ha : d.get? a with _ | v
    · simp only [sizeAt, ha] at h; cases h
    · rcases ht : t.mapM (sizeAt d) with e | r'
      · simp only [sizeAt, ha, ht] at h; cases h
      · intro c hc
        rcases List.mem_cons.mp hc with rfl | hc
        · rw [ha]; rfl
        · exact ih ht c hc

theorem reported_shapes {d : Dict Nat Nat} {terms : List Str} {r : List Shape} (h : terms.mapM (fun ks => ks.mapM (sizeAt d)) = .ok r) :
    r = terms.map fun t => t.map (dsize d) := by
  induction terms generalizing r with
  | nil => simp only [List.mapM_nil, pure, Except.pure, Except.ok.injEq] at h; subst h; rfl
  | cons t ts ih =>
    rw [List.mapM_cons] at h
    simp only [bind, Except.bind] at h
    rcases h1 : t.mapM (sizeAt d) with e | a
    · rw [h1] at h; cases h
    rw [h1] at h; simp only at h
    rcases h2 : ts.mapM (fun ks => ks.mapM (sizeAt d)) with e | b
    · rw [h2] at h; cases h
    rw [h2] at h
    simp only [pure, Except.pure, Except.ok.injEq] at h
    subst h
    have ha := mapM_sizeAt (sizeAt_some h1)
    rw [h1] at ha
    rw [Except.ok.inj ha, ih h2, List.map_cons]

/-- C67. The reported shapes hold the sizes of the labels after broadcasting. -/
theorem C67_shapes (s : Str) (shapes : List Shape) (opt : Optimize) (mem : MemLimit) (ub : Bool) (r : Report)
    (h : contractPathStr s shapes opt mem ub = .ok r) :
    r.shapes.length = (splitOn cComma r.inputSubscripts).length ∧
    ∀ (i : Nat) (t : Str), (splitOn cComma r.inputSubscripts)[i]? = some t → ∃ sh, r.shapes[i]? = some sh ∧ sh.length = t.length ∧
      ∀ (j c d : Nat), t[j]? = some c → sh[j]? = some d → IsLabelSize (splitOn cComma r.inputSubscripts) shapes c d := by
  obtain ⟨h1, h2, h3, h4⟩ := contractPathStr_parts h
  obtain ⟨sl, mm, st, outs, g1, g2, g3, g4, g5, g6, g7⟩ := contractPath_parts h2
  have hr := reported_shapes h3
  have hlen := (parse_labels h1).1
  have hc6 := C06_size_dict (splitOn cComma r.inputSubscripts) shapes hlen
  have hcomp : Compatible (splitOn cComma r.inputSubscripts) shapes := by
    by_contra hno
    rw [hc6.2 hno] at g1
    cases g1
  obtain ⟨d', hd', hiff⟩ := hc6.1 hcomp
  rw [g1] at hd'
  have hd'' := Except.ok.inj hd'
  rw [← hd''] at hiff
  refine ⟨by rw [hr, List.length_map], ?_⟩
  intro i t ht
  refine ⟨t.map (dsize r.info.sizeDict), by rw [hr, List.getElem?_map, ht]; rfl, by simp, ?_⟩
  intro j c d hc hd
  rw [List.getElem?_map, hc] at hd
  simp only [Option.map_some, Option.some.injEq] at hd
  apply (hiff c d).mp
  have hmem : t ∈ splitOn cComma r.inputSubscripts := List.mem_of_getElem? ht
  obtain ⟨i', hi'⟩ : ∃ sh, t.mapM (sizeAt r.info.sizeDict) = .ok sh := by
    have := mapM_ok_mem h3
    obtain ⟨b, hb⟩ := this t hmem
    exact ⟨b, hb⟩
  obtain ⟨v, hv⟩ := Option.isSome_iff_exists.mp (sizeAt_some hi' c (List.mem_of_getElem? hc))
  rw [← hd, dsize, hv]
  rfl

/-- C67. The reported equation, shapes and path, given back to `contract_path` with `shapes=True`, make the same report but for the BLAS flags;
when no axis was broadcast, exactly the same report. -/
theorem C67_report_again (s : Str) (shapes : List Shape) (opt : Optimize) (mem : MemLimit) (ub : Bool) (r : Report)
    (h : contractPathStr s shapes opt mem ub = .ok r) :
    (∃ r', contractPathStr r.eq r.shapes (.path r.info.path) mem ub = .ok r' ∧ SameButFlags r' r) ∧
    (r.shapes = shapes → contractPathStr r.eq r.shapes (.path r.info.path) mem ub = .ok r) := by
  obtain ⟨h1, h2, h3, h4⟩ := contractPathStr_parts h
  obtain ⟨sl, mm, st, outs, g1, g2, g3, g4, g5, g6, g7⟩ := contractPath_parts h2
  have hr := reported_shapes h3
  have hlen := (parse_labels h1).1
  have hp : parseEinsum r.eq r.shapes = .ok (r.inputSubscripts, r.outputSubscript) := by
    rw [h4]
    exact parse_again h1 (by rw [hr, List.length_map, hlen])
  constructor
  · have hd : sizeLoop [] (splitOn cComma r.inputSubscripts) r.shapes = .ok r.info.sizeDict := by rw [hr]; exact sizeLoop_again g1
    have hranks : RanksFit (splitOn cComma r.inputSubscripts) shapes := by
      obtain ⟨_, _, hle, hrk⟩ := sizeLoop_reval r.info.sizeDict _ shapes (by simp) g1
      unfold RanksFit
      apply List.ext_getElem (by simp [hlen])
      intro i hi hi'
      rw [List.length_map] at hi hi'
      rw [List.getElem_map, List.getElem_map]
      exact hrk i _ _ (List.getElem?_eq_getElem hi') (List.getElem?_eq_getElem hi)
    have hranks' : RanksFit (splitOn cComma r.inputSubscripts) r.shapes := by
      rw [hr]; unfold RanksFit; rw [List.map_map]; apply List.map_congr_left; intro t _; simp
    rcases pathLoop_shapes ub r.outputSubscript r.info.sizeDict r.info.path _
      ((splitOn cComma r.inputSubscripts).map List.toFinset) shapes r.shapes hranks hranks' with ⟨e, k1, _⟩ | ⟨st1, st2, o1, o2, k1, k2, k3⟩
    · rw [g6] at k1; cases k1
    · rw [g6] at k1
      obtain ⟨rfl, rfl⟩ := Prod.mk.inj (Except.ok.inj k1)
      have hinfo := contractPath_of_parts hd g2 g3 g4 k2
      have e1 : outs.map StepOut.scale = o2.map StepOut.scale := by
        have := congrArg (List.map StepOut.scale) k3; simpa [List.map_map, Function.comp_def, plainOut] using this
      have e2 : outs.map StepOut.size = o2.map StepOut.size := by
        have := congrArg (List.map StepOut.size) k3; simpa [List.map_map, Function.comp_def, plainOut] using this
      have e3 : outs.map StepOut.cost = o2.map StepOut.cost := by
        have := congrArg (List.map StepOut.cost) k3; simpa [List.map_map, Function.comp_def, plainOut] using this
      have e4 : (outs.map StepOut.step).map unflagged = (o2.map StepOut.step).map unflagged := by
        have := congrArg (List.map StepOut.step) k3; simpa [List.map_map, Function.comp_def, plainOut] using this
      have hst := contractPathStr_of_parts hp hinfo h3
      refine ⟨_, hst, ?_⟩
      have f1 := congrArg PathInfo.contractionList g7
      have f2 := congrArg PathInfo.indices g7
      have f3 := congrArg PathInfo.scaleList g7
      have f4 := congrArg PathInfo.optCost g7
      have f5 := congrArg PathInfo.sizeList g7
      have f6 := congrArg PathInfo.largestIntermediate g7
      simp only at f1 f2 f3 f4 f5 f6
      exact ⟨h4.symm, rfl, rfl, rfl, rfl, f2.symm, by rw [f3, e1], rfl, by rw [f4, e3], by rw [f5, e2], rfl, by rw [f6, e2],
        by rw [f1, e4]⟩
  · intro hs
    rw [hs] at hp ⊢
    rw [contractPathStr_of_parts hp (contractPath_same_path h2) h3, ← h4]

variable {R : Type} [CommSemiring R]

/-- C67. `contract` with the reported equation and path returns what it returns for the original arguments. -/
theorem C67_same_contract (s : Str) (ops : List (Tensor R)) (opt : Optimize) (hopt : opt ≠ .off) (mem : MemLimit) (ub noEinsum : Bool) (r : Report)
    (h : contractPathStr s (ops.map Tensor.shape) opt mem ub = .ok r) :
    contract noEinsum r.eq ops (.path r.info.path) mem ub = contract noEinsum s ops opt mem ub := by
  obtain ⟨h1, h2, h3, h4⟩ := contractPathStr_parts h
  have hp : parseEinsum r.eq (ops.map Tensor.shape) = .ok (r.inputSubscripts, r.outputSubscript) := by rw [h4]; exact parse_again h1 rfl
  have e1 : contract noEinsum r.eq ops (.path r.info.path) mem ub = coreContract noEinsum r.info.contractionList ops := by
    simp only [contract, bind, Except.bind, hp, contractPath_same_path h2]
  have e2 : contract noEinsum s ops opt mem ub = coreContract noEinsum r.info.contractionList ops := by
    cases opt with
    | off => exact absurd rfl hopt
    | path p => simp only [contract, bind, Except.bind, h1, h2]
    | finder f => simp only [contract, bind, Except.bind, h1, h2]
  rw [e1, e2]

/-- C67. A flag may change: `ab,bc->ac` with a broadcast axis is not a BLAS call, with the reported shapes it is. -/
theorem C67_flag_changes :
    (contractPathStr (S "ab,bc->ac") [[2, 1], [3, 4]] (.path [[0, 1]]) .none true).map
      (fun r => (r.shapes, r.info.contractionList.map Step.blas)) = .ok ([[2, 3], [3, 4]], [.no]) ∧
    (contractPathStr (S "ab,bc->ac") [[2, 3], [3, 4]] (.path [[0, 1]]) .none true).map
      (fun r => (r.shapes, r.info.contractionList.map Step.blas)) = .ok ([[2, 3], [3, 4]], [.gemm]) := by
  decide +kernel

-- C67: an implicit output and an ellipsis: the report is for the written-out equation
example : (contractPathStr (S "...a,ab,bc") [[5, 2], [2, 3], [3, 4]] (.path [[1, 2], [0, 1]]) .none true).map
      (fun r => (r.eq, r.shapes, r.info.path, r.info.optCost)) = .ok (S "ea,ab,bc->ec", [[5, 2], [2, 3], [3, 4]], [[1, 2], [0, 1]], 128) ∧
    (contractPathStr (S "ea,ab,bc->ec") [[5, 2], [2, 3], [3, 4]] (.path [[1, 2], [0, 1]]) .none true).map
      (fun r => (r.eq, r.shapes, r.info.path, r.info.optCost)) = .ok (S "ea,ab,bc->ec", [[5, 2], [2, 3], [3, 4]], [[1, 2], [0, 1]], 128) := by
  constructor <;> decide +kernel

end OE.Props
