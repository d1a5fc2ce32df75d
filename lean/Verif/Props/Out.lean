import Verif.Model.Out
import Verif.Props.Expression

/-!
# C10: the `out` argument
-/

namespace OE.Props
open OE OE.Py OE.Spec OE.Parser OE.Contract OE.Expression OE.Out

variable {R : Type} [CommSemiring R]

omit [CommSemiring R] in
theorem sameArray_refl (T : Tensor R) : SameArray T T := ⟨rfl, fun _ _ _ => rfl⟩

theorem isEinsum_of_same {size : Nat → Nat} {inputs : List Str} {output : Str} {ops : List (Tensor R)} {S T : Tensor R}
    (hS : IsEinsum size inputs output ops S) (h : SameArray S T) : IsEinsum size inputs output ops T := by
  refine ⟨by rw [← h.1, hS.1], ?_⟩
  intro coords hl hr
  rw [← hS.2 coords hl hr]
  refine (h.2 coords (by rw [hS.1, List.length_map, hl]) ?_).symm
  intro i d x h1 h2
  rw [hS.1, List.getElem?_map, Option.map_eq_some_iff] at h1
  obtain ⟨c, hc, rfl⟩ := h1
  exact hr i c x hc h2

theorem arrow_suffix_unique {a a' b b' : Str} (h : a ++ [cDash, cGt] ++ b = a' ++ [cDash, cGt] ++ b') (hb : cGt ∉ b) (hb' : cGt ∉ b') :
    a = a' ∧ b = b' := by
  have key : ∀ {a a' b b' c : Str}, cGt ∉ b → a' ++ [cDash, cGt] = a ++ [cDash, cGt] ++ c → b = c ++ b' → c = [] := by
    intro a a' b b' c hb h1 h2
    rcases List.eq_nil_or_concat c with rfl | ⟨c', x, rfl⟩
    · rfl
    · exfalso
      have : (a' ++ [cDash] ++ [cGt]).getLast? = (a ++ [cDash, cGt] ++ c' ++ [x]).getLast? := by
        have : a' ++ [cDash] ++ [cGt] = a ++ [cDash, cGt] ++ c' ++ [x] := by simpa using h1
        rw [this]
      rw [List.getLast?_concat, List.getLast?_concat] at this
      simp only [Option.some.injEq] at this
      subst this
      apply hb
      rw [h2]
      simp
  rcases List.append_eq_append_iff.mp h with ⟨c, h1, h2⟩ | ⟨c, h1, h2⟩
  · have := key hb h1 h2
    subst this
    simp only [List.append_nil, List.nil_append] at h1 h2
    exact ⟨(List.append_cancel_right h1).symm, h2⟩
  · have := key hb' h1 h2
    subst this
    simp only [List.append_nil, List.nil_append] at h1 h2
    exact ⟨List.append_cancel_right h1, h2.symm⟩

/-- The last step's equation ends in the output. -/
theorem pathLoop_last {ub : Bool} {output : Str} {d : Dict Nat Nat} {ps : List (List Nat)} {st st' : PathState} {outs : List StepOut}
    (h : pathLoop ub output d st ps = .ok (st', outs)) {o : StepOut} (ho : outs.getLast? = some o) :
    ∃ ins, o.step.einsumStr = einsumStrOf ins output := by
  induction ps generalizing st st' outs with
  | nil => simp only [pathLoop, Except.ok.injEq, Prod.mk.injEq] at h; rw [← h.2] at ho; simp at ho
  | cons p ps ih =>
    simp only [pathLoop, bind, Except.bind] at h
    cases h1 : pathStep ub output d st p ps.isEmpty with
    | error e => rw [h1] at h; cases h
    | ok r =>
      obtain ⟨st1, o1⟩ := r
      rw [h1] at h
      simp only at h
      cases h2 : pathLoop ub output d st1 ps with
      | error e => rw [h2] at h; cases h
      | ok r2 =>
        obtain ⟨st2, os⟩ := r2
        rw [h2] at h
        simp only [Except.ok.injEq, Prod.mk.injEq] at h
        obtain ⟨_, rfl⟩ := h
        cases ps with
        | nil =>
          simp only [pathLoop, Except.ok.injEq, Prod.mk.injEq] at h2
          rw [← h2.2] at ho
          simp only [List.getLast?_singleton, Option.some.injEq] at ho
          subst ho
          unfold pathStep at h1
          simp only [bind, Except.bind] at h1
          repeat (split at h1; · cases h1)
          simp only [Except.ok.injEq, Prod.mk.injEq] at h1
          rw [← h1.2]
          simp only [List.isEmpty_nil, if_true]
          exact ⟨_, rfl⟩
        | cons q qs =>
          have hne : os ≠ [] := by
            rintro rfl
            have := pathLoop_inds h2
            simp at this
          obtain ⟨x, xs, rfl⟩ := List.exists_cons_of_ne_nil hne
          rw [List.getLast?_cons_cons] at ho
          exact ih h2 ho

theorem output_good {s : Str} {shapes : List Shape} {inp out : Str} {opt : Optimize} {mem : MemLimit} {ub : Bool} {info : PathInfo}
    (hp : parseEinsum s shapes = .ok (inp, out)) (h : contractPath (splitOn cComma inp) out shapes opt mem ub = .ok info) :
    ∀ c ∈ out, GoodLabel c := by
  unfold contractPath at h
  simp only [bind, Except.bind] at h
  split at h
  · cases h
  rename_i d hd
  split at h
  · cases h
  rename_i sl hsl
  intro c hc
  obtain ⟨b, hb⟩ := mapM_ok_mem hsl out (by simp)
  rcases sizeLoop_keys hd (computeSize_keys hb _ hc) with h1 | ⟨t, ht, h1⟩
  · simp [Dict.get?] at h1
  · exact parse_good hp t ht c h1

theorem last_split {s : Str} {shapes : List Shape} {inp out : Str} {opt : Optimize} {mem : MemLimit} {ub : Bool} {info : PathInfo}
    (hp : parseEinsum s shapes = .ok (inp, out)) (h : contractPath (splitOn cComma inp) out shapes opt mem ub = .ok info)
    {st : Step} (hst : info.contractionList.getLast? = some st) : ∃ l, splitArrow st.einsumStr = [l, out] := by
  have hgood := output_good hp h
  obtain ⟨ins, r, h1, h2, h3, _⟩ := contractPath_plain hp h st (List.mem_of_getLast? hst)
  have h4 : ∃ ins', st.einsumStr = einsumStrOf ins' out := by
    unfold contractPath at h
    simp only [bind, Except.bind] at h
    repeat (split at h; · cases h)
    rename_i hr
    simp only [Except.ok.injEq] at h
    subst h
    simp only [List.getLast?_map, Option.map_eq_some_iff] at hst
    obtain ⟨o, ho, rfl⟩ := hst
    exact pathLoop_last hr ho
  obtain ⟨ins', h4⟩ := h4
  have hgt : ∀ {l : Str}, (∀ c ∈ l, GoodLabel c) → cGt ∉ l := by
    intro l hl hc
    exact (hl _ hc).1 (by simp [IsPunct])
  have he : join [cComma] ins ++ [cDash, cGt] ++ r = join [cComma] ins' ++ [cDash, cGt] ++ out := by
    have := h1.symm.trans h4
    simpa [einsumStrOf] using this
  obtain ⟨_, rfl⟩ := arrow_suffix_unique he (hgt h3) (hgt hgood)
  refine ⟨join [cComma] ins, ?_⟩
  rw [h1]
  unfold einsumStrOf
  refine splitArrow_two _ _ ?_ (hgt hgood)
  intro hc
  rcases mem_join _ _ _ hc with hh | ⟨t, ht, hh⟩
  · simp at hh
  · exact (h2 t ht _ hh).1 (by simp [IsPunct])

omit [CommSemiring R] in
theorem map_idxOf_self {l : List Nat} (h : l.Nodup) : l.map l.idxOf = List.range l.length := by
  apply List.ext_getElem
  · simp
  · intro i h1 h2
    simp [h.idxOf_getElem]

/-- Forcing the transposition does not change the array. -/
theorem blasView_same {step : Step} {tmp : List (Tensor R)} {T : Tensor R} (h : blasStep step tmp = .ok T) {inp out : Str}
    (hsp : splitArrow step.einsumStr = [inp, out]) (hnd : out.Nodup) (hlen : T.shape.length = out.length) :
    ∃ T', blasView step tmp = .ok T' ∧ SameArray T T' := by
  unfold blasStep at h
  unfold blasView
  rw [hsp] at h ⊢
  simp only at h ⊢
  split at h
  · rename_i left right hlr
    split at h
    · rename_i a b
      simp only [bind, Except.bind] at h ⊢
      split at h
      · cases h
      rename_i view hv
      rw [hlr]
      simp only [hv]
      split at h
      · exact ⟨T, h, sameArray_refl T⟩
      · rename_i htr
        simp only [not_not] at htr
        cases h
        rw [htr]
        have hperm : transposeAxes out out = .ok (List.range out.length) := by
          unfold transposeAxes
          rw [mapM_ok (g := out.idxOf) (fun c hc => by simp [hc]), map_idxOf_self hnd]
        rw [hperm]
        simp only
        unfold npTranspose
        rw [if_neg]
        · refine ⟨_, rfl, ?_, ?_⟩
          · simp only
            apply List.ext_getElem
            · simp [hlen]
            · intro i h1 h2
              simp [List.getD_eq_getElem?_getD, h1]
          · intro coords hc _
            simp only
            congr 1
            apply List.ext_getElem
            · simp [hc]
            · intro i h1 h2
              have hi : i < out.length := by omega
              have : (List.range out.length).idxOf i = i := by
                have := List.nodup_range (n := out.length) |>.idxOf_getElem i (by simpa using hi)
                simpa using this
              simp [this, List.getD_eq_getElem?_getD, h1]
        · simp [hlen, List.nodup_range]
    · cases h
  · cases h

/-- What `_core_contract` with `out` does, compared with the same contraction without. -/
theorem coreOut_spec {noE sharing : Bool} {out : Str} (hnd : out.Nodup) {o T : Tensor R} (ho : o.shape = T.shape) (hlen : T.shape.length = out.length)
    {path : List (List Nat)} : ∀ {steps : List Step} {ops : List (Tensor R)}, steps.map Step.inds = path.map sortedDesc →
      CompletePath ops.length path → coreContract noE steps ops = .ok T → ∀ s, steps.getLast? = some s →
      (∃ l, splitArrow s.einsumStr = [l, out]) →
      (usesBlas noE s.blas = true → o.shape ≠ [] → ∃ T', coreOut noE sharing steps ops o = .ok T' ∧ SameArray T T') ∧
      (usesBlas noE s.blas = true → o.shape = [] → coreOut noE sharing steps ops o = .error .index) ∧
      (usesBlas noE s.blas = false → sharing = false → coreOut noE sharing steps ops o = .ok T) ∧
      (usesBlas noE s.blas = false → sharing = true → coreOut noE sharing steps ops o = .ok o) := by
  induction path with
  | nil => intro steps ops _ hc; exact absurd hc (by simp [CompletePath])
  | cons p ps ih =>
    intro steps ops hinds hc hT s hlast hsp
    cases steps with
    | nil => simp at hlast
    | cons s₁ ss =>
      simp only [List.map_cons, List.cons.injEq] at hinds
      have hv : ValidStep ops.length p := by
        cases ps with
        | nil => exact hc.1
        | cons q qs => exact hc.1
      obtain ⟨tmp, rest, hpop⟩ := popAll_valid hv.2.1 hv.2.2
      rw [← hinds.1] at hpop
      have hl := popAll_length hpop
      rw [hinds.1, sortedDesc_length] at hl
      simp only [coreContract, coreLoop, bind, Except.bind, hpop] at hT
      cases hview : stepResult noE s₁ tmp with
      | error e => rw [hview] at hT; cases hT
      | ok view =>
        rw [hview] at hT
        simp only at hT
        cases ps with
        | nil =>
          have hss : ss = [] := by simpa using hinds.2
          subst hss
          simp only [List.getLast?_singleton, Option.some.injEq] at hlast
          subst hlast
          have hp : p.length = ops.length := hc.2
          have hrest : rest = [] := List.eq_nil_of_length_eq_zero (by omega)
          subst hrest
          simp only [coreLoop, List.nil_append, Except.ok.injEq] at hT
          subst hT
          have hco : coreOut noE sharing [s₁] ops o = lastStep noE sharing s₁ tmp o := by
            simp only [coreOut, bind, Except.bind, hpop]
          rw [hco]
          unfold lastStep
          unfold stepResult at hview
          cases hu : usesBlas noE s₁.blas with
          | true =>
            rw [hu, if_pos rfl] at hview
            obtain ⟨l, hsp⟩ := hsp
            obtain ⟨T', h1, h2⟩ := blasView_same hview hsp hnd hlen
            simp only [if_true, bind, Except.bind, h1]
            refine ⟨fun _ hne => ⟨T', ?_, h2⟩, fun _ hnil => ?_, fun h => (by cases h), fun h => (by cases h)⟩
            · unfold assignSlice
              rw [if_neg hne, if_pos (by rw [ho, h2.1])]
            · unfold assignSlice
              rw [if_pos hnil]
          | false =>
            rw [hu] at hview
            simp only [Bool.false_eq_true, if_false] at hview ⊢
            refine ⟨fun h => (by cases h), fun h => (by cases h), fun _ hs => ?_, fun _ hs => ?_⟩
            · subst hs
              simp only [Bool.false_eq_true, if_false, einsumInto, bind, Except.bind, hview]
              rw [if_pos ho.symm]
            · subst hs
              simp only [if_true, bind, Except.bind, hview]
        | cons q qs =>
          cases ss with
          | nil => simp at hinds
          | cons s₂ ss =>
            rw [List.getLast?_cons_cons] at hlast
            have hlen' : (rest ++ [view]).length = ops.length + 1 - p.length := by simp; omega
            have := ih (steps := s₂ :: ss) (ops := rest ++ [view]) hinds.2 (by rw [hlen']; exact hc.2) hT s hlast hsp
            simp only [coreOut, bind, Except.bind, hpop, hview]
            exact this

/-! ## `contract(..., out=o)` -/

theorem contract_of_path {noE : Bool} {eq : Str} {ops : List (Tensor R)} {opt : Optimize} {mem : MemLimit} {ub : Bool} (hopt : opt ≠ .off)
    {inp out : Str} (hparse : parseEinsum eq (ops.map Tensor.shape) = .ok (inp, out)) {info : PathInfo}
    (hpath : contractPath (splitOn cComma inp) out (ops.map Tensor.shape) opt mem ub = .ok info) :
    contract noE eq ops opt mem ub = coreContract noE info.contractionList ops := by
  cases opt with
  | off => exact absurd rfl hopt
  | path p => simp only [contract, bind, Except.bind]; rw [hparse]; simp only; rw [hpath]
  | finder f => simp only [contract, bind, Except.bind]; rw [hparse]; simp only; rw [hpath]

theorem contractOut_of_path {noE sharing : Bool} {eq : Str} {ops : List (Tensor R)} {opt : Optimize} {mem : MemLimit} {ub : Bool}
    (hopt : opt ≠ .off) {inp out : Str} (hparse : parseEinsum eq (ops.map Tensor.shape) = .ok (inp, out)) {info : PathInfo}
    (hpath : contractPath (splitOn cComma inp) out (ops.map Tensor.shape) opt mem ub = .ok info) (o : Tensor R) :
    contractOut noE sharing eq ops opt mem ub o = (coreOut noE sharing info.contractionList ops o).map
      (fun o' => { isOut := true, value := o', out := o' }) := by
  have : ∀ x : Except PyErr (Tensor R), (x.bind fun o' => .ok ({ isOut := true, value := o', out := o' } : OE.Out.Outcome R)) =
      x.map (fun o' => { isOut := true, value := o', out := o' }) := by intro x; cases x <;> rfl
  cases opt with
  | off => exact absurd rfl hopt
  | path p => simp only [contractOut, bind, Except.bind]; rw [hparse]; simp only; rw [hpath]; exact this _
  | finder f => simp only [contractOut, bind, Except.bind]; rw [hparse]; simp only; rw [hpath]; exact this _

/-- C10, exactly what happens to `o`, when the same call without `out` returns `T` and `o` has the shape of `T`: it depends on the last step
and on whether a sharing context is active. -/
theorem C10_out_exact (size : Nat → Nat) (eq : Str) (ops : List (Tensor R)) (inp out : Str)
    (hparse : parseEinsum eq (ops.map Tensor.shape) = .ok (inp, out))
    (hfit : OperandsFit size (splitOn cComma inp) (ops.map Tensor.shape)) (opt : Optimize) (mem : MemLimit) (hmem : ValidMemory mem)
    (hopt : ChoosesComplete opt size (splitOn cComma inp) out) (ub noE sharing : Bool) (T o : Tensor R)
    (hT : contract noE eq ops opt mem ub = .ok T) (ho : o.shape = T.shape) :
    ∃ info s, contractPath (splitOn cComma inp) out (ops.map Tensor.shape) opt mem ub = .ok info ∧
      info.contractionList.getLast? = some s ∧
      (usesBlas noE s.blas = true → out ≠ [] →
        ∃ T', contractOut noE sharing eq ops opt mem ub o = .ok { isOut := true, value := T', out := T' } ∧ SameArray T T') ∧
      (usesBlas noE s.blas = true → out = [] → contractOut noE sharing eq ops opt mem ub o = .error .index) ∧
      (usesBlas noE s.blas = false → sharing = false →
        contractOut noE sharing eq ops opt mem ub o = .ok { isOut := true, value := T, out := T }) ∧
      (usesBlas noE s.blas = false → sharing = true →
        contractOut noE sharing eq ops opt mem ub o = .ok { isOut := true, value := o, out := o }) := by
  have hcomma : cComma ∉ out := no_comma_of_contract hparse (by rintro rfl; simp [ChoosesComplete] at hopt) hT
  have hwp := wellPosed_of_parse hparse hcomma hfit
  obtain ⟨info, hpath, hcp, _, _⟩ := C01_contract_terms size (splitOn cComma inp) out ops hwp opt mem hmem hopt ub noE
  have hE := C01_contract_returns size eq ops inp out hparse hfit opt mem hmem hopt ub noE T hT
  have hoff : opt ≠ .off := by rintro rfl; simp [ChoosesComplete] at hopt
  rw [contract_of_path hoff hparse hpath] at hT
  have hinds := contractPath_inds hpath
  have hne : info.contractionList ≠ [] := by
    intro h0
    rw [h0] at hinds
    cases hpp : info.path with
    | nil => rw [hpp] at hcp; simp [CompletePath] at hcp
    | cons a b => rw [hpp] at hinds; simp at hinds
  have hlast : info.contractionList.getLast? = some (info.contractionList.getLast hne) := List.getLast?_eq_some_getLast hne
  have hl : (splitOn cComma inp).length = ops.length := by rw [hwp.len, List.length_map]
  have hsh : T.shape.length = out.length := by rw [hE.1, List.length_map]
  have hnil : o.shape = [] ↔ out = [] := by rw [ho, hE.1]; simp
  obtain ⟨k1, k2, k3, k4⟩ := coreOut_spec (sharing := sharing) hwp.nodup ho hsh hinds (by rw [← hl]; exact hcp) hT _ hlast
    (last_split hparse hpath hlast)
  refine ⟨info, _, hpath, hlast, ?_, ?_, ?_, ?_⟩
  · intro h1 h2
    obtain ⟨T', g1, g2⟩ := k1 h1 (fun h => h2 (hnil.mp h))
    exact ⟨T', by rw [contractOut_of_path hoff hparse hpath, g1]; rfl, g2⟩
  · intro h1 h2
    rw [contractOut_of_path hoff hparse hpath, k2 h1 (hnil.mpr h2)]; rfl
  · intro h1 h2
    rw [contractOut_of_path hoff hparse hpath, k3 h1 h2]; rfl
  · intro h1 h2
    rw [contractOut_of_path hoff hparse hpath, k4 h1 h2]; rfl

/-- C10, outside sharing contexts and for results that are not 0-dimensional: `o` is filled with the result and returned.
Missing: sharing contexts (`C10_sharing_counterexample`) and 0-dimensional results (`C10_scalar_counterexample`), where the claim is false
of the code. -/
theorem C10_out_filled_partial (size : Nat → Nat) (eq : Str) (ops : List (Tensor R)) (inp out : Str)
    (hparse : parseEinsum eq (ops.map Tensor.shape) = .ok (inp, out))
    (hfit : OperandsFit size (splitOn cComma inp) (ops.map Tensor.shape)) (opt : Optimize) (mem : MemLimit) (hmem : ValidMemory mem)
    (hopt : ChoosesComplete opt size (splitOn cComma inp) out) (ub noE : Bool) (T o : Tensor R)
    (hT : contract noE eq ops opt mem ub = .ok T) (ho : o.shape = T.shape) (hout : out ≠ []) :
    ∃ T', contractOut noE false eq ops opt mem ub o = .ok { isOut := true, value := T', out := T' } ∧
      SameArray T T' ∧ IsEinsum size (splitOn cComma inp) out ops T' := by
  have hE := C01_contract_returns size eq ops inp out hparse hfit opt mem hmem hopt ub noE T hT
  obtain ⟨info, s, _, _, k1, _, k3, _⟩ := C10_out_exact size eq ops inp out hparse hfit opt mem hmem hopt ub noE false T o hT ho
  cases hu : usesBlas noE s.blas with
  | true => obtain ⟨T', h1, h2⟩ := k1 hu hout; exact ⟨T', h1, h2, isEinsum_of_same hE h2⟩
  | false => exact ⟨T, k3 hu rfl, sameArray_refl T, hE⟩

/-- C10 with `optimize=False`: outside sharing contexts `o` is filled and returned; inside, a new array is returned and `o` is left alone. -/
theorem C10_optimize_false (eq : Str) (ops : List (Tensor R)) (mem : MemLimit) (ub noE : Bool) (T o : Tensor R)
    (hT : contract noE eq ops .off mem ub = .ok T) (ho : o.shape = T.shape) :
    contractOut noE false eq ops .off mem ub o = .ok { isOut := true, value := T, out := T } ∧
    contractOut noE true eq ops .off mem ub o = .ok { isOut := false, value := T, out := o } := by
  have hT' : einsumCall false eq ops = .ok T := hT
  constructor
  · simp only [contractOut, Bool.false_eq_true, if_false, einsumInto, bind, Except.bind, hT']
    rw [if_pos ho.symm]
  · simp only [contractOut, if_true, bind, Except.bind, hT']

/-- C10 fails for 0-dimensional results of a BLAS step: `contract('a,a->', x, y, out=o)` raises `IndexError`. -/
theorem C10_scalar_counterexample :
    (contract (R := ℤ) false (S "a,a->") [⟨[2], fun _ => 1⟩, ⟨[2], fun _ => 3⟩] (.path [[0, 1]]) .none true).map
        (fun T => (T.shape, T.val [])) = .ok ([], 6) ∧
      (contractOut (R := ℤ) false false (S "a,a->") [⟨[2], fun _ => 1⟩, ⟨[2], fun _ => 3⟩] (.path [[0, 1]]) .none true
        ⟨[], fun _ => 0⟩).map (fun r => (r.isOut, r.out.val [])) = .error .index := by
  constructor <;> decide +kernel

/-- C10 fails inside a sharing context when the last step is an `einsum`: `contract('ab->ba', x, out=o)` returns `o` as it was. -/
theorem C10_sharing_counterexample :
    (contract (R := ℤ) false (S "ab->ba") [⟨[1, 2], fun c => match c with | [i, j] => i + j + 5 | _ => 0⟩] (.path [[0]]) .none true).map
        (fun T => (T.shape, T.val [1, 0])) = .ok ([2, 1], 6) ∧
      (contractOut (R := ℤ) false true (S "ab->ba") [⟨[1, 2], fun c => match c with | [i, j] => i + j + 5 | _ => 0⟩] (.path [[0]]) .none true
        ⟨[2, 1], fun _ => 0⟩).map (fun r => (r.isOut, r.out.shape, r.out.val [1, 0])) = .ok (true, [2, 1], 0) := by
  constructor <;> decide +kernel

-- C10: the hypotheses hold for 'ab,bc->ca' (a BLAS step that must be transposed), and `o` then holds the result
example : (contract (R := ℤ) false (S "ab,bc->ca") [demoA.tensor, demoC.tensor] (.path [[0, 1]]) .none true).map
      (fun T => (T.shape, T.val [2, 1])) = .ok ([3, 2], 10) ∧
    (contractOut (R := ℤ) false false (S "ab,bc->ca") [demoA.tensor, demoC.tensor] (.path [[0, 1]]) .none true ⟨[3, 2], fun _ => 0⟩).map
      (fun r => (r.isOut, r.out.shape, r.out.val [2, 1])) = .ok (true, [3, 2], 10) := by
  constructor <;> decide +kernel

/-! ## `expr(..., out=o)` -/

/-- A partial evaluation of the constants leaves a contraction with the same effect on `o`. -/
theorem evalLoop_coreOut (noE sharing : Bool) (o : Tensor R) (steps : List Step) (hd : ∀ s ∈ steps, s.inds.Pairwise (· > ·))
    {ops : List (Option (Tensor R))} {vs full : List (Tensor R)} (hf : fill ops vs = .ok full) {ops' : List (Option (Tensor R))}
    {ss : List Step} (h : evalLoop noE steps ops = .ok (some (ops', ss))) :
    ∃ full', fill ops' vs = .ok full' ∧ coreOut noE sharing steps full o = coreOut noE sharing ss full' o := by
  induction steps generalizing ops full with
  | nil => cases h
  | cons s rest ih =>
    have hs := hd s (by simp)
    simp only [evalLoop, bind, Except.bind] at h
    cases ha : anyNone ops s.inds with
    | error e => rw [ha] at h; cases h
    | ok b =>
      rw [ha] at h
      cases b with
      | true =>
        simp only [if_true, Except.ok.injEq, Option.some.injEq, Prod.mk.injEq] at h
        obtain ⟨rfl, rfl⟩ := h
        exact ⟨full, hf, rfl⟩
      | false =>
        simp only [Bool.false_eq_true, if_false] at h
        cases hp : popAll s.inds ops with
        | error e => rw [hp] at h; cases h
        | ok r =>
          obtain ⟨tmp, q⟩ := r
          rw [hp] at h
          simp only at h
          obtain ⟨tmp', ht⟩ := present_popped hs ha hp
          obtain ⟨q', k1, k2⟩ := popAll_fill hf hp ht
          rw [ht] at h
          simp only at h
          cases hv : stepResult noE s tmp' with
          | error e => rw [hv] at h; cases h
          | ok view =>
            rw [hv] at h
            simp only at h
            obtain ⟨full', g1, g2⟩ := ih (fun t ht => hd t (by simp [ht])) (fill_append k2 view) h
            refine ⟨full', g1, ?_⟩
            cases rest with
            | nil => cases h
            | cons s₂ rest =>
              simp only [coreOut, bind, Except.bind, k1, hv]
              exact g2

/-- A call with `out` whose twin without `out` returns `T`: where the contraction ends up. -/
theorem callOut_merged (L : Lib) {subs : Str} {items : List (Item R)} {opt : Optimize} {mem : MemLimit} {ub : Bool} {e₀ e : Expr R}
    {shapes : List Shape} {inp out : Str} {info : PathInfo} (hb : Built subs items opt mem ub e₀ shapes inp out info)
    (hc : CompletePath items.length info.path) (h : ExprInv L e₀ e) {arrays ops : List (Arr R)} (hm : Merge (slots items) arrays ops)
    (hv : arrays ≠ []) {backend : Option Str} {b : Str} (hp : parseBackend L (arrays.map Arr.module) backend = .ok b)
    (hauto : b ≠ S "auto") (hname : hasBackend b = true → b ∉ convertBackends → ∃ a ∈ arrays, a.module ≠ S "numpy")
    {T : Tensor R} (hT : (call L e arrays backend).1 = .ok T) (sharing : Bool) (o : Tensor R) :
    ∃ he, L.hasEinsum b = .ok he ∧ coreContract (!he) info.contractionList (ops.map Arr.tensor) = .ok T ∧
      (callOut L e sharing arrays backend o).1 =
        if hasBackend b ∧ ∀ a ∈ arrays, a.module = S "numpy" then assignAll T o
        else coreOut (!he) sharing info.contractionList (ops.map Arr.tensor) o := by
  have hcm := call_merged L hb hc h hm hv hp hauto hname
  rw [hT] at hcm
  cases hx : L.hasEinsum b with
  | error er => rw [hx] at hcm; cases hcm
  | ok he =>
    rw [hx] at hcm
    simp only [bind, Except.bind] at hcm
    refine ⟨he, rfl, hcm.symm, ?_⟩
    have hinds := contractPath_inds hb.path
    have hlen : (constTensors e₀).length = items.length := by simp [constTensors, hb.consts, slots]
    have hdesc := inds_desc hinds hc
    have hfill : fill (constTensors e₀) (arrays.map Arr.tensor) = .ok (ops.map Arr.tensor) := by
      unfold constTensors; rw [hb.consts]; exact merge_fill Arr.tensor hm
    have hconv : hasBackend b = true → (∀ a ∈ arrays, a.module = S "numpy") → b ∈ convertBackends := by
      intro h1 h2
      by_contra h3
      obtain ⟨a, ha, hne⟩ := hname h1 h3
      exact hne (h2 a ha)
    have hfin : ∀ (e' : Expr R) (t : List (Tensor R)), coreContract (!he) e'.list t = .ok T →
        coreOut (!he) sharing e'.list t o = coreOut (!he) sharing info.contractionList (ops.map Arr.tensor) o →
        finishOut L e' sharing b arrays t o =
          if hasBackend b ∧ ∀ a ∈ arrays, a.module = S "numpy" then assignAll T o
          else coreOut (!he) sharing info.contractionList (ops.map Arr.tensor) o := by
      intro e' t h1 h2
      unfold finishOut
      split
      · rename_i hcond
        rw [if_pos (hconv hcond.1 hcond.2)]
        simp only [bind, Except.bind, hx, h1]
      · simp only [bind, Except.bind, hx, h2]
    have hent : ∀ (e' : Expr R), ExprInv L e₀ e' → ∀ t, e'.evaluated.get? b = some t →
        (do finishOut L e' sharing b arrays (← fill t (arrays.map Arr.tensor)) o) =
          if hasBackend b ∧ ∀ a ∈ arrays, a.module = S "numpy" then assignAll T o
          else coreOut (!he) sharing info.contractionList (ops.map Arr.tensor) o := by
      intro e' he' t ht
      obtain ⟨x, hx', hl⟩ := he'.entries b t ht
      rw [hx] at hx'
      cases hx'
      obtain ⟨full', g1, g2⟩ := (evalLoop_fill (!he) e₀.fullList (by rw [hb.full]; exact hdesc) hfill).1 t e'.list hl
      obtain ⟨full'', g3, g4⟩ := evalLoop_coreOut (!he) sharing o e₀.fullList (by rw [hb.full]; exact hdesc) hfill hl
      rw [g1] at g3
      cases g3
      simp only [bind, Except.bind, g1]
      refine hfin e' full' ?_ ?_
      · rw [← coreContract_congr g2, hb.full, hcm]
      · rw [← g4, hb.full]
    unfold callOut
    unfold call at hT
    rw [hp] at hT ⊢
    simp only at hT ⊢
    rw [if_neg (by rw [h.numArgs, hb.numArgs, (merge_count hm).1]; simp)] at hT ⊢
    split
    · rename_i hnil
      rw [h.constants] at hnil
      have hall := hb.none_iff.mp hnil
      have hlist : e.list = info.contractionList := by
        cases hev : e.evaluated with
        | nil => rw [h.fresh hev, hb.full]
        | cons q qs =>
          obtain ⟨b', t⟩ := q
          obtain ⟨x, _, hl⟩ := h.entries b' t (by rw [hev]; simp [Dict.get?])
          rw [evalLoop_all_none (!x) (by rw [hb.full]; exact hinds) (by rw [hlen]; exact hc) (by
            intro o ho
            unfold constTensors at ho
            rw [hb.consts] at ho
            obtain ⟨o', ho', rfl⟩ := List.mem_map.mp ho
            rw [hall o' ho']; rfl)] at hl
          simp only [Except.ok.injEq, Option.some.injEq, Prod.mk.injEq] at hl
          rw [← hl.2, hb.full]
      refine hfin e _ ?_ ?_
      · rw [hlist, merge_all_none hm hall]; exact hcm.symm
      · rw [hlist, merge_all_none hm hall]
    · rename_i hnn
      rw [if_neg hnn] at hT
      split
      · rename_i t ht
        exact hent e h t ht
      · rename_i hg
        rw [hg] at hT
        simp only at hT
        rcases evaluateConstants_cases L h (some b) with ⟨er, h1⟩ | ⟨b', x, t, steps, h1, h2, h3, h4, h5⟩
        · rw [h1] at hT; cases hT
        · have hpb : parseBackend L ((constOps e₀).map inferBackend) (some b) = .ok b := by simp [parseBackend, hauto]
          rw [hpb] at h1
          cases h1
          rw [h4]
          simp only [Dict.get?_set_self]
          exact hent _ h5 t (Dict.get?_set_self _ _ _)

/-- C10 for expressions, after any history: if the call without `out` returns `T` and `o` has its shape, the same call with `out=o` fills and
returns `o` — always when numpy arrays are converted to another library; otherwise when the last step is an `einsum` outside sharing
contexts or a `tensordot` with a result that is not 0-dimensional. In the remaining cases it raises `IndexError` (0-dimensional, `tensordot`)
or returns `o` as it was (`einsum` in a sharing context). -/
theorem C10_expression_out_exact (L : Lib) (subs : Str) (items : List (Item R)) (constants : List Nat) (opt : Optimize)
    (mem : MemLimit) (ub : Bool) (e : Expr R) (hbuild : contractExpression subs items constants opt mem ub = .ok e)
    (arrays ops : List (Arr R)) (hm : Merge (slots items) arrays ops) (hs : ShapesAsBuilt items ops) (hv : arrays ≠ [])
    (hc : BuiltComplete subs items ops opt mem ub) (us : List (Use R)) (backend : Option Str) (b : Str)
    (hp : parseBackend L (arrays.map Arr.module) backend = .ok b) (hauto : b ≠ S "auto")
    (hname : hasBackend b = true → b ∉ convertBackends → ∃ a ∈ arrays, a.module ≠ S "numpy") (sharing : Bool) (T o : Tensor R)
    (hT : (call L (uses L e us) arrays backend).1 = .ok T) (ho : o.shape = T.shape)
    (inp out : Str) (hparse : parseEinsum subs (ops.map (fun a => a.tensor.shape)) = .ok (inp, out)) (hrank : T.shape.length = out.length) :
    ∃ he s, L.hasEinsum b = .ok he ∧ e.list.getLast? = some s ∧
      ((hasBackend b = true ∧ ∀ a ∈ arrays, a.module = S "numpy") →
        (callOut L (uses L e us) sharing arrays backend o).1 = .ok T) ∧
      (¬ (hasBackend b = true ∧ ∀ a ∈ arrays, a.module = S "numpy") →
        (usesBlas (!he) s.blas = true → out ≠ [] →
          ∃ T', (callOut L (uses L e us) sharing arrays backend o).1 = .ok T' ∧ SameArray T T') ∧
        (usesBlas (!he) s.blas = true → out = [] → (callOut L (uses L e us) sharing arrays backend o).1 = .error .index) ∧
        (usesBlas (!he) s.blas = false → sharing = false → (callOut L (uses L e us) sharing arrays backend o).1 = .ok T) ∧
        (usesBlas (!he) s.blas = false → sharing = true → (callOut L (uses L e us) sharing arrays backend o).1 = .ok o)) := by
  obtain ⟨shapes, inp', out', info, hb⟩ := contractExpression_inv hbuild
  have hsh := shapes_of_merge hb hm hs
  have hpi := hb.parse
  rw [← hsh, hparse] at hpi
  cases hpi
  have hcp := hc inp out info hparse (by rw [hsh]; exact hb.path)
  obtain ⟨he, h1, h2, h3⟩ := callOut_merged L hb hcp (uses_inv L (built_inv L hb) us) hm hv hp hauto hname hT sharing o
  have hinds := contractPath_inds hb.path
  have hne : info.contractionList ≠ [] := by
    intro h0
    rw [h0] at hinds
    cases hpp : info.path with
    | nil => rw [hpp] at hcp; simp [CompletePath] at hcp
    | cons a b => rw [hpp] at hinds; simp at hinds
  have hlast : info.contractionList.getLast? = some (info.contractionList.getLast hne) := List.getLast?_eq_some_getLast hne
  have hol : (ops.map Arr.tensor).length = items.length := by rw [List.length_map, (merge_count hm).2]; simp [slots]
  have hnil : o.shape = [] ↔ out = [] := by
    rw [ho, ← List.length_eq_zero_iff, hrank, List.length_eq_zero_iff]
  obtain ⟨k1, k2, k3, k4⟩ := coreOut_spec (sharing := sharing) (parse_labels hparse).2.1 ho hrank hinds (by rw [hol]; exact hcp) h2 _ hlast
    (last_split hb.parse hb.path hlast)
  refine ⟨he, _, h1, by rw [hb.list]; exact hlast, ?_, ?_⟩
  · intro hcond
    rw [h3, if_pos hcond]
    unfold assignAll
    rw [if_pos ho.symm]
  · intro hcond
    rw [h3, if_neg hcond]
    exact ⟨fun g1 g2 => k1 g1 (fun g => g2 (hnil.mp g)), fun g1 g2 => k2 g1 (hnil.mpr g2), k3, k4⟩

-- C10 for expressions: `expr(c, out=o)` after the constants of 'ab,bc,cd->ad' were evaluated, also inside a sharing context (the last step is a
-- BLAS step)
example : ∃ e, contractExpression (S "ab,bc,cd->ad") demoItems [0, 1] (.path [[0, 1], [0, 1]]) .none true = .ok e ∧
    (callOut demoLib (uses demoLib e [.evaluate none]) true [demoC] none ⟨[2, 3], fun _ => 0⟩).1.map
      (fun T => (T.shape, T.val [1, 0])) = .ok ([2, 3], 14) := ⟨_, rfl, by decide +kernel⟩

end OE.Props
