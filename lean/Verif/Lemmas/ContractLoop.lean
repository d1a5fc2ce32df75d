import Verif.Lemmas.ContractStep

/-! Planning and executing a complete path. -/

namespace OE.Contract
open OE OE.Py OE.Parser OE.Helpers OE.Blas OE.Spec OE.Props
variable {R : Type} [CommSemiring R]

/-- The planner's state for labelled operands. -/
def stateOf (ops : List (Str × Tensor R)) : PathState :=
  { inputs := ops.map Prod.fst, sets := (ops.map Prod.fst).map List.toFinset, shapes := (ops.map Prod.snd).map Tensor.shape }

/-- The recorded output of a step on labelled operands. -/
def outOf (useBlas : Bool) (output : Str) (d : Dict Nat Nat) (p : List Nat) (isLast : Bool) (P Q : List (Str × Tensor R)) : StepOut :=
  { step := stepOf useBlas output p isLast (P.map Prod.fst) (Q.map Prod.fst) ((P.map Prod.snd).map Tensor.shape),
    cost := (∏ c ∈ (P.map Prod.fst).flatten.toFinset, dsize d c) *
      opFactor (decide ((P.map Prod.fst).flatten.toFinset \ needed (P.map Prod.fst) (Q.map Prod.fst) output ≠ ∅)) p.length,
    scale := (P.map Prod.fst).flatten.toFinset.card,
    size := ∏ c ∈ needed (P.map Prod.fst) (Q.map Prod.fst) output, dsize d c }

/-- The result tensor is the contraction of all operands. -/
structure IsTotal (size : Nat → Nat) (output : Str) (ops : List (Str × Tensor R)) (T : Tensor R) : Prop where
  shape : T.shape = output.map size
  get : ∀ env, T.get (output.map env) = totalSum size output ops env

/-- Two steps that differ at most in that the first one is not done with BLAS. -/
def Weaker (s s' : Step) : Prop := s = s' ∨ s = { s' with blas := .no }

/-- The three possible outcomes of executing a plan. -/
def Outcome (size : Nat → Nat) (output : Str) (ops : List (Str × Tensor R)) (noEinsum : Bool) (outs : List StepOut) (steps : List Step)
    (res : Except PyErr (List (Tensor R))) : Prop :=
  (∃ T, res = .ok [T] ∧ IsTotal size output ops T) ∨
  (res = .error .attribute ∧ noEinsum = true ∧ ∃ s ∈ steps, s.blas = .no) ∨
  (res = .error .value ∧ noEinsum = false ∧ (∃ o ∈ outs, 52 < o.scale) ∧
    ∀ L : List Nat, (∀ c, Occurs ops c → c ∈ L) → 52 < L.length)

theorem completePath_ne {n : Nat} {path : List (List Nat)} (h : CompletePath n path) : path ≠ [] := by
  rintro rfl; exact h

theorem pathLoop_coreLoop {size : Nat → Nat} {output : Str} {d : Dict Nat Nat} (hn : output.Nodup) (useBlas noEinsum : Bool)
    (path : List (List Nat)) : ∀ (ops : List (Str × Tensor R)), Inv size output ops →
    (∀ c, Occurs ops c → (d.get? c).isSome) → CompletePath ops.length path →
    ∃ st outs, pathLoop useBlas output d (stateOf ops) path = .ok (st, outs) ∧
      ∀ steps, List.Forall₂ Weaker steps (outs.map StepOut.step) →
        Outcome size output ops noEinsum outs steps (coreLoop noEinsum steps (ops.map Prod.snd)) := by
  induction path with
  | nil => intro ops _ _ h; exact absurd h (by simp [CompletePath])
  | cons p ps ih =>
    intro ops hinv hd hpath
    have hvalid : ValidStep ops.length p := by
      cases ps with
      | nil => exact hpath.1
      | cons q qs => exact hpath.1
    obtain ⟨hpne, hpnd, hplt⟩ := hvalid
    obtain ⟨P, Q, hpop⟩ := popAll_valid hpnd hplt
    have hperm := popAll_perm hpop
    have hlen := popAll_length hpop
    rw [sortedDesc_length] at hlen
    have hPne : P ≠ [] := by
      rintro rfl
      exact hpne (List.length_eq_zero_iff.mp (by simpa using hlen.1.symm))
    have hinv' : Inv size output (P ++ Q) := hinv.perm hperm.symm
    have hlast : ps.isEmpty = true → Q = [] := by
      intro he
      cases ps with
      | nil =>
        have : p.length = ops.length := hpath.2
        apply List.length_eq_zero_iff.mp
        omega
      | cons q qs => simp at he
    set r := resultTerm ps.isEmpty (P.map Prod.fst) (Q.map Prod.fst) output with hr
    have hrm : ∀ c, c ∈ r ↔ Occurs P c ∧ (c ∈ output ∨ Occurs Q c) := fun c => mem_resultTerm hlast hinv'.out
    have hshp := findOutputShape_step hinv' (P := P) (fun p hp => List.mem_append_left _ hp) (r := r) (fun c hc => ((hrm c).mp hc).1)
    have hdP : ∀ c ∈ (P.map Prod.fst).flatten, (d.get? c).isSome := by
      intro c hc
      apply hd
      rw [← Occurs_perm hperm, Occurs_append]
      left
      rw [← occurs_iff]
      rwa [List.mem_flatten] at hc
    have hstep := pathStep_eq (useBlas := useBlas) (isLast := ps.isEmpty) (st := stateOf ops) (p := p) rfl
      (popAll_map_ok Prod.fst hpop) (popAll_map_ok Tensor.shape (popAll_map_ok Prod.snd hpop)) hpne hdP hshp
    have hscale : ∀ n, (∀ L : List Nat, (∀ c, Occurs P c → c ∈ L) → n < L.length) → n < (P.map Prod.fst).flatten.toFinset.card := by
      intro n h
      have := h (P.map Prod.fst).flatten.toFinset.toList (by
        intro c hc
        rw [Finset.mem_toList, List.mem_toFinset, List.mem_flatten, occurs_iff]; exact hc)
      rwa [Finset.length_toList] at this
    have hPocc : ∀ c, Occurs P c → Occurs ops c := fun c hc =>
      (Occurs_perm hperm c).mp ((Occurs_append P Q c).mpr (Or.inl hc))
    have hocc : ∀ (T : Tensor R) c, Occurs (Q ++ [(r, T)]) c → Occurs ops c := by
      intro T c hc
      rw [Occurs_append] at hc
      rcases hc with hc | ⟨x, hx, hc⟩
      · exact (Occurs_perm hperm c).mp ((Occurs_append P Q c).mpr (Or.inr hc))
      · rw [List.mem_singleton] at hx
        subst hx
        exact hPocc c ((hrm c).mp hc).1
    have hweak : ∀ s, Weaker s (outOf useBlas output d p ps.isEmpty P Q).step → ∃ ub, s = (outOf ub output d p ps.isEmpty P Q).step := by
      rintro s (rfl | rfl)
      · exact ⟨useBlas, rfl⟩
      · exact ⟨false, by simp [outOf, stepOf]⟩
    -- the rest of the plan, for any tensor of the right shape
    cases ps with
    | nil =>
      have hloop : ∃ st, pathLoop useBlas output d (stateOf ops) [p] = .ok (st, [outOf useBlas output d p true P Q]) := by
        simp only [pathLoop]
        rw [hstep]
        exact ⟨_, rfl⟩
      obtain ⟨st, hloop⟩ := hloop
      refine ⟨st, [outOf useBlas output d p true P Q], hloop, ?_⟩
      · intro steps hsteps
        rw [List.map_cons, List.map_nil] at hsteps
        obtain ⟨s, _, hs, hnil, rfl⟩ := List.forall₂_cons_right_iff.mp hsteps
        cases hnil
        obtain ⟨ub, rfl⟩ := hweak s hs
        have hres := stepResult_contraction hinv' hPne hn hlast ub noEinsum p
        simp only [coreLoop, bind, Except.bind, List.isEmpty_nil]
        rw [show popAll (outOf ub output d p true P Q).step.inds (ops.map Prod.snd) = .ok (P.map Prod.snd, Q.map Prod.snd) from
          popAll_map_ok Prod.snd hpop]
        simp only
        have hQ : Q = [] := hlast rfl
        subst hQ
        rcases hres with ⟨T, h1, h2⟩ | ⟨h1, h2, h3⟩ | ⟨h1, h2, h3⟩
        · left
          refine ⟨T, by rw [show stepResult noEinsum (outOf ub output d p true P []).step (P.map Prod.snd) = .ok T from h1]; rfl, ?_, ?_⟩
          · rw [h2.shape]
            show output.map _ = _
            apply List.map_congr_left
            intro c hc
            apply localSize_removed hinv'
            · have := hinv'.out c hc
              simpa using this
            · rintro ⟨q, hq, _⟩; simp at hq
          · intro env
            have h3 := h2.get env
            rw [← totalSum_perm hperm, List.append_nil]
            exact h3
        · right; left
          exact ⟨by rw [show stepResult noEinsum (outOf ub output d p true P []).step (P.map Prod.snd) = _ from h1], h2, _,
            List.mem_cons_self, h3⟩
        · right; right
          exact ⟨by rw [show stepResult noEinsum (outOf ub output d p true P []).step (P.map Prod.snd) = _ from h1], h2,
            ⟨_, List.mem_cons_self, hscale 52 h3⟩, fun L hL => h3 L (fun c hc => hL c (hPocc c hc))⟩
    | cons q qs =>
      have hcp : CompletePath (ops.length + 1 - p.length) (q :: qs) := hpath.2
      -- a tensor with the planned shape exists even if the execution fails
      have hexT : ∃ T : Tensor R, IsContraction size P r T := by
        obtain ⟨T, _, hT⟩ := einsumCore_contraction (size := size) (r := r)
          (hinv'.fits.sub (P := P) (fun p hp => List.mem_append_left _ hp)) (resultTerm_nodup hn)
          (fun c hc => ((hrm c).mp hc).1)
          (fun c hc hcr => localSize_removed hinv' hc (fun hQ => hcr ((hrm c).mpr ⟨hc, Or.inr hQ⟩)))
        exact ⟨T, hT⟩
      have hstate : ∀ T : Tensor R, IsContraction size P r T →
          ({ inputs := Q.map Prod.fst ++ [r], sets := (Q.map Prod.fst).map List.toFinset ++ [needed (P.map Prod.fst) (Q.map Prod.fst) output],
             shapes := (Q.map Prod.snd).map Tensor.shape ++ [r.map (localSize P)] } : PathState) = stateOf (Q ++ [(r, T)]) := by
        intro T hT
        unfold stateOf
        have hset : needed (P.map Prod.fst) (Q.map Prod.fst) output = r.toFinset := by
          ext c
          rw [mem_needed', List.mem_toFinset, hrm]
        simp only [List.map_append, List.map_cons, List.map_nil, hT.shape, hset]
      have hnext : ∀ T : Tensor R, IsContraction size P r T →
          ∃ st outs, pathLoop useBlas output d (stateOf (Q ++ [(r, T)])) (q :: qs) = .ok (st, outs) ∧
            ∀ steps, List.Forall₂ Weaker steps (outs.map StepOut.step) → Outcome size output (Q ++ [(r, T)]) noEinsum outs steps
              (coreLoop noEinsum steps ((Q ++ [(r, T)]).map Prod.snd)) := by
        intro T hT
        apply ih _ (hinv'.next hn hlast hT)
        · intro c hc
          exact hd c (hocc T c hc)
        · have : (Q ++ [(r, T)]).length = ops.length + 1 - p.length := by
            rw [List.length_append, List.length_singleton]; omega
          rw [this]; exact hcp
      obtain ⟨T0, hT0⟩ := hexT
      obtain ⟨st, outs, hl, _⟩ := hnext T0 hT0
      rw [← hstate T0 hT0] at hl
      have hloop : pathLoop useBlas output d (stateOf ops) (p :: q :: qs) = .ok (st, outOf useBlas output d p false P Q :: outs) := by
        rw [pathLoop, hstep]
        simp only [bind, Except.bind]
        rw [hl]
        rfl
      refine ⟨st, outOf useBlas output d p false P Q :: outs, hloop, ?_⟩
      intro steps hsteps
      rw [List.map_cons] at hsteps
      obtain ⟨s, steps', hs, hsteps', rfl⟩ := List.forall₂_cons_right_iff.mp hsteps
      obtain ⟨ub, rfl⟩ := hweak s hs
      have hres := stepResult_contraction hinv' hPne hn hlast ub noEinsum p
      simp only [coreLoop, bind, Except.bind, List.isEmpty_cons]
      rw [show popAll (outOf ub output d p false P Q).step.inds (ops.map Prod.snd) = .ok (P.map Prod.snd, Q.map Prod.snd) from
        popAll_map_ok Prod.snd hpop]
      simp only
      rcases hres with ⟨T, h1, h2⟩ | ⟨h1, h2, h3⟩ | ⟨h1, h2, h3⟩
      · rw [show stepResult noEinsum (outOf ub output d p false P Q).step (P.map Prod.snd) = .ok T from h1]
        simp only
        obtain ⟨st', outs', hl', ho⟩ := hnext T h2
        rw [← hstate T h2, hl] at hl'
        simp only [Except.ok.injEq, Prod.mk.injEq] at hl'
        obtain ⟨-, rfl⟩ := hl'
        replace ho := ho steps' hsteps'
        rw [List.map_append, List.map_singleton] at ho
        rcases ho with ⟨T', g1, g2⟩ | ⟨g1, g2, o, ho, g3⟩ | ⟨g1, g2, ⟨o, ho, g3⟩, g4⟩
        · left
          refine ⟨T', g1, g2.shape, ?_⟩
          intro env
          rw [g2.get env, totalSum_next hinv' hlast h2, totalSum_perm hperm]
        · right; left; exact ⟨g1, g2, o, by simp [ho], g3⟩
        · right; right
          exact ⟨g1, g2, ⟨o, by simp [ho], g3⟩, fun L hL => g4 L (fun c hc => hL c (hocc T c hc))⟩
      · right; left
        rw [show stepResult noEinsum (outOf ub output d p false P Q).step (P.map Prod.snd) = .error .attribute from h1]
        exact ⟨rfl, h2, _, List.mem_cons_self, h3⟩
      · right; right
        rw [show stepResult noEinsum (outOf ub output d p false P Q).step (P.map Prod.snd) = .error .value from h1]
        exact ⟨rfl, h2, ⟨_, List.mem_cons_self, hscale 52 h3⟩, fun L hL => h3 L (fun c hc => hL c (hPocc c hc))⟩

end OE.Contract
