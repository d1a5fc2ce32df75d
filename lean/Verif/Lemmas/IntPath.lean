import Verif.Lemmas.ContractLoop
import Verif.Model.IntPath
import Verif.Spec.IntPath

/-! Planning and executing a path of integers. -/

namespace OE.Contract
open OE OE.Py OE.Parser OE.Helpers OE.Blas OE.Spec OE.Props

/-- The non-negative position meant by an integer. -/
def resolve1 (n : Nat) (x : Int) : Nat := if 0 ≤ x then x.toNat else if 0 ≤ x + n then (x + n).toNat else n

theorem popInt_eq {α : Type} (l : List α) (x : Int) : popInt l x = pop l (resolve1 l.length x) := by
  unfold popInt resolve1
  split
  · rfl
  · split
    · rfl
    · simp [pop]

theorem resolve1_lt {n : Nat} {x : Int} : resolve1 n x < n ↔ -(n : Int) ≤ x ∧ x < n := by
  unfold resolve1
  split
  · omega
  · split <;> omega

/-- The non-negative positions meant by integers used one after the other. -/
def resolve : Nat → List Int → List Nat
  | _, [] => []
  | n, x :: xs => resolve1 n x :: resolve (n - 1) xs

theorem popAllInt_eq {α : Type} (xs : List Int) (l : List α) : popAllInt xs l = popAll (resolve l.length xs) l := by
  induction xs generalizing l with
  | nil => rfl
  | cons x xs ih =>
    simp only [popAllInt, popAll, resolve, popInt_eq]
    cases h : pop l (resolve1 l.length x) with
    | error e => rfl
    | ok r =>
      obtain ⟨a, l'⟩ := r
      simp only [bind, Except.bind]
      have hl : l'.length = l.length - 1 := by
        unfold pop at h
        split at h
        · rename_i a' ha
          cases h
          rw [List.length_eraseIdx_of_lt (List.getElem?_eq_some_iff.mp ha).1]
        · cases h
      rw [ih, hl]

theorem resolve_length (n : Nat) (xs : List Int) : (resolve n xs).length = xs.length := by
  induction xs generalizing n with
  | nil => rfl
  | cons x xs ih => simp [resolve, ih]

theorem popsInRange_cons {n : Nat} {x : Int} {xs : List Int} :
    PopsInRange n (x :: xs) ↔ (0 < n ∧ -(n : Int) ≤ x ∧ x < n) ∧ PopsInRange (n - 1) xs := by
  unfold PopsInRange
  constructor
  · intro h
    refine ⟨by simpa using h 0 x rfl, ?_⟩
    intro k y hy
    have := h (k + 1) y (by simpa using hy)
    have e : n - (k + 1) = n - 1 - k := by omega
    rw [e] at this
    exact ⟨by omega, this.2⟩
  · rintro ⟨h0, h⟩ k y hy
    cases k with
    | zero =>
      simp only [List.getElem?_cons_zero, Option.some.injEq] at hy
      subst hy
      simpa using h0
    | succ k =>
      have := h k y (by simpa using hy)
      have e : n - (k + 1) = n - 1 - k := by omega
      rw [e]
      exact ⟨by omega, this.2⟩

theorem popAllInt_ok_iff {α : Type} {xs : List Int} {l : List α} : (∃ P Q, popAllInt xs l = .ok (P, Q)) ↔ PopsInRange l.length xs := by
  rw [popAllInt_eq]
  induction xs generalizing l with
  | nil => simp [resolve, popAll_nil, PopsInRange]
  | cons x xs ih =>
    rw [popsInRange_cons, resolve, popAll_cons]
    by_cases hx : resolve1 l.length x < l.length
    · rw [List.getElem?_eq_getElem hx]
      simp only
      have hl : (l.eraseIdx (resolve1 l.length x)).length = l.length - 1 := List.length_eraseIdx_of_lt hx
      have := ih (l := l.eraseIdx (resolve1 l.length x))
      rw [hl] at this
      rw [← this]
      have h0 : (0 < l.length ∧ -(l.length : Int) ≤ x ∧ x < l.length) := ⟨by omega, resolve1_lt.mp hx⟩
      simp only [h0, true_and]
      constructor
      · rintro ⟨P, Q, h⟩
        cases hp : popAll (resolve (l.length - 1) xs) (l.eraseIdx (resolve1 l.length x)) with
        | error e => rw [hp] at h; cases h
        | ok r => exact ⟨r.1, r.2, rfl⟩
      · rintro ⟨P, Q, h⟩
        exact ⟨_, _, by rw [h]⟩
    · rw [List.getElem?_eq_none (by omega)]
      constructor
      · rintro ⟨P, Q, h⟩; cases h
      · rintro ⟨h0, -⟩; exact absurd (resolve1_lt.mpr h0.2) hx

theorem popAllInt_map_ok {α β : Type} (f : α → β) {xs : List Int} {l P Q : List α} (h : popAllInt xs l = .ok (P, Q)) :
    popAllInt xs (l.map f) = .ok (P.map f, Q.map f) := by
  rw [popAllInt_eq] at h ⊢
  rw [List.length_map]
  exact popAll_map_ok f h

theorem popAllInt_perm {α : Type} {xs : List Int} {l P Q : List α} (h : popAllInt xs l = .ok (P, Q)) : (P ++ Q).Perm l := by
  rw [popAllInt_eq] at h
  exact popAll_perm h

theorem popAllInt_length {α : Type} {xs : List Int} {l P Q : List α} (h : popAllInt xs l = .ok (P, Q)) :
    P.length = xs.length ∧ P.length + Q.length = l.length := by
  rw [popAllInt_eq] at h
  have := popAll_length h
  rwa [resolve_length] at this

theorem sortedDescInt_perm (l : List Int) : (sortedDescInt l).Perm l := List.perm_insertionSort _ l

theorem sortedDescInt_pairwise (l : List Int) : (sortedDescInt l).Pairwise (· ≥ ·) := List.pairwise_insertionSort _ l

theorem sortedDescInt_of_pairwise {l : List Int} (h : l.Pairwise (· ≥ ·)) : sortedDescInt l = l :=
  (sortedDescInt_perm l).eq_of_pairwise (le := (· ≥ ·)) (fun _ _ _ _ h1 h2 => le_antisymm h2 h1) (sortedDescInt_pairwise l) h

theorem sortedDescInt_idem (l : List Int) : sortedDescInt (sortedDescInt l) = sortedDescInt l :=
  sortedDescInt_of_pairwise (sortedDescInt_pairwise l)

theorem stepOfInts_iff {n : Nat} {p : List Int} : StepOfInts n p ↔ p ≠ [] ∧ PopsInRange n (sortedDescInt p) := by
  unfold StepOfInts
  apply and_congr_right
  intro _
  constructor
  · rintro ⟨xs, h1, h2, h3⟩
    have : sortedDescInt p = xs :=
      ((sortedDescInt_perm p).trans h1.symm).eq_of_pairwise (le := (· ≥ ·)) (fun _ _ _ _ h1 h2 => le_antisymm h2 h1)
        (sortedDescInt_pairwise p) h2
    rw [this]
    exact h3
  · intro h
    exact ⟨_, sortedDescInt_perm p, sortedDescInt_pairwise p, h⟩

theorem findContractionInt_ok {p : List Int} {inputs tI rI : List Str} {out : Finset Nat}
    (h : popAllInt (sortedDescInt p) inputs = .ok (tI, rI)) (hne : p ≠ []) :
    findContractionInt p (inputs.map List.toFinset) out = .ok
      { newResult := (rI.flatten.toFinset ∪ out) ∩ tI.flatten.toFinset,
        remaining := rI.map List.toFinset ++ [(rI.flatten.toFinset ∪ out) ∩ tI.flatten.toFinset],
        idxRemoved := tI.flatten.toFinset \ ((rI.flatten.toFinset ∪ out) ∩ tI.flatten.toFinset),
        idxContract := tI.flatten.toFinset } := by
  unfold findContractionInt
  rw [popAllInt_map_ok _ h]
  simp only [bind, Except.bind]
  have hlen := (popAllInt_length h).1
  have : tI.map List.toFinset ≠ [] := by
    intro e
    have e' : tI = [] := by simpa using e
    rw [e', (sortedDescInt_perm p).length_eq] at hlen
    exact hne (by simpa using hlen.symm)
  cases htI : tI.map List.toFinset with
  | nil => exact absurd htI this
  | cons a b =>
    simp only
    rw [← htI, foldr_union_map, foldr_union_map]
    simp

theorem pathStepInt_eq {useBlas : Bool} {output : Str} {d : Dict Nat Nat} {st : PathState} {p : List Int} {isLast : Bool}
    {tI rI : List Str} {tS rS : List Shape} {shp : Shape}
    (hsets : st.sets = st.inputs.map List.toFinset)
    (h1 : popAllInt (sortedDescInt p) st.inputs = .ok (tI, rI)) (h2 : popAllInt (sortedDescInt p) st.shapes = .ok (tS, rS))
    (hne : p ≠ []) (hd : ∀ c ∈ tI.flatten, (d.get? c).isSome)
    (hshp : findOutputShape tI tS (resultTerm isLast tI rI output) = .ok shp) :
    pathStepInt useBlas output d st p isLast = .ok
      ({ inputs := rI ++ [resultTerm isLast tI rI output],
         sets := rI.map List.toFinset ++ [needed tI rI output], shapes := rS ++ [shp] },
       sortedDescInt p,
       { step := stepOf useBlas output [] isLast tI rI tS,
         cost := (∏ c ∈ tI.flatten.toFinset, dsize d c) * opFactor (decide (tI.flatten.toFinset \ needed tI rI output ≠ ∅)) p.length,
         scale := tI.flatten.toFinset.card,
         size := ∏ c ∈ needed tI rI output, dsize d c }) := by
  unfold pathStepInt
  have hf := findContractionInt_ok (p := sortedDescInt p) (out := output.toFinset) (by rw [sortedDescInt_idem]; exact h1)
    (by intro e; exact hne (by have := (sortedDescInt_perm p).length_eq; rw [e] at this; exact List.length_eq_zero_iff.mp this.symm))
  rw [← hsets] at hf
  have hc1 : ∀ c ∈ tI.flatten.toFinset, c ∈ tI.flatten := fun c hc => List.mem_toFinset.mp hc
  have hc2 : ∀ c ∈ tI.flatten.toFinset, (d.get? c).isSome := fun c hc => hd c (hc1 c hc)
  have hn : ∀ c ∈ needed tI rI output, c ∈ tI.flatten.toFinset := fun c hc => (Finset.mem_inter.mp hc).2
  simp only [hf, bind, Except.bind, h1, h2]
  rw [flopCount_enum hc1 hc2]
  simp only
  rw [computeSize_enum (s := (rI.flatten.toFinset ∪ output.toFinset) ∩ tI.flatten.toFinset)
    (fun c hc => hc1 c (hn c hc)) (fun c hc => hc2 c (hn c hc))]
  simp only
  have hr : (if isLast = true then output else tensordotOrder tI.flatten ((rI.flatten.toFinset ∪ output.toFinset) ∩ tI.flatten.toFinset))
      = resultTerm isLast tI rI output := rfl
  rw [hr, hshp]
  simp only [(sortedDescInt_perm p).length_eq]
  rfl

/-- A path whose steps are not all possible is refused. -/
theorem pathLoopInt_valid {useBlas : Bool} {output : Str} {d : Dict Nat Nat} (path : List (List Int)) :
    ∀ {st st' : PathState} {outs : List (List Int × StepOut)}, pathLoopInt useBlas output d st path = .ok (st', outs) →
      PathOfInts st.sets.length path := by
  induction path with
  | nil => intro _ _ _ _; trivial
  | cons p ps ih =>
    intro st st' outs h
    simp only [pathLoopInt, bind, Except.bind] at h
    cases hs : pathStepInt useBlas output d st p ps.isEmpty with
    | error e => rw [hs] at h; cases h
    | ok r =>
      rw [hs] at h
      obtain ⟨st₁, xs, o⟩ := r
      simp only at h
      cases hl : pathLoopInt useBlas output d st₁ ps with
      | error e => rw [hl] at h; cases h
      | ok r₂ =>
        have h2 := ih hl
        unfold pathStepInt at hs
        simp only [bind, Except.bind] at hs
        cases hf : findContractionInt (sortedDescInt p) st.sets output.toFinset with
        | error e => rw [hf] at hs; cases hs
        | ok c =>
          rw [hf] at hs
          have hsets : st₁.sets = c.remaining := by
            simp only at hs
            repeat' (split at hs)
            all_goals first | cases hs; rfl | cases hs
          unfold findContractionInt at hf
          simp only [bind, Except.bind, sortedDescInt_idem] at hf
          cases hp : popAllInt (sortedDescInt p) st.sets with
          | error e => rw [hp] at hf; cases hf
          | ok PQ =>
            obtain ⟨P, Q⟩ := PQ
            rw [hp] at hf
            simp only at hf
            have hlen := popAllInt_length hp
            rw [(sortedDescInt_perm p).length_eq] at hlen
            have hne : p ≠ [] := by
              rintro rfl
              have : P = [] := List.length_eq_zero_iff.mp hlen.1
              subst this
              cases hf
            have hrem : c.remaining.length = st.sets.length + 1 - p.length := by
              split at hf
              · cases hf
              · cases hf
                simp only [List.length_append, List.length_singleton]
                omega
            refine ⟨stepOfInts_iff.mpr ⟨hne, popAllInt_ok_iff.mp ⟨P, Q, hp⟩⟩, ?_⟩
            rw [← hrem, ← hsets]
            exact h2

variable {R : Type} [CommSemiring R]

/-- The possible outcomes of executing a plan. -/
def OutcomeInt (size : Nat → Nat) (output : Str) (ops : List (Str × Tensor R)) (noEinsum : Bool) (outs : List (List Int × StepOut))
    (res : Except PyErr (List (Tensor R))) : Prop :=
  (∃ T, res = .ok [T] ∧ IsTotal size output ops T) ∨
  (res = .error .attribute ∧ noEinsum = true ∧ ∃ o ∈ outs, o.2.step.blas = .no) ∨
  (res = .error .value ∧ noEinsum = false ∧ ∀ L : List Nat, (∀ c, Occurs ops c → c ∈ L) → 52 < L.length)

theorem pathLoopInt_coreLoopInt {size : Nat → Nat} {output : Str} {d : Dict Nat Nat} (hn : output.Nodup) (useBlas noEinsum : Bool)
    (path : List (List Int)) : ∀ (ops : List (Str × Tensor R)), Inv size output ops →
    (∀ c, Occurs ops c → (d.get? c).isSome) → CompleteInts ops.length path →
    ∃ st outs, pathLoopInt useBlas output d (stateOf ops) path = .ok (st, outs) ∧
      OutcomeInt size output ops noEinsum outs (coreLoopInt noEinsum (outs.map fun o => (o.1, o.2.step)) (ops.map Prod.snd)) := by
  induction path with
  | nil => intro ops _ _ h; exact absurd rfl h.1
  | cons p ps ih =>
    intro ops hinv hd hpath
    obtain ⟨-, ⟨hv, hps⟩, hleft⟩ := hpath
    obtain ⟨hpne, hrange⟩ := stepOfInts_iff.mp hv
    obtain ⟨P, Q, hpop⟩ := popAllInt_ok_iff.mpr hrange
    have hperm := popAllInt_perm hpop
    have hlen := popAllInt_length hpop
    rw [(sortedDescInt_perm p).length_eq] at hlen
    have hPne : P ≠ [] := by
      rintro rfl
      exact hpne (List.length_eq_zero_iff.mp (by simpa using hlen.1.symm))
    have hinv' : Inv size output (P ++ Q) := hinv.perm hperm.symm
    have hlast : ps.isEmpty = true → Q = [] := by
      intro he
      cases ps with
      | nil =>
        have : ops.length + 1 - p.length = 1 := hleft
        apply List.length_eq_zero_iff.mp
        omega
      | cons q qs => simp at he
    set r := resultTerm ps.isEmpty (P.map Prod.fst) (Q.map Prod.fst) output with hr
    have hrm : ∀ c, c ∈ r ↔ Occurs P c ∧ (c ∈ output ∨ Occurs Q c) := fun c => mem_resultTerm hlast hinv'.out
    have hshp := findOutputShape_step hinv' (P := P) (fun p hp => List.mem_append_left _ hp) (r := r) (fun c hc => ((hrm c).mp hc).1)
    have hdP : ∀ c ∈ (P.map Prod.fst).flatten, (d.get? c).isSome := by
      intro c hc
      apply hd
      rw [← Occurs_perm hperm, Occurs_append]
      left
      rw [← occurs_iff]
      rwa [List.mem_flatten] at hc
    have hstep := pathStepInt_eq (useBlas := useBlas) (isLast := ps.isEmpty) (st := stateOf ops) (p := p) rfl
      (popAllInt_map_ok Prod.fst hpop) (popAllInt_map_ok Tensor.shape (popAllInt_map_ok Prod.snd hpop)) hpne hdP hshp
    have hPocc : ∀ c, Occurs P c → Occurs ops c := fun c hc =>
      (Occurs_perm hperm c).mp ((Occurs_append P Q c).mpr (Or.inl hc))
    have hocc : ∀ (T : Tensor R) c, Occurs (Q ++ [(r, T)]) c → Occurs ops c := by
      intro T c hc
      rw [Occurs_append] at hc
      rcases hc with hc | ⟨x, hx, hc⟩
      · exact (Occurs_perm hperm c).mp ((Occurs_append P Q c).mpr (Or.inr hc))
      · rw [List.mem_singleton] at hx
        subst hx
        exact hPocc c ((hrm c).mp hc).1
    have hres := stepResult_contraction hinv' hPne hn hlast useBlas noEinsum []
    set o : StepOut :=
      { step := stepOf useBlas output [] ps.isEmpty (P.map Prod.fst) (Q.map Prod.fst) ((P.map Prod.snd).map Tensor.shape),
        cost := (∏ c ∈ (P.map Prod.fst).flatten.toFinset, dsize d c) *
          opFactor (decide ((P.map Prod.fst).flatten.toFinset \ needed (P.map Prod.fst) (Q.map Prod.fst) output ≠ ∅)) p.length,
        scale := (P.map Prod.fst).flatten.toFinset.card,
        size := ∏ c ∈ needed (P.map Prod.fst) (Q.map Prod.fst) output, dsize d c } with ho
    have hcore : ∀ outs : List (List Int × StepOut),
        coreLoopInt noEinsum (((sortedDescInt p, o) :: outs).map fun o => (o.1, o.2.step)) (ops.map Prod.snd) =
          match stepResult noEinsum o.step (P.map Prod.snd) with
          | .ok T => coreLoopInt noEinsum (outs.map fun o => (o.1, o.2.step)) (Q.map Prod.snd ++ [T])
          | .error e => .error e := by
      intro outs
      simp only [List.map_cons, coreLoopInt, bind, Except.bind]
      rw [popAllInt_map_ok Prod.snd hpop]
      simp only
      cases stepResult noEinsum o.step (P.map Prod.snd) <;> rfl
    have hloop : pathLoopInt useBlas output d (stateOf ops) (p :: ps) =
        match pathLoopInt useBlas output d
          { inputs := Q.map Prod.fst ++ [r], sets := (Q.map Prod.fst).map List.toFinset ++ [needed (P.map Prod.fst) (Q.map Prod.fst) output],
            shapes := (Q.map Prod.snd).map Tensor.shape ++ [r.map (localSize P)] } ps with
        | .ok (st, outs) => .ok (st, (sortedDescInt p, o) :: outs)
        | .error e => .error e := by
      rw [pathLoopInt, hstep]
      simp only [bind, Except.bind]
      split <;> simp_all
    cases hps' : ps with
    | nil =>
      subst hps'
      have hQ : Q = [] := hlast rfl
      subst hQ
      rw [hloop]
      refine ⟨_, _, rfl, ?_⟩
      rw [hcore]
      rcases hres with ⟨T, h1, h2⟩ | ⟨h1, h2, h3⟩ | ⟨h1, h2, h3⟩
      · left
        refine ⟨T, by rw [show stepResult noEinsum o.step (P.map Prod.snd) = .ok T from h1]; rfl, ?_, ?_⟩
        · rw [h2.shape]
          show output.map _ = _
          apply List.map_congr_left
          intro c hc
          apply localSize_removed hinv'
          · have := hinv'.out c hc
            simpa using this
          · rintro ⟨q, hq, _⟩; simp at hq
        · intro env
          have h3 := h2.get env
          rw [← totalSum_perm hperm, List.append_nil]
          exact h3
      · right; left
        exact ⟨by rw [show stepResult noEinsum o.step (P.map Prod.snd) = _ from h1], h2, _, List.mem_cons_self, h3⟩
      · right; right
        exact ⟨by rw [show stepResult noEinsum o.step (P.map Prod.snd) = _ from h1], h2, fun L hL => h3 L (fun c hc => hL c (hPocc c hc))⟩
    | cons q qs =>
      rw [← hps']
      have hne : ps ≠ [] := by rw [hps']; simp
      have hexT : ∃ T : Tensor R, IsContraction size P r T := by
        obtain ⟨T, _, hT⟩ := einsumCore_contraction (size := size) (r := r)
          (hinv'.fits.sub (P := P) (fun p hp => List.mem_append_left _ hp)) (resultTerm_nodup hn)
          (fun c hc => ((hrm c).mp hc).1)
          (fun c hc hcr => localSize_removed hinv' hc (fun hQ => hcr ((hrm c).mpr ⟨hc, Or.inr hQ⟩)))
        exact ⟨T, hT⟩
      have hstate : ∀ T : Tensor R, IsContraction size P r T →
          ({ inputs := Q.map Prod.fst ++ [r], sets := (Q.map Prod.fst).map List.toFinset ++ [needed (P.map Prod.fst) (Q.map Prod.fst) output],
             shapes := (Q.map Prod.snd).map Tensor.shape ++ [r.map (localSize P)] } : PathState) = stateOf (Q ++ [(r, T)]) := by
        intro T hT
        unfold stateOf
        have hset : needed (P.map Prod.fst) (Q.map Prod.fst) output = r.toFinset := by
          ext c
          rw [mem_needed', List.mem_toFinset, hrm]
        simp only [List.map_append, List.map_cons, List.map_nil, hT.shape, hset]
      have hnext : ∀ T : Tensor R, IsContraction size P r T →
          ∃ st outs, pathLoopInt useBlas output d (stateOf (Q ++ [(r, T)])) ps = .ok (st, outs) ∧
            OutcomeInt size output (Q ++ [(r, T)]) noEinsum outs
              (coreLoopInt noEinsum (outs.map fun o => (o.1, o.2.step)) ((Q ++ [(r, T)]).map Prod.snd)) := by
        intro T hT
        have hl : (Q ++ [(r, T)]).length = ops.length + 1 - p.length := by
          rw [List.length_append, List.length_singleton]; omega
        apply ih _ (hinv'.next hn hlast hT)
        · intro c hc
          exact hd c (hocc T c hc)
        · rw [hl]
          exact ⟨hne, hps, hleft⟩
      obtain ⟨T0, hT0⟩ := hexT
      obtain ⟨st, outs, hl, _⟩ := hnext T0 hT0
      rw [← hstate T0 hT0] at hl
      rw [hloop, hl]
      refine ⟨_, _, rfl, ?_⟩
      rw [hcore]
      rcases hres with ⟨T, h1, h2⟩ | ⟨h1, h2, h3⟩ | ⟨h1, h2, h3⟩
      · rw [show stepResult noEinsum o.step (P.map Prod.snd) = .ok T from h1]
        simp only
        obtain ⟨st', outs', hl', hout⟩ := hnext T h2
        rw [← hstate T h2, hl] at hl'
        simp only [Except.ok.injEq, Prod.mk.injEq] at hl'
        obtain ⟨-, rfl⟩ := hl'
        rw [List.map_append, List.map_singleton] at hout
        rcases hout with ⟨T', g1, g2⟩ | ⟨g1, g2, o', ho', g3⟩ | ⟨g1, g2, g4⟩
        · left
          refine ⟨T', g1, g2.shape, ?_⟩
          intro env
          rw [g2.get env, totalSum_next hinv' hlast h2, totalSum_perm hperm]
        · right; left; exact ⟨g1, g2, o', by simp [ho'], g3⟩
        · right; right
          exact ⟨g1, g2, fun L hL => g4 L (fun c hc => hL c (hocc T c hc))⟩
      · right; left
        exact ⟨by rw [show stepResult noEinsum o.step (P.map Prod.snd) = .error .attribute from h1], h2, _, List.mem_cons_self, h3⟩
      · right; right
        exact ⟨by rw [show stepResult noEinsum o.step (P.map Prod.snd) = .error .value from h1], h2,
          fun L hL => h3 L (fun c hc => hL c (hPocc c hc))⟩

end OE.Contract
