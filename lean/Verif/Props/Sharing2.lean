import Verif.Props.Sharing
import Verif.Lemmas.Order

/-! # C43: sharing does share -/

namespace OE.Share
open OE OE.Py OE.Parser OE.Contract OE.Spec OE.Props
variable {R : Type} [CommSemiring R]

/-! ### Calls that only look things up -/

/-- Nothing was executed and nothing is new. -/
structure Same (c : Nat) (w w' : World R) : Prop where
  heap : w'.heap = w.heap
  execs : w'.execs = w.execs
  clock : w'.clock = w.clock
  stack : w'.stack = w.stack
  cache : ∀ k, (cacheOf w' c).get? k = (cacheOf w c).get? k

omit [CommSemiring R] in
theorem Same.refl (c : Nat) (w : World R) : Same c w w := ⟨rfl, rfl, rfl, rfl, fun _ => rfl⟩

omit [CommSemiring R] in
theorem Same.trans {c : Nat} {w₁ w₂ w₃ : World R} (h : Same c w₁ w₂) (h' : Same c w₂ w₃) : Same c w₁ w₃ :=
  ⟨h'.heap.trans h.heap, h'.execs.trans h.execs, h'.clock.trans h.clock, h'.stack.trans h.stack, fun k => (h'.cache k).trans (h.cache k)⟩

omit [CommSemiring R] in
theorem save_same (c : Nat) (ids : List Nat) {w : World R} (h : ∀ i ∈ ids, Saved (cacheOf w c) i) : Same c w (saveTensors c ids w) := by
  induction ids generalizing w with
  | nil => exact Same.refl c w
  | cons i t ih =>
    have h1 : Same c w (putCache c (.tensor i) i w) := by
      refine ⟨rfl, rfl, rfl, rfl, ?_⟩
      intro k
      rw [cacheOf_put, if_pos rfl, OE.Py.Dict.get?_set]
      split
      · rename_i e
        rw [e]
        exact (h i (by simp)).symm
      · rfl
    refine h1.trans (ih ?_)
    intro j hj
    unfold Saved
    rw [h1.cache]
    exact h j (by simp [hj])

/-- In a state that knows at least what `w'` knew, the call returns `a` without doing anything; of the saved arrays only the shapes
matter. -/
def Replays (m : M R Nat) (c : Nat) (w' : World R) (a : Nat) : Prop :=
  ∀ w₂ : World R, w₂.stack.head? = some c → (∀ k x, (cacheOf w' c).get? k = some x → (cacheOf w₂ c).get? k = some x) →
    (∀ i, Saved (cacheOf w' c) i → (w₂.heap i).shape = (w'.heap i).shape) → ∃ w₂', m w₂ = (.ok a, w₂') ∧ Same c w₂ w₂'

omit [CommSemiring R] in
theorem Replays.mono {m : M R Nat} {c : Nat} {w' w'' : World R} {a : Nat} (h : Replays m c w' a)
    (hk : ∀ k x, (cacheOf w' c).get? k = some x → (cacheOf w'' c).get? k = some x)
    (hh : ∀ i, Saved (cacheOf w' c) i → (w''.heap i).shape = (w'.heap i).shape) : Replays m c w'' a := by
  intro w₂ h1 h2 h3
  apply h w₂ h1
  · exact fun k x hx => h2 k x (hk k x hx)
  · intro i hi
    rw [h3 i (hk _ _ hi), hh i hi]

omit [CommSemiring R] in
theorem Replays.ext {m : M R Nat} {c : Nat} {L : List Nat} {w' w'' : World R} {a : Nat} (h : Replays m c w' a) (he : Ext L w' w'') :
    Replays m c w'' a :=
  h.mono (fun k x hx => he.mono c k x hx) (fun i hi => by rw [he.heap i (Or.inr (inUse_of_cache hi))])

omit [CommSemiring R] in
theorem runFn_caches {E : Env R} {L : List Nat} {r : Except PyErr (Tensor R)} {w w' : World R} {o : Except PyErr Nat}
    (h : runFn E L r w = (o, w')) : w'.caches = w.caches := by
  unfold runFn store at h
  cases r with
  | ok T => simp only [Prod.mk.injEq] at h; rw [← h.2]
  | error e => simp only [Prod.mk.injEq] at h; rw [← h.2]

omit [CommSemiring R] in
theorem memoize_put {E : Env R} {L : List Nat} {r : World R → Except PyErr (Tensor R)} {c : Nat} {key : Key} {w w' : World R} {a : Nat}
    (h : memoize c key (fun w => runFn E L (r w) w) w = (.ok a, w')) :
    (cacheOf w' c).get? key = some a ∧ ∀ k, k ≠ key → (cacheOf w' c).get? k = (cacheOf w c).get? k := by
  unfold memoize at h
  cases hc : (cacheOf w c).get? key with
  | some x =>
    rw [hc] at h
    simp only [Prod.mk.injEq, Except.ok.injEq] at h
    obtain ⟨rfl, rfl⟩ := h
    exact ⟨hc, fun _ _ => rfl⟩
  | none =>
    rw [hc] at h
    simp only at h
    rcases hr : runFn E L (r w) w with ⟨o, w₁⟩
    rw [hr] at h
    have hca := runFn_caches hr
    cases o with
    | error e => simp at h
    | ok x =>
      simp only [Prod.mk.injEq, Except.ok.injEq] at h
      obtain ⟨rfl, rfl⟩ := h
      refine ⟨?_, ?_⟩
      · rw [cacheOf_put, if_pos rfl, OE.Py.Dict.get?_set_self]
      · intro k hk
        rw [cacheOf_put, if_pos rfl, OE.Py.Dict.get?_set_ne hk]
        unfold cacheOf
        rw [hca]

omit [CommSemiring R] in
theorem memoize_hit {c : Nat} {key : Key} {run : M R Nat} {w : World R} {a : Nat} (h : (cacheOf w c).get? key = some a) :
    memoize c key run w = (.ok a, w) := by
  unfold memoize
  rw [h]

omit [CommSemiring R] in
/-- A memoized call whose arguments are saved replays. -/
theorem memo_replay {E : Env R} {L : List Nat} {r : World R → Except PyErr (Tensor R)} {c : Nat} {key : Key} (ids : List Nat)
    (hkey : ∀ i, key ≠ .tensor i) {w w' : World R} {a : Nat} (hsv : ∀ i ∈ ids, Saved (cacheOf w c) i)
    (h : memoize c key (fun w => runFn E L (r w) w) w = (.ok a, w')) (run : M R Nat) :
    (∀ i ∈ ids, Saved (cacheOf w' c) i) ∧ Replays (fun w => memoize c key run (saveTensors c ids w)) c w' a := by
  obtain ⟨h1, h2⟩ := memoize_put h
  have hs : ∀ i ∈ ids, Saved (cacheOf w' c) i := by
    intro i hi
    unfold Saved
    rw [h2 _ (hkey i).symm]
    exact hsv i hi
  refine ⟨hs, ?_⟩
  intro w₂ _ hk _
  have hsame := save_same c ids (w := w₂) (fun i hi => hk _ _ (hs i hi))
  refine ⟨_, memoize_hit ?_, hsame⟩
  rw [hsame.cache]
  exact hk _ _ h1

theorem transpose_replay {E : Env R} (L L' : List Nat) (b : Str) (x : Nat) (axes : List Nat) {w w' : World R} (hI : Inv E w)
    {c a : Nat} (hst : w.stack.head? = some c) (h : transpose E L b x axes w = (.ok a, w')) : Replays (transpose E L' b x axes) c w' a := by
  unfold transpose at h
  cases hs : w.stack with
  | nil => rw [hs] at hst; simp at hst
  | cons c' t =>
    have : c' = c := by rw [hs] at hst; simpa using hst
    subst this
    rw [hs] at h
    simp only at h
    obtain ⟨s1, s2, s3, s4, _⟩ := save_spec (E := E) L c' [x] hst hI
    have := (memo_replay (r := fun w => npTranspose (w.heap x) axes) [x] (by simp) s4 h
      (fun w => runFn E L' (npTranspose (w.heap x) axes) w)).2
    intro w₂ h1 h2 h3
    obtain ⟨w₂', e1, e2⟩ := this w₂ h1 h2 h3
    refine ⟨w₂', ?_, e2⟩
    unfold transpose
    cases hs2 : w₂.stack with
    | nil => rw [hs2] at h1; simp at h1
    | cons c'' t' =>
      have : c'' = c' := by rw [hs2] at h1; simpa using h1
      subst this
      exact e1

theorem tensordot_replay {E : Env R} (L L' : List Nat) (b : Str) (x y : Nat) (axes : List Nat × List Nat) {w w' : World R} (hI : Inv E w)
    {c a : Nat} (hst : w.stack.head? = some c) (h : tensordot E L b x y axes w = (.ok a, w')) :
    Replays (tensordot E L' b x y axes) c w' a := by
  unfold tensordot at h
  cases hs : w.stack with
  | nil => rw [hs] at hst; simp at hst
  | cons c' t =>
    have : c' = c := by rw [hs] at hst; simpa using hst
    subst this
    rw [hs] at h
    simp only at h
    obtain ⟨s1, s2, s3, s4, _⟩ := save_spec (E := E) L c' [x, y] hst hI
    have := (memo_replay (r := fun w => npTensordot (w.heap x) (w.heap y) axes.1 axes.2) [x, y] (by simp) s4 h
      (fun w => runFn E L' (npTensordot (w.heap x) (w.heap y) axes.1 axes.2) w)).2
    intro w₂ h1 h2 h3
    obtain ⟨w₂', e1, e2⟩ := this w₂ h1 h2 h3
    refine ⟨w₂', ?_, e2⟩
    unfold tensordot
    cases hs2 : w₂.stack with
    | nil => rw [hs2] at h1; simp at h1
    | cons c'' t' =>
      have : c'' = c' := by rw [hs2] at h1; simpa using h1
      subst this
      exact e1

/-- After an `einsum` call, every call with the same canonical key is answered from the cache. -/
theorem einsum_replay' {E : Env R} (hE : FreshIds E) (L L' : List Nat) (b : Str) (eq : Str) (ids : List Nat) {w w' : World R} (hI : Inv E w)
    {c a : Nat} (hst : w.stack.head? = some c) (h : einsum E L b eq ids w = (.ok a, w')) :
    ∃ inp out, parseEinsum eq (ids.map (fun i => (w.heap i).shape)) = .ok (inp, out) ∧ (∀ i ∈ ids, Saved (cacheOf w' c) i) ∧
      (∀ i ∈ ids, w'.heap i = w.heap i) ∧
      ∀ (eq' : Str) (ids' : List Nat) (w₂ : World R) (inp' out' : Str), w₂.stack.head? = some c →
        (∀ k x, (cacheOf w' c).get? k = some x → (cacheOf w₂ c).get? k = some x) →
        parseEinsum eq' (ids'.map (fun i => (w₂.heap i).shape)) = .ok (inp', out') → (∀ i ∈ ids', i ∈ ids) →
        canonicalKey (splitOn cComma inp') out' ids' = canonicalKey (splitOn cComma inp) out ids →
        ∃ w₂', einsum E L' b eq' ids' w₂ = (.ok a, w₂') ∧ Same c w₂ w₂' := by
  unfold einsum at h
  cases hs : w.stack with
  | nil => rw [hs] at hst; simp at hst
  | cons c' t =>
    have : c' = c := by rw [hs] at hst; simpa using hst
    subst this
    rw [hs] at h
    simp only at h
    cases hp : parseEinsum eq (ids.map (fun i => (w.heap i).shape)) with
    | error e => rw [hp] at h; simp at h
    | ok v =>
      obtain ⟨inp, out⟩ := v
      rw [hp] at h
      simp only at h
      obtain ⟨s1, s2, s3, s4, _⟩ := save_spec (E := E) L c' ids hst hI
      obtain ⟨r1, r2⟩ := memo_replay (r := fun w => einsumCall (E.noEinsum b) eq (ids.map w.heap)) ids (by simp) s4 h
        (fun w => runFn E L' (einsumCall (E.noEinsum b) eq (ids.map w.heap)) w)
      refine ⟨inp, out, rfl, r1, ?_, ?_⟩
      · -- the call does not change its operands: they are saved before the result is created
        intro i hi
        have hu := inUse_of_cache (s4 i hi)
        unfold memoize at h
        split at h
        · simp only [Prod.mk.injEq] at h
          rw [← h.2, s3]
        · rcases hr : runFn E L (einsumCall (E.noEinsum b) eq (ids.map (saveTensors c' ids w).heap)) (saveTensors c' ids w) with ⟨o, w₁⟩
          beta_reduce at h
          rw [hr] at h
          obtain ⟨o', w₁', q1, _, q3, _⟩ := runFn_spec hE L (einsumCall (E.noEinsum b) eq (ids.map (saveTensors c' ids w).heap)) s1
          rw [hr] at q1
          simp only [Prod.mk.injEq] at q1
          obtain ⟨rfl, rfl⟩ := q1
          cases o with
          | error e => simp at h
          | ok x =>
            simp only [Prod.mk.injEq] at h
            rw [← h.2]
            show w₁.heap i = _
            rw [q3.heap i (Or.inr hu), s3]
      · intro eq' ids' w₂ inp' out' h1 h2 hp' hsub hkey
        obtain ⟨k1, _⟩ := memoize_put (r := fun w => einsumCall (E.noEinsum b) eq (ids.map w.heap)) h
        have hsame := save_same c' ids' (w := w₂) (fun i hi => h2 _ _ (r1 i (hsub i hi)))
        refine ⟨_, ?_, hsame⟩
        unfold einsum
        cases hs2 : w₂.stack with
        | nil => rw [hs2] at h1; simp at h1
        | cons c'' t' =>
          have : c'' = c' := by rw [hs2] at h1; simpa using h1
          subst this
          simp only [hp']
          apply memoize_hit
          rw [hsame.cache, hkey]
          exact h2 _ _ k1

theorem einsum_replay {E : Env R} (hE : FreshIds E) (L L' : List Nat) (b : Str) (eq : Str) (ids : List Nat) {w w' : World R} (hI : Inv E w)
    {c a : Nat} (hst : w.stack.head? = some c) (h : einsum E L b eq ids w = (.ok a, w')) : Replays (einsum E L' b eq ids) c w' a := by
  obtain ⟨inp, out, hp, hsv, hh, hall⟩ := einsum_replay' hE L L' b eq ids hI hst h
  intro w₂ h1 h2 h3
  apply hall eq ids w₂ inp out h1 h2 ?_ (fun _ h => h) rfl
  rw [← hp]
  congr 1
  apply List.map_congr_left
  intro i hi
  rw [h3 i (hsv i hi), hh i hi]

/-! ### Contractions -/

theorem blasStep_replay {E : Env R} (hE : FreshIds E) (L L' : List Nat) (b : Str) (step : Step) (tmp : List Nat) {w w' : World R}
    (hI : Inv E w) {c a : Nat} (hst : w.stack.head? = some c) (h : blasStep E L b step tmp w = (.ok a, w')) :
    Replays (blasStep E L' b step tmp) c w' a := by
  unfold blasStep at h ⊢
  rcases hsp : splitArrow step.einsumStr with _ | ⟨inp, _ | ⟨ri, _ | ⟨z, zs⟩⟩⟩ <;> rw [hsp] at h <;> simp only at h ⊢
  · simp at h
  · simp at h
  swap
  · simp at h
  rcases hsc : splitOn cComma inp with _ | ⟨left, _ | ⟨right, _ | ⟨z, zs⟩⟩⟩ <;> rw [hsc] at h <;> simp only at h ⊢
  · simp at h
  · simp at h
  swap
  · simp at h
  rcases tmp with _ | ⟨x, _ | ⟨y, _ | ⟨z, zs⟩⟩⟩
  · simp at h
  · simp at h
  swap
  · simp at h
  simp only at h ⊢
  unfold M.andThen at h
  rcases htd : tensordot E (L ++ [x, y]) b x y (blasAxes left right step.removed) w with ⟨o, w₁⟩
  rw [htd] at h
  cases o with
  | error e => simp at h
  | ok view =>
    simp only at h
    have r1 := tensordot_replay (L ++ [x, y]) (L' ++ [x, y]) b x y _ hI hst htd
    obtain ⟨o', w₁', q1, q2, q3, _⟩ := tensordot_ok hE (L ++ [x, y]) b x y (blasAxes left right step.removed) hI
    rw [htd] at q1
    simp only [Prod.mk.injEq] at q1
    obtain ⟨rfl, rfl⟩ := q1
    by_cases hq : List.filter (fun c => decide (c ∉ step.removed)) (left ++ right) ≠ ri
    · rw [if_pos hq] at h
      cases htr : transposeAxes (List.filter (fun c => decide (c ∉ step.removed)) (left ++ right)) ri with
      | error e => rw [htr] at h; simp at h
      | ok perm =>
        rw [htr] at h
        simp only at h
        have hst1 : w₁.stack.head? = some c := by rw [q3.stack]; exact hst
        have r2 := transpose_replay _ (L' ++ [x, y] ++ [view]) b view perm q2 hst1 h
        obtain ⟨o'', w'', p1, p2, p3, _⟩ := transpose_ok hE (L ++ [x, y] ++ [view]) b view perm q2
        rw [h] at p1
        simp only [Prod.mk.injEq] at p1
        obtain ⟨rfl, rfl⟩ := p1
        intro w₂ h1 h2 h3
        obtain ⟨w₃, e1, e2⟩ := (r1.ext p3) w₂ h1 h2 h3
        obtain ⟨w₄, f1, f2⟩ := r2 w₃ (by rw [e2.stack]; exact h1) (fun k x hx => by rw [e2.cache]; exact h2 k x hx)
          (fun i hi => by rw [e2.heap]; exact h3 i hi)
        refine ⟨w₄, ?_, e2.trans f2⟩
        unfold M.andThen
        beta_reduce
        rw [e1]
        simp only
        rw [if_pos hq]
        exact f1
    · rw [if_neg hq] at h
      simp only [Prod.mk.injEq, Except.ok.injEq] at h
      obtain ⟨rfl, rfl⟩ := h
      intro w₂ h1 h2 h3
      obtain ⟨w₃, e1, e2⟩ := r1 w₂ h1 h2 h3
      refine ⟨w₃, ?_, e2⟩
      unfold M.andThen
      beta_reduce
      rw [e1]
      simp only
      rw [if_neg hq]

theorem stepResult_replay {E : Env R} (hE : FreshIds E) (L L' : List Nat) (b : Str) (step : Step) (tmp : List Nat) {w w' : World R}
    (hI : Inv E w) {c a : Nat} (hst : w.stack.head? = some c) (h : stepResult E L b step tmp w = (.ok a, w')) :
    Replays (stepResult E L' b step tmp) c w' a := by
  unfold stepResult at h ⊢
  split at h
  · rename_i hb
    rw [if_pos hb]
    exact blasStep_replay hE L L' b step tmp hI hst h
  · rename_i hb
    rw [if_neg hb]
    exact einsum_replay hE _ _ b _ tmp hI hst h

theorem coreLoop_replay {E : Env R} (hE : FreshIds E) (L L' : List Nat) (b : Str) (steps : List Step) (hs : ∀ s ∈ steps, PlainStep s)
    (ops : List Nat) {w w' : World R} (hI : Inv E w) {c : Nat} {l : List Nat} (hst : w.stack.head? = some c)
    (h : coreLoop E L b steps ops w = (.ok l, w')) :
    ∀ w₂ : World R, w₂.stack.head? = some c → (∀ k x, (cacheOf w' c).get? k = some x → (cacheOf w₂ c).get? k = some x) →
      (∀ i, Saved (cacheOf w' c) i → (w₂.heap i).shape = (w'.heap i).shape) → ∃ w₂', coreLoop E L' b steps ops w₂ = (.ok l, w₂') ∧ Same c w₂ w₂' := by
  induction steps generalizing ops w with
  | nil =>
    intro w₂ _ _ _
    unfold coreLoop at h
    simp only [Prod.mk.injEq, Except.ok.injEq] at h
    obtain ⟨rfl, rfl⟩ := h
    exact ⟨w₂, rfl, Same.refl _ _⟩
  | cons s ss ih =>
    unfold coreLoop at h
    cases hp : popAll s.inds ops with
    | error e => rw [hp] at h; simp at h
    | ok v =>
      obtain ⟨tmp, rest⟩ := v
      rw [hp] at h
      simp only at h
      unfold M.andThen at h
      rcases hsr : stepResult E (L ++ rest) b s tmp w with ⟨o, w₁⟩
      rw [hsr] at h
      cases o with
      | error e => simp at h
      | ok view =>
        simp only at h
        have r1 := stepResult_replay hE _ (L' ++ rest) b s tmp hI hst hsr
        obtain ⟨o', w₁', q1, q2, q3, _⟩ := stepResult_ok hE (L ++ rest) b s (hs s (by simp)) tmp hI
        rw [hsr] at q1
        simp only [Prod.mk.injEq] at q1
        obtain ⟨rfl, rfl⟩ := q1
        have hst1 : w₁.stack.head? = some c := by rw [q3.stack]; exact hst
        obtain ⟨o'', w'', p1, p2, p3, _⟩ := coreLoop_ok hE L b ss (fun s hs' => hs s (by simp [hs'])) (rest ++ [view]) q2
        rw [h] at p1
        simp only [Prod.mk.injEq] at p1
        obtain ⟨rfl, rfl⟩ := p1
        intro w₂ h1 h2 h3
        obtain ⟨w₃, e1, e2⟩ := (r1.ext p3) w₂ h1 h2 h3
        obtain ⟨w₄, f1, f2⟩ := ih (fun s hs' => hs s (by simp [hs'])) (rest ++ [view]) q2 hst1 h w₃ (by rw [e2.stack]; exact h1)
          (fun k x hx => by rw [e2.cache]; exact h2 k x hx) (fun i hi => by rw [e2.heap]; exact h3 i hi)
        refine ⟨w₄, ?_, e2.trans f2⟩
        unfold coreLoop
        rw [hp]
        simp only
        unfold M.andThen
        rw [e1]
        exact f1

theorem coreContract_replay {E : Env R} (hE : FreshIds E) (b : Str) (steps : List Step) (hs : ∀ s ∈ steps, PlainStep s) (ops : List Nat)
    {w w' : World R} (hI : Inv E w) {c a : Nat} (hst : w.stack.head? = some c) (h : coreContract E b steps ops w = (.ok a, w')) :
    Replays (coreContract E b steps ops) c w' a := by
  unfold coreContract M.andThen at h
  rcases hl : coreLoop E ops b steps ops w with ⟨o, w₁⟩
  rw [hl] at h
  cases o with
  | error e => simp at h
  | ok l =>
    simp only at h
    cases l with
    | nil => simp at h
    | cons x xs =>
      simp only [Prod.mk.injEq, Except.ok.injEq] at h
      obtain ⟨rfl, rfl⟩ := h
      intro w₂ h1 h2 h3
      obtain ⟨w₃, e1, e2⟩ := coreLoop_replay hE ops ops b steps hs ops hI hst hl w₂ h1 h2 h3
      refine ⟨w₃, ?_, e2⟩
      unfold coreContract M.andThen
      rw [e1]

theorem contract_replay {E : Env R} (hE : FreshIds E) (b : Str) (s : Str) (ids : List Nat) (opt : Optimize) (mem : MemLimit) (ub : Bool)
    {w w' : World R} (hI : Inv E w) {c a : Nat} (hst : w.stack.head? = some c) (h : contract E b s ids opt mem ub w = (.ok a, w'))
    {w₂ : World R} (h1 : w₂.stack.head? = some c) (h2 : ∀ k x, (cacheOf w' c).get? k = some x → (cacheOf w₂ c).get? k = some x)
    (h3 : ∀ i, Saved (cacheOf w' c) i → (w₂.heap i).shape = (w'.heap i).shape)
    (h4 : ∀ i ∈ ids, (w₂.heap i).shape = (w.heap i).shape) :
    ∃ w₂', contract E b s ids opt mem ub w₂ = (.ok a, w₂') ∧ Same c w₂ w₂' := by
  have hsh : ids.map (fun i => (w₂.heap i).shape) = ids.map (fun i => (w.heap i).shape) := by
    apply List.map_congr_left
    intro i hi
    rw [h4 i hi]
  have key : opt ≠ .off → ∃ w₂', contract E b s ids opt mem ub w₂ = (.ok a, w₂') ∧ Same c w₂ w₂' := by
    intro hopt
    have e1 : ∀ w : World R, contract E b s ids opt mem ub w = match parseEinsum s (ids.map (fun i => (w.heap i).shape)) with
        | .error e => (.error e, w)
        | .ok (inp, out) =>
          match contractPath (splitOn cComma inp) out (ids.map (fun i => (w.heap i).shape)) opt mem ub with
          | .error e => (.error e, w)
          | .ok info => coreContract E b info.contractionList ids w := by
      intro w
      unfold contract
      cases opt with
      | off => exact absurd rfl hopt
      | path p => rfl
      | finder f => rfl
    rw [e1] at h ⊢
    rw [hsh]
    cases hp : parseEinsum s (ids.map (fun i => (w.heap i).shape)) with
    | error e => rw [hp] at h; simp at h
    | ok v =>
      obtain ⟨inp, out⟩ := v
      rw [hp] at h
      simp only at h ⊢
      cases hc : contractPath (splitOn cComma inp) out (ids.map (fun i => (w.heap i).shape)) opt mem ub with
      | error e => rw [hc] at h; simp at h
      | ok info =>
        rw [hc] at h
        simp only at h ⊢
        exact coreContract_replay hE b _ (contractPath_plain hp hc) ids hI hst h w₂ h1 h2 h3
  cases opt with
  | off => exact einsum_replay hE ids ids (S "numpy") s ids hI hst h w₂ h1 h2 h3
  | path p => exact key (by simp)
  | finder f => exact key (by simp)

omit [CommSemiring R] in
theorem convert_replay {E : Env R} (L L' : List Nat) (n : Str) (k : Option Bool) (x : Nat) {w w' : World R}
    {c a : Nat} (hst : w.stack.head? = some c) (h : convert E L n k x w = (.ok a, w')) : Replays (convert E L' n k x) c w' a := by
  unfold convert at h
  cases hs : w.stack with
  | nil => rw [hs] at hst; simp at hst
  | cons c' t =>
    have : c' = c := by rw [hs] at hst; simpa using hst
    subst this
    rw [hs] at h
    simp only at h
    obtain ⟨h1, _⟩ := memoize_put (r := fun w => .ok (E.conv n k (w.heap x))) h
    intro w₂ g1 g2 g3
    refine ⟨w₂, ?_, Same.refl _ _⟩
    unfold convert
    cases hs2 : w₂.stack with
    | nil => rw [hs2] at g1; simp at g1
    | cons c'' t' =>
      have : c'' = c' := by rw [hs2] at g1; simpa using g1
      subst this
      exact memoize_hit (g2 _ _ h1)

/-! ### Histories -/

/-- The arrays passed to a call. -/
def callArgs : Event R → List Nat
  | .transpose _ a _ => [a]
  | .tensordot _ x y _ => [x, y]
  | .einsum _ _ ids => ids
  | .contract _ _ ids _ _ _ => ids
  | .convert _ _ a => [a]
  | _ => []

/-- Names of caches are not reused. -/
structure Names (w : World R) : Prop where
  keys : ∀ c, (w.caches.get? c).isSome → c < w.nextCache
  stack : ∀ c ∈ w.stack, c < w.nextCache

omit [CommSemiring R] in
theorem Names.ext {L : List Nat} {w w' : World R} (h : Names w) (he : Ext L w w') : Names w' := by
  refine ⟨?_, ?_⟩
  · intro c hc
    rw [he.next]
    rcases he.keys c hc with h1 | h1
    · exact h.keys c h1
    · exact h.stack c (List.mem_of_mem_head? h1)
  · rw [he.next, he.stack]
    exact h.stack

theorem isSome_of_mem_keys {κ ν : Type} [DecidableEq κ] {d : Dict κ ν} {k : κ} (h : k ∈ d.keys) : (d.get? k).isSome := by
  induction d with
  | nil => simp [Dict.keys] at h
  | cons p t ih =>
    obtain ⟨a, b⟩ := p
    simp only [Dict.get?]
    split
    · rfl
    · rename_i hne
      apply ih
      simp only [Dict.keys, List.map_cons, List.mem_cons] at h
      rcases h with h | h
      · exact absurd h.symm hne
      · exact h

/-- What a step keeps of the cache `c` and of the arrays `A`. -/
structure Keeps (c : Nat) (A : List Nat) (w w' : World R) : Prop where
  cache : ∀ k x, (cacheOf w c).get? k = some x → (cacheOf w' c).get? k = some x
  saved : ∀ i, Saved (cacheOf w c) i → w'.heap i = w.heap i
  roots : (∀ i ∈ A, i ∈ w.roots) → (∀ i ∈ A, i ∈ w'.roots) ∧ ∀ i ∈ A, w'.heap i = w.heap i

omit [CommSemiring R] in
theorem Keeps.refl (c : Nat) (A : List Nat) (w : World R) : Keeps c A w w :=
  ⟨fun _ _ h => h, fun _ _ => rfl, fun h => ⟨h, fun _ _ => rfl⟩⟩

omit [CommSemiring R] in
theorem Keeps.trans {c : Nat} {A : List Nat} {w₁ w₂ w₃ : World R} (h : Keeps c A w₁ w₂) (h' : Keeps c A w₂ w₃) : Keeps c A w₁ w₃ where
  cache := fun k x hx => h'.cache k x (h.cache k x hx)
  saved := fun i hi => (h'.saved i (h.cache _ _ hi)).trans (h.saved i hi)
  roots := by
    intro hA
    obtain ⟨h1, h2⟩ := h.roots hA
    obtain ⟨h3, h4⟩ := h'.roots h1
    exact ⟨h3, fun i hi => (h4 i hi).trans (h2 i hi)⟩

omit [CommSemiring R] in
theorem Keeps.of_ext {c : Nat} {A L rs : List Nat} {w w' : World R} (h : Ext L w w') (hrs : ∀ i ∈ w'.roots, i ∈ rs) :
    Keeps c A w { w' with roots := rs } where
  cache := fun k x hx => h.mono c k x hx
  saved := fun i hi => h.heap i (Or.inr (inUse_of_cache hi))
  roots := by
    intro hA
    refine ⟨fun i hi => hrs i (by rw [h.roots]; exact hA i hi), fun i hi => h.heap i (Or.inr ?_)⟩
    unfold inUse
    simp [hA i hi]

/-- One event: names stay fresh, and everything known about cache `c` and the arrays `A` stays. -/
theorem step_keeps {E : Env R} (hE : FreshIds E) {w : World R} (hI : Inv E w) (hN : Names w) {e : Event R} (hp : Possible w e)
    (hc : Covered w e) :
    Names (step E w e) ∧ ∀ c A, c < w.nextCache → e ≠ .dropCache c → (∀ i ∈ A, e ≠ .drop i) →
      Keeps c A w (step E w e) ∧ c < (step E w e).nextCache := by
  have gen : ∀ {L rs : List Nat} {w' : World R}, Ext L w w' → (∀ i ∈ w'.roots, i ∈ rs) →
      Names ({ w' with roots := rs } : World R) ∧ ∀ c A, c < w.nextCache → e ≠ .dropCache c → (∀ i ∈ A, e ≠ .drop i) →
        Keeps c A w { w' with roots := rs } ∧ c < ({ w' with roots := rs } : World R).nextCache := by
    intro L rs w' h hrs
    have hN' := hN.ext h
    refine ⟨⟨hN'.keys, hN'.stack⟩, fun c A hc _ _ => ⟨Keeps.of_ext h hrs, ?_⟩⟩
    show c < w'.nextCache
    rw [h.next]
    exact hc
  have main : ∀ m, callOf E e = some m → Names (step E w e) ∧ ∀ c A, c < w.nextCache → e ≠ .dropCache c → (∀ i ∈ A, e ≠ .drop i) →
      Keeps c A w (step E w e) ∧ c < (step E w e).nextCache := by
    intro m hm
    rw [step_call hm]
    obtain ⟨o, w', h1, h2, h3, _⟩ := call_ok hE hI hc hm
    obtain ⟨rs, h4, h5, _⟩ := keep_snd m w
    rw [h5]
    rw [h1] at h4 ⊢
    exact gen h3 h4
  cases e with
  | new T =>
    obtain ⟨a, w', h1, h2, h3, _⟩ := store_spec hE [] T hI
    obtain ⟨rs, h4, h5, _⟩ := keep_snd (store E [] T) w
    unfold step
    simp only
    rw [h5]
    rw [h1] at h4 ⊢
    exact gen h3 h4
  | drop a =>
    refine ⟨⟨hN.keys, hN.stack⟩, fun c A hc _ hd => ⟨⟨fun _ _ h => h, fun _ _ => rfl, fun hA => ⟨?_, fun _ _ => rfl⟩⟩, hc⟩⟩
    intro i hi
    show i ∈ w.roots.filter (· ≠ a)
    rw [List.mem_filter]
    refine ⟨hA i hi, ?_⟩
    simp only [decide_eq_true_eq]
    rintro rfl
    exact hd i hi rfl
  | enter c =>
    cases c with
    | some c' =>
      refine ⟨⟨hN.keys, ?_⟩, fun c A hc _ hd => ⟨⟨fun _ _ h => h, fun _ _ => rfl, fun hA => ⟨hA, fun _ _ => rfl⟩⟩, hc⟩⟩
      intro c hc
      rcases List.mem_cons.mp hc with rfl | hc
      · exact hN.keys c (isSome_of_mem_keys hp)
      · exact hN.stack c hc
    | none =>
      refine ⟨⟨?_, ?_⟩, fun c A hc _ hd => ⟨⟨?_, fun _ _ => rfl, fun hA => ⟨hA, fun _ _ => rfl⟩⟩, ?_⟩⟩
      · intro c hc
        unfold step at hc ⊢
        simp only at hc ⊢
        rw [OE.Py.Dict.get?_set] at hc
        split at hc
        · omega
        · have := hN.keys c hc
          omega
      · intro c hc
        unfold step at hc ⊢
        simp only [List.mem_cons] at hc ⊢
        rcases hc with rfl | hc
        · omega
        · have := hN.stack c hc
          omega
      · intro k x hx
        unfold step
        simp only
        rw [cacheOf_enter, if_neg (by omega)]
        exact hx
      · show c < w.nextCache + 1
        omega
  | leave =>
    refine ⟨⟨hN.keys, ?_⟩, fun c A hc _ hd => ⟨⟨fun _ _ h => h, fun _ _ => rfl, fun hA => ⟨hA, fun _ _ => rfl⟩⟩, hc⟩⟩
    intro c hc
    exact hN.stack c (List.mem_of_mem_tail hc)
  | dropCache c' =>
    refine ⟨⟨?_, hN.stack⟩, fun c A hc hne hd => ⟨⟨?_, fun _ _ => rfl, fun hA => ⟨hA, fun _ _ => rfl⟩⟩, hc⟩⟩
    · intro c hc
      unfold step at hc
      simp only at hc
      rw [get?_del] at hc
      split at hc
      · simp at hc
      · exact hN.keys c hc
    · intro k x hx
      unfold step
      simp only
      rw [cacheOf_drop, if_neg (by rintro rfl; exact hne rfl)]
      exact hx
  | transpose b a axes => exact main _ rfl
  | tensordot b x y axes => exact main _ rfl
  | einsum b eq ids => exact main _ rfl
  | contract b s ids opt mem ub => exact main _ rfl
  | convert n k a => exact main _ rfl

theorem reachable_names {E : Env R} (hE : FreshIds E) {w : World R} (h : ReachableBy E Covered w) : Names w := by
  induction h with
  | init heap => exact ⟨by simp [Dict.get?], by simp⟩
  | step e hw hp hc ih => exact (step_keeps hE (reachable_inv hE (fun _ _ h => h) hw) ih hp hc).1

theorem later_keeps {E : Env R} (hE : FreshIds E) {w w₂ : World R} (hI : Inv E w) (hN : Names w) {c : Nat} {A : List Nat}
    (hc : c < w.nextCache) {P : World R → Event R → Prop}
    (hP : ∀ w e, P w e → Covered w e ∧ e ≠ .dropCache c ∧ ∀ i ∈ A, e ≠ .drop i) (h : LaterBy E P w w₂) :
    Inv E w₂ ∧ Names w₂ ∧ Keeps c A w w₂ ∧ c < w₂.nextCache := by
  induction h with
  | refl => exact ⟨hI, hN, Keeps.refl _ _ _, hc⟩
  | step e _ hp hPe ih =>
    obtain ⟨i1, i2, i3, i4⟩ := ih
    obtain ⟨p1, p2, p3⟩ := hP _ _ hPe
    obtain ⟨s1, s2⟩ := step_keeps hE i1 i2 hp p1
    obtain ⟨s3, s4⟩ := s2 c A i4 p2 p3
    exact ⟨step_inv hE i1 e p1, s1, i3.trans s3, s4⟩

end OE.Share

namespace OE.Share
open OE OE.Py OE.Parser OE.Contract OE.Spec OE.Props

theorem canonicalKey_same {inp out inp' out' : Str} {ids ids' : List Nat} (hpl : PlainTerms (splitOn cComma inp) out)
    (hpl' : PlainTerms (splitOn cComma inp') out') (hlen : (splitOn cComma inp).length = ids.length)
    (hnd : ids.Nodup) (h : SameSum inp out ids inp' out' ids') :
    canonicalKey (splitOn cComma inp') out' ids' = canonicalKey (splitOn cComma inp) out ids := by
  obtain ⟨p, hperm, rfl, f, hf, he⟩ := h
  have harrow : S "->" = [cDash, cGt] := by decide
  rw [harrow] at hf he
  have hfst : (p.map Prod.fst).Perm (splitOn cComma inp) := by
    have := hperm.map Prod.fst
    rwa [List.map_fst_zip (by omega)] at this
  have hsnd : (p.map Prod.snd).Perm ids := by
    have := hperm.map Prod.snd
    rwa [List.map_snd_zip (by omega)] at this
  have hplp : PlainTerms (p.map Prod.fst) out := ⟨fun t ht => hpl.1 t (hfst.mem_iff.mp ht), hpl.2⟩
  have hpne : p.map Prod.fst ≠ [] := by
    intro e
    rw [e] at hfst
    exact splitOn_ne_nil _ _ (List.nil_perm.mp hfst)
  have hmap : ∀ ins : List Str, (einsumStrOf ins out).map f = einsumStrOf (ins.map (List.map f)) (out.map f) := by
    intro ins
    unfold einsumStrOf
    simp only [List.map_append]
    rw [join_map f _ _ (by simp [hf.fixes 44 (by simp [IsPunct])])]
    simp [hf.fixes 45 (by simp [IsPunct]), hf.fixes 62 (by simp [IsPunct])]
  have he' : einsumStrOf (splitOn cComma inp') out' = einsumStrOf ((p.map Prod.fst).map (List.map f)) (out.map f) := by
    rw [← hmap]
    unfold einsumStrOf
    rw [join_splitOn]
    exact he
  have hlab : ∀ c, c ∈ (p.map Prod.fst).flatten ++ out → ¬ IsPunct (f c) :=
    fun c hc => hf.labels c ⟨mem_einsumStrOf_of hc, hplp.label hc⟩
  have hplf : PlainTerms ((p.map Prod.fst).map (List.map f)) (out.map f) := by
    refine ⟨?_, ?_⟩
    · intro t ht c hc
      obtain ⟨t', ht', rfl⟩ := List.mem_map.mp ht
      obtain ⟨x, hx, rfl⟩ := List.mem_map.mp hc
      apply hlab
      rw [List.mem_append, List.mem_flatten]
      exact Or.inl ⟨t', ht', hx⟩
    · intro c hc
      obtain ⟨x, hx, rfl⟩ := List.mem_map.mp hc
      exact hlab x (by simp [hx])
  obtain ⟨e1, e2⟩ := einsumStrOf_inj (splitOn_ne_nil _ _) (by simpa using hpne) hpl' hplf he'
  -- the sorted pairs
  set s := sortedBy Prod.snd ((splitOn cComma inp).zip ids) with hs
  have hsp : s.Perm ((splitOn cComma inp).zip ids) := List.perm_insertionSort _ _
  have hstrict : s.Pairwise (fun a b => a.2 < b.2) := by
    have h1 : s.Pairwise (fun a b => a.2 ≤ b.2) := by
      have : Std.Total (fun a b : Str × Nat => a.2 ≤ b.2) := ⟨fun a b => le_total _ _⟩
      have : IsTrans (Str × Nat) (fun a b : Str × Nat => a.2 ≤ b.2) := ⟨fun a b c => le_trans⟩
      exact List.pairwise_insertionSort _ _
    have h2 : (s.map Prod.snd).Nodup := by
      have := hsp.map Prod.snd
      rw [List.map_snd_zip (by omega)] at this
      exact this.nodup_iff.mpr hnd
    rw [List.Nodup, List.pairwise_map] at h2
    exact (List.pairwise_and_iff.mpr ⟨h1, h2⟩).imp (fun h => Nat.lt_of_le_of_ne h.1 h.2)
  have hz : (splitOn cComma inp').zip (p.map Prod.snd) = p.map (fun q => (q.1.map f, q.2)) := by
    rw [e1, List.map_map, zip_map_map]
    rfl
  have hs' : sortedBy Prod.snd ((splitOn cComma inp').zip (p.map Prod.snd)) = s.map (fun q => (q.1.map f, q.2)) := by
    apply sortedBy_unique
    · rw [hz]
      exact (hperm.trans hsp.symm).map _
    · rw [List.pairwise_map]
      exact hstrict
  unfold canonicalKey
  simp only
  rw [hs', ← hs, e2, List.map_map, List.map_map]
  have hfs : (s.map (Prod.fst ∘ fun q : Str × Nat => (q.1.map f, q.2))) = (s.map Prod.fst).map (List.map f) := by
    rw [List.map_map]; rfl
  rw [hfs, ← hmap]
  refine Prod.ext ?_ rfl
  simp only
  symm
  rw [C31_alpha_canonicalize_iff]
  have hsub : ∀ c ∈ einsumStrOf (s.map Prod.fst) out, c ∈ labelSet (einsumStrOf (s.map Prod.fst) out) →
      c ∈ labelSet (einsumStrOf (p.map Prod.fst) out) := by
    intro c _ hc
    refine ⟨?_, hc.2⟩
    rcases mem_einsumStrOf hc.1 with h | h
    · exact absurd h hc.2
    · apply mem_einsumStrOf_of
      rw [List.mem_append, List.mem_flatten] at h ⊢
      rcases h with ⟨t, ht, hct⟩ | h
      · left
        refine ⟨t, ?_, hct⟩
        rw [((hperm.trans hsp.symm).map Prod.fst).mem_iff]
        exact ht
      · exact Or.inr h
  exact ⟨f, ⟨hf.fixes, fun c hc => hf.labels c (hsub c hc.1 hc), fun a ha b hb hab => hf.inj (hsub a ha.1 ha) (hsub b hb.1 hb) hab⟩, rfl⟩

end OE.Share

namespace OE.Props
open OE OE.Py OE.Parser OE.Contract OE.Spec OE.Share
variable {R : Type} [CommSemiring R]

/-- A call made inside a sharing context is answered from the cache later on, if the shapes of the arrays are the same. -/
theorem call_replay {E : Env R} (hE : FreshIds E) {w w' : World R} (hI : Inv E w) {c : Nat} (hc : w.stack.head? = some c) {e : Event R}
    {m : M R Nat} (hm : callOf E e = some m) {a : Nat} (q1 : m w = (.ok a, w')) {w₂ : World R} (hc₂ : w₂.stack.head? = some c)
    (h2 : ∀ k x, (cacheOf w' c).get? k = some x → (cacheOf w₂ c).get? k = some x)
    (h3 : ∀ i, Saved (cacheOf w' c) i → (w₂.heap i).shape = (w'.heap i).shape)
    (h4 : ∀ i ∈ callArgs e, (w₂.heap i).shape = (w.heap i).shape) : ∃ w₂', m w₂ = (.ok a, w₂') ∧ Same c w₂ w₂' := by
  cases e with
  | new T => cases hm
  | drop a => cases hm
  | enter c => cases c <;> cases hm
  | leave => cases hm
  | dropCache c => cases hm
  | transpose b x axes => cases hm; exact (transpose_replay [] [] b x axes hI hc q1 w₂ hc₂ h2 h3)
  | tensordot b x y axes => cases hm; exact (tensordot_replay [] [] b x y axes hI hc q1 w₂ hc₂ h2 h3)
  | einsum b eq ids => cases hm; exact (einsum_replay hE [] [] b eq ids hI hc q1 w₂ hc₂ h2 h3)
  | contract b s ids opt mem ub => cases hm; exact (contract_replay hE b s ids opt mem ub hI hc q1 hc₂ h2 h3 h4)
  | convert n k x => cases hm; exact (convert_replay [] [] n k x hc q1 w₂ hc₂ h2 h3)

/-- **C43**, first half: a call made inside a sharing context and repeated later — whatever the program does in between, as long as it does
not forget the cache or the operands — while that context (or another one that resumed its cache) is the innermost one, returns the very
array returned before and executes no backend function and creates no array. Calls are `transpose`, `tensordot`, `einsum`, conversions
and whole contractions. -/
theorem C43_repeated_call_is_shared {E : Env R} (hE : FreshIds E) {w : World R} (hw : ReachableBy E Covered w) {c : Nat}
    (hc : w.stack.head? = some c) {e : Event R} (hpos : Possible w e) (hcov : Covered w e) {m : M R Nat} (hm : callOf E e = some m)
    {a : Nat} (ha : (m w).1 = .ok a) {w₂ : World R} (hlater : LaterBy E (Retains c (callArgs e)) (step E w e) w₂)
    (hc₂ : w₂.stack.head? = some c) :
    (m w₂).1 = .ok a ∧ (m w₂).2.execs = w₂.execs ∧ (m w₂).2.clock = w₂.clock := by
  have hI := reachable_inv hE (fun _ _ h => h) hw
  have hN := reachable_names hE hw
  have hcn : c < w.nextCache := hN.stack c (List.mem_of_mem_head? hc)
  have hdc : e ≠ .dropCache c := by rintro rfl; cases hm
  have hdr : ∀ i ∈ callArgs e, e ≠ .drop i := by rintro i _ rfl; cases hm
  obtain ⟨n1, n2⟩ := step_keeps hE hI hN hpos hcov
  obtain ⟨k1, k2⟩ := n2 c (callArgs e) hcn hdc hdr
  obtain ⟨_, _, l3, _⟩ := later_keeps hE (step_inv hE hI e hcov) n1 k2 (fun _ _ h => h) hlater
  obtain ⟨o, w', q1, q2, q3, _⟩ := call_ok hE hI hcov hm
  rw [q1] at ha
  simp only at ha
  subst ha
  have hstep : (step E w e).caches = w'.caches ∧ (step E w e).heap = w'.heap := by
    rw [step_call hm]
    obtain ⟨rs, _, h5, _⟩ := keep_snd m w
    rw [h5, q1]
    exact ⟨rfl, rfl⟩
  have hco : cacheOf (step E w e) c = cacheOf w' c := by unfold cacheOf; rw [hstep.1]
  have h2 : ∀ k x, (cacheOf w' c).get? k = some x → (cacheOf w₂ c).get? k = some x := by
    intro k x hx
    apply l3.cache
    rw [hco]; exact hx
  have h3 : ∀ i, Saved (cacheOf w' c) i → w₂.heap i = w'.heap i := by
    intro i hi
    rw [l3.saved i (by rw [hco]; exact hi), hstep.2]
  have hroots : ∀ i ∈ callArgs e, i ∈ w.roots := by
    cases e with
    | transpose b x axes => intro i hi; simp [callArgs] at hi; subst hi; exact hpos
    | tensordot b x y axes =>
      intro i hi
      simp [callArgs] at hi
      rcases hi with rfl | rfl
      · exact hpos.1
      · exact hpos.2
    | einsum b eq ids => exact hpos
    | contract b s ids opt mem ub => exact hpos
    | convert n k x => intro i hi; simp [callArgs] at hi; subst hi; exact hpos
    | _ => intro i hi; simp [callArgs] at hi
  have h4 : ∀ i ∈ callArgs e, w₂.heap i = w.heap i := by
    intro i hi
    obtain ⟨r1, r2⟩ := k1.roots hroots
    rw [(l3.roots r1).2 i hi, r2 i hi]
  obtain ⟨w₂', f1, f2⟩ := call_replay hE hI hc hm q1 hc₂ h2 (fun i hi => by rw [h3 i hi]) (fun i hi => by rw [h4 i hi])
  rw [f1]
  exact ⟨rfl, f2.execs, f2.clock⟩

/-- **C43**, second half: an `einsum` call equal to an earlier one up to a renaming of labels and a reordering of (distinct) operands
returns the earlier array and executes nothing. -/
theorem C43_einsum_up_to_renaming_is_shared {E : Env R} (hE : FreshIds E) {w : World R} (hw : ReachableBy E Covered w) {c : Nat}
    (hc : w.stack.head? = some c) {b eq : Str} {ids : List Nat} (hpos : Possible w (.einsum b eq ids)) (hcov : Covered w (.einsum b eq ids))
    {a : Nat} (ha : (einsum E [] b eq ids w).1 = .ok a) {w₂ : World R}
    (hlater : LaterBy E (Retains c ids) (step E w (.einsum b eq ids)) w₂) (hc₂ : w₂.stack.head? = some c) {eq' : Str} {ids' : List Nat}
    (hcov' : Covered w₂ (.einsum b eq' ids')) (hnd : ids.Nodup) {inp out inp' out' : Str}
    (hp : parseEinsum eq (ids.map (fun i => (w.heap i).shape)) = .ok (inp, out))
    (hp' : parseEinsum eq' (ids'.map (fun i => (w₂.heap i).shape)) = .ok (inp', out')) (hsame : SameSum inp out ids inp' out' ids') :
    (einsum E [] b eq' ids' w₂).1 = .ok a ∧ (einsum E [] b eq' ids' w₂).2.execs = w₂.execs ∧
      (einsum E [] b eq' ids' w₂).2.clock = w₂.clock := by
  have hI := reachable_inv hE (fun _ _ h => h) hw
  have hN := reachable_names hE hw
  have hcn : c < w.nextCache := hN.stack c (List.mem_of_mem_head? hc)
  obtain ⟨n1, n2⟩ := step_keeps hE hI hN hpos hcov
  obtain ⟨k1, k2⟩ := n2 c ids hcn (by simp) (by simp)
  obtain ⟨_, _, l3, _⟩ := later_keeps hE (step_inv hE hI _ hcov) n1 k2 (fun _ _ h => h) hlater
  rcases q1 : einsum E [] b eq ids w with ⟨o, w'⟩
  rw [q1] at ha
  simp only at ha
  subst ha
  have hstep : (step E w (.einsum b eq ids)).caches = w'.caches := by
    rw [step_call (m := einsum E [] b eq ids) rfl]
    obtain ⟨rs, _, h5, _⟩ := keep_snd (einsum E [] b eq ids) w
    rw [h5, q1]
  have hco : cacheOf (step E w (.einsum b eq ids)) c = cacheOf w' c := by unfold cacheOf; rw [hstep]
  obtain ⟨inp₀, out₀, hp₀, hsv, _, hall⟩ := einsum_replay' hE [] [] b eq ids hI hc q1
  rw [hp] at hp₀
  cases hp₀
  have plain : ∀ {eq : Str} {shapes : List Shape} {inp out : Str}, SimpleEquation eq shapes → parseEinsum eq shapes = .ok (inp, out) →
      PlainTerms (splitOn cComma inp) out := by
    intro eq shapes inp out hs hp
    obtain ⟨_, inp₁, out₁, hp₁, hcm, _⟩ := hs
    rw [hp] at hp₁
    cases hp₁
    have hlab := parse_labels hp
    refine ⟨hlab.2.2.2, ?_⟩
    intro c hc
    have hm := hlab.2.2.1 c hc
    rw [← join_splitOn cComma inp] at hm
    rcases mem_join _ _ _ hm with h | ⟨t, ht, h⟩
    · rw [List.mem_singleton] at h
      exact absurd (h ▸ hc) hcm
    · exact hlab.2.2.2 t ht c h
  have hlen : (splitOn cComma inp).length = ids.length := by simpa using (parse_labels hp).1
  have hsub : ∀ i ∈ ids', i ∈ ids := by
    obtain ⟨p, hperm, rfl, _⟩ := hsame
    intro i hi
    obtain ⟨q, hq, rfl⟩ := List.mem_map.mp hi
    exact (List.of_mem_zip (hperm.mem_iff.mp hq)).2
  obtain ⟨w₂', f1, f2⟩ := hall eq' ids' w₂ inp' out' hc₂ (fun k x hx => l3.cache k x (by rw [hco]; exact hx)) hp' hsub
    (canonicalKey_same (plain hcov hp) (plain hcov' hp') hlen hnd hsame)
  rw [f1]
  exact ⟨rfl, f2.execs, f2.clock⟩

end OE.Props
