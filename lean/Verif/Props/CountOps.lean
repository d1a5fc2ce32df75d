import Verif.Model.CountOps
import Verif.Props.Sharing3
import Verif.Lemmas.GreedyInv

/-!
# C78: `count_cached_ops` counts the executed operations
-/

namespace OE.Share
open OE OE.Py OE.Parser OE.Contract OE.Spec OE.Props

/-! ## The counter -/

theorem counter_get {κ : Type} [DecidableEq κ] (l : List κ) (k : κ) :
    (counter l).get? k = if k ∈ l then some (l.filter (fun x => x = k)).length else none := by
  have gen : ∀ (l : List κ) (d : Dict κ Nat), ((l.foldl (fun d k => d.set k ((d.get? k).getD 0 + 1)) d).get? k) =
      if k ∈ l then some ((d.get? k).getD 0 + (l.filter (fun x => x = k)).length) else d.get? k := by
    intro l
    induction l with
    | nil => intro d; simp
    | cons a t ih =>
      intro d
      rw [List.foldl_cons, ih, OE.Py.Dict.get?_set]
      by_cases h : k = a
      · subst h
        by_cases ht : k ∈ t
        · simp [ht]; omega
        · have : t.filter (fun x => x = k) = [] := by
            rw [List.filter_eq_nil_iff]
            intro x hx
            simp only [decide_eq_true_eq]
            rintro rfl
            exact ht hx
          simp [ht, this]
      · simp [h, Ne.symm h]
  unfold counter
  rw [gen]
  simp [Dict.get?]

theorem counter_nodup {κ : Type} [DecidableEq κ] (l : List κ) : (counter l).keys.Nodup := by
  have gen : ∀ (l : List κ) (d : Dict κ Nat), d.keys.Nodup → (l.foldl (fun d k => d.set k ((d.get? k).getD 0 + 1)) d).keys.Nodup := by
    intro l
    induction l with
    | nil => intro d h; exact h
    | cons a t ih => intro d h; exact ih _ (OE.Py.Dict.keys_set_nodup h _ _)
  exact gen l [] (by simp [Dict.keys])

/-- All counts but that of `"tensor"`, the operands that are kept alive. -/
def opsCounted (d : Dict Str Nat) : Nat := ((d.filter (fun e => e.1 ≠ S "tensor")).map Prod.snd).sum

theorem opsCounted_add (d : Dict Str Nat) (k : Str) :
    opsCounted (d.set k ((d.get? k).getD 0 + 1)) = opsCounted d + if k = S "tensor" then 0 else 1 := by
  induction d with
  | nil =>
    by_cases hk : k = S "tensor" <;> simp [opsCounted, Dict.set, Dict.get?, hk]
  | cons e t ih =>
    obtain ⟨k', v⟩ := e
    simp only [Dict.set, Dict.get?]
    by_cases h : k' = k
    · subst h
      by_cases hk : k' = S "tensor" <;> simp [opsCounted, hk]; omega
    · simp only [h, if_false]
      unfold opsCounted at ih ⊢
      by_cases hk : k' = S "tensor" <;> simp [hk] at ih ⊢ <;> omega

theorem opsCounted_counter (l : List Str) : opsCounted (counter l) = l.countP (fun k => k ≠ S "tensor") := by
  have gen : ∀ (l : List Str) (d : Dict Str Nat), opsCounted (l.foldl (fun d k => d.set k ((d.get? k).getD 0 + 1)) d) =
      opsCounted d + l.countP (fun k => k ≠ S "tensor") := by
    intro l
    induction l with
    | nil => intro d; simp
    | cons a t ih =>
      intro d
      rw [List.foldl_cons, ih, opsCounted_add, List.countP_cons]
      by_cases h : a = S "tensor" <;> simp [h]; omega
  unfold counter
  rw [gen]
  simp [opsCounted]

/-! ## Calls -/

variable {R : Type}

/-- Entries of a cache of a certain kind. -/
def entries (p : Key → Bool) (w : World R) (c : Nat) : Nat := (cacheOf w c).keys.countP p

theorem countP_keys_set {κ ν : Type} [DecidableEq κ] (p : κ → Bool) (d : Dict κ ν) (k : κ) (v : ν) :
    (d.set k v).keys.countP p = d.keys.countP p + if (d.get? k).isSome then 0 else if p k then 1 else 0 := by
  induction d with
  | nil => simp [Dict.set, Dict.get?, Dict.keys]
  | cons e t ih =>
    obtain ⟨k', v'⟩ := e
    simp only [Dict.set, Dict.get?]
    by_cases h : k' = k
    · subst h; simp [Dict.keys]
    · simp only [h, if_false]
      simp only [Dict.keys, List.map_cons, List.countP_cons] at ih ⊢
      omega

/-- What a call does to the count of the entries satisfying `p` of the innermost cache: it grows by the number of functions executed,
except for one that raised. Nothing else is done to the caches. -/
structure Counts {α : Type} (p : Key → Bool) (w : World R) (o : Except PyErr α) (w' : World R) : Prop where
  count : ∀ c, w.stack.head? = some c →
    ∃ d f, w'.execs = w.execs + d + f ∧ entries p w' c = entries p w c + d ∧ f ≤ 1 ∧ (∀ a, o = .ok a → f = 0)
  stack : w'.stack = w.stack
  next : w'.nextCache = w.nextCache
  other : ∀ c', w.stack.head? ≠ some c' → cacheOf w' c' = cacheOf w c'

/-- A predicate that holds of the operations and of no operand. -/
structure OpPred (p : Key → Bool) : Prop where
  tensor : ∀ i, p (.tensor i) = false
  transpose : ∀ b a x, p (.transpose b a x) = true
  tensordot : ∀ b x y a, p (.tensordot b x y a) = true
  einsum : ∀ b e i, p (.einsum b e i) = true

section
variable {p : Key → Bool}

theorem Counts.refl {α : Type} (w : World R) (o : Except PyErr α) : Counts p w o w := ⟨fun _ _ => ⟨0, 0, by simp⟩, rfl, rfl, fun _ _ => rfl⟩

theorem Counts.andThen {α β : Type} {m : M R α} {f : α → M R β} {w : World R} (h1 : Counts p w (m w).1 (m w).2)
    (h2 : ∀ a, (m w).1 = .ok a → Counts p (m w).2 (f a (m w).2).1 (f a (m w).2).2) :
    Counts p w (M.andThen m f w).1 (M.andThen m f w).2 := by
  unfold M.andThen
  rcases hm : m w with ⟨o, w'⟩
  rw [hm] at h1 h2
  cases o with
  | error e =>
    obtain ⟨h4, h5, h6, h7⟩ := h1
    refine ⟨fun c hc => ?_, h5, h6, h7⟩
    obtain ⟨d, g, a1, a2, a3, _⟩ := h4 c hc
    exact ⟨d, g, a1, a2, a3, by simp⟩
  | ok a =>
    obtain ⟨h4, h5, h6, h7⟩ := h1
    obtain ⟨k4, k5, k6, k7⟩ := h2 a rfl
    simp only at h4 h5 h6 h7 k4 k5 k6 k7 ⊢
    refine ⟨fun c hc => ?_, k5.trans h5, k6.trans h6, fun c' hc => (k7 c' (h5 ▸ hc)).trans (h7 c' hc)⟩
    obtain ⟨d, g, a1, a2, a3, a4⟩ := h4 c hc
    obtain ⟨d', g', b1, b2, b3, b4⟩ := k4 c (h5 ▸ hc)
    have := a4 a rfl
    exact ⟨d + d', g', by omega, by omega, b3, b4⟩

theorem entries_save {c : Nat} (hp : ∀ i, p (.tensor i) = false) (ids : List Nat) (w : World R) :
    entries p (saveTensors c ids w) c = entries p w c ∧ (saveTensors c ids w).execs = w.execs ∧ (saveTensors c ids w).stack = w.stack ∧
    (saveTensors c ids w).nextCache = w.nextCache ∧ ∀ c', c' ≠ c → cacheOf (saveTensors c ids w) c' = cacheOf w c' := by
  induction ids generalizing w with
  | nil => exact ⟨rfl, rfl, rfl, rfl, fun _ _ => rfl⟩
  | cons i t ih =>
    obtain ⟨h1, h2, h3, h4, h5⟩ := ih (putCache c (.tensor i) i w)
    refine ⟨?_, h2, h3, h4, fun c' hc => ?_⟩
    · refine h1.trans ?_
      unfold entries
      rw [cacheOf_put, if_pos rfl, countP_keys_set, hp]
      simp
    · refine (h5 c' hc).trans ?_
      rw [cacheOf_put, if_neg hc]

theorem runFn_counts (E : Env R) (L : List Nat) (r : Except PyErr (Tensor R)) (w : World R) :
    (runFn E L r w).2.execs = w.execs + 1 ∧ (runFn E L r w).2.caches = w.caches ∧ (runFn E L r w).2.stack = w.stack ∧
    (runFn E L r w).2.nextCache = w.nextCache := by
  unfold runFn store
  cases r <;> exact ⟨rfl, rfl, rfl, rfl⟩

theorem runFn_outside (E : Env R) (L : List Nat) (r : Except PyErr (Tensor R)) (w : World R) (hs : w.stack = []) :
    Counts p w (runFn E L r w).1 (runFn E L r w).2 := by
  obtain ⟨a1, a2, a3, a4⟩ := runFn_counts E L r w
  refine ⟨fun c hc => ?_, a3, a4, fun c' _ => by unfold cacheOf; rw [a2]⟩
  rw [hs] at hc; cases hc

/-- `memoize` in the innermost context: entries satisfying `q` grow only if the key satisfies it. -/
theorem memoize_entries (q : Key → Bool) {c : Nat} {E : Env R} {L : List Nat} {r : World R → Except PyErr (Tensor R)} {key : Key} (w : World R) :
    let out := memoize c key (fun w => runFn E L (r w) w) w
    (∃ d f, out.2.execs = w.execs + d + f ∧ entries q out.2 c = entries q w c + (if q key then d else 0) ∧ d + f ≤ 1 ∧ (∀ a, out.1 = .ok a → f = 0)) ∧
    out.2.stack = w.stack ∧ out.2.nextCache = w.nextCache ∧ ∀ c', c' ≠ c → cacheOf out.2 c' = cacheOf w c' := by
  unfold memoize
  cases hc : (cacheOf w c).get? key with
  | some x => exact ⟨⟨0, 0, by simp⟩, rfl, rfl, fun _ _ => rfl⟩
  | none =>
    simp only
    obtain ⟨a1, a2, a3, a4⟩ := runFn_counts E L (r w) w
    rcases hr : runFn E L (r w) w with ⟨o, w₁⟩
    rw [hr] at a1 a2 a3 a4
    simp only at a1 a2 a3 a4
    have hco : ∀ c', cacheOf w₁ c' = cacheOf w c' := fun c' => by unfold cacheOf; rw [a2]
    cases o with
    | error e =>
      exact ⟨⟨0, 1, by simpa using a1, by unfold entries; simp only; rw [hco]; simp, le_refl _, by simp⟩, a3, a4, fun c' _ => hco c'⟩
    | ok a =>
      refine ⟨⟨1, 0, by simpa [putCache] using a1, ?_, by omega, fun _ _ => rfl⟩, a3, a4, fun c' hc' => ?_⟩
      · unfold entries
        simp only
        rw [cacheOf_put, if_pos rfl, countP_keys_set, hco, hc]
        simp
      · simp only
        rw [cacheOf_put, if_neg hc', hco]

theorem memoize_counts {c : Nat} {E : Env R} {L : List Nat} {r : World R → Except PyErr (Tensor R)} {key : Key} (hk : p key = true) (w : World R)
    (hc : w.stack.head? = some c) :
    Counts p w (memoize c key (fun w => runFn E L (r w) w) w).1 (memoize c key (fun w => runFn E L (r w) w) w).2 := by
  obtain ⟨h1, h2, h3, h4⟩ := memoize_entries p (c := c) (E := E) (L := L) (r := r) (key := key) w
  refine ⟨fun c' hc' => ?_, h2, h3, fun c' hc' => h4 c' (fun he => hc' (he ▸ hc))⟩
  rw [hc] at hc'
  cases hc'
  obtain ⟨d, f, b1, b2, b3, b4⟩ := h1
  rw [hk, if_pos rfl] at b2
  exact ⟨d, f, b1, b2, by omega, b4⟩

theorem Counts.saved {α : Type} {c : Nat} (hp : ∀ i, p (.tensor i) = false) {ids : List Nat} {w w' : World R} {o : Except PyErr α}
    (hc : w.stack.head? = some c) (h : Counts p (saveTensors c ids w) o w') : Counts p w o w' := by
  obtain ⟨h1, h2, h3, h4, h5⟩ := entries_save (p := p) (c := c) hp ids w
  obtain ⟨k0, k1, k2, k3⟩ := h
  rw [h3] at k0 k1 k3
  refine ⟨fun c' hc' => ?_, k1, k2.trans h4, fun c' hc' => (k3 c' hc').trans (h5 c' (fun he => hc' (he ▸ hc)))⟩
  obtain ⟨d, f, a1, a2, a3, a4⟩ := k0 c' hc'
  rw [hc] at hc'
  cases hc'
  exact ⟨d, f, by rw [a1, h2], by rw [a2, h1], a3, a4⟩

theorem save_head {c : Nat} {ids : List Nat} {w : World R} (hc : w.stack.head? = some c) : (saveTensors c ids w).stack.head? = some c := by
  rw [(entries_save (p := fun _ => false) (c := c) (fun _ => rfl) ids w).2.2.1]; exact hc

theorem transpose_counts (hp : ∀ i, p (.tensor i) = false) (ht : ∀ b a x, p (.transpose b a x) = true) (E : Env R) (L : List Nat) (b : Str) (a : Nat)
    (axes : List Nat) (w : World R) : Counts p w (transpose E L b a axes w).1 (transpose E L b a axes w).2 := by
  unfold transpose
  cases hs : w.stack with
  | nil => exact runFn_outside _ _ _ _ hs
  | cons x t =>
    have hc : w.stack.head? = some x := by rw [hs]; rfl
    exact Counts.saved hp hc (memoize_counts (r := fun w => npTranspose (w.heap a) axes) (ht b a axes) _ (save_head hc))

variable [CommSemiring R]

theorem tensordot_counts (hp : ∀ i, p (.tensor i) = false) (ht : ∀ b x y a, p (.tensordot b x y a) = true) (E : Env R) (L : List Nat) (b : Str)
    (x y : Nat) (axes : List Nat × List Nat) (w : World R) :
    Counts p w (tensordot E L b x y axes w).1 (tensordot E L b x y axes w).2 := by
  unfold tensordot
  cases hs : w.stack with
  | nil => exact runFn_outside _ _ _ _ hs
  | cons z t =>
    have hc : w.stack.head? = some z := by rw [hs]; rfl
    exact Counts.saved hp hc (memoize_counts (r := fun w => npTensordot (w.heap x) (w.heap y) axes.1 axes.2) (ht b x y axes) _ (save_head hc))

theorem einsum_counts (hp : ∀ i, p (.tensor i) = false) (ht : ∀ b e ids, p (.einsum b e ids) = true) (E : Env R) (L : List Nat) (b eq : Str)
    (ids : List Nat) (w : World R) : Counts p w (einsum E L b eq ids w).1 (einsum E L b eq ids w).2 := by
  unfold einsum
  cases hs : w.stack with
  | nil => exact runFn_outside _ _ _ _ hs
  | cons z t =>
    have hc : w.stack.head? = some z := by rw [hs]; rfl
    simp only
    cases parseEinsum eq (ids.map (fun i => (w.heap i).shape)) with
    | error e => exact Counts.refl w _
    | ok r =>
      exact Counts.saved hp hc
        (memoize_counts (r := fun w => einsumCall (E.noEinsum b) eq (ids.map w.heap)) (ht _ _ _) _ (save_head hc))

omit [CommSemiring R] in
theorem convert_counts (E : Env R) (L : List Nat) (n : Str) (k : Option Bool) (a : Nat) (ht : p (.convert n a k) = true) (w : World R) :
    Counts p w (convert E L n k a w).1 (convert E L n k a w).2 := by
  unfold convert
  cases hs : w.stack with
  | nil => exact runFn_outside _ _ _ _ hs
  | cons z t => exact memoize_counts (r := fun w => .ok (E.conv n k (w.heap a))) ht _ (by rw [hs]; rfl)

theorem blasStep_counts (hp : OpPred p) (E : Env R) (L : List Nat) (b : Str) (s : Step) (tmp : List Nat) (w : World R) :
    Counts p w (blasStep E L b s tmp w).1 (blasStep E L b s tmp w).2 := by
  unfold blasStep
  split
  · split
    · split
      · simp only
        refine Counts.andThen (tensordot_counts hp.tensor hp.tensordot E _ b _ _ _ w) (fun a ha => ?_)
        split
        · simp only
          split
          · exact transpose_counts hp.tensor hp.transpose E _ b _ _ _
          · exact Counts.refl _ _
        · exact Counts.refl _ _
      · exact Counts.refl _ _
    · exact Counts.refl _ _
  · exact Counts.refl _ _

theorem stepResult_counts (hp : OpPred p) (E : Env R) (L : List Nat) (b : Str) (s : Step) (tmp : List Nat) (w : World R) :
    Counts p w (stepResult E L b s tmp w).1 (stepResult E L b s tmp w).2 := by
  unfold stepResult
  split
  · exact blasStep_counts hp E L b s tmp w
  · exact einsum_counts hp.tensor hp.einsum E _ b _ _ w

theorem coreLoop_counts (hp : OpPred p) (E : Env R) (args : List Nat) (b : Str) (steps : List Step) (ops : List Nat) (w : World R) :
    Counts p w (coreLoop E args b steps ops w).1 (coreLoop E args b steps ops w).2 := by
  induction steps generalizing ops w with
  | nil => exact Counts.refl _ _
  | cons s ss ih =>
    unfold coreLoop
    cases popAll s.inds ops with
    | error e => exact Counts.refl _ _
    | ok r => exact Counts.andThen (stepResult_counts hp E (args ++ r.2) b s r.1 w) (fun a _ => ih _ _)

theorem contract_counts (hp : OpPred p) (E : Env R) (b subs : Str) (ids : List Nat) (opt : Optimize) (mem : MemLimit) (ub : Bool) (w : World R) :
    Counts p w (contract E b subs ids opt mem ub w).1 (contract E b subs ids opt mem ub w).2 := by
  have core : ∀ steps, Counts p w (coreContract E b steps ids w).1 (coreContract E b steps ids w).2 := by
    intro steps
    unfold coreContract
    refine Counts.andThen (coreLoop_counts hp E ids b steps ids w) (fun a _ => ?_)
    cases a with
    | nil => exact Counts.refl _ _
    | cons x xs => exact Counts.refl _ _
  unfold contract
  split
  · exact einsum_counts hp.tensor hp.einsum E _ _ _ _ w
  · split
    · exact Counts.refl _ _
    · split
      · exact Counts.refl _ _
      · exact core _

/-- The conversion called by an event, if it is one. -/
def convName : Event R → Option Str
  | .convert n _ _ => some n
  | _ => none

theorem call_counts (hp : OpPred p) (E : Env R) (e : Event R) (hn : ∀ n a k, convName e = some n → p (.convert n a k) = true) {m : M R Nat}
    (hm : callOf E e = some m) (w : World R) : Counts p w (m w).1 (m w).2 := by
  cases e <;> simp only [callOf, Option.some.injEq, reduceCtorEq] at hm <;> subst hm
  · exact transpose_counts hp.tensor hp.transpose E _ _ _ _ w
  · exact tensordot_counts hp.tensor hp.tensordot E _ _ _ _ _ w
  · exact einsum_counts hp.tensor hp.einsum E _ _ _ _ w
  · exact contract_counts hp E _ _ _ _ _ _ w
  · exact convert_counts E _ _ _ _ (hn _ _ _ rfl) w

theorem step_call_counts {E : Env R} {e : Event R} {m : M R Nat} (hm : callOf E e = some m) (w : World R) :
    (step E w e).execs = (m w).2.execs ∧ (step E w e).stack = (m w).2.stack ∧ (step E w e).nextCache = (m w).2.nextCache ∧
    ∀ c, cacheOf (step E w e) c = cacheOf (m w).2 c := by
  have hk : ∀ m : M R Nat, (keep m w).2.execs = (m w).2.execs ∧ (keep m w).2.stack = (m w).2.stack ∧ (keep m w).2.nextCache = (m w).2.nextCache ∧
      ∀ c, cacheOf (keep m w).2 c = cacheOf (m w).2 c := by
    intro m
    unfold keep
    rcases m w with ⟨o, w'⟩
    cases o <;> exact ⟨rfl, rfl, rfl, fun _ => rfl⟩
  cases e <;> simp only [callOf, Option.some.injEq, reduceCtorEq] at hm <;> subst hm <;> exact hk _

end

/-- All keys but saved operands and conversions named `"tensor"`. -/
def isOp (k : Key) : Bool := decide (kindOf k ≠ S "tensor")

theorem isOp_pred : OpPred isOp := ⟨fun _ => rfl, fun _ _ _ => rfl, fun _ _ _ _ => rfl, fun _ _ _ => rfl⟩

/-- All keys but saved operands. -/
def isCall : Key → Bool
  | .tensor _ => false
  | _ => true

theorem isCall_pred : OpPred isCall := ⟨fun _ => rfl, fun _ _ _ => rfl, fun _ _ _ _ => rfl, fun _ _ _ => rfl⟩

theorem opsCounted_cache (cache : Cache) : opsCounted (countCachedOps cache) = cache.keys.countP isOp := by
  unfold countCachedOps
  rw [opsCounted_counter, List.countP_map]
  rfl

end OE.Share

namespace OE.Props
open OE OE.Py OE.Parser OE.Contract OE.Spec OE.Share

/-- **C78** (the counter). `count_cached_ops(cache)` maps each kind of key that occurs in the cache to the number of its keys of that kind, and
nothing else to anything. -/
theorem C78_counter (cache : Cache) (k : Str) :
    (countCachedOps cache).get? k = (if ∃ key ∈ cache.keys, kindOf key = k then some (cache.keys.filter (fun key => kindOf key = k)).length else none) ∧
      (countCachedOps cache).keys.Nodup := by
  refine ⟨?_, counter_nodup _⟩
  unfold countCachedOps
  rw [counter_get]
  have hc : ((cache.keys.map kindOf).filter (fun x => x = k)).length = (cache.keys.filter (fun key => kindOf key = k)).length := by
    rw [List.filter_map, List.length_map]
    rfl
  rw [hc]
  simp only [List.mem_map]

variable {R : Type} [CommSemiring R]

/-- **C78** (one call). A successful call in a context adds to the counted operations of the innermost cache exactly the number of functions that
were executed; a call that raises, that number or one less. Other caches, and outside a context all caches, are left alone. -/
theorem C78_call {E : Env R} {e : Event R} (hn : convName e ≠ some (S "tensor")) {m : M R Nat} (hm : callOf E e = some m) (w : World R) :
    (∀ c, w.stack.head? = some c → ∃ d f,
        (m w).2.execs = w.execs + d + f ∧
        opsCounted (countCachedOps (cacheOf (m w).2 c)) = opsCounted (countCachedOps (cacheOf w c)) + d ∧
        f ≤ 1 ∧ (∀ a, (m w).1 = .ok a → f = 0)) ∧
      ∀ c, w.stack.head? ≠ some c → countCachedOps (cacheOf (m w).2 c) = countCachedOps (cacheOf w c) := by
  have h := call_counts (p := isOp) isOp_pred E e (fun n a k hn' => by
    have : n ≠ S "tensor" := fun h => hn (h ▸ hn')
    simp [isOp, kindOf, this]) hm w
  refine ⟨fun c hc => ?_, fun c hc => by rw [h.other c hc]⟩
  rw [opsCounted_cache, opsCounted_cache]
  exact h.count c hc

/-- The states reached from `w` without forgetting the cache `c`, all calls with `c` as the innermost cache being successful, with the
number of functions that these calls executed. -/
inductive RanWith (E : Env R) (c : Nat) (w : World R) : World R → Nat → Prop
  | refl : RanWith E c w w 0
  | step {w' : World R} {n : Nat} (e : Event R) : RanWith E c w w' n → Possible w' e → e ≠ .dropCache c →
      (∀ m, callOf E e = some m → w'.stack.head? = some c → convName e ≠ some (S "tensor") ∧ ∃ a, (m w').1 = .ok a) →
      RanWith E c w (step E w' e) (if w'.stack.head? = some c then n + ((step E w' e).execs - w'.execs) else n)

theorem ran_counts {E : Env R} {c : Nat} {w w₂ : World R} {n : Nat} (hc : c < w.nextCache) (h : RanWith E c w w₂ n) :
    c < w₂.nextCache ∧ entries isOp w₂ c = entries isOp w c + n := by
  induction h with
  | refl => exact ⟨hc, rfl⟩
  | @step w' n e _ hp hd hm ih =>
    obtain ⟨h1, h2⟩ := ih
    have call : ∀ m, callOf E e = some m → c < (Share.step E w' e).nextCache ∧
        entries isOp (Share.step E w' e) c = entries isOp w c + if w'.stack.head? = some c then n + ((Share.step E w' e).execs - w'.execs) else n := by
      intro m hm'
      obtain ⟨k1, k2, k3, k4⟩ := step_call_counts hm' w'
      rw [k1, k3]
      unfold entries at h2 ⊢
      rw [k4]
      by_cases hs : w'.stack.head? = some c
      · obtain ⟨hn, a, ha⟩ := hm m hm' hs
        have hC := call_counts (p := isOp) isOp_pred E e (fun n a k hn' => by
          have : n ≠ S "tensor" := fun h => hn (h ▸ hn')
          simp [isOp, kindOf, this]) hm' w'
        obtain ⟨d, f, a1, a2, a3, a4⟩ := hC.count c hs
        have := a4 a ha
        unfold entries at a2
        refine ⟨hC.next ▸ h1, ?_⟩
        rw [if_pos hs, a2, h2, a1]
        omega
      · have hC := call_counts (p := isCall) isCall_pred E e (fun _ _ _ _ => rfl) hm' w'
        refine ⟨hC.next ▸ h1, ?_⟩
        rw [if_neg hs, hC.other c hs, h2]
    have still : (Share.step E w' e).execs = w'.execs → c < (Share.step E w' e).nextCache → cacheOf (Share.step E w' e) c = cacheOf w' c →
        c < (Share.step E w' e).nextCache ∧
        entries isOp (Share.step E w' e) c = entries isOp w c + if w'.stack.head? = some c then n + ((Share.step E w' e).execs - w'.execs) else n := by
      intro he hl hco
      refine ⟨hl, ?_⟩
      unfold entries at h2 ⊢
      rw [hco, h2, he]
      split <;> omega
    cases e with
    | new T => exact still rfl h1 rfl
    | drop a => exact still rfl h1 rfl
    | enter o =>
      cases o with
      | none =>
        refine still rfl (Nat.lt_succ_of_lt h1) ?_
        refine (cacheOf_enter w' c).trans (if_neg (Nat.ne_of_lt h1))
      | some c' => exact still rfl h1 rfl
    | leave => exact still rfl h1 rfl
    | dropCache c' =>
      refine still rfl h1 ?_
      refine (cacheOf_drop w' c' c).trans (if_neg ?_)
      rintro rfl
      exact hd rfl
    | transpose b a x => exact call _ rfl
    | tensordot b x y a => exact call _ rfl
    | einsum b q i => exact call _ rfl
    | contract b q i o l u => exact call _ rfl
    | convert q k a => exact call _ rfl

/-- **C78** (a history). Over any history that keeps the cache, and in which the calls made with it as the innermost one succeed, the counted
operations grow by exactly the number of functions that those calls executed. -/
theorem C78_history {E : Env R} {c : Nat} {w w₂ : World R} {n : Nat} (hc : c < w.nextCache) (h : RanWith E c w w₂ n) :
    opsCounted (countCachedOps (cacheOf w₂ c)) = opsCounted (countCachedOps (cacheOf w c)) + n := by
  rw [opsCounted_cache, opsCounted_cache]
  exact (ran_counts hc h).2

/-- **C78** (the life of a cache). From `with shared_intermediates() as cache:` on, the operations counted in `cache` are exactly the functions
that were executed by calls with it as the innermost cache. -/
theorem C78_life {E : Env R} {w w₂ : World R} {n : Nat} (h : RanWith E w.nextCache (step E w (.enter none)) w₂ n) :
    opsCounted (countCachedOps (cacheOf w₂ w.nextCache)) = n := by
  rw [C78_history (Nat.lt_succ_self _) h]
  have : cacheOf (step E w (.enter none)) w.nextCache = [] := (cacheOf_enter w w.nextCache).trans (if_pos rfl)
  rw [this]
  simp [countCachedOps, counter, opsCounted, Dict.keys]

/-- The kind of the keys that a single operation stores. -/
def ownKind : Event R → Option Str
  | .transpose _ _ _ => some (S "transpose")
  | .tensordot _ _ _ _ => some (S "tensordot")
  | .einsum _ _ _ => some (S "einsum")
  | .convert n _ _ => some n
  | _ => none

/-- The count of one kind of keys. -/
def counted (k : Str) (cache : Cache) : Nat := ((countCachedOps cache).get? k).getD 0

omit [CommSemiring R] in
theorem counted_entries (k : Str) (w : World R) (c : Nat) : counted k (cacheOf w c) = entries (fun key => decide (kindOf key = k)) w c := by
  unfold counted entries
  rw [(C78_counter _ k).1, List.countP_eq_length_filter]
  split
  · rfl
  · rename_i h
    simp only [Option.getD_none]
    symm
    rw [List.length_eq_zero_iff, List.filter_eq_nil_iff]
    intro key hk
    simp only [decide_eq_true_eq]
    exact fun he => h ⟨key, hk, he⟩

/-- **C78** (by kind). A successful call of a single operation adds the executions to the count of its own kind, and changes no other count but
that of the saved operands. -/
theorem C78_kind {E : Env R} {e : Event R} {own : Str} (ho : ownKind e = some own) {m : M R Nat} (hm : callOf E e = some m) {w : World R} {c : Nat}
    (hc : w.stack.head? = some c) {a : Nat} (ha : (m w).1 = .ok a) {k : Str} (hk : k ≠ S "tensor") :
    (m w).2.execs ≤ w.execs + 1 ∧
    counted k (cacheOf (m w).2 c) = counted k (cacheOf w c) + if k = own then (m w).2.execs - w.execs else 0 := by
  rw [counted_entries, counted_entries]
  have hq : ∀ i, (fun key => decide (kindOf key = k)) (Key.tensor i) = false := fun i => decide_eq_false (Ne.symm hk)
  have mem : ∀ (L : List Nat) (ids : List Nat) (key : Key) (r : World R → Except PyErr (Tensor R)), kindOf key = own →
      (memoize c key (fun w => runFn E L (r w) w) (saveTensors c ids w)).1 = .ok a →
      (memoize c key (fun w => runFn E L (r w) w) (saveTensors c ids w)).2.execs ≤ w.execs + 1 ∧
      entries (fun key => decide (kindOf key = k)) (memoize c key (fun w => runFn E L (r w) w) (saveTensors c ids w)).2 c =
        entries (fun key => decide (kindOf key = k)) w c +
          if k = own then (memoize c key (fun w => runFn E L (r w) w) (saveTensors c ids w)).2.execs - w.execs else 0 := by
    intro L ids key r hko hok
    obtain ⟨⟨d, f, h1, h2, h3, h4⟩, _⟩ := memoize_entries (fun key => decide (kindOf key = k)) (c := c) (E := E) (L := L) (r := r) (key := key)
      (saveTensors c ids w)
    obtain ⟨s1, s2, _⟩ := entries_save (p := fun key => decide (kindOf key = k)) (c := c) hq ids w
    have hf := h4 a hok
    refine ⟨by rw [h1, s2]; omega, ?_⟩
    rw [h2, s1, h1, s2, hko]
    subst hf
    by_cases hown : k = own
    · simp [hown]
    · simp [hown, Ne.symm hown]
  have hs : ∃ t, w.stack = c :: t := by
    cases h : w.stack with
    | nil => rw [h] at hc; cases hc
    | cons x t => rw [h] at hc; cases hc; exact ⟨t, rfl⟩
  obtain ⟨t, hs⟩ := hs
  cases e <;> simp only [callOf, Option.some.injEq, reduceCtorEq, ownKind] at hm ho <;> subst hm <;> subst ho
  · rename_i b x axes
    unfold transpose at ha ⊢
    rw [hs] at ha ⊢
    exact mem _ _ _ (fun w => npTranspose (w.heap x) axes) rfl ha
  · rename_i b x y axes
    unfold tensordot at ha ⊢
    rw [hs] at ha ⊢
    exact mem _ _ _ (fun w => npTensordot (w.heap x) (w.heap y) axes.1 axes.2) rfl ha
  · rename_i b eq ids
    unfold einsum at ha ⊢
    rw [hs] at ha ⊢
    simp only at ha ⊢
    cases hp : parseEinsum eq (ids.map (fun i => (w.heap i).shape)) with
    | error x => rw [hp] at ha; simp at ha
    | ok r =>
      rw [hp] at ha
      exact mem _ _ _ (fun w => einsumCall (E.noEinsum b) eq (ids.map w.heap)) rfl ha
  · rename_i n ct x
    unfold convert at ha ⊢
    rw [hs] at ha ⊢
    exact mem _ [] _ (fun w => .ok (E.conv n ct (w.heap x))) rfl ha

/-! ### A case -/

/-- The product of two matrices: one `einsum`, two operands. -/
example : countCachedOps (cacheOf shared2 0) = [(S "tensor", 2), (S "einsum", 1)] := by decide

/-- A conversion and a transposition later; the product with other labels is found in the cache. -/
def counted4 : List (Event Nat) :=
  [.einsum (S "numpy") eqXY [1, 0], .convert (S "to_torch") none 0, .transpose (S "numpy") 0 [1, 0], .convert (S "to_torch") none 0]

example : countCachedOps (cacheOf (after shared2 counted4) 0) = [(S "tensor", 2), (S "einsum", 1), (S "to_torch", 1), (S "transpose", 1)] ∧
    (after shared2 counted4).execs = 3 := by decide

/-- The hypotheses of the history theorem are met: the product is executed once, then the context is left, an array is made, and the context is
resumed. -/
theorem C78_concrete : RanWith demoEnv 0 shared shared2 1 ∧ 0 < shared.nextCache := by
  have h1 := RanWith.step (c := 0) (.einsum (S "numpy") eqAB [0, 1]) (RanWith.refl (E := demoEnv) (w := shared))
    (by show ∀ i ∈ [0, 1], i ∈ shared.roots; decide) (by simp) (fun m hm _ => by
      simp only [callOf, Option.some.injEq] at hm
      subst hm
      exact ⟨by simp [convName], 2, by decide⟩)
  have h2 := h1.step .leave (by show shared.stack ≠ []; decide) (by simp) (fun m hm => by cases hm)
  have h3 := h2.step (.new (num 7)) trivial (by simp) (fun m hm => by cases hm)
  have h4 := h3.step (.enter (some 0)) (by show 0 ∈ [0]; decide) (by simp) (fun m hm => by cases hm)
  refine ⟨?_, by decide⟩
  have e : ∀ n, RanWith demoEnv 0 shared shared2 n → n = 1 → RanWith demoEnv 0 shared shared2 1 := fun n h hn => hn ▸ h
  exact e _ h4 (by decide)

end OE.Props
