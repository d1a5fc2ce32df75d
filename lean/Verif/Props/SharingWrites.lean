import Verif.Props.Sharing3
import Verif.Spec.SharingWrites

/-!
# C85: writing into arrays under sharing
-/

namespace OE.Share
open OE OE.Py OE.Parser OE.Contract OE.Spec
variable {R : Type} [CommSemiring R]

omit [CommSemiring R] in
theorem cached_of_get {w : World R} {c : Nat} {k : Key} {a : Nat} (h : (cacheOf w c).get? k = some a) : Cached w a := by
  unfold cacheOf at h
  cases hc : w.caches.get? c with
  | none => rw [hc] at h; simp [Dict.get?] at h
  | some cache =>
    rw [hc] at h
    exact ⟨(c, cache), get?_mem hc, List.mem_map.mpr ⟨(k, a), get?_mem h, rfl⟩⟩

theorem write_inv {E : Env R} {w : World R} (hI : Inv E w) {A : List Nat} {T : Nat → Tensor R} (hA : ∀ a ∈ A, ¬ Cached w a) :
    Inv E (writeArrays A T w) := by
  intro c k a hk
  have hk' : (cacheOf w c).get? k = some a := hk
  have same : ∀ i, Cached w i → (writeArrays A T w).heap i = w.heap i := by
    intro i hi
    unfold writeArrays
    simp only
    rw [if_neg (fun h => hA i h hi)]
  exact (hI c k a hk').heap (same a (cached_of_get hk')) (fun i hi => same i (cached_of_get hi))

theorem reachableW_inv {E : Env R} (hE : FreshIds E) {w : World R} (h : ReachableW E Harmless w) : Inv E w := by
  induction h with
  | init heap =>
    intro c
    unfold cacheOf
    simp only [Dict.get?, Option.getD_none]
    exact cacheOk_nil _ _
  | step e _ _ hc ih =>
    cases e with
    | prog e => exact step_inv hE ih e hc
    | write A T => exact write_inv ih hc

end OE.Share

namespace OE.Props
open OE OE.Py OE.Parser OE.Contract OE.Spec OE.Share
variable {R : Type} [CommSemiring R]

/-- **C85**, first half: a program that also writes into its arrays, but never into one that a living cache refers to, gets from every
`transpose`, `tensordot`, `einsum` and `contract` call, under sharing or not, what the call without sharing delivers for the contents that the
arrays have at that time; and no call changes an array that the program holds. -/
theorem C85_harmless_writes {E : Env R} (hE : FreshIds E) {w : World R} (hw : ReachableW E Harmless w) {e : Event R} (hc : Covered w e)
    (hconv : ∀ n k a, e ≠ .convert n k a) {m : M R Nat} (hm : callOf E e = some m) {d : Except PyErr (Tensor R)}
    (hd : direct E w e = some d) : Agrees (m w) d ∧ ∀ a ∈ w.roots, (m w).2.heap a = w.heap a := by
  obtain ⟨o, w', h1, _, h3, h4⟩ := call_ok hE (reachableW_inv hE hw) hc hm
  rw [h1]
  refine ⟨h4 hconv d hd, ?_⟩
  intro a ha
  exact h3.heap a (Or.inr (by unfold inUse; simp [ha]))

/-- **C85**, second half: a call made in a sharing context is not made again after a write. Whatever arrays the write changes (the shapes
stay), the repeated call returns the very array returned before and executes nothing. -/
theorem C85_writes_go_unnoticed {E : Env R} (hE : FreshIds E) {w : World R} (hw : ReachableW E Harmless w) {c : Nat}
    (hc : w.stack.head? = some c) {e : Event R} (hpos : Possible w e) (hcov : Covered w e) {m : M R Nat} (hm : callOf E e = some m)
    {a : Nat} (ha : (m w).1 = .ok a) (A : List Nat) (T : Nat → Tensor R) (hT : PossibleW (step E w e) (.write A T)) :
    let w₂ := writeArrays A T (step E w e)
    (m w₂).1 = .ok a ∧ (m w₂).2.heap = w₂.heap ∧ (m w₂).2.execs = w₂.execs ∧ (m w₂).2.clock = w₂.clock := by
  intro w₂
  have hI := reachableW_inv hE hw
  obtain ⟨o, w', q1, q2, q3, _⟩ := call_ok hE hI hcov hm
  rw [q1] at ha
  simp only at ha
  subst ha
  have hstep : (step E w e).caches = w'.caches ∧ (step E w e).heap = w'.heap ∧ (step E w e).stack = w'.stack := by
    rw [step_call hm]
    obtain ⟨rs, _, h5, _⟩ := keep_snd m w
    rw [h5, q1]
    exact ⟨rfl, rfl, rfl⟩
  have hco : cacheOf w₂ c = cacheOf w' c := by
    show ((step E w e).caches.get? c).getD [] = (w'.caches.get? c).getD []
    rw [hstep.1]
  have hshape : ∀ i, (w₂.heap i).shape = (w'.heap i).shape := by
    intro i
    show (if i ∈ A then T i else (step E w e).heap i).shape = _
    split
    · rename_i hi
      rw [hT i hi, hstep.2.1]
    · rw [hstep.2.1]
  have hroots : ∀ i ∈ callArgs e, i ∈ w.roots := by
    cases e with
    | transpose b x axes => intro i hi; simp [callArgs] at hi; subst hi; exact hpos
    | tensordot b x y axes =>
      intro i hi
      simp [callArgs] at hi
      rcases hi with rfl | rfl
      · exact hpos.1
      · exact hpos.2
    | einsum b eq ids => exact hpos
    | contract b s ids opt mem ub => exact hpos
    | convert n k x => intro i hi; simp [callArgs] at hi; subst hi; exact hpos
    | _ => intro i hi; simp [callArgs] at hi
  have hc₂ : w₂.stack.head? = some c := by
    show (step E w e).stack.head? = some c
    rw [hstep.2.2, q3.stack, hc]
  obtain ⟨w₂', f1, f2⟩ := call_replay hE hI hc hm q1 hc₂ (fun k x hx => by rw [hco]; exact hx) (fun i _ => hshape i)
    (fun i hi => by rw [hshape i, q3.heap i (Or.inr (by unfold inUse; simp [hroots i hi]))])
  rw [f1]
  exact ⟨rfl, f2.heap, f2.execs, f2.clock⟩

/-- **C85**, exactly when the repeated call is right: if the array returned before is not written into, the call delivers what it delivered
for the old contents of the operands, so it is right exactly if the new contents give the same result. -/
theorem C85_stale_exactly {E : Env R} (hE : FreshIds E) {w : World R} (hw : ReachableW E Harmless w) {c : Nat}
    (hc : w.stack.head? = some c) {e : Event R} (hpos : Possible w e) (hcov : Covered w e) (hconv : ∀ n k a, e ≠ .convert n k a)
    {m : M R Nat} (hm : callOf E e = some m) {a : Nat} (ha : (m w).1 = .ok a) (A : List Nat) (T : Nat → Tensor R)
    (hT : PossibleW (step E w e) (.write A T)) (haA : a ∉ A) {d d₂ : Except PyErr (Tensor R)} (hd : direct E w e = some d)
    (hd₂ : direct E (writeArrays A T (step E w e)) e = some d₂) :
    Agrees (m (writeArrays A T (step E w e))) d ∧ (Agrees (m (writeArrays A T (step E w e))) d₂ ↔ d₂ = d) := by
  obtain ⟨r1, r2, _, _⟩ := C85_writes_go_unnoticed hE hw hc hpos hcov hm ha A T hT
  obtain ⟨g, _⟩ := C85_harmless_writes hE hw hcov hconv hm hd
  have hres : (m (writeArrays A T (step E w e))).2.heap a = (m w).2.heap a := by
    rw [r2]
    show (if a ∈ A then T a else (step E w e).heap a) = _
    rw [if_neg haA, step_call hm]
    obtain ⟨rs, _, h5, _⟩ := keep_snd m w
    rw [h5]
  unfold Agrees at g ⊢
  rw [ha] at g
  rw [r1]
  cases d with
  | error x => exact absurd g (by simp)
  | ok t =>
    simp only at g ⊢
    refine ⟨by rw [hres, g], ?_⟩
    cases d₂ with
    | error x => simp
    | ok t₂ =>
      simp only
      rw [hres, g]
      constructor
      · rintro rfl; rfl
      · intro h; cases h; rfl

/-! ### Concrete histories -/

theorem reachableW_of {P : World Nat → WEvent Nat → Prop} {Q : World Nat → Event Nat → Prop} (hQ : ∀ w e, Q w e → P w (.prog e))
    {w : World Nat} (h : ReachableBy demoEnv Q w) : ReachableW demoEnv P w := by
  induction h with
  | init heap => exact .init heap
  | step e _ hp hc ih => exact .step (.prog e) ih hp (hQ _ _ hc)

theorem shared_reachableW : ReachableW demoEnv Harmless shared := reachableW_of (fun _ _ h => h) shared_reachable

/-- The product of the two matrices was computed in a context, then 5 is written to all places of the first one. -/
def written : World Nat := writeArrays [0] (fun _ => mat fun _ _ => 5) (step demoEnv shared (.einsum (S "numpy") eqAB [0, 1]))

theorem written_possible :
    PossibleW (step demoEnv shared (.einsum (S "numpy") eqAB [0, 1])) (.write [0] (fun _ => mat fun _ _ => 5)) := by
  show ∀ a ∈ [0], _
  decide

/-- The repeated product is the old one, at position (0, 0) 6 instead of 15; the call without sharing delivers the new one. -/
theorem C85_stale_counterexample :
    (einsum demoEnv [] (S "numpy") eqAB [0, 1] written).1 = .ok 2 ∧
    ((einsum demoEnv [] (S "numpy") eqAB [0, 1] written).2.heap 2).val [0, 0] = 6 ∧
    ((einsumCall false eqAB ([0, 1].map written.heap)).toOption.map (fun T => T.val [0, 0])) = some 15 ∧
    ¬ Agrees (einsum demoEnv [] (S "numpy") eqAB [0, 1] written) (einsumCall false eqAB ([0, 1].map written.heap)) := by
  have h1 : (einsum demoEnv [] (S "numpy") eqAB [0, 1] written).1 = .ok 2 := by decide
  have h2 : ((einsum demoEnv [] (S "numpy") eqAB [0, 1] written).2.heap 2).val [0, 0] = 6 := by decide +kernel
  have h3 : ((einsumCall false eqAB ([0, 1].map written.heap)).toOption.map (fun T => T.val [0, 0])) = some 15 := by decide +kernel
  refine ⟨h1, h2, h3, ?_⟩
  unfold Agrees
  rw [h1]
  cases h : einsumCall false eqAB ([0, 1].map written.heap) with
  | error x => simp
  | ok T =>
    rw [h] at h3
    simp only
    intro hT
    rw [hT] at h2
    simp only [Except.toOption, Option.map_some, Option.some.injEq] at h3
    omega

/-- The hypotheses of the second half are met by this history. -/
example : (einsum demoEnv [] (S "numpy") eqAB [0, 1] written).1 = .ok 2 ∧
    (einsum demoEnv [] (S "numpy") eqAB [0, 1] written).2.execs = written.execs := by
  obtain ⟨h1, _, h3, _⟩ := C85_writes_go_unnoticed (w := shared) (c := 0) demo_fresh shared_reachableW rfl
    (e := .einsum (S "numpy") eqAB [0, 1]) (by show ∀ i ∈ [0, 1], i ∈ shared.roots; decide) (simple_AB _ _) rfl (a := 2) (by decide)
    [0] (fun _ => mat fun _ _ => 5) written_possible
  exact ⟨h1, h3⟩

/-- A write into the result of a call made under sharing: the repeated call delivers what was written. -/
theorem C85_result_counterexample :
    let w := writeArrays [2] (fun _ => mat fun _ _ => 100) (step demoEnv shared (.einsum (S "numpy") eqAB [0, 1]))
    2 ∈ w.roots ∧ (einsum demoEnv [] (S "numpy") eqAB [0, 1] w).1 = .ok 2 ∧
    ((einsum demoEnv [] (S "numpy") eqAB [0, 1] w).2.heap 2).val [0, 0] = 100 ∧
    ((einsumCall false eqAB ([0, 1].map w.heap)).toOption.map (fun T => T.val [0, 0])) = some 6 := by
  decide +kernel

/-- The cache of the context is forgotten, then the first matrix is written into and a context is entered again. -/
def rewritten : World Nat :=
  step demoEnv (writeArrays [0] (fun _ => mat fun _ _ => 5) (after (step demoEnv shared (.einsum (S "numpy") eqAB [0, 1])) [.leave, .dropCache 0]))
    (.enter none)

theorem rewritten_reachable : ReachableW demoEnv Harmless rewritten := by
  refine .step (.prog (.enter none)) (.step (.write [0] (fun _ => mat fun _ _ => 5)) (reachableW_of (fun _ _ h => h) (?_ :
    ReachableBy demoEnv Covered _)) ?_ ?_) trivial trivial
  · apply reachable_after (.step (.einsum (S "numpy") eqAB [0, 1]) shared_reachable ?_ (simple_AB _ _))
    · refine ⟨?_, trivial, ?_, trivial, trivial⟩
      · show shared.stack ≠ []; decide
      · show 0 ∉ []; decide
    · show ∀ i ∈ [0, 1], i ∈ shared.roots; decide
  · show ∀ a ∈ [0], _
    decide
  · rintro a - ⟨p, hp, -⟩
    have : (after (step demoEnv shared (.einsum (S "numpy") eqAB [0, 1])) [.leave, .dropCache 0]).caches = [] := by decide
    rw [this] at hp
    cases hp

/-- The first half on this history: the product is that of the new contents, at position (0, 0) 15. -/
example : Agrees (einsum demoEnv [] (S "numpy") eqAB [0, 1] rewritten) (einsumCall false eqAB ([0, 1].map rewritten.heap)) :=
  (C85_harmless_writes (e := .einsum (S "numpy") eqAB [0, 1]) demo_fresh rewritten_reachable (simple_AB _ _) (by simp) rfl rfl).1

example : rewritten.stack = [1] ∧ (einsum demoEnv [] (S "numpy") eqAB [0, 1] rewritten).1.toOption.map
    (fun a => ((einsum demoEnv [] (S "numpy") eqAB [0, 1] rewritten).2.heap a).val [0, 0]) = some 15 := by decide +kernel

end OE.Props
