import Verif.Props.Sharing2

/-! # C44: conversions under sharing; concrete histories for C42-C44 -/

namespace OE.Share
open OE OE.Py OE.Parser OE.Contract OE.Spec OE.Props
variable {R : Type}

/-! ### Only conversions store conversions -/

/-- The caches hold the same conversions. -/
def ConvSame (w w' : World R) : Prop :=
  ∀ c n i k, (cacheOf w' c).get? (.convert n i k) = (cacheOf w c).get? (.convert n i k)

theorem ConvSame.refl (w : World R) : ConvSame w w := fun _ _ _ _ => rfl

theorem ConvSame.trans {w₁ w₂ w₃ : World R} (h : ConvSame w₁ w₂) (h' : ConvSame w₂ w₃) : ConvSame w₁ w₃ :=
  fun c n i k => (h' c n i k).trans (h c n i k)

theorem ConvSame.of_caches {w w' : World R} (h : w'.caches = w.caches) : ConvSame w w' := by
  intro c n i k
  unfold cacheOf
  rw [h]

theorem convSame_put {c : Nat} {key : Key} {a : Nat} (w : World R) (h : ∀ n i k, key ≠ .convert n i k) : ConvSame w (putCache c key a w) := by
  intro c' n i k
  rw [cacheOf_put]
  split
  · rename_i e
    rw [OE.Py.Dict.get?_set_ne (h n i k).symm, e]
  · rfl

theorem convSame_save (c : Nat) (ids : List Nat) (w : World R) : ConvSame w (saveTensors c ids w) := by
  induction ids generalizing w with
  | nil => exact ConvSame.refl w
  | cons i t ih => exact (convSame_put (key := .tensor i) w (by simp)).trans (ih _)

theorem convSame_memo {E : Env R} {L : List Nat} (r : World R → Except PyErr (Tensor R)) (c : Nat) {key : Key}
    (h : ∀ n i k, key ≠ .convert n i k) (w : World R) : ConvSame w (memoize c key (fun w => runFn E L (r w) w) w).2 := by
  unfold memoize
  cases hc : (cacheOf w c).get? key with
  | some a => exact ConvSame.refl w
  | none =>
    simp only
    rcases hr : runFn E L (r w) w with ⟨o, w₁⟩
    have h1 := ConvSame.of_caches (runFn_caches hr)
    cases o with
    | error e => exact h1
    | ok a => exact h1.trans (convSame_put w₁ h)

theorem convSame_run {E : Env R} {L : List Nat} (r : Except PyErr (Tensor R)) (w : World R) : ConvSame w (runFn E L r w).2 :=
  ConvSame.of_caches (runFn_caches (o := (runFn E L r w).1) rfl)

theorem convSame_transpose {E : Env R} (L : List Nat) (b : Str) (a : Nat) (axes : List Nat) (w : World R) :
    ConvSame w (transpose E L b a axes w).2 := by
  unfold transpose
  split
  · exact convSame_run _ w
  · exact (convSame_save _ _ w).trans (convSame_memo (fun w => npTranspose (w.heap a) axes) _ (by simp) _)

variable [CommSemiring R]

theorem convSame_tensordot {E : Env R} (L : List Nat) (b : Str) (x y : Nat) (axes : List Nat × List Nat) (w : World R) :
    ConvSame w (tensordot E L b x y axes w).2 := by
  unfold tensordot
  split
  · exact convSame_run _ w
  · exact (convSame_save _ _ w).trans (convSame_memo (fun w => npTensordot (w.heap x) (w.heap y) axes.1 axes.2) _ (by simp) _)

theorem convSame_einsum {E : Env R} (L : List Nat) (b : Str) (eq : Str) (ids : List Nat) (w : World R) :
    ConvSame w (einsum E L b eq ids w).2 := by
  unfold einsum
  split
  · exact convSame_run _ w
  · split
    · exact ConvSame.refl w
    · exact (convSame_save _ _ w).trans (convSame_memo (fun w => einsumCall (E.noEinsum b) eq (ids.map w.heap)) _ (by simp) _)

omit [CommSemiring R] in
theorem convSame_andThen {α β : Type} {m : M R α} {f : α → M R β} {w : World R} (h : ConvSame w (m w).2)
    (hf : ∀ a w', ConvSame w' (f a w').2) : ConvSame w (M.andThen m f w).2 := by
  unfold M.andThen
  rcases hm : m w with ⟨o, w'⟩
  rw [hm] at h
  cases o with
  | error e => exact h
  | ok a => exact h.trans (hf a w')

theorem convSame_stepResult {E : Env R} (L : List Nat) (b : Str) (s : Step) (tmp : List Nat) (w : World R) :
    ConvSame w (stepResult E L b s tmp w).2 := by
  unfold stepResult
  split
  · unfold blasStep
    split
    · split
      · split
        · apply convSame_andThen (convSame_tensordot _ _ _ _ _ w)
          intro view w'
          split
          · split
            · exact convSame_transpose _ _ _ _ _
            · exact ConvSame.refl _
          · exact ConvSame.refl _
        · exact ConvSame.refl _
      · exact ConvSame.refl _
    · exact ConvSame.refl _
  · exact convSame_einsum _ _ _ _ _

theorem convSame_coreLoop {E : Env R} (L : List Nat) (b : Str) (steps : List Step) (ops : List Nat) (w : World R) :
    ConvSame w (coreLoop E L b steps ops w).2 := by
  induction steps generalizing ops w with
  | nil => exact ConvSame.refl w
  | cons s ss ih =>
    unfold coreLoop
    split
    · exact ConvSame.refl w
    · exact convSame_andThen (convSame_stepResult _ _ _ _ _) (fun view w' => ih _ w')

theorem convSame_contract {E : Env R} (b : Str) (s : Str) (ids : List Nat) (opt : Optimize) (mem : MemLimit) (ub : Bool) (w : World R) :
    ConvSame w (contract E b s ids opt mem ub w).2 := by
  unfold contract
  split
  · exact convSame_einsum _ _ _ _ _
  · split
    · exact ConvSame.refl w
    · split
      · exact ConvSame.refl w
      · unfold coreContract
        apply convSame_andThen (convSame_coreLoop _ _ _ _ _)
        intro l w'
        split <;> exact ConvSame.refl _

/-- Stored conversions belong to arrays that the program still holds. -/
def ConvInv (E : Env R) (w : World R) : Prop :=
  ∀ c n i k a, (cacheOf w c).get? (.convert n i k) = some a → i ∈ w.roots ∧ w.heap a = E.conv n k (w.heap i)

omit [CommSemiring R] in
theorem ConvInv.ext {E : Env R} {L : List Nat} {w w' : World R} (h : ConvInv E w) (he : Ext L w w') (hs : ConvSame w w') : ConvInv E w' := by
  intro c n i k a ha
  rw [hs c n i k] at ha
  obtain ⟨h1, h2⟩ := h c n i k a ha
  refine ⟨by rw [he.roots]; exact h1, ?_⟩
  rw [he.heap a (Or.inr (inUse_of_cache ha)), he.heap i (Or.inr (by unfold inUse; simp [h1])), h2]

/-- A conversion: correct, and what it stores is correct. -/
theorem convert_inv {E : Env R} (hE : FreshIds E) (n : Str) (k : Option Bool) (i : Nat) {w : World R} (hI : Inv E w) (hC : ConvInv E w)
    (hi : i ∈ w.roots) : Agrees (convert E [] n k i w) (.ok (E.conv n k (w.heap i))) ∧ ConvInv E (convert E [] n k i w).2 := by
  have hu : i ∈ inUse w := by unfold inUse; simp [hi]
  unfold convert
  cases hs : w.stack with
  | nil =>
    simp only
    obtain ⟨o, w', h1, h2, h3, h4, h5, _⟩ := runFn_spec hE [] (.ok (E.conv n k (w.heap i))) hI
    rw [h1]
    exact ⟨h4, hC.ext h3 (ConvSame.of_caches h5)⟩
  | cons c t =>
    simp only
    unfold memoize
    cases hc : (cacheOf w c).get? (.convert n i k) with
    | some a => exact ⟨(hC c n i k a hc).2, hC⟩
    | none =>
      simp only
      obtain ⟨o, w', h1, h2, h3, h4, h5, _⟩ := runFn_spec hE [] (.ok (E.conv n k (w.heap i))) hI
      rw [h1]
      have hC' := hC.ext h3 (ConvSame.of_caches h5)
      cases o with
      | error e => exact absurd h4 (by simp [Out, Agrees])
      | ok a =>
        have ha : w'.heap a = E.conv n k (w.heap i) := h4
        refine ⟨ha, ?_⟩
        intro c' n' i' k' a' ha'
        simp only at ha'
        rw [cacheOf_put] at ha'
        split at ha'
        · rename_i e
          rw [OE.Py.Dict.get?_set] at ha'
          split at ha'
          · rename_i e2
            cases e2; cases ha'
            refine ⟨by show i ∈ w'.roots; rw [h3.roots]; exact hi, ?_⟩
            show w'.heap a = E.conv n k (w'.heap i)
            rw [ha, h3.heap i (Or.inr hu)]
          · exact hC' c n' i' k' a' ha'
        · exact hC' c' n' i' k' a' ha'

/-- A program that does not forget an array as long as some cache holds a conversion of it. -/
def KeepsConverted (w : World R) (e : Event R) : Prop :=
  Covered w e ∧ ∀ i, e = .drop i → ∀ c n k, (cacheOf w c).get? (.convert n i k) = none

theorem step_convInv {E : Env R} (hE : FreshIds E) {w : World R} (hI : Inv E w) (hC : ConvInv E w) {e : Event R} (hp : Possible w e)
    (hk : KeepsConverted w e) : ConvInv E (step E w e) := by
  have addRoots : ∀ {w' : World R} {rs : List Nat}, ConvInv E w' → (∀ a ∈ w'.roots, a ∈ rs) → ConvInv E { w' with roots := rs } := by
    intro w' rs h hrs c n i k a ha
    obtain ⟨h1, h2⟩ := h c n i k a ha
    exact ⟨hrs i h1, h2⟩
  have main : ∀ m, callOf E e = some m → ConvSame w (m w).2 → ConvInv E (step E w e) := by
    intro m hm hs
    rw [step_call hm]
    obtain ⟨o, w', h1, h2, h3, _⟩ := call_ok hE hI hk.1 hm
    obtain ⟨rs, h4, h5, _⟩ := keep_snd m w
    rw [h5]
    rw [h1] at h4 hs ⊢
    exact addRoots (hC.ext h3 hs) h4
  cases e with
  | new T =>
    obtain ⟨a, w', h1, h2, h3, h4, h5, _⟩ := store_spec hE [] T hI
    obtain ⟨rs, g4, g5, _⟩ := keep_snd (store E [] T) w
    unfold step
    simp only
    rw [g5]
    rw [h1] at g4 ⊢
    exact addRoots (hC.ext h3 (ConvSame.of_caches h5)) g4
  | drop j =>
    intro c n i k a ha
    obtain ⟨h1, h2⟩ := hC c n i k a ha
    refine ⟨?_, h2⟩
    show i ∈ w.roots.filter (· ≠ j)
    rw [List.mem_filter]
    refine ⟨h1, ?_⟩
    simp only [decide_eq_true_eq]
    rintro rfl
    have := hk.2 i rfl c n k
    rw [show cacheOf w c = cacheOf (step E w (.drop i)) c from rfl, ha] at this
    cases this
  | enter c' =>
    cases c' with
    | some c' => exact hC
    | none =>
      intro c n i k a ha
      unfold step at ha
      simp only at ha
      rw [cacheOf_enter] at ha
      split at ha
      · simp [Dict.get?] at ha
      · exact hC c n i k a ha
  | leave => exact hC
  | dropCache c' =>
    intro c n i k a ha
    unfold step at ha
    simp only at ha
    rw [cacheOf_drop] at ha
    split at ha
    · simp [Dict.get?] at ha
    · exact hC c n i k a ha
  | transpose b a axes => exact main _ rfl (convSame_transpose _ _ _ _ _)
  | tensordot b x y axes => exact main _ rfl (convSame_tensordot _ _ _ _ _ _)
  | einsum b eq ids => exact main _ rfl (convSame_einsum _ _ _ _ _)
  | contract b s ids opt mem ub => exact main _ rfl (convSame_contract _ _ _ _ _ _ _)
  | convert n k a =>
    rw [step_call (m := convert E [] n k a) rfl]
    obtain ⟨rs, h4, h5, _⟩ := keep_snd (convert E [] n k a) w
    rw [h5]
    exact addRoots (convert_inv hE n k a hI hC hp).2 h4

theorem reachable_convInv {E : Env R} (hE : FreshIds E) {w : World R} (h : ReachableBy E KeepsConverted w) : ConvInv E w := by
  induction h with
  | init heap =>
    intro c n i k a ha
    simp [cacheOf, Dict.get?] at ha
  | step e hw hp hc ih => exact step_convInv hE (reachable_inv hE (fun _ _ h => h.1) hw) ih hp hc

end OE.Share

namespace OE.Props
open OE OE.Py OE.Parser OE.Contract OE.Spec OE.Share
variable {R : Type} [CommSemiring R]

/-- **C44** (partial): in a program that never forgets an array while a living cache holds a conversion of it, every conversion under
sharing yields the conversion of the array passed. Missing: programs that do forget such arrays — for them the claim is false, see
`C44_stale_conversion_counterexample`. -/
theorem C44_conversions_are_fresh_partial {E : Env R} (hE : FreshIds E) {w : World R} (hw : ReachableBy E KeepsConverted w)
    {n : Str} {k : Option Bool} {i : Nat} (hpos : Possible w (.convert n k i)) :
    Agrees (convert E [] n k i w) (.ok (E.conv n k (w.heap i))) :=
  (convert_inv hE n k i (reachable_inv hE (fun _ _ h => h.1) hw) (reachable_convInv hE hw) hpos).1

/-! ### Concrete histories -/

/-- Identities as CPython tends to choose them: the smallest one that is free. -/
def leastFree (l : List Nat) : Nat := ((List.range (l.length + 1)).find? (· ∉ l)).getD (l.foldr max 0 + 1)

theorem leastFree_fresh (l : List Nat) : leastFree l ∉ l := by
  unfold leastFree
  cases h : (List.range (l.length + 1)).find? (· ∉ l) with
  | some x =>
    have := List.find?_some h
    simpa using this
  | none =>
    simp only [Option.getD_none]
    intro hm
    have : ∀ x ∈ l, x ≤ l.foldr max 0 := by
      intro x hx
      clear hm h
      induction l with
      | nil => simp at hx
      | cons y t ih =>
        simp only [List.foldr_cons]
        rcases List.mem_cons.mp hx with rfl | hx
        · exact le_max_left _ _
        · exact le_trans (ih hx) (le_max_right _ _)
    have := this _ hm
    omega

/-- Numpy and a backend `toy` without `einsum`; conversions keep the contents. -/
def demoEnv : Env Nat where
  noEinsum := fun b => b = S "toy"
  conv := fun _ _ T => T
  alloc := fun _ l => leastFree l

theorem demo_fresh : FreshIds demoEnv := fun _ l => leastFree_fresh l

/-- The state after some events. -/
def after (w : World Nat) (es : List (Event Nat)) : World Nat := es.foldl (step demoEnv) w

/-- All events are possible and permitted. -/
def Along (P : World Nat → Event Nat → Prop) : World Nat → List (Event Nat) → Prop
  | _, [] => True
  | w, e :: es => Possible w e ∧ P w e ∧ Along P (step demoEnv w e) es

theorem reachable_after {P : World Nat → Event Nat → Prop} {w : World Nat} (h : ReachableBy demoEnv P w) (es : List (Event Nat))
    (ha : Along P w es) : ReachableBy demoEnv P (after w es) := by
  induction es generalizing w with
  | nil => exact h
  | cons e t ih => exact ih (.step e h ha.1 ha.2.1) ha.2.2

theorem later_after {P : World Nat → Event Nat → Prop} {w₀ w : World Nat} (h : LaterBy demoEnv P w₀ w) (es : List (Event Nat))
    (ha : Along P w es) : LaterBy demoEnv P w₀ (after w es) := by
  induction es generalizing w with
  | nil => exact h
  | cons e t ih => exact ih (.step e h ha.1 ha.2.1) ha.2.2

/-- A number as a 0-d array. -/
def num (x : Nat) : Tensor Nat := { shape := [], val := fun _ => x }

/-- A 2x2 matrix. -/
def mat (f : Nat → Nat → Nat) : Tensor Nat := { shape := [2, 2], val := fun i => f (i.getD 0 0) (i.getD 1 0) }

def w0 : World Nat := { heap := fun _ => num 0, roots := [], caches := [], stack := [], nextCache := 0, clock := 0, execs := 0 }

theorem w0_reachable (P : World Nat → Event Nat → Prop) : ReachableBy demoEnv P w0 := .init _

/-- Enter a context, create an array, convert it, forget it, create another one. -/
def stale : World Nat := after w0 [.enter none, .new (num 1), .convert (S "to_torch") none 0, .drop 0, .new (num 2)]

theorem stale_reachable : ReachableBy demoEnv Covered stale := by
  apply reachable_after (w0_reachable _)
  refine ⟨trivial, trivial, trivial, trivial, ?_, trivial, trivial, trivial, trivial, trivial, trivial⟩
  show (0 : Nat) ∈ (after w0 [.enter none, .new (num 1)]).roots
  decide

/-- **C44** fails for the code as it is: `to_backend_cache_wrap` (sharing.py:186-216) does not keep the converted array alive, so its
identity can be given to a new array, whose conversion is then that of the old one. -/
theorem C44_stale_conversion_counterexample :
    FreshIds demoEnv ∧ ReachableBy demoEnv Covered stale ∧ Possible stale (.convert (S "to_torch") none 0) ∧
      stale.heap 0 = num 2 ∧
      (convert demoEnv [] (S "to_torch") none 0 stale).1 = .ok 1 ∧
      (convert demoEnv [] (S "to_torch") none 0 stale).2.heap 1 = num 1 ∧
      ¬ Agrees (convert demoEnv [] (S "to_torch") none 0 stale) (.ok (demoEnv.conv (S "to_torch") none (stale.heap 0))) := by
  have h1 : (convert demoEnv [] (S "to_torch") none 0 stale).1 = .ok 1 := by decide
  have h2 : (convert demoEnv [] (S "to_torch") none 0 stale).2.heap 1 = num 1 := rfl
  have h3 : stale.heap 0 = num 2 := rfl
  refine ⟨demo_fresh, stale_reachable, ?_, h3, h1, h2, ?_⟩
  · show 0 ∈ stale.roots; decide
  · unfold Agrees
    rw [h1, h3]
    simp only
    rw [h2]
    intro h
    have := congrFun (congrArg Tensor.val h) []
    simp [num, demoEnv] at this

/-- Create two matrices and enter a context. -/
def shared : World Nat := after w0 [.new (mat fun i j => i + 2 * j), .new (mat fun i j => 3 * i + j), .enter none]

def eqAB : Str := S "ab,bc->ac"

def eqXY : Str := S "yz,xy->xz"

theorem parse_AB (s t : Shape) : parseEinsum eqAB [s, t] = .ok (S "ab,bc", S "ac") := by
  rw [C34_parse_einsum_input_iff _ _ (by decide)]
  exact WellFormed.explicit (S "ab,bc") (S "ac") (by decide) (by decide) (by decide) (by decide) (by decide) (by decide) rfl

theorem parse_XY (s t : Shape) : parseEinsum eqXY [s, t] = .ok (S "yz,xy", S "xz") := by
  rw [C34_parse_einsum_input_iff _ _ (by decide)]
  exact WellFormed.explicit (S "yz,xy") (S "xz") (by decide) (by decide) (by decide) (by decide) (by decide) (by decide) rfl

theorem simple_AB (s t : Shape) : SimpleEquation eqAB [s, t] := ⟨⟨by decide, fun h => absurd h (by decide)⟩, S "ab,bc", S "ac", parse_AB s t, by decide, fun h => absurd h (by decide)⟩

theorem simple_XY (s t : Shape) : SimpleEquation eqXY [s, t] := ⟨⟨by decide, fun h => absurd h (by decide)⟩, S "yz,xy", S "xz", parse_XY s t, by decide, fun h => absurd h (by decide)⟩

theorem shared_reachable : ReachableBy demoEnv Covered shared :=
  reachable_after (w0_reachable _) _ ⟨trivial, trivial, trivial, trivial, trivial, trivial, trivial⟩

/-- After the product, leave the context, create an array and resume the context. -/
def shared2 : World Nat := after (step demoEnv shared (.einsum (S "numpy") eqAB [0, 1])) [.leave, .new (num 7), .enter (some 0)]

/-- The hypotheses of C43 are met by a product repeated with other labels and the operands swapped; it is not computed again. -/
theorem C43_concrete : (einsum demoEnv [] (S "numpy") eqXY [1, 0] shared2).1 = .ok 2 ∧
    (einsum demoEnv [] (S "numpy") eqXY [1, 0] shared2).2.execs = shared2.execs ∧
    (einsum demoEnv [] (S "numpy") eqXY [1, 0] shared2).2.clock = shared2.clock := by
  refine C43_einsum_up_to_renaming_is_shared (w := shared) (c := 0) demo_fresh shared_reachable rfl (eq := eqAB) (ids := [0, 1])
    (by show ∀ i ∈ [0, 1], i ∈ shared.roots; decide) (simple_AB _ _) (by decide) (later_after .refl _ ?_) rfl (simple_XY _ _) (by decide)
    (parse_AB _ _) (parse_XY _ _) ⟨[(S "bc", 1), (S "ab", 0)], by decide, by decide, by rw [← C31_alpha_canonicalize_iff]; decide⟩
  refine ⟨?_, ⟨trivial, by simp, by simp⟩, trivial, ⟨trivial, by simp, by simp⟩, ?_, ⟨trivial, by simp, by simp⟩, trivial⟩
  · show shared.stack ≠ []; decide
  · show 0 ∈ [0]; decide

/-- Computed directly: one execution in all with sharing, a second one without. -/
example : (einsum demoEnv [] (S "numpy") eqXY [1, 0] shared2).2.execs = 1 ∧
    (einsum demoEnv [] (S "numpy") eqXY [1, 0] { shared2 with stack := [] }).2.execs = 2 := by decide

theorem shared2_reachable : ReachableBy demoEnv Covered shared2 := by
  apply reachable_after (.step (.einsum (S "numpy") eqAB [0, 1]) shared_reachable ?_ (simple_AB _ _))
  · refine ⟨?_, trivial, trivial, trivial, ?_, trivial, trivial⟩
    · show shared.stack ≠ []; decide
    · show 0 ∈ [0]; decide
  · show ∀ i ∈ [0, 1], i ∈ shared.roots; decide

/-- **C42** fails for equations with spaces passed to `einsum` or `contract(optimize=False)`: without sharing the space becomes a label
(contract.py:443-448) and numpy raises; under sharing the cache is looked up with the equation as parsed, and may answer. -/
theorem C42_spaces_counterexample :
    FreshIds demoEnv ∧ ReachableBy demoEnv Covered shared2 ∧ Possible shared2 (.einsum (S "numpy") (S "ab, bc->ac") [0, 1]) ∧
      (einsum demoEnv [] (S "numpy") (S "ab, bc->ac") [0, 1] shared2).1 = .ok 2 ∧
      einsumCall (demoEnv.noEinsum (S "numpy")) (S "ab, bc->ac") ([0, 1].map shared2.heap) = .error .value :=
  ⟨demo_fresh, shared2_reachable, by show ∀ i ∈ [0, 1], i ∈ shared2.roots; decide, by decide, by rfl⟩

def eqBA : Str := S "ba->a"

theorem simple_BA (s : Shape) : SimpleEquation eqBA [s] := by
  refine ⟨⟨by decide, fun h => absurd h (by decide)⟩, S "ba", S "a", ?_, by decide, fun h => absurd h (by decide)⟩
  rw [C34_parse_einsum_input_iff _ _ (by decide)]
  exact WellFormed.explicit (S "ba") (S "a") (by decide) (by decide) (by decide) (by decide) (by decide) (by decide) rfl

/-- The column sums of a matrix, in a context. -/
def shared3 : World Nat := step demoEnv shared (.einsum (S "numpy") eqBA [0])

/-- **C42** fails for an ellipsis that the output leaves out, passed to `einsum` or `contract(optimize=False)`: numpy raises; under sharing
the cache is looked up with the equation as parsed, where the ellipsis is summed over, and may answer. -/
theorem C42_ellipsis_counterexample :
    FreshIds demoEnv ∧ ReachableBy demoEnv Covered shared3 ∧ Possible shared3 (.einsum (S "numpy") (S "...a->a") [0]) ∧
      (einsum demoEnv [] (S "numpy") (S "...a->a") [0] shared3).1 = .ok 2 ∧
      einsumCall (demoEnv.noEinsum (S "numpy")) (S "...a->a") ([0].map shared3.heap) = .error .value :=
  ⟨demo_fresh, .step _ shared_reachable (by show ∀ i ∈ [0], i ∈ shared.roots; decide) (simple_BA _),
    by show ∀ i ∈ [0], i ∈ shared3.roots; decide, by decide, by rfl⟩

/-- An ellipsis kept in the output is covered by C42: the transposed matrix. -/
example : SimpleEquation (S "...a->a...") [[2, 3]] := by
  refine ⟨⟨by decide, fun _ => ⟨by simp only [IsPunct]; decide, ?_⟩⟩, S "ca", S "ac", by decide +kernel, by decide, fun _ => by decide⟩
  intro lhs rhs h
  have h' : S "...a" ++ S "->" ++ S "a..." = lhs ++ S "->" ++ rhs := by rw [← h]; decide
  obtain ⟨_, rfl⟩ := arrow_unique (by decide) (by decide) h'
  exact Or.inl ⟨S "a", [], by decide, by decide, by decide⟩

/-- C42 on the concrete history: the product looked up in the cache is the product of the matrices. -/
example : Agrees (einsum demoEnv [] (S "numpy") eqXY [1, 0] shared2) (einsumCall false eqXY ([1, 0].map shared2.heap)) :=
  (C42_sharing_transparent_partial (e := .einsum (S "numpy") eqXY [1, 0]) demo_fresh shared2_reachable (simple_XY _ _) (by simp) rfl rfl).1

/-- C44 on a concrete history: an array converted and held. -/
example : let w := after shared [.convert (S "to_torch") none 0, .new (num 5)]
    Agrees (convert demoEnv [] (S "to_torch") none 0 w) (.ok (demoEnv.conv (S "to_torch") none (w.heap 0))) := by
  apply C44_conversions_are_fresh_partial demo_fresh
  · apply reachable_after
    · exact reachable_after (w0_reachable _) _ ⟨trivial, ⟨trivial, by simp⟩, trivial, ⟨trivial, by simp⟩, trivial, ⟨trivial, by simp⟩, trivial⟩
    · exact ⟨by show 0 ∈ shared.roots; decide, ⟨trivial, by simp⟩, trivial, ⟨trivial, by simp⟩, trivial⟩
  · show 0 ∈ (after shared [.convert (S "to_torch") none 0, .new (num 5)]).roots; decide

end OE.Props
