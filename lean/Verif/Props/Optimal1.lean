import Verif.Lemmas.SearchNode

/-!
# C14: `optimal` always returns a complete path
-/

namespace OE.Props
open OE OE.Py OE.Spec OE.Paths

theorem optIter_complete {size : Nat → Nat} {output : Finset Nat} {mem : Option Nat} {order : SetOrder} (ho : OrderOK order) {n : Nat}
    (fuel : Nat) (nd : SearchNode) (hnd : GoodPath n nd) (hcard : 0 < nd.remaining.card) (hfuel : nd.remaining.card ≤ fuel + 1)
    (st : OptSt) (hst : SsaComplete n st.bestPath) :
    ∃ st', optIter size output mem order fuel nd st = some st' ∧ SsaComplete n st'.bestPath := by
  induction fuel generalizing nd st with
  | zero =>
    have h1 : nd.remaining.card = 1 := by omega
    rw [optIter, if_pos h1]
    exact ⟨_, rfl, hnd.complete h1⟩
  | succ fuel ih =>
    rw [optIter]
    by_cases h1 : nd.remaining.card = 1
    · rw [if_pos h1]
      exact ⟨_, rfl, hnd.complete h1⟩
    · rw [if_neg h1]
      apply foldlM_inv (fun st => SsaComplete n st.bestPath) _ _ st hst
      intro s x hx hs
      obtain ⟨hi, hj, hij⟩ := pair_of_order ho hx
      have hrec : ∀ k f (st : OptSt), SsaComplete n st.bestPath →
          ∃ st', optIter size output mem order fuel (nd.child (orient x).1 (orient x).2 k f) st = some st' ∧ SsaComplete n st'.bestPath := by
        intro k f st hst
        have hc := child_remaining_card hnd hi hj hij k f
        exact ih _ (goodPath_child hnd hi hj hij k f) (by omega) (by omega) _ hst
      unfold optBody
      simp only
      split
      · cases mem with
        | none => exact hrec _ _ _ hs
        | some m =>
          simp only
          split
          · split
            · refine ⟨_, rfl, hnd.complete_all ?_ (ho _ _).1 (ho _ _).2⟩
              intro h0; rw [h0] at hcard; simp at hcard
            · exact ⟨_, rfl, hs⟩
          · exact hrec _ _ _ hs
      · exact ⟨_, rfl, hs⟩

theorem optimalSsa_complete {size : Nat → Nat} {output : Finset Nat} {mem : Option Nat} {order : SetOrder} (ho : OrderOK order)
    {inputs : List (Finset Nat)} (hne : inputs ≠ []) {fuel : Nat} (hfuel : inputs.length ≤ fuel + 1) :
    ∃ st, optimalSsa fuel size mem order inputs output = some st ∧ SsaComplete inputs.length st.bestPath := by
  have hn : 0 < inputs.length := List.length_pos_iff.mpr hne
  exact optIter_complete ho fuel _ (goodPath_root inputs) (by simpa [rootNode] using hn) (by simpa [rootNode] using hfuel) _
    (ssaComplete_range hn)

/-- Converting a complete path of the searches. -/
theorem linear_of_ssa {n : Nat} {path : Path} (h : SsaComplete n path) :
    ∃ q, ssaToLinear path = .ok q ∧ (n = 1 → path = [] → q = []) ∧ (2 ≤ n → CompletePath n q) := by
  by_cases hp : path = []
  · subst hp
    exact ⟨[], rfl, fun _ _ => rfl, fun hn => absurd rfl (ssaComplete_ne_nil h hn)⟩
  · obtain ⟨q, h1, h2, _⟩ := C11_ssa_to_linear h hp
    exact ⟨q, h1, fun _ h0 => absurd h0 hp, fun _ => h2⟩

/-- **C14.** For any non-empty list of inputs, any output, sizes and memory limit and any set iteration order, `optimal`
terminates (a recursion depth of the number of inputs suffices) without raising and returns a complete path: a path that
reduces two or more tensors to one, and the empty path for a single tensor. -/
theorem C14_optimal_complete (size : Nat → Nat) (output : Finset Nat) (mem : Option Nat) {order : SetOrder} (ho : OrderOK order)
    {inputs : List (Finset Nat)} (hne : inputs ≠ []) {fuel : Nat} (hfuel : inputs.length ≤ fuel) :
    ∃ path, optimal fuel size mem order inputs output = some (.ok path) ∧
      (inputs.length = 1 → path = []) ∧ (2 ≤ inputs.length → CompletePath inputs.length path) := by
  obtain ⟨st, h1, h2⟩ := optimalSsa_complete (size := size) (output := output) (mem := mem) ho hne (fuel := fuel) (by omega)
  obtain ⟨q, g1, g2, g3⟩ := linear_of_ssa h2
  refine ⟨q, by unfold optimal; rw [h1]; exact congrArg some g1, ?_, g3⟩
  intro hone
  apply g2 hone
  unfold optimalSsa at h1
  rw [optIter.eq_def] at h1
  simp only at h1
  rw [if_pos (by simpa [rootNode] using hone)] at h1
  cases h1
  rfl

/-- A set order for the concrete cases: increasing. -/
def ascending : SetOrder := fun _ s => (List.range (s.sup id + 1)).filter (fun x => x ∈ s)

theorem ascending_ok : OrderOK ascending := by
  intro _ s
  refine ⟨List.nodup_range.filter _, fun x => ?_⟩
  simp only [ascending, List.mem_filter, List.mem_range, decide_eq_true_eq]
  refine ⟨fun h => h.2, fun h => ⟨?_, h⟩⟩
  have := Finset.le_sup (f := id) h
  simp only [id] at this
  omega

-- C14: the example of the documentation, 'abd,ac,bdc->' with sizes 1, 2, 3, 4 (a = 0, b = 1, c = 2, d = 3)
example : optimal 3 (fun c => c + 1) (some 5000) ascending [{0, 1, 3}, {0, 2}, {1, 3, 2}] ∅ = some (.ok [[0, 2], [0, 1]]) := by
  decide +kernel
-- a memory limit that forces contracting everything at once
example : optimal 3 (fun c => c + 1) (some 1) ascending [{0, 1, 3}, {0, 2}, {1, 3, 2}] ∅ = some (.ok [[0, 1, 2]]) := by
  decide +kernel

end OE.Props
