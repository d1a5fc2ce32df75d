import Verif.Props.Auto
import Verif.Props.Branch4

/-!
# C08, C09, C24, C25, C50: which call, which trials, which finder
-/

namespace OE.Props
open OE OE.Py OE.Spec OE.Paths OE.Contract OE.Blas

/-! ## C09: which steps are done with `tensordot` -/

/-- The removed labels are contiguous at an end of both terms, in the same order. -/
def Aligned (left right : Str) (removed : Finset Nat) : Prop :=
  ∃ m x y : Str, m.toFinset = removed ∧ (left = x ++ m ∨ left = m ++ x) ∧ (right = y ++ m ∨ right = m ++ y)

theorem suffix_append {x m : Str} {k : Nat} (h : m.length = k) : suffix (x ++ m) k = m := by
  unfold suffix lastN
  rw [List.length_append, h, Nat.add_sub_cancel]
  exact List.drop_left

theorem aligned_iff {left right : Str} {result : List Nat} {removed : Finset Nat} (hpc : PairContraction left right result)
    (h : Aligned left right removed) :
    suffix left removed.card = right.take removed.card ∨ left.take removed.card = suffix right removed.card ∨
      suffix left removed.card = suffix right removed.card ∨ left.take removed.card = right.take removed.card := by
  obtain ⟨m, x, y, rfl, hl, hr⟩ := h
  have hm : m.Nodup := by
    rcases hl with rfl | rfl
    · exact hpc.nl.sublist (List.sublist_append_right _ _)
    · exact hpc.nl.sublist (List.sublist_append_left _ _)
  have hk : m.length = m.toFinset.card := (List.toFinset_card_of_nodup hm).symm
  rcases hl with rfl | rfl <;> rcases hr with rfl | rfl
  · right; right; left; rw [suffix_append hk, suffix_append hk]
  · left; rw [suffix_append hk, List.take_left' hk]
  · right; left; rw [suffix_append hk, List.take_left' hk]
  · right; right; right; rw [List.take_left' hk, List.take_left' hk]

theorem which_steps_common (left right : Str) (result : List Nat) (removed : Finset Nat) (sl sr : Shape) (hl : sl.length = left.length)
    (hr : sr.length = right.length) (hrm : ∀ c, c ∈ removed ↔ c ∈ left ∧ c ∈ right) :
    (usesBlas true (canBlas [left, right] result removed (some [sl, sr])) = true ↔
      PairContraction left right result ∧ SameDims left right sl sr removed) ∧
    (usesBlas false (canBlas [left, right] result removed (some [sl, sr])) = true ↔
      PairContraction left right result ∧ SameDims left right sl sr removed ∧ removed ≠ ∅ ∧
        (left = right ∨ (left.toFinset ≠ right.toFinset ∧
          (Aligned left right removed ∨ ((∃ c ∈ left, c ∉ removed) ∧ ∃ c ∈ right, c ∉ removed))))) := by
  have hacc := (C08_can_blas_iff left right result removed sl sr hl hr (fun c hc => (hrm c).mp hc)).1
  obtain ⟨k1, k2, k3, k4, k5, k6⟩ := C08_can_blas_kind left right result removed (some [sl, sr]) hrm
  constructor
  · rw [← hacc]
    cases canBlas [left, right] result removed (some [sl, sr]) <;> simp [usesBlas, Flag.truthy]
  · by_cases hno : canBlas [left, right] result removed (some [sl, sr]) = .no
    · rw [hno]
      constructor
      · intro h; simp [usesBlas, Flag.truthy] at h
      · rintro ⟨h1, h2, _⟩
        exact absurd hno (hacc.mpr ⟨h1, h2⟩)
    · obtain ⟨hpc, hsd⟩ := hacc.mp hno
      have hchain : canBlas [left, right] result removed (some [sl, sr]) =
          if removed.card = 0 then Flag.outerEinsum
          else if left = right then .dot
          else if left.toFinset = right.toFinset then .dotEinsum
          else if suffix left removed.card = right.take removed.card then .gemm
          else if left.take removed.card = suffix right removed.card then .gemm
          else if suffix left removed.card = suffix right removed.card then .gemm
          else if left.take removed.card = right.take removed.card then .gemm
          else if left.toFinset \ removed = ∅ ∨ right.toFinset \ removed = ∅ then .gemvEinsum
          else .tdot := by
        unfold canBlas at hno ⊢
        simp only at hno ⊢
        split at hno
        · exact absurd rfl hno
        rename_i hb
        split at hno
        · exact absurd rfl hno
        rename_i hbc
        rw [if_neg hb, if_neg hbc]
      generalize canBlas [left, right] result removed (some [sl, sr]) = F at hchain k1
      by_cases h0 : removed.card = 0
      · rw [if_pos h0] at hchain
        subst hchain
        simp [usesBlas, Flag.truthy, Flag.hasEinsum, Finset.card_eq_zero.mp h0]
      rw [if_neg h0] at hchain
      have h0' : removed ≠ ∅ := fun h => h0 (by rw [h]; rfl)
      by_cases h1 : left = right
      · rw [if_pos h1] at hchain
        subst hchain
        exact ⟨fun _ => ⟨hpc, hsd, h0', Or.inl h1⟩, fun _ => rfl⟩
      rw [if_neg h1] at hchain
      by_cases h2 : left.toFinset = right.toFinset
      · rw [if_pos h2] at hchain
        subst hchain
        simp [usesBlas, Flag.truthy, Flag.hasEinsum, h1, h2]
      rw [if_neg h2] at hchain
      by_cases ha : suffix left removed.card = right.take removed.card ∨ left.take removed.card = suffix right removed.card ∨
          suffix left removed.card = suffix right removed.card ∨ left.take removed.card = right.take removed.card
      · have hg : F = .gemm := by
          rw [hchain]
          rcases ha with h | h | h | h <;> (repeat' split) <;> rfl
        have := k1 hg
        subst hg
        exact ⟨fun _ => ⟨hpc, hsd, h0', Or.inr ⟨h2, Or.inl this⟩⟩, fun _ => rfl⟩
      · have hna : ¬ Aligned left right removed := fun h => ha (aligned_iff hpc h)
        push Not at ha
        rw [if_neg ha.1, if_neg ha.2.1, if_neg ha.2.2.1, if_neg ha.2.2.2] at hchain
        have hkeep : ∀ t : Str, t.toFinset \ removed = ∅ ↔ ¬ ∃ c ∈ t, c ∉ removed := by
          intro t
          rw [Finset.sdiff_eq_empty_iff_subset]
          constructor
          · rintro h ⟨c, hc, hn⟩; exact hn (h (List.mem_toFinset.mpr hc))
          · intro h c hc
            by_contra hn
            exact h ⟨c, List.mem_toFinset.mp hc, hn⟩
        by_cases h3 : (¬ ∃ c ∈ left, c ∉ removed) ∨ ¬ ∃ c ∈ right, c ∉ removed
        · rw [if_pos (by rw [hkeep, hkeep]; exact h3)] at hchain
          subst hchain
          constructor
          · intro h; simp [usesBlas, Flag.truthy, Flag.hasEinsum] at h
          · rintro ⟨_, _, _, h | ⟨_, h | ⟨h, h'⟩⟩⟩
            · exact absurd h h1
            · exact absurd h hna
            · rcases h3 with h3 | h3
              · exact absurd h h3
              · exact absurd h' h3
        · rw [if_neg (by rw [hkeep, hkeep]; exact h3)] at hchain
          subst hchain
          push Not at h3
          exact ⟨fun _ => ⟨hpc, hsd, h0', Or.inr ⟨h2, Or.inr h3⟩⟩, fun _ => rfl⟩

/-- In a pair contraction the labels missing in the result are the labels of both terms. -/
theorem removed_iff {left right : Str} {result : List Nat} {removed : Finset Nat} (hpc : PairContraction left right result)
    (hrm : ∀ c, c ∈ removed ↔ (c ∈ left ∨ c ∈ right) ∧ c ∉ result) (c : Nat) : c ∈ removed ↔ c ∈ left ∧ c ∈ right := by
  rw [hrm]
  constructor
  · rintro ⟨h, hn⟩
    by_contra hb
    exact hn (hpc.unshared c h hb)
  · rintro ⟨h, h'⟩
    exact ⟨Or.inl h, hpc.shared c h h'⟩

theorem canBlas_no {left right : Str} {result : List Nat} (h : ¬ PairContraction left right result) (removed : Finset Nat)
    (shapes : Option (List Shape)) : canBlas [left, right] result removed shapes = .no := by
  have : (left ++ right).any (labelBad left right result) = true := by
    rw [← Bool.not_eq_false, any_labelBad_iff]
    exact h
  unfold canBlas
  simp only
  rw [if_pos this]

/-- **C08, as called by `contract_path`.** The removed labels are those of the terms that the result lacks, whether they occur in both
terms or in one. `can_blas` answers something other than `False` exactly for a pair contraction whose removed labels have equal dimensions
in both terms. -/
theorem C08_can_blas_step (left right : Str) (result : List Nat) (removed : Finset Nat) (sl sr : Shape) (hl : sl.length = left.length)
    (hr : sr.length = right.length) (hrm : ∀ c, c ∈ removed ↔ (c ∈ left ∨ c ∈ right) ∧ c ∉ result) :
    canBlas [left, right] result removed (some [sl, sr]) ≠ .no ↔
      PairContraction left right result ∧ SameDims left right sl sr removed := by
  by_cases hpc : PairContraction left right result
  · exact (C08_can_blas_iff left right result removed sl sr hl hr (fun c hc => (removed_iff hpc hrm c).mp hc)).1
  · rw [canBlas_no hpc]
    exact ⟨fun h => absurd rfl h, fun h => absurd h.1 hpc⟩

/-- **C09, which steps.** A step of `_core_contract` on two operands is done with `tensordot` if the backend lacks `einsum` and the
terms form a pair contraction with equal dimensions; and if it has `einsum`, exactly when moreover some label is removed and
the terms are equal, or are no permutations of each other and the removed labels are aligned or both terms keep a label. All other
steps are done with `einsum`. -/
theorem C09_which_steps (left right : Str) (result : List Nat) (removed : Finset Nat) (sl sr : Shape) (hl : sl.length = left.length)
    (hr : sr.length = right.length) (hrm : ∀ c, c ∈ removed ↔ (c ∈ left ∨ c ∈ right) ∧ c ∉ result) :
    (usesBlas true (canBlas [left, right] result removed (some [sl, sr])) = true ↔
      PairContraction left right result ∧ SameDims left right sl sr removed) ∧
    (usesBlas false (canBlas [left, right] result removed (some [sl, sr])) = true ↔
      PairContraction left right result ∧ SameDims left right sl sr removed ∧ removed ≠ ∅ ∧
        (left = right ∨ (left.toFinset ≠ right.toFinset ∧
          (Aligned left right removed ∨ ((∃ c ∈ left, c ∉ removed) ∧ ∃ c ∈ right, c ∉ removed))))) := by
  by_cases hpc : PairContraction left right result
  · exact which_steps_common left right result removed sl sr hl hr (removed_iff hpc hrm)
  · rw [canBlas_no hpc]
    exact ⟨⟨fun h => Bool.noConfusion h, fun h => absurd h.1 hpc⟩, ⟨fun h => Bool.noConfusion h, fun h => absurd h.1 hpc⟩⟩

-- C08: with 'a' summed over in the left term only
example : canBlas [S "ab", S "bc"] (S "c") {97, 98} (some [[2, 3], [3, 4]]) = .no ∧
    canBlas [S "ab", S "bc"] (S "ac") {98} (some [[2, 3], [3, 4]]) = .gemm := by decide
-- C09: a matrix product and its transpose by tensordot, a matrix times a vector not in line with it by einsum
example : usesBlas false (canBlas [S "ij", S "jk"] (S "ik") {106} (some [[2, 3], [3, 4]])) = true ∧
    usesBlas false (canBlas [S "aji", S "j"] (S "ai") {106} (some [[2, 3, 4], [3]])) = false ∧
    usesBlas true (canBlas [S "aji", S "j"] (S "ai") {106} (some [[2, 3, 4], [3]])) = true ∧
    usesBlas false (canBlas [S "ij", S "ji"] [] {105, 106} (some [[2, 3], [3, 2]])) = false := by decide

/-! ## C24, C25: which trials a call runs -/

/-- **C24, which trials.** Without executor and time limit a call runs `max_repeats` trials, numbered from the number of trials of the earlier
calls on, and appends their costs and sizes. -/
theorem C24_serial (bySize : Bool) (maxRepeats : Nat) (trial : Nat → Trial) (hist : List Trial) (st : ROSt) (h : Records bySize hist st) :
    Records bySize (hist ++ (List.range' hist.length maxRepeats).map trial)
      (roCall bySize maxRepeats none (fun _ => false) (fun r => .ok (trial r)) st).2 := by
  obtain ⟨new, h1, h2, h3⟩ := C24_call bySize maxRepeats none (fun _ => false) (fun r => .ok (trial r)) hist st h
  have hct : callTrials maxRepeats none (fun r => Except.ok (trial r)) hist.length =
      ((List.range' hist.length maxRepeats).map trial).map Except.ok := by rw [List.map_map]; rfl
  rw [hct] at h2 h3
  have := (h3 (by
    intro t ht
    obtain ⟨x, _, rfl⟩ := List.mem_map.mp ht
    exact ⟨x, rfl⟩)).1 (fun _ => rfl)
  have hnew : new = (List.range' hist.length maxRepeats).map trial :=
    List.map_injective_iff.mpr (fun a b h => by cases h; rfl) this
  rw [← hnew]
  exact h1

/-- **C25, a call (partial).** With an executor and `max_repeats ≤ pre_dispatch`, a call does exactly what it does without. (Missing: the claim
is false for `max_repeats > pre_dispatch ≥ 1`, see `C25_call_counterexample`.) -/
theorem C25_call_partial (bySize : Bool) {maxRepeats preDispatch : Nat} (h : maxRepeats ≤ preDispatch) (late : Nat → Bool)
    (trial : Nat → Except PyErr Trial) (st : ROSt) :
    roCall bySize maxRepeats (some preDispatch) late trial st = roCall bySize maxRepeats none late trial st := by
  have : callTrials maxRepeats (some preDispatch) trial st.costs.length = callTrials maxRepeats none trial st.costs.length :=
    C25_parallel_partial trial _ _ _ h
  unfold roCall
  rw [this]

/-- **C25, what a call does otherwise.** With an executor, `max_repeats > pre_dispatch ≥ 1` and no time limit, the trials recorded are the first
`pre_dispatch` ones and of the rest every other one: at most as many as `max_repeats - 1`. -/
theorem C25_call_counterexample (bySize : Bool) (maxRepeats preDispatch : Nat) (hp : 0 < preDispatch) (trial : Nat → Trial)
    (hist : List Trial) (st : ROSt) (h : Records bySize hist st) :
    Records bySize (hist ++ ((List.range' hist.length maxRepeats).filter (fun r => decide (r - hist.length < preDispatch ∨
        (r - hist.length - preDispatch) % 2 = 1))).map trial)
      (roCall bySize maxRepeats (some preDispatch) (fun _ => false) (fun r => .ok (trial r)) st).2 ∧
    (preDispatch < maxRepeats →
      (roCall bySize maxRepeats (some preDispatch) (fun _ => false) (fun r => .ok (trial r)) st).2.costs.length < hist.length + maxRepeats) := by
  obtain ⟨new, h1, h2, h3⟩ := C24_call bySize maxRepeats (some preDispatch) (fun _ => false) (fun r => .ok (trial r)) hist st h
  obtain ⟨c1, c2⟩ := C25_counterexample (fun r => (Except.ok (trial r) : Except PyErr Trial)) hist.length maxRepeats preDispatch hp
  have hct : callTrials maxRepeats (some preDispatch) (fun r => Except.ok (trial r)) hist.length =
      (((List.range' hist.length maxRepeats).filter (fun r => decide (r - hist.length < preDispatch ∨
        (r - hist.length - preDispatch) % 2 = 1))).map trial).map Except.ok := by
    rw [List.map_map]
    exact c1
  rw [hct] at h2 h3
  have := (h3 (by
    intro t ht
    obtain ⟨x, _, rfl⟩ := List.mem_map.mp ht
    exact ⟨x, rfl⟩)).1 (fun _ => rfl)
  have hnew := List.map_injective_iff.mpr (fun a b h => by cases h; rfl) this
  rw [← hnew]
  refine ⟨h1, fun hm => ?_⟩
  rw [h1.costs, List.length_map, List.length_append, hnew, List.length_map]
  have hl := c2 hm
  rw [c1, List.length_map] at hl
  omega

-- C25: six trials with `pre_dispatch` 2
example : (roCall false 6 (some 2) (fun _ => false) (fun r => .ok ⟨[[0, 1]], r, r⟩) ROSt.fresh).2.costs = [0, 1, 3, 5] ∧
    (roCall false 6 (some 6) (fun _ => false) (fun r => .ok ⟨[[0, 1]], r, r⟩) ROSt.fresh).2.costs = [0, 1, 2, 3, 4, 5] := by decide +kernel

/-! ## C50: which finder -/

/-- **C50, the choices of `auto`**: `optimal` for one to four inputs, `branch-all` for five and six, `branch-2` for seven and eight,
`branch-1` for nine to fourteen, and `greedy` for more (and for none). -/
theorem C50_auto_choice (orders : Orders) (fuel : Nat) (size : Nat → Nat) (mem : Option Nat) (inputs : List (Finset Nat)) (output : Finset Nat) :
    (inputs.length ∈ [1, 2, 3, 4] → auto orders fuel size mem inputs output = optimal fuel size mem orders.set inputs output) ∧
    (inputs.length ∈ [5, 6] → auto orders fuel size mem inputs output =
      branch ⟨none, 4, false, costMemoryRemoved⟩ fuel size mem orders.set inputs output) ∧
    (inputs.length ∈ [7, 8] → auto orders fuel size mem inputs output =
      branch ⟨some 2, 4, false, costMemoryRemoved⟩ fuel size mem orders.set inputs output) ∧
    (inputs.length ∈ [9, 10, 11, 12, 13, 14] → auto orders fuel size mem inputs output =
      branch ⟨some 1, 4, false, costMemoryRemoved⟩ fuel size mem orders.set inputs output) ∧
    (15 ≤ inputs.length ∨ inputs = [] → auto orders fuel size mem inputs output =
      greedy fuel size mem costMemoryRemoved none orders.greedy orders.set inputs output) := by
  unfold auto
  simp only [List.mem_cons, List.not_mem_nil, or_false]
  refine ⟨fun h => ?_, fun h => ?_, fun h => ?_, fun h => ?_, fun h => ?_⟩
  · rw [if_pos (by omega)]
  · rw [if_neg (by omega), if_pos (by omega)]; rfl
  · rw [if_neg (by omega), if_neg (by omega), if_pos (by omega)]; rfl
  · rw [if_neg (by omega), if_neg (by omega), if_neg (by omega), if_pos (by omega)]; rfl
  · have h' : 15 ≤ inputs.length ∨ inputs.length = 0 := h.imp_right (fun h => by rw [h]; rfl)
    rw [if_neg (by omega), if_neg (by omega), if_neg (by omega), if_neg (by omega)]

/-- **C50, the choices of `auto-hq`**: `optimal` for one to five inputs, `dp` for six to sixteen, and `random-greedy-128` for more
(and for none). -/
theorem C50_auto_hq_choice (cost : Nat → CostFn) (pick : Nat → Path → List ℚ → Nat) (orders : Orders) (fuel : Nat) (size : Nat → Nat)
    (mem : Option Nat) (inputs : List (Finset Nat)) (output : Finset Nat) :
    (inputs.length ∈ [1, 2, 3, 4, 5] →
      autoHq cost pick orders fuel size mem inputs output = optimal fuel size mem orders.set inputs output) ∧
    (6 ≤ inputs.length → inputs.length ≤ 16 →
      autoHq cost pick orders fuel size mem inputs output = dpCall ⟨.flops, .increase, false⟩ orders.pop size mem inputs output fuel) ∧
    (17 ≤ inputs.length ∨ inputs = [] →
      autoHq cost pick orders fuel size mem inputs output = randomGreedy 128 8 cost pick orders.greedy fuel size inputs output) := by
  unfold autoHq
  simp only [List.mem_cons, List.not_mem_nil, or_false]
  refine ⟨fun h => ?_, fun h h' => ?_, fun h => ?_⟩
  · rw [if_pos (by omega)]
  · rw [if_neg (by omega), if_pos (by omega)]
  · have h' : 17 ≤ inputs.length ∨ inputs.length = 0 := h.imp_right (fun h => by rw [h]; rfl)
    rw [if_neg (by omega), if_neg (by omega)]

/-- **C50, quality.** In a network without hyperedges with two to four inputs (`auto`) or two to five (`auto-hq`), without memory limit, no
pairwise path costs less than the one returned. -/
theorem C50_auto_optimal_partial {orders : Orders} (ho : OrdersOK orders) (size : Nat → Nat) {ins : List (Finset Nat)} {out : Finset Nat}
    (hh : NoHyperEdges ins out) (h2 : 2 ≤ ins.length) {fuel : Nat} (hfuel : ins.length ≤ fuel) (cost : Nat → CostFn)
    (pick : Nat → Path → List ℚ → Nat) :
    (ins.length ≤ 4 → ∃ path, auto orders fuel size none ins out = some (.ok path) ∧ CompletePath ins.length path ∧
      ∀ q, CompletePath ins.length q → Pairwise2 q → searchFlops size out ins path ≤ searchFlops size out ins q) ∧
    (ins.length ≤ 5 → ∃ path, autoHq cost pick orders fuel size none ins out = some (.ok path) ∧ CompletePath ins.length path ∧
      ∀ q, CompletePath ins.length q → Pairwise2 q → searchFlops size out ins path ≤ searchFlops size out ins q) := by
  obtain ⟨path, h1, h3, _, h5⟩ := C18_optimal_minimal_partial (size := size) hh ho.1 h2 hfuel
  constructor
  · intro h4
    refine ⟨path, ?_, h3, fun q a b => (h5 q a b).1⟩
    rw [(C50_auto_choice orders fuel size none ins out).1 (by simp only [List.mem_cons, List.not_mem_nil, or_false]; omega), h1]
  · intro h4
    refine ⟨path, ?_, h3, fun q a b => (h5 q a b).1⟩
    rw [(C50_auto_hq_choice cost pick orders fuel size none ins out).1 (by simp only [List.mem_cons, List.not_mem_nil, or_false]; omega), h1]

/-- **C50, quality.** In a network without hyperedges with five or six inputs, without memory limit, the path `auto` returns is as good as any
pairwise path that contracts tensors with common labels first and stays within the cutoff 4. -/
theorem C50_auto_branch_partial {orders : Orders} (ho : OrdersOK orders) (size : Nat → Nat) {ins : List (Finset Nat)} {out : Finset Nat}
    (hh : NoHyperEdges ins out) (h5 : ins.length = 5 ∨ ins.length = 6) {fuel : Nat} (hfuel : ins.length ≤ fuel) :
    ∃ path, auto orders fuel size none ins out = some (.ok path) ∧ CompletePath ins.length path ∧
      ∀ q, CompletePath ins.length q → Pairwise2 q → InnerFirst out ins q → WithinCutoff 4 size out ins q →
        ¬ LexLess false (searchFlops size out ins q) (peak size out ins q) (searchFlops size out ins path) (peak size out ins path) := by
  obtain ⟨path, h1, h3, _, h6⟩ := C58_branch_all_partial hh ⟨none, 4, false, costMemoryRemoved⟩ rfl size ho.1 (by omega) hfuel
  refine ⟨path, ?_, h3, h6⟩
  rw [(C50_auto_choice orders fuel size none ins out).2.1 (by simp only [List.mem_cons, List.not_mem_nil, or_false]; omega), h1]

end OE.Props
