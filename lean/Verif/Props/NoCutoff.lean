import Verif.Model.NoCutoff
import Verif.Props.Branch1
import Verif.Props.EndToEnd

/-!
# C94: `BranchBound(cutoff_flops_factor=None)`
-/

namespace OE.Props
open OE OE.Py OE.Spec OE.Paths OE.Contract OE.Helpers OE.Parser OE.Registry

variable {cfg : BBCfg} {size : Nat → Nat} {output : Finset Nat} {mem : Option Nat} {order : SetOrder}

/-! ## When it returns, it returns what any factor returns -/

theorem progressStepNone_ok {progress p : Dict Nat Nat} {d f : Nat} (h : progressStepNone progress d f = .ok p) (cutoff : ℚ) :
    progressStep cutoff progress d f = some p := by
  unfold progressStepNone at h
  unfold progressStep
  split at h
  · rename_i hg; rw [hg]; cases h; rfl
  · rename_i b hg
    rw [hg]
    split at h
    · rename_i hlt; cases h; simp only; rw [if_pos hlt]
    · cases h

theorem progressStepNone_error {progress : Dict Nat Nat} {d f : Nat} {e : PyErr} (h : progressStepNone progress d f = .error e) :
    e = .type := by
  unfold progressStepNone at h
  split at h
  · cases h
  · split at h
    · cases h
    · cases h; rfl

theorem assessNone_ok {nd : SearchNode} {sz : Nat} {st : BBSt} {ij : Nat × Nat} {r : Option Cand × BBSt}
    (h : assessNone cfg size output mem order nd sz st ij = .ok r) : assess cfg size output mem order nd sz st ij = r := by
  unfold assessNone at h
  unfold assess
  simp only at h ⊢
  split at h
  · rename_i hb
    rw [if_pos hb]
    split at h
    · cases h
    · rename_i p hp
      rw [progressStepNone_ok hp]
      cases h
      rfl
  · rename_i hb
    rw [if_neg hb]
    cases h
    rfl

theorem assessNone_error {nd : SearchNode} {sz : Nat} {st : BBSt} {ij : Nat × Nat} {e : PyErr}
    (h : assessNone cfg size output mem order nd sz st ij = .error e) : e = .type := by
  unfold assessNone at h
  simp only at h
  split at h
  · split at h
    · rename_i hp
      cases h
      exact progressStepNone_error hp
    · cases h
  · cases h

theorem assessAllNone_ok {nd : SearchNode} {sz : Nat} (l : List (Nat × Nat)) {acc r : List Cand × BBSt}
    (h : assessAllNone cfg size output mem order nd sz l acc = .ok r) : l.foldl (assessStep cfg size output mem order nd sz) acc = r := by
  induction l generalizing acc with
  | nil => cases h; rfl
  | cons x xs ih =>
    unfold assessAllNone at h
    split at h
    · cases h
    · rename_i a ha
      rw [List.foldl_cons, ← ih h]
      unfold assessStep
      simp only
      rw [assessNone_ok ha]

theorem assessAllNone_error {nd : SearchNode} {sz : Nat} (l : List (Nat × Nat)) {acc : List Cand × BBSt} {e : PyErr}
    (h : assessAllNone cfg size output mem order nd sz l acc = .error e) : e = .type := by
  induction l generalizing acc with
  | nil => cases h
  | cons x xs ih =>
    unfold assessAllNone at h
    split at h
    · rename_i ha; cases h; exact assessNone_error ha
    · exact ih h

theorem candidatesNone_ok {nd : SearchNode} {sz : Nat} {st : BBSt} {r : List Cand × BBSt}
    (h : candidatesNone cfg size output mem order nd sz st = .ok r) : candidates cfg size output mem order nd sz st = r := by
  unfold candidatesNone at h
  unfold candidates
  simp only at h ⊢
  split at h
  · cases h
  · rename_i a ha
    rw [assessAllNone_ok _ ha]
    split at h
    · rename_i hn; rw [if_pos hn]; exact assessAllNone_ok _ h
    · rename_i hn; rw [if_neg hn]; cases h; rfl

theorem candidatesNone_error {nd : SearchNode} {sz : Nat} {st : BBSt} {e : PyErr}
    (h : candidatesNone cfg size output mem order nd sz st = .error e) : e = .type := by
  unfold candidatesNone at h
  simp only at h
  split at h
  · rename_i ha; cases h; exact assessAllNone_error _ ha
  · split at h
    · exact assessAllNone_error _ h
    · cases h

/-- Either the search without factor raises `TypeError`, or it ends as the search with any factor, or both run out of fuel. -/
theorem branchIterNone_cases (fuel : Nat) : ∀ (nd : SearchNode) (sz : Nat) (st : BBSt),
    branchIterNone cfg size output mem order fuel nd sz st = some (.error .type) ∨
      branchIterNone cfg size output mem order fuel nd sz st = (branchIter cfg size output mem order fuel nd sz st).map Except.ok := by
  induction fuel with
  | zero =>
    intro nd sz st
    unfold branchIterNone branchIter
    split <;> simp
  | succ fuel ih =>
    intro nd sz st
    unfold branchIterNone branchIter
    split
    · simp
    · simp only
      cases hc : candidatesNone cfg size output mem order nd sz st with
      | error e => left; rw [candidatesNone_error hc]
      | ok r =>
        rw [candidatesNone_ok hc]
        simp only
        generalize visited cfg.nbranch r.1 = l
        generalize r.2 = s
        clear hc r
        induction l generalizing s with
        | nil => right; rfl
        | cons c l ihl =>
          unfold visitNone
          rw [List.foldlM_cons]
          rcases ih (nd.child c.i c.j c.k12 c.newFlops) c.newSize s with h | h
          · left; rw [h]
          · rw [h]
            cases hb : branchIter cfg size output mem order fuel (nd.child c.i c.j c.k12 c.newFlops) c.newSize s with
            | none => right; rfl
            | some s' => exact ihl s'

theorem branchNone_cases (fuel : Nat) (inputs : List (Finset Nat)) :
    branchNone cfg fuel size mem order inputs output = some (.error .type) ∨
      branchNone cfg fuel size mem order inputs output = branch cfg fuel size mem order inputs output := by
  unfold branchNone branch branchCall
  split
  · right; rfl
  · rcases branchIterNone_cases (cfg := cfg) (size := size) (output := output) (mem := mem) (order := order) fuel (rootNode inputs) 0 BBSt.fresh
      with h | h
    · left; rw [h]; rfl
    · right
      rw [h]
      have : ({ BBSt.fresh with cache := [] } : BBSt) = BBSt.fresh := rfl
      rw [this]
      cases branchIter cfg size output mem order fuel (rootNode inputs) 0 BBSt.fresh with
      | none => rfl
      | some st => rfl

theorem assessAllNone_cutoff (c : ℚ) {nd : SearchNode} {sz : Nat} (l : List (Nat × Nat)) (acc : List Cand × BBSt) :
    assessAllNone { cfg with cutoff := c } size output mem order nd sz l acc = assessAllNone cfg size output mem order nd sz l acc := by
  induction l generalizing acc with
  | nil => rfl
  | cons x xs ih =>
    unfold assessAllNone
    have : assessNone { cfg with cutoff := c } size output mem order nd sz acc.2 x = assessNone cfg size output mem order nd sz acc.2 x := rfl
    rw [this]
    split
    · rfl
    · exact ih _

theorem branchIterNone_cutoff (c : ℚ) (fuel : Nat) : ∀ (nd : SearchNode) (sz : Nat) (st : BBSt),
    branchIterNone { cfg with cutoff := c } size output mem order fuel nd sz st = branchIterNone cfg size output mem order fuel nd sz st := by
  induction fuel with
  | zero => intro nd sz st; unfold branchIterNone; rfl
  | succ fuel ih =>
    intro nd sz st
    unfold branchIterNone
    have : candidatesNone { cfg with cutoff := c } size output mem order nd sz st = candidatesNone cfg size output mem order nd sz st := by
      unfold candidatesNone
      simp only [assessAllNone_cutoff]
    rw [this]
    have ih' : ∀ (nd : SearchNode) (sz : Nat), branchIterNone { cfg with cutoff := c } size output mem order fuel nd sz =
        branchIterNone cfg size output mem order fuel nd sz := fun nd sz => funext (ih nd sz)
    simp only [ih']

theorem branchNone_cutoff (c : ℚ) (fuel : Nat) (inputs : List (Finset Nat)) :
    branchNone { cfg with cutoff := c } fuel size mem order inputs output = branchNone cfg fuel size mem order inputs output := by
  unfold branchNone
  rw [branchIterNone_cutoff]

/-! ## When it raises -/

/-- At the root, the cache confuses no two pairs. -/
theorem calcK12_root {ins : List (Finset Nat)} {i j i' j' : Nat} (hi : i < ins.length) (hj : j < ins.length) (hij : i ≠ j)
    (hi' : i' < ins.length) (hj' : j' < ins.length) (hij' : i' ≠ j') (h1 : ins.getD i ∅ = ins.getD i' ∅) (h2 : ins.getD j ∅ = ins.getD j' ∅) :
    calcK12 size ins output (Finset.range ins.length) i j = calcK12 size ins output (Finset.range ins.length) i' j' := by
  have key : ∀ {i j i' j' : Nat}, i' < ins.length → j' < ins.length → i' ≠ j' → ins.getD i ∅ = ins.getD i' ∅ → ins.getD j ∅ = ins.getD j' ∅ →
      (Finset.range ins.length \ {i', j'}).biUnion (fun k => ins.getD k ∅) ⊆ (Finset.range ins.length \ {i, j}).biUnion (fun k => ins.getD k ∅) := by
    intro i j i' j' hi hj hij h1 h2 c hc
    simp only [Finset.mem_biUnion, Finset.mem_sdiff, Finset.mem_range, Finset.mem_insert, Finset.mem_singleton, not_or] at hc ⊢
    obtain ⟨r, ⟨hr, hr1, hr2⟩, hc⟩ := hc
    by_cases e1 : r = i
    · by_cases e2 : i' = j
      · exact ⟨j', ⟨hj, by omega, by omega⟩, by rw [← h2, ← e2, ← h1, ← e1]; exact hc⟩
      · exact ⟨i', ⟨hi, by omega, e2⟩, by rw [← h1, ← e1]; exact hc⟩
    · by_cases e2 : r = j
      · by_cases e3 : j' = i
        · exact ⟨i', ⟨hi, by omega, by omega⟩, by rw [← h1, ← e3, ← h2, ← e2]; exact hc⟩
        · exact ⟨j', ⟨hj, e3, by omega⟩, by rw [← h2, ← e2]; exact hc⟩
      · exact ⟨r, ⟨hr, e1, e2⟩, hc⟩
  unfold calcK12
  simp only
  rw [h1, h2, Finset.Subset.antisymm (key hi hj hij h1.symm h2.symm) (key hi' hj' hij' h1 h2)]

/-- The cache holds what the root would compute. -/
def RootCache (size : Nat → Nat) (output : Finset Nat) (ins : List (Finset Nat)) (cache : ResCache) : Prop :=
  ∀ i j v, i < ins.length → j < ins.length → i ≠ j → cache.get? (ins.getD i ∅, ins.getD j ∅) = some v →
    v = calcK12 size ins output (Finset.range ins.length) i j

theorem cached_root {ins : List (Finset Nat)} {cache : ResCache} (h : RootCache size output ins cache) {i j : Nat} (hi : i < ins.length)
    (hj : j < ins.length) (hij : i ≠ j) :
    let r := cached cache (ins.getD i ∅, ins.getD j ∅) (calcK12 size ins output (Finset.range ins.length) i j)
    r.1 = calcK12 size ins output (Finset.range ins.length) i j ∧ RootCache size output ins r.2 := by
  intro r
  cases hg : cache.get? (ins.getD i ∅, ins.getD j ∅) with
  | some v =>
    have : r = (v, cache) := by simp only [r, cached, hg]
    rw [this]
    exact ⟨h i j v hi hj hij hg, h⟩
  | none =>
    have : r = (calcK12 size ins output (Finset.range ins.length) i j,
        cache.set (ins.getD i ∅, ins.getD j ∅) (calcK12 size ins output (Finset.range ins.length) i j)) := by simp only [r, cached, hg]
    rw [this]
    refine ⟨rfl, ?_⟩
    intro i' j' v hi' hj' hij' hv
    by_cases e : (ins.getD i' ∅, ins.getD j' ∅) = (ins.getD i ∅, ins.getD j ∅)
    · rw [e, Dict.get?_set_self] at hv
      cases hv
      obtain ⟨e1, e2⟩ := Prod.mk.inj e
      exact calcK12_root hi hj hij hi' hj' hij' e1.symm e2.symm
    · rw [Dict.get?_set_ne e] at hv
      exact h i' j' v hi' hj' hij' hv

/-- A loop over pairs at the root of a new instance that does not raise: each pair costs less than all before it. -/
theorem assessAllNone_root {ins : List (Finset Nat)} (l : List (Nat × Nat)) (hl : ∀ x ∈ l, x.1 < ins.length ∧ x.2 < ins.length ∧ x.1 ≠ x.2) :
    ∀ (acc r : List Cand × BBSt), RootCache size output ins acc.2.cache → acc.2.flops = ⊤ → acc.2.size = ⊤ →
      assessAllNone cfg size output none order (rootNode ins) 0 l acc = .ok r →
      (∀ b, acc.2.progress.get? ins.length = some b → ∀ x ∈ l, (calcK12 size ins output (Finset.range ins.length) x.1 x.2).2 < b) ∧
      l.Pairwise (fun x y => (calcK12 size ins output (Finset.range ins.length) y.1 y.2).2 <
        (calcK12 size ins output (Finset.range ins.length) x.1 x.2).2) := by
  induction l with
  | nil => intro acc r _ _ _ _; simp
  | cons x xs ih =>
    intro acc r hcache hf hs h
    obtain ⟨hx1, hx2, hx3⟩ := hl x (by simp)
    obtain ⟨c1, c2⟩ := cached_root hcache hx1 hx2 hx3
    unfold assessAllNone at h
    split at h
    · cases h
    rename_i a ha
    unfold assessNone at ha
    simp only at ha
    split at ha
    case isFalse hb =>
      rw [hf, hs] at hb
      exact absurd (better_top _ _ _) hb
    split at ha
    · cases ha
    rename_i p hp
    simp only [assessFit, Option.any_none, Bool.false_eq_true, if_false, Except.ok.injEq] at ha
    subst ha
    set v := (calcK12 size ins output (Finset.range ins.length) x.1 x.2).2 with hv
    simp only [rootNode] at hp
    rw [c1, Nat.zero_add, ← hv] at hp
    have hprog : p.get? ins.length = some v ∧ ∀ b, acc.2.progress.get? ins.length = some b → v < b := by
      unfold progressStepNone at hp
      split at hp
      · rename_i hg
        cases hp
        exact ⟨Dict.get?_set_self .., by rw [hg]; simp⟩
      · rename_i b hg
        split at hp
        · rename_i hlt
          cases hp
          exact ⟨Dict.get?_set_self .., by rw [hg]; rintro _ ⟨⟩; exact hlt⟩
        · cases hp
    obtain ⟨i1, i2⟩ := ih (fun y hy => hl y (by simp [hy])) _ _ (by exact c2) (by exact hf) (by exact hs) h
    have i3 := i1 v hprog.1
    refine ⟨?_, List.pairwise_cons.mpr ⟨fun y hy => i3 y hy, i2⟩⟩
    intro b hb y hy
    have := hprog.2 b hb
    rcases List.mem_cons.mp hy with rfl | hy
    · exact this
    · exact (i3 y hy).trans this

/-- The pairs that the root assesses first: those with common labels; all, if there are none. -/
def firstPairs (order : SetOrder) (ins : List (Finset Nat)) : List (Nat × Nat) :=
  let pairs := (combinations2 (order [] (Finset.range ins.length))).map orient
  let inner := pairs.filter (fun ij => ¬ Disjoint (ins.getD ij.1 ∅) (ins.getD ij.2 ∅))
  if inner = [] then pairs else inner

theorem orient_cases (x : Nat × Nat) (h : x.1 ≠ x.2) : (orient x).1 < (orient x).2 ∧ (orient x = x ∨ orient x = (x.2, x.1)) := by
  unfold orient
  split
  · exact ⟨by simpa using ‹_›, Or.inr rfl⟩
  · exact ⟨by omega, Or.inl rfl⟩

theorem mem_pairs (ho : OrderOK order) {n : Nat} {x : Nat × Nat} :
    x ∈ (combinations2 (order [] (Finset.range n))).map orient ↔ x.1 < x.2 ∧ x.2 < n := by
  obtain ⟨h1, h2⟩ := ho [] (Finset.range n)
  constructor
  · intro h
    obtain ⟨y, hy, rfl⟩ := List.mem_map.mp h
    obtain ⟨a1, a2, a3⟩ := mem_combinations2 h1 hy
    rw [h2, Finset.mem_range] at a1 a2
    obtain ⟨b1, b2⟩ := orient_cases y a3
    refine ⟨b1, ?_⟩
    rcases b2 with e | e <;> rw [e] <;> assumption
  · rintro ⟨h3, h4⟩
    have m1 : x.1 ∈ order [] (Finset.range n) := by rw [h2, Finset.mem_range]; omega
    have m2 : x.2 ∈ order [] (Finset.range n) := by rw [h2, Finset.mem_range]; exact h4
    rcases combinations2_complete m1 m2 (by omega) with h | h
    · exact List.mem_map.mpr ⟨_, h, by unfold orient; rw [if_neg (by simp only; omega)]⟩
    · exact List.mem_map.mpr ⟨_, h, by unfold orient; rw [if_pos (by simpa using h3)]⟩

/-- Unless the costs of the first pairs fall from each to the next, `TypeError`. -/
theorem branchNone_raises (ho : OrderOK order) (hnb : cfg.nbranch ≠ some 0) {ins : List (Finset Nat)} (h2 : 2 ≤ ins.length) {fuel : Nat}
    (hfuel : 0 < fuel)
    (h : ¬ (firstPairs order ins).Pairwise (fun x y => (calcK12 size ins output (Finset.range ins.length) y.1 y.2).2 <
        (calcK12 size ins output (Finset.range ins.length) x.1 x.2).2)) :
    branchNone cfg fuel size none order ins output = some (.error .type) := by
  have hpairs : ∀ x ∈ (combinations2 (order [] (Finset.range ins.length))).map orient, x.1 < ins.length ∧ x.2 < ins.length ∧ x.1 ≠ x.2 := by
    intro x hx
    have := (mem_pairs ho).mp hx
    omega
  have hcand : ∃ e, candidatesNone cfg size output none order (rootNode ins) 0 BBSt.fresh = .error e := by
    by_contra hcon
    cases hc : candidatesNone cfg size output none order (rootNode ins) 0 BBSt.fresh with
    | error e => exact hcon ⟨e, hc⟩
    | ok r =>
      apply h
      unfold candidatesNone at hc
      simp only at hc
      have hfresh : RootCache size output ins BBSt.fresh.cache := by
        intro i j v _ _ _ hv
        simp [BBSt.fresh, Dict.get?] at hv
      split at hc
      · cases hc
      rename_i a ha
      unfold firstPairs
      simp only
      split
      · rename_i hn
        have hn' : ((combinations2 (order (rootNode ins).path (rootNode ins).remaining)).map orient).filter
            (fun ij => ¬ Disjoint ((rootNode ins).inputs.getD ij.1 ∅) ((rootNode ins).inputs.getD ij.2 ∅)) = [] := hn
        rw [hn'] at ha
        cases ha
        rw [if_pos rfl] at hc
        exact (assessAllNone_root _ hpairs _ _ hfresh rfl rfl hc).2
      · exact (assessAllNone_root _ (fun x hx => hpairs x (List.mem_filter.mp hx).1) _ _ hfresh rfl rfl ha).2
  obtain ⟨e, he⟩ := hcand
  cases candidatesNone_error he
  obtain ⟨f, rfl⟩ : ∃ f, fuel = f + 1 := ⟨fuel - 1, by omega⟩
  unfold branchNone
  rw [if_neg hnb]
  unfold branchIterNone
  rw [if_neg (by simp only [rootNode, Finset.card_range]; omega)]
  simp only
  rw [he]
  rfl

theorem calcK12_pairFlops {ins : List (Finset Nat)} (i j : Nat) :
    (calcK12 size ins output (Finset.range ins.length) i j).2 = pairFlops size output ins [i, j] := by
  have hl : labelsAt ins [i, j] = ins.getD i ∅ ∪ ins.getD j ∅ := by simp [labelsAt]
  have hk : ∀ c, (∃ t ∈ unselected ins [i, j], c ∈ t) ↔ c ∈ (Finset.range ins.length \ {i, j}).biUnion (fun k => ins.getD k ∅) := by
    intro c
    simp only [unselected, List.mem_filterMap, List.mem_filter, List.mem_range, Finset.mem_biUnion, Finset.mem_sdiff, Finset.mem_range,
      List.mem_cons, List.not_mem_nil, or_false, decide_eq_true_eq, Finset.mem_insert, Finset.mem_singleton]
    constructor
    · rintro ⟨t, ⟨k, ⟨h1, h2⟩, h3⟩, h4⟩
      exact ⟨k, ⟨h1, h2⟩, by rw [List.getD_eq_getElem?_getD, h3]; exact h4⟩
    · rintro ⟨k, ⟨h1, h2⟩, h3⟩
      refine ⟨ins[k], ⟨k, ⟨h1, h2⟩, by simp [h1]⟩, ?_⟩
      rw [List.getD_eq_getElem?_getD, List.getElem?_eq_getElem h1] at h3
      exact h3
  unfold calcK12 pairFlops flopsOf
  simp only [hl, Paths.sizeOf]
  congr 1
  have hiff : ((ins.getD i ∅ ∩ ins.getD j ∅) \ (output ∪ (Finset.range ins.length \ {i, j}).biUnion (fun k => ins.getD k ∅)) = ∅) ↔
      ((ins.getD i ∅ ∪ ins.getD j ∅).filter (fun c => c ∉ keptLabels output ins [i, j] ∧ 1 < [i, j].countP (fun i => c ∈ ins.getD i ∅)) = ∅) := by
    rw [Finset.eq_empty_iff_forall_notMem, Finset.eq_empty_iff_forall_notMem]
    apply forall_congr'
    intro c
    rw [not_iff_not, Finset.mem_filter, Finset.mem_sdiff, Finset.mem_union, Finset.mem_inter, Finset.mem_union, ← hk c]
    have hcount : 1 < [i, j].countP (fun i => decide (c ∈ ins.getD i ∅)) ↔ c ∈ ins.getD i ∅ ∧ c ∈ ins.getD j ∅ := by
      rw [List.countP_cons, List.countP_cons, List.countP_nil]
      by_cases e1 : c ∈ ins.getD i ∅ <;> by_cases e2 : c ∈ ins.getD j ∅ <;> simp only [e1, e2] <;> decide
    rw [hcount, keptLabels, hl, Finset.mem_filter, Finset.mem_union]
    generalize (∃ t ∈ unselected ins [i, j], c ∈ t) = q
    generalize (c ∈ ins.getD i ∅) = a
    generalize (c ∈ ins.getD j ∅) = b
    tauto
  by_cases he : (ins.getD i ∅ ∩ ins.getD j ∅) \ (output ∪ (Finset.range ins.length \ {i, j}).biUnion (fun k => ins.getD k ∅)) = ∅
  · rw [if_pos (hiff.mp he), if_neg (by simpa only [decide_eq_true_eq, ne_eq, not_not] using he)]
    rfl
  · rw [if_neg (fun h => he (hiff.mpr h)), if_pos (by simpa only [decide_eq_true_eq] using he)]
    rfl

theorem pairwise_either {α : Type} {r : α → α → Prop} {l : List α} (h : l.Pairwise r) {x y : α} (hx : x ∈ l) (hy : y ∈ l) (hne : x ≠ y) :
    r x y ∨ r y x := by
  induction h with
  | nil => cases hx
  | cons h1 _ ih =>
    rcases List.mem_cons.mp hx with rfl | hx' <;> rcases List.mem_cons.mp hy with rfl | hy'
    · exact absurd rfl hne
    · exact Or.inl (h1 _ hy')
    · exact Or.inr (h1 _ hx')
    · exact ih hx' hy'

/-- **C94, what it may do.** With `cutoff_flops_factor=None` a call of a new instance raises `TypeError`, or it returns the path that it
returns with any number as factor. -/
theorem C94_outcome (cfg : BBCfg) (hnb : cfg.nbranch ≠ some 0) (size : Nat → Nat) (output : Finset Nat) (mem : Option Nat) (ho : OrderOK order)
    {ins : List (Finset Nat)} (hne : ins ≠ []) {fuel : Nat} (hfuel : ins.length ≤ fuel) :
    branchNone cfg fuel size mem order ins output = some (.error .type) ∨
    ∃ path, branchNone cfg fuel size mem order ins output = some (.ok path) ∧ (2 ≤ ins.length → CompletePath ins.length path) ∧
      ∀ factor : ℚ, branch { cfg with cutoff := factor } fuel size mem order ins output = some (.ok path) := by
  rcases branchNone_cases (cfg := cfg) (size := size) (output := output) (mem := mem) (order := order) fuel ins with h | h
  · exact Or.inl h
  · obtain ⟨path, h1, _, h3⟩ := C15_branch_function cfg hnb size output mem ho hne hfuel
    right
    refine ⟨path, h.trans h1, h3, ?_⟩
    intro factor
    rcases branchNone_cases (cfg := { cfg with cutoff := factor }) (size := size) (output := output) (mem := mem) (order := order) fuel ins
      with g | g
    · rw [branchNone_cutoff, h, h1] at g
      cases g
    · rw [← g, branchNone_cutoff, h, h1]

/-- **C94.** Without memory limit, `cutoff_flops_factor=None` raises `TypeError` as soon as two pairs of operands with common labels cost
the same, whatever the other options and in whatever order the pairs are met; also if no operands have common labels and any two pairs
cost the same. -/
theorem C94_raises (cfg : BBCfg) (hnb : cfg.nbranch ≠ some 0) (size : Nat → Nat) (output : Finset Nat) (ho : OrderOK order)
    {ins : List (Finset Nat)} {fuel : Nat} (hfuel : 0 < fuel) {i j k l : Nat} (hij : i < j) (hj : j < ins.length) (hkl : k < l)
    (hl : l < ins.length) (hne : (i, j) ≠ (k, l))
    (hcommon : (¬ Disjoint (ins.getD i ∅) (ins.getD j ∅) ∧ ¬ Disjoint (ins.getD k ∅) (ins.getD l ∅)) ∨
      ∀ a b, a < b → b < ins.length → Disjoint (ins.getD a ∅) (ins.getD b ∅))
    (hcost : pairFlops size output ins [i, j] = pairFlops size output ins [k, l]) :
    branchNone cfg fuel size none order ins output = some (.error .type) := by
  apply branchNone_raises ho hnb (by omega) hfuel
  intro h
  have hmem : (i, j) ∈ firstPairs order ins ∧ (k, l) ∈ firstPairs order ins := by
    have m1 : (i, j) ∈ (combinations2 (order [] (Finset.range ins.length))).map orient := (mem_pairs ho).mpr ⟨hij, hj⟩
    have m2 : (k, l) ∈ (combinations2 (order [] (Finset.range ins.length))).map orient := (mem_pairs ho).mpr ⟨hkl, hl⟩
    unfold firstPairs
    simp only
    split
    · exact ⟨m1, m2⟩
    · rename_i hn
      rcases hcommon with ⟨c1, c2⟩ | hd
      · exact ⟨List.mem_filter.mpr ⟨m1, by simpa using c1⟩, List.mem_filter.mpr ⟨m2, by simpa using c2⟩⟩
      · exfalso
        apply hn
        rw [List.filter_eq_nil_iff]
        intro x hx
        obtain ⟨g1, g2⟩ := (mem_pairs ho).mp hx
        simpa using hd _ _ g1 g2
  rw [← calcK12_pairFlops, ← calcK12_pairFlops] at hcost
  rcases pairwise_either h hmem.1 hmem.2 hne with g | g
  · exact absurd hcost (Nat.ne_of_gt g)
  · exact absurd hcost (Nat.ne_of_lt g)

/-- The instance as `contract_path` sees it. -/
def noneFinder (cfg : BBCfg) (fuel : Nat) (order : SetOrder) : PathFn :=
  fun sets output d m => (branchNone cfg fuel (labelSize d) m order sets output).getD (.error .stopIteration)

/-- **C94, `contract_path`.** So the example of the documentation, `contract_path(eq, *arrays, optimize=BranchBound(nbranch=3,
minimize='size', cutoff_flops_factor=None))`, raises `TypeError` for every network of three or more operands in which two pairs with common
labels cost the same. -/
theorem C94_contract_path (cfg : BBCfg) (hnb : cfg.nbranch ≠ some 0) (ho : OrderOK order) {fuel : Nat} (hfuel : 0 < fuel) {size : Nat → Nat}
    {inputs : List Str} {output : Str} {shapes : List Shape} (h : WellPosed size inputs output shapes) (h3 : 3 ≤ inputs.length) {i j k l : Nat}
    (hij : i < j) (hj : j < inputs.length) (hkl : k < l) (hl : l < inputs.length) (hne : (i, j) ≠ (k, l))
    (hcommon : (∃ c, c ∈ inputs.getD i [] ∧ c ∈ inputs.getD j []) ∧ ∃ c, c ∈ inputs.getD k [] ∧ c ∈ inputs.getD l [])
    (hcost : pairFlops size output.toFinset (inputs.map List.toFinset) [i, j] = pairFlops size output.toFinset (inputs.map List.toFinset) [k, l])
    (useBlas : Bool) :
    contractPath inputs output shapes (.finder (noneFinder cfg fuel order)) .none useBlas = .error .type := by
  obtain ⟨d, hd1, hd2⟩ := sizeLoop_wellPosed h
  have hsome : ∀ c, (∃ t ∈ inputs, c ∈ t) → (d.get? c).isSome := fun c hc => by rw [hd2 c hc]; rfl
  have hsz : (inputs ++ [output]).mapM (fun t => computeSizeByDict t d) =
      .ok ((inputs ++ [output]).map (fun t => (t.map (dsize d)).prod)) := by
    apply mapM_ok
    intro t ht
    apply computeSize_ok
    intro c hc
    rw [List.mem_append, List.mem_singleton] at ht
    rcases ht with ht | rfl
    · exact hsome c ⟨t, ht, hc⟩
    · exact hsome c (h.sub c hc)
  have hflop : ∀ inner : Bool, flopCount (enum inputs.flatten inputs.flatten.toFinset) inner inputs.length d =
      .ok ((∏ c ∈ inputs.flatten.toFinset, dsize d c) * opFactor inner inputs.length) := by
    intro inner
    apply flopCount_enum
    · intro c hc; exact List.mem_toFinset.mp hc
    · intro c hc
      apply hsome
      rw [List.mem_toFinset, List.mem_flatten] at hc
      exact hc
  have hsize : ∀ s ∈ inputs.map List.toFinset, ∀ c ∈ s, labelSize d c = size c := by
    intro s hs c hc
    obtain ⟨t, ht, rfl⟩ := List.mem_map.mp hs
    unfold labelSize
    rw [hd2 c ⟨t, ht, List.mem_toFinset.mp hc⟩]
    rfl
  have hcongr : ∀ p, pairFlops (labelSize d) output.toFinset (inputs.map List.toFinset) p =
      pairFlops size output.toFinset (inputs.map List.toFinset) p := by
    intro p
    have := searchFlops_congr (out := output.toFinset) [p] hsize
    simpa [searchFlops] using this
  have hdis : ∀ a b, (∃ c, c ∈ inputs.getD a [] ∧ c ∈ inputs.getD b []) →
      ¬ Disjoint ((inputs.map List.toFinset).getD a ∅) ((inputs.map List.toFinset).getD b ∅) := by
    intro a b ⟨c, h1, h2⟩ hd
    have e : ∀ a, (inputs.map List.toFinset).getD a ∅ = (inputs.getD a []).toFinset := by
      intro a
      rw [List.getD_eq_getElem?_getD, List.getD_eq_getElem?_getD, List.getElem?_map]
      cases inputs[a]? <;> rfl
    rw [e, e] at hd
    exact Finset.disjoint_left.mp hd (List.mem_toFinset.mpr h1) (List.mem_toFinset.mpr h2)
  have hfind : choosePath (.finder (noneFinder cfg fuel order)) inputs.length (inputs.map List.toFinset) output.toFinset d none = .error .type := by
    simp only [choosePath, noneFinder]
    rw [if_neg (by omega), C94_raises cfg hnb (labelSize d) output.toFinset ho hfuel hij (by simpa using hj) hkl (by simpa using hl) hne
      (Or.inl ⟨hdis _ _ hcommon.1, hdis _ _ hcommon.2⟩) (by rw [hcongr, hcongr, hcost])]
    rfl
  unfold contractPath
  simp only [bind, Except.bind]
  rw [hd1]
  simp only
  rw [hsz]
  simp only [chooseMemoryArg]
  rw [hflop]
  simp only
  rw [hfind]

/-! ## Cases -/

/-- The options of the documentation: `nbranch=3, minimize='size'`. -/
def bbDocs : BBCfg := { nbranch := some 3, cutoff := 4, bySize := true, cost := costMemoryRemoved }

-- a chain of square matrices
example : branchNone bbDocs 3 (fun _ => 2) none ascending [{0, 1}, {1, 2}, {2, 3}] {0, 3} = some (.error .type) :=
  C94_raises (order := ascending) bbDocs (by decide) _ _ ascending_ok (i := 0) (j := 1) (k := 1) (l := 2) (by decide) (by decide) (by decide) (by decide)
    (by decide) (by decide) (Or.inl (by decide)) (by decide)

-- falling costs: no exception, and the same path as with any factor
example : branchNone bbDocs 3 (fun c => if c = 0 then 9 else 2) none ascending [{0, 1}, {1, 2}, {2, 3}] {0, 3} = some (.ok [[1, 2], [0, 1]]) := by
  decide +kernel

-- no labels at all in common
example : branchNone bbDocs 3 (fun _ => 2) none ascending [{0}, {1}, {2}] {0, 1, 2} = some (.error .type) :=
  C94_raises (order := ascending) bbDocs (by decide) _ _ ascending_ok (i := 0) (j := 1) (k := 1) (l := 2) (by decide) (by decide) (by decide) (by decide)
    (by decide) (by decide) (Or.inr (by
      intro a b h1 h2
      simp only [List.length_cons, List.length_nil] at h2
      have : (a, b) ∈ [(0, 1), (0, 2), (1, 2)] := by
        have : a < 2 := by omega
        interval_cases a <;> interval_cases b <;> simp_all
      revert this
      generalize a = x
      generalize b = y
      intro hm
      simp only [List.mem_cons, Prod.mk.injEq, List.not_mem_nil, or_false] at hm
      rcases hm with ⟨rfl, rfl⟩ | ⟨rfl, rfl⟩ | ⟨rfl, rfl⟩ <;> decide)) (by decide)

-- `ab,bc,cd->ad` with `contract_path`
example (b : Bool) : contractPath [S "ab", S "bc", S "cd"] (S "ad") [[2, 2], [2, 2], [2, 2]] (.finder (noneFinder bbDocs 3 ascending)) .none b =
    .error .type :=
  C94_contract_path (size := fun _ => 2) (inputs := [S "ab", S "bc", S "cd"]) (output := S "ad") (shapes := [[2, 2], [2, 2], [2, 2]]) (fuel := 3)
    bbDocs (by decide) ascending_ok (by decide)
    { toOperandsFit := operandsFit_of_list (by decide +kernel) (by decide +kernel) (by decide +kernel) (by decide +kernel) (by decide +kernel)
      nonempty := by simp, len := rfl, nodup := by decide, sub := by decide +kernel
      punct := by
        intro t ht c hc h
        have hl : ∀ t ∈ [S "ab", S "bc", S "cd"], ∀ c ∈ t, 97 ≤ c := by decide +kernel
        have := hl t ht c hc
        simp only [IsPunct] at h
        omega }
    (by decide) (i := 0) (j := 1) (k := 1) (l := 2) (by decide) (by decide) (by decide) (by decide) (by decide)
    ⟨⟨98, by decide⟩, ⟨99, by decide⟩⟩ (by decide +kernel) b

end OE.Props
