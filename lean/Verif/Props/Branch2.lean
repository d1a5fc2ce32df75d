import Verif.Props.Branch1

/-!
# C20: branch and bound respects the memory limit
-/

namespace OE.Props
open OE OE.Py OE.Spec OE.Paths

section
variable {cfg : BBCfg} {size : Nat → Nat} {ins : List (Finset Nat)} {out : Finset Nat} {m : Nat} {order : SetOrder}

/-- A recorded path stays within the limit, and the cache is right. -/
structure BBFits (size : Nat → Nat) (ins : List (Finset Nat)) (out : Finset Nat) (m : Nat) (st : BBSt) : Prop where
  fits : ∀ p, st.path = some p → Fits size ins out m p
  cache : CacheInv size ins out st.cache

/-- A candidate is what it says, and fits. -/
def CandOK (size : Nat → Nat) (ins : List (Finset Nat)) (out : Finset Nat) (m : Nat) (store : List Tag) (nd : SearchNode) (c : Cand) : Prop :=
  c.i ∈ nd.remaining ∧ c.j ∈ nd.remaining ∧ c.i ≠ c.j ∧ c.k12 = termOf ins out (combineTag (pick store [c.i, c.j])) ∧
    c.newFlops = nd.flops + gFlops size ins out (pick store [c.i, c.j]) ∧ Paths.sizeOf size c.k12 ≤ m

theorem assessFit_fits {nd : SearchNode} (hfit : ∀ x ∈ ssaTrace combineTag (tags ins.length) nd.path, gSize size ins out x ≤ m) {m' : Nat}
    (hm : m' ≤ m) {st : BBSt} (h : BBFits size ins out m st) (c : Cand) :
    BBFits size ins out m (assessFit size out (some m') order nd st c).2 ∧
    (∀ c', (assessFit size out (some m') order nd st c).1 = some c' → c' = c ∧ Paths.sizeOf size c.k12 ≤ m) := by
  unfold assessFit
  by_cases hs : (some m').any (fun m => decide (Paths.sizeOf size c.k12 > m)) = true
  · rw [if_pos hs]
    simp only
    split
    · refine ⟨⟨?_, h.cache⟩, by simp⟩
      intro p hp
      cases hp
      intro y hy
      simp only [ssaTrace_append, ssaTrace, List.dropLast_concat] at hy
      exact hfit y hy
    · exact ⟨h, by simp⟩
  · rw [if_neg hs]
    refine ⟨h, ?_⟩
    rintro c' ⟨⟩
    simp at hs
    exact ⟨rfl, le_trans hs hm⟩

theorem assess_fits (hsafe : CacheSafe ins out) {store : List Tag} {nd : SearchNode} {sz : Nat} (hnd : Good size ins out store nd)
    (hfit : ∀ x ∈ ssaTrace combineTag (tags ins.length) nd.path, gSize size ins out x ≤ m) {m' : Nat} (hm : m' ≤ m) {st : BBSt}
    (h : BBFits size ins out m st) {ij : Nat × Nat} (hi : ij.1 ∈ nd.remaining) (hj : ij.2 ∈ nd.remaining) (hij : ij.1 ≠ ij.2) :
    BBFits size ins out m (assess cfg size out (some m') order nd sz st ij).2 ∧
    (∀ c, (assess cfg size out (some m') order nd sz st ij).1 = some c → CandOK size ins out m store nd c) := by
  obtain ⟨r1, r2⟩ := cached_good hsafe hnd hi hj hij h.cache
  unfold assess
  simp only
  rw [r1]
  simp only
  split
  · split
    · exact ⟨⟨h.fits, r2⟩, by simp⟩
    · rename_i p' _
      obtain ⟨a1, a2⟩ := assessFit_fits (order := order) hfit hm (st := { st with
          cache := (cached st.cache (nd.inputs.getD ij.1 ∅, nd.inputs.getD ij.2 ∅) (calcK12 size nd.inputs out nd.remaining ij.1 ij.2)).2,
          progress := p' }) ⟨h.fits, r2⟩ _
      refine ⟨a1, ?_⟩
      intro c hc
      obtain ⟨rfl, h2⟩ := a2 c hc
      exact ⟨hi, hj, hij, rfl, rfl, h2⟩
  · exact ⟨⟨h.fits, r2⟩, by simp⟩

theorem assess_fold_fits (hsafe : CacheSafe ins out) {store : List Tag} {nd : SearchNode} {sz : Nat} (hnd : Good size ins out store nd)
    (hfit : ∀ x ∈ ssaTrace combineTag (tags ins.length) nd.path, gSize size ins out x ≤ m) {m' : Nat} (hm : m' ≤ m)
    (l : List (Nat × Nat)) (hl : ∀ x ∈ l, x.1 ∈ nd.remaining ∧ x.2 ∈ nd.remaining ∧ x.1 ≠ x.2) (acc : List Cand × BBSt)
    (hacc : ∀ c ∈ acc.1, CandOK size ins out m store nd c) (h : BBFits size ins out m acc.2) :
    BBFits size ins out m (l.foldl (assessStep cfg size out (some m') order nd sz) acc).2 ∧
    (∀ c ∈ (l.foldl (assessStep cfg size out (some m') order nd sz) acc).1, CandOK size ins out m store nd c) := by
  induction l generalizing acc with
  | nil => exact ⟨h, hacc⟩
  | cons x xs ih =>
    rw [List.foldl_cons]
    obtain ⟨hi, hj, hij⟩ := hl x (by simp)
    obtain ⟨a1, a2⟩ := assess_fits (cfg := cfg) (order := order) (sz := sz) hsafe hnd hfit hm h hi hj hij
    refine ih (fun y hy => hl y (by simp [hy])) _ ?_ a1
    intro c hc
    simp only [assessStep, List.mem_append, Option.mem_toList] at hc
    rcases hc with hc | hc
    · exact hacc c hc
    · exact a2 c hc

theorem candidates_fits (hsafe : CacheSafe ins out) (ho : OrderOK order) {store : List Tag} {nd : SearchNode} {sz : Nat}
    (hnd : Good size ins out store nd) (hfit : ∀ x ∈ ssaTrace combineTag (tags ins.length) nd.path, gSize size ins out x ≤ m) {m' : Nat}
    (hm : m' ≤ m) {st : BBSt} (h : BBFits size ins out m st) :
    BBFits size ins out m (candidates cfg size out (some m') order nd sz st).2 ∧
    (∀ c ∈ (candidates cfg size out (some m') order nd sz st).1, CandOK size ins out m store nd c) := by
  have hpairs := pairs_ok ho nd.path nd.remaining
  unfold candidates
  simp only
  obtain ⟨a1, a2⟩ := assess_fold_fits (cfg := cfg) (order := order) (sz := sz) hsafe hnd hfit hm
    (((combinations2 (order nd.path nd.remaining)).map orient).filter (fun ij => ¬ Disjoint (nd.inputs.getD ij.1 ∅) (nd.inputs.getD ij.2 ∅)))
    (fun x hx => hpairs x (List.mem_filter.mp hx).1) ([], st) (by simp) h
  split
  · exact assess_fold_fits hsafe hnd hfit hm _ hpairs _ a2 a1
  · exact ⟨a1, a2⟩

theorem branchIter_fits (hsafe : CacheSafe ins out) (ho : OrderOK order) {m' : Nat} (hm : m' ≤ m) (fuel : Nat) (nd : SearchNode)
    (store : List Tag) (hnd : Good size ins out store nd)
    (hfit : ∀ x ∈ ssaTrace combineTag (tags ins.length) nd.path, gSize size ins out x ≤ m) (sz : Nat) (st : BBSt)
    (hst : BBFits size ins out m st) (st' : BBSt) (hrun : branchIter cfg size out (some m') order fuel nd sz st = some st') :
    BBFits size ins out m st' := by
  have leaf : ∀ f s, BBFits size ins out m { st with size := s, flops := f, path := some nd.path } := by
    intro f s
    refine ⟨?_, hst.cache⟩
    intro p hp
    cases hp
    exact fun x hx => hfit x (List.mem_of_mem_dropLast hx)
  induction fuel generalizing nd store sz st st' with
  | zero =>
    rw [branchIter] at hrun
    split at hrun
    · cases hrun; exact leaf _ _
    · cases hrun
  | succ fuel ih =>
    rw [branchIter] at hrun
    split at hrun
    · cases hrun; exact leaf _ _
    · simp only at hrun
      obtain ⟨a1, a2⟩ := candidates_fits (cfg := cfg) (sz := sz) hsafe ho hnd hfit hm hst
      generalize candidates cfg size out (some m') order nd sz st = r at a1 a2 hrun
      obtain ⟨cands, s⟩ := r
      simp only at a1 a2 hrun
      have hv : ∀ c ∈ visited cfg.nbranch cands, CandOK size ins out m store nd c := fun c hc => a2 c (mem_visited hc)
      generalize visited cfg.nbranch cands = l at hv hrun
      clear a2 leaf
      induction l generalizing s with
      | nil =>
        simp only [List.foldlM_nil, pure, Option.some.injEq] at hrun
        subst hrun
        exact a1
      | cons c cs ihl =>
        rw [List.foldlM_cons] at hrun
        obtain ⟨hi, hj, hij, hk, hf, hs⟩ := hv c (by simp)
        cases hb : branchIter cfg size out (some m') order fuel (nd.child c.i c.j c.k12 c.newFlops) c.newSize s with
        | none => rw [hb] at hrun; simp [bind, Option.bind] at hrun
        | some s1 =>
          rw [hb] at hrun
          have hfit' : ∀ x ∈ ssaTrace combineTag (tags ins.length) (nd.child c.i c.j c.k12 c.newFlops).path, gSize size ins out x ≤ m := by
            intro y hy
            simp only [SearchNode.child, ssaTrace_append, ssaTrace, List.mem_append, List.mem_singleton] at hy
            rcases hy with hy | rfl
            · exact hfit y hy
            · rw [← hnd.store_eq]
              rw [hk] at hs
              exact hs
          refine ihl s1 (ih _ _ (by rw [hk, hf]; exact hnd.child hi hj hij) hfit' _ s a1 s1 hb ?_) (fun y hy => hv y (by simp [hy])) hrun
          intro f s2
          refine ⟨?_, a1.cache⟩
          intro p hp
          cases hp
          exact fun x hx => hfit' x (List.mem_of_mem_dropLast hx)

end

/-- **C20 (partial).** In a network without hyperedges, a new `BranchBound` instance with any options that is called any number of
times under limits of at most `m` returns only paths all of whose steps but the last produce intermediates of at most `m`
elements, for any sizes and set iteration orders.

Missing: networks with hyperedges, for which the claim is false (`C20_counterexample`). -/
theorem C20_branch_memory_partial {ins : List (Finset Nat)} {out : Finset Nat} (hh : NoHyperEdges ins out) (cfg : BBCfg)
    (hb : cfg.nbranch ≠ some 0) (size : Nat → Nat) (m : Nat) (h2 : 2 ≤ ins.length) {fuel : Nat} (hfuel : ins.length ≤ fuel)
    (calls : List (Nat × SetOrder)) (ho : ∀ c ∈ calls, OrderOK c.2 ∧ c.1 ≤ m) :
    ∃ rs, branchCalls cfg fuel size ins out (calls.map (fun c => (some c.1, c.2))) BBSt.fresh = some rs ∧ rs.length = calls.length ∧
      ∀ r ∈ rs, ∃ path, r = .ok path ∧ CompletePath ins.length path ∧ ∀ s ∈ (resultSizes size out ins path).dropLast, s ≤ m := by
  have hne : ins ≠ [] := by rintro rfl; simp at h2
  have : ∀ st, BBReady ins.length st → (∀ p, st.path = some p → Fits size ins out m p) →
      ∃ rs, branchCalls cfg fuel size ins out (calls.map (fun c => (some c.1, c.2))) st = some rs ∧ rs.length = calls.length ∧
      ∀ r ∈ rs, ∃ path, r = .ok path ∧ CompletePath ins.length path ∧ ∀ s ∈ (resultSizes size out ins path).dropLast, s ≤ m := by
    induction calls with
    | nil => intro st _ _; exact ⟨[], rfl, rfl, by simp⟩
    | cons c cs ih =>
      intro st hst hfits
      obtain ⟨hoc, hm⟩ := ho c (by simp)
      obtain ⟨path, st', p, h1, h2', hp, hcp, hlin, _, h4⟩ := branchCall_complete cfg size (some c.1) hoc hb out hne hfuel hst
      have hrun : branchIter cfg size out (some c.1) c.2 fuel (rootNode ins) 0 { st with cache := [] } = some st' := by
        unfold branchCall at h1
        cases hr : branchIter cfg size out (some c.1) c.2 fuel (rootNode ins) 0 { st with cache := [] } with
        | none => rw [hr] at h1; cases h1
        | some s =>
          rw [hr] at h1
          simp only [Option.map_some, Option.some.injEq, Prod.mk.injEq] at h1
          rw [h1.2]
      have hf := branchIter_fits (cacheSafe_of_noHyper hh) hoc hm fuel (rootNode ins) _ good_root
        (by intro x hx; simp [rootNode, ssaTrace] at hx) 0 { st with cache := [] } ⟨hfits, cacheInv_nil⟩ st' hrun
      obtain ⟨rs, g1, g2, g3⟩ := ih (fun x hx => ho x (by simp [hx])) st' h2' hf.fits
      refine ⟨.ok path :: rs, ?_, by simp [g2], ?_⟩
      · simp only [branchCalls, List.map_cons, h1, bind, Option.bind, g1, pure]
      · intro r hr
        rcases List.mem_cons.mp hr with rfl | hr
        · refine ⟨path, rfl, h4 h2, ?_⟩
          obtain ⟨q, e1, e2, _, _, e5⟩ := C11_ssa_to_linear hcp (ssaComplete_ne_nil hcp h2)
          rw [hlin] at e1
          cases e1
          exact resultSizes_of_fits (hf.fits p hp) e2 (e5 Tag combineTag (tags ins.length) (tags_length _)).1
        · exact g3 r hr
  exact this _ (fresh_ready _) (by simp [BBSt.fresh])

/-- The function `branch`, and `greedy` with a memory limit, which calls it with `nbranch=1` (paths.py:770-771). -/
theorem C20_branch_function_partial {ins : List (Finset Nat)} {out : Finset Nat} (hh : NoHyperEdges ins out) (cfg : BBCfg)
    (hb : cfg.nbranch ≠ some 0) (size : Nat → Nat) (m : Nat) (h2 : 2 ≤ ins.length) {fuel : Nat} (hfuel : ins.length ≤ fuel)
    {order : SetOrder} (ho : OrderOK order) :
    ∃ path, branch cfg fuel size (some m) order ins out = some (.ok path) ∧ CompletePath ins.length path ∧
      ∀ s ∈ (resultSizes size out ins path).dropLast, s ≤ m := by
  obtain ⟨rs, h1, h3, h4⟩ := C20_branch_memory_partial hh cfg hb size m h2 hfuel [(m, order)] (by simp [ho])
  simp only [branchCalls, List.map_cons, List.map_nil] at h1
  cases hr : branchCall cfg fuel size (some m) order ins out BBSt.fresh with
  | none => rw [hr] at h1; simp [bind, Option.bind] at h1
  | some r =>
    rw [hr] at h1
    simp only [bind, Option.bind, pure, Option.some.injEq] at h1
    subst h1
    obtain ⟨path, e, e2, e3⟩ := h4 r.1 (by simp)
    refine ⟨path, ?_, e2, e3⟩
    unfold branch
    rw [if_neg hb, hr]
    exact congrArg some e

-- C20: the chain 'ab,bc,cd->ad' with sizes 3
example : branch (bbDefault (some 1)) 3 (fun _ => 3) (some 8) ascending chainNet {0, 3} = some (.ok [[0, 1, 2]]) ∧
    branch (bbDefault (some 1)) 3 (fun _ => 3) (some 9) ascending chainNet {0, 3} = some (.ok [[0, 1], [0, 1]]) := by decide +kernel

end OE.Props
