import Verif.Spec.Again
import Verif.Props.Branch4

/-!
# C77: a `BranchBound` instance that is called again
-/

namespace OE.Props
open OE OE.Py OE.Spec OE.Paths

/-! ## The best path is replaced only by a better one -/

/-- The best of `t` is that of `s`, or has better figures. -/
def Kept (b : Bool) (s t : BBSt) : Prop :=
  (t.path = s.path ∧ t.flops = s.flops ∧ t.size = s.size) ∨ better b t.flops t.size s.flops s.size = true

theorem Kept.refl (b : Bool) (s : BBSt) : Kept b s s := Or.inl ⟨rfl, rfl, rfl⟩

theorem Kept.trans {b : Bool} {s t u : BBSt} (h1 : Kept b s t) (h2 : Kept b t u) : Kept b s u := by
  rcases h1 with ⟨e0, e1, e2⟩ | h1 <;> rcases h2 with ⟨g0, g1, g2⟩ | h2
  · exact Or.inl ⟨g0.trans e0, g1.trans e1, g2.trans e2⟩
  · right; rw [← e1, ← e2]; exact h2
  · right; rw [g1, g2]; exact h1
  · exact Or.inr (better_trans h2 h1)

section
variable {cfg : BBCfg} {size : Nat → Nat} {out : Finset Nat} {mem : Option Nat} {order : SetOrder} {n : Nat}

theorem better_less_flops (b : Bool) {f f' s : WithTop Nat} (h : f < f') : better b f s f' s = true := by
  unfold better
  cases b <;> simp [h]

theorem assessFit_kept (b : Bool) (nd : SearchNode) (st : BBSt) (c : Cand) :
    Kept b st (assessFit size out mem order nd st c).2 ∧
    ∀ c', (assessFit size out mem order nd st c).1 = some c' → c' = c ∧ (assessFit size out mem order nd st c).2 = st := by
  unfold assessFit
  split
  · simp only
    split
    · rename_i h
      exact ⟨Or.inr (better_less_flops b h), by simp⟩
    · exact ⟨Kept.refl _ _, by simp⟩
  · exact ⟨Kept.refl _ _, by rintro c' ⟨⟩; exact ⟨rfl, rfl⟩⟩

theorem assess_kept (nd : SearchNode) (sz : Nat) (st : BBSt) (ij : Nat × Nat) :
    Kept cfg.bySize st (assess cfg size out mem order nd sz st ij).2 ∧
    ∀ c, (assess cfg size out mem order nd sz st ij).1 = some c →
      better cfg.bySize c.newFlops c.newSize (assess cfg size out mem order nd sz st ij).2.flops
        (assess cfg size out mem order nd sz st ij).2.size = true ∧ c.i = ij.1 ∧ c.j = ij.2 := by
  unfold assess
  simp only
  generalize cached st.cache (nd.inputs.getD ij.1 ∅, nd.inputs.getD ij.2 ∅) (calcK12 size nd.inputs out nd.remaining ij.1 ij.2) = r
  split
  · rename_i hb
    cases progressStep cfg.cutoff st.progress nd.inputs.length (nd.flops + r.1.2) with
    | none => exact ⟨Or.inl ⟨rfl, rfl, rfl⟩, by simp⟩
    | some p' =>
      simp only
      generalize hc0 : Cand.mk _ _ _ _ _ _ _ = c0
      obtain ⟨a1, a2⟩ := assessFit_kept (size := size) (out := out) (mem := mem) (order := order) cfg.bySize nd { st with cache := r.2, progress := p' } c0
      refine ⟨Kept.trans (t := { st with cache := r.2, progress := p' }) (Or.inl ⟨rfl, rfl, rfl⟩) a1, fun c hc => ?_⟩
      obtain ⟨rfl, e2⟩ := a2 c hc
      rw [e2, ← hc0]
      exact ⟨hb, rfl, rfl⟩
  · exact ⟨Or.inl ⟨rfl, rfl, rfl⟩, by simp⟩

theorem assess_fold_kept (nd : SearchNode) (sz : Nat) (l : List (Nat × Nat)) (acc : List Cand × BBSt) :
    Kept cfg.bySize acc.2 (l.foldl (assessStep cfg size out mem order nd sz) acc).2 ∧
    (l.foldl (assessStep cfg size out mem order nd sz) acc).1.length ≤ acc.1.length + l.length ∧
    ∀ c ∈ (l.foldl (assessStep cfg size out mem order nd sz) acc).1, c ∈ acc.1 ∨ (c.i, c.j) ∈ l := by
  induction l generalizing acc with
  | nil => exact ⟨Kept.refl _ _, by simp, fun c hc => Or.inl hc⟩
  | cons x xs ih =>
    rw [List.foldl_cons]
    obtain ⟨b1, b2, b3⟩ := ih (assessStep cfg size out mem order nd sz acc x)
    refine ⟨Kept.trans (assess_kept nd sz acc.2 x).1 b1, b2.trans ?_, fun c hc => ?_⟩
    · simp only [assessStep, List.length_append, List.length_cons]
      have : (assess cfg size out mem order nd sz acc.2 x).1.toList.length ≤ 1 := by
        cases (assess cfg size out mem order nd sz acc.2 x).1 <;> simp
      omega
    · rcases b3 c hc with h | h
      · simp only [assessStep, List.mem_append, Option.mem_toList] at h
        rcases h with h | h
        · exact Or.inl h
        · obtain ⟨_, e1, e2⟩ := (assess_kept nd sz acc.2 x).2 c h
          right; rw [e1, e2]; exact List.mem_cons_self
      · exact Or.inr (List.mem_cons_of_mem _ h)

/-- With at most one pair, the candidate is better than the best at the end. -/
theorem assess_fold_one (nd : SearchNode) (sz : Nat) (l : List (Nat × Nat)) (hl : l.length ≤ 1) (st : BBSt) :
    ∀ c ∈ (l.foldl (assessStep cfg size out mem order nd sz) ([], st)).1,
      better cfg.bySize c.newFlops c.newSize (l.foldl (assessStep cfg size out mem order nd sz) ([], st)).2.flops
        (l.foldl (assessStep cfg size out mem order nd sz) ([], st)).2.size = true := by
  match l, hl with
  | [], _ => simp
  | [x], _ =>
    intro c hc
    simp only [List.foldl_cons, List.foldl_nil, assessStep, List.nil_append, Option.mem_toList] at hc ⊢
    exact ((assess_kept nd sz st x).2 c hc).1

theorem candidates_kept (ho : OrderOK order) (nd : SearchNode) (sz : Nat) (st : BBSt) :
    Kept cfg.bySize st (candidates cfg size out mem order nd sz st).2 ∧
    (∀ c ∈ (candidates cfg size out mem order nd sz st).1, c.i ∈ nd.remaining ∧ c.j ∈ nd.remaining ∧ c.i ≠ c.j) ∧
    (nd.remaining.card = 2 → (candidates cfg size out mem order nd sz st).1.length ≤ 1 ∧
      ∀ c ∈ (candidates cfg size out mem order nd sz st).1,
        better cfg.bySize c.newFlops c.newSize (candidates cfg size out mem order nd sz st).2.flops
          (candidates cfg size out mem order nd sz st).2.size = true) := by
  have hone : nd.remaining.card = 2 → ((combinations2 (order nd.path nd.remaining)).map orient).length ≤ 1 := by
    intro h2
    obtain ⟨o1, o2⟩ := ho nd.path nd.remaining
    have hlen : (order nd.path nd.remaining).length = 2 := by
      rw [← List.toFinset_card_of_nodup o1, ← h2]
      congr 1
      ext a; rw [List.mem_toFinset, o2]
    match order nd.path nd.remaining, hlen with
    | [a, b], _ => simp [combinations2]
  have hpairs := pairs_ok ho nd.path nd.remaining
  unfold candidates
  simp only
  generalize (combinations2 (order nd.path nd.remaining)).map orient = pairs at hone hpairs ⊢
  have hsub : ∀ x ∈ pairs.filter (fun ij : Nat × Nat => ¬ Disjoint (nd.inputs.getD ij.1 ∅) (nd.inputs.getD ij.2 ∅)), x ∈ pairs :=
    fun x hx => (List.mem_filter.mp hx).1
  have hfl := List.length_filter_le (fun ij : Nat × Nat => ¬ Disjoint (nd.inputs.getD ij.1 ∅) (nd.inputs.getD ij.2 ∅)) pairs
  generalize pairs.filter (fun ij : Nat × Nat => ¬ Disjoint (nd.inputs.getD ij.1 ∅) (nd.inputs.getD ij.2 ∅)) = l1 at hfl hsub ⊢
  have a := assess_fold_kept (cfg := cfg) (size := size) (out := out) (mem := mem) (order := order) nd sz l1 ([], st)
  split
  · rename_i hnil
    have hpair : l1.foldl (assessStep cfg size out mem order nd sz) ([], st) =
        ([], (l1.foldl (assessStep cfg size out mem order nd sz) ([], st)).2) := Prod.ext hnil rfl
    rw [hpair]
    have b := assess_fold_kept (cfg := cfg) (size := size) (out := out) (mem := mem) (order := order) nd sz pairs
      ([], (l1.foldl (assessStep cfg size out mem order nd sz) ([], st)).2)
    refine ⟨a.1.trans b.1, fun c hc => (b.2.2 c hc).elim (by simp) (hpairs _), fun h2 => ⟨?_, assess_fold_one nd sz pairs (hone h2) _⟩⟩
    have := hone h2
    have := b.2.1
    simp only [List.length_nil] at this
    omega
  · refine ⟨a.1, fun c hc => (a.2.2 c hc).elim (by simp) (fun h => hpairs _ (hsub _ h)), fun h2 => ⟨?_, assess_fold_one nd sz l1 (hfl.trans (hone h2)) st⟩⟩
    have := hone h2
    have := a.2.1
    simp only [List.length_nil] at this
    omega

theorem visited_length (nbranch : Option Nat) (l : List Cand) : (visited nbranch l).length ≤ l.length := by
  have h0 := (List.perm_insertionSort (fun a b : Cand => a.le b = true) l).length_eq
  unfold visited
  cases nbranch with
  | none => exact h0.le
  | some k => simp only [List.length_take]; omega

theorem branchIter_kept (ho : OrderOK order) (fuel : Nat) (nd : SearchNode) (hnd : GoodPath n nd) (hcard : 0 < nd.remaining.card) (sz : Nat)
    (st st' : BBSt)
    (hleaf : nd.remaining.card = 1 → better cfg.bySize nd.flops sz st.flops st.size = true)
    (hrun : branchIter cfg size out mem order fuel nd sz st = some st') : Kept cfg.bySize st st' := by
  induction fuel generalizing nd sz st st' with
  | zero =>
    rw [branchIter] at hrun
    split at hrun
    · rename_i h1
      cases hrun
      exact Or.inr (hleaf h1)
    · cases hrun
  | succ fuel ih =>
    rw [branchIter] at hrun
    split at hrun
    · rename_i h1
      cases hrun
      exact Or.inr (hleaf h1)
    rename_i h1
    simp only at hrun
    obtain ⟨b1, b2, b3⟩ := candidates_kept (cfg := cfg) (size := size) (out := out) (mem := mem) ho nd sz st
    generalize candidates cfg size out mem order nd sz st = r at b1 b2 b3 hrun
    obtain ⟨cands, s⟩ := r
    simp only at b1 b2 b3 hrun
    refine b1.trans ?_
    have hv : ∀ c ∈ visited cfg.nbranch cands, c ∈ cands := fun c hc => mem_visited hc
    have hvl := visited_length cfg.nbranch cands
    generalize visited cfg.nbranch cands = l at hv hvl hrun
    have hchild : ∀ (t t' : BBSt), ∀ c ∈ cands, (nd.remaining.card = 2 → t.flops = s.flops ∧ t.size = s.size) →
        branchIter cfg size out mem order fuel (nd.child c.i c.j c.k12 c.newFlops) c.newSize t = some t' → Kept cfg.bySize t t' := by
      intro t t' c hc h2 hr
      obtain ⟨hi, hj, hij⟩ := b2 c hc
      have hcc := child_remaining_card hnd hi hj hij c.k12 c.newFlops
      refine ih _ (goodPath_child hnd hi hj hij c.k12 c.newFlops) (by omega) _ _ _ (fun h => ?_) hr
      have h22 : nd.remaining.card = 2 := by omega
      obtain ⟨e1, e2⟩ := h2 h22
      rw [e1, e2]
      exact (b3 h22).2 c hc
    by_cases h2 : nd.remaining.card = 2
    · match l, hvl.trans (b3 h2).1 with
      | [], _ => cases hrun; exact Kept.refl _ _
      | [c], _ =>
        rw [List.foldlM_cons] at hrun
        cases hr : branchIter cfg size out mem order fuel (nd.child c.i c.j c.k12 c.newFlops) c.newSize s with
        | none => rw [hr] at hrun; cases hrun
        | some t =>
          rw [hr] at hrun
          cases hrun
          exact hchild s _ c (hv c (by simp)) (fun _ => ⟨rfl, rfl⟩) hr
    · have hall : ∀ (l : List Cand) (t : BBSt), (∀ c ∈ l, c ∈ cands) →
          l.foldlM (fun st c => branchIter cfg size out mem order fuel (nd.child c.i c.j c.k12 c.newFlops) c.newSize st) t = some st' →
          Kept cfg.bySize t st' := by
        intro l
        induction l with
        | nil => intro t _ h; cases h; exact Kept.refl _ _
        | cons c cs ihl =>
          intro t hl h
          rw [List.foldlM_cons] at h
          cases hr : branchIter cfg size out mem order fuel (nd.child c.i c.j c.k12 c.newFlops) c.newSize t with
          | none => rw [hr] at h; cases h
          | some u =>
            rw [hr] at h
            exact (hchild t u c (hl c (by simp)) (fun h => absurd h h2) hr).trans (ihl u (fun x hx => hl x (by simp [hx])) h)
      exact hall l s hv hrun
end

/-! ## Histories of calls -/

/-- `optimizer.best` without the path (paths.py:366, 408-409). -/
def recordOf (st : BBSt) : Record := ⟨st.flops, st.size⟩

/-- As `branchCalls`, with `optimizer.best` after each call. -/
def branchRecords (cfg : BBCfg) (fuel : Nat) (size : Nat → Nat) (inputs : List (Finset Nat)) (output : Finset Nat) :
    List (Option Nat × SetOrder) → BBSt → Option (List (Except PyErr Path × Record))
  | [], _ => some []
  | (mem, order) :: rest, st => do
    let r ← branchCall cfg fuel size mem order inputs output st
    let rs ← branchRecords cfg fuel size inputs output rest r.2
    pure ((r.1, recordOf r.2) :: rs)

theorem before_iff {b : Bool} {s t : BBSt} : Record.Before b (recordOf t) (recordOf s) ↔ better b t.flops t.size s.flops s.size = true := by
  unfold Record.Before better recordOf
  cases b <;> simp [Prod.Lex.toLex_lt_toLex]

section
variable {cfg : BBCfg} {size : Nat → Nat} {output : Finset Nat} {inputs : List (Finset Nat)} {fuel : Nat}

/-- One call. -/
theorem branchCall_kept {mem : Option Nat} {order : SetOrder} (ho : OrderOK order) (h2 : 2 ≤ inputs.length) {st st' : BBSt} {r : Except PyErr Path}
    (h : branchCall cfg fuel size mem order inputs output st = some (r, st')) : Kept cfg.bySize st st' := by
  unfold branchCall at h
  obtain ⟨s, h1, h3⟩ := Option.map_eq_some_iff.mp h
  cases h3
  exact Kept.trans (t := { st with cache := [] }) (Or.inl ⟨rfl, rfl, rfl⟩)
    (branchIter_kept ho fuel (rootNode inputs) (goodPath_root inputs) (by simp [rootNode]; omega) 0 _ _ (by simp [rootNode]; omega) h1)

/-- What a relation that holds along calls says about a history. -/
theorem history_rule (R : BBSt → BBSt → Prop) (hR : ∀ s t u, R s t → R t u → R s u) (Inv : BBSt → Prop) (Q : BBSt → Except PyErr Path → Prop)
    (calls : List (Option Nat × SetOrder))
    (hstep : ∀ c ∈ calls, ∀ st, Inv st → ∃ r st', branchCall cfg fuel size c.1 c.2 inputs output st = some (r, st') ∧ Inv st' ∧ R st st' ∧ Q st' r)
    (st : BBSt) (hst : Inv st) :
    ∃ l : List (Except PyErr Path × BBSt), branchRecords cfg fuel size inputs output calls st = some (l.map (fun x => (x.1, recordOf x.2))) ∧
      branchCalls cfg fuel size inputs output calls st = some (l.map Prod.fst) ∧
      l.length = calls.length ∧ (∀ x ∈ l, Inv x.2 ∧ R st x.2 ∧ Q x.2 x.1) ∧ l.Pairwise (fun a b => R a.2 b.2) := by
  induction calls generalizing st with
  | nil => exact ⟨[], rfl, rfl, rfl, by simp, List.Pairwise.nil⟩
  | cons c cs ih =>
    obtain ⟨r, st', h1, h2, h3, h4⟩ := hstep c (by simp) st hst
    obtain ⟨l, g1, g1', g2, g3, g4⟩ := ih (fun x hx => hstep x (by simp [hx])) st' h2
    refine ⟨(r, st') :: l, ?_, ?_, by simp [g2], ?_, List.Pairwise.cons (fun x hx => (g3 x hx).2.1) g4⟩
    · simp only [branchRecords, h1, bind, Option.bind, g1, pure, List.map_cons]
    · simp only [branchCalls, h1, bind, Option.bind, g1', pure, List.map_cons]
    · intro x hx
      rcases List.mem_cons.mp hx with rfl | hx
      · exact ⟨h2, h3, h4⟩
      · obtain ⟨a, b, c⟩ := g3 x hx
        exact ⟨a, hR _ _ _ h3 b, c⟩

end

/-- **C77.** In any sequence of calls of a `BranchBound` instance with the same network (of at least two inputs, with or without
hyperedges), with any options, memory limits and set iteration orders, every call succeeds, and each later call returns the path of
the earlier one with the same figures in `optimizer.best`, or a path with strictly better figures. -/
theorem C77_history (cfg : BBCfg) (hb : cfg.nbranch ≠ some 0) (size : Nat → Nat) (output : Finset Nat) {inputs : List (Finset Nat)}
    (h2 : 2 ≤ inputs.length) {fuel : Nat} (hfuel : inputs.length ≤ fuel) (calls : List (Option Nat × SetOrder)) (ho : ∀ c ∈ calls, OrderOK c.2) :
    ∃ rs, branchRecords cfg fuel size inputs output calls BBSt.fresh = some rs ∧ rs.length = calls.length ∧
      (∀ r ∈ rs, ∃ path, r.1 = .ok path ∧ CompletePath inputs.length path) ∧
      rs.Pairwise (fun a b => b = a ∨ Record.Before cfg.bySize b.2 a.2) := by
  have hne : inputs ≠ [] := by rintro rfl; simp at h2
  obtain ⟨l, g1, _, g2, g3, g4⟩ := history_rule (cfg := cfg) (size := size) (output := output) (inputs := inputs) (fuel := fuel)
    (Kept cfg.bySize) (fun _ _ _ => Kept.trans) (BBReady inputs.length)
    (fun st r => ∃ p path, st.path = some p ∧ ssaToLinear p = .ok path ∧ r = .ok path ∧ CompletePath inputs.length path) calls
    (by
      intro c hc st hst
      obtain ⟨path, st', p, h1, h2', h3, _, h5, _, h7⟩ := branchCall_complete cfg size c.1 (ho c hc) hb output hne hfuel hst
      exact ⟨_, st', h1, h2', branchCall_kept (ho c hc) h2 h1, p, path, h3, h5, rfl, h7 h2⟩)
    BBSt.fresh (fresh_ready _)
  refine ⟨_, g1, by simpa using g2, ?_, ?_⟩
  · intro r hr
    obtain ⟨x, hx, rfl⟩ := List.mem_map.mp hr
    obtain ⟨_, _, p, path, _, _, h, h'⟩ := g3 x hx
    exact ⟨path, h, h'⟩
  · rw [List.pairwise_map]
    refine g4.imp_of_mem ?_
    rintro ⟨ra, a⟩ ⟨rb, b⟩ ha hb' h
    obtain ⟨_, _, p, path, e1, e2, e3, _⟩ := g3 _ ha
    obtain ⟨_, _, q, path', f1, f2, f3, _⟩ := g3 _ hb'
    simp only at e1 e3 f1 f3 h ⊢
    rcases h with ⟨h0, h1, h3⟩ | h
    · left
      rw [h0, e1] at f1
      cases f1
      rw [e2] at f2
      cases f2
      rw [e3, f3]
      simp only [recordOf, h1, h3]
    · exact Or.inr (before_iff.mpr h)

/-- **C77 (partial).** In a network without hyperedges, of any number of calls without memory limit, each later one returns the path of
the earlier one or a strictly better path: cheaper or, at equal cost, of smaller largest intermediate (the other way round with
`minimize='size'`).

Missing: networks with hyperedges and calls under a limit, for which the claim is false (`C77_counterexample_hyperedge`,
`C77_counterexample_limit`). -/
theorem C77_never_worse_partial {ins : List (Finset Nat)} {out : Finset Nat} (hh : NoHyperEdges ins out) (cfg : BBCfg)
    (hb : cfg.nbranch ≠ some 0) (size : Nat → Nat) (h2 : 2 ≤ ins.length) {fuel : Nat} (hfuel : ins.length ≤ fuel) (orders : List SetOrder)
    (ho : ∀ o ∈ orders, OrderOK o) :
    ∃ paths : List Path, branchCalls cfg fuel size ins out (orders.map (fun o => (none, o))) BBSt.fresh = some (paths.map Except.ok) ∧
      (∀ p ∈ paths, CompletePath ins.length p ∧ Pairwise2 p) ∧
      paths.Pairwise (fun p q => q = p ∨ LexLess cfg.bySize (searchFlops size out ins q) (peak size out ins q)
        (searchFlops size out ins p) (peak size out ins p)) := by
  have hne : ins ≠ [] := by rintro rfl; simp at h2
  obtain ⟨l, _, g1, _, g3, g4⟩ := history_rule (cfg := cfg) (size := size) (output := out) (inputs := ins) (fuel := fuel)
    (Kept cfg.bySize) (fun _ _ _ => Kept.trans) (fun st => BBReady ins.length st ∧ BBTrue size ins out st)
    (fun st r => ∃ p path, st.path = some p ∧ ssaToLinear p = .ok path ∧ r = .ok path ∧ CompletePath ins.length path)
    (orders.map (fun o => (none, o)))
    (by
      intro c hc st hst
      obtain ⟨o, hom, rfl⟩ := List.mem_map.mp hc
      obtain ⟨path, st', p, h1, h2', h3, _, h5, _, h7⟩ := branchCall_complete cfg size none (ho o hom) hb out hne hfuel hst.1
      refine ⟨_, st', h1, ⟨h2', ?_⟩, branchCall_kept (ho o hom) h2 h1, p, path, h3, h5, rfl, h7 h2⟩
      have hroot : NodeTrue size ins out (tags ins.length) (rootNode ins) 0 :=
        { good_root with pairwise := by intro p hp; simp [rootNode] at hp, peak := rfl }
      have hst' : BBTrue size ins out { st with cache := [] } := ⟨cacheInv_nil, hst.2.progress, hst.2.none, hst.2.best⟩
      obtain ⟨s, e1, e2, _⟩ := branchIter_true (cfg := cfg) (cacheSafe_of_noHyper hh) (ho o hom) fuel (rootNode ins) _ 0 hroot
        (by simp [rootNode]; omega) (by simp [rootNode]; omega) { st with cache := [] } hst' (by simp [rootNode]; omega)
      unfold branchCall at h1
      rw [e1] at h1
      simp only [Option.map_some, Option.some.injEq, Prod.mk.injEq] at h1
      rw [← h1.2]
      exact e2)
    BBSt.fresh ⟨fresh_ready _, ⟨cacheInv_nil, by simp [BBSt.fresh, Dict.get?], fun _ => ⟨rfl, rfl⟩, by simp [BBSt.fresh]⟩⟩
  have hfig : ∀ x ∈ l, ∃ p path, x.2.path = some p ∧ ssaToLinear p = .ok path ∧ x.1 = .ok path ∧ CompletePath ins.length path ∧ Pairwise2 path ∧
      x.2.flops = (searchFlops size out ins path : Nat) ∧ x.2.size = (peak size out ins path : Nat) := by
    intro x hx
    obtain ⟨⟨_, ht⟩, _, p, path, e1, e2, e3, e4⟩ := g3 x hx
    obtain ⟨b1, b2, b3, b4⟩ := ht.best p e1
    obtain ⟨q, f1, f2, _, f4, f5⟩ := C11_ssa_to_linear b4 (ssaComplete_ne_nil b4 h2)
    rw [e2] at f1
    cases f1
    obtain ⟨l1, l2⟩ := lin_figures (size := size) (out := out) f2 (f5 Tag combineTag (tags ins.length) (tags_length _)).1
    exact ⟨p, path, e1, e2, e3, e4, pairwise_of_lengths f4 b3, by rw [l1]; exact b1, by rw [l2]; exact b2⟩
  have hpaths : l.map Prod.fst = (l.map (fun x => match x.1 with | .ok p => p | .error _ => [])).map Except.ok := by
    rw [List.map_map]
    apply List.map_congr_left
    intro x hx
    obtain ⟨_, path, _, _, e3, _⟩ := hfig x hx
    simp only [Function.comp, e3]
  refine ⟨l.map (fun x => match x.1 with | .ok p => p | .error _ => []), by rw [g1, hpaths], ?_, ?_⟩
  · intro p hp
    obtain ⟨x, hx, rfl⟩ := List.mem_map.mp hp
    obtain ⟨_, path, _, _, e3, e4, e5, _⟩ := hfig x hx
    simp only [e3]
    exact ⟨e4, e5⟩
  · rw [List.pairwise_map]
    refine g4.imp_of_mem ?_
    intro a b ha hb' h
    obtain ⟨p, path, e1, e2, e3, _, _, e6, e7⟩ := hfig a ha
    obtain ⟨q, path', f1, f2, f3, _, _, f6, f7⟩ := hfig b hb'
    simp only [e3, f3]
    rcases h with ⟨h0, _, _⟩ | h
    · left
      rw [h0, e1] at f1
      cases f1
      rw [e2] at f2
      cases f2
      rfl
    · right
      rw [lexLess_better, ← e6, ← e7, ← f6, ← f7]
      exact h

/-- Sizes of the labels, in the order of the labels. -/
def listSize (l : List Nat) : Nat → Nat := fun c => l.getD c 1

-- C77: 'acd,bd,bc,->' with sizes 5, 4, 2, 5: branch-1 called twice finds a path of 417 operations, then one of 181
example : branchCalls (bbDefault (some 1)) 4 (listSize [5, 4, 2, 5]) [{0, 2, 3}, {1, 3}, {1, 2}, ∅] ∅ [(none, ascending), (none, ascending)] BBSt.fresh =
      some [.ok [[0, 1], [0, 2], [0, 1]], .ok [[1, 2], [0, 2], [0, 1]]] ∧
    searchFlops (listSize [5, 4, 2, 5]) ∅ [{0, 2, 3}, {1, 3}, {1, 2}, ∅] [[0, 1], [0, 2], [0, 1]] = 417 ∧
    searchFlops (listSize [5, 4, 2, 5]) ∅ [{0, 2, 3}, {1, 3}, {1, 2}, ∅] [[1, 2], [0, 2], [0, 1]] = 181 := by
  decide +kernel
-- 'abe,,bcd,ce->d' with sizes 6, 5, 3, 4, 1: so does branch-all, with 304 and 190
example : branchCalls (bbDefault none) 4 (listSize [6, 5, 3, 4, 1]) [{0, 1, 4}, ∅, {1, 2, 3}, {2, 4}] {3} [(none, ascending), (none, ascending)] BBSt.fresh =
      some [.ok [[0, 3], [1, 2], [0, 1]], .ok [[2, 3], [0, 1], [0, 1]]] ∧
    searchFlops (listSize [6, 5, 3, 4, 1]) {3} [{0, 1, 4}, ∅, {1, 2, 3}, {2, 4}] [[0, 3], [1, 2], [0, 1]] = 304 ∧
    searchFlops (listSize [6, 5, 3, 4, 1]) {3} [{0, 1, 4}, ∅, {1, 2, 3}, {2, 4}] [[2, 3], [0, 1], [0, 1]] = 190 := by
  decide +kernel
-- the hypotheses of both parts
example : NoHyperEdges [{0, 1, 4}, ∅, {1, 2, 3}, {2, 4}] {3} := noHyper_of_inputs (by decide)

/-- **The claim is false with hyperedges**: for 'abc,bc,c,b->' with sizes 7, 3, 1 the first call of `branch-all` returns a path of 29
operations and the second call one of 47, of the same largest intermediate. -/
theorem C77_counterexample_hyperedge :
    branchCalls (bbDefault none) 4 (listSize [7, 3, 1]) [{0, 1, 2}, {1, 2}, {2}, {1}] ∅ [(none, ascending), (none, ascending)] BBSt.fresh =
      some [.ok [[0, 1], [1, 2], [0, 1]], .ok [[1, 3], [0, 2], [0, 1]]] ∧
    searchFlops (listSize [7, 3, 1]) ∅ [{0, 1, 2}, {1, 2}, {2}, {1}] [[0, 1], [1, 2], [0, 1]] = 29 ∧
    searchFlops (listSize [7, 3, 1]) ∅ [{0, 1, 2}, {1, 2}, {2}, {1}] [[1, 3], [0, 2], [0, 1]] = 47 ∧
    peak (listSize [7, 3, 1]) ∅ [{0, 1, 2}, {1, 2}, {2}, {1}] [[0, 1], [1, 2], [0, 1]] =
      peak (listSize [7, 3, 1]) ∅ [{0, 1, 2}, {1, 2}, {2}, {1}] [[1, 3], [0, 2], [0, 1]] := by
  decide +kernel

/-- **A new memory limit may be ignored**: an instance that was called without limit for 'ab,bc,cd->ad' with sizes 10, 2, 10, 2, and is
called again with `memory_limit=3`, returns the path it found before, with an intermediate of 4 elements. A new instance keeps to the
limit. -/
theorem C77_counterexample_limit :
    branchCalls (bbDefault none) 3 (listSize [10, 2, 10, 2]) chainNet {0, 3} [(none, ascending), (some 3, ascending)] BBSt.fresh =
      some [.ok [[1, 2], [0, 1]], .ok [[1, 2], [0, 1]]] ∧
    resultSizes (listSize [10, 2, 10, 2]) {0, 3} chainNet [[1, 2], [0, 1]] = [4, 20] ∧
    branchCalls (bbDefault none) 3 (listSize [10, 2, 10, 2]) chainNet {0, 3} [(some 3, ascending)] BBSt.fresh = some [.ok [[0, 1, 2]]] := by
  decide +kernel

/-- **Lifting a limit may give a worse path**: for 'ad,b,abd->d' with sizes 2, 3, 1, 7, `nbranch=1`, a call with `memory_limit=12` returns
the contraction of all at once, and a call without limit then a path of as many operations and a larger intermediate. (The size of the
first path is not recorded, paths.py:443-445.) -/
theorem C77_counterexample_lifted :
    branchCalls (bbDefault (some 1)) 3 (listSize [2, 3, 1, 7]) [{0, 3}, {1}, {0, 1, 3}] {3} [(some 12, ascending), (none, ascending)] BBSt.fresh =
      some [.ok [[0, 1, 2]], .ok [[0, 2], [0, 1]]] ∧
    searchFlops (listSize [2, 3, 1, 7]) {3} [{0, 3}, {1}, {0, 1, 3}] [[0, 1, 2]] = 126 ∧
    searchFlops (listSize [2, 3, 1, 7]) {3} [{0, 3}, {1}, {0, 1, 3}] [[0, 2], [0, 1]] = 126 ∧
    peak (listSize [2, 3, 1, 7]) {3} [{0, 3}, {1}, {0, 1, 3}] [[0, 1, 2]] = 7 ∧
    peak (listSize [2, 3, 1, 7]) {3} [{0, 3}, {1}, {0, 1, 3}] [[0, 2], [0, 1]] = 21 := by
  decide +kernel

end OE.Props
