import Verif.Spec.CostFunction
import Verif.Props.CustomOptimizer
import Verif.Props.NoCutoff

/-!
# C99: what `cost_fn` may be
-/

namespace OE.Props
open OE OE.Py OE.Spec OE.Parser OE.Helpers OE.Contract OE.Paths OE.Registry

section
variable {costE : CostFnE} {cost : CostFn} {cfg : GCfg}

/-- The first computation does as the second one, or raises what the cost function raises. -/
def Sim {α : Type} (costE : CostFnE) (x y : Except PyErr α) : Prop := x = y ∨ ∃ e, CostRaises costE e ∧ x = .error e

theorem Sim.rfl {α : Type} {x : Except PyErr α} : Sim costE x x := Or.inl _root_.rfl

theorem Sim.bind {α β : Type} {x y : Except PyErr α} {f g : α → Except PyErr β} (h : Sim costE x y) (hf : ∀ a, Sim costE (f a) (g a)) :
    Sim costE (x.bind f) (y.bind g) := by
  rcases h with rfl | ⟨e, he, rfl⟩
  · cases x with
    | error e => exact Sim.rfl
    | ok a => exact hf a
  · exact Or.inr ⟨e, he, _root_.rfl⟩

theorem Sim.mapM {α β : Type} {f g : α → Except PyErr β} (hf : ∀ a, Sim costE (f a) (g a)) (l : List α) : Sim costE (l.mapM f) (l.mapM g) := by
  induction l with
  | nil => exact Sim.rfl
  | cons a l ih =>
    rw [List.mapM_cons, List.mapM_cons]
    exact (hf a).bind fun b => ih.bind fun bs => Sim.rfl

/-- `cost` is `costE` where that returns. -/
def Extends (cost : CostFn) (costE : CostFnE) : Prop := ∀ p a b c x y z v, costE p a b c x y z = .ok v → cost p a b c x y z = v

theorem getCandidate_sim (h : Extends cost costE) (hcfg : cfg.cost = cost) (st : GSt) (seed : Path) (k1 k2 : Finset Nat) :
    Sim costE (getCandidateE cfg costE st seed k1 k2) (getCandidate cfg st seed k1 k2) := by
  unfold getCandidateE getCandidate
  simp only [bind, Except.bind]
  generalize ((k1 ∪ k2) ∩ cfg.output) ∪ ((k1 ∩ k2) ∩ st.ref3) ∪ (((k1 ∪ k2) \ (k1 ∩ k2)) ∩ st.ref2) = k12
  cases hc : costE seed (Paths.sizeOf cfg.size k12) (Paths.sizeOf cfg.size k1) (Paths.sizeOf cfg.size k2) k12 k1 k2 with
  | error e => exact Or.inr ⟨e, ⟨_, _, _, _, _, _, _, hc⟩, rfl⟩
  | ok v =>
    rw [hcfg, h _ _ _ _ _ _ _ _ hc]
    exact Sim.rfl

theorem pushCandidate_sim (h : Extends cost costE) (hcfg : cfg.cost = cost) (st : GSt) (k1 : Finset Nat) (k2s : List (Finset Nat)) :
    Sim costE (pushCandidateE cfg costE st k1 k2s) (pushCandidate cfg st k1 k2s) := by
  unfold pushCandidateE pushCandidate
  have hm := Sim.mapM (costE := costE) (f := fun p : Finset Nat × Nat => getCandidateE cfg costE st (st.path ++ [[st.queue.length, p.2]]) k1 p.1)
    (g := fun p : Finset Nat × Nat => getCandidate cfg st (st.path ++ [[st.queue.length, p.2]]) k1 p.1)
    (fun p => getCandidate_sim h hcfg st _ k1 p.1) k2s.zipIdx
  generalize k2s.zipIdx.mapM (fun p : Finset Nat × Nat => getCandidateE cfg costE st (st.path ++ [[st.queue.length, p.2]]) k1 p.1) = x at hm ⊢
  generalize k2s.zipIdx.mapM (fun p : Finset Nat × Nat => getCandidate cfg st (st.path ++ [[st.queue.length, p.2]]) k1 p.1) = y at hm ⊢
  exact hm.bind (fun _ => Sim.rfl)

theorem initPush_sim (h : Extends cost costE) (hcfg : cfg.cost = cost) (l : List (Finset Nat)) : ∀ st,
    Sim costE (initPushE cfg costE l st) (initPush cfg l st) := by
  induction l with
  | nil => exact fun _ => Sim.rfl
  | cons k1 ks ih =>
    intro st
    cases ks with
    | nil => exact Sim.rfl
    | cons k2 ks => exact (pushCandidate_sim h hcfg st k1 (k2 :: ks)).bind fun st => ih st

theorem initQueue_sim (h : Extends cost costE) (hcfg : cfg.cost = cost) (ds : List Nat) : ∀ st,
    Sim costE (initQueueE cfg costE ds st) (initQueue cfg ds st) := by
  induction ds with
  | nil => exact fun _ => Sim.rfl
  | cons d ds ih => exact fun st => (initPush_sim h hcfg _ st).bind fun st => ih st

theorem greedyStep_sim (h : Extends cost costE) (hcfg : cfg.cost = cost) (chooser : Chooser) (order : GOrder) (st : GSt) :
    Sim costE (greedyStepE cfg costE chooser order st) (greedyStep cfg chooser order st) := by
  unfold greedyStepE greedyStep
  generalize chooser st.path st.queue st.remaining = c
  obtain ⟨c, q⟩ := c
  cases c with
  | none => exact Sim.rfl
  | some c =>
    refine Sim.bind Sim.rfl fun st => ?_
    unfold pushNewE pushNew
    simp only
    split
    · exact Sim.rfl
    · exact pushCandidate_sim h hcfg st _ _

/-- The same with fuel: as the second computation, or what the cost function raises. -/
def SimO {α : Type} (costE : CostFnE) (x y : Option (Except PyErr α)) : Prop := x = y ∨ ∃ e, CostRaises costE e ∧ x = some (.error e)

theorem greedyLoop_sim (h : Extends cost costE) (hcfg : cfg.cost = cost) (chooser : Chooser) (order : GOrder) (fuel : Nat) : ∀ st,
    SimO costE (greedyLoopE cfg costE chooser order fuel st) (greedyLoop cfg chooser order fuel st) := by
  induction fuel with
  | zero => exact fun st => Or.inl (by rw [greedyLoopE.eq_def, greedyLoop.eq_def])
  | succ fuel ih =>
    intro st
    rw [greedyLoopE.eq_def, greedyLoop.eq_def]
    simp only
    by_cases hq : st.queue = []
    · rw [if_pos hq, if_pos hq]; exact Or.inl rfl
    · rw [if_neg hq, if_neg hq]
      rcases greedyStep_sim h hcfg chooser order st with e | ⟨e, he, e1⟩
      · rw [e]
        cases greedyStep cfg chooser order st with
        | error e => exact Or.inl rfl
        | ok st => exact ih st
      · rw [e1]
        exact Or.inr ⟨e, he, rfl⟩

end

theorem finalPhase_cost (cfg : GCfg) (cost : CostFn) (st : GSt) : finalPhase { cfg with cost := cost } st = finalPhase cfg st := by
  unfold finalPhase
  simp only
  split
  · rfl
  · rename_i e q he
    clear he
    congr 1
    generalize q.length = n
    generalize st.next = next
    generalize st.path = path
    induction n generalizing e q next path with
    | zero => rfl
    | succ n ih =>
      simp only [finalLoop]
      split
      · rfl
      · split
        · rfl
        · exact ih _ _ _ _

/-- The configuration's own cost function does not matter to the search with one that may raise. -/
theorem initQueueE_cost (cfg : GCfg) (cost : CostFn) (costE : CostFnE) (ds : List Nat) (st : GSt) :
    initQueueE { cfg with cost := cost } costE ds st = initQueueE cfg costE ds st := by
  have hp : ∀ l st, initPushE { cfg with cost := cost } costE l st = initPushE cfg costE l st := by
    intro l
    induction l with
    | nil => exact fun _ => rfl
    | cons k ks ih =>
      intro st
      cases ks with
      | nil => rfl
      | cons k2 ks =>
        simp only [initPushE]
        have : pushCandidateE { cfg with cost := cost } costE st k (k2 :: ks) = pushCandidateE cfg costE st k (k2 :: ks) := rfl
        rw [this]
        cases pushCandidateE cfg costE st k (k2 :: ks) with
        | error e => rfl
        | ok st => exact ih st
  induction ds generalizing st with
  | nil => rfl
  | cons d ds ih =>
    simp only [initQueueE]
    rw [hp]
    cases initPushE cfg costE (sortedKeys st.remaining (st.dimKeys d)) st with
    | error e => rfl
    | ok st => exact ih st

theorem greedyLoopE_cost (cfg : GCfg) (cost : CostFn) (costE : CostFnE) (chooser : Chooser) (order : GOrder) (fuel : Nat) : ∀ st,
    greedyLoopE { cfg with cost := cost } costE chooser order fuel st = greedyLoopE cfg costE chooser order fuel st := by
  have hs : ∀ st, greedyStepE { cfg with cost := cost } costE chooser order st = greedyStepE cfg costE chooser order st := fun _ => rfl
  induction fuel with
  | zero => intro st; rw [greedyLoopE.eq_def, greedyLoopE.eq_def]
  | succ fuel ih =>
    intro st
    rw [greedyLoopE.eq_def, greedyLoopE.eq_def]
    simp only [hs]
    by_cases hq : st.queue = []
    · rw [if_pos hq, if_pos hq]
    · rw [if_neg hq, if_neg hq]
      cases greedyStepE cfg costE chooser order st with
      | error e => rfl
      | ok st => exact ih st

/-- **C99, cost functions of the user.** Whatever the cost function does, `ssa_greedy_optimize` does what it does for a cost function with the same
values that never raises (so by C16 it returns a complete path), or raises an exception of the cost function. -/
theorem C99_user_function (fuel : Nat) (size : Nat → Nat) {costE : CostFnE} {cost : CostFn} (h : Extends cost costE) (chooser : Option Chooser)
    (order : GOrder) (inputs : List (Finset Nat)) (output : Finset Nat) :
    ssaGreedyE fuel size costE chooser order inputs output = ssaGreedy fuel size cost chooser order inputs output ∨
    ∃ e, CostRaises costE e ∧ ssaGreedyE fuel size costE chooser order inputs output = some (.error e) := by
  match inputs with
  | [] => exact Or.inl rfl
  | [_] => exact Or.inl rfl
  | k :: k' :: ks =>
    simp only [ssaGreedyE, ssaGreedy]
    generalize output ∪ (k' :: ks).foldl (· ∩ ·) k = out
    have h1 := initQueueE_cost { size, cost := fun _ _ _ _ _ _ _ => 0, output := out, pushAll := chooser.isSome } cost costE
    have h2 := greedyLoopE_cost { size, cost := fun _ _ _ _ _ _ _ => 0, output := out, pushAll := chooser.isSome } cost costE
    have h3 := finalPhase_cost { size, cost := fun _ _ _ _ _ _ _ => 0, output := out, pushAll := chooser.isSome } cost
    simp only at h1 h2 h3
    simp only [← h1, ← h2, ← h3]
    generalize hcfg : ({ size, cost, output := out, pushAll := chooser.isSome } : GCfg) = cfg
    have hc : cfg.cost = cost := by rw [← hcfg]
    rcases initQueue_sim h hc (order.dims ((greedyStart out (k :: k' :: ks)).remaining.keys.foldl (fun s key => s ∪ key \ out) ∅))
      (greedyStart out (k :: k' :: ks)) with e | ⟨e, he, e1⟩
    · rw [e]
      cases initQueue cfg (order.dims ((greedyStart out (k :: k' :: ks)).remaining.keys.foldl (fun s key => s ∪ key \ out) ∅))
        (greedyStart out (k :: k' :: ks)) with
      | error e => exact Or.inl rfl
      | ok st =>
        simp only
        rcases greedyLoop_sim h hc (chooser.getD simpleChooser) order fuel st with e | ⟨e, he, e1⟩
        · rw [e]; exact Or.inl rfl
        · rw [e1]; exact Or.inr ⟨e, he, rfl⟩
    · rw [e1]; exact Or.inr ⟨e, he, rfl⟩

/-- **C99, functions that return.** -/
theorem C99_total_function (fuel : Nat) (size : Nat → Nat) (cost : CostFn) (chooser : Option Chooser)
    (order : GOrder) (inputs : List (Finset Nat)) (output : Finset Nat) :
    ssaGreedyE fuel size (fun p a b c x y z => .ok (cost p a b c x y z)) chooser order inputs output =
      ssaGreedy fuel size cost chooser order inputs output := by
  rcases C99_user_function fuel size (costE := fun p a b c x y z => .ok (cost p a b c x y z)) (cost := cost)
    (fun p a b c x y z v hv => Except.ok.inj hv) chooser order inputs output with h | ⟨e, ⟨p, a, b, c, x, y, z, he⟩, -⟩
  · exact h
  · cases he

/-! ## Functions that always raise, and strings that name no cost function -/

theorem dedupLoop_keys (ks : List (Finset Nat)) : ∀ (i : Nat) (st : GSt), st.remaining.keys.Nodup →
    ∀ k, k ∈ (dedupLoop ks i st).remaining.keys ↔ k ∈ ks ∨ k ∈ st.remaining.keys := by
  induction ks with
  | nil => intro i st _ k; simp [dedupLoop]
  | cons key ks ih =>
    intro i st hn k
    rw [dedupLoop]
    have hstep : (dedupStep st key i).remaining.keys.Nodup ∧ ∀ k, k ∈ (dedupStep st key i).remaining.keys ↔ k = key ∨ k ∈ st.remaining.keys := by
      unfold dedupStep
      split
      · exact ⟨Dict.keys_set_nodup hn _ _, fun k => Dict.mem_keys_set hn⟩
      · exact ⟨Dict.keys_set_nodup hn _ _, fun k => Dict.mem_keys_set hn⟩
    rw [ih (i + 1) _ hstep.1 k, hstep.2 k, List.mem_cons]
    tauto

theorem greedyStart_keys (out : Finset Nat) (ins : List (Finset Nat)) (k : Finset Nat) : k ∈ (greedyStart out ins).remaining.keys ↔ k ∈ ins := by
  show k ∈ (dedupLoop ins 0 _).remaining.keys ↔ _
  rw [dedupLoop_keys _ _ _ (by simp [Dict.keys])]
  simp [Dict.keys]

theorem mem_common (ks : List (Finset Nat)) : ∀ (k : Finset Nat) (c : Nat), c ∈ ks.foldl (· ∩ ·) k ↔ ∀ s ∈ k :: ks, c ∈ s := by
  induction ks with
  | nil => intro k c; simp
  | cons a ks ih =>
    intro k c
    rw [List.foldl_cons, ih]
    simp only [List.mem_cons, forall_eq_or_imp, Finset.mem_inter]
    tauto

theorem mem_dims (out : Finset Nat) (keys : List (Finset Nat)) : ∀ (s : Finset Nat) (c : Nat),
    c ∈ keys.foldl (fun s key => s ∪ key \ out) s ↔ c ∈ s ∨ ∃ k ∈ keys, c ∈ k ∧ c ∉ out := by
  induction keys with
  | nil => intro s c; simp
  | cons a keys ih =>
    intro s c
    rw [List.foldl_cons, ih]
    simp only [List.mem_cons, exists_eq_or_imp, Finset.mem_union, Finset.mem_sdiff]
    tauto

section
variable {cfg : GCfg} {costE : CostFnE} {e : PyErr}

theorem pushCandidateE_raises (h : ∀ p a b c x y z, costE p a b c x y z = .error e) (st : GSt) (k1 : Finset Nat) {k2s : List (Finset Nat)} (hne : k2s ≠ []) :
    pushCandidateE cfg costE st k1 k2s = .error e := by
  cases k2s with
  | nil => exact absurd rfl hne
  | cons k2 ks =>
    unfold pushCandidateE
    rw [List.zipIdx_cons, List.mapM_cons]
    have : getCandidateE cfg costE st (st.path ++ [[st.queue.length, 0]]) k1 k2 = .error e := by
      unfold getCandidateE
      simp only [h]
      rfl
    simp only [this]
    rfl

theorem initPushE_raises (h : ∀ p a b c x y z, costE p a b c x y z = .error e) {l : List (Finset Nat)} (hl : 2 ≤ l.length) (st : GSt) :
    initPushE cfg costE l st = .error e := by
  match l, hl with
  | k1 :: k2 :: ks, _ =>
    rw [initPushE, pushCandidateE_raises h st k1 (by simp)]
    rfl

theorem initPush_none {l : List (Finset Nat)} (hl : l.length < 2) (st : GSt) : initPushE cfg costE l st = .ok st ∧ initPush cfg l st = .ok st := by
  match l, hl with
  | [], _ => exact ⟨rfl, rfl⟩
  | [_], _ => exact ⟨rfl, rfl⟩

theorem initQueue_none {st : GSt} : ∀ (ds : List Nat), (∀ d ∈ ds, (sortedKeys st.remaining (st.dimKeys d)).length < 2) →
    initQueueE cfg costE ds st = .ok st ∧ initQueue cfg ds st = .ok st := by
  intro ds
  induction ds with
  | nil => exact fun _ => ⟨rfl, rfl⟩
  | cons d ds ih =>
    intro h
    obtain ⟨h1, h2⟩ := initPush_none (cfg := cfg) (costE := costE) (h d (by simp)) st
    rw [initQueueE, initQueue, h1, h2]
    exact ih (fun d hd => h d (List.mem_cons_of_mem _ hd))

theorem initQueueE_raises (h : ∀ p a b c x y z, costE p a b c x y z = .error e) {st : GSt} : ∀ (ds : List Nat),
    (∃ d ∈ ds, 2 ≤ (sortedKeys st.remaining (st.dimKeys d)).length) → initQueueE cfg costE ds st = .error e := by
  intro ds
  induction ds with
  | nil => rintro ⟨d, hd, -⟩; cases hd
  | cons d ds ih =>
    intro hex
    rw [initQueueE]
    by_cases h2 : 2 ≤ (sortedKeys st.remaining (st.dimKeys d)).length
    · rw [initPushE_raises h h2]; rfl
    · rw [(initPush_none (by omega) st).1]
      refine ih ?_
      obtain ⟨d', hd', h'⟩ := hex
      rcases List.mem_cons.mp hd' with rfl | hd'
      · exact absurd h' h2
      · exact ⟨d', hd', h'⟩

end

theorem two_le_sorted {cfg : GCfg} {n : Nat} {st : GSt} (h : GInv cfg n st) (d : Nat) :
    2 ≤ (sortedKeys st.remaining (st.dimKeys d)).length ↔
      d ∉ cfg.output ∧ ∃ k1 ∈ st.remaining.keys, ∃ k2 ∈ st.remaining.keys, k1 ≠ k2 ∧ d ∈ k1 ∧ d ∈ k2 := by
  have hp := sortedKeys_perm st.remaining (st.dimKeys d)
  have hn : (st.remaining.keys.filter (fun k => k ∈ st.dimKeys d)).Nodup := h.keys.filter _
  rw [hp.length_eq, ← List.toFinset_card_of_nodup hn, Nat.succ_le_iff, Finset.one_lt_card]
  simp only [List.mem_toFinset, List.mem_filter, decide_eq_true_eq, h.dims d]
  constructor
  · rintro ⟨a, ⟨ha, h1, h2, -⟩, b, ⟨hb, -, h3, -⟩, hab⟩
    exact ⟨h1, a, ha, b, hb, hab, h2, h3⟩
  · rintro ⟨h1, a, ha, b, hb, hab, h2, h3⟩
    exact ⟨a, ⟨ha, h1, h2, ha⟩, b, ⟨hb, h1, h3, hb⟩, hab⟩

/-- **C99, functions that always raise.** `ssa_greedy_optimize` raises exactly if two operands with different labels have a label in common that is
not in the output and not on all operands; otherwise it never calls the cost function and returns what it returns for any other. -/
theorem C99_always_raises {costE : CostFnE} {e : PyErr} (h : ∀ p a b c x y z, costE p a b c x y z = .error e) (fuel : Nat) (size : Nat → Nat)
    (chooser : Option Chooser) {order : GOrder} (ho : GOrderOK order) (inputs : List (Finset Nat)) (output : Finset Nat) :
    (Contractible inputs output → ssaGreedyE fuel size costE chooser order inputs output = some (.error e)) ∧
    (¬ Contractible inputs output → ∀ cost fuel',
      ssaGreedyE fuel size costE chooser order inputs output = ssaGreedy fuel' size cost chooser order inputs output) := by
  match inputs with
  | [] =>
    refine ⟨?_, fun _ _ _ => rfl⟩
    rintro ⟨c, -, ⟨k, hk, -⟩, -⟩
    cases hk
  | [k] =>
    refine ⟨?_, fun _ _ _ => rfl⟩
    rintro ⟨c, -, -, k1, h1, k2, h2, hne, -⟩
    rw [List.mem_singleton] at h1 h2
    exact absurd (h1.trans h2.symm) hne
  | k :: k' :: ks =>
    have hcon : Contractible (k :: k' :: ks) output ↔ ∃ c, c ∉ output ∪ (k' :: ks).foldl (· ∩ ·) k ∧
        ∃ k1 ∈ k :: k' :: ks, ∃ k2 ∈ k :: k' :: ks, k1 ≠ k2 ∧ c ∈ k1 ∧ c ∈ k2 := by
      unfold Contractible
      refine exists_congr fun c => ?_
      rw [Finset.mem_union, mem_common, not_or]
      push Not
      rw [and_assoc]
    rw [hcon]
    simp only [ssaGreedyE, ssaGreedy]
    generalize output ∪ (k' :: ks).foldl (· ∩ ·) k = out
    have hst : ∀ cfg : GCfg, cfg.output = out → GInv cfg (k :: k' :: ks).length (greedyStart out (k :: k' :: ks)) :=
      fun cfg hc => greedyStart_inv out _ (by simp) hc
    have hkeys := greedyStart_keys out (k :: k' :: ks)
    have hq : (greedyStart out (k :: k' :: ks)).queue = [] := by
      obtain ⟨-, -, h3, -⟩ := dedup_inv (n := (k :: k' :: ks).length) (k :: k' :: ks) 0
        { remaining := [], dimKeys := fun _ => ∅, ref2 := ∅, ref3 := ∅, queue := [], path := [], next := (k :: k' :: ks).length }
        (by simp [Dict.keys]) (by
          simp only [Dict.vals, List.map_nil, List.nil_append]
          rw [← List.range_eq_range']
          exact prefix_nil _)
      exact h3
    generalize greedyStart out (k :: k' :: ks) = st at hst hkeys hq
    constructor
    · rintro ⟨c, hc, k1, h1, k2, h2, hne, hc1, hc2⟩
      rw [initQueueE_raises h]
      refine ⟨c, ?_, ?_⟩
      · rw [(ho.1 _).2, mem_dims]
        exact Or.inr ⟨k1, (hkeys k1).mpr h1, hc1, hc⟩
      · rw [two_le_sorted (hst { size, cost := fun _ _ _ _ _ _ _ => 0, output := out, pushAll := chooser.isSome } rfl)]
        exact ⟨hc, k1, (hkeys k1).mpr h1, k2, (hkeys k2).mpr h2, hne, hc1, hc2⟩
    · intro hno cost fuel'
      have hlt : ∀ d ∈ order.dims (st.remaining.keys.foldl (fun s key => s ∪ key \ out) ∅), (sortedKeys st.remaining (st.dimKeys d)).length < 2 := by
        intro d _
        by_contra hge
        rw [not_lt, two_le_sorted (hst { size, cost := fun _ _ _ _ _ _ _ => 0, output := out, pushAll := chooser.isSome } rfl)] at hge
        obtain ⟨g1, k1, g2, k2, g3, g4⟩ := hge
        exact hno ⟨d, g1, k1, (hkeys k1).mp g2, k2, (hkeys k2).mp g3, g4⟩
      have e1 := (initQueue_none (cfg := { size, cost := fun _ _ _ _ _ _ _ => 0, output := out, pushAll := chooser.isSome }) (costE := costE) _ hlt).1
      have e2 := (initQueue_none (cfg := { size, cost, output := out, pushAll := chooser.isSome }) (costE := costE) _ hlt).2
      rw [e1, e2]
      simp only
      rw [greedyLoopE.eq_def, greedyLoop.eq_def]
      simp only [if_pos hq]
      rw [← finalPhase_cost { size, cost := fun _ _ _ _ _ _ _ => 0, output := out, pushAll := chooser.isSome } cost]

/-! ## `RandomGreedy` -/

/-- A use of a `RandomGreedy` instance made with `cost_fn=arg`. -/
def randomGreedyUse (fuel : Nat) (jitter : Nat → CostFn) (arg : CostArg) (chooser : Nat → Option Chooser) (order : GOrder)
    (maxRepeats : Nat) (preDispatch : Option Nat) (late : Nat → Bool) : ROUse :=
  { maxRepeats, preDispatch, late, trial := trialGreedyE fuel jitter arg chooser order }

/-- No cost function has this name. -/
def UnknownCost (s : Str) : Prop := s ≠ S "memory-removed" ∧ s ≠ S "memory-removed-jitter"

theorem resolve_unknown {s : Str} (hs : UnknownCost s) (jitter : CostFn) : ∀ p a b c x y z, (CostArg.name s).resolve jitter p a b c x y z = .error .type := by
  intro p a b c x y z
  simp only [CostArg.resolve, if_neg hs.1, if_neg hs.2]

/-- **C99, the names.** The two names of cost functions stand for them. -/
theorem C99_known_names (fuel : Nat) (jitter : Nat → CostFn) (chooser : Nat → Option Chooser) (order : GOrder) (size : Nat → Nat)
    (inputs : List (Finset Nat)) (output : Finset Nat) (r : Nat) :
    trialGreedyE fuel jitter (.name (S "memory-removed")) chooser order size inputs output r =
      (trialGreedy fuel size (fun _ => costMemoryRemoved) chooser order inputs output r).getD (.error .stopIteration) ∧
    trialGreedyE fuel jitter (.name (S "memory-removed-jitter")) chooser order size inputs output r =
      (trialGreedy fuel size jitter chooser order inputs output r).getD (.error .stopIteration) := by
  have h1 : (CostArg.name (S "memory-removed")).resolve (jitter r) = fun p a b c x y z => .ok (costMemoryRemoved p a b c x y z) := by
    simp only [CostArg.resolve, if_true]
  have h2 : (CostArg.name (S "memory-removed-jitter")).resolve (jitter r) = fun p a b c x y z => .ok (jitter r p a b c x y z) := by
    have : S "memory-removed-jitter" ≠ S "memory-removed" := by decide
    simp only [CostArg.resolve, if_neg this, if_true]
  unfold trialGreedyE trialGreedy
  rw [h1, h2, C99_total_function, C99_total_function]
  constructor
  · cases ssaGreedy fuel size costMemoryRemoved (if r = 0 then none else chooser r) order inputs output with
    | none => rfl
    | some x =>
      cases x with
      | error e => rfl
      | ok p => rfl
  · cases ssaGreedy fuel size (jitter r) (if r = 0 then none else chooser r) order inputs output with
    | none => rfl
    | some x =>
      cases x with
      | error e => rfl
      | ok p => rfl

/-- **C99, other names.** `RandomGreedy(cost_fn='…')` accepts a string that names no cost function. With it `contract_path` raises `TypeError` for three
operands or more, if two operands with different labels have a label in common that is not in the output and not on all operands. -/
theorem C99_unknown_name {s : Str} (hs : UnknownCost s) (fuel : Nat) (jitter : Nat → CostFn) (chooser : Nat → Option Chooser) {order : GOrder}
    (ho : GOrderOK order) {maxRepeats : Nat} (hm : 0 < maxRepeats) {preDispatch : Option Nat} (hp : preDispatch ≠ some 0) (late : Nat → Bool) (bySize : Bool)
    {size : Nat → Nat} {inputs : List Str} {output : Str} {shapes : List Shape} (hw : WellPosed size inputs output shapes) (hn : 2 < inputs.length)
    {mem : MemLimit} (hmem : ValidMemory mem) (useBlas : Bool) (hc : Contractible (inputs.map List.toFinset) output.toFinset) :
    contractPath inputs output shapes
      (.finder ((randomGreedyUse fuel jitter (.name s) chooser order maxRepeats preDispatch late).finder bySize ROSt.fresh)) mem useBlas = .error .type := by
  obtain ⟨d, m, -, -, hf⟩ := contractPath_finder hw hmem hn
  rw [hf]
  have htrial : ∀ r, trialGreedyE fuel jitter (.name s) chooser order (labelSize d) (inputs.map List.toFinset) output.toFinset r = .error .type := by
    intro r
    unfold trialGreedyE
    rw [(C99_always_raises (resolve_unknown hs (jitter r)) fuel (labelSize d) _ ho _ _).1 hc]
  have hrun : ((randomGreedyUse fuel jitter (.name s) chooser order maxRepeats preDispatch late).finder bySize ROSt.fresh)
      (inputs.map List.toFinset) output.toFinset d m = .error .type := by
    show (roCall bySize maxRepeats preDispatch late (trialGreedyE fuel jitter (.name s) chooser order (labelSize d) _ _) ROSt.fresh).1 = _
    have : ∃ rest, callTrials maxRepeats preDispatch (trialGreedyE fuel jitter (.name s) chooser order (labelSize d) (inputs.map List.toFinset) output.toFinset)
        ROSt.fresh.costs.length = .error .type :: rest := by
      obtain ⟨k, rfl⟩ : ∃ k, maxRepeats = k + 1 := ⟨maxRepeats - 1, by omega⟩
      cases preDispatch with
      | none =>
        simp only [callTrials, List.range'_succ, List.map_cons]
        rw [htrial]
        exact ⟨_, rfl⟩
      | some p =>
        have hp0 : 0 < p := Nat.pos_of_ne_zero (fun e => hp (by rw [e]))
        simp only [callTrials]
        rw [genParallel_eq hp0 _ _ [] (by simp), List.range'_succ, submitted, if_pos (by simpa using hp0)]
        simp only [List.nil_append, List.map_cons]
        rw [htrial]
        exact ⟨_, rfl⟩
    obtain ⟨rest, hrest⟩ := this
    unfold roCall
    rw [hrest, assessLoop]
  rw [hrun]
  rfl

/-- **C99, where the name does not matter.** Otherwise the string is never called: `contract` returns the Einstein summation. -/
theorem C99_name_not_used {R : Type} [CommSemiring R] (size : Nat → Nat) (eq : Str) (ops : List (Tensor R)) (inp out : Str)
    (hparse : parseEinsum eq (ops.map Tensor.shape) = .ok (inp, out)) (hcomma : cComma ∉ out)
    (hfit : OperandsFit size (splitOn cComma inp) (ops.map Tensor.shape))
    (hlab : (splitOn cComma inp).flatten.toFinset.card ≤ 52) (mem : MemLimit) (hmem : ValidMemory mem) (useBlas : Bool)
    {s : Str} (hs : UnknownCost s) (fuel : Nat) (jitter : Nat → CostFn) {chooser : Nat → Option Chooser} (hch : ∀ r c, chooser r = some c → ChooserOK c) {order : GOrder}
    (ho : GOrderOK order) {maxRepeats : Nat} (hm : 0 < maxRepeats) {preDispatch : Option Nat} (hp : preDispatch ≠ some 0) (late : Nat → Bool) (bySize : Bool)
    (h2 : 2 ≤ ops.length) (hc : ¬ Contractible ((splitOn cComma inp).map List.toFinset) out.toFinset) :
    ∃ T, contract false eq ops (.finder ((randomGreedyUse fuel jitter (.name s) chooser order maxRepeats preDispatch late).finder bySize ROSt.fresh))
        mem useBlas = .ok T ∧ IsEinsum size (splitOn cComma inp) out ops T := by
  have hlen : ((splitOn cComma inp).map List.toFinset).length = ops.length := by
    rw [List.length_map]
    simpa using (wellPosed_of_parse hparse hcomma hfit).len
  have key : ∀ size r, ∃ t, trialGreedyE fuel jitter (.name s) chooser order size ((splitOn cComma inp).map List.toFinset) out.toFinset r = .ok t ∧
      SsaComplete ((splitOn cComma inp).map List.toFinset).length t.path := by
    intro size r
    obtain ⟨F, p, hF, hp1, hp2⟩ := ssaGreedy_complete size costMemoryRemoved (chooser := if r = 0 then none else chooser r)
      (by
        intro c hc
        split at hc
        · cases hc
        · exact hch r c hc) ho (inputs := (splitOn cComma inp).map List.toFinset) (by intro e; rw [e] at hlen; simp at hlen; omega) out.toFinset
    obtain ⟨q, q1, q2, q3, q4⟩ := ssaPathCost_spec (size := size) (out := out.toFinset) (by omega) hp1 (hp2 (by omega))
    refine ⟨Trial.mk p (searchFlops size out.toFinset ((splitOn cComma inp).map List.toFinset) q)
      ((resultSizes size out.toFinset ((splitOn cComma inp).map List.toFinset) q).foldl max 0), ?_, hp1⟩
    · unfold trialGreedyE
      rw [(C99_always_raises (resolve_unknown hs (jitter r)) fuel size _ ho _ _).2 hc costMemoryRemoved F, hF F (le_refl F)]
      simp only
      rw [q4]
  refine C98_any_subclass size eq ops inp out hparse hcomma hfit hlab mem hmem useBlas (uses := []) size ?_ hm hp (fun size r => ?_)
  · intro v hv size r t ht
    rw [List.nil_append, List.mem_singleton] at hv
    subst hv
    obtain ⟨t', e1, e2⟩ := key size r
    have : t' = t := Except.ok.inj (e1.symm.trans ht)
    exact this ▸ e2
  · obtain ⟨t, e1, -⟩ := key size r
    exact ⟨t, e1⟩

/-! ## `BranchBound` -/

section
variable {costE : CostFnE} {cfg : BBCfg} {size : Nat → Nat} {output : Finset Nat} {mem : Option Nat} {order : SetOrder}

theorem assessFit_cost (nd : SearchNode) (st : BBSt) (c : Cand) (cost : ℚ) :
    assessFit size output mem order nd st { c with cost } =
      ((assessFit size output mem order nd st c).1.map (fun c => { c with cost }), (assessFit size output mem order nd st c).2) := by
  unfold assessFit
  simp only
  split
  · split <;> rfl
  · rfl

theorem assess_sim (h : Extends cfg.cost costE) (nd : SearchNode) (sz : Nat) (st : BBSt) (ij : Nat × Nat) :
    Sim costE (assessE cfg costE size output mem order nd sz st ij) (.ok (assess cfg size output mem order nd sz st ij)) := by
  unfold assessE assess
  simp only
  generalize cached st.cache _ _ = r
  by_cases hb : better cfg.bySize (WithTop.some (nd.flops + r.1.2)) (WithTop.some (max sz (Paths.sizeOf size r.1.1))) st.flops st.size = true
  · rw [if_pos hb, if_pos hb]
    cases hp : progressStep cfg.cutoff st.progress nd.inputs.length (nd.flops + r.1.2) with
    | none => exact Sim.rfl
    | some progress =>
      simp only
      have hs := assessFit_cost (size := size) (output := output) (mem := mem) (order := order) nd { st with progress := progress, cache := r.2 }
        (Cand.mk 0 r.1.2 (nd.flops + r.1.2) (max sz (Paths.sizeOf size r.1.1)) ij.1 ij.2 r.1.1)
        (cfg.cost (nd.path ++ [[ij.1, ij.2]]) (Paths.sizeOf size r.1.1) (Paths.sizeOf size (nd.inputs.getD ij.1 ∅))
          (Paths.sizeOf size (nd.inputs.getD ij.2 ∅)) r.1.1 (nd.inputs.getD ij.1 ∅) (nd.inputs.getD ij.2 ∅))
      simp only at hs
      rw [hs]
      generalize assessFit size output mem order nd _ _ = a
      obtain ⟨a, st'⟩ := a
      cases a with
      | none => exact Sim.rfl
      | some c =>
        simp only
        cases hc : costE (nd.path ++ [[ij.1, ij.2]]) (Paths.sizeOf size r.1.1) (Paths.sizeOf size (nd.inputs.getD ij.1 ∅))
            (Paths.sizeOf size (nd.inputs.getD ij.2 ∅)) r.1.1 (nd.inputs.getD ij.1 ∅) (nd.inputs.getD ij.2 ∅) with
        | error e => exact Or.inr ⟨e, ⟨_, _, _, _, _, _, _, hc⟩, rfl⟩
        | ok v =>
          rw [h _ _ _ _ _ _ _ _ hc]
          exact Sim.rfl
  · rw [if_neg hb, if_neg hb]
    exact Sim.rfl

theorem assessAll_sim (h : Extends cfg.cost costE) (nd : SearchNode) (sz : Nat) (l : List (Nat × Nat)) : ∀ acc,
    Sim costE (assessAllE cfg costE size output mem order nd sz l acc) (.ok (l.foldl (assessStep cfg size output mem order nd sz) acc)) := by
  induction l with
  | nil => exact fun _ => Sim.rfl
  | cons ij l ih =>
    intro acc
    rw [assessAllE, List.foldl_cons]
    rcases assess_sim h nd sz acc.2 ij with e | ⟨e, he, e1⟩
    · rw [e]
      exact ih _
    · rw [e1]
      exact Or.inr ⟨e, he, rfl⟩

theorem candidates_sim (h : Extends cfg.cost costE) (nd : SearchNode) (sz : Nat) (st : BBSt) :
    Sim costE (candidatesE cfg costE size output mem order nd sz st) (.ok (candidates cfg size output mem order nd sz st)) := by
  unfold candidatesE candidates
  simp only
  generalize (combinations2 (order nd.path nd.remaining)).map orient = pairs
  rcases assessAll_sim h nd sz (pairs.filter (fun ij => ¬ Disjoint (nd.inputs.getD ij.1 ∅) (nd.inputs.getD ij.2 ∅))) ([], st) with e | ⟨e, he, e1⟩
  · rw [e]
    simp only
    split
    · exact assessAll_sim h nd sz pairs _
    · exact Sim.rfl
  · rw [e1]
    exact Or.inr ⟨e, he, rfl⟩

/-- As the second computation, which does not raise, or what the cost function raises. -/
def SimB {α : Type} (costE : CostFnE) (x : Option (Except PyErr α)) (y : Option α) : Prop := x = y.map .ok ∨ ∃ e, CostRaises costE e ∧ x = some (.error e)

theorem visit_sim {f : Cand → BBSt → Option (Except PyErr BBSt)} {g : BBSt → Cand → Option BBSt} (hf : ∀ c st, SimB costE (f c st) (g st c)) (l : List Cand) :
    ∀ st, SimB costE (visitNone f l st) (l.foldlM g st) := by
  induction l with
  | nil => exact fun _ => Or.inl rfl
  | cons c l ih =>
    intro st
    rw [visitNone, List.foldlM_cons]
    rcases hf c st with e | ⟨e, he, e1⟩
    · rw [e]
      cases g st c with
      | none => exact Or.inl rfl
      | some st' => exact ih st'
    · rw [e1]
      exact Or.inr ⟨e, he, rfl⟩

theorem branchIter_sim (h : Extends cfg.cost costE) (fuel : Nat) : ∀ nd sz st,
    SimB costE (branchIterE cfg costE size output mem order fuel nd sz st) (branchIter cfg size output mem order fuel nd sz st) := by
  induction fuel with
  | zero =>
    intro nd sz st
    rw [branchIterE.eq_def, branchIter.eq_def]
    simp only
    by_cases hc : nd.remaining.card = 1
    · rw [if_pos hc, if_pos hc]; exact Or.inl rfl
    · rw [if_neg hc, if_neg hc]; exact Or.inl rfl
  | succ fuel ih =>
    intro nd sz st
    rw [branchIterE.eq_def, branchIter.eq_def]
    simp only
    by_cases hc : nd.remaining.card = 1
    · rw [if_pos hc, if_pos hc]; exact Or.inl rfl
    · rw [if_neg hc, if_neg hc]
      rcases candidates_sim h nd sz st with e | ⟨e, he, e1⟩
      · rw [e]
        exact visit_sim (fun c st => ih _ _ _) _ _
      · rw [e1]
        exact Or.inr ⟨e, he, rfl⟩

end

/-- **C99, `BranchBound` with cost functions of the user.** Whatever the cost function does, `branch` does what it does for a cost function with the
same values that never raises (so by C15 it returns a complete path), or raises an exception of the cost function. -/
theorem C99_branch_user_function {cfg : BBCfg} {costE : CostFnE} (h : Extends cfg.cost costE) (fuel : Nat) (size : Nat → Nat) (mem : Option Nat)
    (order : SetOrder) (inputs : List (Finset Nat)) (output : Finset Nat) :
    branchE cfg costE fuel size mem order inputs output = branch cfg fuel size mem order inputs output ∨
    ∃ e, CostRaises costE e ∧ branchE cfg costE fuel size mem order inputs output = some (.error e) := by
  unfold branchE branch branchCall
  split
  · exact Or.inl rfl
  · rcases branchIter_sim (size := size) (output := output) (mem := mem) (order := order) h fuel (rootNode inputs) 0 BBSt.fresh with e | ⟨e, he, e1⟩
    · left
      rw [e, show ({ BBSt.fresh with cache := [] } : BBSt) = BBSt.fresh from rfl]
      cases branchIter cfg size output mem order fuel (rootNode inputs) 0 BBSt.fresh with
      | none => rfl
      | some st => rfl
    · right
      rw [e1]
      exact ⟨e, he, rfl⟩

/-- **C99, `BranchBound` with a function that always raises.** Without memory limit the first call of an instance raises for two or more inputs. -/
theorem C99_branch_always_raises {cfg : BBCfg} (hb : cfg.nbranch ≠ some 0) {costE : CostFnE} {e : PyErr} (h : ∀ p a b c x y z, costE p a b c x y z = .error e)
    (fuel : Nat) (size : Nat → Nat) {order : SetOrder} (ho : OrderOK order) {inputs : List (Finset Nat)} (h2 : 2 ≤ inputs.length) (output : Finset Nat) :
    branchE cfg costE (fuel + 1) size none order inputs output = some (.error e) := by
  have hfirst : ∀ ij l, assessAllE cfg costE size output none order (rootNode inputs) 0 (ij :: l) ([], BBSt.fresh) = .error e := by
    intro ij l
    rw [assessAllE]
    have : assessE cfg costE size output none order (rootNode inputs) 0 BBSt.fresh ij = .error e := by
      unfold assessE
      simp only
      generalize cached BBSt.fresh.cache _ _ = r
      have hbet : better cfg.bySize (WithTop.some ((rootNode inputs).flops + r.1.2)) (WithTop.some (max 0 (Paths.sizeOf size r.1.1)))
          BBSt.fresh.flops BBSt.fresh.size = true := by
        unfold better
        simp only [BBSt.fresh]
        split
        · exact decide_eq_true (Or.inl (WithTop.coe_lt_top _))
        · exact decide_eq_true (Or.inl (WithTop.coe_lt_top _))
      rw [if_pos hbet]
      have hprog : progressStep cfg.cutoff BBSt.fresh.progress (rootNode inputs).inputs.length ((rootNode inputs).flops + r.1.2) =
          some (BBSt.fresh.progress.set (rootNode inputs).inputs.length ((rootNode inputs).flops + r.1.2)) := rfl
      rw [hprog]
      simp only [assessFit, Option.any_none, Bool.false_eq_true, if_false, h]
    simp only
    rw [this]
  have hcand : candidatesE cfg costE size output none order (rootNode inputs) 0 BBSt.fresh = .error e := by
    unfold candidatesE
    simp only
    have hne : (combinations2 (order (rootNode inputs).path (rootNode inputs).remaining)).map orient ≠ [] := by
      intro hl
      have hm := combinations2_complete (((ho (rootNode inputs).path (rootNode inputs).remaining).2 0).2 (Finset.mem_range.2 (by omega)))
        (((ho (rootNode inputs).path (rootNode inputs).remaining).2 1).2 (Finset.mem_range.2 (by omega))) (by decide)
      rw [List.map_eq_nil_iff] at hl
      rw [hl] at hm
      simp at hm
    cases hf : ((combinations2 (order (rootNode inputs).path (rootNode inputs).remaining)).map orient).filter
        (fun ij => ¬ Disjoint ((rootNode inputs).inputs.getD ij.1 ∅) ((rootNode inputs).inputs.getD ij.2 ∅)) with
    | cons ij l => rw [hfirst]
    | nil =>
      rw [assessAllE]
      simp only [if_true]
      cases hl : (combinations2 (order (rootNode inputs).path (rootNode inputs).remaining)).map orient with
      | nil => exact absurd hl hne
      | cons ij l => exact hfirst ij l
  unfold branchE
  rw [if_neg hb, branchIterE.eq_def]
  have hcard : (rootNode inputs).remaining.card ≠ 1 := by
    show (Finset.range inputs.length).card ≠ 1
    rw [Finset.card_range]
    omega
  simp only [if_neg hcard, hcand]
  rfl

/-- **C99, `BranchBound` with a name that names no cost function.** `BranchBound(cost_fn='…')` accepts it; without memory limit the first call with two
or more inputs raises `TypeError`, whether or not they have labels in common. -/
theorem C99_branch_unknown_name {s : Str} (hs : UnknownCost s) (jitter : CostFn) {cfg : BBCfg} (hb : cfg.nbranch ≠ some 0) (fuel : Nat) (size : Nat → Nat)
    {order : SetOrder} (ho : OrderOK order) {inputs : List (Finset Nat)} (h2 : 2 ≤ inputs.length) (output : Finset Nat) :
    branchE cfg ((CostArg.name s).resolve jitter) (fuel + 1) size none order inputs output = some (.error .type) :=
  C99_branch_always_raises hb (resolve_unknown hs jitter) fuel size ho h2 output

/-! ## Examples -/

/-- The misspelt name. -/
theorem exampleName_unknown : UnknownCost (S "memory_removed") := by
  constructor <;> decide

-- the conditions: 'ab,bc,cd->ad' is contractible, 'a,b,c->abc' and 'ab,ac,ad->bcd' (a is on all operands) are not
example : Contractible [{0, 1}, {1, 2}, {2, 3}] {0, 3} :=
  ⟨1, by decide, ⟨{2, 3}, by simp, by decide⟩, {0, 1}, by simp, {1, 2}, by simp, by decide, by decide, by decide⟩

theorem not_contractible_example : ¬ Contractible [{0, 1}, {0, 2}, {0, 3}] {1, 2, 3} := by
  rintro ⟨c, h1, ⟨k, hk, hck⟩, k1, hk1, k2, hk2, hne, hc1, hc2⟩
  have : ∀ k ∈ [({0, 1} : Finset Nat), {0, 2}, {0, 3}], ∀ c ∈ k, c ∉ ({1, 2, 3} : Finset Nat) → c = 0 := by decide
  have hc0 : c = 0 := this k1 hk1 c hc1 h1
  subst hc0
  have h0 : ∀ k ∈ [({0, 1} : Finset Nat), {0, 2}, {0, 3}], 0 ∈ k := by decide
  exact hck (h0 k hk)

-- `contract_path('ab,bc,cd->ad', …, optimize=RandomGreedy(cost_fn='memory_removed'))`, and for 'ab,ac,ad->bcd'
example : (exampleUse (.finder ((randomGreedyUse 20 (fun _ => costMemoryRemoved) (.name (S "memory_removed")) (fun _ => none) gAscending 32 none
    (fun _ => false)).finder false ROSt.fresh)) 1).map (fun i => i.path) = .error .type := by decide +kernel
example : (exampleUse (.finder ((randomGreedyUse 20 (fun _ => costMemoryRemoved) (.name (S "memory-removed")) (fun _ => none) gAscending 2 none
    (fun _ => false)).finder false ROSt.fresh)) 1).map (fun i => i.path) = .ok [[0, 1], [0, 1]] := by decide +kernel
example : ((randomGreedyUse 20 (fun _ => costMemoryRemoved) (.name (S "memory_removed")) (fun _ => none) gAscending 2 none
    (fun _ => false)).run false (fun _ => 2) [{0, 1}, {0, 2}, {0, 3}] {1, 2, 3} ROSt.fresh).1 = .ok [[0, 1], [0, 1]] := by decide +kernel

/-- A function that raises for results of more than 5 elements only. -/
def exampleCostE : CostFnE := fun _ size12 size1 size2 _ _ _ => if 5 < size12 then .error .value else .ok ((size12 : ℚ) - size1 - size2)

-- 'ab,bc,cd->ad' with sizes 2, 3, 3, 1, and with axes of size 2
example : ssaGreedyE 20 (fun c => if c = 0 then 2 else if c = 3 then 1 else 3) exampleCostE none gAscending [{0, 1}, {1, 2}, {2, 3}] {0, 3} =
    some (.error .value) := by decide +kernel
example : ssaGreedyE 20 (fun _ => 2) exampleCostE none gAscending [{0, 1}, {1, 2}, {2, 3}] {0, 3} = some (.ok [[0, 1], [2, 3]]) := by decide +kernel

/-- Options of `BranchBound(nbranch=2)`. -/
def exampleBranchCfg : BBCfg := { nbranch := some 2, cutoff := 4, bySize := false, cost := costMemoryRemoved }

-- `branch` with the misspelt name: an outer product raises, and one operand does not; with a memory limit that forbids all pairs it is not called
example : branchE exampleBranchCfg ((CostArg.name (S "memory_removed")).resolve costMemoryRemoved) 20 (fun _ => 2) none ascending
    [{0}, {1}, {2}] {0, 1, 2} = some (.error .type) := by decide +kernel
example : branchE exampleBranchCfg ((CostArg.name (S "memory_removed")).resolve costMemoryRemoved) 20 (fun _ => 2) none ascending
    [{0, 1}] {0} = some (.ok []) := by decide +kernel
example : branchE exampleBranchCfg ((CostArg.name (S "memory_removed")).resolve costMemoryRemoved) 20 (fun _ => 2) (some 1) ascending
    [{0}, {1}, {2}] {0, 1, 2} = some (.ok [[0, 1, 2]]) := by decide +kernel
-- a function that raises for some results only
example : branchE exampleBranchCfg exampleCostE 20 (fun c => if c = 0 then 2 else if c = 3 then 1 else 3) none ascending
    [{0, 1}, {1, 2}, {2, 3}] {0, 3} = some (.error .value) := by decide +kernel
example : branchE exampleBranchCfg exampleCostE 20 (fun _ => 2) none ascending
    [{0, 1}, {1, 2}, {2, 3}] {0, 3} = some (.ok [[0, 1], [0, 1]]) := by decide +kernel

end OE.Props
