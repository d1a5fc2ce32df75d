import Verif.Spec.GreedyWork
import Verif.Props.Greedy3
import Verif.Props.CostFunction

/-!
# How many iterations the main loop of greedy makes

The fuel of `ssaGreedy` is the number of iterations of the main loop (paths.py:678-716) that are allowed.
-/

namespace OE.Props
open OE OE.Py OE.Paths OE.Spec

section
variable {cfg : GCfg} {n : Nat}

theorem mapM_length {α β : Type} {f : α → Except PyErr β} : ∀ {l : List α} {r : List β}, l.mapM f = .ok r → r.length = l.length := by
  intro l
  induction l with
  | nil => intro r h; cases h; rfl
  | cons a l ih =>
    intro r h
    rw [List.mapM_cons] at h
    cases ha : f a with
    | error e => rw [ha] at h; cases h
    | ok b =>
      rw [ha] at h
      cases hl : l.mapM f with
      | error e => rw [hl] at h; cases h
      | ok r' => rw [hl] at h; cases h; simp [ih hl]

theorem choose_two_succ (m : Nat) : (m + 1).choose 2 = m.choose 2 + m := by
  rw [Nat.choose_succ_succ' m 1, Nat.choose_one_right, Nat.add_comm]

/-- How many candidates one call of `_push_candidate` adds. -/
theorem pushCandidate_length {st st' : GSt} {k1 : Finset Nat} {k2s : List (Finset Nat)} (h : pushCandidate cfg st k1 k2s = .ok st') :
    st'.queue.length = st.queue.length + if cfg.pushAll then k2s.length else 1 := by
  unfold pushCandidate at h
  simp only [bind, Except.bind] at h
  split at h
  · cases h
  · rename_i cands hm
    have hl := mapM_length hm
    split at h
    · cases h
      rw [if_pos (by assumption)]
      simp [hl]
    · rw [if_neg (by assumption)]
      split at h
      · cases h
      · cases h; simp

/-- How many candidates a label gives at the start. -/
def gain (cfg : GCfg) (m : Nat) : Nat := if cfg.pushAll then m.choose 2 else m - 1

theorem initPush_length (l : List (Finset Nat)) (hl : l.Nodup) {st st' : GSt} (h : GInv cfg n st) (hm : ∀ k ∈ l, k ∈ st.remaining.keys)
    (hrun : initPush cfg l st = .ok st') : st'.queue.length = st.queue.length + gain cfg l.length := by
  induction l generalizing st with
  | nil => cases hrun; simp [gain]
  | cons k1 ks ih =>
    cases ks with
    | nil => cases hrun; simp [gain]
    | cons k2 ks =>
      rw [List.nodup_cons] at hl
      obtain ⟨q, g1, g2⟩ := h.push (k1 := k1) (k2s := k2 :: ks) (hm _ (by simp))
        (fun k hk => ⟨hm k (by simp [List.mem_cons.mp hk]), by rintro rfl; exact hl.1 hk⟩) (by simp)
      rw [initPush, g1] at hrun
      have := ih hl.2 g2 (fun k hk => hm k (List.mem_cons_of_mem _ hk)) hrun
      have hp := pushCandidate_length g1
      rw [this, hp]
      unfold gain
      simp only [List.length_cons]
      split
      · have := choose_two_succ (ks.length + 1)
        omega
      · omega

theorem initQueue_length (ds : List Nat) {st st' : GSt} (h : GInv cfg n st) (hrun : initQueue cfg ds st = .ok st') :
    st'.queue.length = st.queue.length + (ds.map (fun d => gain cfg (sortedKeys st.remaining (st.dimKeys d)).length)).sum := by
  induction ds generalizing st with
  | nil => cases hrun; simp
  | cons d ds ih =>
    have hp := sortedKeys_perm st.remaining (st.dimKeys d)
    obtain ⟨q, g1, g2⟩ := initPush_inv (sortedKeys st.remaining (st.dimKeys d)) (hp.nodup_iff.mpr (h.keys.filter _)) h
      (fun k hk => (List.mem_filter.mp (hp.mem_iff.mp hk)).1)
    have g3 := initPush_length _ (hp.nodup_iff.mpr (h.keys.filter _)) h (fun k hk => (List.mem_filter.mp (hp.mem_iff.mp hk)).1) g1
    rw [initQueue, g1] at hrun
    have := ih g2 hrun
    rw [this, g3]
    simp only [List.map_cons, List.sum_cons]
    omega

theorem pushNew_length {order : GOrder} (ho : GOrderOK order) {st : GSt} (h : GInv cfg n st) {k1 : Finset Nat} (h1 : k1 ∈ st.remaining.keys)
    {st' : GSt} (hrun : pushNew cfg order st k1 = .ok st') :
    st.queue.length ≤ st'.queue.length ∧ st'.queue.length + 1 ≤ st.queue.length + if cfg.pushAll then st.remaining.length else 2 := by
  have hpos : 0 < st.remaining.length := List.length_pos_of_ne_nil h.ne
  unfold pushNew at hrun
  simp only at hrun
  split at hrun
  · cases hrun
    refine ⟨le_refl _, ?_⟩
    split <;> omega
  · have hp := pushCandidate_length hrun
    have hs : (k1 :: order.keys st.path ((k1.biUnion st.dimKeys).erase k1)).Subperm st.remaining.keys := by
      refine List.subperm_of_subset ?_ ?_
      · rw [List.nodup_cons]
        refine ⟨fun hm => ?_, (ho.2 _ _).1⟩
        rw [(ho.2 _ _).2] at hm
        simp at hm
      · intro k hk
        rcases List.mem_cons.mp hk with rfl | hk
        · exact h1
        · rw [(ho.2 _ _).2, Finset.mem_erase, Finset.mem_biUnion] at hk
          obtain ⟨_, d, _, hd⟩ := hk
          exact ((h.dims d k).mp hd).2.2
    have hl := hs.length_le
    rw [List.length_cons, Dict.keys, List.length_map] at hl
    rw [hp]
    refine ⟨by omega, ?_⟩
    split <;> omega

/-- One iteration: the queue gets shorter, or two operands are contracted and few candidates are added. -/
theorem greedyStep_length {chooser : Chooser} {order : GOrder} (hc : ChooserOK chooser) (ho : GOrderOK order) {st : GSt} (h : GInv cfg n st)
    (hq : st.queue ≠ []) :
    ∃ st', greedyStep cfg chooser order st = .ok st' ∧ GInv cfg n st' ∧ (chooser st.path st.queue st.remaining).2.length ≤ st'.queue.length ∧
      (st'.remaining.length < st.remaining.length ∧ st'.queue.length + 2 ≤ st.queue.length + (if cfg.pushAll then st'.remaining.length else 2) ∨
        st'.remaining.length = st.remaining.length ∧ st'.queue.length < st.queue.length) := by
  obtain ⟨c1, c2, c3⟩ := hc st.path st.queue st.remaining hq
  unfold greedyStep
  generalize chooser st.path st.queue st.remaining = r at *
  obtain ⟨r, q⟩ := r
  have hq' : ∀ c ∈ q, c.k1 ≠ c.k2 := fun c hc => h.queue c (c2 c hc)
  cases r with
  | none => exact ⟨_, rfl, h.setQueue hq', le_refl _, Or.inr ⟨rfl, c1⟩⟩
  | some c =>
    obtain ⟨d1, d2, d3⟩ := c3 c rfl
    obtain ⟨st1, e1, e2, e3, e4, e5⟩ := contractKeys_inv (h.setQueue hq') c.k12 (h.queue c d1) d2 d3
    obtain ⟨q2, f1, f2⟩ := pushNew_inv ho e2 e3
    obtain ⟨l1, l2⟩ := pushNew_length ho e2 e3 f1
    simp only at l1 l2 c1 e5
    rw [e5] at l1 l2
    refine ⟨_, ?_, f2, l1, Or.inl ⟨e4, ?_⟩⟩
    · simp only [e1, bind, Except.bind]
      exact f1
    · simp only
      omega

theorem greedyLoop_nil {chooser : Chooser} {order : GOrder} {st : GSt} (h : st.queue = []) (fuel : Nat) :
    greedyLoop cfg chooser order fuel st = some (.ok st) := by
  rw [greedyLoop.eq_def]
  simp only
  rw [if_pos h]

/-- With one candidate at a time. -/
theorem greedyLoop_enough {chooser : Chooser} {order : GOrder} (hc : ChooserOK chooser) (ho : GOrderOK order) (hpa : cfg.pushAll = false) :
    ∀ (fuel : Nat) (st : GSt), GInv cfg n st → st.queue.length + st.remaining.length ≤ fuel + 1 →
      ∃ st', greedyLoop cfg chooser order fuel st = some (.ok st') ∧ GInv cfg n st' := by
  intro fuel
  induction fuel with
  | zero =>
    intro st h hf
    have hpos : 0 < st.remaining.length := List.length_pos_of_ne_nil h.ne
    exact ⟨st, greedyLoop_nil (List.length_eq_zero_iff.mp (by omega)) 0, h⟩
  | succ fuel ih =>
    intro st h hf
    by_cases h0 : st.queue = []
    · exact ⟨st, greedyLoop_nil h0 _, h⟩
    · obtain ⟨st1, g1, g2, -, g4⟩ := greedyStep_length (cfg := cfg) hc ho h h0
      rw [hpa] at g4
      simp only [Bool.false_eq_true, if_false] at g4
      obtain ⟨st', e1, e2⟩ := ih st1 g2 (by omega)
      refine ⟨st', ?_, e2⟩
      rw [greedyLoop.eq_def]
      simp only
      rw [if_neg h0, g1]
      exact e1

/-- With all candidates. -/
theorem greedyLoop_enough_all {chooser : Chooser} {order : GOrder} (hc : ChooserOK chooser) (ho : GOrderOK order) (hpa : cfg.pushAll = true) :
    ∀ (fuel : Nat) (st : GSt), GInv cfg n st → st.queue.length + st.remaining.length.choose 2 ≤ fuel →
      ∃ st', greedyLoop cfg chooser order fuel st = some (.ok st') ∧ GInv cfg n st' := by
  intro fuel
  induction fuel with
  | zero =>
    intro st h hf
    exact ⟨st, greedyLoop_nil (List.length_eq_zero_iff.mp (by omega)) 0, h⟩
  | succ fuel ih =>
    intro st h hf
    by_cases h0 : st.queue = []
    · exact ⟨st, greedyLoop_nil h0 _, h⟩
    · obtain ⟨st1, g1, g2, -, g4⟩ := greedyStep_length (cfg := cfg) hc ho h h0
      rw [hpa] at g4
      simp only [if_true] at g4
      have hm : st1.queue.length + st1.remaining.length.choose 2 ≤ fuel := by
        rcases g4 with ⟨a, b⟩ | ⟨a, b⟩
        · have e1 : (st1.remaining.length + 1).choose 2 ≤ st.remaining.length.choose 2 := Nat.choose_le_choose 2 a
          have e2 := choose_two_succ st1.remaining.length
          omega
        · rw [a]; omega
      obtain ⟨st', e1, e2⟩ := ih st1 g2 hm
      refine ⟨st', ?_, e2⟩
      rw [greedyLoop.eq_def]
      simp only
      rw [if_neg h0, g1]
      exact e1

theorem simpleChooser_length (path : Path) {queue : List GCand} (remaining : Dict (Finset Nat) Nat) (hq : queue ≠ []) :
    (simpleChooser path queue remaining).2.length + 1 = queue.length := by
  obtain ⟨c, r, hc⟩ := popMin_ne_none (le := GCand.le) hq
  have hlen := (popMin_perm hc).length_eq
  unfold simpleChooser
  rw [hc]
  simp only
  split <;> simp_all

/-- The default chooser takes one candidate at a time. -/
theorem greedyLoop_short {order : GOrder} (ho : GOrderOK order) :
    ∀ (fuel : Nat) (st : GSt), GInv cfg n st → fuel < st.queue.length → greedyLoop cfg simpleChooser order fuel st = none := by
  intro fuel
  induction fuel with
  | zero =>
    intro st h hf
    rw [greedyLoop.eq_def]
    simp only
    rw [if_neg (by rintro h0; rw [h0] at hf; simp at hf)]
  | succ fuel ih =>
    intro st h hf
    have h0 : st.queue ≠ [] := by rintro h0; rw [h0] at hf; simp at hf
    obtain ⟨st1, g1, g2, g3, -⟩ := greedyStep_length (cfg := cfg) simpleChooser_ok ho h h0
    have := simpleChooser_length st.path st.remaining h0
    rw [greedyLoop.eq_def]
    simp only
    rw [if_neg h0, g1]
    exact ih st1 g2 (by omega)

end

/-- The queue before the main loop. -/
theorem start_length {cfg : GCfg} {order : GOrder} (ho : GOrderOK order) {inputs : List (Finset Nat)} (hne : inputs ≠ []) {st' : GSt}
    (hrun : initQueue cfg (order.dims ((greedyStart cfg.output inputs).remaining.keys.foldl (fun s key => s ∪ key \ cfg.output) ∅))
      (greedyStart cfg.output inputs) = .ok st') :
    st'.queue.length = ∑ c ∈ freeLabels inputs cfg.output, gain cfg (sharers inputs c) := by
  have h0 := greedyStart_inv (cfg := cfg) cfg.output inputs hne rfl
  have hq : (greedyStart cfg.output inputs).queue = [] := by
    obtain ⟨_, _, h3, _, _⟩ := dedup_inv (n := inputs.length) inputs 0
      { remaining := [], dimKeys := fun _ => ∅, ref2 := ∅, ref3 := ∅, queue := [], path := [], next := inputs.length }
      (by simp [Dict.keys]) (by
        simp only [Dict.vals, List.map_nil, List.nil_append]
        rw [← List.range_eq_range']
        exact prefix_nil _)
    unfold greedyStart
    exact h3
  rw [initQueue_length _ h0 hrun, hq, List.length_nil, Nat.zero_add]
  have hsum : ∀ (l : List Nat) (f : Nat → Nat), l.Nodup → (l.map f).sum = ∑ c ∈ l.toFinset, f c := fun l f h => (List.sum_toFinset f h).symm
  rw [hsum _ _ (ho.1 _).1]
  refine Finset.sum_congr ?_ ?_
  · ext d
    rw [List.mem_toFinset, (ho.1 _).2, mem_foldl_dims]
    unfold freeLabels
    simp only [Finset.notMem_empty, false_or, Finset.mem_biUnion, List.mem_toFinset, Finset.mem_sdiff, greedyStart_keys]
  · intro d hd
    unfold freeLabels at hd
    simp only [Finset.mem_biUnion, Finset.mem_sdiff] at hd
    obtain ⟨_, _, _, hd⟩ := hd
    congr 1
    rw [(sortedKeys_perm _ _).length_eq, ← List.toFinset_card_of_nodup (h0.keys.filter _)]
    unfold sharers
    congr 1
    ext k
    simp only [List.mem_toFinset, List.mem_filter, decide_eq_true_eq, Finset.mem_filter, greedyStart_keys]
    rw [h0.dims d k, greedyStart_keys]
    tauto

theorem start_remaining_le {cfg : GCfg} {inputs : List (Finset Nat)} (hne : inputs ≠ []) : (greedyStart cfg.output inputs).remaining.length ≤ inputs.length := by
  have h0 := greedyStart_inv (cfg := cfg) cfg.output inputs hne rfl
  have := (List.subperm_of_subset h0.keys (fun k hk => (greedyStart_keys _ _ k).mp hk)).length_le
  rwa [Dict.keys, List.length_map] at this

/-- `ssa_greedy_optimize` up to the main loop. -/
theorem ssaGreedy_start {size : Nat → Nat} {cost : CostFn} {chooser : Option Chooser} {order : GOrder} (ho : GOrderOK order)
    {inputs : List (Finset Nat)} (h2 : 2 ≤ inputs.length) {output reserved : Finset Nat} (hres : IsReserved inputs output reserved) :
    ∃ (cfg : GCfg) (st : GSt), cfg.pushAll = chooser.isSome ∧ GInv cfg inputs.length st ∧ st.remaining.length ≤ inputs.length ∧
      st.queue.length = ∑ c ∈ freeLabels inputs reserved, gain cfg (sharers inputs c) ∧
      ∀ fuel, ssaGreedy fuel size cost chooser order inputs output = match greedyLoop cfg (chooser.getD simpleChooser) order fuel st with
        | none => none
        | some (.error e) => some (.error e)
        | some (.ok st) => some (finalPhase cfg st) := by
  match inputs, h2 with
  | k :: k' :: ks, _ =>
    simp only [ssaGreedy]
    have hro : reserved = output ∪ (k' :: ks).foldl (· ∩ ·) k := by
      ext c
      rw [hres c, Finset.mem_union, mem_foldl_inter]
      simp only [List.mem_cons, forall_eq_or_imp]
    rw [← hro]
    generalize hcfg : ({ size, cost, output := reserved, pushAll := chooser.isSome } : GCfg) = cfg
    have hco : cfg.output = reserved := by rw [← hcfg]
    rw [← hco]
    have h0 := greedyStart_inv (cfg := cfg) cfg.output (k :: k' :: ks) (by simp) rfl
    obtain ⟨q, h1, h2⟩ := initQueue_inv (order.dims ((greedyStart cfg.output (k :: k' :: ks)).remaining.keys.foldl (fun s key => s ∪ key \ cfg.output) ∅)) h0
    refine ⟨cfg, _, by rw [← hcfg], h2, start_remaining_le (cfg := cfg) (by simp), start_length ho (by simp) h1, ?_⟩
    intro fuel
    rw [h1]
    rfl

theorem meetings_le (inputs : List (Finset Nat)) (reserved : Finset Nat) : labelMeetings inputs reserved ≤ writtenLabels inputs := by
  unfold labelMeetings writtenLabels
  calc ∑ c ∈ freeLabels inputs reserved, (sharers inputs c - 1)
      ≤ ∑ c ∈ freeLabels inputs reserved, ∑ s ∈ inputs.toFinset, (if c ∈ s then 1 else 0) := by
        refine Finset.sum_le_sum (fun c _ => ?_)
        unfold sharers
        rw [Finset.card_filter]
        omega
    _ = ∑ s ∈ inputs.toFinset, ∑ c ∈ freeLabels inputs reserved, (if c ∈ s then 1 else 0) := Finset.sum_comm
    _ ≤ ∑ s ∈ inputs.toFinset, s.card := by
        refine Finset.sum_le_sum (fun s _ => ?_)
        rw [← Finset.card_filter]
        exact Finset.card_le_card (fun c hc => (Finset.mem_filter.mp hc).2)
    _ ≤ (inputs.map Finset.card).sum := by
        induction inputs with
        | nil => simp
        | cons a l ih =>
          rw [List.toFinset_cons, List.map_cons, List.sum_cons]
          by_cases h : a ∈ l.toFinset
          · rw [Finset.insert_eq_self.mpr h]; omega
          · rw [Finset.sum_insert h]; omega

theorem written_le {inputs : List (Finset Nat)} {r : Nat} (h : ∀ s ∈ inputs, s.card ≤ r) : writtenLabels inputs ≤ inputs.length * r := by
  unfold writtenLabels
  have := List.sum_le_card_nsmul (inputs.map Finset.card) r (by
    intro x hx
    obtain ⟨s, hs, rfl⟩ := List.mem_map.mp hx
    exact h s hs)
  simpa using this

/-- **C102, at most.** The main loop of `ssa_greedy_optimize` makes at most `labelMeetings + n - 1` iterations. -/
theorem C102_at_most {size : Nat → Nat} {cost : CostFn} {order : GOrder} (ho : GOrderOK order) {inputs : List (Finset Nat)} (h2 : 2 ≤ inputs.length)
    {output reserved : Finset Nat} (hres : IsReserved inputs output reserved) {fuel : Nat} (hf : labelMeetings inputs reserved + inputs.length ≤ fuel + 1) :
    ∃ path, ssaGreedy fuel size cost none order inputs output = some (.ok path) := by
  obtain ⟨cfg, st, a1, a2, a3, a4, a5⟩ := ssaGreedy_start (size := size) (cost := cost) (chooser := none) ho h2 hres
  have hg : st.queue.length = labelMeetings inputs reserved := by
    rw [a4]
    refine Finset.sum_congr rfl (fun c _ => ?_)
    simp [gain, a1]
  obtain ⟨st', e1, e2⟩ := greedyLoop_enough simpleChooser_ok ho (by rw [a1]; rfl) fuel st a2 (by omega)
  obtain ⟨p, hp, _⟩ := finalPhase_complete e2
  refine ⟨p, ?_⟩
  rw [a5 fuel, Option.getD_none, e1]
  simp only
  rw [hp]

/-- **C102, at least.** It makes at least `labelMeetings` iterations. -/
theorem C102_at_least {size : Nat → Nat} {cost : CostFn} {order : GOrder} (ho : GOrderOK order) {inputs : List (Finset Nat)} (h2 : 2 ≤ inputs.length)
    {output reserved : Finset Nat} (hres : IsReserved inputs output reserved) {fuel : Nat} (hf : fuel < labelMeetings inputs reserved) :
    ssaGreedy fuel size cost none order inputs output = none := by
  obtain ⟨cfg, st, a1, a2, a3, a4, a5⟩ := ssaGreedy_start (size := size) (cost := cost) (chooser := none) ho h2 hres
  have hg : st.queue.length = labelMeetings inputs reserved := by
    rw [a4]
    refine Finset.sum_congr rfl (fun c _ => ?_)
    simp [gain, a1]
  rw [a5 fuel, Option.getD_none, greedyLoop_short ho fuel st a2 (by omega)]

/-- **C102, operands with few labels.** If no operand has more than `r` labels, `n * (r + 1)` iterations suffice. -/
theorem C102_low_rank {size : Nat → Nat} {cost : CostFn} {order : GOrder} (ho : GOrderOK order) {inputs : List (Finset Nat)} (h2 : 2 ≤ inputs.length)
    {output reserved : Finset Nat} (hres : IsReserved inputs output reserved) {r : Nat} (hr : ∀ s ∈ inputs, s.card ≤ r) :
    ∃ path, ssaGreedy (inputs.length * (r + 1)) size cost none order inputs output = some (.ok path) := by
  refine C102_at_most ho h2 hres ?_
  have h1 := meetings_le inputs reserved
  have h3 := written_le hr
  rw [Nat.mul_succ]
  omega

/-- **C102, other choosers.** With a chooser, as in `RandomGreedy`, all candidates are kept; `labelPairs + n * (n - 1) / 2` iterations suffice. -/
theorem C102_choosers {size : Nat → Nat} {cost : CostFn} {chooser : Chooser} (hc : ChooserOK chooser) {order : GOrder} (ho : GOrderOK order)
    {inputs : List (Finset Nat)} (h2 : 2 ≤ inputs.length) {output reserved : Finset Nat} (hres : IsReserved inputs output reserved) {fuel : Nat}
    (hf : labelPairs inputs reserved + inputs.length.choose 2 ≤ fuel) :
    ∃ path, ssaGreedy fuel size cost (some chooser) order inputs output = some (.ok path) := by
  obtain ⟨cfg, st, a1, a2, a3, a4, a5⟩ := ssaGreedy_start (size := size) (cost := cost) (chooser := some chooser) ho h2 hres
  have hg : st.queue.length = labelPairs inputs reserved := by
    rw [a4]
    refine Finset.sum_congr rfl (fun c _ => ?_)
    simp [gain, a1]
  have h3 : st.remaining.length.choose 2 ≤ inputs.length.choose 2 := Nat.choose_le_choose 2 a3
  obtain ⟨st', e1, e2⟩ := greedyLoop_enough_all hc ho (by rw [a1]; rfl) fuel st a2 (by omega)
  obtain ⟨p, hp, _⟩ := finalPhase_complete e2
  refine ⟨p, ?_⟩
  rw [a5 fuel, Option.getD_some, e1]
  simp only
  rw [hp]

/-- Two operands with `m + 1` labels in common, of which the second has one more, and a vector with the latter. -/
def manyLabels (m : Nat) : List (Finset Nat) := [Finset.range (m + 1), Finset.range (m + 2), {m + 1}]

theorem manyLabels_reserved (m : Nat) : IsReserved (manyLabels m) ∅ ∅ := by
  intro c
  simp only [Finset.notMem_empty, false_or, false_iff, manyLabels, List.mem_cons, forall_eq_or_imp, List.not_mem_nil, IsEmpty.forall_iff, implies_true,
    and_true, Finset.mem_range, Finset.mem_singleton]
  omega

theorem manyLabels_sharers (m c : Nat) : sharers (manyLabels m) c = if c < m + 2 then 2 else 0 := by
  unfold sharers manyLabels
  have h1 : Finset.range (m + 1) ≠ Finset.range (m + 2) := by
    intro h
    have := congrArg Finset.card h
    simp at this
  have h2 : Finset.range (m + 1) ≠ {m + 1} := by
    intro h
    have : m + 1 ∈ Finset.range (m + 1) := by rw [h]; simp
    simp at this
  have h3 : Finset.range (m + 2) ≠ {m + 1} := by
    intro h
    have : 0 ∈ Finset.range (m + 2) := by simp
    rw [h] at this
    simp at this
  have e : ([Finset.range (m + 1), Finset.range (m + 2), {m + 1}] : List (Finset Nat)).toFinset = {Finset.range (m + 1), Finset.range (m + 2), {m + 1}} := by
    simp
  rw [e, Finset.filter_insert, Finset.filter_insert, Finset.filter_singleton]
  simp only [Finset.mem_range, Finset.mem_singleton]
  rcases lt_trichotomy c (m + 1) with h | h | h
  · rw [if_pos h, if_pos (by omega), if_neg (by omega), if_pos (by omega), Finset.card_insert_of_notMem (by simpa using h1)]
    simp
  · rw [if_neg (by omega), if_pos (by omega), if_pos h, if_pos (by omega), Finset.card_insert_of_notMem (by simpa using h3)]
    simp
  · rw [if_neg (by omega), if_neg (by omega), if_neg (by omega), if_neg (by omega)]
    simp

/-- **C102, the documented bound.** No number of iterations that is proportional to `n * k` suffices for all networks of `n` operands
whose labels are on at most `k` operands: those of three operands and labels on two need as many as one likes. -/
theorem C102_counterexample (size : Nat → Nat) (cost : CostFn) {order : GOrder} (ho : GOrderOK order) :
    ¬ ∃ C : Nat, ∀ (inputs : List (Finset Nat)) (output reserved : Finset Nat) (k : Nat), 2 ≤ inputs.length → IsReserved inputs output reserved →
      (∀ c, c ∉ reserved → sharers inputs c ≤ k) → ∃ path, ssaGreedy (C * (inputs.length * k)) size cost none order inputs output = some (.ok path) := by
  rintro ⟨C, h⟩
  obtain ⟨path, hp⟩ := h (manyLabels (C * (3 * 2))) ∅ ∅ 2 (by simp [manyLabels]) (manyLabels_reserved _) (by
    intro c _
    rw [manyLabels_sharers]
    split <;> omega)
  rw [C102_at_least ho (by simp [manyLabels]) (manyLabels_reserved _)] at hp
  · cases hp
  · have hfree : freeLabels (manyLabels (C * (3 * 2))) ∅ = Finset.range (C * (3 * 2) + 2) := by
      ext c
      simp only [freeLabels, manyLabels, Finset.sdiff_empty, Finset.mem_biUnion, List.mem_toFinset, List.mem_cons, List.not_mem_nil, or_false,
        exists_eq_or_imp, exists_eq_left, Finset.mem_range, Finset.mem_singleton]
      omega
    unfold labelMeetings
    rw [hfree, Finset.sum_congr rfl (g := fun _ => 1) (fun c hc => by rw [manyLabels_sharers, if_pos (Finset.mem_range.mp hc)])]
    simp [manyLabels]

/-! ## Examples -/

-- 'ab,cd,bc,ef,f->ad': one meeting for each of b, c, f; three iterations suffice, two do not
example : labelMeetings [{0, 1}, {2, 3}, {1, 2}, {4, 5}, {5}] {0, 3} = 3 := by decide
example : ssaGreedy 2 (fun _ => 2) costMemoryRemoved none gAscending [{0, 1}, {2, 3}, {1, 2}, {4, 5}, {5}] {0, 3} = none := by decide +kernel
example : (ssaGreedy 7 (fun _ => 2) costMemoryRemoved none gAscending [{0, 1}, {2, 3}, {1, 2}, {4, 5}, {5}] {0, 3}).isSome := by decide +kernel
-- a label on three of four operands: two meetings, three pairs
example : labelMeetings [{0, 1}, {0, 2}, {0, 3}, {4}] {1, 2, 3, 4} = 2 ∧ labelPairs [{0, 1}, {0, 2}, {0, 3}, {4}] {1, 2, 3, 4} = 3 := by decide

-- random-greedy with eight branches: 3 + 10 iterations suffice
example : ∃ path, ssaGreedy 13 (fun _ => 2) costMemoryRemoved (some (thermalChooser 8 (fun _ _ => 0))) gAscending [{0, 1}, {2, 3}, {1, 2}, {4, 5}, {5}] {0, 3} =
    some (.ok path) :=
  C102_choosers (thermal_ok 8 (by decide) (fun _ _ h => List.length_pos_of_ne_nil h)) gAscending_ok (by decide) (reserved := {0, 3})
    (by
      intro c
      constructor
      · exact Or.inl
      · rintro (h | h)
        · exact h
        · have h1 := h {5} (by decide)
          have h2 := h {0, 1} (by decide)
          simp only [Finset.mem_singleton, Finset.mem_insert] at h1 h2
          omega) (by decide)

end OE.Props
