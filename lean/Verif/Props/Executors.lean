import Verif.Model.Executors
import Verif.Model.Random

/-!
# C74: executors are shut down exactly once, jobs are awaited or cancelled
-/

namespace OE.Props
open OE OE.Executors OE.Paths

/-- Which pools of the optimizer are shut down how often; `w₀` is the state when it was made. -/
structure ExecOK (w₀ : World) (w : World) (i : Inst) : Prop where
  made : w₀.made ≤ w.made
  old : ∀ e, (∀ k, e = .own k → k < w₀.made) → w.shut.count e = w₀.shut.count e
  fresh : ∀ k, w.made ≤ k → w.shut.count (.own k) = 0
  own : ∀ k, w₀.made ≤ k → k < w.made → w.shut.count (.own k) = if i.managing = some true ∧ i.executor = some (some (.own k)) then 0 else 1
  managing : i.managing = some true → ∃ k, w₀.made ≤ k ∧ k < w.made ∧ i.executor = some (some (.own k))

theorem execOK_start {w : World} (h : ∀ k, w.made ≤ k → w.shut.count (.own k) = 0) {i : Inst} (hi : i.managing ≠ some true) : ExecOK w w i :=
  ⟨le_refl _, fun _ _ => rfl, h, fun k h1 h2 => by omega, fun h => absurd h hi⟩

/-- After the managed executor, if any, was shut down. -/
theorem shutManaged_ok {w₀ w : World} {i : Inst} (h : ExecOK w₀ w i) :
    (shutManaged w i).1 = .ok () ∧ (shutManaged w i).2.made = w.made ∧
    ∀ j : Inst, j.managing ≠ some true → ExecOK w₀ (shutManaged w i).2 j := by
  unfold shutManaged
  by_cases hm : i.managing = some true
  · obtain ⟨k, h1, h2, h3⟩ := h.managing hm
    rw [hm, h3]
    simp only [Option.getD_some, if_true]
    refine ⟨trivial, trivial, fun j hj => ⟨h.made, fun e he => ?_, fun k' hk' => ?_, fun k' h1' h2' => ?_, fun h => absurd h hj⟩⟩
    · have hne : e ≠ .own k := fun heq => by have := he k heq; omega
      rw [List.count_append, h.old e he, List.count_singleton, if_neg (by simpa using fun heq => hne heq.symm), Nat.add_zero]
    · have hk : k < k' := lt_of_lt_of_le h2 hk'
      rw [List.count_append, h.fresh k' hk', List.count_singleton, if_neg (by simp; omega)]
    · rw [List.count_append, h.own k' h1' h2', List.count_singleton, if_neg (c := j.managing = some true ∧ _) (fun g => hj g.1)]
      by_cases hk : k' = k
      · subst hk
        rw [if_pos ⟨hm, h3⟩, if_pos (by simp)]
      · rw [if_neg (by rw [h3]; simp; intro _ h; exact hk h.symm), if_neg (by simpa using fun h => hk h.symm)]
  · have : i.managing.getD false = false := by
      rcases hi : i.managing with _ | b
      · rfl
      · cases b
        · rfl
        · exact absurd hi hm
    rw [this]
    simp only [Bool.false_eq_true, if_false]
    refine ⟨trivial, trivial, fun j hj => ⟨h.made, h.old, h.fresh, fun k h1 h2 => ?_, fun h => absurd h hj⟩⟩
    rw [h.own k h1 h2, if_neg (fun g => hm g.1), if_neg (fun g => hj g.1)]

theorem newPool_ok {w₀ w : World} (broken : Nat → Bool) (ok : Bool) (h : ∀ j : Inst, j.managing ≠ some true → ExecOK w₀ w j) (i : Inst)
    (hi : i.managing ≠ some true) :
    match newPool broken w ok with
    | (.error _, w') => ExecOK w₀ w' i
    | (.ok x, w') => ExecOK w₀ w' { i with executor := some (some x), managing := some true } := by
  unfold newPool
  split
  · rename_i heq
    split at heq
    · cases heq
    · cases heq
      exact h i hi
  · rename_i heq
    split at heq
    · cases heq
      have g := h i hi
      refine ⟨le_trans g.made (Nat.le_succ _), g.old, fun k hk => g.fresh k (by simp at hk; omega), fun k h1 h2 => ?_, fun _ => ⟨w.made, g.made, by simp, rfl⟩⟩
      by_cases hk : k = w.made
      · subst hk
        rw [if_pos ⟨rfl, rfl⟩]
        exact g.fresh _ (le_refl _)
      · rw [if_neg (by simp; intro h; exact hk h.symm)]
        have := g.own k h1 (by simp at h2; omega)
        rwa [if_neg (fun g => hi g.1)] at this
    · cases heq

theorem setParallel_ok {w₀ w : World} {i : Inst} (broken : Nat → Bool) (h : ExecOK w₀ w i) (p : Setting) :
    ExecOK w₀ (setParallel broken w i p).2.1 (setParallel broken w i p).2.2 := by
  obtain ⟨h1, _, h3⟩ := shutManaged_ok h
  unfold setParallel
  cases hs : shutManaged w i with
  | mk r w' =>
    rw [hs] at h1 h3
    simp only at h1 h3
    subst h1
    simp only
    have key : ∀ ok, ExecOK w₀
        (match newPool broken w' ok with
          | (.error e, w) => ((.error e, w, { i with parallel := some p, managing := some false }) : Except PyErr Unit × World × Inst)
          | (.ok x, w) => (.ok (), w, { i with parallel := some p, executor := some (some x), managing := some true })).2.1
        (match newPool broken w' ok with
          | (.error e, w) => ((.error e, w, { i with parallel := some p, managing := some false }) : Except PyErr Unit × World × Inst)
          | (.ok x, w) => (.ok (), w, { i with parallel := some p, executor := some (some x), managing := some true })).2.2 := by
      intro ok
      have := newPool_ok broken ok h3 { i with parallel := some p, managing := some false } (by simp)
      cases hn : newPool broken w' ok with
      | mk r w'' =>
        rw [hn] at this
        cases r <;> exact this
    cases p with
    | off => exact h3 _ (by simp)
    | on => exact key true
    | number n => exact key _
    | other e => exact h3 _ (by simp)

theorem assign_ok {w₀ : World} (broken : Nat → Bool) (ps : List Setting) {s : World × Inst} (h : ExecOK w₀ s.1 s.2) :
    ExecOK w₀ (ps.foldl (assign broken) s).1 (ps.foldl (assign broken) s).2 := by
  induction ps generalizing s with
  | nil => exact h
  | cons p ps ih => exact ih (setParallel_ok broken h p)

theorem init_ok (broken : Nat → Bool) {w : World} (hw : ∀ k, w.made ≤ k → w.shut.count (.own k) = 0) (good : Bool) (p : Setting) :
    ExecOK w (init broken w good p).2.1 (init broken w good p).2.2 := by
  unfold init
  cases good
  · exact execOK_start hw (by simp)
  · exact setParallel_ok broken (execOK_start hw (i := ⟨some .off, none, none⟩) (by simp)) p

theorem del_ok {w₀ w : World} {i : Inst} (h : ExecOK w₀ w i) :
    (∀ k, w₀.made ≤ k → k < (del w i).made → (del w i).shut.count (.own k) = 1) ∧
    (∀ e, (∀ k, e = .own k → k < w₀.made) → (del w i).shut.count e = w₀.shut.count e) := by
  obtain ⟨_, h2, h3⟩ := shutManaged_ok h
  have g := h3 ⟨none, none, none⟩ (by simp)
  refine ⟨fun k h1 h2 => ?_, g.old⟩
  have := g.own k h1 h2
  rwa [if_neg (by simp)] at this

/-- **C74.** Whatever is assigned to `parallel`, and whatever assignments fail: by the time the optimizer is deleted, every process pool it made
was shut down exactly once — also if making the optimizer itself failed. -/
theorem C74_own_pools_shut_once (broken : Nat → Bool) (w : World) (hw : ∀ k, w.made ≤ k → w.shut.count (.own k) = 0) (goodMinimize : Bool)
    (p : Setting) (ps : List Setting) (k : Nat) (h1 : w.made ≤ k) (h2 : k < (lifetime broken w goodMinimize p ps).made) :
    (lifetime broken w goodMinimize p ps).shut.count (.own k) = 1 := by
  have h := init_ok broken hw goodMinimize p
  unfold lifetime at h2 ⊢
  cases hi : init broken w goodMinimize p with
  | mk r wi =>
    rw [hi] at h h2
    cases r with
    | error e => exact (del_ok h).1 k h1 h2
    | ok u => exact (del_ok (assign_ok broken ps h)).1 k h1 h2

/-- **C74.** Executors of the user, and of other optimizers, are never shut down. -/
theorem C74_others_never_shut (broken : Nat → Bool) (w : World) (hw : ∀ k, w.made ≤ k → w.shut.count (.own k) = 0) (goodMinimize : Bool)
    (p : Setting) (ps : List Setting) (e : Exec) (he : ∀ k, e = .own k → k < w.made) :
    (lifetime broken w goodMinimize p ps).shut.count e = w.shut.count e := by
  have h := init_ok broken hw goodMinimize p
  unfold lifetime
  cases hi : init broken w goodMinimize p with
  | mk r wi =>
    rw [hi] at h
    cases r with
    | error e' => exact (del_ok h).2 e he
    | ok u => exact (del_ok (assign_ok broken ps h)).2 e he

/-- **C74.** Between two assignments, all pools the optimizer made are shut down except the one in use: at most one is open. -/
theorem C74_one_pool_at_a_time (broken : Nat → Bool) (w : World) (hw : ∀ k, w.made ≤ k → w.shut.count (.own k) = 0) (p : Setting)
    (ps : List Setting) :
    let s := ps.foldl (assign broken) (init broken w true p).2
    ∀ k, w.made ≤ k → k < s.1.made → .own k ∉ s.1.shut → s.2.executor = some (some (.own k)) := by
  intro s k h1 h2 h3
  have h : ExecOK w s.1 s.2 := assign_ok broken ps (init_ok broken hw true p)
  have := h.own k h1 h2
  rw [List.count_eq_zero.mpr h3] at this
  by_contra hne
  rw [if_neg (fun g => hne g.2)] at this
  cases this

/-- **C74.** After an assignment that did not raise, the optimizer does not hold a pool that was shut down. -/
theorem C74_open_after_assignment (broken : Nat → Bool) (w : World) (hw : ∀ k, w.made ≤ k → w.shut.count (.own k) = 0) (p : Setting)
    (ps : List Setting) (q : Setting) :
    let s := ps.foldl (assign broken) (init broken w true p).2
    (setParallel broken s.1 s.2 q).1 = .ok () → ∀ k, (setParallel broken s.1 s.2 q).2.2.executor = some (some (.own k)) →
      .own k ∉ (setParallel broken s.1 s.2 q).2.1.shut := by
  intro s hok k hk
  have h : ExecOK w s.1 s.2 := assign_ok broken ps (init_ok broken hw true p)
  have hn := setParallel_ok broken h q
  -- a pool is held only as a managed one
  have hman : (setParallel broken s.1 s.2 q).2.2.managing = some true := by
    obtain ⟨g1, _, _⟩ := shutManaged_ok h
    unfold setParallel at hok hk ⊢
    cases hs : shutManaged s.1 s.2 with
    | mk r w' =>
      rw [hs] at g1 hok hk
      simp only at g1
      subst g1
      simp only at hok hk ⊢
      cases q with
      | off => simp at hk
      | on =>
        simp only at hok hk ⊢
        cases hn : newPool broken w' true with
        | mk r w'' =>
          rw [hn] at hok hk
          cases r with
          | error e => cases hok
          | ok x => rfl
      | number n =>
        simp only at hok hk ⊢
        cases hn : newPool broken w' (decide (0 < n)) with
        | mk r w'' =>
          rw [hn] at hok hk
          cases r with
          | error e => cases hok
          | ok x => rfl
      | other e =>
        cases e <;> simp at hk
  obtain ⟨k', h1, h2, h3⟩ := hn.managing hman
  rw [hk] at h3
  simp only [Option.some.injEq, Exec.own.injEq] at h3
  subst h3
  have := hn.own k h1 h2
  rw [if_pos ⟨hman, hk⟩] at this
  exact List.count_eq_zero.mp this

/-- **C74.** `parallel` reads what was last assigned, whether or not the assignment raised; no other exception than that of making a pool occurs,
and only if one is made. -/
theorem C74_setter_effect (broken : Nat → Bool) (w : World) (hw : ∀ k, w.made ≤ k → w.shut.count (.own k) = 0) (p : Setting)
    (ps : List Setting) (q : Setting) :
    let s := ps.foldl (assign broken) (init broken w true p).2
    let r := setParallel broken s.1 s.2 q
    r.2.2.parallel = some q ∧
    (match q with
    | .off => r.1 = .ok () ∧ r.2.2.executor = some none
    | .other e => r.1 = .ok () ∧ r.2.2.executor = some (e.map .user)
    | .on => r.1 = .ok () ↔ broken s.1.made = false
    | .number n => r.1 = .ok () ↔ 0 < n ∧ broken s.1.made = false) ∧
    (r.1 = .ok () → (q = .on ∨ ∃ n, q = .number n) → r.2.2.executor = some (some (.own s.1.made)) ∧ r.2.1.made = s.1.made + 1) ∧
    ∀ e, r.1 = .error e → e = .value := by
  intro s r
  have h : ExecOK w s.1 s.2 := assign_ok broken ps (init_ok broken hw true p)
  obtain ⟨g1, g2, _⟩ := shutManaged_ok h
  simp only [r, setParallel]
  cases hs : shutManaged s.1 s.2 with
  | mk x w' =>
    rw [hs] at g1 g2
    simp only at g1 g2
    subst g1
    cases q with
    | off => simp
    | other e => simp
    | on =>
      cases hb : broken s.1.made <;> simp [newPool, g2, hb]
    | number n =>
      cases hb : broken s.1.made <;> by_cases hn : 0 < n <;> simp [newPool, g2, hb, hn]

/-! ## Jobs -/

theorem cancel_count (fs : List Nat) (r : Nat) : (fs.map JobEvent.cancel).count (.cancel r) = fs.count r ∧ (fs.map JobEvent.cancel).count (.await r) = 0 ∧
    (fs.map JobEvent.cancel).count (.submit r) = 0 := by
  refine ⟨?_, ?_, ?_⟩
  · exact List.count_map_of_injective fs _ (fun a b h => by cases h; rfl) r
  · exact List.count_eq_zero.mpr (by simp)
  · exact List.count_eq_zero.mpr (by simp)

theorem count_await (t : List JobEvent) (f r : Nat) : (JobEvent.await f :: t).count (.await r) = t.count (.await r) + (if f = r then 1 else 0) ∧
    (JobEvent.await f :: t).count (.cancel r) = t.count (.cancel r) ∧ (JobEvent.await f :: t).count (.submit r) = t.count (.submit r) := by
  refine ⟨?_, ?_, ?_⟩ <;> simp [List.count_cons]

theorem drain_count (late : Nat → Bool) (raises : Nat → Option PyErr) (k : Nat) (fs : List Nat) (r : Nat) :
    (drain late raises k fs).1.count (.submit r) = 0 ∧
    (drain late raises k fs).1.count (.await r) + (drain late raises k fs).1.count (.cancel r) ≤ fs.count r ∧
    ((drain late raises k fs).2 = .ok () →
      (drain late raises k fs).1.count (.await r) + (drain late raises k fs).1.count (.cancel r) = fs.count r) := by
  induction fs generalizing k with
  | nil => simp [drain]
  | cons f fs ih =>
    simp only [drain]
    split
    · refine ⟨by simp, ?_, fun h => by cases h⟩
      simp only [List.count_cons, List.count_nil]
      split <;> simp_all
    · split
      · obtain ⟨h1, h2, h3⟩ := cancel_count fs r
        obtain ⟨g1, g2, g3⟩ := count_await (fs.map JobEvent.cancel) f r
        simp only
        rw [g1, g2, g3, h1, h2, h3, List.count_cons]
        refine ⟨rfl, ?_, fun _ => ?_⟩ <;> simp [Nat.add_comm, beq_iff_eq]
      · obtain ⟨i1, i2, i3⟩ := ih (k + 1)
        obtain ⟨g1, g2, g3⟩ := count_await (drain late raises (k + 1) fs).1 f r
        simp only
        rw [g1, g2, g3, List.count_cons]
        simp only [beq_iff_eq]
        refine ⟨i1, by omega, fun h => ?_⟩
        have := i3 h
        omega

theorem jobs_count (pre : Nat) (late : Nat → Bool) (raises : Nat → Option PyErr) (k : Nat) (rs fs : List Nat) (r : Nat) :
    (jobs pre late raises k rs fs).1.count (.submit r) ≤ rs.count r ∧
    (jobs pre late raises k rs fs).1.count (.await r) + (jobs pre late raises k rs fs).1.count (.cancel r) ≤
      fs.count r + (jobs pre late raises k rs fs).1.count (.submit r) ∧
    ((jobs pre late raises k rs fs).2 = .ok () →
      (jobs pre late raises k rs fs).1.count (.await r) + (jobs pre late raises k rs fs).1.count (.cancel r) =
        fs.count r + (jobs pre late raises k rs fs).1.count (.submit r)) := by
  induction rs generalizing k fs with
  | nil =>
    obtain ⟨h1, h2, h3⟩ := drain_count late raises k fs r
    simp only [jobs]
    rw [h1]
    exact ⟨by simp, h2, h3⟩
  | cons a rs ih =>
    simp only [jobs]
    split
    · obtain ⟨h1, h2, h3⟩ := ih k (fs ++ [a])
      have e1 : ∀ t : List JobEvent, (JobEvent.submit a :: t).count (.submit r) = t.count (.submit r) + (if a = r then 1 else 0) := by
        intro t; simp [List.count_cons]
      have e2 : ∀ t : List JobEvent, (JobEvent.submit a :: t).count (.await r) = t.count (.await r) := by intro t; simp
      have e3 : ∀ t : List JobEvent, (JobEvent.submit a :: t).count (.cancel r) = t.count (.cancel r) := by intro t; simp
      have e4 : (fs ++ [a]).count r = fs.count r + (if a = r then 1 else 0) := by
        rw [List.count_append, List.count_singleton]; simp
      rw [e4] at h2 h3
      simp only [e1, e2, e3, List.count_cons, beq_iff_eq]
      refine ⟨by omega, by omega, fun h => ?_⟩
      have := h3 h
      omega
    · split
      · exact ⟨by simp, by simp, fun h => by cases h⟩
      · rename_i f fs' _
        split
        · refine ⟨by simp, ?_, fun h => by cases h⟩
          simp only [List.count_cons, List.count_nil]
          split <;> simp_all
        · split
          · obtain ⟨h1, h2, h3⟩ := cancel_count fs' r
            obtain ⟨g1, g2, g3⟩ := count_await (fs'.map JobEvent.cancel) f r
            simp only
            rw [g1, g2, g3, h1, h2, h3]
            simp only [List.count_cons, beq_iff_eq]
            refine ⟨by omega, by omega, fun _ => by omega⟩
          · obtain ⟨i1, i2, i3⟩ := ih (k + 1) fs'
            obtain ⟨g1, g2, g3⟩ := count_await (jobs pre late raises (k + 1) rs fs').1 f r
            simp only
            rw [g1, g2, g3]
            simp only [List.count_cons, beq_iff_eq]
            refine ⟨by omega, by omega, fun h => ?_⟩
            have := i3 h
            omega

/-- **C74.** In a call that does not raise, every job that was submitted is awaited or cancelled, exactly once, and no other is. -/
theorem C74_jobs_settled (closed : Exec → Bool) (i : Inst) (pre : Nat) (late : Nat → Bool) (raises : Nat → Option PyErr) (repeats : List Nat)
    (h : (call closed i pre late raises repeats).2 = .ok ()) (r : Nat) :
    (call closed i pre late raises repeats).1.count (.await r) + (call closed i pre late raises repeats).1.count (.cancel r) =
      (call closed i pre late raises repeats).1.count (.submit r) := by
  unfold call at h ⊢
  split at h
  · cases h
  · rfl
  · split at h
    · cases h
    · rename_i hc
      simp only [if_neg hc]
      have := (jobs_count pre late raises 0 repeats [] r).2.2 h
      simpa using this

/-- **C74.** In any call, raising or not, each trial is submitted at most once, and only a job that was submitted is awaited or cancelled. -/
theorem C74_jobs_once (closed : Exec → Bool) (i : Inst) (pre : Nat) (late : Nat → Bool) (raises : Nat → Option PyErr) {repeats : List Nat}
    (hn : repeats.Nodup) (r : Nat) :
    (call closed i pre late raises repeats).1.count (.submit r) ≤ 1 ∧
    (call closed i pre late raises repeats).1.count (.await r) + (call closed i pre late raises repeats).1.count (.cancel r) ≤
      (call closed i pre late raises repeats).1.count (.submit r) := by
  unfold call
  split
  · simp
  · simp
  · split
    · simp
    · obtain ⟨h1, h2, _⟩ := jobs_count pre late raises 0 repeats [] r
      exact ⟨le_trans h1 (List.nodup_iff_count_le_one.mp hn r), by simpa using h2⟩

/-- Jobs submitted and not yet awaited or cancelled after the events of `t`, starting from `n`. -/
def outstanding (n : Nat) : List JobEvent → Nat
  | [] => n
  | .submit _ :: t => outstanding (n + 1) t
  | _ :: t => outstanding (n - 1) t

theorem outstanding_cancel (n : Nat) (fs : List Nat) {t : List JobEvent} (h : t <+: fs.map .cancel) : outstanding n t ≤ n := by
  induction fs generalizing n t with
  | nil => rw [List.map_nil, List.prefix_nil] at h; subst h; exact le_refl _
  | cons f fs ih =>
    rcases t with _ | ⟨e, t⟩
    · exact le_refl _
    · rw [List.map_cons, List.cons_prefix_cons] at h
      obtain ⟨rfl, h⟩ := h
      exact le_trans (ih (n - 1) h) (Nat.sub_le _ _)

theorem outstanding_drain (late : Nat → Bool) (raises : Nat → Option PyErr) (k : Nat) (fs : List Nat) {t : List JobEvent}
    (h : t <+: (drain late raises k fs).1) : outstanding fs.length t ≤ fs.length := by
  induction fs generalizing k t with
  | nil => simp only [drain, List.prefix_nil] at h; subst h; exact le_refl _
  | cons f fs ih =>
    rcases t with _ | ⟨e, t⟩
    · exact le_refl _
    · simp only [drain] at h
      have step : ∀ {l}, (e :: t) <+: (JobEvent.await f :: l) → (∀ t', t' <+: l → outstanding fs.length t' ≤ fs.length) →
          outstanding (fs.length + 1) (e :: t) ≤ fs.length + 1 := by
        intro l hl hl'
        rw [List.cons_prefix_cons] at hl
        obtain ⟨rfl, hl⟩ := hl
        exact Nat.le_succ_of_le (hl' t hl)
      split at h
      · exact step h (fun t' ht => by rw [List.prefix_nil] at ht; subst ht; exact le_refl _)
      · split at h
        · exact step h (fun t' ht => outstanding_cancel _ fs ht)
        · exact step h (fun t' ht => ih (k + 1) ht)

theorem outstanding_jobs (pre : Nat) (late : Nat → Bool) (raises : Nat → Option PyErr) (k : Nat) (rs fs : List Nat) (hf : fs.length ≤ pre)
    {t : List JobEvent} (h : t <+: (jobs pre late raises k rs fs).1) : outstanding fs.length t ≤ pre := by
  induction rs generalizing k fs t with
  | nil => exact le_trans (outstanding_drain late raises k fs (by simpa [jobs] using h)) hf
  | cons a rs ih =>
    rcases t with _ | ⟨e, t⟩
    · exact hf
    · simp only [jobs] at h
      split at h
      · rename_i hlt
        rw [List.cons_prefix_cons] at h
        obtain ⟨rfl, h⟩ := h
        have := ih k (fs ++ [a]) (by simp; omega) h
        simpa [outstanding] using this
      · split at h
        · simp at h
        · rename_i f fs' _
          rw [List.length_cons] at hf
          have step : ∀ {l}, (e :: t) <+: (JobEvent.await f :: l) → (∀ t', t' <+: l → outstanding fs'.length t' ≤ pre) →
              outstanding (fs'.length + 1) (e :: t) ≤ pre := by
            intro l hl hl'
            rw [List.cons_prefix_cons] at hl
            obtain ⟨rfl, hl⟩ := hl
            exact hl' t hl
          split at h
          · exact step h (fun t' ht => by rw [List.prefix_nil] at ht; subst ht; simp only [outstanding]; omega)
          · split at h
            · exact step h (fun t' ht => le_trans (outstanding_cancel _ fs' ht) (by omega))
            · exact step h (fun t' ht => ih (k + 1) fs' (by omega) ht)

/-- **C74.** At no time during a call are more than `pre_dispatch` jobs outstanding. -/
theorem C74_outstanding (closed : Exec → Bool) (i : Inst) (pre : Nat) (late : Nat → Bool) (raises : Nat → Option PyErr) (repeats : List Nat)
    (t : List JobEvent) (h : t <+: (call closed i pre late raises repeats).1) : outstanding 0 t ≤ pre := by
  have nil : t <+: [] → outstanding 0 t ≤ pre := fun h => by rw [List.prefix_nil] at h; subst h; exact Nat.zero_le _
  unfold call at h
  split at h
  · exact nil h
  · exact nil h
  · split at h
    · exact nil h
    · exact outstanding_jobs pre late raises 0 repeats [] (Nat.zero_le _) h

/-- The exception of a trial. -/
def trialError {τ : Type} : Except PyErr τ → Option PyErr
  | .error e => some e
  | .ok _ => none

/-- The trials awaited, in order. -/
def awaited (t : List JobEvent) : List Nat := t.filterMap (fun e => match e with | .await r => some r | _ => none)

/-- The cost of a trial that did not raise. -/
def costOf (t : Except PyErr Trial) : Option Nat :=
  match t with
  | .error _ => none
  | .ok t => some t.cost

theorem awaited_cancel (fs : List Nat) : awaited (fs.map .cancel) = [] := by
  induction fs with
  | nil => rfl
  | cons f fs ih => simp [awaited]

theorem assessTrial_costs (bySize : Bool) (st : ROSt) (t : Trial) : (assessTrial bySize st t).costs = st.costs ++ [t.cost] := by
  unfold assessTrial
  simp only
  split <;> rfl

theorem drain_assess (bySize : Bool) (late : Nat → Bool) (trial : Nat → Except PyErr Trial) (k : Nat) (fs : List Nat) (st : ROSt) :
    (drain late (fun r => trialError (trial r)) k fs).2 = (assessLoop bySize late k (fs.map trial) st).1 ∧
    (assessLoop bySize late k (fs.map trial) st).2.costs =
      st.costs ++ (awaited (drain late (fun r => trialError (trial r)) k fs).1).filterMap (fun r => costOf (trial r)) := by
  induction fs generalizing k st with
  | nil => simp [drain, assessLoop, awaited]
  | cons f fs ih =>
    cases hf : trial f with
    | error e => simp [drain, assessLoop, hf, trialError, awaited, costOf]
    | ok t =>
      cases hl : late (k + 1) with
      | true =>
        have := awaited_cancel fs
        unfold awaited at this
        simp [drain, assessLoop, hf, trialError, awaited, hl, costOf, assessTrial_costs, this]
      | false =>
        obtain ⟨h1, h2⟩ := ih (k + 1) (assessTrial bySize st t)
        unfold awaited at h2
        rw [assessTrial_costs] at h2
        simp [drain, assessLoop, hf, trialError, awaited, hl, costOf] at h1 h2 ⊢
        exact ⟨h1, h2⟩

theorem jobs_assess (bySize : Bool) (pre : Nat) (late : Nat → Bool) (trial : Nat → Except PyErr Trial) (k : Nat) (rs fs : List Nat) (st : ROSt) :
    (jobs pre late (fun r => trialError (trial r)) k rs fs).2 = (assessLoop bySize late k (genParallel pre trial rs (fs.map trial)) st).1 ∧
    (assessLoop bySize late k (genParallel pre trial rs (fs.map trial)) st).2.costs =
      st.costs ++ (awaited (jobs pre late (fun r => trialError (trial r)) k rs fs).1).filterMap (fun r => costOf (trial r)) := by
  induction rs generalizing k fs st with
  | nil => simpa [jobs, genParallel] using drain_assess bySize late trial k fs st
  | cons a rs ih =>
    by_cases hlt : fs.length < pre
    · have := ih k (fs ++ [a]) st
      simp only [jobs, hlt, if_true]
      rw [genParallel.eq_def]
      simp only [List.length_map, hlt, if_true]
      rw [List.map_append] at this
      simpa [awaited] using this
    · rcases fs with _ | ⟨f, fs⟩
      · simp only [jobs, hlt, if_false]
        rw [genParallel.eq_def]
        have h0 : pre = 0 := by simpa using hlt
        subst h0
        simp [assessLoop, awaited]
      · simp only [jobs, hlt, if_false]
        rw [genParallel.eq_def]
        simp only [List.map_cons, List.length_cons, List.length_map] at hlt ⊢
        simp only [hlt, if_false]
        cases hf : trial f with
        | error e => simp [assessLoop, trialError, awaited, costOf, hf]
        | ok t =>
          cases hl : late (k + 1) with
          | true =>
            have := awaited_cancel fs
            unfold awaited at this
            simp [assessLoop, trialError, awaited, costOf, hf, hl, assessTrial_costs, this]
          | false =>
            obtain ⟨h1, h2⟩ := ih (k + 1) fs (assessTrial bySize st t)
            unfold awaited at h2
            rw [assessTrial_costs] at h2
            simp [assessLoop, hf, trialError, awaited, hl, costOf] at h1 h2 ⊢
            exact ⟨h1, h2⟩

/-- **C74.** The jobs and the search agree (`roCall` of C24 and C25): the costs recorded by a call are those of the jobs awaited, in that order,
and the search raises what the first awaited job that fails raises. -/
theorem C74_awaited_recorded (closed : Exec → Bool) (i : Inst) (e : Exec) (hi : i.executor = some (some e)) (hc : closed e = false)
    (bySize : Bool) (pre maxRepeats : Nat) (late : Nat → Bool) (trial : Nat → Except PyErr Trial) (st : ROSt) :
    let c := call closed i pre late (fun r => trialError (trial r)) (List.range' st.costs.length maxRepeats)
    let s := roCall bySize maxRepeats (some pre) late trial st
    s.2.costs = st.costs ++ (awaited c.1).filterMap (fun r => costOf (trial r)) ∧
    (∀ x, c.2 = .error x → s.1 = .error x) := by
  intro c s
  have hcall : c = jobs pre late (fun r => trialError (trial r)) 0 (List.range' st.costs.length maxRepeats) [] := by
    simp [c, call, hi, hc]
  obtain ⟨h1, h2⟩ := jobs_assess bySize pre late trial 0 (List.range' st.costs.length maxRepeats) [] st
  rw [← hcall] at h1 h2
  simp only [s, roCall, callTrials]
  rw [List.map_nil] at h1 h2
  cases ha : assessLoop bySize late 0 (genParallel pre trial (List.range' st.costs.length maxRepeats) []) st with
  | mk r st' =>
    rw [ha] at h1 h2
    simp only at h1 h2
    cases r with
    | error y => exact ⟨h2, fun x hx => by rw [hx] at h1; cases h1; rfl⟩
    | ok u => exact ⟨h2, fun x hx => by rw [hx] at h1; cases h1⟩

/-! ## Examples and counterexamples -/

/-- A pool, another one, a failure, an executor of the user: two pools were made, each shut down once. -/
example : (lifetime (fun _ => false) ⟨0, []⟩ true .on [.number 4, .number 0, .other (some 7), .off]).shut = [.own 0, .own 1] ∧
    (lifetime (fun _ => false) ⟨0, []⟩ true .on [.number 4, .number 0, .other (some 7), .off]).made = 2 := by decide +kernel

/-- Deleted while a pool is open. -/
example : (lifetime (fun _ => false) ⟨0, []⟩ true (.other (some 7)) [.number 4]).shut = [.own 0] := by decide +kernel

/-- Making the optimizer fails. -/
example : (lifetime (fun _ => false) ⟨3, []⟩ true (.number (-1)) []).shut = [] ∧
    (lifetime (fun _ => false) ⟨3, []⟩ false .on []).made = 3 := by decide +kernel

/-- Time runs out after two trials: the jobs left are cancelled; at most three are outstanding. -/
example : (call (fun _ => false) ⟨some .on, some true, some (some (.own 0))⟩ 3 (fun k => k == 2) (fun _ => none) [0, 1, 2, 3, 4, 5]).1 =
    [.submit 0, .submit 1, .submit 2, .await 0, .submit 4, .await 1, .cancel 2, .cancel 4] := by decide +kernel

/-- **C74, counterexample.** The setter shuts the old pool down before it makes the new one. If that fails, the optimizer is left holding the
pool that was shut down, and further calls raise `RuntimeError`, although `parallel` was usable before. -/
theorem C74_counterexample_stale :
    let s := (init (fun _ => false) ⟨0, []⟩ true .on).2
    let r := setParallel (fun _ => false) s.1 s.2 (.number 0)
    r.1 = .error .value ∧ r.2.2.executor = some (some (.own 0)) ∧ r.2.1.shut = [.own 0] ∧
    (call (fun e => decide (e ∈ r.2.1.shut)) r.2.2 128 (fun _ => false) (fun _ => none) (List.range' 0 32)).2 = .error .runtime := by
  refine ⟨rfl, rfl, rfl, ?_⟩
  decide +kernel

/-- **C74, counterexample.** If a trial raises, the jobs still outstanding are neither awaited nor cancelled. -/
theorem C74_counterexample_raises :
    call (fun _ => false) ⟨some .on, some true, some (some (.own 0))⟩ 3 (fun _ => false) (fun r => if r = 0 then some .value else none) [0, 1, 2] =
      ([.submit 0, .submit 1, .submit 2, .await 0], .error .value) := by
  rfl

end OE.Props
