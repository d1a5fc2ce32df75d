import Verif.Spec.SharingStack
import Verif.Lemmas.DictLemmas
import Verif.Lemmas.GreedyInv

/-!
# C41: sharing contexts nest and are thread-local
-/

namespace OE.Props
open OE OE.Py OE.Spec OE.Sharing
variable {C : Type}

theorem openContexts_append (a b : List (Cmd C)) (l : List C) :
    openContexts (a ++ b) l = (openContexts a l).bind (openContexts b) := by
  induction a generalizing l with
  | nil => rfl
  | cons cmd a ih =>
    cases cmd with
    | enter c => exact ih _
    | leave =>
      simp only [List.cons_append, openContexts]
      split
      · rfl
      · exact ih _
    | getCache =>
      simp only [List.cons_append, openContexts]
      split
      · rfl
      · exact ih _

/-- What holds of one thread: the commands it has begun are a prefix of its program, and its entry of the dictionary matches the
contexts they leave open. -/
structure ThreadOk (prog₀ : List (Cmd C)) (entry : Option (List C)) (pc : Pc C) (rest : List (Cmd C)) (begun : List (Cmd C)) : Prop where
  split : prog₀ = begun ++ rest
  state : ∃ o, openContexts begun [] = some o ∧
    match pc with
    | .idle => (o = [] ∧ entry = none) ∨ (o ≠ [] ∧ entry = some o)
    | .append c => ∃ o', o = o' ++ [c] ∧ entry = some o'
    | .pop => ∃ c, entry = some (o ++ [c])
    | .check => entry = some o
    | .del => o = [] ∧ entry = some []

theorem touch_entry (st : Stack C) (tid : Nat) :
    (touch st tid).1 = (st.get? tid).getD [] ∧ (touch st tid).2.get? tid = some ((st.get? tid).getD []) ∧
    ∀ t, t ≠ tid → (touch st tid).2.get? t = st.get? t := by
  unfold touch
  cases h : st.get? tid with
  | some l => exact ⟨rfl, h, fun _ _ => rfl⟩
  | none => exact ⟨rfl, Dict.get?_set_self _ _ _, fun t ht => Dict.get?_set_ne ht⟩

/-- The step of a thread leaves the others alone and keeps its own invariant. -/
theorem stepThread_ok {progs : Nat → List (Cmd C)} (hp : ∀ t, WellNested (progs t)) {s : Sys C} {begun : Nat → List (Cmd C)}
    (h : ∀ t, ThreadOk (progs t) (s.stack.get? t) (s.pc t) (s.prog t) (begun t)) (tid : Nat) :
    ∃ (s' : Sys C) (begun' : Nat → List (Cmd C)), stepThread s tid = .ok s' ∧ ∀ t, ThreadOk (progs t) (s'.stack.get? t) (s'.pc t) (s'.prog t) (begun' t) := by
  obtain ⟨hsplit, o, ho, hst⟩ := h tid
  cases hpc : s.pc tid with
  | idle =>
    rw [hpc] at hst
    simp only at hst
    cases hprog : s.prog tid with
    | nil =>
      refine ⟨s, begun, ?_, h⟩
      simp only [stepThread, hpc, hprog]
    | cons cmd rest =>
      rw [hprog] at hsplit
      have hopen : openContexts (cmd :: rest) o ≠ none := by
        have := hp tid
        unfold WellNested at this
        rw [hsplit, openContexts_append, ho] at this
        exact this
      have hnew : progs tid = (begun tid ++ [cmd]) ++ rest := by rw [hsplit]; simp
      have hob : openContexts (begun tid ++ [cmd]) [] = openContexts [cmd] o := by rw [openContexts_append, ho]; rfl
      obtain ⟨_, ht2, ht3⟩ := touch_entry s.stack tid
      have hent : (s.stack.get? tid).getD [] = o := by
        rcases hst with ⟨h1, h2⟩ | ⟨_, h2⟩
        · rw [h2, h1]; rfl
        · rw [h2]; rfl
      let begun' : Nat → List (Cmd C) := fun t => if t = tid then begun tid ++ [cmd] else begun t
      have hb1 : begun' tid = begun tid ++ [cmd] := if_pos rfl
      have hb2 : ∀ t, t ≠ tid → begun' t = begun t := fun t ht => if_neg ht
      cases cmd with
      | enter c =>
        refine ⟨_, begun', by simp only [stepThread, hpc, hprog]; rfl, ?_⟩
        intro t
        by_cases ht : t = tid
        · subst ht
          simp only [if_true, hb1]
          refine ⟨hnew, o ++ [c], by rw [hob]; rfl, o, rfl, ?_⟩
          rw [ht2, hent]
        · simp only [if_neg ht, hb2 t ht, ht3 t ht]
          exact h t
      | leave =>
        have hne : o ≠ [] := by
          intro e; subst e; simp [openContexts] at hopen
        refine ⟨_, begun', by simp only [stepThread, hpc, hprog]; rfl, ?_⟩
        intro t
        by_cases ht : t = tid
        · subst ht
          simp only [if_true, hb1]
          refine ⟨hnew, o.dropLast, by rw [hob]; simp [openContexts, hne], o.getLast hne, ?_⟩
          rw [ht2, hent, List.dropLast_append_getLast]
        · simp only [if_neg ht, hb2 t ht, ht3 t ht]
          exact h t
      | getCache =>
        have hne : o ≠ [] := by
          intro e; subst e; simp [openContexts] at hopen
        have hentry : s.stack.get? tid = some o := by
          rcases hst with ⟨h1, _⟩ | ⟨_, h2⟩
          · exact absurd h1 hne
          · exact h2
        have hget : getSharingCache s.stack tid = (.ok (o.getLast hne), s.stack) := by
          unfold getSharingCache touch
          rw [hentry]
          simp [List.getLast?_eq_getLast_of_ne_nil hne]
        refine ⟨_, begun', by simp only [stepThread, hpc, hprog, hget]; rfl, ?_⟩
        intro t
        by_cases ht : t = tid
        · subst ht
          simp only [if_true, hb1, hpc]
          exact ⟨hnew, o, by rw [hob]; simp [openContexts, hne], Or.inr ⟨hne, hentry⟩⟩
        · simp only [if_neg ht, hb2 t ht]
          exact h t
  | append c =>
    rw [hpc] at hst
    obtain ⟨o', rfl, he⟩ := hst
    refine ⟨_, begun, by simp only [stepThread, hpc]; rfl, ?_⟩
    intro t
    by_cases ht : t = tid
    · subst ht
      simp only [if_true, he, Option.getD_some, Dict.get?_set_self]
      exact ⟨hsplit, _, ho, Or.inr ⟨by simp, rfl⟩⟩
    · simp only [if_neg ht, Dict.get?_set_ne ht]
      exact h t
  | pop =>
    rw [hpc] at hst
    obtain ⟨c, he⟩ := hst
    have hne : o ++ [c] ≠ [] := by simp
    refine ⟨{ s with stack := s.stack.set tid o, pc := fun t => if t = tid then .check else s.pc t }, begun, ?_, ?_⟩
    · simp only [stepThread, hpc, he, Option.getD_some]
      cases hoc : o ++ [c] with
      | nil => exact absurd hoc hne
      | cons x xs => simp only [← hoc, List.dropLast_concat]
    · intro t
      by_cases ht : t = tid
      · subst ht
        simp only [if_true, Dict.get?_set_self]
        exact ⟨hsplit, o, ho, rfl⟩
      · simp only [if_neg ht, Dict.get?_set_ne ht]
        exact h t
  | check =>
    rw [hpc] at hst
    simp only at hst
    have htouch : touch s.stack tid = (o, s.stack) := by unfold touch; rw [hst]
    cases o with
    | nil =>
      refine ⟨_, begun, by simp only [stepThread, hpc, htouch]; rfl, ?_⟩
      intro t
      by_cases ht : t = tid
      · subst ht
        simp only [if_true]
        exact ⟨hsplit, [], ho, rfl, hst⟩
      · simp only [if_neg ht]
        exact h t
    | cons x xs =>
      refine ⟨_, begun, by simp only [stepThread, hpc, htouch]; rfl, ?_⟩
      intro t
      by_cases ht : t = tid
      · subst ht
        simp only [if_true]
        exact ⟨hsplit, _, ho, Or.inr ⟨by simp, hst⟩⟩
      · simp only [if_neg ht]
        exact h t
  | del =>
    rw [hpc] at hst
    obtain ⟨rfl, he⟩ := hst
    refine ⟨{ s with stack := s.stack.del tid, pc := fun t => if t = tid then .idle else s.pc t }, begun, ?_, ?_⟩
    · simp only [stepThread, hpc]
      rw [if_pos (by rw [Dict.has, he]; rfl)]
    · intro t
      by_cases ht : t = tid
      · subst ht
        simp only [if_true]
        refine ⟨hsplit, [], ho, Or.inl ⟨rfl, ?_⟩⟩
        rw [Dict.get?_eq_none, Dict.mem_keys_del]
        simp
      · simp only [if_neg ht]
        have : (s.stack.del tid).get? t = s.stack.get? t := by
          unfold Dict.del
          induction s.stack with
          | nil => rfl
          | cons p d ih =>
            obtain ⟨k, v⟩ := p
            by_cases hk : k = tid
            · subst hk
              rw [List.filter_cons_of_neg (by simp), ih, Dict.get?, if_neg (fun e => ht e.symm)]
            · rw [List.filter_cons_of_pos (by simpa using hk), Dict.get?, Dict.get?, ih]
        rw [this]
        exact h t

theorem runSchedule_ok {progs : Nat → List (Cmd C)} (hp : ∀ t, WellNested (progs t)) (sched : List Nat) {s : Sys C} {begun : Nat → List (Cmd C)}
    (h : ∀ t, ThreadOk (progs t) (s.stack.get? t) (s.pc t) (s.prog t) (begun t)) :
    ∃ (s' : Sys C) (begun' : Nat → List (Cmd C)), runSchedule s sched = .ok s' ∧ ∀ t, ThreadOk (progs t) (s'.stack.get? t) (s'.pc t) (s'.prog t) (begun' t) := by
  induction sched generalizing s begun with
  | nil => exact ⟨s, begun, rfl, h⟩
  | cons tid sched ih =>
    obtain ⟨s', begun', h1, h2⟩ := stepThread_ok hp h tid
    obtain ⟨s'', begun'', h3, h4⟩ := ih h2
    refine ⟨s'', begun'', ?_, h4⟩
    simp only [runSchedule, h1]
    exact h3

/-- **C41.** For any programs that use the contexts as `with` statements do, and any schedule of the threads' atomic steps: no step
raises, and whenever a thread is between two commands, `currently_sharing()` tells whether it is inside at least one of its own
contexts, and inside one `get_sharing_cache()` is the cache of its innermost one. The contexts a thread is inside are computed from the
commands of that thread alone, so the other threads have no influence.
`_partial`: `get_sharing_cache` must not be called outside every context, see `C41_query_outside`. -/
theorem C41_sharing_stack_partial (progs : Nat → List (Cmd C)) (hp : ∀ t, WellNested (progs t)) (sched : List Nat) :
    ∃ s, runSchedule (start progs) sched = .ok s ∧ ∀ t, s.pc t = .idle →
      ∃ done, progs t = done ++ s.prog t ∧ ∃ o, openContexts done [] = some o ∧
        (currentlySharing s.stack t = true ↔ o ≠ []) ∧
        ∀ (h : o ≠ []), getSharingCache s.stack t = (.ok (o.getLast h), s.stack) := by
  have h0 : ∀ t, ThreadOk (progs t) ((start progs).stack.get? t) ((start progs).pc t) ((start progs).prog t) [] :=
    fun t => ⟨rfl, [], rfl, Or.inl ⟨rfl, rfl⟩⟩
  obtain ⟨s, begun, h1, h2⟩ := runSchedule_ok hp sched h0
  refine ⟨s, h1, ?_⟩
  intro t ht
  obtain ⟨hsplit, o, ho, hst⟩ := h2 t
  rw [ht] at hst
  refine ⟨begun t, hsplit, o, ho, ?_, ?_⟩
  · unfold currentlySharing Dict.has
    rcases hst with ⟨h3, h4⟩ | ⟨h3, h4⟩
    · rw [h4]; simp [h3]
    · rw [h4]; simp [h3]
  · intro hne
    rcases hst with ⟨h3, _⟩ | ⟨_, h4⟩
    · exact absurd h3 hne
    · unfold getSharingCache touch
      rw [h4]
      simp [List.getLast?_eq_getLast_of_ne_nil hne]

/-- At the end of its program a thread that has left all its contexts is not sharing. -/
theorem C41_balanced (progs : Nat → List (Cmd C)) (hp : ∀ t, WellNested (progs t)) (sched : List Nat) (t : Nat)
    (hb : openContexts (progs t) [] = some []) :
    ∃ s, runSchedule (start progs) sched = .ok s ∧ (s.pc t = .idle → s.prog t = [] → currentlySharing s.stack t = false) := by
  obtain ⟨s, h1, h2⟩ := C41_sharing_stack_partial progs hp sched
  refine ⟨s, h1, ?_⟩
  intro hi he
  obtain ⟨done, hd, o, ho, hs, _⟩ := h2 t hi
  rw [he, List.append_nil] at hd
  subst hd
  rw [hb] at ho
  cases ho
  rw [← Bool.not_eq_true, hs]
  simp

/-- Two threads, nested contexts: the hypotheses hold. -/
example : let progs : Nat → List (Cmd Nat) := fun t => if t = 0 then [.enter 10, .enter 11, .getCache, .leave, .leave] else if t = 1 then [.enter 20, .leave] else []
    (∀ t, WellNested (progs t)) ∧
    (runSchedule (start progs) [0, 1, 0, 0, 1, 0, 1, 0]).map (fun s => (s.stack, currentlySharing s.stack 1)) =
      .ok ([(0, [10, 11]), (1, [20])], true) := by
  refine ⟨?_, rfl⟩
  intro t
  by_cases h0 : t = 0
  · subst h0; simp [WellNested, openContexts]
  · by_cases h1 : t = 1
    · subst h1; simp [WellNested, openContexts]
    · simp [h0, h1, WellNested, openContexts]

/-- What is missing from C41: asking for the active cache outside every context raises `IndexError`, and by creating an empty entry makes
`currently_sharing()` answer `True` afterwards (any later `contract` in that thread then fails). -/
theorem C41_query_outside : (getSharingCache ([] : Stack Nat) 0).1 = .error .index ∧
    currentlySharing ([] : Stack Nat) 0 = false ∧ currentlySharing (getSharingCache ([] : Stack Nat) 0).2 0 = true ∧
    (getSharingCache (getSharingCache ([] : Stack Nat) 0).2 0).1 = .error .index :=
  ⟨rfl, rfl, rfl, rfl⟩

end OE.Props
