import Verif.Lemmas.SharingThreads
import Verif.Props.Sharing3

/-! # C64: several threads may share one cache -/

namespace OE.ShareThreads
open OE OE.Py OE.Parser OE.Contract OE.Share OE.Spec OE.Props
variable {R : Type} [CommSemiring R]

/-- What is claimed of a call when it ends. -/
def Post (E : Env R) (p : Pending R) (o : Except PyErr Nat) (w : World R) : Prop :=
  (∀ n k a, p.event ≠ .convert n k a) → ∀ d, direct E p.start p.event = some d → Agrees (o, w) d

theorem convert_safe {E : Env R} {C : List Nat} {Q : Except PyErr Nat → World R → Prop} (hQ : ∀ o w, Q o w) (L : List Nat) (n : Str)
    (k : Option Bool) (a : Nat) (w : World R) : Safe E C Q (convert E L C n k a fun r => .ret (.ok r)) w := by
  unfold convert
  cases C with
  | nil => exact fun _ _ _ _ _ _ _ _ _ _ _ _ => hQ _ _
  | cons c t =>
    simp only [memoize]
    intro w1 _ hI1
    cases hs : ((cacheOf w1 c).get? (.convert n a k)).isSome with
    | true =>
      simp only [if_true]
      intro w2 hr2 _
      obtain ⟨x, hx⟩ := Option.isSome_iff_exists.mp (hr2.keys c (by simp) _ hs)
      exact ⟨x, hx, fun _ _ _ => hQ _ _⟩
    | false =>
      simp only [Bool.false_eq_true, if_false]
      intro w2 _ _ x _ _ w3 _ _ w4 _ hI4
      exact ⟨by simp, hI4.put (by simp) trivial, fun _ _ _ => hQ _ _⟩

theorem progOf_safe {E : Env R} {C : List Nat} {e : Event R} {p : Prog R} (hp : progOf E C e = some p) {w : World R} (hI : Inv E w)
    (hc : Covered w e) : Safe E C (Post E { event := e, start := w, prog := p }) p w := by
  have hsh : ∀ ids : List Nat, (ids.map w.heap).map Tensor.shape = ids.map (fun i => (w.heap i).shape) := fun ids => by
    rw [List.map_map]; rfl
  have hok : ∀ {d : Except PyErr (Tensor R)}, direct E w e = some d → ∀ x w', d = .ok (w'.heap x) →
      Safe E C (Post E { event := e, start := w, prog := p }) (.ret (.ok x)) w' := by
    intro d hd x w' hx w'' hr _ _ d' hd'
    rw [hd] at hd'
    cases hd'
    rw [hx]
    exact hr.heap x (by simp [Prog.locs])
  have herr : ∀ {d : Except PyErr (Tensor R)}, direct E w e = some d → (∃ er, d = .error er) → ∀ er w',
      Post E { event := e, start := w, prog := p } (.error er) w' := by
    rintro d hd ⟨er, rfl⟩ er' w' _ d' hd'
    rw [show direct E w e = some d' from hd'] at hd
    cases hd
    trivial
  cases e with
  | new T => cases hp
  | drop a => cases hp
  | enter c => cases c <;> cases hp
  | leave => cases hp
  | dropCache c => cases hp
  | transpose b a axes =>
    cases hp
    exact transpose_does b (by simp) axes hI _ (fun x w' _ _ h => hok rfl x w' h) (herr rfl)
  | tensordot b x y axes =>
    cases hp
    exact tensordot_does b (by simp) (by simp) axes hI _ (fun x w' _ _ h => hok rfl x w' h) (herr rfl)
  | einsum b eq ids =>
    cases hp
    refine einsum_does b eq (fun i hi => hi) (eqOk_simple ?_ _) _ (fun x w' _ _ h => hok rfl x w' h) (herr rfl)
    rw [hsh]
    exact hc
  | contract b s ids opt mem ub =>
    cases hp
    cases opt with
    | off =>
      refine einsum_does (S "numpy") s (fun i hi => hi) (eqOk_simple ?_ _) _ (fun x w' _ _ h => hok rfl x w' h) (herr rfl)
      rw [hsh]
      exact hc
    | path q => exact contract_does b s ids (.path q) (by simp) mem ub _ (fun x w' _ h => hok rfl x w' h) (herr rfl)
    | finder f => exact contract_does b s ids (.finder f) (by simp) mem ub _ (fun x w' _ h => hok rfl x w' h) (herr rfl)
  | convert n k a =>
    cases hp
    exact convert_safe (fun _ _ h => absurd rfl (h n k a)) _ _ _ _ _

variable {n : Nat}

/-- The invariant of the whole system. -/
structure SysOk (E : Env R) (s : Sys R n) : Prop where
  inv : Inv E s.world
  safe : ∀ t p, s.call t = some p → Safe E (s.stack t) (Post E p) p.prog s.world
  stackLt : ∀ t, ∀ c ∈ s.stack t, c < s.world.nextCache
  keys : ∀ c, (s.world.caches.get? c).isSome → c < s.world.nextCache

omit [CommSemiring R] in
theorem mem_others {s : Sys R n} {t u : Fin n} (h : u ≠ t) {p : Pending R} (hp : s.call u = some p) {i : Nat} (hi : i ∈ p.prog.locs) :
    i ∈ others s t := by
  unfold others
  rw [List.mem_flatMap]
  exact ⟨u, List.mem_finRange u, by rw [if_neg h, hp]; exact hi⟩

/-- What a move of one thread does to the arrays the program holds. -/
def KeepsRoots (s s' : Sys R n) : Prop := ∀ a ∈ s.world.roots, s'.world.heap a = s.world.heap a

theorem step_ok {E : Env R} (hE : FreshIds E) {s : Sys R n} (h : SysOk E s) {m : Move R n} (hp : Possible s m)
    (hc : ∀ t e, m = .event t e → Covered s.world e) : SysOk E (step E s m) ∧ KeepsRoots s (step E s m) := by
  have hroots : ∀ a ∈ s.world.roots, a ∈ inUse s.world := fun a ha => by unfold inUse; simp [ha]
  cases m with
  | event t e =>
    obtain ⟨hidle, hp⟩ := hp
    have hcov := hc t e rfl
    have begin_ : ∀ p, progOf E (s.stack t) e = some p →
        step E s (.event t e) = { s with call := Function.update s.call t (some { event := e, start := s.world, prog := p }) } →
        SysOk E (step E s (.event t e)) ∧ KeepsRoots s (step E s (.event t e)) := by
      intro p hpr hst
      rw [hst]
      refine ⟨⟨h.inv, ?_, h.stackLt, h.keys⟩, fun _ _ => rfl⟩
      intro u q hq
      simp only at hq
      by_cases hu : u = t
      · subst hu
        rw [Function.update_self] at hq
        cases hq
        exact progOf_safe hpr h.inv hcov
      · rw [Function.update_of_ne hu] at hq
        exact h.safe u q hq
    have stackMove : ∀ l : List Nat, (∀ c ∈ l, c < s.world.nextCache) → step E s (.event t e) = { s with stack := Function.update s.stack t l } →
        SysOk E (step E s (.event t e)) ∧ KeepsRoots s (step E s (.event t e)) := by
      intro l hl hst
      rw [hst]
      refine ⟨⟨h.inv, ?_, ?_, h.keys⟩, fun _ _ => rfl⟩
      · intro u q hq
        simp only at hq ⊢
        have hu : u ≠ t := by
          rintro rfl
          rw [hidle] at hq
          cases hq
        rw [Function.update_of_ne hu]
        exact h.safe u q hq
      · intro u c hcu
        simp only at hcu ⊢
        by_cases hu : u = t
        · subst hu
          rw [Function.update_self] at hcu
          exact hl c hcu
        · rw [Function.update_of_ne hu] at hcu
          exact h.stackLt u c hcu
    cases e with
    | new T =>
      have ha := hE s.world.clock (others s t ++ inUse s.world)
      rw [List.mem_append, not_or] at ha
      obtain ⟨a, w', h1, h2, h3, h4, h5, h6⟩ := store_spec hE (others s t) T h.inv
      have hst : step E s (.event t (.new T)) = { s with world := { w' with roots := a :: w'.roots } } := by
        simp only [step, keep, h1]
      rw [hst]
      refine ⟨⟨h2, ?_, ?_, ?_⟩, ?_⟩
      · intro u q hq
        have hu : u ≠ t := by
          rintro rfl
          rw [hidle] at hq
          cases hq
        refine (h.safe u q hq).later ⟨?_, ?_⟩
        · intro i hi
          exact h3.heap i (Or.inl (mem_others hu hq hi))
        · intro c _ k hk
          have : cacheOf ({ w' with roots := a :: w'.roots } : World R) c = cacheOf s.world c := by unfold cacheOf; simp only [h5]
          rw [this]
          exact hk
      · intro u c hcu
        exact h3.next ▸ h.stackLt u c hcu
      · intro c hc
        simp only at hc ⊢
        rw [h5] at hc
        rw [h3.next]
        exact h.keys c hc
      · intro i hi
        exact h3.heap i (Or.inr (hroots i hi))
    | drop a =>
      exact ⟨⟨h.inv, fun u q hq => (h.safe u q hq).later ⟨fun _ _ => rfl, fun _ _ _ hk => hk⟩, h.stackLt, h.keys⟩, fun _ _ => rfl⟩
    | enter c =>
      cases c with
      | some c =>
        refine stackMove (c :: s.stack t) ?_ rfl
        intro c' hc'
        rcases List.mem_cons.mp hc' with rfl | hc'
        · exact h.keys _ (isSome_of_mem_keys hp)
        · exact h.stackLt t c' hc'
      | none =>
        have hco : ∀ c, cacheOf ({ s.world with caches := s.world.caches.set s.world.nextCache [], nextCache := s.world.nextCache + 1 } : World R) c =
            if c = s.world.nextCache then [] else cacheOf s.world c := by
          intro c
          unfold cacheOf
          simp only
          rw [OE.Py.Dict.get?_set]
          split <;> rfl
        refine ⟨⟨?_, ?_, ?_, ?_⟩, fun _ _ => rfl⟩
        · intro c
          show CacheOk E s.world.heap _
          simp only [step]
          rw [hco]
          split
          · exact cacheOk_nil _ _
          · exact h.inv c
        · intro u q hq
          have hu : u ≠ t := by
            rintro rfl
            rw [show s.call u = some q from hq] at hidle
            cases hidle
          simp only [step]
          rw [Function.update_of_ne hu]
          refine (h.safe u q hq).later ⟨fun _ _ => rfl, ?_⟩
          intro c hcu k hk
          rw [hco, if_neg]
          · exact hk
          · have := h.stackLt u c hcu
            omega
        · intro u c hcu
          simp only [step] at hcu ⊢
          by_cases hu : u = t
          · subst hu
            rw [Function.update_self] at hcu
            rcases List.mem_cons.mp hcu with rfl | hcu
            · omega
            · have := h.stackLt u c hcu
              omega
          · rw [Function.update_of_ne hu] at hcu
            have := h.stackLt u c hcu
            omega
        · intro c hc
          simp only [step] at hc ⊢
          rw [OE.Py.Dict.get?_set] at hc
          split at hc
          · omega
          · have := h.keys c hc
            omega
    | leave => exact stackMove (s.stack t).tail (fun c hc => h.stackLt t c (List.mem_of_mem_tail hc)) rfl
    | dropCache c =>
      have hco : ∀ c', cacheOf ({ s.world with caches := s.world.caches.del c } : World R) c' = if c' = c then [] else cacheOf s.world c' :=
        cacheOf_drop s.world c
      refine ⟨⟨?_, ?_, h.stackLt, ?_⟩, fun _ _ => rfl⟩
      · intro c'
        show CacheOk E s.world.heap _
        simp only [step]
        rw [hco]
        split
        · exact cacheOk_nil _ _
        · exact h.inv c'
      · intro u q hq
        refine (h.safe u q hq).later ⟨fun _ _ => rfl, ?_⟩
        intro c' hcu k hk
        simp only [step]
        rw [hco, if_neg]
        · exact hk
        · rintro rfl
          exact hp u hcu
      · intro c' hc'
        simp only [step] at hc' ⊢
        rw [get?_del] at hc'
        split at hc'
        · cases hc'
        · exact h.keys c' hc'
    | transpose b a axes => exact begin_ _ rfl rfl
    | tensordot b x y axes => exact begin_ _ rfl rfl
    | einsum b eq ids => exact begin_ _ rfl rfl
    | contract b eq ids opt mem ub => exact begin_ _ rfl rfl
    | convert k c a => exact begin_ _ rfl rfl
  | tick t =>
    obtain ⟨p, hpt⟩ := Option.isSome_iff_exists.mp hp
    obtain ⟨k1, k2, k3, k4, k5, k6, k7⟩ := (h.safe t p hpt).tick hE h.inv (others s t)
    have hst : step E s (.tick t) = { s with
        world := (tick E (others s t) p.prog s.world).2
        call := Function.update s.call t (some { p with prog := (tick E (others s t) p.prog s.world).1 }) } := by
      simp only [step, hpt]
    rw [hst]
    refine ⟨⟨k1, ?_, ?_, ?_⟩, fun a ha => k4 a (hroots a ha)⟩
    · intro u q hq
      simp only at hq ⊢
      by_cases hu : u = t
      · subst hu
        rw [Function.update_self] at hq
        cases hq
        exact k2
      · rw [Function.update_of_ne hu] at hq
        exact (h.safe u q hq).later ((k3 _).weaken (fun i hi => mem_others hu hq hi))
    · intro u c hcu
      simp only
      rw [k6]
      exact h.stackLt u c hcu
    · intro c hc
      simp only at hc ⊢
      rw [k6]
      exact (k7 c hc).elim (h.keys c) (h.stackLt t c)
  | finish t =>
    obtain ⟨p, o, hpt, ho⟩ := hp
    have hcalls : ∀ (w : World R), w.heap = s.world.heap → w.caches = s.world.caches → w.nextCache = s.world.nextCache →
        SysOk E ({ s with world := w, call := Function.update s.call t none } : Sys R n) := by
      intro w hh hcs hn
      have hco : ∀ c, cacheOf w c = cacheOf s.world c := fun c => by unfold cacheOf; rw [hcs]
      refine ⟨?_, ?_, ?_, ?_⟩
      · intro c
        simp only
        rw [hco, hh]
        exact h.inv c
      · intro u q hq
        simp only at hq ⊢
        have hu : u ≠ t := by
          rintro rfl
          rw [Function.update_self] at hq
          cases hq
        rw [Function.update_of_ne hu] at hq
        refine (h.safe u q hq).later ⟨fun i _ => by rw [hh], fun c _ k hk => by rw [hco]; exact hk⟩
      · intro u c hcu
        simp only
        rw [hn]
        exact h.stackLt u c hcu
      · intro c hc
        simp only at hc ⊢
        rw [hcs] at hc
        rw [hn]
        exact h.keys c hc
    cases o with
    | error e =>
      have hst : step E s (.finish t) = { s with world := s.world, call := Function.update s.call t none } := by
        simp only [step, hpt, ho]
      rw [hst]
      exact ⟨hcalls s.world rfl rfl rfl, fun _ _ => rfl⟩
    | ok a =>
      have hst : step E s (.finish t) = { s with
          world := { s.world with roots := a :: s.world.roots }, call := Function.update s.call t none } := by
        simp only [step, hpt, ho]
      rw [hst]
      exact ⟨hcalls _ rfl rfl rfl, fun _ _ => rfl⟩

/-- Every call that begins is one that C42 covers. -/
def CoveredMove (s : Sys R n) (m : Move R n) : Prop := ∀ t e, m = .event t e → Covered s.world e

theorem reachable_ok {E : Env R} (hE : FreshIds E) {s : Sys R n} (h : ReachableBy E CoveredMove s) : SysOk E s := by
  induction h with
  | init heap =>
    refine ⟨?_, by simp, by simp, by simp [Dict.get?]⟩
    intro c
    unfold cacheOf
    simp only [Dict.get?, Option.getD_none]
    exact cacheOk_nil _ _
  | step m _ hp hc ih => exact (step_ok hE ih hp hc).1

end OE.ShareThreads

namespace OE.Props
open OE OE.Py OE.Parser OE.Contract OE.Spec OE.Share OE.ShareThreads
variable {R : Type} [CommSemiring R] {n : Nat}

/-- **C64.** Any number of threads, each in its own contexts over caches that they may share, at any moment of any interleaving of their
actions: a call that has come to its end returns an array with the contents that the call without sharing gives for its arguments, or raises
where that raises; no move of any thread changes an array that the program holds. -/
theorem C64_threads_share_a_cache {E : Env R} (hE : FreshIds E) {s : Sys R n} (hs : ReachableBy E CoveredMove s) :
    (∀ t p o, s.call t = some p → p.prog = .ret o → (∀ n k a, p.event ≠ .convert n k a) → ∀ d, direct E p.start p.event = some d →
      Agrees (o, s.world) d) ∧
    ∀ m, ShareThreads.Possible s m → CoveredMove s m → ∀ a ∈ s.world.roots, (ShareThreads.step E s m).world.heap a = s.world.heap a := by
  have h := reachable_ok hE hs
  refine ⟨?_, fun m hp hc => (step_ok hE h hp hc).2⟩
  intro t p o hpt ho hconv d hd
  have := h.safe t p hpt
  rw [ho] at this
  exact this s.world (Rely.refl _ _ _) h.inv hconv d hd

/-! ### Without interference -/

end OE.Props

namespace OE.ShareThreads
open OE OE.Py OE.Parser OE.Contract OE.Share OE.Spec OE.Props
variable {R : Type}

/-- The call makes all its actions without any other thread in between. -/
def alone (E : Env R) : Prog R → M R Nat
  | .ret o => fun w => (o, w)
  | .put _ c k a next => fun w => alone E next (putCache c k a w)
  | .has _ c k next => fun w => alone E (next ((cacheOf w c).get? k).isSome) w
  | .get _ c k next => fun w =>
    match (cacheOf w c).get? k with
    | some a => alone E (next a) w
    | none => (.error .key, w)
  | .look _ ids next => fun w => alone E (next (ids.map (fun i => (w.heap i).shape))) w
  | .run locs f next => fun w =>
    match runFn E locs (f w.heap) w with
    | (.ok a, w') => alone E (next a) w'
    | (.error e, w') => (.error e, w')

/-- `alone` is `tick` again and again. -/
theorem alone_tick (E : Env R) (p : Prog R) (w : World R) : alone E p w = alone E (tick E [] p w).1 (tick E [] p w).2 := by
  cases p with
  | get locs c k next =>
    simp only [alone, tick]
    cases (cacheOf w c).get? k <;> rfl
  | run locs f next =>
    simp only [alone, tick, List.append_nil]
    rcases runFn E locs (f w.heap) w with ⟨_ | _, _⟩ <;> rfl
  | _ => rfl

theorem runFn_stack (E : Env R) (L : List Nat) (r : Except PyErr (Tensor R)) (w : World R) : (runFn E L r w).2.stack = w.stack := by
  cases r <;> rfl

theorem alone_stack (E : Env R) (p : Prog R) (w : World R) : (alone E p w).2.stack = w.stack := by
  induction p generalizing w with
  | ret o => rfl
  | put _ c k a next ih => exact ih _
  | has _ c k next ih => exact ih _ _
  | get _ c k next ih =>
    simp only [alone]
    split
    · exact ih _ _
    · rfl
  | look _ ids next ih => exact ih _ _
  | run locs f next ih =>
    simp only [alone]
    have := runFn_stack E locs (f w.heap) w
    rcases hr : runFn E locs (f w.heap) w with ⟨_ | a, w'⟩
    · rw [hr] at this; exact this
    · rw [hr] at this; exact (ih a w').trans this

/-- The program `p k` does `m` and goes on with `k`. -/
def Plays (E : Env R) (p : (Nat → Prog R) → Prog R) (m : M R Nat) (w : World R) : Prop :=
  ∀ k, alone E (p k) w = M.andThen m (fun r => alone E (k r)) w

theorem Plays.stack {E : Env R} {p : (Nat → Prog R) → Prog R} {m : M R Nat} {w : World R} (h : Plays E p m w) : (m w).2.stack = w.stack := by
  have h1 := alone_stack E (p fun r => .ret (.ok r)) w
  rw [h] at h1
  rw [← h1]
  unfold M.andThen
  rcases m w with ⟨_ | a, w'⟩ <;> rfl

theorem run_plays (E : Env R) (L : List Nat) (f : (Nat → Tensor R) → Except PyErr (Tensor R)) (w : World R) :
    Plays E (.run L f) (fun w => runFn E L (f w.heap) w) w := by
  intro k
  simp only [alone, M.andThen]
  rcases runFn E L (f w.heap) w with ⟨_ | _, _⟩ <;> rfl

theorem save_alone (E : Env R) (L : List Nat) (c : Nat) (ids : List Nat) (p : Prog R) (w : World R) :
    alone E (saveTensors L c ids p) w = alone E p (Share.saveTensors c ids w) := by
  induction ids generalizing w with
  | nil => rfl
  | cons i t ih => exact ih _

theorem memo_plays (E : Env R) (L : List Nat) (c : Nat) (key : Key) (f : (Nat → Tensor R) → Except PyErr (Tensor R)) (w : World R) :
    Plays E (memoize L c key f) (Share.memoize c key fun w => runFn E L (f w.heap) w) w := by
  intro k
  simp only [memoize, alone, M.andThen, Share.memoize]
  cases hc : (cacheOf w c).get? key with
  | some a => simp [alone, hc]
  | none =>
    simp only [Option.isSome_none, Bool.false_eq_true, if_false, alone]
    rcases runFn E L (f w.heap) w with ⟨_ | a, w'⟩ <;> rfl

theorem transpose_plays (E : Env R) (L : List Nat) (b : Str) (a : Nat) (axes : List Nat) {w : World R} {C : List Nat} (hC : w.stack = C) :
    Plays E (transpose L C b a axes) (Share.transpose E L b a axes) w := by
  intro k
  unfold transpose
  cases C with
  | nil => simp only [M.andThen, Share.transpose, hC]; exact run_plays E L _ w k
  | cons c t => simp only [M.andThen, Share.transpose, hC, save_alone]; exact memo_plays E L c _ _ _ k

variable [CommSemiring R]

theorem tensordot_plays (E : Env R) (L : List Nat) (b : Str) (x y : Nat) (axes : List Nat × List Nat) {w : World R} {C : List Nat}
    (hC : w.stack = C) : Plays E (tensordot L C b x y axes) (Share.tensordot E L b x y axes) w := by
  intro k
  unfold tensordot
  cases C with
  | nil => simp only [M.andThen, Share.tensordot, hC]; exact run_plays E L _ w k
  | cons c t => simp only [M.andThen, Share.tensordot, hC, save_alone]; exact memo_plays E L c _ _ _ k

theorem einsum_plays (E : Env R) (L : List Nat) (b eq : Str) (ids : List Nat) {w : World R} {C : List Nat} (hC : w.stack = C) :
    Plays E (einsum E L C b eq ids) (Share.einsum E L b eq ids) w := by
  intro k
  unfold einsum
  cases C with
  | nil => simp only [M.andThen, Share.einsum, hC]; exact run_plays E L _ w k
  | cons c t =>
    simp only [M.andThen, Share.einsum, hC, alone]
    cases hp : parseEinsum eq (ids.map fun i => (w.heap i).shape) with
    | error e => rfl
    | ok io =>
      simp only [save_alone]
      exact memo_plays E L c _ _ _ k

theorem blasStep_plays (E : Env R) (L : List Nat) (b : Str) (st : Step) (tmp : List Nat) {w : World R} {C : List Nat} (hC : w.stack = C) :
    Plays E (blasStep L C b st tmp) (Share.blasStep E L b st tmp) w := by
  intro k
  unfold blasStep Share.blasStep
  simp only [M.andThen]
  rcases h1 : splitArrow st.einsumStr with _ | ⟨inp, _ | ⟨res, _ | _⟩⟩
  case cons.cons.nil =>
    rcases h2 : splitOn cComma inp with _ | ⟨left, _ | ⟨right, _ | _⟩⟩
    case cons.cons.nil =>
      rcases tmp with _ | ⟨a, _ | ⟨c, _ | _⟩⟩
      case cons.cons.nil =>
        simp only [h2]
        rw [tensordot_plays E _ b a c _ hC]
        have hst := (tensordot_plays E (L ++ [a, c]) b a c (blasAxes left right st.removed) hC).stack
        simp only [M.andThen]
        rcases hm : Share.tensordot E (L ++ [a, c]) b a c (blasAxes left right st.removed) w with ⟨_ | view, w'⟩
        · rfl
        · rw [hm] at hst
          simp only
          by_cases hr : (left ++ right).filter (fun c => c ∉ st.removed) ≠ res
          · rw [if_pos hr, if_pos hr]
            cases transposeAxes ((left ++ right).filter (fun c => c ∉ st.removed)) res with
            | ok perm => exact transpose_plays E _ b view _ (hst.trans hC) k
            | error e => rfl
          · rw [if_neg hr, if_neg hr]
      all_goals simp only [h2]; rfl
    all_goals simp only [h2]; rfl
  all_goals rfl

theorem stepResult_plays (E : Env R) (L : List Nat) (b : Str) (st : Step) (tmp : List Nat) {w : World R} {C : List Nat} (hC : w.stack = C) :
    Plays E (stepResult E L C b st tmp) (Share.stepResult E L b st tmp) w := by
  unfold stepResult Share.stepResult
  split
  · exact blasStep_plays E L b st tmp hC
  · exact einsum_plays E _ b _ tmp hC

theorem coreLoop_plays (E : Env R) (args : List Nat) (b : Str) (steps : List Step) (ops : List Nat) {w : World R} {C : List Nat}
    (hC : w.stack = C) (k : List Nat → Prog R) :
    alone E (coreLoop E args C b steps ops k) w = M.andThen (Share.coreLoop E args b steps ops) (fun r => alone E (k r)) w := by
  induction steps generalizing ops w with
  | nil => rfl
  | cons s ss ih =>
    unfold coreLoop
    simp only [M.andThen, Share.coreLoop]
    cases hp : popAll s.inds ops with
    | error e => rfl
    | ok tr =>
      obtain ⟨tmp, rest⟩ := tr
      simp only
      rw [stepResult_plays E _ b s tmp hC]
      have hst := (stepResult_plays E (args ++ rest) b s tmp hC).stack
      simp only [M.andThen]
      rcases hm : Share.stepResult E (args ++ rest) b s tmp w with ⟨_ | view, w'⟩
      · rfl
      · rw [hm] at hst
        exact ih _ (hst.trans hC)

theorem contract_plays (E : Env R) (b s : Str) (ids : List Nat) (opt : Optimize) (mem : MemLimit) (ub : Bool) {w : World R} {C : List Nat}
    (hC : w.stack = C) : Plays E (contract E C b s ids opt mem ub) (Share.contract E b s ids opt mem ub) w := by
  have main : ∀ k, alone E (.look ids ids fun shapes =>
      match parseEinsum s shapes with
      | .error e => .ret (.error e)
      | .ok (inp, out) =>
        match contractPath (splitOn cComma inp) out shapes opt mem ub with
        | .error e => .ret (.error e)
        | .ok info => coreContract E C b info.contractionList ids k) w =
      M.andThen (fun w => match parseEinsum s (ids.map (fun i => (w.heap i).shape)) with
        | .error e => (.error e, w)
        | .ok (inp, out) =>
          match contractPath (splitOn cComma inp) out (ids.map (fun i => (w.heap i).shape)) opt mem ub with
          | .error e => (.error e, w)
          | .ok info => Share.coreContract E b info.contractionList ids w) (fun r => alone E (k r)) w := by
    intro k
    simp only [alone, M.andThen]
    split
    · rfl
    · split
      · rfl
      · unfold coreContract Share.coreContract
        rw [coreLoop_plays E ids b _ ids hC]
        simp only [M.andThen]
        rcases Share.coreLoop E ids b _ ids w with ⟨_ | ops', w'⟩
        · rfl
        · cases ops' <;> rfl
  intro k
  cases opt with
  | off => exact einsum_plays E ids (S "numpy") s ids hC k
  | path q => exact main k
  | finder f => exact main k

end OE.ShareThreads

namespace OE.Props
open OE OE.Py OE.Parser OE.Contract OE.Spec OE.Share OE.ShareThreads
variable {R : Type} [CommSemiring R] {n : Nat}

/-- The actions of a call of `contract`, made without interference, amount to the call of the model for one thread: same result, same
arrays, same caches. -/
theorem C64_alone (E : Env R) (b s : Str) (ids : List Nat) (opt : Optimize) (mem : MemLimit) (ub : Bool) (w : World R) :
    alone E (ShareThreads.contract E w.stack b s ids opt mem ub fun r => .ret (.ok r)) w = Share.contract E b s ids opt mem ub w := by
  rw [contract_plays E b s ids opt mem ub rfl]
  unfold M.andThen
  rcases Share.contract E b s ids opt mem ub w with ⟨_ | _, _⟩ <;> rfl

/-! ### Two threads that race -/

/-- The state after some moves. -/
def afterMoves (s : Sys Nat n) (ms : List (Move Nat n)) : Sys Nat n := ms.foldl (ShareThreads.step demoEnv) s

/-- All moves are possible and begin calls that are covered. -/
def AlongMoves : Sys Nat n → List (Move Nat n) → Prop
  | _, [] => True
  | s, m :: ms => ShareThreads.Possible s m ∧ CoveredMove s m ∧ AlongMoves (ShareThreads.step demoEnv s m) ms

theorem reachable_afterMoves {s : Sys Nat n} (h : ShareThreads.ReachableBy demoEnv CoveredMove s) (ms : List (Move Nat n))
    (ha : AlongMoves s ms) : ShareThreads.ReachableBy demoEnv CoveredMove (afterMoves s ms) := by
  induction ms generalizing s with
  | nil => exact h
  | cons e t ih => exact ih (.step e h ha.1 ha.2.1) ha.2.2

def s0 : Sys Nat 2 := { world := w0, stack := fun _ => [], call := fun _ => none }

def product : Event Nat := .tensordot (S "numpy") 0 1 ([1], [0])

/-- Thread 0 makes two matrices and opens a context, thread 1 opens one with the same cache, both begin the same product, both find the
cache without it, both compute it and both store it. -/
def raceMoves : List (Move Nat 2) :=
  [.event 0 (.new (mat fun i j => i + 2 * j)), .event 0 (.new (mat fun i j => 3 * i + j)), .event 0 (.enter none), .event 1 (.enter (some 0)),
    .event 0 product, .event 1 product,
    .tick 0, .tick 0, .tick 0, .tick 1, .tick 1, .tick 1, .tick 0, .tick 1, .tick 0, .tick 1]

def race : Sys Nat 2 := afterMoves s0 raceMoves

theorem covered_tick (s : Sys Nat 2) (t : Fin 2) : CoveredMove s (.tick t) := by
  intro _ _ h
  cases h

theorem race_reachable : ShareThreads.ReachableBy demoEnv CoveredMove race := by
  apply reachable_afterMoves (.init _)
  have hc : ∀ (s : Sys Nat 2) (t : Fin 2) (e : Event Nat), Covered s.world e → CoveredMove s (.event t e) := by
    intro s t e h _ _ h'
    cases h'
    exact h
  have ht := covered_tick
  refine ⟨⟨rfl, trivial⟩, hc _ _ _ trivial, ⟨rfl, trivial⟩, hc _ _ _ trivial, ⟨rfl, trivial⟩, hc _ _ _ trivial, ⟨rfl, ?_⟩, hc _ _ _ trivial,
    ⟨rfl, ?_⟩, hc _ _ _ trivial, ⟨rfl, ?_⟩, hc _ _ _ trivial,
    rfl, ht _ _, rfl, ht _ _, rfl, ht _ _, rfl, ht _ _, rfl, ht _ _, rfl, ht _ _, rfl, ht _ _, rfl, ht _ _, rfl, ht _ _, rfl, ht _ _, trivial⟩
  · show (0 : Nat) ∈ [0]; decide
  · show (0 : Nat) ∈ [1, 0] ∧ (1 : Nat) ∈ [1, 0]; decide
  · show (0 : Nat) ∈ [1, 0] ∧ (1 : Nat) ∈ [1, 0]; decide

/-- What a thread's call has come to. -/
def outcome (s : Sys Nat 2) (t : Fin 2) : Option (Except PyErr Nat) :=
  match s.call t with
  | some p => match p.prog with
    | .ret o => some o
    | _ => none
  | none => none

/-- The two threads computed the product twice, into two arrays; the cache holds the second; both have the right entries. -/
theorem C64_race : outcome race 0 = some (.ok 2) ∧ outcome race 1 = some (.ok 3) ∧ race.world.execs = 2 ∧
    (cacheOf race.world 0).get? (.tensordot (S "numpy") 0 1 ([1], [0])) = some 3 ∧
    [[0, 0], [0, 1], [1, 0], [1, 1]].map (race.world.heap 2).val = [6, 8, 9, 13] ∧
    [[0, 0], [0, 1], [1, 0], [1, 1]].map (race.world.heap 3).val = [6, 8, 9, 13] := by
  decide +kernel

end OE.Props
