import Verif.Model.SharingThreads
import Verif.Props.Sharing

/-! Calls of threads that share caches: what they rely on and what they guarantee. -/

namespace OE.ShareThreads
open OE OE.Py OE.Parser OE.Contract OE.Share OE.Spec OE.Props
variable {R : Type}

/-- What the other threads leave alone for a call with local variables `L` in contexts with the caches `C`. -/
structure Rely (L C : List Nat) (w w' : World R) : Prop where
  heap : ∀ i ∈ L, w'.heap i = w.heap i
  keys : ∀ c ∈ C, ∀ k, ((cacheOf w c).get? k).isSome → ((cacheOf w' c).get? k).isSome

theorem Rely.refl (L C : List Nat) (w : World R) : Rely L C w w := ⟨fun _ _ => rfl, fun _ _ _ h => h⟩

theorem Rely.trans {L C : List Nat} {w₁ w₂ w₃ : World R} (h : Rely L C w₁ w₂) (h' : Rely L C w₂ w₃) : Rely L C w₁ w₃ :=
  ⟨fun i hi => by rw [h'.heap i hi, h.heap i hi], fun c hc k hk => h'.keys c hc k (h.keys c hc k hk)⟩

theorem Rely.weaken {L L' C : List Nat} {w w' : World R} (h : Rely L C w w') (hs : ∀ i ∈ L', i ∈ L) : Rely L' C w w' :=
  ⟨fun i hi => h.heap i (hs i hi), h.keys⟩

theorem rely_put (L C : List Nat) (c : Nat) (k : Key) (a : Nat) (w : World R) : Rely L C w (putCache c k a w) := by
  refine ⟨fun _ _ => rfl, ?_⟩
  intro c' _ k' h
  rw [cacheOf_put]
  split
  · rename_i hc
    subst hc
    rw [OE.Py.Dict.get?_set]
    split
    · rfl
    · exact h
  · exact h

/-- A new array is none of `L`. -/
theorem rely_new {L C : List Nat} {w w' : World R} {a : Nat} {T : Tensor R} (ha : a ∉ L) (hh : w'.heap = fun x => if x = a then T else w.heap x)
    (hc : w'.caches = w.caches) : Rely L C w w' := by
  refine ⟨?_, ?_⟩
  · intro i hi
    rw [hh]
    simp only
    rw [if_neg]
    rintro rfl
    exact ha hi
  · intro c _ k h
    unfold cacheOf at h ⊢
    rw [hc]
    exact h

variable [CommSemiring R]

/-- The rest of a call, whatever the other threads do before each of its actions, ends with an outcome satisfying `Q`; on the way it keeps
the caches in order. -/
def Safe (E : Env R) (C : List Nat) (Q : Except PyErr Nat → World R → Prop) : Prog R → World R → Prop
  | .ret o, w => ∀ w', Rely (Prog.locs (.ret o : Prog R)) C w w' → Inv E w' → Q o w'
  | .put L c k a next, w => ∀ w', Rely L C w w' → Inv E w' →
      c ∈ C ∧ Inv E (putCache c k a w') ∧ Safe E C Q next (putCache c k a w')
  | .has L c k next, w => ∀ w', Rely L C w w' → Inv E w' → Safe E C Q (next ((cacheOf w' c).get? k).isSome) w'
  | .get L c k next, w => ∀ w', Rely L C w w' → Inv E w' → ∃ a, (cacheOf w' c).get? k = some a ∧ Safe E C Q (next a) w'
  | .look L ids next, w => ∀ w', Rely L C w w' → Inv E w' → Safe E C Q (next (ids.map (fun i => (w'.heap i).shape))) w'
  | .run L f next, w => ∀ w', Rely L C w w' → Inv E w' →
      match f w'.heap with
      | .error e => ∀ w'', Q (.error e) w''
      | .ok T => ∀ a, a ∉ L → a ∉ inUse w' → ∀ w'' : World R, w''.heap = (fun x => if x = a then T else w'.heap x) → w''.caches = w'.caches →
          Safe E C Q (next a) w''

/-- Others may act before the next action. -/
theorem Safe.later {E : Env R} {C : List Nat} {Q : Except PyErr Nat → World R → Prop} {p : Prog R} {w w' : World R} (h : Safe E C Q p w)
    (hr : Rely p.locs C w w') : Safe E C Q p w' := by
  cases p <;> exact fun w'' hr' => h w'' (hr.trans hr')

/-- One action. -/
theorem Safe.tick {E : Env R} (hE : FreshIds E) {C : List Nat} {Q : Except PyErr Nat → World R → Prop} {p : Prog R} {w : World R} (h : Safe E C Q p w)
    (hI : Inv E w) (others : List Nat) :
    Inv E (tick E others p w).2 ∧ Safe E C Q (tick E others p w).1 (tick E others p w).2 ∧
      (∀ C', Rely others C' w (tick E others p w).2) ∧ (∀ i ∈ inUse w, (tick E others p w).2.heap i = w.heap i) ∧
      (tick E others p w).2.roots = w.roots ∧ (tick E others p w).2.nextCache = w.nextCache ∧
      (∀ c, ((tick E others p w).2.caches.get? c).isSome → (w.caches.get? c).isSome ∨ c ∈ C) := by
  cases p with
  | ret o => exact ⟨hI, h, fun _ => Rely.refl _ _ _, fun _ _ => rfl, rfl, rfl, fun _ h => Or.inl h⟩
  | put L c k a next =>
    obtain ⟨h0, h1, h2⟩ := h w (Rely.refl _ _ _) hI
    refine ⟨h1, h2, fun _ => rely_put _ _ _ _ _ _, fun _ _ => rfl, rfl, rfl, ?_⟩
    intro c' hc'
    simp only [ShareThreads.tick, putCache] at hc'
    rw [OE.Py.Dict.get?_set] at hc'
    split at hc'
    · rename_i e
      exact Or.inr (e ▸ h0)
    · exact Or.inl hc'
  | has L c k next => exact ⟨hI, h w (Rely.refl _ _ _) hI, fun _ => Rely.refl _ _ _, fun _ _ => rfl, rfl, rfl, fun _ h => Or.inl h⟩
  | get L c k next =>
    obtain ⟨a, h1, h2⟩ := h w (Rely.refl _ _ _) hI
    simp only [ShareThreads.tick, h1]
    exact ⟨hI, h2, fun _ => Rely.refl _ _ _, fun _ _ => trivial, trivial, trivial, fun _ h => Or.inl h⟩
  | look L ids next => exact ⟨hI, h w (Rely.refl _ _ _) hI, fun _ => Rely.refl _ _ _, fun _ _ => rfl, rfl, rfl, fun _ h => Or.inl h⟩
  | run L f next =>
    have h1 := h w (Rely.refl _ _ _) hI
    cases hf : f w.heap with
    | error e =>
      rw [hf] at h1
      simp only [ShareThreads.tick, hf, runFn]
      refine ⟨hI, fun w'' _ _ => h1 w'', fun _ => ⟨fun _ _ => rfl, fun _ _ _ h => h⟩, fun _ _ => trivial, trivial, trivial, fun _ h => Or.inl h⟩
    | ok T =>
      rw [hf] at h1
      simp only [ShareThreads.tick, hf, runFn, store]
      have ha := hE w.clock (L ++ others ++ inUse ({ w with execs := w.execs + 1 } : World R))
      set a := E.alloc w.clock (L ++ others ++ inUse ({ w with execs := w.execs + 1 } : World R)) with hadef
      have hu : inUse ({ w with execs := w.execs + 1 } : World R) = inUse w := rfl
      rw [hu, List.mem_append, List.mem_append, not_or, not_or] at ha
      obtain ⟨⟨ha1, ha2⟩, ha3⟩ := ha
      have hh : ∀ i ∈ inUse w, (if i = a then T else w.heap i) = w.heap i := by
        intro i hi
        rw [if_neg]
        rintro rfl
        exact ha3 hi
      exact ⟨hI.heap rfl hh, h1 a ha1 ha3 _ rfl rfl, fun _ => rely_new ha2 rfl rfl, hh, trivial, trivial, fun _ h => Or.inl h⟩

/-! ### The calls -/

/-- A program with continuation: it computes `r` and goes on, or raises where `r` is an exception. -/
def Does (E : Env R) (C : List Nat) (Q : Except PyErr Nat → World R → Prop) (L : List Nat) (w : World R) (r : Except PyErr (Tensor R))
    (mk : (Nat → Prog R) → Prog R) : Prop :=
  ∀ k : Nat → Prog R, (∀ x w', Rely L C w w' → Inv E w' → r = .ok (w'.heap x) → Safe E C Q (k x) w') →
    ((∃ e, r = .error e) → ∀ e w', Q (.error e) w') → Safe E C Q (mk k) w

theorem save_safe {E : Env R} {C : List Nat} {Q : Except PyErr Nat → World R → Prop} {L : List Nat} {c : Nat} (hc : c ∈ C) (ids : List Nat)
    (k : Prog R) {w : World R} (hI : Inv E w)
    (hk : ∀ w', Rely L C w w' → Inv E w' → (∀ i ∈ ids, Saved (cacheOf w' c) i) → Safe E C Q k w') :
    Safe E C Q (saveTensors L c ids k) w := by
  induction ids generalizing w with
  | nil => exact hk w (Rely.refl _ _ _) hI (by simp)
  | cons i t ih =>
    intro w' hr hI'
    have h1 : Inv E (putCache c (.tensor i) i w') := hI'.put (fun j hj => by cases hj; rfl) (by simp [EntryOk])
    refine ⟨hc, h1, ih h1 ?_⟩
    intro w'' hr' hI'' hs
    refine hk w'' ((hr.trans (rely_put L C c (.tensor i) i w')).trans hr') hI'' ?_
    intro j hj
    rcases List.mem_cons.mp hj with rfl | hj
    · have : ((cacheOf w'' c).get? (.tensor j)).isSome := by
        apply hr'.keys c hc
        rw [cacheOf_put, if_pos rfl, OE.Py.Dict.get?_set_self]
        rfl
      obtain ⟨y, hy⟩ := Option.isSome_iff_exists.mp this
      have : y = j := hI'' c _ _ hy
      rw [this] at hy
      exact hy
    · exact hs j hj

theorem run_safe {E : Env R} {C : List Nat} {Q : Except PyErr Nat → World R → Prop} {L : List Nat} {w : World R} {r : Except PyErr (Tensor R)}
    {f : (Nat → Tensor R) → Except PyErr (Tensor R)} (hf : ∀ w', Rely L C w w' → f w'.heap = r) : Does E C Q L w r (.run L f) := by
  intro k hk herr w' hr hI'
  rw [hf w' hr]
  cases r with
  | error e => exact fun w'' => herr ⟨e, rfl⟩ e w''
  | ok T =>
    intro a ha hu w'' hh hc
    refine hk a w'' (hr.trans (rely_new ha hh hc)) (hI'.heap hc ?_) ?_
    · intro i hi
      rw [hh]
      simp only
      rw [if_neg]
      rintro rfl
      exact hu hi
    · rw [hh]
      simp

theorem memo_safe {E : Env R} {C : List Nat} {Q : Except PyErr Nat → World R → Prop} {L : List Nat} {w : World R} {r : Except PyErr (Tensor R)}
    {f : (Nat → Tensor R) → Except PyErr (Tensor R)} {c : Nat} {key : Key} (hc : c ∈ C) (hkey : ∀ i, key ≠ .tensor i)
    (hf : ∀ w', Rely L C w w' → f w'.heap = r)
    (hhit : ∀ w' a, Rely L C w w' → Inv E w' → (cacheOf w' c).get? key = some a → r = .ok (w'.heap a))
    (hmiss : ∀ w' a, Rely L C w w' → Inv E w' → r = .ok (w'.heap a) → EntryOk E w'.heap ((cacheOf w' c).set key a) key a) :
    Does E C Q L w r (memoize L c key f) := by
  intro k hk herr w1 hr1 hI1
  cases hs : ((cacheOf w1 c).get? key).isSome with
  | true =>
    simp only [if_true]
    intro w2 hr2 hI2
    obtain ⟨a, ha⟩ := Option.isSome_iff_exists.mp (hr2.keys c hc key hs)
    exact ⟨a, ha, hk a w2 (hr1.trans hr2) hI2 (hhit w2 a (hr1.trans hr2) hI2 ha)⟩
  | false =>
    simp only [Bool.false_eq_true, if_false]
    refine run_safe (r := r) (fun w' h => hf w' (hr1.trans h)) _ ?_ herr
    intro a w2 hr2 hI2 hra w3 hr3 hI3
    have hr23 : Rely L C w w3 := (hr1.trans hr2).trans (hr3.weaken (fun i hi => List.mem_cons_of_mem _ hi))
    have hra3 : r = .ok (w3.heap a) := by rw [hra, hr3.heap a (by simp)]
    have hI4 : Inv E (putCache c key a w3) := hI3.put (fun i hi => absurd hi (hkey i)) (hmiss w3 a hr23 hI3 hra3)
    exact ⟨hc, hI4, hk a _ (hr23.trans (rely_put _ _ _ _ _ _)) hI4 hra3⟩

theorem transpose_does {E : Env R} {C : List Nat} {Q : Except PyErr Nat → World R → Prop} {L : List Nat} (b : Str) {a : Nat} (ha : a ∈ L)
    (axes : List Nat) {w : World R} (hI : Inv E w) :
    Does E C Q L w (npTranspose (w.heap a) axes) (transpose L C b a axes) := by
  unfold transpose
  cases C with
  | nil => exact run_safe (fun w' hr => by rw [hr.heap a ha])
  | cons c t =>
    intro k hk herr
    refine save_safe (by simp) [a] _ hI ?_
    intro w1 hr1 hI1 hs
    have h1 := hr1.heap a ha
    refine memo_safe (r := npTranspose (w.heap a) axes) (by simp) (by simp) (fun w' hr => by rw [hr.heap a ha, h1]) ?_ ?_ k
      (fun x w' hr => hk x w' (hr1.trans hr)) herr
    · intro w' x hr hI' hx
      have := (hI' c _ _ hx).2
      rw [hr.heap a ha, h1] at this
      exact this
    · intro w' x hr hI' hx
      refine ⟨?_, by rw [hr.heap a ha, h1]; exact hx⟩
      unfold Saved
      rw [OE.Py.Dict.get?_set_ne (by simp)]
      obtain ⟨y, hy⟩ := Option.isSome_iff_exists.mp (hr.keys c (by simp) (.tensor a) (by rw [hs a (by simp)]; rfl))
      have : y = a := hI' c _ _ hy
      rw [this] at hy
      exact hy

omit [CommSemiring R] in
theorem saved_later [CommSemiring R] {E : Env R} {L C : List Nat} {w w' : World R} (hr : Rely L C w w') (hI' : Inv E w') {c : Nat} (hc : c ∈ C) {i : Nat}
    (hs : Saved (cacheOf w c) i) : Saved (cacheOf w' c) i := by
  obtain ⟨y, hy⟩ := Option.isSome_iff_exists.mp (hr.keys c hc (.tensor i) (by rw [hs]; rfl))
  have : y = i := hI' c _ _ hy
  rw [this] at hy
  exact hy

theorem tensordot_does {E : Env R} {C : List Nat} {Q : Except PyErr Nat → World R → Prop} {L : List Nat} (b : Str) {x y : Nat} (hx : x ∈ L)
    (hy : y ∈ L) (axes : List Nat × List Nat) {w : World R} (hI : Inv E w) :
    Does E C Q L w (npTensordot (w.heap x) (w.heap y) axes.1 axes.2) (tensordot L C b x y axes) := by
  unfold tensordot
  cases C with
  | nil => exact run_safe (fun w' hr => by rw [hr.heap x hx, hr.heap y hy])
  | cons c t =>
    intro k hk herr
    refine save_safe (by simp) [x, y] _ hI ?_
    intro w1 hr1 hI1 hs
    have h1 := hr1.heap x hx
    have h2 := hr1.heap y hy
    refine memo_safe (r := npTensordot (w.heap x) (w.heap y) axes.1 axes.2) (by simp) (by simp)
      (fun w' hr => by rw [hr.heap x hx, hr.heap y hy, h1, h2]) ?_ ?_ k (fun z w' hr => hk z w' (hr1.trans hr)) herr
    · intro w' z hr hI' hz
      have := (hI' c _ _ hz).2.2
      rw [hr.heap x hx, hr.heap y hy, h1, h2] at this
      exact this
    · intro w' z hr hI' hz
      have hsv : ∀ i ∈ [x, y], Saved ((cacheOf w' c).set (.tensordot b x y axes) z) i := by
        intro i hi
        unfold Saved
        rw [OE.Py.Dict.get?_set_ne (by simp)]
        exact saved_later hr hI' (by simp) (hs i hi)
      exact ⟨hsv x (by simp), hsv y (by simp), by rw [hr.heap x hx, hr.heap y hy, h1, h2]; exact hz⟩

theorem einsum_does {E : Env R} {C : List Nat} {Q : Except PyErr Nat → World R → Prop} {L : List Nat} (b eq : Str) {ids : List Nat}
    (hids : ∀ i ∈ ids, i ∈ L) {w : World R} (heq : EqOk (E.noEinsum b) eq (ids.map w.heap)) :
    Does E C Q L w (einsumCall (E.noEinsum b) eq (ids.map w.heap)) (einsum E L C b eq ids) := by
  have hmap : ∀ {w w' : World R}, Rely L C w w' → ids.map w'.heap = ids.map w.heap := fun hr =>
    List.map_congr_left (fun i hi => hr.heap i (hids i hi))
  unfold einsum
  cases C with
  | nil => exact run_safe (fun w' hr => by rw [hmap hr])
  | cons c t =>
    intro k hk herr w1 hr1 hI1
    have hsh : ids.map (fun i => (w1.heap i).shape) = (ids.map w.heap).map Tensor.shape := by
      rw [← hmap hr1, List.map_map]; rfl
    rw [hsh]
    rcases heq with ⟨inp, out, hp, hpl, hcall⟩ | ⟨⟨e, hp⟩, e', hcall⟩
    · simp only [hp]
      have hlen : (splitOn cComma inp).length = ids.length := by simpa using (Props.parse_labels hp).1
      have hne : splitOn cComma inp ≠ [] := splitOn_ne_nil _ _
      refine save_safe (by simp) ids _ hI1 ?_
      intro w2 hr2 hI2 hs
      have hr12 := hr1.trans hr2
      refine memo_safe (r := einsumCall (E.noEinsum b) eq (ids.map w.heap)) (by simp) (by simp)
        (fun w' hr => by rw [hmap hr, hmap hr12]) ?_ ?_ k (fun z w' hr => hk z w' (hr12.trans hr)) herr
      · intro w' z hr hI' hz
        obtain ⟨_, ins, r, ids', hne', hpl', hlen', hkey, hz⟩ := hI' c _ _ hz
        rw [← hz, hcall, ← hmap hr12, ← hmap hr]
        exact (einsumCall_key w'.heap hne' hpl' hpl hlen' hlen hkey _).symm
      · intro w' z hr hI' hz
        refine ⟨?_, splitOn cComma inp, out, ids, hne, hpl, hlen, rfl, ?_⟩
        · intro i hi
          unfold Saved
          rw [OE.Py.Dict.get?_set_ne (by simp)]
          exact saved_later hr hI' (by simp) (hs i ((canonicalKey_ids _ _ _ hlen).mem_iff.mp hi))
        · rw [hmap hr, hmap hr12, ← hcall]
          exact hz
    · simp only [hp]
      exact fun w' _ _ => herr ⟨e', hcall⟩ e w'

theorem blasStep_does {E : Env R} {C : List Nat} {Q : Except PyErr Nat → World R → Prop} {L : List Nat} (b : Str) (step : Step) (tmp : List Nat)
    {w : World R} (hI : Inv E w) :
    Does E C Q (L ++ tmp) w (Contract.blasStep step (tmp.map w.heap)) (blasStep L C b step tmp) := by
  intro k hk herr
  have err : ∀ e, Contract.blasStep step (tmp.map w.heap) = .error e → ∀ e', Safe E C Q (.ret (.error e')) w :=
    fun e he e' w' _ _ => herr ⟨e, he⟩ e' w'
  unfold blasStep
  unfold Contract.blasStep at hk herr err
  rcases hsp : splitArrow step.einsumStr with _ | ⟨inp, _ | ⟨ri, _ | ⟨z, zs⟩⟩⟩
  · exact err .value (by simp only [hsp]) _
  · exact err .value (by simp only [hsp]) _
  swap
  · exact err .value (by simp only [hsp]) _
  simp only [hsp] at hk herr err ⊢
  rcases hsc : splitOn cComma inp with _ | ⟨left, _ | ⟨right, _ | ⟨z, zs⟩⟩⟩
  · exact err .value (by simp only [hsc]) _
  · exact err .value (by simp only [hsc]) _
  swap
  · exact err .value (by simp only [hsc]) _
  simp only [hsc] at hk herr err ⊢
  rcases tmp with _ | ⟨x, _ | ⟨y, _ | ⟨z, zs⟩⟩⟩
  · exact err _ rfl _
  · exact err _ rfl _
  swap
  · exact err _ rfl _
  simp only [List.map_cons, List.map_nil, bind, Except.bind] at hk herr err ⊢
  refine tensordot_does b (by simp) (by simp) (blasAxes left right step.removed) hI _ ?_ ?_
  · intro view w1 hr1 hI1 hv
    rw [hv] at hk herr
    simp only at hk herr
    by_cases hq : List.filter (fun c => decide (c ∉ step.removed)) (left ++ right) ≠ ri
    · rw [if_pos hq] at hk herr
      rw [if_pos hq]
      cases htr : transposeAxes (List.filter (fun c => decide (c ∉ step.removed)) (left ++ right)) ri with
      | error e =>
        rw [htr] at herr
        exact fun w' _ _ => herr ⟨e, rfl⟩ e w'
      | ok perm =>
        rw [htr] at hk herr
        simp only at hk herr ⊢
        refine transpose_does b (by simp) perm hI1 k ?_ herr
        intro z w2 hr2 hI2 hz
        exact hk z w2 (hr1.trans (hr2.weaken (fun i hi => List.mem_append_left _ hi))) hI2 hz
    · rw [if_neg hq] at hk herr
      rw [if_neg hq]
      exact hk view w1 hr1 hI1 rfl
  · rintro ⟨e, he⟩
    rw [he] at herr
    exact herr ⟨e, rfl⟩

theorem stepResult_does {E : Env R} {C : List Nat} {Q : Except PyErr Nat → World R → Prop} {L : List Nat} (b : Str) (step : Step)
    (hstep : PlainStep step) (tmp : List Nat) {w : World R} (hI : Inv E w) :
    Does E C Q (L ++ tmp) w (Contract.stepResult (E.noEinsum b) step (tmp.map w.heap)) (stepResult E L C b step tmp) := by
  unfold Contract.stepResult
  intro k hk herr
  unfold stepResult
  split
  · rename_i h
    rw [if_pos h] at hk herr
    exact blasStep_does b step tmp hI k hk herr
  · rename_i h
    rw [if_neg h] at hk herr
    obtain ⟨ins, r, he, h1, h2, _⟩ := hstep
    rw [he] at hk herr ⊢
    exact einsum_does b _ (fun i hi => List.mem_append_right _ hi) (eqOk_plain h1 h2 _ _) k hk herr

theorem coreLoop_does {E : Env R} {C : List Nat} {Q : Except PyErr Nat → World R → Prop} (args : List Nat) (b : Str) (steps : List Step)
    (hs : ∀ s ∈ steps, PlainStep s) (ops : List Nat) (k : List Nat → Prog R) {w : World R} (hI : Inv E w)
    (hk : ∀ ops' w', Inv E w' → Contract.coreLoop (E.noEinsum b) steps (ops.map w.heap) = .ok (ops'.map w'.heap) → Safe E C Q (k ops') w')
    (herr : (∃ e, Contract.coreLoop (E.noEinsum b) steps (ops.map w.heap) = .error e) → ∀ e w', Q (.error e) w') :
    Safe E C Q (coreLoop E args C b steps ops k) w := by
  induction steps generalizing ops w with
  | nil => exact hk ops w hI rfl
  | cons s ss ih =>
    unfold coreLoop
    unfold Contract.coreLoop at hk herr
    rw [popAll_map] at hk herr
    cases hp : popAll s.inds ops with
    | error e =>
      rw [hp] at herr
      exact fun w' _ _ => herr ⟨e, rfl⟩ e w'
    | ok v =>
      obtain ⟨tmp, rest⟩ := v
      rw [hp] at hk herr
      simp only [Except.map, bind, Except.bind] at hk herr ⊢
      refine stepResult_does b s (hs s (by simp)) tmp hI _ ?_ ?_
      · intro view w1 hr1 hI1 hv
        rw [hv] at hk herr
        simp only at hk herr
        have hr : (rest ++ [view]).map w1.heap = rest.map w.heap ++ [w1.heap view] := by
          rw [List.map_append]
          congr 1
          apply List.map_congr_left
          intro i hi
          exact hr1.heap i (by simp [hi])
        refine ih (fun s hs' => hs s (by simp [hs'])) (rest ++ [view]) hI1 ?_ ?_
        · intro ops' w' hI' h
          rw [hr] at h
          exact hk ops' w' hI' h
        · rw [hr]
          exact herr
      · rintro ⟨e, he⟩
        rw [he] at herr
        exact herr ⟨e, rfl⟩

theorem contract_does {E : Env R} {C : List Nat} {Q : Except PyErr Nat → World R → Prop} (b s : Str) (ids : List Nat) (opt : Optimize)
    (hopt : opt ≠ .off) (mem : MemLimit) (ub : Bool) {w : World R} (k : Nat → Prog R)
    (hk : ∀ x w', Inv E w' → Contract.contract (E.noEinsum b) s (ids.map w.heap) opt mem ub = .ok (w'.heap x) → Safe E C Q (k x) w')
    (herr : (∃ e, Contract.contract (E.noEinsum b) s (ids.map w.heap) opt mem ub = .error e) → ∀ e w', Q (.error e) w') :
    Safe E C Q (contract E C b s ids opt mem ub k) w := by
  have hcon : Contract.contract (E.noEinsum b) s (ids.map w.heap) opt mem ub = (do
      let (inp, out) ← parseEinsum s ((ids.map w.heap).map Tensor.shape)
      let info ← contractPath (splitOn cComma inp) out ((ids.map w.heap).map Tensor.shape) opt mem ub
      Contract.coreContract (E.noEinsum b) info.contractionList (ids.map w.heap)) := by
    cases opt with
    | off => exact absurd rfl hopt
    | path p => rfl
    | finder f => rfl
  have hpr : contract E C b s ids opt mem ub k = .look ids ids fun shapes =>
      match parseEinsum s shapes with
      | .error e => .ret (.error e)
      | .ok (inp, out) =>
        match contractPath (splitOn cComma inp) out shapes opt mem ub with
        | .error e => .ret (.error e)
        | .ok info => coreContract E C b info.contractionList ids k := by
    cases opt with
    | off => exact absurd rfl hopt
    | path p => rfl
    | finder f => rfl
  rw [hpr]
  rw [hcon] at hk herr
  intro w1 hr1 hI1
  have hm : ids.map w1.heap = ids.map w.heap := List.map_congr_left (fun i hi => hr1.heap i hi)
  have hsh : ids.map (fun i => (w1.heap i).shape) = (ids.map w.heap).map Tensor.shape := by
    rw [← hm, List.map_map]; rfl
  rw [hsh]
  cases hp : parseEinsum s ((ids.map w.heap).map Tensor.shape) with
  | error e =>
    rw [hp] at herr
    simp only [hp]
    exact fun w' _ _ => herr ⟨e, rfl⟩ e w'
  | ok v =>
    obtain ⟨inp, out⟩ := v
    rw [hp] at hk herr
    simp only [bind, Except.bind, hp] at hk herr ⊢
    cases hc : contractPath (splitOn cComma inp) out ((ids.map w.heap).map Tensor.shape) opt mem ub with
    | error e =>
      rw [hc] at herr
      exact fun w' _ _ => herr ⟨e, rfl⟩ e w'
    | ok info =>
      rw [hc] at hk herr
      simp only at hk herr ⊢
      unfold Contract.coreContract at hk herr
      simp only [bind, Except.bind] at hk herr
      unfold coreContract
      refine coreLoop_does ids b _ (contractPath_plain hp hc) ids _ hI1 ?_ ?_
      · intro ops' w' hI' h
        rw [hm] at h
        rw [h] at hk herr
        cases ops' with
        | nil => exact fun w'' _ _ => herr ⟨_, rfl⟩ _ w''
        | cons a t => exact hk a w' hI' rfl
      · rintro ⟨e, he⟩
        rw [hm] at he
        rw [he] at herr
        exact herr ⟨e, rfl⟩

end OE.ShareThreads
