import Verif.Spec.Sharing
import Verif.Lemmas.EinsumInv
import Verif.Lemmas.PlainSteps

/-! Invariants of the caches of `sharing.py`. -/

namespace OE.Share
open OE OE.Py OE.Parser OE.Contract OE.Spec
variable {R : Type}

/-! ### Dictionaries -/

theorem get?_mem {κ ν : Type} [DecidableEq κ] {d : Dict κ ν} {k : κ} {v : ν} (h : d.get? k = some v) : (k, v) ∈ d := by
  induction d with
  | nil => simp [Dict.get?] at h
  | cons p t ih =>
    obtain ⟨a, b⟩ := p
    simp only [Dict.get?] at h
    split at h
    · rename_i hk
      cases h; subst hk; simp
    · simp [ih h]

theorem values_set {κ ν : Type} [DecidableEq κ] {d : Dict κ ν} {k : κ} {v x : ν} (hx : x ∈ d.map Prod.snd)
    (hk : ∀ y, d.get? k = some y → y = v) : x ∈ (d.set k v).map Prod.snd := by
  induction d with
  | nil => simp at hx
  | cons p t ih =>
    obtain ⟨a, b⟩ := p
    simp only [Dict.set]
    simp only [Dict.get?] at hk
    simp only [List.map_cons, List.mem_cons] at hx
    split
    · rename_i h
      rw [if_pos h] at hk
      rcases hx with rfl | hx
      · simp [hk x rfl]
      · simp only [List.map_cons, List.mem_cons]; exact Or.inr hx
    · rename_i h
      rw [if_neg h] at hk
      rcases hx with rfl | hx
      · simp
      · simp only [List.map_cons, List.mem_cons]; exact Or.inr (ih hx hk)

/-! ### Caches -/

theorem cacheOf_put (c : Nat) (k : Key) (a : Nat) (w : World R) (c' : Nat) :
    cacheOf (putCache c k a w) c' = if c' = c then (cacheOf w c).set k a else cacheOf w c' := by
  unfold cacheOf putCache
  simp only
  rw [OE.Py.Dict.get?_set]
  split
  · rfl
  · rfl

theorem inUse_of_cache {w : World R} {c : Nat} {k : Key} {a : Nat} (h : (cacheOf w c).get? k = some a) : a ∈ inUse w := by
  unfold cacheOf at h
  cases hc : w.caches.get? c with
  | none => rw [hc] at h; simp [Dict.get?] at h
  | some cache =>
    rw [hc] at h
    have h1 := get?_mem hc
    have h2 := get?_mem h
    unfold inUse
    rw [List.mem_append]
    right
    rw [List.mem_flatMap]
    exact ⟨_, h1, List.mem_map_of_mem h2⟩

theorem inUse_put {c : Nat} {k : Key} {a : Nat} {w : World R} (hk : ∀ y, (cacheOf w c).get? k = some y → y = a) {x : Nat}
    (hx : x ∈ inUse w) : x ∈ inUse (putCache c k a w) := by
  unfold inUse at hx ⊢
  rw [List.mem_append] at hx ⊢
  rcases hx with hx | hx
  · exact Or.inl hx
  · right
    unfold putCache
    simp only
    rw [List.mem_flatMap] at hx ⊢
    obtain ⟨p, hp, hx⟩ := hx
    unfold cacheOf at hk ⊢
    generalize w.caches = cs at hp hk
    induction cs with
    | nil => simp at hp
    | cons q t ih =>
      obtain ⟨c', cache⟩ := q
      by_cases hc : c' = c
      · subst hc
        simp only [Dict.get?, if_true, Option.getD_some] at hk ⊢
        simp only [Dict.set, if_true]
        rcases List.mem_cons.mp hp with rfl | hp
        · exact ⟨_, List.mem_cons_self, values_set hx hk⟩
        · exact ⟨p, List.mem_cons_of_mem _ hp, hx⟩
      · have e : Dict.get? ((c', cache) :: t) c = Dict.get? t c := by simp [Dict.get?, hc]
        rw [e] at hk ⊢
        simp only [Dict.set, if_neg hc]
        rcases List.mem_cons.mp hp with rfl | hp
        · exact ⟨_, List.mem_cons_self, hx⟩
        · obtain ⟨q, hq, h⟩ := ih hp hk
          exact ⟨q, List.mem_cons_of_mem _ hq, h⟩

/-- The array is kept alive by the cache. -/
def Saved (cache : Cache) (i : Nat) : Prop := cache.get? (.tensor i) = some i

variable [CommSemiring R]

/-- What an entry of a cache means. -/
def EntryOk (E : Env R) (heap : Nat → Tensor R) (cache : Cache) : Key → Nat → Prop
  | .tensor i, a => a = i
  | .transpose _ i axes, a => Saved cache i ∧ npTranspose (heap i) axes = .ok (heap a)
  | .tensordot _ x y axes, a => Saved cache x ∧ Saved cache y ∧ npTensordot (heap x) (heap y) axes.1 axes.2 = .ok (heap a)
  | .einsum b e ids, a => (∀ i ∈ ids, Saved cache i) ∧ ∃ (ins : List Str) (r : Str) (ids' : List Nat), ins ≠ [] ∧ PlainTerms ins r ∧
      ins.length = ids'.length ∧ canonicalKey ins r ids' = (e, ids) ∧
      einsumCall (E.noEinsum b) (einsumStrOf ins r) (ids'.map heap) = .ok (heap a)
  | .convert _ _ _, _ => True

/-- All entries mean what they should. -/
def CacheOk (E : Env R) (heap : Nat → Tensor R) (cache : Cache) : Prop :=
  ∀ k a, cache.get? k = some a → EntryOk E heap cache k a

/-- The invariant of the program's state. -/
def Inv (E : Env R) (w : World R) : Prop := ∀ c, CacheOk E w.heap (cacheOf w c)

theorem EntryOk.mono {E : Env R} {heap : Nat → Tensor R} {cache cache' : Cache} (hs : ∀ i, Saved cache i → Saved cache' i) {k : Key}
    {a : Nat} (h : EntryOk E heap cache k a) : EntryOk E heap cache' k a := by
  cases k with
  | tensor i => exact h
  | transpose b i axes => exact ⟨hs i h.1, h.2⟩
  | tensordot b x y axes => exact ⟨hs x h.1, hs y h.2.1, h.2.2⟩
  | einsum b e ids => exact ⟨fun i hi => hs i (h.1 i hi), h.2⟩
  | convert n i k => trivial

omit [CommSemiring R] in
theorem canonicalKey_ids (ins : List Str) (r : Str) (ids : List Nat) (h : ins.length = ids.length) :
    (canonicalKey ins r ids).2.Perm ids := by
  unfold canonicalKey
  simp only
  have := (List.perm_insertionSort (fun a b : Str × Nat => a.2 ≤ b.2) (ins.zip ids)).map Prod.snd
  rw [List.map_snd_zip (by omega)] at this
  exact this

theorem EntryOk.heap {E : Env R} {h h' : Nat → Tensor R} {cache : Cache} {k : Key} {a : Nat} (hk : EntryOk E h cache k a)
    (ha : h' a = h a) (hs : ∀ i, Saved cache i → h' i = h i) : EntryOk E h' cache k a := by
  cases k with
  | tensor i => exact hk
  | transpose b i axes => exact ⟨hk.1, by rw [ha, hs i hk.1]; exact hk.2⟩
  | tensordot b x y axes => exact ⟨hk.1, hk.2.1, by rw [ha, hs x hk.1, hs y hk.2.1]; exact hk.2.2⟩
  | einsum b e ids =>
    obtain ⟨h1, ins, r, ids', hne, hp, hl, hc, he⟩ := hk
    refine ⟨h1, ins, r, ids', hne, hp, hl, hc, ?_⟩
    have : ids'.map h' = ids'.map h := by
      apply List.map_congr_left
      intro i hi
      have := canonicalKey_ids ins r ids' hl
      rw [hc] at this
      exact hs i (h1 i (this.mem_iff.mpr hi))
    rw [this, ha]
    exact he
  | convert n i k => trivial

theorem Inv.heap {E : Env R} {w w' : World R} (h : Inv E w) (hc : w'.caches = w.caches) (hh : ∀ i ∈ inUse w, w'.heap i = w.heap i) :
    Inv E w' := by
  intro c k a hka
  have hco : cacheOf w' c = cacheOf w c := by unfold cacheOf; rw [hc]
  rw [hco] at hka ⊢
  apply (h c k a hka).heap
  · exact hh a (inUse_of_cache hka)
  · intro i hi
    exact hh i (inUse_of_cache hi)

theorem Inv.put {E : Env R} {w : World R} (h : Inv E w) {c : Nat} {k : Key} {a : Nat} (hk : ∀ i, k = .tensor i → a = i)
    (he : EntryOk E w.heap ((cacheOf w c).set k a) k a) : Inv E (putCache c k a w) := by
  intro c' k' a' hka
  rw [cacheOf_put] at hka ⊢
  split
  · rename_i hc
    rw [if_pos hc] at hka
    rw [OE.Py.Dict.get?_set] at hka
    have hs : ∀ i, Saved (cacheOf w c) i → Saved ((cacheOf w c).set k a) i := by
      intro i hi
      unfold Saved
      rw [OE.Py.Dict.get?_set]
      split
      · rename_i e; rw [hk i e.symm]
      · exact hi
    split at hka
    · rename_i e
      cases hka; subst e; exact he
    · exact (h c k' a' hka).mono hs
  · rename_i hc
    rw [if_neg hc] at hka
    exact h c' k' a' hka

/-! ### What calls leave alone -/

/-- `w'` comes after `w`: arrays in use and the arrays `L` are unchanged, caches only grow. -/
structure Ext (L : List Nat) (w w' : World R) : Prop where
  heap : ∀ i, i ∈ L ∨ i ∈ inUse w → w'.heap i = w.heap i
  use : ∀ i ∈ inUse w, i ∈ inUse w'
  roots : w'.roots = w.roots
  stack : w'.stack = w.stack
  next : w'.nextCache = w.nextCache
  keys : ∀ c, (w'.caches.get? c).isSome → (w.caches.get? c).isSome ∨ w.stack.head? = some c
  mono : ∀ c k a, (cacheOf w c).get? k = some a → (cacheOf w' c).get? k = some a

omit [CommSemiring R] in
theorem Ext.refl (L : List Nat) (w : World R) : Ext L w w := ⟨fun _ _ => rfl, fun _ h => h, rfl, rfl, rfl, fun _ h => Or.inl h, fun _ _ _ h => h⟩

omit [CommSemiring R] in
theorem Ext.trans {L : List Nat} {w₁ w₂ w₃ : World R} (h : Ext L w₁ w₂) (h' : Ext L w₂ w₃) : Ext L w₁ w₃ where
  heap := by
    intro i hi
    rw [h'.heap i (hi.imp id (h.use i)), h.heap i hi]
  use := fun i hi => h'.use i (h.use i hi)
  roots := by rw [h'.roots, h.roots]
  stack := by rw [h'.stack, h.stack]
  next := by rw [h'.next, h.next]
  keys := by
    intro c hc
    rcases h'.keys c hc with h3 | h3
    · exact h.keys c h3
    · rw [h.stack] at h3
      exact Or.inr h3
  mono := fun c k a hk => h'.mono c k a (h.mono c k a hk)

omit [CommSemiring R] in
theorem Ext.weaken {L L' : List Nat} {w w' : World R} (h : Ext L w w') (hs : ∀ i ∈ L', i ∈ L) : Ext L' w w' :=
  ⟨fun i hi => h.heap i (hi.imp (hs i) id), h.use, h.roots, h.stack, h.next, h.keys, h.mono⟩

omit [CommSemiring R] in
theorem ext_put {L : List Nat} {c : Nat} {k : Key} {a : Nat} {w : World R} (hst : w.stack.head? = some c) (hk : ∀ y, (cacheOf w c).get? k = some y → y = a) :
    Ext L w (putCache c k a w) where
  heap := fun _ _ => rfl
  use := fun i hi => inUse_put hk hi
  roots := rfl
  stack := rfl
  next := rfl
  keys := by
    intro c' h
    unfold putCache at h
    simp only at h
    rw [OE.Py.Dict.get?_set] at h
    split at h
    · rename_i e
      rw [e]
      exact Or.inr hst
    · exact Or.inl h
  mono := by
    intro c' k' a' h
    rw [cacheOf_put]
    split
    · rename_i hc
      subst hc
      rw [OE.Py.Dict.get?_set]
      split
      · rename_i e
        subst e
        rw [hk a' h]
      · exact h
    · exact h

/-- The outcome of a call: the expected contents, or an exception where one is expected. -/
def Out (o : Except PyErr Nat) (w' : World R) (r : Except PyErr (Tensor R)) : Prop := Agrees (o, w') r

theorem store_spec {E : Env R} (hE : FreshIds E) (L : List Nat) (T : Tensor R) {w : World R} (hI : Inv E w) :
    ∃ a w', store E L T w = (.ok a, w') ∧ Inv E w' ∧ Ext L w w' ∧ w'.heap a = T ∧ w'.caches = w.caches ∧ w'.execs = w.execs := by
  have ha := hE w.clock (L ++ inUse w)
  set a := E.alloc w.clock (L ++ inUse w) with hadef
  rw [List.mem_append, not_or] at ha
  have hh : ∀ i, i ∈ L ∨ i ∈ inUse w → (if i = a then T else w.heap i) = w.heap i := by
    intro i hi
    rw [if_neg]
    rintro rfl
    exact hi.elim ha.1 ha.2
  refine ⟨a, _, rfl, ?_, ?_, if_pos rfl, rfl, rfl⟩
  · exact hI.heap rfl (fun i hi => hh i (Or.inr hi))
  · exact ⟨hh, fun i hi => hi, rfl, rfl, rfl, fun _ h => Or.inl h, fun c k a h => h⟩

theorem runFn_spec {E : Env R} (hE : FreshIds E) (L : List Nat) (r : Except PyErr (Tensor R)) {w : World R} (hI : Inv E w) :
    ∃ o w', runFn E L r w = (o, w') ∧ Inv E w' ∧ Ext L w w' ∧ Out o w' r ∧ w'.caches = w.caches ∧ w'.execs = w.execs + 1 := by
  have h0 : Inv E ({ w with execs := w.execs + 1 } : World R) := hI
  cases r with
  | error e => exact ⟨_, _, rfl, h0, ⟨fun _ _ => rfl, fun _ h => h, rfl, rfl, rfl, fun _ h => Or.inl h, fun _ _ _ h => h⟩, trivial, rfl, rfl⟩
  | ok T =>
    obtain ⟨a, w', h1, h2, h3, h4, h5, h6⟩ := store_spec hE L T h0
    exact ⟨.ok a, w', h1, h2, ⟨h3.heap, h3.use, h3.roots, h3.stack, h3.next, h3.keys, h3.mono⟩, h4, h5, h6⟩

theorem save_spec {E : Env R} (L : List Nat) (c : Nat) (ids : List Nat) {w : World R} (hst : w.stack.head? = some c) (hI : Inv E w) :
    Inv E (saveTensors c ids w) ∧ Ext L w (saveTensors c ids w) ∧ (saveTensors c ids w).heap = w.heap ∧
      (∀ i ∈ ids, Saved (cacheOf (saveTensors c ids w) c) i) ∧ (saveTensors c ids w).execs = w.execs := by
  induction ids generalizing w with
  | nil => exact ⟨hI, Ext.refl L w, rfl, by simp, rfl⟩
  | cons i t ih =>
    have hk : ∀ y, (cacheOf w c).get? (.tensor i) = some y → y = i := fun y hy => hI c _ _ hy
    have h1 : Inv E (putCache c (.tensor i) i w) := hI.put (fun j hj => by cases hj; rfl) (by simp [EntryOk])
    obtain ⟨h2, h3, h4, h5, h6⟩ := ih (w := putCache c (.tensor i) i w) hst h1
    refine ⟨h2, (ext_put hst hk).trans h3, h4, ?_, h6⟩
    intro j hj
    rcases List.mem_cons.mp hj with rfl | hj
    · apply h3.mono
      rw [cacheOf_put, if_pos rfl, OE.Py.Dict.get?_set_self]
    · exact h5 j hj

theorem memoize_spec {E : Env R} (hE : FreshIds E) {L : List Nat} {c : Nat} {key : Key} {r : Except PyErr (Tensor R)} {run : M R Nat}
    {w : World R} (hst : w.stack.head? = some c) (hI : Inv E w) (hrun : run w = runFn E L r w) (hkey : ∀ i, key ≠ .tensor i)
    (hhit : ∀ a, (cacheOf w c).get? key = some a → r = .ok (w.heap a))
    (hmiss : ∀ (w' : World R) a, Ext L w w' → cacheOf w' c = cacheOf w c → r = .ok (w'.heap a) →
      EntryOk E w'.heap ((cacheOf w' c).set key a) key a) :
    ∃ o w', memoize c key run w = (o, w') ∧ Inv E w' ∧ Ext L w w' ∧ Out o w' r ∧
      (∀ a, o = .ok a → (cacheOf w' c).get? key = some a) ∧ (((cacheOf w c).get? key).isSome → w' = w) := by
  unfold memoize
  cases hc : (cacheOf w c).get? key with
  | some a =>
    refine ⟨_, _, rfl, hI, Ext.refl _ _, ?_, ?_, fun _ => rfl⟩
    · rw [hhit a hc]; rfl
    · intro a' h; cases h; exact hc
  | none =>
    simp only
    obtain ⟨o, w', h1, h2, h3, h4, h5, h6⟩ := runFn_spec hE L r hI
    rw [hrun, h1]
    have hco : cacheOf w' c = cacheOf w c := by unfold cacheOf; rw [h5]
    cases o with
    | error e => exact ⟨_, _, rfl, h2, h3, h4, (by simp), by simp⟩
    | ok a =>
      refine ⟨_, _, rfl, ?_, ?_, ?_, ?_, by simp⟩
      · apply h2.put
        · intro i hi; exact absurd hi (hkey i)
        · apply hmiss w' a h3 hco
          cases r with
          | error e => exact absurd h4 (by simp [Out, Agrees])
          | ok T => rw [show w'.heap a = T from h4]
      · refine h3.trans (ext_put (by rw [h3.stack]; exact hst) ?_)
        intro y hy
        rw [hco, hc] at hy; cases hy
      · exact h4
      · intro a' h
        cases h
        rw [cacheOf_put, if_pos rfl, OE.Py.Dict.get?_set_self]

/-- What every call satisfies: started in a good state with local variables `L`. -/
def CallOk (E : Env R) (L : List Nat) (m : M R Nat) (w : World R) (r : Except PyErr (Tensor R)) : Prop :=
  ∃ o w', m w = (o, w') ∧ Inv E w' ∧ Ext L w w' ∧ Out o w' r

theorem transpose_ok {E : Env R} (hE : FreshIds E) (L : List Nat) (b : Str) (a : Nat) (axes : List Nat) {w : World R} (hI : Inv E w) :
    CallOk E L (transpose E L b a axes) w (npTranspose (w.heap a) axes) := by
  unfold CallOk transpose
  cases hs : w.stack with
  | nil =>
    obtain ⟨o, w', h1, h2, h3, h4, _⟩ := runFn_spec hE L (npTranspose (w.heap a) axes) hI
    exact ⟨o, w', h1, h2, h3, h4⟩
  | cons c t =>
    obtain ⟨s1, s2, s3, s4, _⟩ := save_spec (E := E) L c [a] (by rw [hs]; rfl) hI
    obtain ⟨o, w', h1, h2, h3, h4, _, _⟩ := memoize_spec (c := c) (key := .transpose b a axes) (r := npTranspose (w.heap a) axes)
      (run := fun w => runFn E L (npTranspose (w.heap a) axes) w) hE (L := L) (by rw [s2.stack, hs]; rfl) s1 (by simp only [s3]) (by simp)
      (by
        intro x hx
        have := (s1 c _ _ hx).2
        rw [s3] at this ⊢
        exact this)
      (by
        intro w' x hext hco hr
        refine ⟨?_, ?_⟩
        · unfold Saved
          rw [OE.Py.Dict.get?_set_ne (by simp), hco]
          exact s4 a (by simp)
        · have : w'.heap a = w.heap a := by
            rw [hext.heap a (Or.inr (inUse_of_cache (s4 a (by simp)))), s3]
          rw [this]; exact hr)
    exact ⟨o, w', h1, h2, s2.trans h3, h4⟩

theorem tensordot_ok {E : Env R} (hE : FreshIds E) (L : List Nat) (b : Str) (x y : Nat) (axes : List Nat × List Nat) {w : World R}
    (hI : Inv E w) : CallOk E L (tensordot E L b x y axes) w (npTensordot (w.heap x) (w.heap y) axes.1 axes.2) := by
  unfold CallOk tensordot
  cases hs : w.stack with
  | nil =>
    obtain ⟨o, w', h1, h2, h3, h4, _⟩ := runFn_spec hE L (npTensordot (w.heap x) (w.heap y) axes.1 axes.2) hI
    exact ⟨o, w', h1, h2, h3, h4⟩
  | cons c t =>
    obtain ⟨s1, s2, s3, s4, _⟩ := save_spec (E := E) L c [x, y] (by rw [hs]; rfl) hI
    obtain ⟨o, w', h1, h2, h3, h4, _, _⟩ := memoize_spec (c := c) (key := .tensordot b x y axes)
      (r := npTensordot (w.heap x) (w.heap y) axes.1 axes.2)
      (run := fun w => runFn E L (npTensordot (w.heap x) (w.heap y) axes.1 axes.2) w) hE (L := L) (by rw [s2.stack, hs]; rfl) s1 (by simp only [s3]) (by simp)
      (by
        intro z hz
        have := (s1 c _ _ hz).2.2
        rw [s3] at this ⊢
        exact this)
      (by
        intro w' z hext hco hr
        have hsv : ∀ i ∈ [x, y], Saved ((cacheOf w' c).set (.tensordot b x y axes) z) i := by
          intro i hi
          unfold Saved
          rw [OE.Py.Dict.get?_set_ne (by simp), hco]
          exact s4 i hi
        have hh : ∀ i ∈ [x, y], w'.heap i = w.heap i := by
          intro i hi
          rw [hext.heap i (Or.inr (inUse_of_cache (s4 i hi))), s3]
        refine ⟨hsv x (by simp), hsv y (by simp), ?_⟩
        rw [hh x (by simp), hh y (by simp)]; exact hr)
    exact ⟨o, w', h1, h2, s2.trans h3, h4⟩

/-! ### Einsum: the canonical key -/

omit [CommSemiring R] in
theorem einsumStrOf_inj {ins ins' : List Str} {r r' : Str} (hne : ins ≠ []) (hne' : ins' ≠ []) (hl : PlainTerms ins r)
    (hl' : PlainTerms ins' r') (h : einsumStrOf ins r = einsumStrOf ins' r') : ins = ins' ∧ r = r' := by
  have key : ∀ {ins : List Str} {r : Str}, PlainTerms ins r → splitArrow (einsumStrOf ins r) = [join [cComma] ins, r] := by
    intro ins r hl
    apply splitArrow_two
    · intro hm
      rcases mem_join _ _ _ hm with h | ⟨t, ht, hc⟩
      · simp at h
      · exact hl.1 t ht _ hc (by simp [IsPunct])
    · intro hm
      exact hl.2 _ hm (by simp [IsPunct])
  have h1 := key hl
  rw [h, key hl'] at h1
  simp only [List.cons.injEq, and_true] at h1
  refine ⟨?_, h1.2.symm⟩
  rw [← splitOn_join cComma ins hne (fun t ht hc => hl.1 t ht _ hc (by simp [IsPunct])), ← h1.1,
    splitOn_join cComma ins' hne' (fun t ht hc => hl'.1 t ht _ hc (by simp [IsPunct]))]

/-- Two calls with the same key have the same outcome. -/
theorem einsumCall_key {ins ins' : List Str} {r r' : Str} {ids ids' : List Nat} (heap : Nat → Tensor R) (hne : ins ≠ [])
    (hl : PlainTerms ins r) (hl' : PlainTerms ins' r') (hlen : ins.length = ids.length) (hlen' : ins'.length = ids'.length)
    (h : canonicalKey ins r ids = canonicalKey ins' r' ids') (noE : Bool) :
    einsumCall noE (einsumStrOf ins r) (ids.map heap) = einsumCall noE (einsumStrOf ins' r') (ids'.map heap) := by
  cases noE with
  | true => rfl
  | false =>
  unfold canonicalKey at h
  simp only [Prod.mk.injEq] at h
  obtain ⟨h1, h2⟩ := h
  set s := sortedBy Prod.snd (ins.zip ids) with hs
  set s' := sortedBy Prod.snd (ins'.zip ids') with hs'
  have hp : s.Perm (ins.zip ids) := List.perm_insertionSort _ _
  have hp' : s'.Perm (ins'.zip ids') := List.perm_insertionSort _ _
  have hf1 : (s.map Prod.fst).Perm ins := by
    have := hp.map Prod.fst
    rwa [List.map_fst_zip (by omega)] at this
  have hf1' : (s'.map Prod.fst).Perm ins' := by
    have := hp'.map Prod.fst
    rwa [List.map_fst_zip (by omega)] at this
  have hls : PlainTerms (s.map Prod.fst) r := ⟨fun t ht => hl.1 t (hf1.mem_iff.mp ht), hl.2⟩
  have hls' : PlainTerms (s'.map Prod.fst) r' := ⟨fun t ht => hl'.1 t (hf1'.mem_iff.mp ht), hl'.2⟩
  have hsne : s.map Prod.fst ≠ [] := by
    intro e
    rw [e] at hf1
    exact hne (List.nil_perm.mp hf1)
  have hsne' : s'.map Prod.fst ≠ [] := by
    intro e
    have := congrArg List.length h2
    have e2 := congrArg List.length e
    simp only [List.length_map, List.length_nil] at this e2
    apply hsne
    rw [← List.length_eq_zero_iff, List.length_map]
    omega
  obtain ⟨f, hf, hfe⟩ := (Props.C31_alpha_canonicalize_iff _ _).mp h1
  have hstr : (einsumStrOf (s.map Prod.fst) r).map f = einsumStrOf ((s.map Prod.fst).map (List.map f)) (r.map f) := by
    unfold einsumStrOf
    simp only [List.map_append]
    rw [join_map f _ _ (by simp [hf.fixes 44 (by simp [IsPunct])])]
    simp [hf.fixes 45 (by simp [IsPunct]), hf.fixes 62 (by simp [IsPunct])]
  rw [hstr] at hfe
  have hlab : ∀ c, c ∈ (s.map Prod.fst).flatten ++ r → c ∈ labelSet (einsumStrOf (s.map Prod.fst) r) :=
    fun c hc => ⟨mem_einsumStrOf_of hc, hls.label hc⟩
  have hlf : PlainTerms ((s.map Prod.fst).map (List.map f)) (r.map f) := by
    refine ⟨?_, ?_⟩
    · intro t ht c hc
      obtain ⟨t', ht', rfl⟩ := List.mem_map.mp ht
      obtain ⟨x, hx, rfl⟩ := List.mem_map.mp hc
      apply hf.labels x (hlab x _)
      rw [List.mem_append, List.mem_flatten]
      exact Or.inl ⟨t', ht', hx⟩
    · intro c hc
      obtain ⟨x, hx, rfl⟩ := List.mem_map.mp hc
      exact hf.labels x (hlab x (by simp [hx]))
  obtain ⟨e1, e2⟩ := einsumStrOf_inj hsne' (by simpa using hsne) hls' hlf hfe
  have hss : s' = s.map (fun p => (p.1.map f, p.2)) := by
    have : s' = (s'.map Prod.fst).zip (s'.map Prod.snd) := (zip_map_fst_snd s').symm
    rw [this, e1, ← h2, List.map_map, zip_map_map]
    rfl
  apply einsumCall_renamed (f := f) hne hl hl' (by simpa using hlen) (by simpa using hlen')
  · apply hf.inj.mono
    intro c hc
    apply hlab
    simp only [Set.mem_ofPred_eq, List.mem_append, List.mem_flatten] at hc ⊢
    rcases hc with ⟨t, ht, hc⟩ | hc
    · exact Or.inl ⟨t, hf1.mem_iff.mpr ht, hc⟩
    · exact Or.inr hc
  · have q1 : ins.zip (ids.map heap) = (ins.zip ids).map (fun p => (p.1, heap p.2)) := by
      rw [List.zip_map_right]; rfl
    have q2 : ins'.zip (ids'.map heap) = (ins'.zip ids').map (fun p => (p.1, heap p.2)) := by
      rw [List.zip_map_right]; rfl
    rw [q1, q2]
    unfold renameOps
    rw [List.map_map]
    have p1 := (hp.map ((fun p : Str × Tensor R => (p.1.map f, p.2)) ∘ (fun p : Str × Nat => (p.1, heap p.2)))).symm
    refine p1.trans ?_
    have p2 := hp'.map (fun p : Str × Nat => (p.1, heap p.2))
    refine List.Perm.trans ?_ p2
    rw [hss, List.map_map]
    exact List.Perm.refl _
  · exact e2

/-- An equation for which the call under sharing can be compared with the plain one. -/
def EqOk (noE : Bool) (eq : Str) (ops : List (Tensor R)) : Prop :=
  (∃ inp out, parseEinsum eq (ops.map Tensor.shape) = .ok (inp, out) ∧ PlainTerms (splitOn cComma inp) out ∧
    einsumCall noE eq ops = einsumCall noE (einsumStrOf (splitOn cComma inp) out) ops) ∨
  ((∃ e, parseEinsum eq (ops.map Tensor.shape) = .error e) ∧ ∃ e, einsumCall noE eq ops = .error e)

theorem einsum_ok {E : Env R} (hE : FreshIds E) (L : List Nat) (b : Str) (eq : Str) (ids : List Nat) {w : World R} (hI : Inv E w)
    (heq : EqOk (E.noEinsum b) eq (ids.map w.heap)) :
    CallOk E L (einsum E L b eq ids) w (einsumCall (E.noEinsum b) eq (ids.map w.heap)) := by
  unfold CallOk einsum
  cases hs : w.stack with
  | nil =>
    obtain ⟨o, w', h1, h2, h3, h4, _⟩ := runFn_spec hE L (einsumCall (E.noEinsum b) eq (ids.map w.heap)) hI
    exact ⟨o, w', h1, h2, h3, h4⟩
  | cons c t =>
    have hsh : (ids.map w.heap).map Tensor.shape = ids.map (fun i => (w.heap i).shape) := by rw [List.map_map]; rfl
    rcases heq with ⟨inp, out, hp, hpl, hcall⟩ | ⟨⟨e, hp⟩, e', hcall⟩
    · rw [hsh] at hp
      simp only [hp]
      have hlen : (splitOn cComma inp).length = ids.length := by simpa using (Props.parse_labels hp).1
      have hne : splitOn cComma inp ≠ [] := splitOn_ne_nil _ _
      obtain ⟨s1, s2, s3, s4, _⟩ := save_spec (E := E) L c ids (by rw [hs]; rfl) hI
      obtain ⟨o, w', h1, h2, h3, h4, _, _⟩ := memoize_spec (c := c)
        (key := .einsum b (canonicalKey (splitOn cComma inp) out ids).1 (canonicalKey (splitOn cComma inp) out ids).2)
        (r := einsumCall (E.noEinsum b) eq (ids.map w.heap))
        (run := fun w => runFn E L (einsumCall (E.noEinsum b) eq (ids.map w.heap)) w) hE (L := L) (by rw [s2.stack, hs]; rfl) s1 (by simp only [s3]) (by simp)
        (by
          intro z hz
          obtain ⟨_, ins, r, ids', hne', hpl', hlen', hkey, hz⟩ := s1 c _ _ hz
          rw [← hz, hcall, s3]
          exact (einsumCall_key w.heap hne' hpl' hpl hlen' hlen hkey _).symm)
        (by
          intro w' z hext hco hr
          refine ⟨?_, splitOn cComma inp, out, ids, hne, hpl, hlen, rfl, ?_⟩
          · intro i hi
            unfold Saved
            rw [OE.Py.Dict.get?_set_ne (by simp), hco]
            exact s4 i ((canonicalKey_ids _ _ _ hlen).mem_iff.mp hi)
          · have : ids.map w'.heap = ids.map w.heap := by
              apply List.map_congr_left
              intro i hi
              rw [hext.heap i (Or.inr (inUse_of_cache (s4 i hi))), s3]
            rw [this, ← hcall]
            exact hr)
      exact ⟨o, w', h1, h2, s2.trans h3, h4⟩
    · rw [hsh] at hp
      simp only [hp]
      exact ⟨_, _, rfl, hI, Ext.refl _ _, by rw [hcall]; trivial⟩

end OE.Share
