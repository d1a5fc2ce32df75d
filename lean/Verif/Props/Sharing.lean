import Verif.Lemmas.Sharing2

/-! # C42: sharing never changes results -/

namespace OE.Share
open OE OE.Py OE.Parser OE.Contract OE.Spec OE.Props
variable {R : Type} [CommSemiring R]

theorem convert_ext {E : Env R} (hE : FreshIds E) (L : List Nat) (n : Str) (k : Option Bool) (a : Nat) {w : World R} (hI : Inv E w) :
    ∃ o w', convert E L n k a w = (o, w') ∧ Inv E w' ∧ Ext L w w' := by
  unfold convert
  cases hs : w.stack with
  | nil =>
    obtain ⟨o, w', h1, h2, h3, _⟩ := runFn_spec hE L (.ok (E.conv n k (w.heap a))) hI
    exact ⟨o, w', h1, h2, h3⟩
  | cons c t =>
    simp only
    unfold memoize
    cases hc : (cacheOf w c).get? (.convert n a k) with
    | some x => exact ⟨_, _, rfl, hI, Ext.refl _ _⟩
    | none =>
      simp only
      obtain ⟨o, w', h1, h2, h3, h4, h5, _⟩ := runFn_spec hE L (.ok (E.conv n k (w.heap a))) hI
      rw [h1]
      cases o with
      | error e => exact ⟨_, _, rfl, h2, h3⟩
      | ok x =>
        refine ⟨_, _, rfl, h2.put (by simp) trivial, h3.trans (ext_put (by rw [h3.stack, hs]; rfl) ?_)⟩
        intro y hy
        rw [show cacheOf w' c = cacheOf w c by unfold cacheOf; rw [h5], hc] at hy
        cases hy

/-- Every covered call agrees with the direct one; conversions are only claimed to leave things alone. -/
theorem call_ok {E : Env R} (hE : FreshIds E) {w : World R} (hI : Inv E w) {e : Event R} (hc : Covered w e) {m : M R Nat}
    (hm : callOf E e = some m) :
    ∃ o w', m w = (o, w') ∧ Inv E w' ∧ Ext [] w w' ∧
      ((∀ n k a, e ≠ .convert n k a) → ∀ d, direct E w e = some d → Agrees (o, w') d) := by
  have conv : ∀ {L : List Nat} {r : Except PyErr (Tensor R)} {m' : M R Nat}, CallOk E L m' w r → callOf E e = some m' → direct E w e = some r →
      ∃ o w', m w = (o, w') ∧ Inv E w' ∧ Ext [] w w' ∧
        ((∀ n k a, e ≠ .convert n k a) → ∀ d, direct E w e = some d → Agrees (o, w') d) := by
    intro L r m' hcall hm' hd
    rw [hm] at hm'
    cases hm'
    obtain ⟨o, w', h1, h2, h3, h4⟩ := hcall
    refine ⟨o, w', h1, h2, h3.weaken (by simp), ?_⟩
    intro _ d hd'
    rw [hd] at hd'
    cases hd'
    exact h4
  have hsh : ∀ ids : List Nat, (ids.map w.heap).map Tensor.shape = ids.map (fun i => (w.heap i).shape) := fun ids => by
    rw [List.map_map]; rfl
  cases e with
  | new T => cases hm
  | drop a => cases hm
  | enter c => cases c <;> cases hm
  | leave => cases hm
  | dropCache c => cases hm
  | transpose b a axes => exact conv (transpose_ok hE [] b a axes hI) rfl rfl
  | tensordot b x y axes => exact conv (tensordot_ok hE [] b x y axes hI) rfl rfl
  | einsum b eq ids =>
    refine conv (einsum_ok hE [] b eq ids hI ?_) rfl rfl
    apply eqOk_simple
    rw [hsh]
    exact hc
  | contract b s ids opt mem ub =>
    cases opt with
    | off =>
      refine conv (einsum_ok hE ids (S "numpy") s ids hI ?_) rfl rfl
      apply eqOk_simple
      rw [hsh]
      exact hc
    | path p => exact conv (contract_ok hE b s ids (.path p) (by simp) mem ub hI) rfl rfl
    | finder f => exact conv (contract_ok hE b s ids (.finder f) (by simp) mem ub hI) rfl rfl
  | convert n k a =>
    cases hm
    obtain ⟨o, w', h1, h2, h3⟩ := convert_ext hE [] n k a hI
    exact ⟨o, w', h1, h2, h3, fun h => absurd rfl (h n k a)⟩

omit [CommSemiring R] in
theorem keep_snd (m : M R Nat) (w : World R) : ∃ rs, (∀ a ∈ (m w).2.roots, a ∈ rs) ∧ (keep m w).2 = { (m w).2 with roots := rs } ∧
    (∀ a ∈ rs, a ∈ (m w).2.roots ∨ (m w).1 = .ok a) := by
  unfold keep
  rcases h : m w with ⟨o, w'⟩
  cases o with
  | error e => exact ⟨w'.roots, fun _ h => h, rfl, fun a ha => Or.inl ha⟩
  | ok a =>
    refine ⟨a :: w'.roots, fun b hb => by simp [show b ∈ w'.roots from hb], rfl, ?_⟩
    intro b hb
    rcases List.mem_cons.mp hb with rfl | hb
    · exact Or.inr rfl
    · exact Or.inl hb

omit [CommSemiring R] in
theorem cacheOf_enter (w : World R) (c : Nat) :
    cacheOf ({ w with caches := w.caches.set w.nextCache [], stack := w.nextCache :: w.stack, nextCache := w.nextCache + 1 } : World R) c =
      if c = w.nextCache then [] else cacheOf w c := by
  unfold cacheOf
  simp only
  rw [OE.Py.Dict.get?_set]
  split <;> rfl

theorem get?_del {κ ν : Type} [DecidableEq κ] (d : Dict κ ν) (k k' : κ) : (d.del k).get? k' = if k' = k then none else d.get? k' := by
  induction d with
  | nil => simp [Dict.del, Dict.get?]
  | cons p t ih =>
    obtain ⟨a, b⟩ := p
    unfold Dict.del at ih ⊢
    rw [List.filter_cons]
    by_cases ha : a = k
    · subst ha
      simp only [ne_eq, not_true_eq_false, decide_false, Bool.false_eq_true, if_false]
      rw [ih]
      split
      · rfl
      · rename_i h
        rw [Dict.get?, if_neg (Ne.symm h)]
    · simp only [ne_eq, ha, not_false_eq_true, decide_true, if_true]
      rw [Dict.get?, ih, Dict.get?]
      by_cases h : a = k'
      · subst h; simp [ha]
      · simp [h]

omit [CommSemiring R] in
theorem cacheOf_drop (w : World R) (c c' : Nat) :
    cacheOf ({ w with caches := w.caches.del c } : World R) c' = if c' = c then [] else cacheOf w c' := by
  unfold cacheOf
  simp only
  rw [get?_del]
  split <;> rfl

theorem cacheOk_nil (E : Env R) (heap : Nat → Tensor R) : CacheOk E heap [] := by
  intro k a h
  simp [Dict.get?] at h

theorem step_call {E : Env R} {e : Event R} {m : M R Nat} (hm : callOf E e = some m) (w : World R) : step E w e = (keep m w).2 := by
  cases e with
  | new T => cases hm
  | drop a => cases hm
  | enter c => cases c <;> cases hm
  | leave => cases hm
  | dropCache c => cases hm
  | _ => unfold step; simp only [hm]

theorem step_inv {E : Env R} (hE : FreshIds E) {w : World R} (hI : Inv E w) (e : Event R) (hc : Covered w e) : Inv E (step E w e) := by
  have main : ∀ m, callOf E e = some m → Inv E (step E w e) := by
    intro m hm
    rw [step_call hm]
    obtain ⟨o, w', h1, h2, h3, _⟩ := call_ok hE hI hc hm
    obtain ⟨rs, _, h5, _⟩ := keep_snd m w
    rw [h5, h1]
    exact h2
  cases e with
  | new T =>
    obtain ⟨a, w', h1, h2, _⟩ := store_spec hE [] T hI
    obtain ⟨rs, _, h5, _⟩ := keep_snd (store E [] T) w
    unfold step
    simp only
    rw [h5, h1]
    exact h2
  | drop a => exact hI
  | enter c =>
    cases c with
    | some c => exact hI
    | none =>
      intro c
      unfold step
      simp only
      rw [cacheOf_enter]
      split
      · exact cacheOk_nil _ _
      · exact hI c
  | leave => exact hI
  | dropCache c =>
    intro c'
    unfold step
    simp only
    rw [cacheOf_drop]
    split
    · exact cacheOk_nil _ _
    · exact hI c'
  | transpose b a axes => exact main _ rfl
  | tensordot b x y axes => exact main _ rfl
  | einsum b eq ids => exact main _ rfl
  | contract b s ids opt mem ub => exact main _ rfl
  | convert n k a => exact main _ rfl

theorem reachable_inv {E : Env R} (hE : FreshIds E) {w : World R} {P : World R → Event R → Prop} (hP : ∀ w e, P w e → Covered w e)
    (h : ReachableBy E P w) : Inv E w := by
  induction h with
  | init heap =>
    intro c
    unfold cacheOf
    simp only [Dict.get?, Option.getD_none]
    exact cacheOk_nil _ _
  | step e _ _ hc ih => exact step_inv hE ih e (hP _ _ hc)

end OE.Share

namespace OE.Props
open OE OE.Py OE.Parser OE.Contract OE.Spec OE.Share
variable {R : Type} [CommSemiring R]

/-- **C42** (partial): in every state that a program can reach — with contexts entered, left, re-entered and nested, arrays and caches
forgotten, and identities of forgotten arrays given to new ones in any way — a `transpose`, `tensordot`, `einsum` or `contract` call delivers
the same contents as the call without sharing, or both raise; and the arrays that the program holds keep their contents.

Missing for the full property: equations that reach the backend as the user wrote them (`einsum` directly, or `contract(optimize=False)`)
and that numpy does not read as the parser does (see `NumpyReads`); `C42_spaces_counterexample` and `C42_ellipsis_counterexample` show what
goes wrong there. -/
theorem C42_sharing_transparent_partial {E : Env R} (hE : FreshIds E) {w : World R} (hw : ReachableBy E Covered w) {e : Event R}
    (hc : Covered w e) (hconv : ∀ n k a, e ≠ .convert n k a) {m : M R Nat} (hm : callOf E e = some m)
    {d : Except PyErr (Tensor R)} (hd : direct E w e = some d) :
    Agrees (m w) d ∧ ∀ a ∈ w.roots, (m w).2.heap a = w.heap a := by
  obtain ⟨o, w', h1, _, h3, h4⟩ := call_ok hE (reachable_inv hE (fun _ _ h => h) hw) hc hm
  rw [h1]
  refine ⟨h4 hconv d hd, ?_⟩
  intro a ha
  exact h3.heap a (Or.inr (by unfold inUse; simp [ha]))

end OE.Props
