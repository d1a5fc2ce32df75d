import Verif.Model.Dispatch
import Verif.Lemmas.DictLemmas

/-!
# C47: the caches of backend functions
-/

namespace OE.Props
open OE OE.Py OE.Dispatch
variable {F : Type}

/-- The backend provides the function: it is one of the pre-populated entries, or its module has the attribute. Stated without the
caches; the empty history gives the pre-populated entries. -/
def Provides (w : World F) (st₀ : St F) (func backend : Str) : Prop :=
  (∃ f, ((func, backend), f) ∈ st₀.funcs) ∨
  ∃ lib f, w ((aliases.get? backend).getD backend) = some lib ∧ lib func = some f

theorem getFunc_keeps (w : World F) (func backend f' b' : Str) (d : Option F) (st : St F) {fn : F}
    (h : st.funcs.get? (f', b') = some fn) : (getFunc w func backend d st).2.funcs.get? (f', b') = some fn := by
  unfold getFunc
  split
  · exact h
  · rename_i hn
    split
    · simp only
      rw [Dict.get?_set, if_neg, h]
      intro e
      rw [e, hn] at h
      cases h
    · exact h

theorem run_keeps (w : World F) (op : Op F) (f' b' : Str) (st : St F) {fn : F} (h : st.funcs.get? (f', b') = some fn) :
    (op.run w st).funcs.get? (f', b') = some fn := by
  cases op with
  | get func backend d => exact getFunc_keeps w func backend f' b' d st h
  | hasEinsum backend =>
    simp only [Op.run, Dispatch.hasEinsum]
    split
    · exact h
    · have := getFunc_keeps w (S "einsum") backend f' b' none st h
      split <;> (rename_i heq; rw [heq] at this; exact this)
  | hasTensordot backend =>
    simp only [Op.run, Dispatch.hasTensordot]
    split
    · exact h
    · have := getFunc_keeps w (S "tensordot") backend f' b' none st h
      split <;> (rename_i heq; rw [heq] at this; exact this)

theorem runAll_keeps (w : World F) (ops : List (Op F)) (f' b' : Str) (st : St F) {fn : F} (h : st.funcs.get? (f', b') = some fn) :
    (runAll w ops st).funcs.get? (f', b') = some fn := by
  induction ops generalizing st with
  | nil => exact h
  | cons op ops ih => exact ih _ (run_keeps w op f' b' st h)

/-- **C47, first part.** Once `get_func(func, backend)` has returned a function, every later call, after any other lookups
and with any default, returns that same function. -/
theorem C47_get_func_stable (w : World F) (st : St F) (func backend : Str) (d d' : Option F) (fn : F)
    (h : (getFunc w func backend d st).1 = .ok fn) (ops : List (Op F)) :
    (getFunc w func backend d' (runAll w ops (getFunc w func backend d st).2)).1 = .ok fn := by
  have h1 : (getFunc w func backend d st).2.funcs.get? (func, backend) = some fn := by
    unfold getFunc at h ⊢
    split at h
    · rename_i f hf
      cases h
      exact hf
    · split at h
      · cases h
        simp only
        rw [Dict.get?_set_self]
      · cases h
  have h2 := runAll_keeps w ops func backend _ h1
  unfold getFunc at h2 ⊢
  rw [h2]

/-- No default was offered for a function that the backend does not provide. -/
def NoFallback (w : World F) (st₀ : St F) (func backend : Str) : Op F → Prop
  | .get f b (some _) => f = func → b = backend → Provides w st₀ func backend
  | _ => True

theorem get?_of_mem {κ ν : Type} [DecidableEq κ] {d : Dict κ ν} {k : κ} {v : ν} (h : (k, v) ∈ d) : ∃ v', d.get? k = some v' := by
  induction d with
  | nil => simp at h
  | cons p d ih =>
    obtain ⟨k', v'⟩ := p
    simp only [Dict.get?]
    by_cases hk : k' = k
    · exact ⟨v', by rw [if_pos hk]⟩
    · rw [if_neg hk]
      rcases List.mem_cons.mp h with e | h
      · cases e; exact absurd rfl hk
      · exact ih h

theorem mem_of_get? {κ ν : Type} [DecidableEq κ] {d : Dict κ ν} {k : κ} {v : ν} (h : d.get? k = some v) : (k, v) ∈ d := by
  induction d with
  | nil => cases h
  | cons p d ih =>
    obtain ⟨k', v'⟩ := p
    simp only [Dict.get?] at h
    by_cases hk : k' = k
    · rw [if_pos hk] at h; cases h; subst hk; simp
    · rw [if_neg hk] at h
      exact List.mem_cons_of_mem _ (ih h)

/-- What is known of one (function, backend) pair after such a history: the pre-populated entry is still there, and nothing is
cached that the backend does not provide. -/
structure FuncOk (w : World F) (st₀ : St F) (func backend : Str) (st : St F) : Prop where
  prov : (∃ f, st.funcs.get? (func, backend) = some f) → Provides w st₀ func backend
  pre : (∃ f, ((func, backend), f) ∈ st₀.funcs) → ∃ f, st.funcs.get? (func, backend) = some f

/-- The outcome of a lookup without default. -/
theorem getFunc_outcome {w : World F} {st₀ st : St F} {func backend : Str} (h : FuncOk w st₀ func backend st) :
    ((∃ f, (getFunc w func backend none st).1 = .ok f) ↔ Provides w st₀ func backend) ∧
    (¬ Provides w st₀ func backend → (getFunc w func backend none st).1 =
      if (w ((aliases.get? backend).getD backend)).isSome then .error .attribute else .error .importError) := by
  unfold getFunc
  cases hc : st.funcs.get? (func, backend) with
  | some f =>
    have hp := h.prov ⟨f, hc⟩
    exact ⟨⟨fun _ => hp, fun _ => ⟨f, rfl⟩⟩, fun hn => absurd hp hn⟩
  | none =>
    have hnpre : ¬ ∃ f, ((func, backend), f) ∈ st₀.funcs := by
      intro hpre
      obtain ⟨f, hf⟩ := h.pre hpre
      rw [hc] at hf; cases hf
    simp only [importFunc]
    cases hw : w ((aliases.get? backend).getD backend) with
    | none =>
      have hnp : ¬ Provides w st₀ func backend := by
        rintro (hp | ⟨lib, f, hl, _⟩)
        · exact hnpre hp
        · rw [hw] at hl; cases hl
      simp [hnp]
    | some lib =>
      cases hl : lib func with
      | some f =>
        have hp : Provides w st₀ func backend := Or.inr ⟨lib, f, hw, hl⟩
        simp [hl, hp]
      | none =>
        have hnp : ¬ Provides w st₀ func backend := by
          rintro (hp | ⟨lib', f, hl', hf⟩)
          · exact hnpre hp
          · rw [hw] at hl'; cases hl'; rw [hl] at hf; cases hf
        simp [hl, hnp]

theorem getFunc_funcOk {w : World F} {st₀ st : St F} {func backend : Str} (h : FuncOk w st₀ func backend st)
    (f' b' : Str) (d : Option F) (hd : NoFallback w st₀ func backend (.get f' b' d)) :
    FuncOk w st₀ func backend (getFunc w f' b' d st).2 := by
  refine ⟨?_, fun hp => by obtain ⟨f, hf⟩ := h.pre hp; exact ⟨f, getFunc_keeps w f' b' func backend d st hf⟩⟩
  rintro ⟨f, hf⟩
  unfold getFunc at hf
  split at hf
  · exact h.prov ⟨f, hf⟩
  · split at hf
    · rename_i fn himp
      simp only at hf
      rw [Dict.get?_set] at hf
      split at hf
      · rename_i he
        cases he
        unfold importFunc at himp
        cases hw : w ((aliases.get? backend).getD backend) with
        | none => rw [hw] at himp; cases himp
        | some lib =>
          rw [hw] at himp
          simp only at himp
          cases hl : lib func with
          | some g => exact Or.inr ⟨lib, g, hw, hl⟩
          | none =>
            rw [hl] at himp
            cases d with
            | none => cases himp
            | some d => exact hd rfl rfl
      · exact h.prov ⟨f, hf⟩
    · exact h.prov ⟨f, hf⟩

theorem hasEinsum_state (w : World F) (b : Str) (st : St F) :
    (Dispatch.hasEinsum w b st).2.funcs = st.funcs ∧ (Dispatch.hasEinsum w b st).2 = st ∨
    (st.hasEinsum.get? b = none ∧ (Dispatch.hasEinsum w b st).2.funcs = (getFunc w (S "einsum") b none st).2.funcs) := by
  unfold Dispatch.hasEinsum
  split
  · left; exact ⟨rfl, rfl⟩
  · rename_i h
    right
    refine ⟨h, ?_⟩
    split <;> (rename_i heq; rw [heq])

theorem hasTensordot_state (w : World F) (b : Str) (st : St F) :
    (Dispatch.hasTensordot w b st).2.funcs = st.funcs ∧ (Dispatch.hasTensordot w b st).2 = st ∨
    (st.hasTensordot.get? b = none ∧ (Dispatch.hasTensordot w b st).2.funcs = (getFunc w (S "tensordot") b none st).2.funcs) := by
  unfold Dispatch.hasTensordot
  split
  · left; exact ⟨rfl, rfl⟩
  · rename_i h
    right
    refine ⟨h, ?_⟩
    split <;> (rename_i heq; rw [heq])

theorem FuncOk.of_funcs {w : World F} {st₀ st st' : St F} {func backend : Str} (h : FuncOk w st₀ func backend st)
    (he : st'.funcs = st.funcs) : FuncOk w st₀ func backend st' := ⟨by rw [he]; exact h.prov, by rw [he]; exact h.pre⟩

theorem run_funcOk {w : World F} {st₀ st : St F} {func backend : Str} (h : FuncOk w st₀ func backend st) (op : Op F)
    (hop : NoFallback w st₀ func backend op) : FuncOk w st₀ func backend (op.run w st) := by
  cases op with
  | get f' b' d => exact getFunc_funcOk h f' b' d hop
  | hasEinsum b =>
    rcases hasEinsum_state w b st with ⟨h1, _⟩ | ⟨_, h1⟩
    · exact h.of_funcs h1
    · exact (getFunc_funcOk h (S "einsum") b none trivial).of_funcs h1
  | hasTensordot b =>
    rcases hasTensordot_state w b st with ⟨h1, _⟩ | ⟨_, h1⟩
    · exact h.of_funcs h1
    · exact (getFunc_funcOk h (S "tensordot") b none trivial).of_funcs h1

theorem getFunc_has (w : World F) (f' b' : Str) (d : Option F) (st : St F) :
    (getFunc w f' b' d st).2.hasEinsum = st.hasEinsum ∧ (getFunc w f' b' d st).2.hasTensordot = st.hasTensordot := by
  unfold getFunc
  split
  · exact ⟨rfl, rfl⟩
  · split <;> exact ⟨rfl, rfl⟩

/-- The answer of `has_einsum` in a state that satisfies the invariant. -/
theorem hasEinsum_answer {w : World F} {st₀ st : St F} {backend : Str} (h : FuncOk w st₀ (S "einsum") backend st)
    (hE : ∀ b, st.hasEinsum.get? backend = some b → (b = true ↔ Provides w st₀ (S "einsum") backend)) :
    (Provides w st₀ (S "einsum") backend → (Dispatch.hasEinsum w backend st).1 = .ok true) ∧
    (¬ Provides w st₀ (S "einsum") backend → (Dispatch.hasEinsum w backend st).1 = .ok false ∨
      (w ((aliases.get? backend).getD backend) = none ∧ (Dispatch.hasEinsum w backend st).1 = .error .importError)) ∧
    (∀ b, (Dispatch.hasEinsum w backend st).2.hasEinsum.get? backend = some b → (b = true ↔ Provides w st₀ (S "einsum") backend)) := by
  obtain ⟨ho1, ho2⟩ := getFunc_outcome h
  have hst := getFunc_has w (S "einsum") backend none st
  unfold Dispatch.hasEinsum
  cases hc : st.hasEinsum.get? backend with
  | some b =>
    have := hE b hc
    refine ⟨fun hp => by simp [this.mpr hp], fun hp => ?_, fun b' hb' => ?_⟩
    · left
      have hb : b = false := by
        rw [← Bool.not_eq_true]
        exact fun e => hp (this.mp e)
      simp [hb]
    · simp only [hc, Option.some.injEq] at hb'
      rw [← hb']; exact this
  | none =>
    cases hg : getFunc w (S "einsum") backend none st with
    | mk r st' =>
    rw [hg] at ho1 ho2 hst
    simp only at ho1 ho2 hst ⊢
    by_cases hp : Provides w st₀ (S "einsum") backend
    · obtain ⟨f, hf⟩ := ho1.mpr hp
      subst hf
      simp [hp, Dict.get?_set_self]
    · have h2 := ho2 hp
      subst h2
      cases hw : (w ((aliases.get? backend).getD backend)) with
      | none =>
        simp only [Option.isSome_none, Bool.false_eq_true, if_false, hst.1, hc]
        simp [hp]
      | some lib =>
        simp only [Option.isSome_some, if_true]
        simp [hp, Dict.get?_set_self]

/-- The answer of `has_tensordot` in a state that satisfies the invariant. -/
theorem hasTensordot_answer {w : World F} {st₀ st : St F} {backend : Str} (h : FuncOk w st₀ (S "tensordot") backend st)
    (hE : ∀ b, st.hasTensordot.get? backend = some b → (b = true ↔ Provides w st₀ (S "tensordot") backend)) :
    (Provides w st₀ (S "tensordot") backend → (Dispatch.hasTensordot w backend st).1 = .ok true) ∧
    (¬ Provides w st₀ (S "tensordot") backend → (Dispatch.hasTensordot w backend st).1 = .ok false ∨
      (w ((aliases.get? backend).getD backend) = none ∧ (Dispatch.hasTensordot w backend st).1 = .error .importError)) ∧
    (∀ b, (Dispatch.hasTensordot w backend st).2.hasTensordot.get? backend = some b → (b = true ↔ Provides w st₀ (S "tensordot") backend)) := by
  obtain ⟨ho1, ho2⟩ := getFunc_outcome h
  have hst := getFunc_has w (S "tensordot") backend none st
  unfold Dispatch.hasTensordot
  cases hc : st.hasTensordot.get? backend with
  | some b =>
    have := hE b hc
    refine ⟨fun hp => by simp [this.mpr hp], fun hp => ?_, fun b' hb' => ?_⟩
    · left
      have hb : b = false := by
        rw [← Bool.not_eq_true]
        exact fun e => hp (this.mp e)
      simp [hb]
    · simp only [hc, Option.some.injEq] at hb'
      rw [← hb']; exact this
  | none =>
    cases hg : getFunc w (S "tensordot") backend none st with
    | mk r st' =>
    rw [hg] at ho1 ho2 hst
    simp only at ho1 ho2 hst ⊢
    by_cases hp : Provides w st₀ (S "tensordot") backend
    · obtain ⟨f, hf⟩ := ho1.mpr hp
      subst hf
      simp [hp, Dict.get?_set_self]
    · have h2 := ho2 hp
      subst h2
      cases hw : (w ((aliases.get? backend).getD backend)) with
      | none =>
        simp only [Option.isSome_none, Bool.false_eq_true, if_false, hst.2, hc]
        simp [hp]
      | some lib =>
        simp only [Option.isSome_some, if_true]
        simp [hp, Dict.get?_set_self]

/-- The invariant of a history of calls, for one backend. -/
structure CacheOk (w : World F) (st₀ : St F) (backend : Str) (st : St F) : Prop where
  einsum : FuncOk w st₀ (S "einsum") backend st
  tensordot : FuncOk w st₀ (S "tensordot") backend st
  hasE : ∀ b, st.hasEinsum.get? backend = some b → (b = true ↔ Provides w st₀ (S "einsum") backend)
  hasT : ∀ b, st.hasTensordot.get? backend = some b → (b = true ↔ Provides w st₀ (S "tensordot") backend)

theorem hasEinsum_other (w : World F) (b backend : Str) (st : St F) (hne : backend ≠ b) :
    (Dispatch.hasEinsum w b st).2.hasEinsum.get? backend = st.hasEinsum.get? backend := by
  have hst := getFunc_has w (S "einsum") b none st
  unfold Dispatch.hasEinsum
  split
  · rfl
  · split <;> (rename_i heq; rw [heq] at hst; simp only at hst ⊢)
    · rw [Dict.get?_set_ne hne, hst.1]
    · rw [Dict.get?_set_ne hne, hst.1]
    · rw [hst.1]

theorem hasTensordot_other (w : World F) (b backend : Str) (st : St F) (hne : backend ≠ b) :
    (Dispatch.hasTensordot w b st).2.hasTensordot.get? backend = st.hasTensordot.get? backend := by
  have hst := getFunc_has w (S "tensordot") b none st
  unfold Dispatch.hasTensordot
  split
  · rfl
  · split <;> (rename_i heq; rw [heq] at hst; simp only at hst ⊢)
    · rw [Dict.get?_set_ne hne, hst.2]
    · rw [Dict.get?_set_ne hne, hst.2]
    · rw [hst.2]

theorem hasEinsum_keepsT (w : World F) (b : Str) (st : St F) : (Dispatch.hasEinsum w b st).2.hasTensordot = st.hasTensordot := by
  have hst := getFunc_has w (S "einsum") b none st
  unfold Dispatch.hasEinsum
  split
  · rfl
  · split <;> (rename_i heq; rw [heq] at hst; exact hst.2)

theorem hasTensordot_keepsE (w : World F) (b : Str) (st : St F) : (Dispatch.hasTensordot w b st).2.hasEinsum = st.hasEinsum := by
  have hst := getFunc_has w (S "tensordot") b none st
  unfold Dispatch.hasTensordot
  split
  · rfl
  · split <;> (rename_i heq; rw [heq] at hst; exact hst.1)

theorem run_cacheOk {w : World F} {st₀ st : St F} {backend : Str} (h : CacheOk w st₀ backend st) (op : Op F)
    (h1 : NoFallback w st₀ (S "einsum") backend op) (h2 : NoFallback w st₀ (S "tensordot") backend op) :
    CacheOk w st₀ backend (op.run w st) := by
  refine ⟨run_funcOk h.einsum op h1, run_funcOk h.tensordot op h2, ?_, ?_⟩
  · cases op with
    | get f' b' d => simp only [Op.run, (getFunc_has w f' b' d st).1]; exact h.hasE
    | hasEinsum b =>
      by_cases hb : backend = b
      · subst hb; exact (hasEinsum_answer h.einsum h.hasE).2.2
      · simp only [Op.run, hasEinsum_other w b backend st hb]; exact h.hasE
    | hasTensordot b => simp only [Op.run, hasTensordot_keepsE]; exact h.hasE
  · cases op with
    | get f' b' d => simp only [Op.run, (getFunc_has w f' b' d st).2]; exact h.hasT
    | hasEinsum b => simp only [Op.run, hasEinsum_keepsT]; exact h.hasT
    | hasTensordot b =>
      by_cases hb : backend = b
      · subst hb; exact (hasTensordot_answer h.tensordot h.hasT).2.2
      · simp only [Op.run, hasTensordot_other w b backend st hb]; exact h.hasT

theorem runAll_cacheOk {w : World F} {st₀ st : St F} {backend : Str} (ops : List (Op F)) (h : CacheOk w st₀ backend st)
    (h1 : ∀ op ∈ ops, NoFallback w st₀ (S "einsum") backend op) (h2 : ∀ op ∈ ops, NoFallback w st₀ (S "tensordot") backend op) :
    CacheOk w st₀ backend (runAll w ops st) := by
  induction ops generalizing st with
  | nil => exact h
  | cons op ops ih =>
    exact ih (run_cacheOk h op (h1 op (by simp)) (h2 op (by simp))) (fun o ho => h1 o (by simp [ho])) (fun o ho => h2 o (by simp [ho]))

theorem initial_cacheOk (w : World F) (oe : F) (np : Option (F × F × F)) (backend : Str) :
    CacheOk w (initial oe np) backend (initial oe np) := by
  have hf : ∀ func, FuncOk w (initial oe np) func backend (initial oe np) := fun func =>
    ⟨fun ⟨f, hf⟩ => Or.inl ⟨f, mem_of_get? hf⟩, fun ⟨_, hf⟩ => get?_of_mem hf⟩
  refine ⟨hf _, hf _, ?_, ?_⟩
  · intro b hb; simp [initial, Dict.get?] at hb
  · intro b hb; simp [initial, Dict.get?] at hb

/-- **C47, second part.** After any history of lookups in which no default was passed for a function that the backend lacks,
`has_einsum` and `has_tensordot` answer whether the backend provides the function (`_partial`: the default is cached as if the backend
provided it, see `C47_default_poisons`); a backend that cannot be imported at all raises `ImportError` instead of
answering `False`. -/
theorem C47_has_partial (w : World F) (oe : F) (np : Option (F × F × F)) (ops : List (Op F)) (backend : Str)
    (h1 : ∀ op ∈ ops, NoFallback w (initial oe np) (S "einsum") backend op)
    (h2 : ∀ op ∈ ops, NoFallback w (initial oe np) (S "tensordot") backend op) :
    (Provides w (initial oe np) (S "einsum") backend → (Dispatch.hasEinsum w backend (runAll w ops (initial oe np))).1 = .ok true) ∧
    (¬ Provides w (initial oe np) (S "einsum") backend → (Dispatch.hasEinsum w backend (runAll w ops (initial oe np))).1 = .ok false ∨
      (w ((aliases.get? backend).getD backend) = none ∧
        (Dispatch.hasEinsum w backend (runAll w ops (initial oe np))).1 = .error .importError)) ∧
    (Provides w (initial oe np) (S "tensordot") backend → (Dispatch.hasTensordot w backend (runAll w ops (initial oe np))).1 = .ok true) ∧
    (¬ Provides w (initial oe np) (S "tensordot") backend → (Dispatch.hasTensordot w backend (runAll w ops (initial oe np))).1 = .ok false ∨
      (w ((aliases.get? backend).getD backend) = none ∧
        (Dispatch.hasTensordot w backend (runAll w ops (initial oe np))).1 = .error .importError)) := by
  have h := runAll_cacheOk ops (initial_cacheOk w oe np backend) h1 h2
  have hE := hasEinsum_answer h.einsum h.hasE
  have hT := hasTensordot_answer h.tensordot h.hasT
  exact ⟨hE.1, hE.2.1, hT.1, hT.2.1⟩

/-- A library with `tensordot` but without `einsum`. -/
def exWorld : World Nat := fun m => if m = S "lib" then some (fun f => if f = S "tensordot" then some 7 else none) else none

/-- The hypotheses hold for a history with a default for `transpose`, as `_transpose` passes it. -/
example : (Dispatch.hasEinsum exWorld (S "lib") (runAll exWorld [.get (S "transpose") (S "lib") (some 3), .hasTensordot (S "lib")]
      (initial 1 none))).1 = .ok false ∧
    (Dispatch.hasTensordot exWorld (S "lib") (runAll exWorld [.get (S "transpose") (S "lib") (some 3), .hasTensordot (S "lib")]
      (initial 1 none))).1 = .ok true := by
  have hE : ¬ Provides exWorld (initial 1 none) (S "einsum") (S "lib") := by
    rintro (⟨f, hf⟩ | ⟨lib, f, hl, hf⟩)
    · simp [initial] at hf; exact absurd hf.1 (by decide)
    · simp [show ((aliases.get? (S "lib")).getD (S "lib")) = S "lib" from rfl, exWorld] at hl
      subst hl
      cases (show (none : Option Nat) = some f from hf)
  have hT : Provides exWorld (initial 1 none) (S "tensordot") (S "lib") := Or.inr ⟨_, 7, rfl, rfl⟩
  have h1 : ∀ func, func ≠ S "transpose" → ∀ op ∈ ([.get (S "transpose") (S "lib") (some 3), .hasTensordot (S "lib")] : List (Op Nat)),
      NoFallback exWorld (initial 1 none) func (S "lib") op := by
    intro func hf op hop
    simp only [List.mem_cons, List.not_mem_nil, or_false] at hop
    rcases hop with rfl | rfl
    · exact fun e => absurd e.symm hf
    · trivial
  have h := C47_has_partial exWorld 1 none [.get (S "transpose") (S "lib") (some 3), .hasTensordot (S "lib")] (S "lib")
    (h1 _ (by decide)) (h1 _ (by decide))
  refine ⟨?_, h.2.2.1 hT⟩
  rcases h.2.1 hE with h | ⟨h, _⟩
  · exact h
  · cases h

/-- What is missing from C47: a default given to `get_func` is cached as the backend's own function, and `has_einsum` then answers
`True` for a backend without `einsum`; asked in the other order it answers `False`. -/
theorem C47_default_poisons :
    (Dispatch.hasEinsum exWorld (S "lib") (initial 1 none)).1 = .ok false ∧
    (Dispatch.hasEinsum exWorld (S "lib") (runAll exWorld [.get (S "einsum") (S "lib") (some 3)] (initial 1 none))).1 = .ok true :=
  ⟨rfl, rfl⟩

/-- `has_einsum` does not answer at all for a backend that cannot be imported. -/
theorem C47_missing_library : (Dispatch.hasEinsum exWorld (S "other") (initial 1 none)).1 = .error .importError := rfl

end OE.Props
