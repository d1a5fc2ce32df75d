import Verif.Props.Dispatch
import Verif.Spec.Dispatch

/-!
# C47: which function the name of a backend stands for
-/

namespace OE.Props
open OE OE.Py OE.Dispatch OE.Spec.Dispatch
variable {F : Type}

theorem aliases_home (backend : Str) : (aliases.get? backend).getD backend = home backend := by
  unfold aliases home
  simp only [Dict.get?]
  by_cases h1 : backend = S "dask"
  · subst h1; decide
  by_cases h2 : backend = S "theano"
  · subst h2; decide
  by_cases h3 : backend = S "torch"
  · subst h3; decide
  by_cases h4 : backend = S "jax"
  · subst h4; decide
  by_cases h5 : backend = S "jaxlib"
  · subst h5; decide
  by_cases h6 : backend = S "autograd"
  · subst h6; decide
  by_cases h7 : backend = S "mars"
  · subst h7; decide
  simp [Ne.symm h1, Ne.symm h2, Ne.symm h3, Ne.symm h4, Ne.symm h5, Ne.symm h6, Ne.symm h7, h1, h2, h3, h4, h5, h6, h7]

theorem importFunc_fromModule (w : World F) (func backend : Str) (d : Option F) :
    importFunc w func backend d = orDefault d (fromModule w func backend) := by
  unfold importFunc fromModule
  rw [aliases_home]
  cases w (home backend) with
  | none => rfl
  | some lib =>
    cases hl : lib func with
    | some f => simp [hl, orDefault]
    | none => cases d <;> simp [hl, orDefault]

/-- What the table holds for the pair after such a history: the meaning of the pair, or nothing if the pair is left to the module. -/
def EntryOk (w : World F) (oe : F) (np : Option (F × F × F)) (func backend : Str) (st : St F) : Prop :=
  match st.funcs.get? (func, backend) with
  | some f => meaning w oe np func backend = .ok f
  | none => meaning w oe np func backend = fromModule w func backend

theorem initial_entryOk (w : World F) (oe : F) (np : Option (F × F × F)) (func backend : Str) :
    EntryOk w oe np func backend (initial oe np) := by
  have pair : ∀ (a b : Str), ((a, b) = (func, backend)) ↔ (backend = b ∧ func = a) := by
    intro a b
    rw [Prod.mk.injEq]
    exact ⟨fun h => ⟨h.2.symm, h.1.symm⟩, fun h => ⟨h.2.symm, h.1.symm⟩⟩
  have no : S "numpy" ≠ S "object" := by decide
  have et : S "einsum" ≠ S "tensordot" := by decide
  have er : S "einsum" ≠ S "transpose" := by decide
  have tr' : S "tensordot" ≠ S "transpose" := by decide
  unfold EntryOk initial meaning
  cases np with
  | none =>
    simp only [Dict.get?, pair]
    by_cases h : backend = S "object" ∧ func = S "einsum"
    · simp [h]
    · simp [h]
  | some p =>
    obtain ⟨td, tr, es⟩ := p
    simp only [Dict.get?, pair]
    by_cases hb : backend = S "numpy"
    · subst hb
      by_cases h1 : func = S "einsum"
      · subst h1; simp [no, et, er]
      by_cases h2 : func = S "tensordot"
      · subst h2; simp [no, et.symm]
      by_cases h3 : func = S "transpose"
      · subst h3; simp [no, er.symm, tr'.symm]
      simp [no, h1, h2, h3]
    · by_cases hb' : backend = S "object"
      · subst hb'
        by_cases h1 : func = S "einsum"
        · subst h1; simp
        by_cases h2 : func = S "tensordot"
        · subst h2; simp [no.symm, et.symm]
        by_cases h3 : func = S "transpose"
        · subst h3; simp [no.symm, er.symm, tr'.symm]
        simp [no.symm, h1, h2, h3]
      · simp [hb, hb']

theorem EntryOk.of_funcs {w : World F} {oe : F} {np : Option (F × F × F)} {func backend : Str} {st st' : St F}
    (h : EntryOk w oe np func backend st) (he : st'.funcs = st.funcs) : EntryOk w oe np func backend st' := by
  unfold EntryOk
  rw [he]
  exact h

theorem getFunc_entryOk {w : World F} {oe : F} {np : Option (F × F × F)} {func backend : Str} {st : St F}
    (h : EntryOk w oe np func backend st) (f' b' : Str) (d : Option F) (hd : f' = func → b' = backend → d = none) :
    EntryOk w oe np func backend (getFunc w f' b' d st).2 := by
  cases hs : st.funcs.get? (func, backend) with
  | some f =>
    have := getFunc_keeps w f' b' func backend d st hs
    unfold EntryOk at h ⊢
    rw [hs] at h
    rw [this]
    exact h
  | none =>
    unfold getFunc
    split
    · exact h
    · split
      · rename_i g himp
        unfold EntryOk at h ⊢
        simp only
        rw [Dict.get?_set]
        by_cases he : (func, backend) = (f', b')
        · rw [if_pos he]
          cases he
          have := hd rfl rfl
          subst this
          rw [hs] at h
          simp only at h ⊢
          rw [h]
          rw [importFunc_fromModule] at himp
          cases hm : fromModule w func backend with
          | ok x => rw [hm] at himp; exact himp
          | error e => rw [hm] at himp; cases e <;> cases himp
        · rw [if_neg he]; exact h
      · exact h

/-- No default was passed for this pair. -/
def NoDefaultFor (func backend : Str) : Op F → Prop
  | .get f b (some _) => ¬ (f = func ∧ b = backend)
  | _ => True

theorem run_entryOk {w : World F} {oe : F} {np : Option (F × F × F)} {func backend : Str} {st : St F}
    (h : EntryOk w oe np func backend st) (op : Op F) (hop : NoDefaultFor func backend op) :
    EntryOk w oe np func backend (op.run w st) := by
  cases op with
  | get f' b' d =>
    refine getFunc_entryOk h f' b' d fun e1 e2 => ?_
    cases d with
    | none => rfl
    | some d => exact absurd ⟨e1, e2⟩ hop
  | hasEinsum b =>
    rcases hasEinsum_state w b st with ⟨h1, _⟩ | ⟨_, h1⟩
    · exact h.of_funcs h1
    · exact (getFunc_entryOk h (S "einsum") b none fun _ _ => rfl).of_funcs h1
  | hasTensordot b =>
    rcases hasTensordot_state w b st with ⟨h1, _⟩ | ⟨_, h1⟩
    · exact h.of_funcs h1
    · exact (getFunc_entryOk h (S "tensordot") b none fun _ _ => rfl).of_funcs h1

theorem runAll_entryOk {w : World F} {oe : F} {np : Option (F × F × F)} {func backend : Str} {st : St F} (ops : List (Op F))
    (h : EntryOk w oe np func backend st) (hops : ∀ op ∈ ops, NoDefaultFor func backend op) :
    EntryOk w oe np func backend (runAll w ops st) := by
  induction ops generalizing st with
  | nil => exact h
  | cons op ops ih => exact ih (run_entryOk h op (hops op (by simp))) fun o ho => hops o (by simp [ho])

/-- **C47: which function.** In a process in which no default was passed for the pair, `get_func(func, backend, default)` gives
exactly the function that the backend name stands for, after any history of other lookups: `object_einsum` and numpy's functions
where they are prefilled, the attribute of the documented module otherwise; the default only where the module lacks it. -/
theorem C47_which_function (w : World F) (oe : F) (np : Option (F × F × F)) (func backend : Str) (d : Option F) (ops : List (Op F))
    (hops : ∀ op ∈ ops, NoDefaultFor func backend op) :
    (getFunc w func backend d (runAll w ops (initial oe np))).1 = orDefault d (meaning w oe np func backend) := by
  have h := runAll_entryOk ops (initial_entryOk w oe np func backend) hops
  unfold EntryOk at h
  unfold getFunc
  split at h
  · rename_i f hf
    rw [hf, h]
    rfl
  · rename_i hn
    rw [hn, h]
    simp only
    rw [importFunc_fromModule]
    split <;> (rename_i he; rw [he])

/-- A process with dask and numpy: the functions of dask come from `dask.array`. -/
def exDask : World Nat := fun m => if m = S "dask.array" then some (fun f => if f = S "einsum" then some 7 else none) else none

example : (getFunc exDask (S "einsum") (S "dask") none (runAll exDask [.hasTensordot (S "dask"), .get (S "einsum") (S "object") none]
      (initial 1 (some (2, 3, 4))))).1 = .ok 7 ∧
    (getFunc exDask (S "transpose") (S "object") (some 9) (runAll exDask [.hasTensordot (S "dask"), .get (S "einsum") (S "object") none]
      (initial 1 (some (2, 3, 4))))).1 = .ok 3 := by
  have hops : ∀ f b, ∀ op ∈ ([.hasTensordot (S "dask"), .get (S "einsum") (S "object") none] : List (Op Nat)), NoDefaultFor f b op := by
    intro f b op hop
    simp only [List.mem_cons, List.not_mem_nil, or_false] at hop
    rcases hop with rfl | rfl <;> trivial
  exact ⟨(C47_which_function exDask 1 (some (2, 3, 4)) _ _ none _ (hops _ _)).trans (by decide),
    (C47_which_function exDask 1 (some (2, 3, 4)) _ _ (some 9) _ (hops _ _)).trans (by decide)⟩

end OE.Props
