import Verif.Lemmas.Eager

/-!
# C82: expressions with cupy, torch, jax and tensorflow in eager mode
-/

namespace OE.Props.EagerMode
open OE OE.Py OE.Spec OE.Contract OE.AnyLibrary OE.Eager OE.Parser OE.Props
open OE.Expression (fill present anyNone parseBackend hasBackend convertBackends)

variable {A : Type}

/-! ## Conversions -/

theorem mem_eager {b : Str} (h : b ∈ eagerNames) : b = S "cupy" ∨ b = S "torch" ∨ b = S "tensorflow" ∨ b = S "jax" := by
  simpa [eagerNames] using h

theorem converter_eager {W : World A} {b : Str} (h : b ∈ eagerNames) : converter W b = some (toLibrary W b) := by
  rcases mem_eager h with rfl | rfl | rfl | rfl <;> rfl

theorem toLibrary_numpy {W : World A} (hW : Conventional W) {b : Str} (h : b ∈ eagerNames) {a : Arr A} (ha : a.place.module = S "numpy") :
    toLibrary W b a = .ok ⟨home W b, a.val⟩ := by
  have hi := hW.numpy
  rcases mem_eager h with rfl | rfl | rfl | rfl
  · show toCupy W a = _; unfold toCupy; rw [ha, if_pos hi]; rfl
  · show toTorch W a = _; unfold toTorch; rw [ha, if_pos hi, if_pos rfl]; rfl
  · show toTensorflow W a = _; unfold toTensorflow; rw [ha, if_pos hi]; rfl
  · show toJax W a = _; unfold toJax; rw [if_pos ha]; rfl

/-- Arrays of the library itself are left alone. -/
theorem toLibrary_own {W : World A} (hW : Conventional W) {b : Str} (h : b ∈ eagerNames) {a : Arr A} (ha : a.place.module = classModule W b) :
    toLibrary W b a = .ok a := by
  rcases mem_eager h with rfl | rfl | rfl | rfl
  · have hi := hW.others _ h (by decide)
    replace ha : a.place.module = S "cupy" := ha
    show toCupy W a = _; unfold toCupy; rw [ha, if_neg (by simp [hi])]
  · have hi := hW.others _ h (by decide)
    replace ha : a.place.module = S "torch" := ha
    show toTorch W a = _; unfold toTorch; rw [ha, if_neg (by simp [hi])]
  · have hi := hW.others _ h (by decide)
    replace ha : a.place.module = S "tensorflow" := ha
    show toTensorflow W a = _; unfold toTensorflow; rw [ha, if_neg (by simp [hi])]
  · replace ha : a.place.module = W.jax := ha
    show toJax W a = _; unfold toJax; rw [if_neg (by rw [ha]; exact hW.jax), if_pos ha]

theorem toLibrary_idem {W : World A} (hW : Conventional W) {b : Str} (h : b ∈ eagerNames) {a a' : Arr A} (ha : toLibrary W b a = .ok a') :
    toLibrary W b a' = .ok a' := by
  have key : a' = a ∨ a'.place.module = classModule W b := by
    rcases mem_eager h with rfl | rfl | rfl | rfl
    · replace ha : toCupy W a = .ok a' := ha
      unfold toCupy at ha
      split at ha <;> cases ha
      · exact Or.inr rfl
      · exact Or.inl rfl
    · replace ha : toTorch W a = .ok a' := ha
      unfold toTorch at ha
      split at ha
      · split at ha <;> cases ha
        exact Or.inr rfl
      · cases ha; exact Or.inl rfl
    · replace ha : toTensorflow W a = .ok a' := ha
      unfold toTensorflow at ha
      split at ha <;> cases ha
      · exact Or.inr rfl
      · exact Or.inl rfl
    · replace ha : toJax W a = .ok a' := ha
      unfold toJax at ha
      split at ha
      · cases ha; exact Or.inr rfl
      · split at ha <;> cases ha
        exact Or.inl rfl
  rcases key with rfl | key
  · exact ha
  · exact toLibrary_own hW h key

theorem toLibrary_noKey (W : World A) (b : Str) (a : Arr A) : toLibrary W b a ≠ .error .key := by
  unfold toLibrary converter toCupy toTorch toTensorflow toJax
  repeat' split
  all_goals simp only [Option.getD_some, Option.getD_none, ne_eq]
  all_goals repeat' split
  all_goals simp

theorem mapM_noKey {W : World A} {b : Str} (l : List (Option (Arr A))) : l.mapM (convertOpt (toLibrary W b)) ≠ .error .key := by
  induction l with
  | nil => simp [pure, Except.pure]
  | cons o l ih =>
    rw [List.mapM_cons]
    simp only [bind, Except.bind]
    split
    · rename_i e h
      intro h'
      cases h'
      cases o with
      | none => cases h
      | some a =>
        simp only [convertOpt, bind, Except.bind] at h
        split at h
        · rename_i e' h'; cases h; exact toLibrary_noKey _ _ _ h'
        · cases h
    · split
      · rename_i e h; rw [h] at ih; exact ih
      · simp [pure, Except.pure]

theorem convertOpt_pattern {conv : Arr A → Except PyErr (Arr A)} {l l' : List (Option (Arr A))} (h : l.mapM (convertOpt conv) = .ok l') :
    l'.map Option.isSome = l.map Option.isSome ∧ ∀ a', some a' ∈ l' → ∃ a, some a ∈ l ∧ conv a = .ok a' := by
  induction l generalizing l' with
  | nil => cases h; simp
  | cons o l ih =>
    rw [List.mapM_cons] at h
    simp only [bind, Except.bind] at h
    cases ho : convertOpt conv o with
    | error e => rw [ho] at h; cases h
    | ok o' =>
      rw [ho] at h
      simp only at h
      cases hl : l.mapM (convertOpt conv) with
      | error e => rw [hl] at h; cases h
      | ok r =>
        rw [hl] at h
        simp only [pure, Except.pure, Except.ok.injEq] at h
        subst h
        obtain ⟨g1, g2⟩ := ih hl
        cases o with
        | none =>
          cases ho
          refine ⟨by simp [g1], fun a' ha' => ?_⟩
          simp only [List.mem_cons, reduceCtorEq, false_or] at ha'
          obtain ⟨a, h1, h2⟩ := g2 a' ha'
          exact ⟨a, by simp [h1], h2⟩
        | some a =>
          simp only [convertOpt, bind, Except.bind] at ho
          cases hc : conv a with
          | error e => rw [hc] at ho; cases ho
          | ok a1 =>
            rw [hc] at ho
            cases ho
            refine ⟨by simp [g1], fun a' ha' => ?_⟩
            simp only [List.mem_cons, Option.some.injEq] at ha'
            rcases ha' with rfl | ha'
            · exact ⟨a, by simp, hc⟩
            · obtain ⟨a2, h1, h2⟩ := g2 a' ha'
              exact ⟨a2, by simp [h1], h2⟩

theorem convertOpt_ok (l : List (Option (Arr A))) : l.mapM (convertOpt .ok) = .ok l := by
  induction l with
  | nil => rfl
  | cons o l ih =>
    rw [List.mapM_cons, ih]
    cases o <;> rfl

theorem mem_none_pattern {α β : Type} {l : List (Option α)} {l' : List (Option β)} (h : l'.map Option.isSome = l.map Option.isSome) (hn : none ∈ l) : none ∈ l' := by
  have : false ∈ l.map Option.isSome := List.mem_map.mpr ⟨none, hn, rfl⟩
  rw [← h] at this
  obtain ⟨o, ho, h'⟩ := List.mem_map.mp this
  cases o with
  | none => exact ho
  | some a => cases h'

/-! ## Evaluating constants -/

theorem evalWith_ok {W : World A} {full : List Step} {b : Str} {ops r : List (Option (Arr A))} {ss : List Step} (h : evalWith W full b ops = .ok (r, ss)) :
    GraphMode.evalLoop (placed W b) false full ops = .ok (some (r, ss)) := by
  unfold evalWith at h
  split at h
  · split at h <;> cases h
  · cases he : GraphMode.evalLoop (placed W b) false full ops with
    | error e => rw [he] at h; cases h
    | ok o =>
      rw [he] at h
      cases o with
      | none => cases h
      | some u => cases h; rfl

theorem evalResult_loop {W : World A} {full : List Step} {b : Str} {slots r : List (Option (Arr A))} {ss : List Step} (h : evalResult W full slots b = .ok (r, ss)) :
    ∃ cs : List (Option (Arr A)), cs.map Option.isSome = slots.map Option.isSome ∧ GraphMode.evalLoop (placed W b) false full cs = .ok (some (r, ss)) := by
  unfold evalResult at h
  simp only at h
  split at h
  · exact ⟨slots, rfl, evalWith_ok h⟩
  · cases hc : converter W b with
    | none => rw [hc] at h; cases h
    | some conv =>
      rw [hc] at h
      simp only [bind, Except.bind] at h
      cases hm : slots.mapM (convertOpt conv) with
      | error e => rw [hm] at h; cases h
      | ok cs =>
        rw [hm] at h
        exact ⟨cs, (convertOpt_pattern hm).1, evalWith_ok h⟩

/-- All evaluations of the constants leave the same steps. -/
theorem evalResult_rest {W : World A} {full : List Step} {b b' : Str} {slots r r' : List (Option (Arr A))} {ss ss' : List Step}
    (h : evalResult W full slots b = .ok (r, ss)) (h' : evalResult W full slots b' = .ok (r', ss')) : ss = ss' := by
  obtain ⟨cs, h1, h2⟩ := evalResult_loop h
  obtain ⟨cs', h1', h2'⟩ := evalResult_loop h'
  exact evalLoop_rest (h1.trans h1'.symm) h2 h2'

theorem evalResult_nil {W : World A} {full : List Step} {path : List (List Nat)} (hpath : full.map Step.inds = path.map sortedDesc) {b : Str}
    {slots r : List (Option (Arr A))} (hc : CompletePath slots.length path) (hn : ∀ o ∈ slots, o = none) {ss : List Step}
    (h : evalResult W full slots b = .ok (r, ss)) : ss = full := by
  obtain ⟨cs, h1, h2⟩ := evalResult_loop h
  exact evalLoop_rest h1 h2 (graphEval_all_none (placed W b) false hpath hc hn)

theorem evalWith_none {W : World A} {full : List Step} {b : Str} {ops : List (Option (Arr A))} (hn : none ∈ ops) :
    evalWith W full b ops = match GraphMode.evalLoop (placed W b) false full ops with
      | .error er => .error er
      | .ok none => .error .type
      | .ok (some r) => .ok r := by
  have : ¬ (hasBackend b ∧ ∀ o ∈ ops, inferBackend o = S "numpy") := by
    rintro ⟨_, h⟩
    have h' : S "builtins" = S "numpy" := h none hn
    exact absurd h' (by decide)
  unfold evalWith
  rw [if_neg this]
  rfl

theorem evalResult_eq {W : World A} (hk : ∀ b, NoKeyError (W.lib b)) {full : List Step} {b : Str} {slots : List (Option (Arr A))} (hn : none ∈ slots) :
    evalResult W full slots b = (slots.mapM (convertOpt (toLibrary W b)) >>= fun cs =>
      match GraphMode.evalLoop (placed W b) false full cs with
      | .error er => .error er
      | .ok none => .error .type
      | .ok (some u) => .ok u) := by
  unfold evalResult
  simp only
  cases hc : converter W b with
  | none =>
    have : toLibrary W b = Except.ok := by unfold toLibrary; rw [hc]; rfl
    rw [this, convertOpt_ok]
    simp only [bind, Except.bind]
    exact evalWith_none hn
  | some conv =>
    have : toLibrary W b = conv := by unfold toLibrary; rw [hc]; rfl
    subst this
    simp only [bind, Except.bind]
    cases hm : slots.mapM (convertOpt (toLibrary W b)) with
    | error e =>
      cases e <;> first | rfl | exact absurd hm (mapM_noKey _)
    | ok cs =>
      simp only
      rw [evalWith_none (mem_none_pattern (convertOpt_pattern hm).1 hn)]
      cases he : GraphMode.evalLoop (placed W b) false full cs with
      | error e =>
        cases e <;> first | rfl | exact absurd he (evalLoop_noKey (hk b) _ _)
      | ok o => cases o <;> rfl

/-! ## The state of an expression -/

/-- The constants by position. -/
def slotsOf (n : Nat) (constants : Dict Nat (Arr A)) : List (Option (Arr A)) := (List.range n).map (fun i => constants.get? i)

/-- The list of steps that remain once the constants have been evaluated. -/
def Rest (W : World A) (steps : List Step) (slots : List (Option (Arr A))) (ss : List Step) : Prop := ∃ b r, evalResult W steps slots b = .ok (r, ss)

/-- What holds of an expression throughout its history. -/
structure ExprOK (W : World A) (steps : List Step) (n : Nat) (constants : Dict Nat (Arr A)) (e : Expr A) : Prop where
  full : e.full = steps
  fullNumArgs : e.fullNumArgs = n
  numArgs : e.numArgs = n - constants.length
  consts : e.constants = constants
  evaluated : ∀ b r, e.evaluated.get? b = some r → ∃ ss, evalResult W steps (slotsOf n constants) b = .ok (r, ss)
  list : (e.evaluated = [] ∧ e.list = steps) ∨ Rest W steps (slotsOf n constants) e.list
  traces : ∀ sh st, e.traces.get? sh = some st → (constants = [] ∧ st = steps) ∨ Rest W steps (slotsOf n constants) st

theorem new_ok (W : World A) (steps : List Step) (n : Nat) (constants : Dict Nat (Arr A)) : ExprOK W steps n constants (Expr.new steps n constants) :=
  ⟨rfl, rfl, rfl, rfl, fun _ _ h => (by cases h), Or.inl ⟨rfl, rfl⟩, fun _ _ h => (by cases h)⟩

variable {W : World A} {steps : List Step} {n : Nat} {constants : Dict Nat (Arr A)}

theorem ExprOK.slots {e : Expr A} (he : ExprOK W steps n constants e) : e.slots = slotsOf n constants := by
  unfold Expr.slots slotsOf
  rw [he.fullNumArgs, he.consts]

theorem evaluateConstants_ok {e : Expr A} (he : ExprOK W steps n constants e) (backend : Option Str) :
    ExprOK W steps n constants (evaluateConstants W e backend).2 := by
  unfold evaluateConstants
  split
  · exact he
  · rename_i b _
    split
    · exact he
    · rename_i ops ss h
      rw [he.full, he.slots] at h
      refine ⟨he.full, he.fullNumArgs, he.numArgs, he.consts, ?_, Or.inr ⟨b, ops, h⟩, he.traces⟩
      intro b' r hr
      simp only at hr
      by_cases hb : b = b'
      · subst hb
        rw [Dict.get?_set_self] at hr
        cases hr
        exact ⟨ss, h⟩
      · rw [Dict.get?_set_ne (fun h => hb h.symm)] at hr
        exact he.evaluated b' r hr

theorem runJax_ok {e : Expr A} (he : ExprOK W steps n constants e)
    (hl : (constants = [] ∧ e.list = steps) ∨ Rest W steps (slotsOf n constants) e.list) (ops : List (Arr A)) :
    ExprOK W steps n constants (runJax W e ops).2 := by
  unfold runJax
  split
  · exact he
  · simp only
    split
    · exact he
    · refine ⟨he.full, he.fullNumArgs, he.numArgs, he.consts, he.evaluated, he.list, ?_⟩
      intro sh st hst
      simp only at hst
      rename_i ts _ _ _ _
      by_cases hs : ts.map (fun t => W.shape t.val) = sh
      · subst hs
        rw [Dict.get?_set_self] at hst
        cases hst
        cases hg : e.traces.get? (ts.map (fun t => W.shape t.val)) with
        | none => exact hl
        | some st => exact he.traces _ _ hg
      · rw [Dict.get?_set_ne (fun h => hs h.symm)] at hst
        exact he.traces _ _ hst

theorem finish_ok {e : Expr A} (he : ExprOK W steps n constants e)
    (hl : (constants = [] ∧ e.list = steps) ∨ Rest W steps (slotsOf n constants) e.list) (b : Str) (arrays ops : List (Arr A)) :
    ExprOK W steps n constants (Eager.finish W e b arrays ops).2 := by
  unfold Eager.finish
  split
  · unfold runConverted
    split
    · exact runJax_ok he hl ops
    · split <;> exact he
  · exact he

theorem fillFinish_ok {e : Expr A} (he : ExprOK W steps n constants e)
    (hl : (constants = [] ∧ e.list = steps) ∨ Rest W steps (slotsOf n constants) e.list) (b : Str) (arrays : List (Arr A)) (consts : List (Option (Arr A))) :
    ExprOK W steps n constants (fillFinish W e b arrays consts).2 := by
  unfold fillFinish
  split
  · exact he
  · exact finish_ok he hl _ _ _

theorem slotsOf_nil (n : Nat) : ∀ o ∈ slotsOf n ([] : Dict Nat (Arr A)), o = none := by
  intro o ho
  obtain ⟨i, _, rfl⟩ := List.mem_map.mp ho
  rfl

theorem rest_nil {path : List (List Nat)} (hpath : steps.map Step.inds = path.map sortedDesc) (hc : CompletePath n path) {e : Expr A}
    (he : ExprOK W steps n constants e) (h0 : constants = []) : e.list = steps := by
  rcases he.list with ⟨_, h⟩ | ⟨b, r, h⟩
  · exact h
  · subst h0
    exact evalResult_nil hpath (by simpa [slotsOf] using hc) (slotsOf_nil n) h

theorem evaluated_rest {e : Expr A} (he : ExprOK W steps n constants e) {b : Str} {r : List (Option (Arr A))} (h : e.evaluated.get? b = some r) :
    evalResult W steps (slotsOf n constants) b = .ok (r, e.list) := by
  obtain ⟨ss, h1⟩ := he.evaluated b r h
  rcases he.list with ⟨h2, _⟩ | ⟨b', r', h2⟩
  · rw [h2] at h; cases h
  · rw [h1, evalResult_rest h1 h2]

theorem call_ok {path : List (List Nat)} (hpath : steps.map Step.inds = path.map sortedDesc) (hc : CompletePath n path) {e : Expr A}
    (he : ExprOK W steps n constants e) (arrays : List (Arr A)) (backend : Option Str) : ExprOK W steps n constants (call W e arrays backend).2 := by
  unfold call
  split
  · exact he
  · split
    · exact he
    · split
      · rename_i b _ _ h0
        rw [he.consts] at h0
        exact finish_ok he (Or.inl ⟨h0, rest_nil hpath hc he h0⟩) _ _ _
      · split
        · rename_i h
          exact fillFinish_ok he (Or.inr ⟨_, _, evaluated_rest he h⟩) _ _ _
        · have h1 := evaluateConstants_ok he (some ‹Str›)
          split
          · rename_i h; rw [h] at h1; exact h1
          · rename_i h
            rw [h] at h1
            split
            · exact h1
            · rename_i h2
              exact fillFinish_ok h1 (Or.inr ⟨_, _, evaluated_rest h1 h2⟩) _ _ _

theorem uses_ok {path : List (List Nat)} (hpath : steps.map Step.inds = path.map sortedDesc) (hc : CompletePath n path) {e : Expr A}
    (he : ExprOK W steps n constants e) (us : List (Use A)) : ExprOK W steps n constants (uses W e us) := by
  induction us generalizing e with
  | nil => exact he
  | cons u us ih =>
    refine ih (e := use W e u) ?_
    cases u with
    | call arrays backend => exact call_ok hpath hc he arrays backend
    | evaluate backend => exact evaluateConstants_ok he backend

/-! ## Calls -/

theorem fill_mapM {conv : Arr A → Except PyErr (Arr A)} {consts : List (Option (Arr A))} (hf : ∀ a, some a ∈ consts → conv a = .ok a) {arrays arrays' ops : List (Arr A)}
    (ha : arrays.mapM conv = .ok arrays') (h : fill consts arrays = .ok ops) : ∃ ops', fill consts arrays' = .ok ops' ∧ ops.mapM conv = .ok ops' := by
  induction consts generalizing arrays arrays' ops with
  | nil => cases h; exact ⟨[], rfl, rfl⟩
  | cons o cs ih =>
    cases o with
    | some c =>
      simp only [fill, bind, Except.bind] at h
      cases hr : fill cs arrays with
      | error e => rw [hr] at h; cases h
      | ok r =>
        rw [hr] at h
        cases h
        obtain ⟨ops', h1, h2⟩ := ih (fun a h => hf a (by simp [h])) ha hr
        refine ⟨c :: ops', by simp only [fill, bind, Except.bind, h1], ?_⟩
        rw [List.mapM_cons, hf c (by simp), h2]
        rfl
    | none =>
      cases arrays with
      | nil => cases h
      | cons v vs =>
        rw [List.mapM_cons] at ha
        simp only [bind, Except.bind] at ha
        cases hv : conv v with
        | error e => rw [hv] at ha; cases ha
        | ok v' =>
          rw [hv] at ha
          simp only at ha
          cases hvs : vs.mapM conv with
          | error e => rw [hvs] at ha; cases ha
          | ok vs' =>
            rw [hvs] at ha
            cases ha
            simp only [fill, bind, Except.bind] at h
            cases hr : fill cs vs with
            | error e => rw [hr] at h; cases h
            | ok r =>
              rw [hr] at h
              cases h
              obtain ⟨ops', h1, h2⟩ := ih (fun a h => hf a (by simp [h])) hvs hr
              refine ⟨v' :: ops', by simp only [fill, bind, Except.bind, h1], ?_⟩
              rw [List.mapM_cons, hv, h2]
              rfl

theorem merge_mapM {conv : Arr A → Except PyErr (Arr A)} {slots : List (Option (Arr A))} {arrays arrays' full : List (Arr A)} (hm : Merge slots arrays full)
    (ha : arrays.mapM conv = .ok arrays') :
    (∀ e, slots.mapM (convertOpt conv) = .error e → full.mapM conv = .error e) ∧
    (∀ cs, slots.mapM (convertOpt conv) = .ok cs → ∃ f, fill cs arrays' = .ok f ∧ full.mapM conv = .ok f) := by
  induction hm generalizing arrays' with
  | nil =>
    cases ha
    exact ⟨fun e h => (by cases h), fun cs h => by cases h; exact ⟨[], rfl, rfl⟩⟩
  | const a slots vars full _ ih =>
    obtain ⟨g1, g2⟩ := ih ha
    simp only [List.mapM_cons, convertOpt, bind, Except.bind]
    cases conv a with
    | error e => exact ⟨fun e' h => (by cases h; rfl), fun cs h => (by cases h)⟩
    | ok a' =>
      simp only
      cases hs : slots.mapM (convertOpt conv) with
      | error e =>
        rw [g1 e hs]
        exact ⟨fun e' h => (by cases h; rfl), fun cs h => (by cases h)⟩
      | ok cs' =>
        obtain ⟨f, h1, h2⟩ := g2 cs' hs
        rw [h2]
        refine ⟨fun e' h => (by cases h), fun cs h => ?_⟩
        cases h
        exact ⟨a' :: f, by simp only [fill, bind, Except.bind, h1], rfl⟩
  | var v slots vars full _ ih =>
    rw [List.mapM_cons] at ha
    simp only [bind, Except.bind] at ha
    cases hv : conv v with
    | error e => rw [hv] at ha; cases ha
    | ok v' =>
      rw [hv] at ha
      simp only at ha
      cases hvs : vars.mapM conv with
      | error e => rw [hvs] at ha; cases ha
      | ok vs' =>
        rw [hvs] at ha
        cases ha
        obtain ⟨g1, g2⟩ := ih hvs
        simp only [List.mapM_cons, convertOpt, bind, Except.bind, hv]
        cases hs : slots.mapM (convertOpt conv) with
        | error e =>
          rw [g1 e hs]
          exact ⟨fun e' h => (by cases h; rfl), fun cs h => (by cases h)⟩
        | ok cs' =>
          obtain ⟨f, h1, h2⟩ := g2 cs' hs
          rw [h2]
          refine ⟨fun e' h => (by cases h), fun cs h => ?_⟩
          cases h
          exact ⟨v' :: f, by simp only [fill, bind, Except.bind, h1], rfl⟩

theorem merge_fill' {α : Type} {sl : List (Option α)} {vars full : List α} (h : Merge sl vars full) : fill sl vars = .ok full := by
  have := merge_fill (id : α → α) h
  simpa using this

theorem fill_same_pattern {α β : Type} {os : List (Option α)} {os' : List (Option β)} (h : os'.map Option.isSome = os.map Option.isSome) {vs full : List α}
    {vs' : List β} (hl : vs'.length = vs.length) (hf : fill os vs = .ok full) : ∃ full', fill os' vs' = .ok full' :=
  fill_pattern h.symm (by rw [hl]) hf

theorem coreContract_of_loop {lib : Library A} {st st' : List Step} {ops ops' : List A}
    (h : AnyLibrary.coreLoop lib false [] st ops = AnyLibrary.coreLoop lib false [] st' ops') :
    AnyLibrary.coreContract lib false [] st ops = AnyLibrary.coreContract lib false [] st' ops' := by
  unfold AnyLibrary.coreContract
  rw [h]

theorem numpy_mapM (hW : Conventional W) {b : Str} (hb : b ∈ eagerNames) {arrays : List (Arr A)} (ha : ∀ a ∈ arrays, a.place.module = S "numpy") :
    arrays.mapM (toLibrary W b) = .ok (arrays.map (fun a => ⟨home W b, a.val⟩)) := by
  induction arrays with
  | nil => rfl
  | cons a l ih =>
    rw [List.mapM_cons, toLibrary_numpy hW hb (ha a (by simp)), ih (fun x hx => ha x (by simp [hx]))]
    rfl

theorem eager_hasBackend {b : Str} (hb : b ∈ eagerNames) : hasBackend b = true := by
  rcases mem_eager hb with rfl | rfl | rfl | rfl <;> decide

/-- What conversion, contraction of the remaining steps, and conversion back give. -/
theorem finish_converted (hW : Conventional W) {e : Expr A} (he : ExprOK W steps n constants e)
    (hu : ∀ st, ((constants = [] ∧ st = steps) ∨ Rest W steps (slotsOf n constants) st) → st = e.list)
    {b : Str} (hb : b ∈ eagerNames) {arrays ops ts : List (Arr A)} (ha : ∀ a ∈ arrays, a.place.module = S "numpy")
    (hops : ops.mapM (toLibrary W b) = .ok ts) (hne : ts ≠ []) :
    (Eager.finish W e b arrays ops).1 = AnyLibrary.coreContract (placed W b) false [] e.list ts >>= back b := by
  unfold Eager.finish
  rw [if_pos ⟨eager_hasBackend hb, ha⟩]
  unfold runConverted
  split
  · rename_i hj
    subst hj
    unfold runJax
    have : ops.mapM (toJax W) = .ok ts := hops
    rw [this]
    simp only
    have hst : (e.traces.get? (ts.map (fun t => W.shape t.val))).getD e.list = e.list := by
      cases hg : e.traces.get? (ts.map (fun t => W.shape t.val)) with
      | none => rfl
      | some st => exact hu st (he.traces _ _ hg)
    have hp : parse W (ts.map (fun _ => S "jax")) none = .ok (S "jax") := by
      unfold parse parseBackend
      cases ts with
      | nil => exact absurd rfl hne
      | cons t ts => simp [hW.tensordot, bind, Except.bind]
    rw [hst, hp]
    simp only [bind, Except.bind]
    cases AnyLibrary.coreContract (placed W (S "jax")) false [] e.list ts <;> rfl
  · rw [converter_eager hb]
    simp only [hops, bind, Except.bind]
    
/-- A call of an expression with constants uses what evaluating them gives, whether this was done before or not. -/
theorem call_const {e : Expr A} (he : ExprOK W steps n constants e) (h0 : constants ≠ []) {arrays : List (Arr A)} (hlen : arrays.length = n - constants.length)
    {backend : Option Str} {b : Str} (hb : parse W (arrays.map (fun a => a.place.module)) backend = .ok b) (hauto : b ≠ S "auto") :
    (∀ er, evalResult W steps (slotsOf n constants) b = .error er → (call W e arrays backend).1 = .error er) ∧
    (∀ r ss, evalResult W steps (slotsOf n constants) b = .ok (r, ss) →
      ∃ e', ExprOK W steps n constants e' ∧ e'.list = ss ∧ (call W e arrays backend).1 = (fillFinish W e' b arrays r).1) := by
  have hp : ∀ l, parse W l (some b) = .ok b := by
    intro l
    unfold parse parseBackend
    simp [hauto]
  unfold call
  rw [hb]
  simp only
  rw [if_neg (by rw [he.numArgs, hlen]; simp), if_neg (by rw [he.consts]; exact h0)]
  cases hg : e.evaluated.get? b with
  | some ops =>
    have h1 := evaluated_rest he hg
    refine ⟨fun er h => (by rw [h1] at h; cases h), fun r ss h => ?_⟩
    rw [h1] at h
    cases h
    exact ⟨e, he, rfl, rfl⟩
  | none =>
    have h1 := evaluateConstants_ok he (some b)
    have h2 : evaluateConstants W e (some b) = match evalResult W steps (slotsOf n constants) b with
        | .error er => (.error er, e)
        | .ok (ops, ss) => (.ok (), { e with evaluated := e.evaluated.set b ops, list := ss }) := by
      unfold evaluateConstants
      rw [hp]
      simp only [he.slots]
      rw [show evalResult W e.full (slotsOf n constants) b = evalResult W steps (slotsOf n constants) b by rw [he.full]]
      rfl
    refine ⟨fun er h => ?_, fun r ss h => ?_⟩
    · rw [h] at h2
      rw [h2]
    · rw [h] at h2
      rw [h2] at h1
      rw [h2]
      refine ⟨_, h1, rfl, ?_⟩
      simp only [Dict.get?_set_self]

/-- The whole of a call. -/
theorem call_spec (hW : Conventional W) {path : List (List Nat)} (hpath : steps.map Step.inds = path.map sortedDesc) (hc : CompletePath n path)
    (hnd : (constants.map Prod.fst).Nodup) (hlt : ∀ k ∈ constants.map Prod.fst, k < n) {e : Expr A} (he : ExprOK W steps n constants e)
    {arrays full : List (Arr A)} (hv : arrays ≠ []) (hm : Merge (slotsOf n constants) arrays full) {backend : Option Str} {b : Str}
    (hb : parse W (arrays.map (fun a => a.place.module)) backend = .ok b) (hauto : b ≠ S "auto") :
    (b ∈ eagerNames → (∀ a ∈ arrays, a.place.module = S "numpy") →
      (call W e arrays backend).1.toOption = (convertContract W steps b full).toOption) ∧
    (¬ (hasBackend b = true ∧ ∀ a ∈ arrays, a.place.module = S "numpy") →
      (call W e arrays backend).1.toOption = (plainContract W steps b (slotsOf n constants) arrays).toOption) := by
  have hlen : arrays.length = n - constants.length := by
    rw [(merge_count hm).1]
    exact slots_length n constants hnd hlt
  have hcl : CompletePath (slotsOf n constants).length path := by simpa [slotsOf] using hc
  have hnone : none ∈ slotsOf n constants := merge_none hm hv
  have hfull : full ≠ [] := by
    intro h0
    have h1 := (merge_count hm).2
    rw [h0] at h1
    rw [List.length_eq_zero_iff.mp h1.symm] at hnone
    simp at hnone
  by_cases h0 : constants = []
  · -- no constants
    have hall : ∀ o ∈ slotsOf n constants, o = none := by rw [h0]; exact slotsOf_nil n
    have hfe : arrays = full := merge_all_none hm hall
    subst hfe
    have hlist := rest_nil hpath hc he h0
    have hcall : (call W e arrays backend).1 = (Eager.finish W e b arrays arrays).1 := by
      unfold call
      rw [hb]
      simp only
      rw [if_neg (by rw [he.numArgs, hlen]; simp), if_pos (by rw [he.consts]; exact h0)]
    rw [hcall]
    refine ⟨fun hbe ha => ?_, fun hno => ?_⟩
    · have hmap := numpy_mapM hW hbe ha
      rw [finish_converted hW he (fun st hst => ?_) hbe ha hmap (by simpa using hv), hlist]
      · unfold convertContract
        rw [hmap]
        rfl
      · rw [hlist]
        rcases hst with ⟨_, h⟩ | ⟨b', r, h⟩
        · exact h
        · exact evalResult_nil hpath hcl hall h
    · unfold Eager.finish
      rw [if_neg hno, hlist]
      unfold plainContract
      have hs : (slotsOf n constants).mapM (convertOpt (toLibrary W b)) = .ok (slotsOf n constants) := by
        generalize slotsOf n constants = l at hall
        induction l with
        | nil => rfl
        | cons o l ih =>
          rw [List.mapM_cons, hall o (by simp), ih (fun o ho => hall o (by simp [ho]))]
          rfl
      rw [hs]
      simp only [bind, Except.bind, merge_fill' hm]
  · obtain ⟨k1, k2⟩ := call_const he h0 hlen hb hauto
    have heq := evalResult_eq (W := W) hW.noKey (full := steps) (b := b) hnone
    have hdesc := inds_desc hpath hc
    refine ⟨fun hbe ha => ?_, fun hno => ?_⟩
    · have hmap := numpy_mapM hW hbe ha
      obtain ⟨m1, m2⟩ := merge_mapM hm hmap
      unfold convertContract
      cases hcs : (slotsOf n constants).mapM (convertOpt (toLibrary W b)) with
      | error er =>
        rw [hcs] at heq
        rw [k1 er heq, m1 er hcs]
        rfl
      | ok cs =>
        obtain ⟨f, f1, f2⟩ := m2 cs hcs
        rw [f2]
        rw [hcs] at heq
        simp only [bind, Except.bind] at heq ⊢
        obtain ⟨l1, l2⟩ := GraphMode.evalLoop_fill (placed W b) false steps hdesc f1
        obtain ⟨pat, orig⟩ := convertOpt_pattern hcs
        cases hev : GraphMode.evalLoop (placed W b) false steps cs with
        | error er =>
          rw [hev] at heq
          rw [k1 er heq]
          unfold AnyLibrary.coreContract
          rw [l2 er hev]
          rfl
        | ok o =>
          cases o with
          | none =>
            exact absurd hev (GraphMode.evalLoop_ne_done (placed W b) false hpath (by
              have := congrArg List.length pat
              simp only [List.length_map] at this
              rw [this]; exact hcl) (mem_none_pattern pat hnone))
          | some u =>
            obtain ⟨r, ss⟩ := u
            rw [hev] at heq
            simp only at heq
            obtain ⟨e', he', hl', hcall⟩ := k2 r ss heq
            obtain ⟨full', g1, g2⟩ := l1 r ss hev
            have hfix : ∀ a, some a ∈ r → toLibrary W b a = .ok a := by
              refine evalLoop_all (fun s tmp v hv => ?_) (fun a ha' => ?_) hev
              · obtain ⟨ps, hps⟩ := stepResult_made hv
                exact toLibrary_own hW hbe (by rw [hps]; exact hW.made b hbe ps)
              · obtain ⟨a0, _, h2⟩ := orig a ha'
                exact toLibrary_idem hW hbe h2
            obtain ⟨ops, hops⟩ := fill_same_pattern (os := r) (os' := r) rfl (vs := arrays.map (fun a => (⟨home W b, a.val⟩ : Arr A))) (vs' := arrays) (by simp) g1
            obtain ⟨ops', o1, o2⟩ := fill_mapM hfix hmap hops
            rw [g1] at o1
            cases o1
            rw [hcall]
            unfold fillFinish
            rw [hops]
            simp only
            have hne : full' ≠ [] := by
              intro hnil
              subst hnil
              have hr : r = [] := List.length_eq_zero_iff.mp (by simpa using (OE.Expression.fill_length g1).symm)
              have h1 := evalLoop_nones (placed W b) false hev
              rw [hr] at h1
              have h2 : ∀ a ∈ cs, ¬ a = none := by simpa using h1.symm
              exact h2 none (mem_none_pattern pat hnone) rfl
            rw [finish_converted hW he' (fun st hst => ?_) hbe ha o2 hne, hl', ← coreContract_of_loop g2]
            · rfl
            · rcases hst with ⟨h, _⟩ | ⟨b', r', h⟩
              · exact absurd h h0
              · rw [hl']; exact evalResult_rest h heq
    · unfold plainContract
      cases hcs : (slotsOf n constants).mapM (convertOpt (toLibrary W b)) with
      | error er =>
        rw [hcs] at heq
        rw [k1 er heq]
        rfl
      | ok cs =>
        rw [hcs] at heq
        simp only [bind, Except.bind] at heq ⊢
        obtain ⟨pat, orig⟩ := convertOpt_pattern hcs
        obtain ⟨f, f1⟩ := fill_same_pattern pat rfl (merge_fill' hm)
        rw [f1]
        simp only
        obtain ⟨l1, l2⟩ := GraphMode.evalLoop_fill (placed W b) false steps hdesc f1
        cases hev : GraphMode.evalLoop (placed W b) false steps cs with
        | error er =>
          rw [hev] at heq
          rw [k1 er heq]
          unfold AnyLibrary.coreContract
          rw [l2 er hev]
          rfl
        | ok o =>
          cases o with
          | none =>
            exact absurd hev (GraphMode.evalLoop_ne_done (placed W b) false hpath (by
              have := congrArg List.length pat
              simp only [List.length_map] at this
              rw [this]; exact hcl) (mem_none_pattern pat hnone))
          | some u =>
            obtain ⟨r, ss⟩ := u
            rw [hev] at heq
            simp only at heq
            obtain ⟨e', he', hl', hcall⟩ := k2 r ss heq
            obtain ⟨full', g1, g2⟩ := l1 r ss hev
            rw [hcall]
            unfold fillFinish
            rw [g1]
            simp only
            unfold Eager.finish
            rw [if_neg hno, hl', ← coreContract_of_loop g2]

theorem toLibrary_val {b : Str} {a a' : Arr A} (h : toLibrary W b a = .ok a') : a'.val = a.val := by
  unfold toLibrary converter at h
  repeat' split at h
  all_goals simp only [Option.getD_some, Option.getD_none, toCupy, toTorch, toTensorflow, toJax] at h
  all_goals repeat' split at h
  all_goals first | (cases h; done) | (cases h; rfl)

theorem mem_slotsOf {a : Arr A} (h : some a ∈ slotsOf n constants) : ∃ k, constants.get? k = some a := by
  obtain ⟨i, _, hi⟩ := List.mem_map.mp h
  exact ⟨i, hi⟩

theorem merge_mem {α : Type} {sl : List (Option α)} {vars full : List α} (h : Merge sl vars full) {a : α} (ha : a ∈ full) : some a ∈ sl ∨ a ∈ vars := by
  induction h with
  | nil => simp at ha
  | const c sl vars full _ ih =>
    rcases List.mem_cons.mp ha with rfl | ha
    · simp
    · rcases ih ha with h | h <;> simp [h]
  | var v sl vars full _ ih =>
    rcases List.mem_cons.mp ha with rfl | ha
    · simp
    · rcases ih ha with h | h <;> simp [h]

theorem merge_const_mem {α : Type} {sl : List (Option α)} {vars full : List α} (h : Merge sl vars full) {a : α} (ha : some a ∈ sl) : a ∈ full := by
  induction h with
  | nil => simp at ha
  | const c sl vars full _ ih =>
    rcases List.mem_cons.mp ha with h | h
    · cases h; simp
    · simp [ih h]
  | var v sl vars full _ ih =>
    rcases List.mem_cons.mp ha with h | h
    · cases h
    · simp [ih h]

theorem merge_var_mem {α : Type} {sl : List (Option α)} {vars full : List α} (h : Merge sl vars full) {a : α} (ha : a ∈ vars) : a ∈ full := by
  induction h with
  | nil => simp at ha
  | const c sl vars full _ ih => simp [ih ha]
  | var v sl vars full _ ih =>
    rcases List.mem_cons.mp ha with rfl | h
    · simp
    · simp [ih h]

theorem inds_ne {path : List (List Nat)} (hpath : steps.map Step.inds = path.map sortedDesc) {n : Nat} (hc : CompletePath n path) : ∀ s ∈ steps, s.inds ≠ [] := by
  have hne : ∀ p ∈ path, p ≠ [] := by
    clear hpath
    induction path generalizing n with
    | nil => simp
    | cons p ps ih =>
      cases ps with
      | nil => intro q hq; simp at hq; subst hq; exact hc.1.1
      | cons q qs =>
        intro r hr
        rcases List.mem_cons.mp hr with rfl | hr
        · exact hc.1.1
        · exact ih hc.2 r hr
  intro s hs h0
  have : s.inds ∈ path.map sortedDesc := by rw [← hpath]; exact List.mem_map_of_mem hs
  obtain ⟨p, hp, h1⟩ := List.mem_map.mp this
  rw [h0] at h1
  exact hne p hp (sortedDesc_eq_nil.mp h1)

end OE.Props.EagerMode

namespace OE.Props
open OE OE.Py OE.Spec OE.Contract OE.AnyLibrary OE.Eager OE.Parser
open OE.Props.EagerMode
open OE.Expression (hasBackend convertBackends)

variable {A : Type} {W : World A} {steps : List Step} {n : Nat} {constants : Dict Nat (Arr A)}

/-- **C82, what happened before does not matter.** After any calls and evaluations of constants with any backends, whether they returned or raised: if the
backend is cupy, torch, tensorflow or jax and all arrays given are numpy arrays, constants and arrays are converted, contracted and the result converted
back; if some array is not a numpy array or the backend is another one, the constants are converted and the arrays handed to the library as they are. -/
theorem C82_history (hW : Conventional W) {path : List (List Nat)} (hpath : steps.map Step.inds = path.map sortedDesc) (hc : CompletePath n path)
    (hnd : (constants.map Prod.fst).Nodup) (hlt : ∀ k ∈ constants.map Prod.fst, k < n) (us : List (Use A)) (arrays full : List (Arr A)) (hv : arrays ≠ [])
    (hm : Merge ((List.range n).map (fun i => constants.get? i)) arrays full) (backend : Option Str) (b : Str)
    (hb : parse W (arrays.map (fun a => a.place.module)) backend = .ok b) (hauto : b ≠ S "auto") :
    let e := uses W (Expr.new steps n constants) us
    (b ∈ eagerNames → (∀ a ∈ arrays, a.place.module = S "numpy") → (call W e arrays backend).1.toOption = (convertContract W steps b full).toOption) ∧
    (¬ (hasBackend b = true ∧ ∀ a ∈ arrays, a.place.module = S "numpy") →
      (call W e arrays backend).1.toOption = (plainContract W steps b ((List.range n).map (fun i => constants.get? i)) arrays).toOption) :=
  EagerMode.call_spec hW hpath hc hnd hlt (EagerMode.uses_ok hpath hc (EagerMode.new_ok W steps n constants) us) hv hm hb hauto

theorem parse_some {b : Str} (h : b ≠ S "auto") (l : List Str) : parse W l (some b) = .ok b := by
  unfold parse Expression.parseBackend
  simp [h]

theorem eager_ne_auto {b : Str} (hb : b ∈ eagerNames) : b ≠ S "auto" := by
  rcases mem_eager hb with rfl | rfl | rfl | rfl <;> decide

/-- **C82, numpy arrays in, a numpy array out.** After any history, `expr(*arrays, backend=b)` with numpy arrays, `b` one of the four, and constants that are
numpy arrays or arrays of the library where it puts converted arrays, returns what the functions of the library compute from the contents of all operands,
as a numpy array; and fails if they fail. -/
theorem C82_numpy_in_numpy_out (hW : Conventional W) {path : List (List Nat)} (hpath : steps.map Step.inds = path.map sortedDesc) (hc : CompletePath n path)
    (hnd : (constants.map Prod.fst).Nodup) (hlt : ∀ k ∈ constants.map Prod.fst, k < n) (us : List (Use A)) (b : Str) (hb : b ∈ eagerNames)
    (hcl : Closed W b (· = home W b) (home W b)) (hconst : ∀ k a, constants.get? k = some a → a.place.module = S "numpy" ∨ a.place = home W b)
    (arrays full : List (Arr A)) (hv : arrays ≠ []) (ha : ∀ a ∈ arrays, a.place.module = S "numpy")
    (hm : Merge ((List.range n).map (fun i => constants.get? i)) arrays full) :
    (call W (uses W (Expr.new steps n constants) us) arrays (some b)).1.toOption =
      (AnyLibrary.coreContract (W.lib b) false [] steps (full.map Arr.val)).toOption.map numpyArray := by
  rw [(C82_history hW hpath hc hnd hlt us arrays full hv hm (some b) b (parse_some (eager_ne_auto hb) _) (eager_ne_auto hb)).1 hb ha]
  have hall : ∀ a ∈ full, toLibrary W b a = .ok ⟨home W b, a.val⟩ := by
    intro a h
    have : a.place.module = S "numpy" ∨ a.place = home W b := by
      rcases merge_mem hm h with h | h
      · obtain ⟨k, hk⟩ := mem_slotsOf h
        exact hconst k a hk
      · exact Or.inl (ha a h)
    rcases this with h | h
    · exact toLibrary_numpy hW hb h
    · rw [toLibrary_own hW hb (by rw [h]; rfl), ← h]
  have hmap : full.mapM (toLibrary W b) = .ok (full.map (fun a => ⟨home W b, a.val⟩)) := by
    clear hm
    induction full with
    | nil => rfl
    | cons a l ih =>
      rw [List.mapM_cons, hall a (by simp), ih (fun x hx => hall x (by simp [hx]))]
      rfl
  unfold convertContract
  rw [hmap]
  simp only [bind, Except.bind]
  have hlen : full.length = n := by rw [(merge_count hm).2]; simp
  rw [coreContract_closed hcl false hpath (by simpa [hlen] using hc) (inds_ne hpath hc) (by
    intro x hx
    obtain ⟨a, _, rfl⟩ := List.mem_map.mp hx
    rfl)]
  rw [List.map_map]
  have hval : (Arr.val ∘ fun a : Arr A => (⟨home W b, a.val⟩ : Arr A)) = Arr.val := rfl
  rw [hval]
  cases AnyLibrary.coreContract (W.lib b) false [] steps (full.map Arr.val) with
  | error e => rfl
  | ok v =>
    simp only [Except.map, back]
    split
    · rfl
    · rename_i hj
      have : (home W b).module = b := by unfold home classModule; rw [if_neg hj]
      simp only [this, if_true]
      rfl

/-- What the conversion of a constant for backend `b` yields is at one of the places `P`, with the same contents. -/
def ConvertsInto (W : World A) (b : Str) (P : Place → Prop) (a : Arr A) : Prop := ∃ p, toLibrary W b a = .ok ⟨p, a.val⟩ ∧ P p

/-- **C82, arrays of the library itself.** If not all arrays are numpy arrays (or the backend is not one of those that convert), and the functions of the
resolved backend work with arrays at the places `P`, where all arrays and all converted constants are, the call returns what the functions compute from the
contents, at the place where the library puts its results. -/
theorem C82_own_arrays (hW : Conventional W) {path : List (List Nat)} (hpath : steps.map Step.inds = path.map sortedDesc) (hc : CompletePath n path)
    (hnd : (constants.map Prod.fst).Nodup) (hlt : ∀ k ∈ constants.map Prod.fst, k < n) (us : List (Use A)) (arrays full : List (Arr A)) (hv : arrays ≠ [])
    (hm : Merge ((List.range n).map (fun i => constants.get? i)) arrays full) (backend : Option Str) (b : Str)
    (hb : parse W (arrays.map (fun a => a.place.module)) backend = .ok b) (hauto : b ≠ S "auto")
    (hno : ¬ (hasBackend b = true ∧ ∀ a ∈ arrays, a.place.module = S "numpy")) (P : Place → Prop) (q : Place) (hcl : Closed W b P q)
    (hconst : ∀ k a, constants.get? k = some a → ConvertsInto W b P a) (ha : ∀ a ∈ arrays, P a.place) :
    (call W (uses W (Expr.new steps n constants) us) arrays backend).1.toOption =
      (AnyLibrary.coreContract (W.lib b) false [] steps (full.map Arr.val)).toOption.map (fun v => ⟨q, v⟩) := by
  rw [(C82_history hW hpath hc hnd hlt us arrays full hv hm backend b hb hauto).2 hno]
  have key : ∀ (slots : List (Option (Arr A))) (arrays full : List (Arr A)), Merge slots arrays full →
      (∀ a, some a ∈ slots → ConvertsInto W b P a) → (∀ a ∈ arrays, P a.place) →
      ∃ cs f, slots.mapM (convertOpt (toLibrary W b)) = .ok cs ∧ Expression.fill cs arrays = .ok f ∧ f.map Arr.val = full.map Arr.val ∧ ∀ a ∈ f, P a.place := by
    intro slots arrays full h
    induction h with
    | nil => intro _ _; exact ⟨[], [], rfl, rfl, rfl, by simp⟩
    | const c sl vars full _ ih =>
      intro h1 h2
      obtain ⟨cs, f, g1, g2, g3, g4⟩ := ih (fun a h => h1 a (by simp [h])) h2
      obtain ⟨p, k1, k2⟩ := h1 c (by simp)
      refine ⟨some ⟨p, c.val⟩ :: cs, ⟨p, c.val⟩ :: f, ?_, ?_, by simp [g3], ?_⟩
      · rw [List.mapM_cons, g1]
        simp only [convertOpt, k1, bind, Except.bind]
        rfl
      · simp only [Expression.fill, bind, Except.bind, g2]
      · intro a h
        rcases List.mem_cons.mp h with rfl | h
        · exact k2
        · exact g4 a h
    | var v sl vars full _ ih =>
      intro h1 h2
      obtain ⟨cs, f, g1, g2, g3, g4⟩ := ih (fun a h => h1 a (by simp [h])) (fun a h => h2 a (by simp [h]))
      refine ⟨none :: cs, v :: f, ?_, ?_, by simp [g3], ?_⟩
      · rw [List.mapM_cons, g1]
        rfl
      · simp only [Expression.fill, bind, Except.bind, g2]
      · intro a h
        rcases List.mem_cons.mp h with rfl | h
        · exact h2 _ (by simp)
        · exact g4 a h
  obtain ⟨cs, f, g1, g2, g3, g4⟩ := key _ _ _ hm (fun a h => by
    obtain ⟨k, hk⟩ := mem_slotsOf h
    exact hconst k a hk) ha
  have hlen : f.length = n := by
    have h1 := congrArg List.length g3
    simp only [List.length_map] at h1
    rw [h1, (merge_count hm).2]
    simp
  unfold plainContract
  rw [g1]
  simp only [bind, Except.bind, g2]
  rw [coreContract_closed hcl false hpath (by rw [hlen]; exact hc) (inds_ne hpath hc) g4, g3]
  cases AnyLibrary.coreContract (W.lib b) false [] steps (full.map Arr.val) <;> rfl

/-- **C82, arrays at different places.** With a library that refuses arrays at different places (torch: tensors and arrays of other classes, or tensors on
different devices), a call whose arrays are not converted returns only if all arrays and all converted constants are at one place; that is where the result is. -/
theorem C82_one_place (hW : Conventional W) {path : List (List Nat)} (hpath : steps.map Step.inds = path.map sortedDesc) (hc : CompletePath n path)
    (hnd : (constants.map Prod.fst).Nodup) (hlt : ∀ k ∈ constants.map Prod.fst, k < n) (us : List (Use A)) (arrays full : List (Arr A)) (hv : arrays ≠ [])
    (hm : Merge ((List.range n).map (fun i => constants.get? i)) arrays full) (backend : Option Str) (b : Str)
    (hb : parse W (arrays.map (fun a => a.place.module)) backend = .ok b) (hauto : b ≠ S "auto")
    (hno : ¬ (hasBackend b = true ∧ ∀ a ∈ arrays, a.place.module = S "numpy")) (hs : Strict W b) (r : Arr A)
    (hr : (call W (uses W (Expr.new steps n constants) us) arrays backend).1 = .ok r) :
    (∀ a ∈ arrays, a.place = r.place) ∧ ∀ k a, constants.get? k = some a → k < n → ConvertsInto W b (· = r.place) a := by
  have h := (C82_history hW hpath hc hnd hlt us arrays full hv hm backend b hb hauto).2 hno
  rw [hr] at h
  unfold plainContract at h
  simp only [bind, Except.bind] at h
  have key : ∀ (slots : List (Option (Arr A))) (arrays full : List (Arr A)), Merge slots arrays full → ∀ cs f, slots.mapM (convertOpt (toLibrary W b)) = .ok cs →
      Expression.fill cs arrays = .ok f → (∀ a ∈ arrays, a ∈ f) ∧ ∀ a, some a ∈ slots → ∃ a', toLibrary W b a = .ok a' ∧ a' ∈ f := by
    intro slots arrays full h
    induction h with
    | nil => intro cs f _ _; simp
    | const c sl vars full _ ih =>
      intro cs f h1 h2
      rw [List.mapM_cons] at h1
      simp only [convertOpt, bind, Except.bind] at h1
      cases hc' : toLibrary W b c with
      | error e => rw [hc'] at h1; cases h1
      | ok c' =>
        rw [hc'] at h1
        simp only at h1
        cases hsl : sl.mapM (convertOpt (toLibrary W b)) with
        | error e => rw [hsl] at h1; cases h1
        | ok cs' =>
          rw [hsl] at h1
          cases h1
          simp only [Expression.fill, bind, Except.bind] at h2
          cases hf : Expression.fill cs' vars with
          | error e => rw [hf] at h2; cases h2
          | ok f' =>
            rw [hf] at h2
            cases h2
            obtain ⟨g1, g2⟩ := ih cs' f' hsl hf
            refine ⟨fun a h => by simp [g1 a h], fun a h => ?_⟩
            rcases List.mem_cons.mp h with h | h
            · cases h; exact ⟨c', hc', by simp⟩
            · obtain ⟨a', k1, k2⟩ := g2 a h
              exact ⟨a', k1, by simp [k2]⟩
    | var v sl vars full _ ih =>
      intro cs f h1 h2
      rw [List.mapM_cons] at h1
      simp only [convertOpt, bind, Except.bind] at h1
      cases hsl : sl.mapM (convertOpt (toLibrary W b)) with
      | error e => rw [hsl] at h1; cases h1
      | ok cs' =>
        rw [hsl] at h1
        cases h1
        simp only [Expression.fill, bind, Except.bind] at h2
        cases hf : Expression.fill cs' vars with
        | error e => rw [hf] at h2; cases h2
        | ok f' =>
          rw [hf] at h2
          cases h2
          obtain ⟨g1, g2⟩ := ih cs' f' hsl hf
          refine ⟨fun a h => ?_, fun a h => ?_⟩
          · rcases List.mem_cons.mp h with rfl | h
            · simp
            · simp [g1 a h]
          · rcases List.mem_cons.mp h with h | h
            · cases h
            · obtain ⟨a', k1, k2⟩ := g2 a h
              exact ⟨a', k1, by simp [k2]⟩
  cases h1 : ((List.range n).map (fun i => constants.get? i)).mapM (convertOpt (toLibrary W b)) with
  | error e => rw [h1] at h; cases h
  | ok cs =>
    rw [h1] at h
    simp only at h
    cases h2 : Expression.fill cs arrays with
    | error e => rw [h2] at h; cases h
    | ok f =>
      rw [h2] at h
      simp only at h
      cases h3 : AnyLibrary.coreContract (placed W b) false [] steps f with
      | error e => rw [h3] at h; cases h
      | ok r' =>
        rw [h3] at h
        cases h
        obtain ⟨g1, g2⟩ := key _ _ _ hm cs f h1 h2
        have hlen : f.length = n := by
          rw [OE.Expression.fill_length h2]
          have := congrArg List.length (convertOpt_pattern h1).1
          simpa using this
        have hst := coreContract_strict hs hpath (by rw [hlen]; exact hc) h3
        refine ⟨fun a h => hst a (g1 a h), fun k a hk hkn => ?_⟩
        obtain ⟨a', k1, k2⟩ := g2 a (List.mem_map.mpr ⟨k, by simpa using hkn, hk⟩)
        refine ⟨r.place, ?_, rfl⟩
        rw [k1, ← hst a' k2, ← toLibrary_val k1]

/-- **C82, constants on the wrong device.** If torch uses a GPU, an expression with a constant that is a numpy array cannot be called with tensors that are
not on the device that opt_einsum chose: the constant has been moved there, the arrays are not moved. -/
theorem C82_other_device (hW : Conventional W) {path : List (List Nat)} (hpath : steps.map Step.inds = path.map sortedDesc) (hc : CompletePath n path)
    (hnd : (constants.map Prod.fst).Nodup) (hlt : ∀ k ∈ constants.map Prod.fst, k < n) (us : List (Use A)) (arrays full : List (Arr A)) (hv : arrays ≠ [])
    (hm : Merge ((List.range n).map (fun i => constants.get? i)) arrays full) (hs : Strict W (S "torch")) (k : Nat) (c : Arr A)
    (hk : constants.get? k = some c) (hkc : c.place.module = S "numpy") (d : Nat) (hd : d ≠ W.device) (ha : ∀ a ∈ arrays, a.place = ⟨S "torch", d⟩) (r : Arr A) :
    (call W (uses W (Expr.new steps n constants) us) arrays (some (S "torch"))).1 ≠ .ok r := by
  intro hr
  obtain ⟨a, l, rfl⟩ : ∃ a l, arrays = a :: l := List.exists_cons_of_ne_nil hv
  have hno : ¬ (hasBackend (S "torch") = true ∧ ∀ x ∈ a :: l, x.place.module = S "numpy") := by
    rintro ⟨_, h⟩
    have h1 := h a (by simp)
    rw [ha a (by simp)] at h1
    exact absurd (show S "torch" = S "numpy" from h1) (by decide)
  obtain ⟨g1, g2⟩ := C82_one_place hW hpath hc hnd hlt us _ full hv hm (some (S "torch")) (S "torch") (parse_some (by decide) _) (by decide) hno hs r hr
  have hkn : k < n := hlt k (by
    by_contra h
    rw [Dict.get?_eq_none.mpr h] at hk
    cases hk)
  obtain ⟨p, h1, h2⟩ := g2 k c hk hkn
  rw [toLibrary_numpy hW (by decide) hkc] at h1
  simp only [Except.ok.injEq, Arr.mk.injEq, and_true] at h1
  have h3 := g1 a (by simp)
  rw [ha a (by simp)] at h3
  rw [h2, ← h3] at h1
  exact hd (congrArg Place.device h1).symm

/-- **C82, names in another case.** `has_backend` ignores the case of the name, the tables do not: with numpy arrays, a backend like `"Torch"` never works. -/
theorem C82_letter_case (us : List (Use A)) (arrays : List (Arr A)) (b : Str) (hb : hasBackend b = true) (hb' : b ∉ convertBackends) (ha : ∀ a ∈ arrays, a.place.module = S "numpy") (r : Arr A) :
    (call W (uses W (Expr.new steps n constants) us) arrays (some b)).1 ≠ .ok r := by
  have hfin : ∀ (e : Eager.Expr A) ops, (Eager.finish W e b arrays ops).1 ≠ .ok r := by
    intro e ops
    have hj : ∀ s ∈ convertBackends, b ≠ s := fun s hs h => hb' (h ▸ hs)
    unfold Eager.finish
    rw [if_pos ⟨hb, ha⟩]
    unfold runConverted
    rw [if_neg (hj _ (by decide))]
    have : converter W b = none := by
      unfold converter
      rw [if_neg (hj _ (by decide)), if_neg (hj _ (by decide)), if_neg (hj _ (by decide)), if_neg (hj _ (by decide)), if_neg (hj _ (by decide))]
    rw [this]
    simp
  have hff : ∀ (e : Eager.Expr A) cs, (fillFinish W e b arrays cs).1 ≠ .ok r := by
    intro e cs
    unfold fillFinish
    split
    · simp
    · exact hfin _ _
  generalize uses W (Expr.new steps n constants) us = e
  unfold Eager.call
  split
  · simp
  · rename_i b' hp
    have hbb : b' = b := by
      rw [parse_some (by rintro rfl; exact absurd hb (by decide))] at hp
      cases hp
      rfl
    subst hbb
    split
    · simp
    · split
      · exact hfin _ _
      · split
        · exact hff _ _
        · split
          · simp
          · split
            · simp
            · exact hff _ _

/-- **C82, what the value is.** With a library that does what numpy does (`Serves`), numpy arrays and constants in give, after any history, the Einstein
summation of the constants and the arrays of this call, as a numpy array. -/
theorem C82_einsum (hW : Conventional W) {R : Type} [CommSemiring R] (b : Str) (hb : b ∈ eagerNames) (hcl : Closed W b (· = home W b) (home W b))
    {plain : Bool} {Rep : A → Tensor R → Prop} (hlib : Serves (W.lib b) [] plain Rep) (hein : (W.lib b).einsum.isSome) (hshape : ∀ a T, Rep a T → W.shape a = T.shape)
    (size : Nat → Nat) (eq : Str) (arrays full : List (Arr A)) (hv : arrays ≠ [])
    (hnd : (constants.map Prod.fst).Nodup) (hlt : ∀ k ∈ constants.map Prod.fst, k < full.length)
    (hm : Merge ((List.range full.length).map (fun i => constants.get? i)) arrays full) (ha : ∀ a ∈ full, a.place.module = S "numpy")
    (Ts : List (Tensor R)) (hrep : List.Forall₂ Rep (full.map Arr.val) Ts) (inp out : Str)
    (hparse : parseEinsum eq (Ts.map Tensor.shape) = .ok (inp, out)) (hcomma : cComma ∉ out)
    (hfit : OperandsFit size (splitOn cComma inp) (Ts.map Tensor.shape))
    (hplain : plain = true → PlainShapes size (splitOn cComma inp) (Ts.map Tensor.shape))
    (hlab : (splitOn cComma inp).flatten.toFinset.card ≤ 52) (opt : Optimize) (mem : MemLimit) (hmem : ValidMemory mem)
    (hopt : ChoosesComplete opt size (splitOn cComma inp) out) (useBlas : Bool) (info : PathInfo)
    (hinfo : contractPath (splitOn cComma inp) out (Ts.map Tensor.shape) opt mem useBlas = .ok info) (us : List (Use A)) :
    ∃ a T, (call W (uses W (Expr.new info.contractionList full.length constants) us) arrays (some b)).1 = .ok (numpyArray a) ∧ Rep a T ∧
      IsEinsum size (splitOn cComma inp) out Ts T := by
  have hwp := wellPosed_of_parse hparse hcomma hfit
  obtain ⟨info', h1, hcp, _⟩ := C01_contract_terms size (splitOn cComma inp) out Ts hwp opt mem hmem hopt useBlas false
  rw [hinfo] at h1
  cases h1
  have hlen : (splitOn cComma inp).length = full.length := by
    have := hwp.len
    rw [List.length_map, ← hrep.length_eq, List.length_map] at this
    exact this
  rw [hlen] at hcp
  have key := C82_numpy_in_numpy_out hW (contractPath_inds hinfo) hcp hnd hlt us b hb hcl (by
    intro k a hk
    left
    have hkn : k < full.length := hlt k (by
      by_contra h
      rw [Dict.get?_eq_none.mpr h] at hk
      cases hk)
    exact ha a (merge_const_mem hm (List.mem_map.mpr ⟨k, by simpa using hkn, hk⟩))) arrays full hv (fun a h => ha a (merge_var_mem hm h)) hm
  obtain ⟨a, T, g1, g2, g3⟩ := C69_contract_any_library hlib hein W.shape hshape (W.lib b) size eq (full.map Arr.val) Ts hrep inp out hparse hcomma hfit
    hplain hlab opt mem hmem hopt useBlas false
  have hsh : (full.map Arr.val).map W.shape = Ts.map Tensor.shape := rep_shapes hshape hrep
  have hcon : AnyLibrary.contract W.shape (W.lib b) (W.lib b) false eq (full.map Arr.val) opt mem useBlas [] =
      AnyLibrary.coreContract (W.lib b) false [] info.contractionList (full.map Arr.val) := by
    cases opt with
    | off => exact absurd hopt (by simp [ChoosesComplete])
    | path p => simp only [AnyLibrary.contract, bind, Except.bind, hsh]; rw [hparse]; simp only; rw [hinfo]
    | finder f => simp only [AnyLibrary.contract, bind, Except.bind, hsh]; rw [hparse]; simp only; rw [hinfo]
  rw [hcon] at g1
  rw [g1] at key
  refine ⟨a, T, ?_, g2, g3⟩
  cases hr : (call W (uses W (Expr.new info.contractionList full.length constants) us) arrays (some b)).1 with
  | error e => rw [hr] at key; cases key
  | ok r =>
    rw [hr] at key
    cases key
    rfl

/-! ## Concrete cases -/

/-- Only `ValueError`. -/
def OnlyValue {α : Type} (x : Except PyErr α) : Prop := ∀ e, x = .error e → e = .value

theorem OnlyValue.bind {α β : Type} {x : Except PyErr α} {f : α → Except PyErr β} (hx : OnlyValue x) (hf : ∀ a, OnlyValue (f a)) : OnlyValue (x >>= f) := by
  intro e h
  cases x with
  | error e' => exact hx e (by cases h; rfl)
  | ok a => exact hf a e h

theorem OnlyValue.mapM {α β : Type} {f : α → Except PyErr β} (hf : ∀ a, OnlyValue (f a)) (l : List α) : OnlyValue (l.mapM f) := by
  induction l with
  | nil => intro e h; cases h
  | cons a l ih =>
    rw [List.mapM_cons]
    exact (hf a).bind (fun _ => ih.bind (fun _ => by intro e h; cases h))

theorem npEinsum_onlyValue {R : Type} [CommSemiring R] (eq : Str) (ops : List (Tensor R)) : OnlyValue (npEinsum eq ops) := by
  have hsub : ∀ l out ranks, OnlyValue (npSubscripts l out ranks) := by
    intro l out ranks
    unfold npSubscripts
    simp only
    split
    · intro e h; cases h; rfl
    · refine (OnlyValue.mapM (fun p => ?_) _).bind (fun ts => ?_)
      · unfold npTerm
        repeat' split
        all_goals intro e h; cases h
        all_goals rfl
      · unfold npOutput
        repeat' split
        all_goals intro e h; cases h
        all_goals rfl
  unfold npEinsum
  split
  · intro e h; cases h; rfl
  · have hcore : ∀ (terms : List Str) out, OnlyValue (einsumCore terms out ops) := by
      intro terms out
      unfold einsumCore
      simp only
      repeat' split
      all_goals intro e h; cases h
      all_goals rfl
    simp only
    split
    · exact (hsub _ _ _).bind (fun p => hcore _ _)
    · exact (hsub _ _ _).bind (fun p => hcore _ _)
    · intro e h; cases h; rfl

theorem numpyLibrary_noKey : NoKeyError (numpyLibrary : Library (Tensor Nat)) where
  einsum fn h eq ops kw he := by
    cases h
    exact absurd (npEinsum_onlyValue eq ops _ he) (by decide)
  tensordot a b axes he := by
    simp only [numpyLibrary, npTensordot] at he
    split at he <;> cases he
  transpose a axes he := by
    simp only [numpyLibrary, npTranspose] at he
    split at he <;> cases he

/-- A world in which all libraries compute what numpy does, each with arrays of its own; torch, cupy and tensorflow refuse foreign arrays and arrays on
different devices, jax also takes numpy arrays. -/
def demoWorld (device : Nat) : World (Tensor Nat) where
  lib _ := numpyLibrary
  hasTensordot _ := .ok true
  accepts b ps := if b = S "jax" then ps.all (fun p => p.module = S "numpy" ∨ p.module = S "jaxlib") else
    match ps with
    | [] => true
    | p :: _ => p.module = b ∧ ps.all (· = p)
  made b ps := if b = S "jax" then ⟨S "jaxlib", 0⟩ else ⟨b, (ps.headD ⟨b, 0⟩).device⟩
  interface m := m = S "numpy"
  device := device
  jax := S "jaxlib"
  shape := Tensor.shape

theorem demoWorld_conventional (d : Nat) : Conventional (demoWorld d) where
  numpy := by simp [demoWorld]
  others := by
    intro b hb _
    rcases mem_eager hb with rfl | rfl | rfl | rfl <;> simp [demoWorld] <;> decide
  jax := by
    change S "jaxlib" ≠ S "numpy"
    decide
  tensordot := rfl
  made := by
    intro b hb ps
    rcases mem_eager hb with rfl | rfl | rfl | rfl <;> rfl
  noKey _ := numpyLibrary_noKey

theorem demoWorld_closed (d : Nat) {b : Str} (hb : b ∈ eagerNames) : Closed (demoWorld d) b (· = home (demoWorld d) b) (home (demoWorld d) b) where
  mem := rfl
  accepts := by
    intro ps hne hp
    by_cases hj : b = S "jax"
    · subst hj
      simp only [demoWorld, if_true, List.all_eq_true, decide_eq_true_eq]
      intro p h
      rw [hp p h]
      exact Or.inr rfl
    · cases ps with
      | nil => exact absurd rfl hne
      | cons p ps =>
        simp only [demoWorld, if_neg hj, List.all_eq_true, decide_eq_true_eq]
        refine ⟨?_, fun x hx => by rw [hp x hx, hp p (by simp)]⟩
        rw [hp p (by simp)]
        simp only [home, classModule, if_neg hj]
  made := by
    intro ps hne hp
    by_cases hj : b = S "jax"
    · subst hj; rfl
    · cases ps with
      | nil => exact absurd rfl hne
      | cons p ps =>
        simp only [demoWorld, if_neg hj, List.headD_cons]
        rw [hp p (by simp)]
        simp only [home, classModule, if_neg hj]
        rfl

theorem demoWorld_strict (d : Nat) : Strict (demoWorld d) (S "torch") where
  same := by
    intro ps h p hp q hq
    cases ps with
    | nil => cases hp
    | cons x ps =>
      have h' : x.module = S "torch" ∧ (x :: ps).all (· = x) := by simpa [demoWorld, show S "torch" ≠ S "jax" by decide] using h
      have := h'.2
      rw [List.all_eq_true] at this
      have h1 := this p hp
      have h2 := this q hq
      simp only [decide_eq_true_eq] at h1 h2
      rw [h1, h2]
  stays := by
    intro ps h p hp
    cases ps with
    | nil => cases hp
    | cons x ps =>
      have h' : x.module = S "torch" ∧ (x :: ps).all (· = x) := by simpa [demoWorld, show S "torch" ≠ S "jax" by decide] using h
      have := h'.2
      rw [List.all_eq_true] at this
      have h1 := this p hp
      simp only [decide_eq_true_eq] at h1
      rw [h1]
      change (⟨S "torch", x.device⟩ : Place) = x
      rw [← h'.1]

def onTorch (d : Nat) (T : Tensor Nat) : Arr (Tensor Nat) := ⟨⟨S "torch", d⟩, T⟩

/-- The place and the number that a call returns. -/
def placedOutcome (r : Except PyErr (Arr (Tensor Nat))) : Option (Place × Nat) := r.toOption.map (fun a => (a.place, a.val.val []))

/-- Two vectors, the first of them a constant. -/
def demoDot (c : Arr (Tensor Nat)) : Eager.Expr (Tensor Nat) := Eager.Expr.new dotSteps 2 [(0, c)]

/-- Uses with several libraries, some of which raise. -/
def demoUses : List (Use (Tensor Nat)) :=
  [.evaluate (some (S "jax")), .call [numpyArray vecX] (some (S "jax")), .call [onTorch 0 vecX] none, .call [numpyArray vecX, numpyArray vecX] (some (S "cupy")),
    .call [numpyArray vecY] (some (S "tensorflow")), .evaluate (some (S "torch"))]

theorem demo_const {c a : Arr (Tensor Nat)} {k : Nat} (h : Dict.get? [(0, c)] k = some a) : a = c := by
  rcases k with _ | k <;> simp [Dict.get?] at h
  exact h.symm

example : (call (demoWorld 1) (uses (demoWorld 1) (demoDot (numpyArray vecX)) demoUses) [numpyArray vecY] (some (S "torch"))).1.toOption =
    (AnyLibrary.coreContract numpyLibrary false [] dotSteps [vecX, vecY]).toOption.map numpyArray :=
  C82_numpy_in_numpy_out (demoWorld_conventional 1) (path := [[0, 1]]) (by decide) (completePath_range (n := 2) (by decide)) (by decide) (by decide) demoUses
    (S "torch") (by decide) (demoWorld_closed 1 (by decide)) (by
      intro k a h
      left
      rw [demo_const h]
      rfl) [numpyArray vecY] [numpyArray vecX, numpyArray vecY] (by simp) (by simp [numpyArray])
    (.const _ _ _ _ (.var _ _ _ _ .nil))

/-- Which is eleven. -/
example : placedOutcome (call (demoWorld 1) (uses (demoWorld 1) (demoDot (numpyArray vecX)) demoUses) [numpyArray vecY] (some (S "torch"))).1 =
    some (⟨S "numpy", 0⟩, 11) := by decide +kernel

/-- Tensors on the device that was chosen stay there, and meet the constant. -/
example : (call (demoWorld 1) (uses (demoWorld 1) (demoDot (numpyArray vecX)) demoUses) [onTorch 1 vecY] none).1.toOption =
    (AnyLibrary.coreContract numpyLibrary false [] dotSteps [vecX, vecY]).toOption.map (onTorch 1) :=
  C82_own_arrays (constants := [(0, numpyArray vecX)]) (demoWorld_conventional 1) (path := [[0, 1]]) (by decide) (completePath_range (n := 2) (by decide)) (by decide) (by decide) demoUses
    [onTorch 1 vecY] [numpyArray vecX, onTorch 1 vecY] (by simp) (.const _ _ _ _ (.var _ _ _ _ .nil)) none (S "torch") (by decide +kernel) (by decide)
    (by simp [onTorch]; decide) (· = home (demoWorld 1) (S "torch")) _ (demoWorld_closed 1 (by decide))
    (by
      intro k a h
      rw [demo_const h]
      exact ⟨_, rfl, rfl⟩)
    (by simp [onTorch]; rfl)

example : placedOutcome (call (demoWorld 1) (demoDot (numpyArray vecX)) [onTorch 1 vecY] none).1 = some (⟨S "torch", 1⟩, 11) := by decide +kernel

/-- **Counterexample.** With a GPU, an expression whose constant is a numpy array does not take tensors on the CPU, though one without constants, or with the
constant given as a tensor on the CPU, does. -/
theorem C82_counterexample_device :
    errorOf (call (demoWorld 1) (demoDot (numpyArray vecX)) [onTorch 0 vecY] none).1 = some .type ∧
    placedOutcome (call (demoWorld 1) (demoDot (onTorch 0 vecX)) [onTorch 0 vecY] none).1 = some (⟨S "torch", 0⟩, 11) ∧
    placedOutcome (call (demoWorld 1) (Eager.Expr.new dotSteps 2 []) [onTorch 0 vecX, onTorch 0 vecY] none).1 = some (⟨S "torch", 0⟩, 11) ∧
    placedOutcome (call (demoWorld 1) (demoDot (numpyArray vecX)) [numpyArray vecY] (some (S "torch"))).1 = some (⟨S "numpy", 0⟩, 11) := by
  refine ⟨?_, ?_, ?_, ?_⟩ <;> decide +kernel

/-- The same for any history, from the theorem. -/
example (us : List (Use (Tensor Nat))) (r : Arr (Tensor Nat)) :
    (call (demoWorld 1) (uses (demoWorld 1) (demoDot (numpyArray vecX)) us) [onTorch 0 vecY] (some (S "torch"))).1 ≠ .ok r :=
  C82_other_device (constants := [(0, numpyArray vecX)]) (demoWorld_conventional 1) (path := [[0, 1]]) (by decide) (completePath_range (n := 2) (by decide)) (by decide) (by decide) us
    [onTorch 0 vecY] [numpyArray vecX, onTorch 0 vecY] (by simp) (.const _ _ _ _ (.var _ _ _ _ .nil)) (demoWorld_strict 1) 0 (numpyArray vecX) rfl rfl 0
    (by decide) (by simp [onTorch]) r

/-- The value is the Einstein sum. -/
example (us : List (Use (Tensor Nat))) (info : PathInfo) (hinfo : contractPath (splitOn cComma (S "ab,bc")) (S "ac") [[2, 2], [2, 2]] (.path [[0, 1]]) .none true = .ok info) :
    ∃ a T, (call (demoWorld 1) (uses (demoWorld 1) (Eager.Expr.new info.contractionList 2 [(1, numpyArray mat22)]) us) [numpyArray mat22] (some (S "jax"))).1 =
      .ok (numpyArray a) ∧ SameArray a T ∧ IsEinsum (fun _ => 2) (splitOn cComma (S "ab,bc")) (S "ac") [mat22, mat22] T :=
  C82_einsum (constants := [(1, numpyArray mat22)]) (demoWorld_conventional 1) (S "jax") (by decide) (demoWorld_closed 1 (by decide)) (C69_numpy_serves []) rfl (fun _ _ h => h.1) (fun _ => 2)
    (S "ab,bc->ac") [numpyArray mat22] [numpyArray mat22, numpyArray mat22] (by simp) (by decide) (by decide) (.var _ _ _ _ (.const _ _ _ _ .nil))
    (by simp [numpyArray]) [mat22, mat22] (.cons (SameArray.refl _) (.cons (SameArray.refl _) .nil)) (S "ab,bc") (S "ac") (by decide +kernel) (by decide)
    fit22 (by intro h; cases h) (by decide +kernel) (.path [[0, 1]]) .none trivial (completePath_range (n := 2) (by decide)) true info
    hinfo us

/-- In another case. -/
example (us : List (Use (Tensor Nat))) (r : Arr (Tensor Nat)) :
    (call (demoWorld 0) (uses (demoWorld 0) (Eager.Expr.new dotSteps 2 []) us) [numpyArray vecX, numpyArray vecY] (some (S "Torch"))).1 ≠ .ok r :=
  C82_letter_case us _ (S "Torch") (by decide) (by decide) (by simp [numpyArray]) r

example : errorOf (call (demoWorld 0) (Eager.Expr.new dotSteps 2 []) [numpyArray vecX, numpyArray vecY] (some (S "Torch"))).1 = some .key := by decide +kernel

end OE.Props
