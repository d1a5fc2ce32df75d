import Verif.Model.ExprThreads
import Verif.Props.Expression

/-!
# C60: one expression used by several threads
-/

namespace OE.Props
open OE OE.Py OE.Contract OE.Parser OE.Expression OE.Spec
variable {R : Type} [CommSemiring R]

/-! ## A use that runs alone -/

theorem evaluateConstants_local (L : Lib) (e : Expr R) (backend : Option Str) :
    evaluateConstants L e backend = match evaluateLocal L e backend with
      | .error er => (.error er, e)
      | .ok (b, ops, steps) => (.ok (), { e with evaluated := e.evaluated.set b ops, list := steps }) := by
  unfold evaluateConstants evaluateLocal
  cases parseBackend L ((constOps e).map inferBackend) backend with
  | error er => rfl
  | ok b =>
    simp only [bind, Except.bind]
    split
    · rfl
    · cases L.hasEinsum b with
      | error er => rfl
      | ok he =>
        simp only
        cases evalLoop (!he) e.fullList ((constOps e).map (Option.map Arr.tensor)) with
        | error er => rfl
        | ok r => cases r <;> rfl

theorem evaluateLocal_congr (L : Lib) {e e₀ : Expr R} (h1 : e.constants = e₀.constants) (h2 : e.fullNumArgs = e₀.fullNumArgs)
    (h3 : e.fullList = e₀.fullList) (backend : Option Str) : evaluateLocal L e backend = evaluateLocal L e₀ backend := by
  unfold evaluateLocal
  rw [constOps_congr h1 h2, h3]

/-- The steps of one use are those of `call` and `evaluate_constants`: without interference six of them give the same result and the same
expression. -/
theorem C60_alone (L : Lib) (e : Expr R) (u : Use R) :
    Threads.exec L [u] (Threads.begin e [u]) (List.replicate 6 0) = ⟨use L e u, [.done (match u with
      | .call arrays backend => (call L e arrays backend).1.map some
      | .evaluate backend => (evaluateConstants L e backend).1.map (fun _ => none))]⟩ := by
  cases u with
  | evaluate backend =>
    simp only [use, evaluateConstants_local]
    cases h : evaluateLocal L e backend with
    | error er => simp [Threads.exec, Threads.begin, List.replicate, Threads.step, stepUse, h, Except.map]
    | ok r => simp [Threads.exec, Threads.begin, List.replicate, Threads.step, stepUse, h, Except.map]
  | call arrays backend =>
    have hrun : ∀ (e' : Expr R) (b : Str) (t : List (Option (Tensor R))) (n : Nat),
        Threads.exec L [.call arrays backend] ⟨e', [toRun b arrays t]⟩ (List.replicate (n + 1) 0) =
          ⟨e', [.done ((do finish L e' b arrays (← fill t (arrays.map Arr.tensor))).map some)]⟩ := by
      intro e' b t n
      have hd : ∀ r n, Threads.exec L [.call arrays backend] ⟨e', [.done r]⟩ (List.replicate n 0) = ⟨e', [.done r]⟩ := by
        intro r n
        induction n with
        | zero => rfl
        | succ n ih => rw [List.replicate_succ]; exact ih
      unfold toRun
      cases fill t (arrays.map Arr.tensor) with
      | error er => exact hd _ _
      | ok ops =>
        rw [List.replicate_succ]
        exact hd _ n
    simp only [use]
    unfold call
    cases hp : parseBackend L (arrays.map Arr.module) backend with
    | error er => simp [Threads.exec, Threads.begin, List.replicate, Threads.step, stepUse, hp, Except.map]
    | ok b =>
      simp only
      split
      · rename_i h; simp [Threads.exec, Threads.begin, List.replicate, Threads.step, stepUse, hp, h, Except.map]
      · rename_i h
        split
        · rename_i h0
          simp [Threads.exec, Threads.begin, List.replicate, Threads.step, stepUse, hp, h, h0]
        · rename_i h0
          cases hg : e.evaluated.get? b with
          | some t =>
            have := hrun e b t 4
            rw [show (6 : Nat) = 5 + 1 from rfl, List.replicate_succ]
            simp only [Threads.exec, List.foldl_cons] at this ⊢
            rw [show Threads.step L [Use.call arrays backend] (Threads.begin e [Use.call arrays backend]) 0 = ⟨e, [toRun b arrays t]⟩ by
              simp [Threads.begin, Threads.step, stepUse, hp, h, h0, hg]]
            exact this
          | none =>
            simp only
            rw [evaluateConstants_local]
            cases hl : evaluateLocal L e (some b) with
            | error er => simp [Threads.exec, Threads.begin, List.replicate, Threads.step, stepUse, hp, h, h0, hg, hl, Except.map]
            | ok r =>
              obtain ⟨b', ops, steps⟩ := r
              simp only
              cases hg' : (e.evaluated.set b' ops).get? b with
              | none => simp [Threads.exec, Threads.begin, List.replicate, Threads.step, stepUse, hp, h, h0, hg, hl, hg', Except.map]
              | some t =>
                have := hrun { e with evaluated := e.evaluated.set b' ops, list := steps } b t 0
                simp only [Threads.exec, List.replicate, List.foldl_cons, List.foldl_nil] at this ⊢
                rw [← this]
                simp [Threads.begin, Threads.step, stepUse, hp, h, h0, hg, hl, hg']

/-! ## Interleaving -/

/-- The list of remaining steps is the one that evaluating the constants leaves, whatever the library. -/
def ListSettled (e₀ e : Expr R) : Prop :=
  ∀ x t st, evalLoop (!x) e₀.fullList (constTensors e₀) = .ok (some (t, st)) → e.list = st

theorem settled_of {L : Lib} {subs : Str} {items : List (Item R)} {opt : Optimize} {mem : MemLimit} {ub : Bool} {e₀ e : Expr R}
    {shapes : List Shape} {inp out : Str} {info : PathInfo} (hb : Built subs items opt mem ub e₀ shapes inp out info)
    (hc : CompletePath items.length info.path) (h : ExprInv L e₀ e) (hs : e.evaluated ≠ [] ∨ e₀.constants = []) : ListSettled e₀ e := by
  intro x t st hl
  cases hev : e.evaluated with
  | cons q qs =>
    obtain ⟨b', t'⟩ := q
    obtain ⟨x', _, hl'⟩ := h.entries b' t' (by rw [hev]; simp [Dict.get?])
    exact evalLoop_same_rest rfl hl' hl
  | nil =>
    rcases hs with hs | hs
    · exact absurd hev hs
    · have hlen : (constTensors e₀).length = items.length := by simp [constTensors, hb.consts, slots]
      have hall := hb.none_iff.mp hs
      rw [evalLoop_all_none (!x) (by rw [hb.full]; exact contractPath_inds hb.path) (by rw [hlen]; exact hc) (by
        intro o ho
        unfold constTensors at ho
        rw [hb.consts] at ho
        obtain ⟨o', ho', rfl⟩ := List.mem_map.mp ho
        rw [hall o' ho']; rfl)] at hl
      simp only [Except.ok.injEq, Option.some.injEq, Prod.mk.injEq] at hl
      rw [h.fresh hev, hl.2]

/-- What the evaluation of constants yields. -/
def EvalOf (L : Lib) (e₀ : Expr R) (b : Str) (t : List (Option (Tensor R))) (st : List Step) : Prop :=
  ∃ he, L.hasEinsum b = .ok he ∧ evalLoop (!he) e₀.fullList (constTensors e₀) = .ok (some (t, st))

theorem evaluateLocal_ok {L : Lib} {e : Expr R} {backend : Option Str} {b : Str} {t : List (Option (Tensor R))} {st : List Step}
    (h : evaluateLocal L e backend = .ok (b, t, st)) :
    parseBackend L ((constOps e).map inferBackend) backend = .ok b ∧ EvalOf L e b t st := by
  unfold evaluateLocal at h
  cases hp : parseBackend L ((constOps e).map inferBackend) backend with
  | error er => rw [hp] at h; cases h
  | ok b' =>
    rw [hp] at h
    simp only [bind, Except.bind] at h
    split at h
    · cases h
    · cases he : L.hasEinsum b' with
      | error er => rw [he] at h; cases h
      | ok x =>
        rw [he] at h
        simp only at h
        cases hl : evalLoop (!x) e.fullList ((constOps e).map (Option.map Arr.tensor)) with
        | error er => rw [hl] at h; cases h
        | ok r =>
          rw [hl] at h
          cases r with
          | none => cases h
          | some r =>
            cases h
            exact ⟨rfl, x, he, hl⟩

theorem evalOf_unique {L : Lib} {e₀ : Expr R} {b : Str} {t t' : List (Option (Tensor R))} {st st' : List Step} (h : EvalOf L e₀ b t st)
    (h' : EvalOf L e₀ b t' st') : t = t' ∧ st = st' := by
  obtain ⟨x, h1, h2⟩ := h
  obtain ⟨x', h1', h2'⟩ := h'
  rw [h1] at h1'
  cases h1'
  rw [h2] at h2'
  cases h2'
  exact ⟨rfl, rfl⟩

/-- What holds of every use at every moment. -/
def PcInv (L : Lib) (e₀ : Expr R) : Pc R → Prop
  | .storeOps b t st => EvalOf L e₀ b t st
  | .storeList st => ∃ b t, EvalOf L e₀ b t st
  | _ => True

/-- What holds of one call that resolves to `b` and should do `expected`. -/
def CallInv (L : Lib) (e : Expr R) (b : Str) (arrays : List (Arr R)) (expected : Except PyErr (Tensor R)) : Pc R → Prop
  | .start => True
  | .evaluate backend => backend = some b ∧ e.constants ≠ []
  | .storeOps b' _ _ => b' = b ∧ e.constants ≠ []
  | .storeList _ => e.evaluated.get? b ≠ none ∧ e.constants ≠ []
  | .reread => e.evaluated.get? b ≠ none ∧ e.constants ≠ []
  | .run b' ops => b' = b ∧ finish L e b arrays ops = expected
  | .done r => r = expected.map some

/-- The attributes other than the table of evaluated constants stay as they are. -/
theorem stepUse_expr {L : Lib} {e₀ e : Expr R} (h : ExprInv L e₀ e) (hs : ListSettled e₀ e) {u : Use R} {pc : Pc R} (hpc : PcInv L e₀ pc) :
    ((stepUse L e u pc).1 = e ∨ ∃ b t st, EvalOf L e₀ b t st ∧ (stepUse L e u pc).1 = { e with evaluated := e.evaluated.set b t }) ∧
      ExprInv L e₀ (stepUse L e u pc).1 ∧ ListSettled e₀ (stepUse L e u pc).1 ∧ PcInv L e₀ (stepUse L e u pc).2 := by
  have hrun : ∀ b arrays t, PcInv L e₀ (toRun (R := R) b arrays t) := by
    intro b arrays t; unfold toRun; split <;> trivial
  have same : ∀ pc', PcInv L e₀ pc' → ((e, pc').1 = e ∨ ∃ b t st, EvalOf L e₀ b t st ∧ (e, pc').1 = { e with evaluated := e.evaluated.set b t }) ∧
      ExprInv L e₀ (e, pc').1 ∧ ListSettled e₀ (e, pc').1 ∧ PcInv L e₀ (e, pc').2 := fun pc' hp => ⟨Or.inl rfl, h, hs, hp⟩
  cases pc with
  | start =>
    simp only [stepUse]
    cases u with
    | evaluate backend => exact same _ trivial
    | call arrays backend =>
      simp only
      split
      · exact same _ trivial
      · split
        · exact same _ trivial
        · split
          · exact same _ trivial
          · split
            · exact same _ (hrun _ _ _)
            · exact same _ trivial
  | evaluate backend =>
    simp only [stepUse]
    split
    · exact same _ trivial
    · rename_i b t st heq
      rw [evaluateLocal_congr L h.constants h.fullNumArgs h.full] at heq
      exact same _ (evaluateLocal_ok heq).2
  | storeOps b t st =>
    have hev : EvalOf L e₀ b t st := hpc
    obtain ⟨x, hx, hl⟩ := hev
    have hst : e.list = st := hs x t st hl
    refine ⟨Or.inr ⟨b, t, st, hpc, rfl⟩, ⟨h.full, h.constants, h.fullNumArgs, h.numArgs, ?_, ?_⟩, hs, ⟨b, t, hpc⟩⟩
    · intro b' t' hg
      simp only [stepUse] at hg ⊢
      by_cases hbb : b' = b
      · subst hbb
        rw [Dict.get?_set_self] at hg
        cases hg
        exact ⟨x, hx, by rw [hl, hst]⟩
      · rw [OE.Py.Dict.get?_set_ne hbb] at hg
        exact h.entries b' t' hg
    · intro hnil
      have := Dict.get?_set_self e.evaluated b t
      simp only [stepUse] at hnil
      rw [hnil] at this
      cases this
  | storeList st =>
    obtain ⟨b, t, x, hx, hl⟩ := hpc
    have hst : e.list = st := hs x t st hl
    have heq : ({ e with list := st } : Expr R) = e := by rw [← hst]
    simp only [stepUse]
    rw [heq]
    cases u <;> exact same _ trivial
  | reread =>
    simp only [stepUse]
    cases u with
    | evaluate backend => exact same _ trivial
    | call arrays backend =>
      simp only
      split
      · exact same _ trivial
      · split
        · exact same _ trivial
        · exact same _ (hrun _ _ _)
  | run b ops =>
    simp only [stepUse]
    cases u <;> exact same _ trivial
  | done r => exact same _ trivial

/-- A step of another use does not disturb a call. -/
theorem callInv_other {L : Lib} {e₀ e e' : Expr R} (h : ExprInv L e₀ e) {b : Str} {arrays : List (Arr R)} {expected : Except PyErr (Tensor R)} {pc : Pc R}
    (hc : CallInv L e b arrays expected pc)
    (he : e' = e ∨ ∃ b t st, EvalOf L e₀ b t st ∧ e' = { e with evaluated := e.evaluated.set b t }) : CallInv L e' b arrays expected pc := by
  rcases he with rfl | ⟨b', t, st, _, rfl⟩
  · exact hc
  · have hpres : e.evaluated.get? b ≠ none → (e.evaluated.set b' t).get? b ≠ none := by
      intro hne
      by_cases hbb : b = b'
      · subst hbb; rw [Dict.get?_set_self]; simp
      · rw [OE.Py.Dict.get?_set_ne hbb]; exact hne
    cases pc with
    | storeList _ => exact ⟨hpres hc.1, hc.2⟩
    | reread => exact ⟨hpres hc.1, hc.2⟩
    | _ => exact hc

section
variable {L : Lib} {subs : Str} {items : List (Item R)} {opt : Optimize} {mem : MemLimit} {ub : Bool} {e₀ e : Expr R}
  {shapes : List Shape} {inp out : Str} {info : PathInfo}

/-- A step of the call itself. -/
theorem callInv_self (hb : Built subs items opt mem ub e₀ shapes inp out info) (hcp : CompletePath items.length info.path) (h : ExprInv L e₀ e)
    {arrays ops : List (Arr R)} (hm : Merge (slots items) arrays ops) (hv : arrays ≠ []) {backend : Option Str} {b : Str}
    (hp : parseBackend L (arrays.map Arr.module) backend = .ok b) (hauto : b ≠ S "auto")
    (hname : hasBackend b = true → b ∉ convertBackends → ∃ a ∈ arrays, a.module ≠ S "numpy") {expected : Except PyErr (Tensor R)}
    (hex : expected = (do let he ← L.hasEinsum b; coreContract (!he) info.contractionList (ops.map Arr.tensor))) {pc : Pc R} (hpc : PcInv L e₀ pc)
    (hc : CallInv L e b arrays expected pc) :
    CallInv L (stepUse L e (.call arrays backend) pc).1 b arrays expected (stepUse L e (.call arrays backend) pc).2 := by
  have key : ∀ e', ExprInv L e₀ e' → (call L e' arrays backend).1 = expected := by
    intro e' h'; rw [hex]; exact call_merged L hb hcp h' hm hv hp hauto hname
  have hn : ¬ arrays.length ≠ e₀.numArgs := by rw [hb.numArgs, (merge_count hm).1]; simp
  have hrun : ∀ t, e.constants ≠ [] → e.evaluated.get? b = some t → CallInv L e b arrays expected (toRun b arrays t) := by
    intro t h0 ht
    have := key e h
    unfold call at this
    rw [hp] at this
    simp only at this
    rw [if_neg (by rw [h.numArgs]; exact hn), if_neg h0, ht] at this
    simp only [bind, Except.bind] at this
    unfold toRun
    cases hf : fill t (arrays.map Arr.tensor) with
    | error er => rw [hf] at this; simp only [CallInv]; rw [← this]; rfl
    | ok o => rw [hf] at this; exact ⟨rfl, this⟩
  cases pc with
  | start =>
    simp only [stepUse, hp]
    rw [if_neg (by rw [h.numArgs]; exact hn)]
    split
    · rename_i h0
      refine ⟨rfl, ?_⟩
      have := key e h
      unfold call at this
      rw [hp] at this
      simp only at this
      rw [if_neg (by rw [h.numArgs]; exact hn), if_pos h0] at this
      exact this
    · rename_i h0
      split
      · rename_i t ht
        exact hrun t h0 ht
      · exact ⟨rfl, h0⟩
  | evaluate backend' =>
    obtain ⟨rfl, h0⟩ := hc
    simp only [stepUse]
    split
    · rename_i er heq
      simp only [CallInv]
      have := key e₀ (built_inv L hb)
      unfold call at this
      rw [hp] at this
      simp only at this
      rw [if_neg hn, if_neg (by rw [← h.constants]; exact h0), hb.evaluated] at this
      simp only [Dict.get?] at this
      rw [evaluateConstants_local, ← evaluateLocal_congr L h.constants h.fullNumArgs h.full, heq] at this
      simp only at this
      rw [← this]
      rfl
    · rename_i b' t st heq
      have := (evaluateLocal_ok heq).1
      rw [show parseBackend L ((constOps e).map inferBackend) (some b) = .ok b by simp [parseBackend, hauto]] at this
      cases this
      exact ⟨rfl, h0⟩
  | storeOps b' t st =>
    obtain ⟨rfl, h0⟩ := hc
    refine ⟨?_, h0⟩
    simp only [stepUse]
    rw [Dict.get?_set_self]
    simp
  | storeList st => exact hc
  | reread =>
    obtain ⟨hc1, hc2⟩ := hc
    simp only [stepUse, hp]
    split
    · rename_i hg; exact absurd hg hc1
    · rename_i t ht
      exact hrun t hc2 ht
  | run b' o =>
    obtain ⟨rfl, hf⟩ := hc
    simp only [stepUse, CallInv]
    rw [hf]
  | done r => exact hc

/-- What holds at every moment. -/
structure ThreadsInv (L : Lib) (e₀ : Expr R) (jobs : List (Use R)) (i : Nat) (b : Str) (arrays : List (Arr R)) (expected : Except PyErr (Tensor R))
    (w : Threads R) : Prop where
  inv : ExprInv L e₀ w.expr
  settled : ListSettled e₀ w.expr
  len : w.pcs.length = jobs.length
  all : ∀ pc ∈ w.pcs, PcInv L e₀ pc
  one : ∀ pc, w.pcs[i]? = some pc → CallInv L w.expr b arrays expected pc

theorem threadsInv_step (hb : Built subs items opt mem ub e₀ shapes inp out info) (hcp : CompletePath items.length info.path)
    {arrays ops : List (Arr R)} (hm : Merge (slots items) arrays ops) (hv : arrays ≠ []) {backend : Option Str} {b : Str}
    (hp : parseBackend L (arrays.map Arr.module) backend = .ok b) (hauto : b ≠ S "auto")
    (hname : hasBackend b = true → b ∉ convertBackends → ∃ a ∈ arrays, a.module ≠ S "numpy") {expected : Except PyErr (Tensor R)}
    (hex : expected = (do let he ← L.hasEinsum b; coreContract (!he) info.contractionList (ops.map Arr.tensor)))
    {jobs : List (Use R)} {i : Nat} (hjob : jobs[i]? = some (.call arrays backend)) {w : Threads R}
    (hw : ThreadsInv L e₀ jobs i b arrays expected w) (j : Nat) : ThreadsInv L e₀ jobs i b arrays expected (w.step L jobs j) := by
  unfold Threads.step
  split
  · rename_i u pc hu hpcj
    have hpc := hw.all pc (List.mem_of_getElem? hpcj)
    obtain ⟨h1, h2, h3, h4⟩ := stepUse_expr (u := u) hw.inv hw.settled hpc
    refine ⟨h2, h3, by simp [hw.len], ?_, ?_⟩
    · intro pc' hpc'
      rcases List.mem_or_eq_of_mem_set hpc' with h | h
      · exact hw.all pc' h
      · rw [h]; exact h4
    · intro pc' hpc'
      by_cases hij : j = i
      · subst hij
        rw [hjob] at hu
        cases hu
        simp only at hpc'
        rw [List.getElem?_set_self (by
          rw [hw.len]; exact (List.getElem?_eq_some_iff.mp hjob).1)] at hpc'
        cases hpc'
        exact callInv_self hb hcp hw.inv hm hv hp hauto hname hex hpc (hw.one pc hpcj)
      · simp only at hpc'
        rw [List.getElem?_set_ne hij] at hpc'
        exact callInv_other hw.inv (hw.one pc' hpc') h1
  · exact hw

end

/-- **C60.** Uses of one expression in any number of threads, interleaved in any way, after a history of uses in which the constants were
evaluated once with any backend (or when there are none): every call that ends has done what `contract` does with the constants and its
arrays, as in C39. -/
theorem C60_threads_partial (L : Lib) (subs : Str) (items : List (Item R)) (constants : List Nat) (opt : Optimize)
    (mem : MemLimit) (ub : Bool) (e : Expr R) (hbuild : contractExpression subs items constants opt mem ub = .ok e)
    (us : List (Use R)) (hset : (uses L e us).evaluated ≠ [] ∨ e.constants = [])
    (jobs : List (Use R)) (schedule : List Nat) (i : Nat) (arrays ops : List (Arr R)) (backend : Option Str)
    (hjob : jobs[i]? = some (.call arrays backend)) (hm : Merge (slots items) arrays ops) (hs : ShapesAsBuilt items ops) (hv : arrays ≠ [])
    (hc : BuiltComplete subs items ops opt mem ub) (b : Str)
    (hp : parseBackend L (arrays.map Arr.module) backend = .ok b) (hauto : b ≠ S "auto")
    (hname : hasBackend b = true → b ∉ convertBackends → ∃ a ∈ arrays, a.module ≠ S "numpy") (r : Except PyErr (Option (Tensor R)))
    (hdone : ((Threads.begin (uses L e us) jobs).exec L jobs schedule).pcs[i]? = some (.done r)) :
    r = (contractWith L subs ops opt mem ub (some b)).map some := by
  have h39 := C39_expression_equals_contract L subs items constants opt mem ub e hbuild arrays ops hm hs hv hc us backend b hp hauto hname
  obtain ⟨shapes, inp, out, info, hb⟩ := contractExpression_inv hbuild
  have hsh := shapes_of_merge hb hm hs
  have hpath := hc inp out info (by rw [hsh]; exact hb.parse) (by rw [hsh]; exact hb.path)
  have hinv := uses_inv L (built_inv L hb) us
  have hex := call_merged L hb hpath hinv hm hv hp hauto hname
  rw [h39] at hex
  have h0 : ThreadsInv L e jobs i b arrays (contractWith L subs ops opt mem ub (some b)) (Threads.begin (uses L e us) jobs) := by
    refine ⟨hinv, settled_of hb hpath hinv hset, by simp [Threads.begin], ?_, ?_⟩
    · intro pc hpc
      simp only [Threads.begin, List.mem_map] at hpc
      obtain ⟨_, _, rfl⟩ := hpc
      trivial
    · intro pc hpc
      simp only [Threads.begin, List.getElem?_map, Option.map_eq_some_iff] at hpc
      obtain ⟨_, _, rfl⟩ := hpc
      trivial
  have hfin : ∀ (sch : List Nat) (w : Threads R), ThreadsInv L e jobs i b arrays (contractWith L subs ops opt mem ub (some b)) w →
      ThreadsInv L e jobs i b arrays (contractWith L subs ops opt mem ub (some b)) (w.exec L jobs sch) := by
    intro sch
    induction sch with
    | nil => intro w hw; exact hw
    | cons j sch ih => intro w hw; exact ih _ (threadsInv_step hb hpath hm hv hp hauto hname hex hjob hw j)
  exact (hfin schedule _ h0).one _ hdone

/-! ## Concrete cases -/

-- C60: 'ab,bc,cd->ad' with constants 0 and 1, evaluated for numpy beforehand; two calls (one for torch, whose constants are not evaluated
-- yet) and an evaluation, interleaved step by step
example : ∃ e, contractExpression (S "ab,bc,cd->ad") demoItems [0, 1] (.path [[0, 1], [0, 1]]) .none true = .ok e ∧
    (uses demoLib e [.evaluate (some (S "numpy"))]).evaluated.keys = [S "numpy"] ∧
    ((Threads.begin (uses demoLib e [.evaluate (some (S "numpy"))]) [.call [demoC] none, .call [demoC] (some (S "torch")), .evaluate (some (S "torch"))]).exec
      demoLib [.call [demoC] none, .call [demoC] (some (S "torch")), .evaluate (some (S "torch"))] [0, 1, 2, 1, 2, 1, 0, 2, 1, 2, 1, 1]).pcs.map (fun pc =>
        match pc with
        | .done (.ok (some T)) => some (some (T.shape, T.val [1, 0]))
        | .done (.ok none) => some none
        | _ => none) = [some (some ([2, 3], 14)), some (some ([2, 3], 14)), some none] := by
  refine ⟨_, rfl, ?_, ?_⟩ <;> decide +kernel

/-- What C60 leaves out: the first evaluation of the constants stores the operands before the list of remaining steps. A call of another
thread in between takes the reduced operands with the full list, and fails although `contract` returns. -/
theorem C60_first_evaluation_race :
    ∃ e, contractExpression (S "ab,bc,cd->ad") demoItems [0, 1] (.path [[0, 1], [0, 1]]) .none true = .ok e ∧
      ((Threads.begin e [.call [demoC] none, .call [demoC] none]).exec demoLib [.call [demoC] none, .call [demoC] none]
        [0, 0, 0, 1, 1, 0, 0, 0]).pcs.map (fun pc => match pc with
          | .done r => some (r.map (fun _ => ()))
          | _ => none) = [some (.ok ()), some (.error .value)] ∧
      ((contractWith demoLib (S "ab,bc,cd->ad") [demoA, demoB, demoC] (.path [[0, 1], [0, 1]]) .none true (some (S "numpy"))).map (fun _ => ())) =
        .ok () := by
  refine ⟨_, rfl, ?_, ?_⟩ <;> decide +kernel

end OE.Props
