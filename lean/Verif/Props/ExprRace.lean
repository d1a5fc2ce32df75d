import Verif.Props.ExprThreads

/-!
# C60: what a race for the first evaluation of constants can do
-/

namespace OE.Props
open OE OE.Py OE.Contract OE.Parser OE.Expression OE.Spec
variable {R : Type} [CommSemiring R]

/-! ## Counting operands -/

theorem coreLoop_count {noE : Bool} {steps : List Step} {ops r : List (Tensor R)} (h : coreLoop noE steps ops = .ok r) :
    r.length + (steps.map (fun s => s.inds.length)).sum = ops.length + steps.length := by
  induction steps generalizing ops with
  | nil => cases h; simp
  | cons s ss ih =>
    rw [coreLoop] at h
    simp only [bind, Except.bind] at h
    cases hp : popAll s.inds ops with
    | error er => rw [hp] at h; cases h
    | ok p =>
      obtain ⟨tmp, rest⟩ := p
      rw [hp] at h
      simp only at h
      cases hr : stepResult noE s tmp with
      | error er => rw [hr] at h; cases h
      | ok v =>
        rw [hr] at h
        have h1 := ih h
        have h2 := popAll_length hp
        simp only [List.length_append, List.length_cons, List.length_nil, List.map_cons, List.sum_cons] at h1 ⊢
        omega

theorem completePath_count {n : Nat} {path : List (List Nat)} (h : CompletePath n path) : 1 + (path.map List.length).sum = n + path.length := by
  induction path generalizing n with
  | nil => exact absurd h (by simp [CompletePath])
  | cons p ps ih =>
    cases ps with
    | nil =>
      have : p.length = n := h.2
      simp [this]; omega
    | cons q qs =>
      have h1 := ih h.2
      have h2 : p.length ≤ n := by
        have hv := h.1
        have := hv.2.1.length_le_of_subset (l₂ := List.range n) (fun x hx => List.mem_range.mpr (hv.2.2 x hx))
        simpa using this
      simp only [List.map_cons, List.sum_cons, List.length_cons] at h1 ⊢
      omega

/-- With too few operands a complete path cannot be run to its end. -/
theorem too_few_raise {noE : Bool} {steps : List Step} {path : List (List Nat)} (hi : steps.map Step.inds = path.map sortedDesc) {n : Nat}
    (hc : CompletePath n path) {ops : List (Tensor R)} (hlt : ops.length < n) : ∃ er, coreContract noE steps ops = .error er := by
  unfold coreContract
  cases h : coreLoop noE steps ops with
  | error er => exact ⟨er, rfl⟩
  | ok r =>
    have h1 := coreLoop_count h
    have h2 := completePath_count hc
    have h3 : steps.length = path.length := by simpa using congrArg List.length hi
    have h4 : (steps.map (fun s => s.inds.length)).sum = (path.map List.length).sum := by
      have h5 : steps.map (fun s => s.inds.length) = (steps.map Step.inds).map List.length := by simp [List.map_map, Function.comp_def]
      rw [h5, hi, List.map_map]
      congr 1
      exact List.map_congr_left (fun p _ => sortedDesc_length p)
    have : r = [] := by
      rw [← List.length_eq_zero_iff]
      omega
    subst this
    exact ⟨.index, rfl⟩

/-- The steps that the evaluation of constants has done, and how many operands it leaves. -/
theorem evalLoop_count {noE : Bool} {steps : List Step} {ops t : List (Option (Tensor R))} {st : List Step}
    (h : evalLoop noE steps ops = .ok (some (t, st))) :
    ∃ pre, steps = pre ++ st ∧ st ≠ [] ∧ t.length + (pre.map (fun s => s.inds.length)).sum = ops.length + pre.length := by
  induction steps generalizing ops with
  | nil => cases h
  | cons s ss ih =>
    rw [evalLoop] at h
    simp only [bind, Except.bind] at h
    cases ha : anyNone ops s.inds with
    | error er => rw [ha] at h; cases h
    | ok x =>
      rw [ha] at h
      simp only at h
      cases x with
      | true =>
        simp only [if_true] at h
        cases h
        exact ⟨[], rfl, by simp, by simp⟩
      | false =>
        simp only [Bool.false_eq_true, if_false] at h
        cases hp : popAll s.inds ops with
        | error er => rw [hp] at h; cases h
        | ok p =>
          obtain ⟨tmp, rest⟩ := p
          rw [hp] at h
          simp only at h
          cases hpr : present tmp with
          | error er => rw [hpr] at h; cases h
          | ok tmp' =>
            rw [hpr] at h
            simp only at h
            cases hr : stepResult noE s tmp' with
            | error er => rw [hr] at h; cases h
            | ok v =>
              rw [hr] at h
              obtain ⟨pre, g1, g2, g3⟩ := ih h
              have h2 := popAll_length hp
              refine ⟨s :: pre, by rw [g1]; rfl, g2, ?_⟩
              simp only [List.length_append, List.length_cons, List.length_nil, List.map_cons, List.sum_cons] at g3 ⊢
              omega

theorem sum_ge_two {pre : List Step} (h : ∀ s ∈ pre, 2 ≤ s.inds.length) : 2 * pre.length ≤ (pre.map (fun s => s.inds.length)).sum := by
  induction pre with
  | nil => simp
  | cons s ss ih =>
    have h1 := ih (fun x hx => h x (by simp [hx]))
    have h2 := h s (by simp)
    simp only [List.length_cons, List.map_cons, List.sum_cons]
    omega

/-! ## Interleaving -/

/-- What holds of the expression at every moment, also during a race. -/
structure RaceInv (L : Lib) (e₀ e : Expr R) : Prop where
  full : e.fullList = e₀.fullList
  constants : e.constants = e₀.constants
  fullNumArgs : e.fullNumArgs = e₀.fullNumArgs
  numArgs : e.numArgs = e₀.numArgs
  entries : ∀ b t, e.evaluated.get? b = some t → ∃ st, EvalOf L e₀ b t st
  list : e.list = e₀.fullList ∨ ∃ b t, EvalOf L e₀ b t e.list

theorem raceInv_of {L : Lib} {e₀ e : Expr R} (h : ExprInv L e₀ e) : RaceInv L e₀ e := by
  refine ⟨h.full, h.constants, h.fullNumArgs, h.numArgs, fun b t hg => ?_, ?_⟩
  · obtain ⟨he, h1, h2⟩ := h.entries b t hg
    exact ⟨e.list, he, h1, h2⟩
  · cases hev : e.evaluated with
    | nil => exact Or.inl (h.fresh hev)
    | cons q qs =>
      obtain ⟨b, t⟩ := q
      obtain ⟨he, h1, h2⟩ := h.entries b t (by rw [hev]; simp [Dict.get?])
      exact Or.inr ⟨b, t, he, h1, h2⟩

/-- What holds of one call that resolves to `b` and should do `expected`. -/
def RaceCall (L : Lib) (e₀ : Expr R) (b : Str) (arrays : List (Arr R)) (expected : Except PyErr (Tensor R)) : Pc R → Prop
  | .run b' ops => b' = b ∧ ((e₀.constants = [] ∧ ops = arrays.map Arr.tensor) ∨
      e₀.constants ≠ [] ∧ ∃ t st, EvalOf L e₀ b t st ∧ fill t (arrays.map Arr.tensor) = .ok ops)
  | .done r => r = expected.map some ∨ ∃ er, r = .error er
  | _ => True

theorem race_expr {L : Lib} {e₀ e : Expr R} (h : RaceInv L e₀ e) {u : Use R} {pc : Pc R} (hpc : PcInv L e₀ pc) :
    RaceInv L e₀ (stepUse L e u pc).1 ∧ PcInv L e₀ (stepUse L e u pc).2 := by
  have hrun : ∀ b arrays t, PcInv L e₀ (toRun (R := R) b arrays t) := by
    intro b arrays t; unfold toRun; split <;> trivial
  cases pc with
  | start =>
    simp only [stepUse]
    cases u with
    | evaluate backend => exact ⟨h, trivial⟩
    | call arrays backend =>
      simp only
      split
      · exact ⟨h, trivial⟩
      · split
        · exact ⟨h, trivial⟩
        · split
          · exact ⟨h, trivial⟩
          · split
            · exact ⟨h, hrun _ _ _⟩
            · exact ⟨h, trivial⟩
  | evaluate backend =>
    simp only [stepUse]
    split
    · exact ⟨h, trivial⟩
    · rename_i b t st heq
      rw [evaluateLocal_congr L h.constants h.fullNumArgs h.full] at heq
      exact ⟨h, (evaluateLocal_ok heq).2⟩
  | storeOps b t st =>
    refine ⟨⟨h.full, h.constants, h.fullNumArgs, h.numArgs, ?_, h.list⟩, ⟨b, t, hpc⟩⟩
    intro b' t' hg
    simp only [stepUse] at hg
    by_cases hbb : b' = b
    · subst hbb
      rw [Dict.get?_set_self] at hg
      cases hg
      exact ⟨st, hpc⟩
    · rw [OE.Py.Dict.get?_set_ne hbb] at hg
      exact h.entries b' t' hg
  | storeList st =>
    obtain ⟨b, t, hev⟩ := hpc
    refine ⟨⟨h.full, h.constants, h.fullNumArgs, h.numArgs, h.entries, Or.inr ⟨b, t, hev⟩⟩, ?_⟩
    cases u <;> trivial
  | reread =>
    simp only [stepUse]
    cases u with
    | evaluate backend => exact ⟨h, trivial⟩
    | call arrays backend =>
      simp only
      split
      · exact ⟨h, trivial⟩
      · split
        · exact ⟨h, trivial⟩
        · exact ⟨h, hrun _ _ _⟩
  | run b ops =>
    simp only [stepUse]
    cases u <;> exact ⟨h, trivial⟩
  | done r => exact ⟨h, trivial⟩

section
variable {L : Lib} {subs : Str} {items : List (Item R)} {opt : Optimize} {mem : MemLimit} {ub : Bool} {e₀ e : Expr R}
  {shapes : List Shape} {inp out : Str} {info : PathInfo}

theorem race_self (hb : Built subs items opt mem ub e₀ shapes inp out info) (hcp : CompletePath items.length info.path)
    (htwo : ∀ p ∈ info.path.dropLast, 2 ≤ p.length) (h : RaceInv L e₀ e)
    {arrays ops : List (Arr R)} (hm : Merge (slots items) arrays ops) (hv : arrays ≠ []) {backend : Option Str} {b : Str}
    (hp : parseBackend L (arrays.map Arr.module) backend = .ok b) (hauto : b ≠ S "auto")
    (hname : hasBackend b = true → b ∉ convertBackends → ∃ a ∈ arrays, a.module ≠ S "numpy") {expected : Except PyErr (Tensor R)}
    (hex : expected = (do let he ← L.hasEinsum b; coreContract (!he) info.contractionList (ops.map Arr.tensor))) {pc : Pc R}
    (hc : RaceCall L e₀ b arrays expected pc) :
    RaceCall L e₀ b arrays expected (stepUse L e (.call arrays backend) pc).2 := by
  have key : ∀ e', ExprInv L e₀ e' → (call L e' arrays backend).1 = expected := by
    intro e' h'; rw [hex]; exact call_merged L hb hcp h' hm hv hp hauto hname
  have hn : ¬ arrays.length ≠ e₀.numArgs := by rw [hb.numArgs, (merge_count hm).1]; simp
  have hinds := contractPath_inds hb.path
  have hlen : (constTensors e₀).length = items.length := by simp [constTensors, hb.consts, slots]
  have hrun : ∀ t, e₀.constants ≠ [] → e.evaluated.get? b = some t → RaceCall L e₀ b arrays expected (toRun b arrays t) := by
    intro t h0 ht
    obtain ⟨st, hev⟩ := h.entries b t ht
    unfold toRun
    cases hf : fill t (arrays.map Arr.tensor) with
    | error er => exact Or.inr ⟨er, rfl⟩
    | ok o => exact ⟨rfl, Or.inr ⟨h0, t, st, hev, hf⟩⟩
  have hfinish : ∀ (e₁ e₂ : Expr R) o, e₁.list = e₂.list → finish L e₁ b arrays o = finish L e₂ b arrays o := by
    intro e₁ e₂ o h; unfold finish; rw [h]
  cases pc with
  | start =>
    simp only [stepUse, hp]
    rw [if_neg (by rw [h.numArgs]; exact hn)]
    split
    · rename_i h0
      exact ⟨rfl, Or.inl ⟨by rw [← h.constants]; exact h0, rfl⟩⟩
    · rename_i h0
      split
      · rename_i t ht
        exact hrun t (by rw [← h.constants]; exact h0) ht
      · trivial
  | evaluate backend' =>
    simp only [stepUse]
    split
    · exact Or.inr ⟨_, rfl⟩
    · trivial
  | storeOps b' t st => trivial
  | storeList st => trivial
  | reread =>
    simp only [stepUse, hp]
    split
    · exact Or.inr ⟨_, rfl⟩
    · rename_i t ht
      by_cases h0 : e₀.constants = []
      · obtain ⟨st, x, hx, hl⟩ := h.entries b t ht
        have hall := hb.none_iff.mp h0
        rw [evalLoop_all_none (!x) (by rw [hb.full]; exact hinds) (by rw [hlen]; exact hcp) (by
          intro o ho
          unfold constTensors at ho
          rw [hb.consts] at ho
          obtain ⟨o', ho', rfl⟩ := List.mem_map.mp ho
          rw [hall o' ho']; rfl)] at hl
        simp only [Except.ok.injEq, Option.some.injEq, Prod.mk.injEq] at hl
        unfold toRun
        cases hf : fill t (arrays.map Arr.tensor) with
        | error er => exact Or.inr ⟨er, rfl⟩
        | ok o =>
          refine ⟨rfl, Or.inl ⟨h0, ?_⟩⟩
          have h1 : fill (constTensors e₀) (arrays.map Arr.tensor) = .ok (ops.map Arr.tensor) := by
            unfold constTensors; rw [hb.consts]; exact merge_fill Arr.tensor hm
          rw [hl.1, hf] at h1
          cases h1
          rw [merge_all_none hm hall]
      · exact hrun t h0 ht
  | run b' o =>
    obtain ⟨rfl, hcases⟩ := hc
    simp only [stepUse, RaceCall]
    rcases hcases with ⟨h0, rfl⟩ | ⟨h0, t, st, hev, hf⟩
    · left
      have hlist : e.list = e₀.list := by
        rw [hb.list, ← hb.full]
        rcases h.list with h1 | ⟨b'', t, x, hx, hl⟩
        · exact h1
        · have hall := hb.none_iff.mp h0
          rw [evalLoop_all_none (!x) (by rw [hb.full]; exact hinds) (by rw [hlen]; exact hcp) (by
            intro o ho
            unfold constTensors at ho
            rw [hb.consts] at ho
            obtain ⟨o', ho', rfl⟩ := List.mem_map.mp ho
            rw [hall o' ho']; rfl)] at hl
          simp only [Except.ok.injEq, Option.some.injEq, Prod.mk.injEq] at hl
          exact hl.2.symm
      have := key e₀ (built_inv L hb)
      unfold call at this
      rw [hp] at this
      simp only at this
      rw [if_neg hn, if_pos h0] at this
      rw [hfinish e e₀ _ hlist]
      exact congrArg (Except.map some) this
    · obtain ⟨x, hx, hl⟩ := hev
      have hgood : e.list = st → (finish L e b' arrays o).map some = expected.map some := by
        intro hst
        have h1 := key { e₀ with evaluated := [(b', t)], list := st } ⟨rfl, rfl, rfl, rfl, (by
          intro b'' t'' hg
          simp only [Dict.get?] at hg
          split at hg
          · rename_i heq
            cases hg
            subst heq
            exact ⟨x, hx, hl⟩
          · cases hg), (by intro h; cases h)⟩
        unfold call at h1
        rw [hp] at h1
        simp only at h1
        rw [if_neg hn, if_neg h0] at h1
        simp only [Dict.get?, if_true, bind, Except.bind, hf] at h1
        rw [hfinish e { e₀ with evaluated := [(b', t)], list := st } _ hst]
        exact congrArg (Except.map some) h1
      rcases h.list with h1 | ⟨b'', t'', x'', _, hl''⟩
      · obtain ⟨pre, g1, g2, g3⟩ := evalLoop_count hl
        by_cases hpre : pre = []
        · left
          apply hgood
          rw [h1, g1, hpre]
          rfl
        · right
          have hge : ∀ s ∈ pre, 2 ≤ s.inds.length := by
            intro s hs
            have hs1 : s ∈ e₀.fullList.dropLast := by
              rw [g1, List.dropLast_append_of_ne_nil g2]
              exact List.mem_append_left _ hs
            have hs2 : s.inds ∈ (info.path.dropLast).map sortedDesc := by
              rw [List.map_dropLast, ← hinds, ← List.map_dropLast, ← hb.full]
              exact List.mem_map_of_mem hs1
            obtain ⟨p, hp1, hp2⟩ := List.mem_map.mp hs2
            rw [← hp2, sortedDesc_length]
            exact htwo p hp1
          have h2 := sum_ge_two hge
          have h3 : 0 < pre.length := List.length_pos_iff.mpr hpre
          have h4 := fill_length hf
          obtain ⟨er, her⟩ := too_few_raise (noE := !x) hinds hcp (ops := o) (by rw [h4]; omega)
          unfold finish
          split
          · exact ⟨_, rfl⟩
          · simp only [bind, Except.bind, hx]
            rw [h1, hb.full, her]
            exact ⟨er, rfl⟩
      · left
        exact hgood (evalLoop_same_rest rfl hl'' hl)
  | done r => exact hc

end

/-- No step but the last of the path chosen when the expression was built is for a single operand. -/
def BuiltNoSingle (subs : Str) (ops : List (Arr R)) (opt : Optimize) (mem : MemLimit) (ub : Bool) : Prop :=
  ∀ inp out info, parseEinsum subs (ops.map (fun a => a.tensor.shape)) = .ok (inp, out) →
    contractPath (splitOn cComma inp) out (ops.map (fun a => a.tensor.shape)) opt mem ub = .ok info → ∀ p ∈ info.path.dropLast, 2 ≤ p.length

/-- **C60, races.** Also when the constants have not been evaluated before the threads start: a call that returns has the result of `contract`. A race for the
first evaluation can only make it raise, as long as the path has no steps for single operands. -/
theorem C60_never_wrong (L : Lib) (subs : Str) (items : List (Item R)) (constants : List Nat) (opt : Optimize)
    (mem : MemLimit) (ub : Bool) (e : Expr R) (hbuild : contractExpression subs items constants opt mem ub = .ok e)
    (us : List (Use R)) (jobs : List (Use R)) (schedule : List Nat) (i : Nat) (arrays ops : List (Arr R)) (backend : Option Str)
    (hjob : jobs[i]? = some (.call arrays backend)) (hm : Merge (slots items) arrays ops) (hs : ShapesAsBuilt items ops) (hv : arrays ≠ [])
    (hc : BuiltComplete subs items ops opt mem ub) (htwo : BuiltNoSingle subs ops opt mem ub) (b : Str)
    (hp : parseBackend L (arrays.map Arr.module) backend = .ok b) (hauto : b ≠ S "auto")
    (hname : hasBackend b = true → b ∉ convertBackends → ∃ a ∈ arrays, a.module ≠ S "numpy") (r : Except PyErr (Option (Tensor R)))
    (hdone : ((Threads.begin (uses L e us) jobs).exec L jobs schedule).pcs[i]? = some (.done r)) :
    r = (contractWith L subs ops opt mem ub (some b)).map some ∨ ∃ er, r = .error er := by
  have h39 := C39_expression_equals_contract L subs items constants opt mem ub e hbuild arrays ops hm hs hv hc us backend b hp hauto hname
  obtain ⟨shapes, inp, out, info, hb⟩ := contractExpression_inv hbuild
  have hsh := shapes_of_merge hb hm hs
  have hpath := hc inp out info (by rw [hsh]; exact hb.parse) (by rw [hsh]; exact hb.path)
  have hpath2 := htwo inp out info (by rw [hsh]; exact hb.parse) (by rw [hsh]; exact hb.path)
  have hinv := uses_inv L (built_inv L hb) us
  have hex := call_merged L hb hpath hinv hm hv hp hauto hname
  rw [h39] at hex
  have hfin : ∀ (sch : List Nat) (w : Threads R), RaceInv L e w.expr → w.pcs.length = jobs.length → (∀ pc ∈ w.pcs, PcInv L e pc) →
      (∀ pc, w.pcs[i]? = some pc → RaceCall L e b arrays (contractWith L subs ops opt mem ub (some b)) pc) →
      ∀ pc, (w.exec L jobs sch).pcs[i]? = some pc → RaceCall L e b arrays (contractWith L subs ops opt mem ub (some b)) pc := by
    intro sch
    induction sch with
    | nil => intro w _ _ _ h4; exact h4
    | cons j sch ih =>
      intro w h1 h2 h3 h4
      have hstep : RaceInv L e (w.step L jobs j).expr ∧ (w.step L jobs j).pcs.length = jobs.length ∧ (∀ pc ∈ (w.step L jobs j).pcs, PcInv L e pc) ∧
          ∀ pc, (w.step L jobs j).pcs[i]? = some pc → RaceCall L e b arrays (contractWith L subs ops opt mem ub (some b)) pc := by
        unfold Threads.step
        split
        · rename_i u pc hu hpcj
          have hpc := h3 pc (List.mem_of_getElem? hpcj)
          obtain ⟨g1, g2⟩ := race_expr (u := u) h1 hpc
          refine ⟨g1, by simp [h2], ?_, ?_⟩
          · intro pc' hpc'
            rcases List.mem_or_eq_of_mem_set hpc' with h | h
            · exact h3 pc' h
            · rw [h]; exact g2
          · intro pc' hpc'
            by_cases hij : j = i
            · subst hij
              rw [hjob] at hu
              cases hu
              simp only at hpc'
              rw [List.getElem?_set_self (by rw [h2]; exact (List.getElem?_eq_some_iff.mp hjob).1)] at hpc'
              cases hpc'
              exact race_self hb hpath hpath2 h1 hm hv hp hauto hname hex (h4 pc hpcj)
            · simp only at hpc'
              rw [List.getElem?_set_ne hij] at hpc'
              exact h4 pc' hpc'
        · exact ⟨h1, h2, h3, h4⟩
      exact ih _ hstep.1 hstep.2.1 hstep.2.2.1 hstep.2.2.2
  refine hfin schedule _ (raceInv_of hinv) (by simp [Threads.begin]) ?_ ?_ _ hdone
  · intro pc hpc
    simp only [Threads.begin, List.mem_map] at hpc
    obtain ⟨_, _, rfl⟩ := hpc
    trivial
  · intro pc hpc
    simp only [Threads.begin, List.getElem?_map, Option.map_eq_some_iff] at hpc
    obtain ⟨_, _, rfl⟩ := hpc
    trivial

/-! ## Concrete cases -/

/-- Two matrices that do not commute. -/
def raceA : Arr Nat := ⟨S "numpy", [2, 2], fun i => if i = [0, 1] then 1 else 0⟩
def raceB : Arr Nat := ⟨S "numpy", [2, 2], fun i => if i = [1, 0] then 1 else 0⟩

/-- What the calls return, at the place `[0, 0]`. -/
def returned (w : Threads Nat) : List (Option (Except PyErr (Option Nat))) := w.pcs.map (fun pc => match pc with
  | .done r => some (r.map (fun o => o.map (fun T => T.val [0, 0])))
  | _ => none)

/-- **Counterexample.** With a step for a single operand in the path, a race gives a wrong result: two threads call an expression for the product of a constant
matrix and another, and one of them gets the product in the wrong order. -/
theorem C60_counterexample_single_step :
    ∃ e, contractExpression (S "ab,bc->ac") [.array raceA, .shape [2, 2]] [0] (.path [[0], [0, 1]]) .none true = .ok e ∧
      returned ((Threads.begin e [.call [raceB] none, .call [raceB] none]).exec demoLib [.call [raceB] none, .call [raceB] none] [0, 0, 0, 1, 1, 0, 0, 0]) =
        [some (.ok (some 1)), some (.ok (some 0))] ∧
      ((contractWith demoLib (S "ab,bc->ac") [raceA, raceB] (.path [[0], [0, 1]]) .none true (some (S "numpy"))).map (fun T => T.val [0, 0])) = .ok 1 := by
  refine ⟨_, rfl, ?_, ?_⟩ <;> decide +kernel

/-- Two threads that race for the first evaluation of the constants of 'ab,bc,cd->ad', under any schedule. -/
example (e : Expr ℤ) (he : contractExpression (S "ab,bc,cd->ad") demoItems [0, 1] (.path [[0, 1], [0, 1]]) .none true = .ok e) (schedule : List Nat)
    (r : Except PyErr (Option (Tensor ℤ)))
    (hdone : ((Threads.begin e [.call [demoC] none, .call [demoC] (some (S "torch"))]).exec demoLib [.call [demoC] none, .call [demoC] (some (S "torch"))]
      schedule).pcs[1]? = some (.done r)) :
    r = (contractWith demoLib (S "ab,bc,cd->ad") [demoA, demoB, demoC] (.path [[0, 1], [0, 1]]) .none true (some (S "torch"))).map some ∨
      ∃ er, r = .error er := by
  refine C60_never_wrong demoLib _ demoItems [0, 1] _ .none true e he [] [.call [demoC] none, .call [demoC] (some (S "torch"))] schedule 1 [demoC]
    [demoA, demoB, demoC] (some (S "torch")) rfl (.const _ _ _ _ (.const _ _ _ _ (.var _ _ _ _ .nil))) ?_ (by simp) ?_ ?_ (S "torch") (by decide)
    (by decide) (fun _ h => absurd (by decide) h) r hdone
  · intro i s a h1 h2
    match i with
    | 0 => cases h1
    | 1 => cases h1
    | 2 => cases h1; cases h2; rfl
    | (n + 3) => cases h1
  · intro inp out info h1 h2
    cases h1
    cases h2
    simp only [CompletePath, ValidStep]
    decide +kernel
  · intro inp out info h1 h2
    cases h1
    cases h2
    decide +kernel

end OE.Props
