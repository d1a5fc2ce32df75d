import Verif.Lemmas.GraphWorld
import Verif.Props.Expression
import Verif.Lemmas.GreedyInv

/-!
# C73: expressions in tensorflow's graph mode
-/

namespace OE.Props
open OE OE.Py OE.Spec OE.Contract OE.AnyLibrary OE.GraphMode OE.Parser
open OE.Expression (fill anyNone fill_length)

variable {A : Type}

theorem fill_pattern {α β : Type} {os : List (Option α)} {os' : List (Option β)} (h : os.map Option.isSome = os'.map Option.isSome)
    {vs : List α} {vs' : List β} (hl : vs.length = vs'.length) {full : List α} (hf : fill os vs = .ok full) :
    ∃ full', fill os' vs' = .ok full' := by
  induction os generalizing os' vs vs' full with
  | nil =>
    cases os' with
    | nil => exact ⟨[], rfl⟩
    | cons _ _ => simp at h
  | cons o os ih =>
    cases os' with
    | nil => simp at h
    | cons o' os' =>
      simp only [List.map_cons, List.cons.injEq] at h
      cases o with
      | some a =>
        cases o' with
        | none => simp at h
        | some b =>
          simp only [fill, bind, Except.bind] at hf ⊢
          cases hr : fill os vs with
          | error e => rw [hr] at hf; cases hf
          | ok r =>
            obtain ⟨f, hf'⟩ := ih h.2 hl hr
            exact ⟨b :: f, by rw [hf']⟩
      | none =>
        cases o' with
        | some b => simp at h
        | none =>
          cases vs with
          | nil => cases hf
          | cons v vs =>
            cases vs' with
            | nil => simp at hl
            | cons v' vs' =>
              simp only [fill, bind, Except.bind] at hf ⊢
              cases hr : fill os vs with
              | error e => rw [hr] at hf; cases hf
              | ok r =>
                obtain ⟨f, hf'⟩ := ih h.2 (by simpa using hl) hr
                exact ⟨v' :: f, by rw [hf']⟩

theorem evalLoop_sharing (lib : Library A) (sharing : Bool) (steps : List Step) (ops : List (Option A)) :
    GraphMode.evalLoop lib sharing steps ops = GraphMode.evalLoop lib false steps ops := by
  induction steps generalizing ops with
  | nil => rfl
  | cons s ss ih =>
    have hs : ∀ tmp, AnyLibrary.stepResult lib sharing [] s tmp = AnyLibrary.stepResult lib false [] s tmp := by
      intro tmp
      unfold AnyLibrary.stepResult AnyLibrary.einsumCall
      cases sharing
      · rfl
      · rw [if_pos rfl, if_neg (by simp : ¬ (false = true)), filter_nil, filter_only_out]
    simp only [GraphMode.evalLoop, hs, ih]

theorem graphEval_all_none (lib : Library A) (sharing : Bool) {steps : List Step} {path : List (List Nat)}
    (h : steps.map Step.inds = path.map sortedDesc) {ops : List (Option A)} (hc : CompletePath ops.length path) (hn : ∀ o ∈ ops, o = none) :
    GraphMode.evalLoop lib sharing steps ops = .ok (some (ops, steps)) := by
  cases path with
  | nil => exact absurd hc (by simp [CompletePath])
  | cons p ps =>
    cases steps with
    | nil => simp at h
    | cons s ss =>
      simp only [List.map_cons, List.cons.injEq] at h
      have hv : ValidStep ops.length p := by
        cases ps with
        | nil => exact hc.1
        | cons q qs => exact hc.1
      have : anyNone ops s.inds = .ok true := by
        rw [h.1]
        cases hp : sortedDesc p with
        | nil => exact absurd (sortedDesc_eq_nil.mp hp) hv.1
        | cons x xs =>
          have hx : x < ops.length := hv.2.2 x (mem_sortedDesc.mp (by rw [hp]; simp))
          have : ops[x]? = some none := by rw [List.getElem?_eq_getElem hx, hn _ (List.getElem_mem hx)]
          simp only [anyNone, this]
      simp only [GraphMode.evalLoop, bind, Except.bind, this, if_true]

/-- The constants by position. -/
def slotVals (n : Nat) (constants : Dict Nat (Obj A)) : List (Option A) := (List.range n).map (fun i => (constants.get? i).map Obj.val)

/-- What evaluating the constants yields. -/
def Evaluated (lib : Library A) (steps : List Step) (slots vals : List (Option A)) (rest : List Step) : Prop :=
  ∃ ops, GraphMode.evalLoop (graphOf lib) false steps (slots.map (Option.map Node.const)) = .ok (some (ops, rest)) ∧ sessionRun ops = .ok vals

/-- The operands and steps used for a call. -/
def Current (lib : Library A) (steps : List Step) (slots vals : List (Option A)) (rest : List Step) : Prop :=
  ((∀ o ∈ slots, o = none) ∧ vals = slots ∧ rest = steps) ∨ Evaluated lib steps slots vals rest

theorem sessionRun_none {slots : List (Option (Node A))} (h : ∀ o ∈ slots, o = none) : sessionRun slots = .ok (slots.map (fun _ => none)) := by
  induction slots with
  | nil => rfl
  | cons o l ih =>
    rw [h o (by simp)]
    simp only [sessionRun, bind, Except.bind, ih (fun o ho => h o (by simp [ho])), List.map_cons]

theorem Current.unique {lib : Library A} {steps : List Step} {path : List (List Nat)} (hpath : steps.map Step.inds = path.map sortedDesc)
    {slots : List (Option A)} (hc : CompletePath slots.length path) {vals vals' : List (Option A)} {rest rest' : List Step}
    (h : Current lib steps slots vals rest) (h' : Current lib steps slots vals' rest') : vals = vals' ∧ rest = rest' := by
  have nil : ∀ {v r}, (∀ o ∈ slots, o = none) → Evaluated lib steps slots v r → v = slots ∧ r = steps := by
    intro v r hn ⟨ops, h1, h2⟩
    have hn' : ∀ o ∈ slots.map (Option.map (Node.const (A := A))), o = none := by
      intro o ho
      obtain ⟨p, hp, rfl⟩ := List.mem_map.mp ho
      rw [hn p hp]
      rfl
    rw [graphEval_all_none _ _ hpath (by simpa using hc) hn'] at h1
    simp only [Except.ok.injEq, Option.some.injEq, Prod.mk.injEq] at h1
    rw [← h1.1, sessionRun_none hn'] at h2
    refine ⟨?_, h1.2.symm⟩
    rw [← Except.ok.inj h2, List.map_map]
    conv_rhs => rw [← List.map_id slots]
    exact List.map_congr_left (fun o ho => (hn o ho).symm)
  rcases h with ⟨h1, h2, h3⟩ | h
  · rcases h' with ⟨_, g2, g3⟩ | h'
    · exact ⟨h2.trans g2.symm, h3.trans g3.symm⟩
    · obtain ⟨g1, g2⟩ := nil h1 h'
      exact ⟨h2.trans g1.symm, h3.trans g2.symm⟩
  · rcases h' with ⟨g1, g2, g3⟩ | h'
    · obtain ⟨k1, k2⟩ := nil g1 h
      exact ⟨k1.trans g2.symm, k2.trans g3.symm⟩
    · obtain ⟨ops, h1, h2⟩ := h
      obtain ⟨ops', g1, g2⟩ := h'
      rw [h1] at g1
      simp only [Except.ok.injEq, Option.some.injEq, Prod.mk.injEq] at g1
      rw [← g1.1, h2] at g2
      exact ⟨Except.ok.inj g2, g1.2⟩

/-- Operands for a call. -/
def callOps (vals : List (Option A)) (arrays : List (Obj A)) : Except PyErr (List (Operand A)) :=
  fill (vals.map (Option.map (fun a => Operand.tensor (.const a)))) (arrays.map Operand.array)

/-- What holds of an expression throughout a safe history. -/
structure ExprOK (lib : Library A) (shape : A → Shape) (steps : List Step) (n : Nat) (constants : Dict Nat (Obj A)) (shapes : List Shape)
    (e : Expr A) : Prop where
  full : e.full = steps
  fullNumArgs : e.fullNumArgs = n
  numArgs : e.numArgs = n - constants.length
  consts : e.constants = constants
  state : (e.evaluated = none ∧ e.list = steps ∧ (e.compiled = none ∨ constants = [])) ∨
    ∃ vals, Evaluated lib steps (slotVals n constants) vals e.list ∧ e.evaluated = some (vals.map (Option.map Node.const))
  compiled : ∀ ps g, e.compiled = some (ps, g) → ∃ vals rest arrays ops sh, Current lib steps (slotVals n constants) vals rest ∧
    arrays.map (fun x : Obj A => shape x.val) = shapes ∧ callOps vals arrays = .ok ops ∧ List.Forall₂ (NodeFor shape) ops ps ∧
    (holes ps).Nodup ∧ AnyLibrary.coreContract (graphOf lib) sh [] rest ps = .ok g

theorem new_ok (lib : Library A) (shape : A → Shape) (steps : List Step) (n : Nat) (constants : Dict Nat (Obj A)) (shapes : List Shape) :
    ExprOK lib shape steps n constants shapes (Expr.new steps n constants) :=
  ⟨rfl, rfl, rfl, rfl, Or.inl ⟨rfl, rfl, Or.inl rfl⟩, fun _ _ h => (by cases h)⟩

theorem withIds_val (ids : Nat → Nat) (k : Nat) (vals : List (Option A)) :
    (withIds ids k vals).map (Option.map (fun x => Node.const x.val)) = vals.map (Option.map Node.const) := by
  induction vals generalizing k with
  | nil => rfl
  | cons o l ih =>
    simp only [withIds, List.map_cons, ih]
    cases o <;> rfl

section
variable {lib : Library A} {shape : A → Shape} {steps : List Step} {n : Nat} {constants : Dict Nat (Obj A)} {shapes : List Shape}

/-- Evaluating the constants. -/
theorem evaluateConstants_spec {w : World A} {e : Expr A} (hw : WorldOK shape w) (he : ExprOK lib shape steps n constants shapes e) (ids : Nat → Nat) :
    WorldOK shape (evaluateConstants lib shape ids w e).2.1 ∧ Grows w (evaluateConstants lib shape ids w e).2.1 ∧
    (NoReuse shape (evaluateConstants lib shape ids w e).2.1 →
      ExprOK lib shape steps n constants shapes (evaluateConstants lib shape ids w e).2.2 ∧
      (evaluateConstants lib shape ids w e).2.2.compiled = e.compiled ∧
      ((evaluateConstants lib shape ids w e).1 = .ok () → ∃ vals,
        Evaluated lib steps (slotVals n constants) vals (evaluateConstants lib shape ids w e).2.2.list ∧
        (evaluateConstants lib shape ids w e).2.2.evaluated = some (vals.map (Option.map Node.const))) ∧
      (∀ er, (evaluateConstants lib shape ids w e).1 = .error er → ∀ vals rest, ¬ Evaluated lib steps (slotVals n constants) vals rest)) := by
  obtain ⟨h1, h2, h3⟩ := convertConsts_spec hw e.slots
  have hslots : e.slots.map (Option.map (fun x => Node.const x.val)) = (slotVals n constants).map (Option.map Node.const) := by
    unfold Expr.slots slotVals
    rw [he.fullNumArgs, he.consts, List.map_map, List.map_map]
    refine List.map_congr_left (fun i _ => ?_)
    simp only [Function.comp, Option.map_map]
    rfl
  unfold evaluateConstants
  simp only
  rw [evalLoop_sharing, he.full]
  cases hl : GraphMode.evalLoop (graphOf lib) false steps (convertConsts shape w e.slots).1 with
  | error er =>
    refine ⟨h1, h2, fun hn => ⟨he, rfl, fun h => (by cases h), fun _ _ vals rest ⟨ops, k, _⟩ => ?_⟩⟩
    rw [h3 _ (Grows.refl _) hn, hslots, k] at hl
    cases hl
  | ok r =>
    cases r with
    | none =>
      refine ⟨h1, h2, fun hn => ⟨he, rfl, fun h => (by cases h), fun _ _ vals rest ⟨ops, k, _⟩ => ?_⟩⟩
      rw [h3 _ (Grows.refl _) hn, hslots, k] at hl
      cases hl
    | some r =>
      obtain ⟨ops, rest⟩ := r
      simp only
      cases hs : sessionRun ops with
      | error er =>
        refine ⟨h1, h2, fun hn => ⟨he, rfl, fun h => (by cases h), fun _ _ vals rest' ⟨ops', k, k'⟩ => ?_⟩⟩
        rw [h3 _ (Grows.refl _) hn, hslots, k] at hl
        simp only [Except.ok.injEq, Option.some.injEq, Prod.mk.injEq] at hl
        rw [hl.1, hs] at k'
        cases k'
      | ok vals =>
        obtain ⟨g1, g2, g3⟩ := convertConsts_spec h1 (withIds ids 0 vals)
        refine ⟨g1, h2.trans g2, fun hn => ?_⟩
        have hev : Evaluated lib steps (slotVals n constants) vals rest := by
          refine ⟨ops, ?_, hs⟩
          rw [← hl, h3 _ g2 hn, hslots]
        have hd : (convertConsts shape (convertConsts shape w e.slots).2 (withIds ids 0 vals)).1 = vals.map (Option.map Node.const) := by
          rw [g3 _ (Grows.refl _) hn, withIds_val]
        refine ⟨⟨rfl, he.fullNumArgs, he.numArgs, he.consts, Or.inr ⟨vals, hev, by rw [← hd]⟩, he.compiled⟩, rfl,
          fun _ => ⟨vals, hev, by rw [← hd]⟩, fun _ h => by cases h⟩

theorem callOps_const {vals : List (Option A)} {arrays : List (Obj A)} {ops : List (Operand A)} (h : callOps vals arrays = .ok ops) :
    TensorsConst ops := by
  unfold callOps at h
  induction vals generalizing arrays ops with
  | nil => cases h; intro n hn; simp at hn
  | cons o vals ih =>
    cases o with
    | some a =>
      simp only [List.map_cons, Option.map_some, fill, bind, Except.bind] at h
      cases hr : fill (vals.map (Option.map (fun a => Operand.tensor (.const a)))) (arrays.map Operand.array) with
      | error e => rw [hr] at h; cases h
      | ok r =>
        rw [hr] at h
        cases h
        intro n hn
        rcases List.mem_cons.mp hn with hn | hn
        · cases hn; exact ⟨a, rfl⟩
        · exact ih hr n hn
    | none =>
      cases arrays with
      | nil => cases h
      | cons x arrays =>
        simp only [List.map_cons, Option.map_none, fill, bind, Except.bind] at h
        cases hr : fill (vals.map (Option.map (fun a => Operand.tensor (.const a)))) (arrays.map Operand.array) with
        | error e => rw [hr] at h; cases h
        | ok r =>
          rw [hr] at h
          cases h
          intro n hn
          rcases List.mem_cons.mp hn with hn | hn
          · cases hn
          · exact ih hr n hn

theorem callOps_ids {vals : List (Option A)} {arrays : List (Obj A)} {ops : List (Operand A)} (h : callOps vals arrays = .ok ops) :
    (arrayIds ops).Sublist (arrays.map Obj.id) := by
  unfold callOps at h
  induction vals generalizing arrays ops with
  | nil => cases h; simp [arrayIds]
  | cons o vals ih =>
    cases o with
    | some a =>
      simp only [List.map_cons, Option.map_some, fill, bind, Except.bind] at h
      cases hr : fill (vals.map (Option.map (fun a => Operand.tensor (.const a)))) (arrays.map Operand.array) with
      | error e => rw [hr] at h; cases h
      | ok r =>
        rw [hr] at h
        cases h
        simp only [arrayIds]
        exact ih hr
    | none =>
      cases arrays with
      | nil => cases h
      | cons x arrays =>
        simp only [List.map_cons, Option.map_none, fill, bind, Except.bind] at h
        cases hr : fill (vals.map (Option.map (fun a => Operand.tensor (.const a)))) (arrays.map Operand.array) with
        | error e => rw [hr] at h; cases h
        | ok r =>
          rw [hr] at h
          cases h
          simp only [arrayIds, List.map_cons]
          exact (ih hr).cons_cons _

theorem callOps_nodes {vals : List (Option A)} {arrays arrays' : List (Obj A)} {ops ops' : List (Operand A)} (h : callOps vals arrays = .ok ops)
    (h' : callOps vals arrays' = .ok ops')
    (hs : arrays.map (fun x : Obj A => shape x.val) = arrays'.map (fun x : Obj A => shape x.val)) {ps : List (Node A)}
    (hp : List.Forall₂ (NodeFor shape) ops ps) : List.Forall₂ (NodeFor shape) ops' ps := by
  unfold callOps at h h'
  induction vals generalizing arrays arrays' ops ops' ps with
  | nil => cases h; cases h'; exact hp
  | cons o vals ih =>
    cases o with
    | some a =>
      simp only [List.map_cons, Option.map_some, fill, bind, Except.bind] at h h'
      cases hr : fill (vals.map (Option.map (fun a => Operand.tensor (.const a)))) (arrays.map Operand.array) with
      | error e => rw [hr] at h; cases h
      | ok r =>
        cases hr' : fill (vals.map (Option.map (fun a => Operand.tensor (.const a)))) (arrays'.map Operand.array) with
        | error e => rw [hr'] at h'; cases h'
        | ok r' =>
          rw [hr] at h
          rw [hr'] at h'
          cases h
          cases h'
          cases hp with
          | cons a b => exact .cons a (ih hr hr' hs b)
    | none =>
      cases arrays with
      | nil => cases h
      | cons x arrays =>
        cases arrays' with
        | nil => cases h'
        | cons x' arrays' =>
          simp only [List.map_cons, Option.map_none, fill, bind, Except.bind] at h h'
          simp only [List.map_cons, List.cons.injEq] at hs
          cases hr : fill (vals.map (Option.map (fun a => Operand.tensor (.const a)))) (arrays.map Operand.array) with
          | error e => rw [hr] at h; cases h
          | ok r =>
            cases hr' : fill (vals.map (Option.map (fun a => Operand.tensor (.const a)))) (arrays'.map Operand.array) with
            | error e => rw [hr'] at h'; cases h'
            | ok r' =>
              rw [hr] at h
              rw [hr'] at h'
              cases h
              cases h'
              cases hp with
              | cons a b =>
                refine .cons ?_ (ih hr hr' hs.2 b)
                obtain ⟨i, hi⟩ := a
                exact ⟨i, by rw [hi, hs.1]⟩

/-- Building the graph if there is none, and running it. -/
theorem runCompiled_spec {path : List (List Nat)} (hpath : steps.map Step.inds = path.map sortedDesc) (hc : CompletePath n path)
    {w : World A} {e : Expr A} (hw : WorldOK shape w) (he : ExprOK lib shape steps n constants shapes e) {vals : List (Option A)}
    (hcur : Current lib steps (slotVals n constants) vals e.list) (hst : constants = [] ∨ e.evaluated ≠ none) {arrays : List (Obj A)} {ops : List (Operand A)}
    (hops : callOps vals arrays = .ok ops) (hsh : arrays.map (fun x => shape x.val) = shapes)
    (hid : w.contexts = [] ∨ (arrays.map Obj.id).Nodup) :
    WorldOK shape (runCompiled lib shape w e ops).2.1 ∧ Grows w (runCompiled lib shape w e ops).2.1 ∧
    (NoReuse shape (runCompiled lib shape w e ops).2.1 →
      ExprOK lib shape steps n constants shapes (runCompiled lib shape w e ops).2.2 ∧
      (runCompiled lib shape w e ops).1.toOption = outcome (liftLoop lib e.list (ops.map opVal))) := by
  have hcl : CompletePath (slotVals n constants).length path := by simpa [slotVals] using hc
  unfold runCompiled
  cases hcomp : e.compiled with
  | some r =>
    obtain ⟨ps, g⟩ := r
    refine ⟨hw, Grows.refl w, fun _ => ⟨he, ?_⟩⟩
    obtain ⟨vals', rest', arrays', ops', sh, k1, k2, k3, k4, k5, k6⟩ := he.compiled ps g hcomp
    obtain ⟨q1, q2⟩ := Current.unique hpath hcl hcur k1
    rw [← q1] at k3
    rw [← q2] at k6
    exact runGraph_spec (callOps_nodes k3 hops (by rw [k2, hsh]) k4) (callOps_const hops) k5 k6
  | none =>
    obtain ⟨h1, h2, _, h4, h5⟩ := convertAll_spec hw ops (callOps_const hops)
    have hnd := h5 (hid.imp id (fun h => (callOps_ids hops).nodup h))
    simp only
    cases hg : AnyLibrary.coreContract (graphOf lib) (!(convertAll shape w ops).2.contexts.isEmpty) [] e.list (convertAll shape w ops).1 with
    | error er =>
      refine ⟨h1, h2, fun hn => ⟨he, ?_⟩⟩
      rw [build_error (h4 _ (Grows.refl _) hn) (callOps_const hops) hnd hg]
      rfl
    | ok g =>
      refine ⟨h1, h2, fun hn => ⟨⟨he.full, he.fullNumArgs, he.numArgs, he.consts, ?_, ?_⟩, ?_⟩⟩
      · rcases he.state with ⟨k1, k2, _⟩ | h
        · exact Or.inl ⟨k1, k2, Or.inr (hst.resolve_right (fun h => h k1))⟩
        · exact Or.inr h
      · intro ps g' h
        cases h
        exact ⟨vals, e.list, arrays, ops, _, hcur, hsh, hops, h4 _ (Grows.refl _) hn, hnd, hg⟩
      · exact runGraph_spec (h4 _ (Grows.refl _) hn) (callOps_const hops) hnd hg

theorem slots_length {α : Type} (n : Nat) (constants : Dict Nat α) (hnd : (constants.map Prod.fst).Nodup) (hlt : ∀ k ∈ constants.map Prod.fst, k < n) :
    (((List.range n).map (fun i => constants.get? i)).filter Option.isNone).length = n - constants.length := by
  have hp : ((List.range n).filter (fun i => (constants.get? i).isSome)).Perm (constants.map Prod.fst) := by
    rw [List.perm_ext_iff_of_nodup (List.nodup_range.filter _) hnd]
    intro i
    rw [List.mem_filter, List.mem_range]
    constructor
    · rintro ⟨_, h⟩
      by_contra hi
      rw [(Dict.get?_eq_none (d := constants) (k := i)).mpr hi] at h
      cases h
    · intro hi
      refine ⟨hlt i hi, ?_⟩
      by_contra h
      exact (Dict.get?_eq_none (d := constants) (k := i)).mp (by simpa using h) hi
  have h1 := hp.length_eq
  rw [List.length_map] at h1
  have h2 := List.length_eq_length_filter_add (l := List.range n) (fun i => (constants.get? i).isSome)
  rw [List.length_range] at h2
  rw [List.filter_map, List.length_map]
  have h3 : (List.filter (Option.isNone ∘ fun i => constants.get? i) (List.range n)).length =
      (List.filter (fun i => !(constants.get? i).isSome) (List.range n)).length := by
    congr 1
    refine List.filter_congr (fun i _ => ?_)
    simp
  omega

theorem callOps_nil (arrays : List (Obj A)) : callOps (slotVals arrays.length []) arrays = .ok (arrays.map Operand.array) := by
  have h : slotVals arrays.length ([] : Dict Nat (Obj A)) = List.replicate arrays.length none := by
    unfold slotVals
    rw [List.eq_replicate_iff]
    refine ⟨by simp, fun b hb => ?_⟩
    obtain ⟨i, _, rfl⟩ := List.mem_map.mp hb
    rfl
  unfold callOps
  rw [h]
  clear h
  induction arrays with
  | nil => rfl
  | cons x l ih =>
    simp only [List.length_cons, List.replicate_succ, List.map_cons, Option.map_none, fill, bind, Except.bind, ih]

theorem slotVals_nil (n : Nat) : ∀ o ∈ slotVals n ([] : Dict Nat (Obj A)), o = none := by
  intro o ho
  obtain ⟨i, _, rfl⟩ := List.mem_map.mp ho
  rfl

theorem map_tensor_const (vals : List (Option A)) : (vals.map (Option.map Node.const)).map (Option.map Operand.tensor) =
    vals.map (Option.map (fun a => Operand.tensor (.const a))) := by
  rw [List.map_map]
  refine List.map_congr_left ?_
  rintro (_ | a) _ <;> rfl

/-- The operands of a call lead to the value of the contraction. -/
theorem current_outcome {path : List (List Nat)} (hpath : steps.map Step.inds = path.map sortedDesc) (hc : CompletePath n path)
    {vals : List (Option A)} {rest : List Step} (hcur : Current lib steps (slotVals n constants) vals rest)
    {arrays full : List (Obj A)} (hm : Merge ((List.range n).map (fun i => constants.get? i)) arrays full) :
    ∃ ops, callOps vals arrays = .ok ops ∧
      outcome (liftLoop lib rest (ops.map opVal)) = (AnyLibrary.coreContract lib false [] steps (full.map Obj.val)).toOption := by
  have hcl : CompletePath (slotVals n constants).length path := by simpa [slotVals] using hc
  have hparts : Parts lib steps (slotVals n constants) rest vals := by
    rcases hcur with ⟨_, rfl, rfl⟩ | ⟨ops, h1, h2⟩
    · exact fun vs full h => ⟨full, h, rfl⟩
    · exact parts_of_eval (inds_desc hpath hc) h1 h2
  have hf := merge_fill (fun x : Obj A => some x.val) hm
  have e1 : ((List.range n).map (fun i => constants.get? i)).map (Option.map (fun x : Obj A => some x.val)) =
      (slotVals n constants).map (Option.map some) := by
    unfold slotVals
    rw [List.map_map, List.map_map]
    refine List.map_congr_left (fun i _ => ?_)
    simp only [Function.comp, Option.map_map]
    rfl
  rw [e1] at hf
  obtain ⟨full', h1, h2⟩ := hparts _ _ hf
  have hpat : (vals.map (Option.map (some : A → Option A))).map Option.isSome =
      (vals.map (Option.map (fun a => Operand.tensor (.const a)))).map Option.isSome := by
    rw [List.map_map, List.map_map]
    refine List.map_congr_left ?_
    rintro (_ | a) _ <;> rfl
  obtain ⟨ops, hops⟩ := fill_pattern hpat (vs' := arrays.map Operand.array) (by simp) h1
  refine ⟨ops, hops, ?_⟩
  have key := fill_map opVal (vals.map (Option.map (fun a => Operand.tensor (.const a)))) (arrays.map Operand.array)
  rw [hops] at key
  have e2 : (vals.map (Option.map (fun a => Operand.tensor (.const a)))).map (Option.map opVal) = vals.map (Option.map (some : A → Option A)) := by
    rw [List.map_map]
    refine List.map_congr_left ?_
    rintro (_ | a) _ <;> rfl
  have e3 : (arrays.map Operand.array).map opVal = arrays.map (fun x : Obj A => some x.val) := by
    rw [List.map_map]
    rfl
  rw [e2, e3, h1] at key
  have hfull : full' = ops.map opVal := Except.ok.inj key
  rw [← hfull, h2]
  have e4 : full.map (fun x : Obj A => some x.val) = (full.map Obj.val).map some := by rw [List.map_map]; rfl
  rw [e4]
  refine outcome_array lib false hpath ?_
  rw [List.length_map, (merge_count hm).2]
  simpa using hc

theorem convertAll_world {w : World A} (hw : WorldOK shape w) (ops : List (Operand A)) :
    WorldOK shape (convertAll shape w ops).2 ∧ Grows w (convertAll shape w ops).2 := by
  induction ops generalizing w with
  | nil => exact ⟨hw, Grows.refl w⟩
  | cons o ops ih =>
    cases o with
    | tensor n => exact ih hw
    | array x =>
      obtain ⟨h1, h2, _⟩ := toGraph_spec hw x false
      obtain ⟨h3, h4⟩ := ih h1
      exact ⟨h3, h2.trans h4⟩

theorem runCompiled_world {w : World A} (hw : WorldOK shape w) (e : Expr A) (ops : List (Operand A)) :
    WorldOK shape (runCompiled lib shape w e ops).2.1 ∧ Grows w (runCompiled lib shape w e ops).2.1 := by
  unfold runCompiled
  split
  · exact ⟨hw, Grows.refl w⟩
  · obtain ⟨h1, h2⟩ := convertAll_world hw ops
    simp only
    split
    · exact ⟨h1, h2⟩
    · exact ⟨h1, h2⟩

theorem evaluateConstants_world {w : World A} (hw : WorldOK shape w) (e : Expr A) (ids : Nat → Nat) :
    WorldOK shape (evaluateConstants lib shape ids w e).2.1 ∧ Grows w (evaluateConstants lib shape ids w e).2.1 := by
  obtain ⟨h1, h2, _⟩ := convertConsts_spec hw e.slots
  unfold evaluateConstants
  simp only
  split
  · exact ⟨h1, h2⟩
  · exact ⟨h1, h2⟩
  · split
    · exact ⟨h1, h2⟩
    · rename_i vals _
      obtain ⟨g1, g2, _⟩ := convertConsts_spec h1 (withIds ids 0 vals)
      exact ⟨g1, h2.trans g2⟩

/-- The end of a call with constants. -/
def finish (lib : Library A) (shape : A → Shape) (arrays : List (Obj A)) (w : World A) (e : Expr A) (ops : List (Option (Node A))) :
    Except PyErr A × World A × Expr A :=
  match fill (ops.map (Option.map Operand.tensor)) (arrays.map Operand.array) with
  | .error er => (.error er, w, e)
  | .ok l => runCompiled lib shape w e l

theorem call_eq (ids : Nat → Nat) (w : World A) (e : Expr A) (arrays : List (Obj A)) : call lib shape ids w e arrays =
    if arrays.length ≠ e.numArgs then (.error .value, w, e)
    else if e.constants = [] then runCompiled lib shape w e (arrays.map Operand.array)
    else match e.evaluated with
      | some ops => finish lib shape arrays w e ops
      | none => match evaluateConstants lib shape ids w e with
        | (.error er, w', e') => (.error er, w', e')
        | (.ok _, w', e') => match e'.evaluated with
          | none => (.error .key, w', e')
          | some ops => finish lib shape arrays w' e' ops := rfl

theorem finish_world {w : World A} (hw : WorldOK shape w) (e : Expr A) (arrays : List (Obj A)) (ops : List (Option (Node A))) :
    WorldOK shape (finish lib shape arrays w e ops).2.1 ∧ Grows w (finish lib shape arrays w e ops).2.1 := by
  unfold finish
  split
  · exact ⟨hw, Grows.refl w⟩
  · exact runCompiled_world hw e _

theorem call_world {w : World A} (hw : WorldOK shape w) (e : Expr A) (ids : Nat → Nat) (arrays : List (Obj A)) :
    WorldOK shape (call lib shape ids w e arrays).2.1 ∧ Grows w (call lib shape ids w e arrays).2.1 := by
  rw [call_eq]
  split
  · exact ⟨hw, Grows.refl w⟩
  · split
    · exact runCompiled_world hw e _
    · split
      · exact finish_world hw e arrays _
      · obtain ⟨h1, h2⟩ := evaluateConstants_world (lib := lib) hw e ids
        split
        · rename_i h
          rw [h] at h1 h2
          exact ⟨h1, h2⟩
        · rename_i h
          rw [h] at h1 h2
          split
          · exact ⟨h1, h2⟩
          · obtain ⟨h3, h4⟩ := finish_world (lib := lib) h1 _ arrays _
            exact ⟨h3, h2.trans h4⟩

theorem finish_spec {path : List (List Nat)} (hpath : steps.map Step.inds = path.map sortedDesc) (hc : CompletePath n path)
    {w : World A} {e : Expr A} (hw : WorldOK shape w) (he : ExprOK lib shape steps n constants shapes e) {arrays : List (Obj A)}
    (hsh : arrays.map (fun x => shape x.val) = shapes) (hid : w.contexts = [] ∨ (arrays.map Obj.id).Nodup) {vals : List (Option A)}
    (hev : Evaluated lib steps (slotVals n constants) vals e.list) (hsome : e.evaluated = some (vals.map (Option.map Node.const)))
    (hn : NoReuse shape (finish lib shape arrays w e (vals.map (Option.map Node.const))).2.1) :
    ExprOK lib shape steps n constants shapes (finish lib shape arrays w e (vals.map (Option.map Node.const))).2.2 ∧
      ∀ full, Merge ((List.range n).map (fun i => constants.get? i)) arrays full →
        (finish lib shape arrays w e (vals.map (Option.map Node.const))).1.toOption =
          (AnyLibrary.coreContract lib false [] steps (full.map Obj.val)).toOption := by
  unfold finish at hn ⊢
  rw [map_tensor_const] at hn ⊢
  have hdef : fill (vals.map (Option.map (fun a => Operand.tensor (.const a)))) (arrays.map Operand.array) = callOps vals arrays := rfl
  rw [hdef] at hn ⊢
  cases hops : callOps vals arrays with
  | error er =>
    refine ⟨he, fun full hm => ?_⟩
    obtain ⟨ops, h, _⟩ := current_outcome hpath hc (Or.inr hev) hm
    rw [hops] at h
    cases h
  | ok ops =>
    rw [hops] at hn
    obtain ⟨h1, h2, h3⟩ := runCompiled_spec hpath hc hw he (Or.inr hev) (Or.inr (by rw [hsome]; simp)) hops hsh hid
    refine ⟨(h3 hn).1, fun full hm => ?_⟩
    obtain ⟨ops', h, h'⟩ := current_outcome hpath hc (Or.inr hev) hm
    rw [hops] at h
    cases h
    rw [← h']
    exact (h3 hn).2

/-- A call. -/
theorem call_spec {path : List (List Nat)} (hpath : steps.map Step.inds = path.map sortedDesc) (hc : CompletePath n path)
    (hnd : (constants.map Prod.fst).Nodup) (hlt : ∀ k ∈ constants.map Prod.fst, k < n)
    {w : World A} {e : Expr A} (hw : WorldOK shape w) (he : ExprOK lib shape steps n constants shapes e) (ids : Nat → Nat) {arrays : List (Obj A)}
    (hsh : arrays.map (fun x => shape x.val) = shapes) (hid : w.contexts = [] ∨ (arrays.map Obj.id).Nodup)
    (hn : NoReuse shape (call lib shape ids w e arrays).2.1) :
    ExprOK lib shape steps n constants shapes (call lib shape ids w e arrays).2.2 ∧
      ∀ full, arrays ≠ [] → Merge ((List.range n).map (fun i => constants.get? i)) arrays full →
        (call lib shape ids w e arrays).1.toOption = (AnyLibrary.coreContract lib false [] steps (full.map Obj.val)).toOption := by
  have hcl : CompletePath (slotVals n constants).length path := by simpa [slotVals] using hc
  have hlen : ∀ full, Merge ((List.range n).map (fun i => constants.get? i)) arrays full → arrays.length = e.numArgs := by
    intro full hm
    rw [(merge_count hm).1, slots_length n constants hnd hlt, he.numArgs]
  rw [call_eq] at hn ⊢
  by_cases hna : arrays.length ≠ e.numArgs
  · rw [if_pos hna]
    exact ⟨he, fun full _ hm => absurd (hlen full hm) hna⟩
  · rw [if_neg hna] at hn ⊢
    push Not at hna
    by_cases hnil : e.constants = []
    · rw [if_pos hnil] at hn ⊢
      rw [he.consts] at hnil
      subst hnil
      have hn' : n = arrays.length := by rw [hna, he.numArgs]; simp
      subst hn'
      have hlist : e.list = steps := by
        rcases he.state with ⟨_, h, _⟩ | ⟨vals, h, _⟩
        · exact h
        · exact (Current.unique hpath hcl (Or.inr h) (Or.inl ⟨slotVals_nil _, rfl, rfl⟩)).2
      have hcur : Current lib steps (slotVals arrays.length []) (slotVals arrays.length []) e.list := Or.inl ⟨slotVals_nil _, rfl, hlist⟩
      obtain ⟨h1, h2, h3⟩ := runCompiled_spec hpath hc hw he hcur (Or.inl rfl) (callOps_nil arrays) hsh hid
      refine ⟨(h3 hn).1, fun full _ hm => ?_⟩
      obtain ⟨ops', h, h'⟩ := current_outcome hpath hc hcur hm
      rw [callOps_nil] at h
      cases h
      rw [← h']
      exact (h3 hn).2
    · rw [if_neg hnil] at hn ⊢
      rcases he.state with ⟨hev, hlist, hcomp⟩ | ⟨vals, hev, hsome⟩
      · simp only [hev] at hn ⊢
        obtain ⟨h1, h2, h3⟩ := evaluateConstants_spec hw he ids
        cases hr : evaluateConstants lib shape ids w e with
        | mk r we =>
          obtain ⟨w', e'⟩ := we
          rw [hr] at h1 h2 h3 hn
          cases r with
          | error er =>
            refine ⟨(h3 hn).1, fun full hne hm => ?_⟩
            have hno := (h3 hn).2.2.2 er rfl
            have hf := merge_fill (fun x : Obj A => some x.val) hm
            have e1 : ((List.range n).map (fun i => constants.get? i)).map (Option.map (fun x : Obj A => some x.val)) =
                (slotVals n constants).map (Option.map some) := by
              unfold slotVals
              rw [List.map_map, List.map_map]
              refine List.map_congr_left (fun i _ => ?_)
              simp only [Function.comp, Option.map_map]
              rfl
            rw [e1] at hf
            have hnone : none ∈ slotVals n constants := by
              obtain ⟨i, hi, hi'⟩ := List.mem_map.mp (merge_none hm hne)
              exact List.mem_map.mpr ⟨i, hi, by rw [hi']; rfl⟩
            have key := outcome_of_eval_error (sharing := false) hpath (inds_desc hpath hc) hcl hnone
              (fun ops rest vals k k' => hno vals rest ⟨ops, k, k'⟩) hf
            have e4 : full.map (fun x : Obj A => some x.val) = (full.map Obj.val).map some := by rw [List.map_map]; rfl
            rw [e4, outcome_array lib false hpath (by rw [List.length_map, (merge_count hm).2]; simpa using hc)] at key
            rw [key]
            rfl
          | ok u =>
            simp only at hn ⊢
            cases hev' : e'.evaluated with
            | none =>
              rw [hev'] at hn
              obtain ⟨vals, _, h⟩ := (h3 hn).2.2.1 rfl
              rw [hev'] at h
              cases h
            | some ops =>
              rw [hev'] at hn
              simp only at hn ⊢
              have hn' := (finish_world (lib := lib) h1 e' arrays ops).2.noReuse hn
              obtain ⟨vals, k1, k2⟩ := (h3 hn').2.2.1 rfl
              rw [hev'] at k2
              cases k2
              obtain ⟨g1, g2⟩ := finish_spec hpath hc h1 (h3 hn').1 hsh (hid.imp h2.nil id) k1 hev' hn
              exact ⟨g1, fun full _ hm => g2 full hm⟩
      · simp only [hsome] at hn ⊢
        obtain ⟨g1, g2⟩ := finish_spec hpath hc hw he hsh hid hev hsome hn
        exact ⟨g1, fun full _ hm => g2 full hm⟩

/-- One event of a safe history. -/
theorem step_ok {path : List (List Nat)} (hpath : steps.map Step.inds = path.map sortedDesc) (hc : CompletePath n path)
    (hnd : (constants.map Prod.fst).Nodup) (hlt : ∀ k ∈ constants.map Prod.fst, k < n) {s : World A × Expr A} (hw : WorldOK shape s.1)
    (he : ExprOK lib shape steps n constants shapes s.2) (ev : Event A) (hs : SafeEvent shape shapes s.1 ev)
    (hn : NoReuse shape (step lib shape s ev).1) :
    WorldOK shape (step lib shape s ev).1 ∧ ExprOK lib shape steps n constants shapes (step lib shape s ev).2 := by
  cases ev with
  | enter =>
    refine ⟨fun c h => ?_, he⟩
    rcases List.mem_cons.mp h with rfl | h
    · exact ⟨fun _ _ h => (by cases h), fun _ _ h => (by cases h), fun _ _ _ _ _ h => (by cases h)⟩
    · exact hw c h
  | exit => exact ⟨fun c h => hw c (List.mem_of_mem_tail h), he⟩
  | convert x b => exact ⟨(toGraph_spec hw x b).1, he⟩
  | evaluate ids =>
    obtain ⟨h1, _, h3⟩ := evaluateConstants_spec hw he ids
    exact ⟨h1, (h3 hn).1⟩
  | call ids arrays => exact ⟨(call_world hw s.2 ids arrays).1, (call_spec hpath hc hnd hlt hw he ids hs.1 hs.2 hn).1⟩

/-- A safe history. -/
theorem history_ok {path : List (List Nat)} (hpath : steps.map Step.inds = path.map sortedDesc) (hc : CompletePath n path)
    (hnd : (constants.map Prod.fst).Nodup) (hlt : ∀ k ∈ constants.map Prod.fst, k < n) {s : World A × Expr A} (hw : WorldOK shape s.1)
    (he : ExprOK lib shape steps n constants shapes s.2) (evs : List (Event A)) (h : SafeHistory lib shape shapes s evs) :
    WorldOK shape (evs.foldl (step lib shape) s).1 ∧ ExprOK lib shape steps n constants shapes (evs.foldl (step lib shape) s).2 := by
  induction evs generalizing s with
  | nil => exact ⟨hw, he⟩
  | cons ev evs ih =>
    obtain ⟨h1, h2, h3⟩ := h
    obtain ⟨g1, g2⟩ := step_ok hpath hc hnd hlt hw he ev h1 h2
    exact ih g1 g2 h3

theorem safeHistory_append {s : World A × Expr A} (evs : List (Event A)) (ev : Event A) (h : SafeHistory lib shape shapes s (evs ++ [ev])) :
    SafeHistory lib shape shapes s evs ∧ SafeEvent shape shapes (evs.foldl (step lib shape) s).1 ev ∧
      NoReuse shape (step lib shape (evs.foldl (step lib shape) s) ev).1 := by
  induction evs generalizing s with
  | nil => exact ⟨trivial, h.1, h.2.1⟩
  | cons e evs ih =>
    obtain ⟨h1, h2, h3⟩ := h
    obtain ⟨g1, g2⟩ := ih h3
    exact ⟨⟨h1, h2, g1⟩, g2⟩

theorem world_new (m : Nat) : WorldOK shape (⟨m, []⟩ : World A) := fun _ h => by simp at h

/-- **C73.** In graph mode, after any safe history, a call returns what the library computes from the constants and the arrays of *this* call,
merged in order, and fails if that fails: neither the graph kept from the first call nor the memoized conversions show. Safe: all calls pass
arrays of the same shapes; inside `shared_intermediates`, the arrays of a call are different objects and no `id` comes to stand for
something else. The history may enter and leave contexts, convert arrays for other expressions, and evaluate the constants again. -/
theorem C73_graph_calls {path : List (List Nat)} (hpath : steps.map Step.inds = path.map sortedDesc) (hc : CompletePath n path)
    (hnd : (constants.map Prod.fst).Nodup) (hlt : ∀ k ∈ constants.map Prod.fst, k < n) (m : Nat) (evs : List (Event A)) (ids : Nat → Nat)
    (arrays full : List (Obj A)) (hv : arrays ≠ []) (hm : Merge ((List.range n).map (fun i => constants.get? i)) arrays full)
    (h : SafeHistory lib shape shapes (⟨m, []⟩, Expr.new steps n constants) (evs ++ [.call ids arrays])) :
    let s := evs.foldl (step lib shape) (⟨m, []⟩, Expr.new steps n constants)
    (call lib shape ids s.1 s.2 arrays).1.toOption = (AnyLibrary.coreContract lib false [] steps (full.map Obj.val)).toOption := by
  intro s
  obtain ⟨h1, h2, h3⟩ := safeHistory_append evs _ h
  obtain ⟨g1, g2⟩ := history_ok hpath hc hnd hlt (world_new m) (new_ok lib shape steps n constants shapes) evs h1
  exact (call_spec hpath hc hnd hlt g1 g2 ids h2.1 h2.2 h3).2 full hv hm

/-- A node for an operand, of any shape. -/
def HoleFor : Operand A → Node A → Prop
  | .tensor n, p => p = n
  | .array _, p => ∃ i s, p = .hole i s

theorem NodeFor.holeFor {ops : List (Operand A)} {ps : List (Node A)} (h : List.Forall₂ (NodeFor shape) ops ps) : List.Forall₂ HoleFor ops ps :=
  h.imp (fun o p hop => by
    cases o with
    | tensor n => exact hop
    | array x => exact hop.elim (fun i hi => ⟨i, _, hi⟩))

theorem feedOf_fits {ops : List (Operand A)} {ps : List (Node A)} (h : List.Forall₂ HoleFor ops ps)
    (ht : TensorsConst ops) (hn : (holes ps).Nodup) (feed₀ : Feed A) :
    ∃ feed, feedOf ps ops feed₀ = .ok feed ∧ (∀ i, i ∉ holes ps → feed.get? i = feed₀.get? i) ∧
      (fits shape ps feed = true → List.Forall₂ (NodeFor shape) ops ps) := by
  induction h generalizing feed₀ with
  | nil => exact ⟨feed₀, rfl, fun _ _ => rfl, fun _ => .nil⟩
  | @cons o p ops ps hop _ ih =>
    have ht' : TensorsConst ops := fun n hn => ht n (by simp [hn])
    cases o with
    | tensor n =>
      obtain ⟨a, rfl⟩ := ht n (by simp)
      cases hop
      obtain ⟨feed, h1, h2, h3⟩ := ih ht' hn feed₀
      refine ⟨feed, h1, h2, fun hf => .cons rfl (h3 ?_)⟩
      unfold fits at hf ⊢
      rw [List.all_cons, Bool.and_eq_true] at hf
      exact hf.2
    | array x =>
      obtain ⟨i, s, rfl⟩ := hop
      have hh : holes (Node.hole i s :: ps) = i :: holes ps := rfl
      rw [hh, List.nodup_cons] at hn
      obtain ⟨feed, h1, h2, h3⟩ := ih ht' hn.2 (feed₀.set i x.val)
      have hi : feed.get? i = some x.val := by rw [h2 i hn.1, Dict.get?_set_self]
      refine ⟨feed, h1, fun j hj => ?_, fun hf => ?_⟩
      · rw [hh, List.mem_cons, not_or] at hj
        rw [h2 j hj.2, Dict.get?_set_ne hj.1]
      · unfold fits at hf
        rw [List.all_cons, Bool.and_eq_true] at hf
        refine .cons ⟨i, ?_⟩ (h3 hf.2)
        have := hf.1
        simp only [Node.hole, hi, Option.all_some, decide_eq_true_eq] at this
        rw [this]

theorem callOps_holes {vals : List (Option A)} {arrays arrays' : List (Obj A)} {ops ops' : List (Operand A)} (h : callOps vals arrays = .ok ops)
    (h' : callOps vals arrays' = .ok ops') {ps : List (Node A)} (hp : List.Forall₂ HoleFor ops ps) : List.Forall₂ HoleFor ops' ps := by
  unfold callOps at h h'
  induction vals generalizing arrays arrays' ops ops' ps with
  | nil => cases h; cases h'; cases hp; exact .nil
  | cons o vals ih =>
    cases o with
    | some a =>
      simp only [List.map_cons, Option.map_some, fill, bind, Except.bind] at h h'
      cases hr : fill (vals.map (Option.map (fun a => Operand.tensor (.const a)))) (arrays.map Operand.array) with
      | error e => rw [hr] at h; cases h
      | ok r =>
        cases hr' : fill (vals.map (Option.map (fun a => Operand.tensor (.const a)))) (arrays'.map Operand.array) with
        | error e => rw [hr'] at h'; cases h'
        | ok r' =>
          rw [hr] at h
          rw [hr'] at h'
          cases h
          cases h'
          cases hp with
          | cons a b => exact .cons a (ih hr hr' b)
    | none =>
      cases arrays with
      | nil => cases h
      | cons x arrays =>
        cases arrays' with
        | nil => cases h'
        | cons x' arrays' =>
          simp only [List.map_cons, Option.map_none, fill, bind, Except.bind] at h h'
          cases hr : fill (vals.map (Option.map (fun a => Operand.tensor (.const a)))) (arrays.map Operand.array) with
          | error e => rw [hr] at h; cases h
          | ok r =>
            cases hr' : fill (vals.map (Option.map (fun a => Operand.tensor (.const a)))) (arrays'.map Operand.array) with
            | error e => rw [hr'] at h'; cases h'
            | ok r' =>
              rw [hr] at h
              rw [hr'] at h'
              cases h
              cases h'
              cases hp with
              | cons a b =>
                refine .cons ?_ (ih hr hr' b)
                obtain ⟨i, s, hi⟩ := a
                exact ⟨i, s, hi⟩

theorem callOps_shapes {vals : List (Option A)} {arrays arrays' : List (Obj A)} (hl : arrays.length = (vals.filter Option.isNone).length)
    (hl' : arrays'.length = (vals.filter Option.isNone).length) {ops ops' : List (Operand A)} (h : callOps vals arrays = .ok ops)
    (h' : callOps vals arrays' = .ok ops') {ps : List (Node A)} (hp : List.Forall₂ (NodeFor shape) ops ps)
    (hp' : List.Forall₂ (NodeFor shape) ops' ps) : arrays.map (fun x : Obj A => shape x.val) = arrays'.map (fun x : Obj A => shape x.val) := by
  unfold callOps at h h'
  induction vals generalizing arrays arrays' ops ops' ps with
  | nil =>
    simp only [List.filter_nil, List.length_nil, List.length_eq_zero_iff] at hl hl'
    rw [hl, hl']
  | cons o vals ih =>
    cases o with
    | some a =>
      simp only [List.map_cons, Option.map_some, fill, bind, Except.bind] at h h'
      cases hr : fill (vals.map (Option.map (fun a => Operand.tensor (.const a)))) (arrays.map Operand.array) with
      | error e => rw [hr] at h; cases h
      | ok r =>
        cases hr' : fill (vals.map (Option.map (fun a => Operand.tensor (.const a)))) (arrays'.map Operand.array) with
        | error e => rw [hr'] at h'; cases h'
        | ok r' =>
          rw [hr] at h
          rw [hr'] at h'
          cases h
          cases h'
          cases hp with
          | cons a b => cases hp' with
            | cons a' b' => exact ih (by simpa using hl) (by simpa using hl') hr hr' b b'
    | none =>
      cases arrays with
      | nil => cases h
      | cons x arrays =>
        cases arrays' with
        | nil => cases h'
        | cons x' arrays' =>
          simp only [List.map_cons, Option.map_none, fill, bind, Except.bind] at h h'
          cases hr : fill (vals.map (Option.map (fun a => Operand.tensor (.const a)))) (arrays.map Operand.array) with
          | error e => rw [hr] at h; cases h
          | ok r =>
            cases hr' : fill (vals.map (Option.map (fun a => Operand.tensor (.const a)))) (arrays'.map Operand.array) with
            | error e => rw [hr'] at h'; cases h'
            | ok r' =>
              rw [hr] at h
              rw [hr'] at h'
              cases h
              cases h'
              cases hp with
              | cons a b => cases hp' with
                | cons a' b' =>
                  obtain ⟨i, rfl⟩ := a
                  obtain ⟨j, hj⟩ := a'
                  rw [List.map_cons, List.map_cons, (hole_inj hj).2, ih (by simpa using hl) (by simpa using hl') hr hr' b b']

/-- A call that returned has built the graph. -/
theorem compiled_of_ok (ids : Nat → Nat) (w : World A) (e : Expr A) (arrays : List (Obj A)) {a : A}
    (h : (call lib shape ids w e arrays).1 = .ok a) : ∃ r, (call lib shape ids w e arrays).2.2.compiled = some r := by
  have run : ∀ (w : World A) (e : Expr A) ops, (runCompiled lib shape w e ops).1 = .ok a → ∃ r, (runCompiled lib shape w e ops).2.2.compiled = some r := by
    intro w e ops h
    unfold runCompiled at h ⊢
    cases hc : e.compiled with
    | some r => exact ⟨r, hc⟩
    | none =>
      rw [hc] at h
      simp only at h ⊢
      cases hg : AnyLibrary.coreContract (graphOf lib) (!(convertAll shape w ops).2.contexts.isEmpty) [] e.list (convertAll shape w ops).1 with
      | error er => rw [hg] at h; cases h
      | ok g => exact ⟨_, rfl⟩
  have fin : ∀ (w : World A) (e : Expr A) ops, (finish lib shape arrays w e ops).1 = .ok a → ∃ r, (finish lib shape arrays w e ops).2.2.compiled = some r := by
    intro w e ops h
    unfold finish at h ⊢
    split at h
    · cases h
    · exact run _ _ _ h
  rw [call_eq] at h ⊢
  split at h
  · cases h
  · rename_i h1
    rw [if_neg h1]
    split at h
    · rename_i h2
      rw [if_pos h2]
      exact run _ _ _ h
    · rename_i h2
      rw [if_neg h2]
      cases h3 : e.evaluated with
      | some ops =>
        rw [h3] at h
        exact fin _ _ _ h
      | none =>
        rw [h3] at h
        simp only at h ⊢
        cases h4 : evaluateConstants lib shape ids w e with
        | mk r we =>
          rw [h4] at h
          cases r with
          | error er => cases h
          | ok u =>
            simp only at h ⊢
            cases h5 : we.2.evaluated with
            | none => rw [h5] at h; cases h
            | some ops =>
              rw [h5] at h
              exact fin _ _ _ h

/-- The graph is kept. -/
theorem compiled_kept {s : World A × Expr A} {r : List (Node A) × Node A} (h : s.2.compiled = some r) (ev : Event A) :
    (step lib shape s ev).2.compiled = some r := by
  have run : ∀ (w : World A) (e : Expr A) ops, e.compiled = some r → (runCompiled lib shape w e ops).2.2.compiled = some r := by
    intro w e ops h
    unfold runCompiled
    rw [h]
    exact h
  have evl : ∀ (w : World A) (e : Expr A) ids, (evaluateConstants lib shape ids w e).2.2.compiled = e.compiled := by
    intro w e ids
    unfold evaluateConstants
    simp only
    split
    · rfl
    · rfl
    · split <;> rfl
  have fin : ∀ (w : World A) (e : Expr A) arrays ops, e.compiled = some r → (finish lib shape arrays w e ops).2.2.compiled = some r := by
    intro w e arrays ops h
    unfold finish
    split
    · exact h
    · exact run _ _ _ h
  cases ev with
  | enter => exact h
  | exit => exact h
  | convert x b => exact h
  | evaluate ids => exact (evl s.1 s.2 ids).trans h
  | call ids arrays =>
    change (call lib shape ids s.1 s.2 arrays).2.2.compiled = some r
    rw [call_eq]
    split
    · exact h
    · split
      · exact run _ _ _ h
      · split
        · exact fin _ _ _ _ h
        · have key := (evl s.1 s.2 ids).trans h
          split
          · rename_i h4
            rw [h4] at key
            exact key
          · rename_i h4
            rw [h4] at key
            split
            · exact key
            · exact fin _ _ _ _ key

theorem compiled_history {s : World A × Expr A} {r : List (Node A) × Node A} (h : s.2.compiled = some r) (evs : List (Event A)) :
    (evs.foldl (step lib shape) s).2.compiled = some r := by
  induction evs generalizing s with
  | nil => exact h
  | cons ev evs ih => exact ih (compiled_kept h ev)

/-- Evaluating the constants uses up no variable. -/
theorem evalLoop_nones (lib : Library A) (sharing : Bool) {steps : List Step} {ops ops' : List (Option A)} {rest : List Step}
    (h : GraphMode.evalLoop lib sharing steps ops = .ok (some (ops', rest))) :
    (ops'.filter Option.isNone).length = (ops.filter Option.isNone).length := by
  induction steps generalizing ops with
  | nil => cases h
  | cons s ss ih =>
    simp only [GraphMode.evalLoop, bind, Except.bind] at h
    cases ha : anyNone ops s.inds with
    | error e => rw [ha] at h; cases h
    | ok b =>
      rw [ha] at h
      cases b with
      | true =>
        simp only [if_true, Except.ok.injEq, Option.some.injEq, Prod.mk.injEq] at h
        rw [h.1]
      | false =>
        simp only [Bool.false_eq_true, if_false] at h
        cases hp : popAll s.inds ops with
        | error e => rw [hp] at h; cases h
        | ok r =>
          obtain ⟨tmp, r⟩ := r
          rw [hp] at h
          simp only at h
          cases ht : OE.Expression.present tmp with
          | error e => rw [ht] at h; cases h
          | ok tmp' =>
            rw [ht] at h
            simp only at h
            cases hs : AnyLibrary.stepResult lib sharing [] s tmp' with
            | error e => rw [hs] at h; cases h
            | ok v =>
              rw [hs] at h
              rw [ih h]
              have hperm := ((popAll_perm hp).filter Option.isNone).length_eq
              have hnone : tmp.filter Option.isNone = [] := by
                clear hp h hs hperm
                induction tmp generalizing tmp' with
                | nil => rfl
                | cons o tmp ih' =>
                  cases o with
                  | none => cases ht
                  | some a =>
                    simp only [OE.Expression.present, bind, Except.bind] at ht
                    cases hr : OE.Expression.present tmp with
                    | error e => rw [hr] at ht; cases ht
                    | ok t => simpa using ih' t hr
              rw [List.filter_append, hnone, List.nil_append] at hperm
              rw [List.filter_append]
              simpa using hperm

theorem current_nones {vals : List (Option A)} {rest : List Step} (hcur : Current lib steps (slotVals n constants) vals rest) :
    (vals.filter Option.isNone).length = ((slotVals n constants).filter Option.isNone).length := by
  have hlen : ∀ {α β : Type} (f : α → β) (l : List (Option α)), ((l.map (Option.map f)).filter Option.isNone).length = (l.filter Option.isNone).length := by
    intro α β f l
    rw [List.filter_map, List.length_map]
    congr 1
    exact List.filter_congr (fun o _ => by cases o <;> rfl)
  rcases hcur with ⟨_, rfl, _⟩ | ⟨ops, h1, h2⟩
  · rfl
  · have h3 := evalLoop_nones _ _ h1
    rw [hlen] at h3
    rw [← h3, ← hlen (val []) ops, sessionRun_ok h2, hlen]

/-- **C73, other shapes.** Once a call has returned, calls with other numbers or shapes of arrays raise `ValueError` and change nothing. -/
theorem C73_other_shapes {path : List (List Nat)} (hpath : steps.map Step.inds = path.map sortedDesc) (hc : CompletePath n path)
    (hnd : (constants.map Prod.fst).Nodup) (hlt : ∀ k ∈ constants.map Prod.fst, k < n) (m : Nat) (evs evs' : List (Event A)) (ids : Nat → Nat)
    (arrays : List (Obj A)) (a : A)
    (h : SafeHistory lib shape shapes (⟨m, []⟩, Expr.new steps n constants) (evs ++ [.call ids arrays] ++ evs'))
    (hok : let s := evs.foldl (step lib shape) (⟨m, []⟩, Expr.new steps n constants); (call lib shape ids s.1 s.2 arrays).1 = .ok a)
    (ids' : Nat → Nat) (arrays' : List (Obj A)) (hne : arrays'.map (fun x => shape x.val) ≠ shapes) :
    let s := (evs ++ [Event.call ids arrays] ++ evs').foldl (step lib shape) (⟨m, []⟩, Expr.new steps n constants)
    call lib shape ids' s.1 s.2 arrays' = (.error .value, s.1, s.2) := by
  intro s
  obtain ⟨hw, he⟩ := history_ok hpath hc hnd hlt (world_new m) (new_ok lib shape steps n constants shapes) _ h
  obtain ⟨r, hr⟩ := compiled_of_ok _ _ _ _ hok
  have hcomp : s.2.compiled = some r := by
    simp only [s, List.foldl_append, List.foldl_cons, List.foldl_nil]
    exact compiled_history hr evs'
  change WorldOK shape s.1 at hw
  change ExprOK lib shape steps n constants shapes s.2 at he
  obtain ⟨ps, g⟩ := r
  obtain ⟨vals, rest, arr, ops, sh, k1, k2, k3, k4, k5, k6⟩ := he.compiled ps g hcomp
  have hcl : CompletePath (slotVals n constants).length path := by simpa [slotVals] using hc
  -- the numbers of arrays
  have hslots : ((slotVals n constants).filter Option.isNone).length = n - constants.length := by
    rw [← slots_length n constants hnd hlt]
    unfold slotVals
    rw [List.filter_map, List.filter_map, List.length_map, List.length_map]
    congr 1
    refine List.filter_congr (fun i _ => ?_)
    simp
  have hshapes : shapes.length = n - constants.length := by
    have hn : ∀ {w : World A} {e : Expr A}, (call lib shape ids w e arrays).1 = .ok a → arrays.length = e.numArgs := by
      intro w e h
      by_contra hne
      rw [call_eq, if_pos hne] at h
      cases h
    have h0 := hn hok
    obtain ⟨q1, q2⟩ : SafeHistory lib shape shapes (⟨m, []⟩, Expr.new steps n constants) evs ∧
        arrays.map (fun x => shape x.val) = shapes := by
      have : ∀ (evs : List (Event A)) (s : World A × Expr A), SafeHistory lib shape shapes s (evs ++ [.call ids arrays] ++ evs') →
          SafeHistory lib shape shapes s evs ∧ arrays.map (fun x => shape x.val) = shapes := by
        intro evs
        induction evs with
        | nil => intro s h; exact ⟨trivial, h.1.1⟩
        | cons e evs ih =>
          intro s h
          obtain ⟨h1, h2, h3⟩ := h
          obtain ⟨g1, g2⟩ := ih _ h3
          exact ⟨⟨h1, h2, g1⟩, g2⟩
      exact this evs _ h
    have := (history_ok hpath hc hnd hlt (world_new m) (new_ok lib shape steps n constants shapes) evs q1).2.numArgs
    rw [← q2, List.length_map, h0, this]
  by_cases hlen : arrays'.length ≠ s.2.numArgs
  · rw [call_eq, if_pos hlen]
  · push Not at hlen
    have harr : arr.length = (vals.filter Option.isNone).length := by
      rw [current_nones k1, hslots, ← hshapes, ← k2, List.length_map]
    have harr' : arrays'.length = (vals.filter Option.isNone).length := by
      rw [current_nones k1, hslots, hlen, he.numArgs]
    have hpat : ∃ ops', callOps vals arrays' = .ok ops' := by
      refine fill_pattern (vs := arr.map Operand.array) rfl (by simp [harr, harr']) k3
    obtain ⟨ops', hops'⟩ := hpat
    have hrun : runGraph shape ps g ops' = .error .value := by
      obtain ⟨feed, f1, _, f3⟩ := feedOf_fits (shape := shape) (callOps_holes k3 hops' (NodeFor.holeFor k4)) (callOps_const hops') k5 []
      unfold runGraph
      rw [f1]
      simp only [bind, Except.bind]
      rw [if_neg]
      intro hf
      exact hne ((callOps_shapes harr' harr hops' k3 (f3 hf) k4).trans k2)
    have hcompiled : runCompiled lib shape s.1 s.2 ops' = (.error .value, s.1, s.2) := by
      unfold runCompiled
      rw [hcomp]
      simp only [hrun]
    rw [call_eq, if_neg (by simp [hlen])]
    by_cases hnil : s.2.constants = []
    · rw [if_pos hnil]
      rw [he.consts] at hnil
      subst hnil
      have hn' : n = arrays'.length := by rw [hlen, he.numArgs]; simp
      subst hn'
      obtain ⟨q1, _⟩ := Current.unique hpath hcl k1 (Or.inl ⟨slotVals_nil _, rfl, rfl⟩)
      rw [q1, callOps_nil] at hops'
      rw [Except.ok.inj hops']
      exact hcompiled
    · rw [if_neg hnil]
      rcases he.state with ⟨_, _, hcn⟩ | ⟨vals', hev, hsome⟩
      · rcases hcn with h | h
        · rw [hcomp] at h; cases h
        · exact absurd (he.consts.trans h) hnil
      · rw [hsome]
        simp only [finish]
        rw [map_tensor_const]
        obtain ⟨q1, _⟩ := Current.unique hpath hcl k1 (Or.inr hev)
        rw [← q1]
        change (match callOps vals arrays' with
          | .error er => (.error er, s.1, s.2)
          | .ok l => runCompiled lib shape s.1 s.2 l : Except PyErr A × World A × Expr A) = _
        rw [hops']
        exact hcompiled

end

theorem rep_shapes {R : Type} {Rep : A → Tensor R → Prop} {shape : A → Shape} (hshape : ∀ a T, Rep a T → shape a = T.shape) {as : List A}
    {Ts : List (Tensor R)} (h : List.Forall₂ Rep as Ts) : as.map shape = Ts.map Tensor.shape := by
  induction h with
  | nil => rfl
  | cons h1 _ ih => rw [List.map_cons, List.map_cons, ih, hshape _ _ h1]

/-- **C73, what the value is.** With a library that does what numpy does (`Serves`), every such call returns the Einstein summation of the
constants and the arrays of this call. -/
theorem C73_einsum {R : Type} [CommSemiring R] {lib : Library A} {plain : Bool} {Rep : A → Tensor R → Prop} (hlib : Serves lib [] plain Rep)
    (hein : lib.einsum.isSome) (shape : A → Shape) (hshape : ∀ a T, Rep a T → shape a = T.shape) (size : Nat → Nat) (eq : Str)
    (constants : Dict Nat (Obj A)) (arrays full : List (Obj A)) (hv : arrays ≠ [])
    (hnd : (constants.map Prod.fst).Nodup) (hlt : ∀ k ∈ constants.map Prod.fst, k < full.length)
    (hm : Merge ((List.range full.length).map (fun i => constants.get? i)) arrays full)
    (Ts : List (Tensor R)) (hrep : List.Forall₂ Rep (full.map Obj.val) Ts) (inp out : Str)
    (hparse : parseEinsum eq (Ts.map Tensor.shape) = .ok (inp, out)) (hcomma : cComma ∉ out)
    (hfit : OperandsFit size (splitOn cComma inp) (Ts.map Tensor.shape))
    (hplain : plain = true → PlainShapes size (splitOn cComma inp) (Ts.map Tensor.shape))
    (hlab : (splitOn cComma inp).flatten.toFinset.card ≤ 52) (opt : Optimize) (mem : MemLimit) (hmem : ValidMemory mem)
    (hopt : ChoosesComplete opt size (splitOn cComma inp) out) (useBlas : Bool) (info : PathInfo)
    (hinfo : contractPath (splitOn cComma inp) out (Ts.map Tensor.shape) opt mem useBlas = .ok info) (shapes : List Shape) (m : Nat)
    (evs : List (Event A)) (ids : Nat → Nat)
    (h : SafeHistory lib shape shapes (⟨m, []⟩, Expr.new info.contractionList full.length constants) (evs ++ [.call ids arrays])) :
    let s := evs.foldl (step lib shape) (⟨m, []⟩, Expr.new info.contractionList full.length constants)
    ∃ a T, (call lib shape ids s.1 s.2 arrays).1 = .ok a ∧ Rep a T ∧ IsEinsum size (splitOn cComma inp) out Ts T := by
  intro s
  have hwp := wellPosed_of_parse hparse hcomma hfit
  obtain ⟨info', h1, hcp, _⟩ := C01_contract_terms size (splitOn cComma inp) out Ts hwp opt mem hmem hopt useBlas false
  rw [hinfo] at h1
  cases h1
  have hlen : (splitOn cComma inp).length = full.length := by
    have := hwp.len
    rw [List.length_map, ← hrep.length_eq, List.length_map] at this
    exact this
  rw [hlen] at hcp
  have key := C73_graph_calls (contractPath_inds hinfo) hcp hnd hlt m evs ids arrays full hv hm h
  obtain ⟨a, T, g1, g2, g3⟩ := C69_contract_any_library hlib hein shape hshape lib size eq (full.map Obj.val) Ts hrep inp out hparse hcomma hfit
    hplain hlab opt mem hmem hopt useBlas false
  have hsh : (full.map Obj.val).map shape = Ts.map Tensor.shape := rep_shapes hshape hrep
  have hcon : AnyLibrary.contract shape lib lib false eq (full.map Obj.val) opt mem useBlas [] =
      AnyLibrary.coreContract lib false [] info.contractionList (full.map Obj.val) := by
    cases opt with
    | off => exact absurd hopt (by simp [ChoosesComplete])
    | path p => simp only [AnyLibrary.contract, bind, Except.bind, hsh]; rw [hparse]; simp only; rw [hinfo]
    | finder f => simp only [AnyLibrary.contract, bind, Except.bind, hsh]; rw [hparse]; simp only; rw [hinfo]
  rw [hcon] at g1
  rw [g1] at key
  change (call lib shape ids s.1 s.2 arrays).1.toOption = some a at key
  refine ⟨a, T, ?_, g2, g3⟩
  cases hr : (call lib shape ids s.1 s.2 arrays).1 with
  | error e => rw [hr] at key; cases key
  | ok b =>
    rw [hr] at key
    cases key
    rfl

/-! ## What goes wrong otherwise -/

/-- The steps for two vectors. -/
def dotSteps : List Step := [{ inds := [1, 0], removed := {97}, einsumStr := S "a,a->", remaining := none, blas := .no }]

def vecX : Tensor Nat := ⟨[2], fun i => i.getD 0 0 + 1⟩
def vecY : Tensor Nat := ⟨[2], fun i => i.getD 0 0 + 3⟩

def dot : Expr (Tensor Nat) := Expr.new dotSteps 2 []

/-- The number a call returns. -/
def number (r : Except PyErr (Tensor Nat)) : Option Nat := r.toOption.map (fun T => T.val [])

/-- **Why different objects.** If the first call of an expression passes the same array twice inside `shared_intermediates`, the graph has one
placeholder for both: ever after, also outside the context, `expr(x, y)` computes `y · y`. -/
theorem C73_counterexample_same_array :
    let s := [Event.enter, .call id [⟨1, vecX⟩, ⟨1, vecX⟩], .exit].foldl (step numpyLibrary Tensor.shape) (⟨0, []⟩, dot)
    number (call numpyLibrary Tensor.shape id s.1 s.2 [⟨1, vecX⟩, ⟨2, vecY⟩]).1 = some 25 ∧
    number (call numpyLibrary Tensor.shape id ⟨0, []⟩ dot [⟨1, vecX⟩, ⟨2, vecY⟩]).1 = some 11 := by
  constructor <;> decide +kernel

/-- **Why no `id` twice.** The arrays that `session.run` returns are dropped once converted, but their `id`s stay in the cache. If in one context
such an array gets the `id` of an earlier one, the expression works with the constants of another. -/
theorem C73_counterexample_recycled :
    let e : Expr (Tensor Nat) := Expr.new dotSteps 2 [(0, ⟨1, vecX⟩)]
    let s := [Event.enter, .convert ⟨7, vecY⟩ true].foldl (step numpyLibrary Tensor.shape) (⟨0, []⟩, e)
    number (call numpyLibrary Tensor.shape (fun _ => 7) s.1 s.2 [⟨2, vecY⟩]).1 = some 25 ∧
    number (call numpyLibrary Tensor.shape (fun _ => 8) s.1 s.2 [⟨2, vecY⟩]).1 = some 11 := by
  constructor <;> decide +kernel

/-! ## Concrete cases -/

theorem noReuse_log {shape : A → Shape} {w : World A} {l : List (Bool × Obj A)} (h : w.contexts.head?.map Context.log = some l)
    (hl : ∀ p ∈ l, ∀ q ∈ l, p.1 = q.1 → p.2.id = q.2.id → p.2.val = q.2.val) : NoReuse shape w := by
  intro c hc
  rw [hc] at h
  cases h
  exact ⟨fun x y hx hy h => hl _ hx _ hy rfl h, fun x y hx hy h => by rw [hl _ hx _ hy rfl h]⟩

theorem noReuse_nil {shape : A → Shape} {w : World A} (h : w.contexts = []) : NoReuse shape w := by
  intro c hc
  rw [h] at hc
  cases hc

/-- An expression with a constant: used in a context, where its constants are evaluated and it is called, then in another context, where
somebody else converts its constant; then it is called again with another array. -/
def demoEvents : List (Event (Tensor Nat)) :=
  [.enter, .evaluate (fun _ => 5), .call (fun _ => 6) [⟨2, vecY⟩], .exit, .call (fun _ => 6) [⟨2, vecY⟩], .enter, .convert ⟨1, vecX⟩ true]

def demoExpr : Expr (Tensor Nat) := Expr.new dotSteps 2 [(0, ⟨1, vecX⟩)]

theorem demo_safe : SafeHistory numpyLibrary Tensor.shape [[2]] (⟨0, []⟩, demoExpr) (demoEvents ++ [.call (fun _ => 7) [⟨3, vecX⟩]]) := by
  refine ⟨trivial, noReuse_log (l := []) rfl (by simp), trivial, noReuse_log (l := [(true, ⟨1, vecX⟩), (true, ⟨5, vecX⟩)]) rfl (by simp), ?_⟩
  refine ⟨⟨rfl, Or.inr (by simp)⟩, noReuse_log (l := [(true, ⟨1, vecX⟩), (true, ⟨5, vecX⟩), (false, ⟨2, vecY⟩)]) rfl (by simp), ?_⟩
  refine ⟨trivial, noReuse_nil rfl, ⟨rfl, Or.inl rfl⟩, noReuse_nil rfl, trivial, noReuse_log (l := []) rfl (by simp), ?_⟩
  refine ⟨trivial, noReuse_log (l := [(true, ⟨1, vecX⟩)]) rfl (by simp), ⟨rfl, Or.inr (by simp)⟩, ?_⟩
  exact ⟨noReuse_log (l := [(true, ⟨1, vecX⟩)]) rfl (by simp), trivial⟩

example : let s := demoEvents.foldl (step numpyLibrary Tensor.shape) (⟨0, []⟩, demoExpr)
    (call numpyLibrary Tensor.shape (fun _ => 7) s.1 s.2 [⟨3, vecX⟩]).1.toOption =
      (AnyLibrary.coreContract numpyLibrary false [] dotSteps [vecX, vecX]).toOption :=
  C73_graph_calls (path := [[0, 1]]) (by decide) (completePath_range (n := 2) (by decide)) (by decide) (by decide) 0 demoEvents (fun _ => 7)
    [⟨3, vecX⟩] [⟨1, vecX⟩, ⟨3, vecX⟩] (by simp) (.const _ _ _ _ (.var _ _ _ _ .nil)) demo_safe

/-- Which is five. -/
example : let s := demoEvents.foldl (step numpyLibrary Tensor.shape) (⟨0, []⟩, demoExpr)
    number (call numpyLibrary Tensor.shape (fun _ => 7) s.1 s.2 [⟨3, vecX⟩]).1 = some 5 := by decide +kernel

/-- An array of another shape: `ValueError`. -/
example : let s := [Event.call id [⟨1, vecX⟩, ⟨2, vecY⟩]].foldl (step numpyLibrary Tensor.shape) (⟨0, []⟩, dot)
    errorOf (call numpyLibrary Tensor.shape id s.1 s.2 [⟨1, vecX⟩, ⟨2, mat22⟩]).1 = some .value := by decide +kernel

end OE.Props
