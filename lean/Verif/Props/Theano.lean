import Verif.Spec.Theano
import Verif.Props.GraphMode

/-!
# C80: expressions compiled by Theano
-/

namespace OE.Props.Theano
open OE OE.Py OE.Spec OE.Contract OE.AnyLibrary OE.GraphMode OE.Parser OE.Theano OE.Props
open OE.Expression (fill)

variable {A : Type}

/-! ## The compiled function -/

theorem holes_eq (ps : List (Node A)) : holes ps = (graphIns ps).map Prod.fst := by
  unfold holes graphIns
  rw [List.map_filterMap]

theorem feed_eq {ndim : A → Nat} {ops : List (Operand A)} {ps : List (Node A)} (h : List.Forall₂ HoleFor ops ps) (ht : TensorsConst ops) (f : Feed A) :
    (argsOf ops).length = (graphIns ps).length ∧
    feedOf ps ops f = .ok (((graphIns ps).zip (argsOf ops)).foldl (fun f p => f.set p.1.1 p.2) f) ∧
    (((graphIns ps).zip (argsOf ops)).all (fun p => p.1.2 = dims ndim p.2) = true ↔ List.Forall₂ (NodeFor (dims ndim)) ops ps) := by
  induction h generalizing f with
  | nil => exact ⟨rfl, rfl, by simp [graphIns, argsOf]⟩
  | @cons o p ops ps hop _ ih =>
    have ht' : TensorsConst ops := fun n hn => ht n (by simp [hn])
    cases o with
    | tensor n =>
      obtain ⟨a, rfl⟩ := ht n (by simp)
      cases hop
      obtain ⟨h1, h2, h3⟩ := ih ht' f
      refine ⟨h1, h2, h3.trans ⟨fun h => .cons rfl h, fun h => ?_⟩⟩
      cases h
      assumption
    | array x =>
      obtain ⟨i, s, rfl⟩ := hop
      obtain ⟨h1, h2, h3⟩ := ih ht' (f.set i x.val)
      have e1 : graphIns (Node.hole i s :: ps) = (i, s) :: graphIns ps := rfl
      have e2 : argsOf (Operand.array x :: ops) = x.val :: argsOf ops := rfl
      rw [e1, e2]
      refine ⟨by simp [h1], h2, ?_⟩
      rw [List.zip_cons_cons, List.all_cons, Bool.and_eq_true, h3]
      simp only [decide_eq_true_eq]
      constructor
      · rintro ⟨rfl, h⟩
        exact .cons ⟨i, rfl⟩ h
      · intro h
        cases h with
        | cons a b =>
          obtain ⟨j, hj⟩ := a
          exact ⟨(hole_inj hj).2, b⟩

theorem runFunction_spec {lib : Library A} {ndim : A → Nat} {ops : List (Operand A)} {ps : List (Node A)} (h : List.Forall₂ HoleFor ops ps)
    (ht : TensorsConst ops) (hn : (holes ps).Nodup) {sharing : Bool} {steps : List Step} {g : Node A}
    (hg : AnyLibrary.coreContract (graphOf lib) sharing [] steps ps = .ok g) :
    (∀ a, runFunction ndim ps g ops = .ok a → outcome (liftLoop lib steps (ops.map opVal)) = some a) ∧
    (List.Forall₂ (NodeFor (dims ndim)) ops ps → (runFunction ndim ps g ops).toOption = outcome (liftLoop lib steps (ops.map opVal))) := by
  obtain ⟨h1, h2, h3⟩ := feed_eq (ndim := ndim) h ht []
  have key : List.Forall₂ (NodeFor (dims ndim)) ops ps → (runFunction ndim ps g ops).toOption = outcome (liftLoop lib steps (ops.map opVal)) := by
    intro hnode
    rw [← runGraph_spec hnode ht hn hg]
    obtain ⟨feed, f1, _, _, f4⟩ := feedOf_spec hnode ht hn []
    have e := h2.symm.trans f1
    unfold runFunction runGraph
    rw [if_neg (by simp [h1]), if_pos (h3.mpr hnode), f1]
    simp only [bind, Except.bind, f4, if_true]
    rw [Except.ok.inj e]
  refine ⟨fun a ha => ?_, key⟩
  by_cases hnode : List.Forall₂ (NodeFor (dims ndim)) ops ps
  · rw [← key hnode, ha]
    rfl
  · unfold runFunction at ha
    rw [if_neg (by simp [h1]), if_neg (fun hh => hnode (h3.mp hh))] at ha
    cases ha

/-! ## Conversions -/

theorem toGraph_isHole {shape : A → Shape} {w : World A} (hw : WorldOK shape w) (x : Obj A) : ∃ i s, (toGraph shape w x false).1 = .hole i s := by
  obtain ⟨g1, g2, g3, g4⟩ := toGraph_spec hw x false
  rcases hc : w.contexts with _ | ⟨c, cs⟩
  · rw [g3 hc]
    exact ⟨w.made, shape x.val, rfl⟩
  · rcases hc' : (toGraph shape w x false).2.contexts with _ | ⟨c', cs'⟩
    · rcases g2.contexts with ⟨h, _⟩ | ⟨_, _, _, _, h, _⟩
      · rw [hc] at h; cases h
      · rw [hc'] at h; cases h
    · obtain ⟨k1, _⟩ := g4 c' cs' hc'
      obtain ⟨y, i, _, _, _, k3⟩ := (g1 c' (by rw [hc']; simp)).holes _ _ k1
      exact ⟨i, shape y.val, k3⟩

theorem convertAll_holes {shape : A → Shape} {w : World A} (hw : WorldOK shape w) (ops : List (Operand A)) :
    List.Forall₂ HoleFor ops (convertAll shape w ops).1 := by
  induction ops generalizing w with
  | nil => exact .nil
  | cons o ops ih =>
    cases o with
    | tensor n => exact .cons rfl (ih hw)
    | array x => exact .cons (toGraph_isHole hw x) (ih (toGraph_spec hw x false).1)

theorem evalEach_spec {ndim : A → Nat} {w : World A} (hw : WorldOK (dims ndim) w) (ids : Nat → Nat) (k : Nat) (l : List (Option (Node A))) :
    WorldOK (dims ndim) (evalEach ndim ids k w l).2 ∧ Grows w (evalEach ndim ids k w l).2 ∧
    ∀ {shape' : A → Shape} w', Grows (evalEach ndim ids k w l).2 w' → NoReuse shape' w' →
      (evalEach ndim ids k w l).1 = (sessionRun l).map (List.map (Option.map Node.const)) := by
  induction l generalizing w k with
  | nil => exact ⟨hw, Grows.refl w, fun {_} _ _ _ => rfl⟩
  | cons o l ih =>
    cases o with
    | none =>
      obtain ⟨h1, h2, h3⟩ := ih hw (k + 1)
      refine ⟨h1, h2, fun {_} w' g n => ?_⟩
      simp only [evalEach, sessionRun]
      rw [h3 w' g n]
      cases sessionRun l <;> rfl
    | some p =>
      cases hp : p.eval [] with
      | error er =>
        have e : evalEach ndim ids k w (some p :: l) = (.error er, w) := by simp only [evalEach, hp]
        rw [e]
        refine ⟨hw, Grows.refl w, fun {_} w' g n => ?_⟩
        simp only [sessionRun, hp]
        rfl
      | ok a =>
        obtain ⟨g1, g2, _⟩ := toGraph_spec hw ⟨ids k, a⟩ true
        obtain ⟨h1, h2, h3⟩ := ih g1 (k + 1)
        have e : evalEach ndim ids k w (some p :: l) =
            ((evalEach ndim ids (k + 1) (toGraph (dims ndim) w ⟨ids k, a⟩ true).2 l).1.map (some (toGraph (dims ndim) w ⟨ids k, a⟩ true).1 :: ·),
              (evalEach ndim ids (k + 1) (toGraph (dims ndim) w ⟨ids k, a⟩ true).2 l).2) := by simp only [evalEach, hp]
        rw [e]
        refine ⟨h1, g2.trans h2, fun {_} w' g n => ?_⟩
        simp only [sessionRun, hp, bind, Except.bind]
        rw [h3 w' g n, toGraph_const hw ⟨ids k, a⟩ (h2.trans g) n]
        cases sessionRun l <;> rfl

theorem mem_holes {shape : A → Shape} {w : World A} (hw : WorldOK shape w) {ops : List (Operand A)} {id i : Nat} {s : Shape} {c : Context A} {cs : List (Context A)}
    (hc : w.contexts = c :: cs) (hi : c.cache.get? (id, false) = some (.hole i s)) (hid : id ∈ arrayIds ops) : i ∈ holes (convertAll shape w ops).1 := by
  induction ops generalizing w c cs with
  | nil => cases hid
  | cons o ops ih =>
    cases o with
    | tensor n =>
      have := ih hw hc hi hid
      show i ∈ holes (n :: (convertAll shape w ops).1)
      unfold holes at this ⊢
      rw [List.filterMap_cons]
      split
      · exact this
      · exact List.mem_cons_of_mem _ this
    | array x =>
      obtain ⟨g1, g2, _, g4⟩ := toGraph_spec hw x false
      rcases g2.contexts with ⟨h, _⟩ | ⟨d, d', ds, k1, k2, k3, _⟩
      · rw [hc] at h; cases h
      · rw [hc] at k1
        cases k1
        have hi' := k3 _ _ hi
        obtain ⟨j, t, hj⟩ := toGraph_isHole hw x
        have hcons : holes (convertAll shape w (.array x :: ops)).1 = j :: holes (convertAll shape (toGraph shape w x false).2 ops).1 := by
          show holes ((toGraph shape w x false).1 :: (convertAll shape (toGraph shape w x false).2 ops).1) = _
          rw [hj]
          rfl
        rw [hcons]
        rcases List.mem_cons.mp hid with rfl | hid
        · have := (g4 d' _ k2).1
          rw [hi', hj] at this
          rw [(hole_inj (Option.some.inj this)).1]
          exact List.mem_cons_self
        · exact List.mem_cons_of_mem _ (ih g1 k2 hi' hid)

/-- Inside a context, an array passed twice becomes one variable. -/
theorem holes_dup {shape : A → Shape} {w : World A} (hw : WorldOK shape w) {ops : List (Operand A)} (ht : TensorsConst ops) (hc : w.contexts ≠ [])
    (hd : ¬ (arrayIds ops).Nodup) : ¬ (holes (convertAll shape w ops).1).Nodup := by
  induction ops generalizing w with
  | nil => exact absurd List.nodup_nil hd
  | cons o ops ih =>
    have ht' : TensorsConst ops := fun n hn => ht n (by simp [hn])
    cases o with
    | tensor n =>
      obtain ⟨a, rfl⟩ := ht n (by simp)
      exact ih hw ht' hc hd
    | array x =>
      obtain ⟨g1, g2, _, g4⟩ := toGraph_spec hw x false
      obtain ⟨j, t, hj⟩ := toGraph_isHole hw x
      have hcons : holes (convertAll shape w (.array x :: ops)).1 = j :: holes (convertAll shape (toGraph shape w x false).2 ops).1 := by
        show holes ((toGraph shape w x false).1 :: (convertAll shape (toGraph shape w x false).2 ops).1) = _
        rw [hj]
        rfl
      rcases g2.contexts with ⟨h, _⟩ | ⟨d, d', ds, k1, k2, k3, _⟩
      · exact absurd h hc
      · rw [hcons, List.nodup_cons]
        rintro ⟨h1, h2⟩
        have hd' : ¬ (x.id :: arrayIds ops).Nodup := hd
        by_cases hx : x.id ∈ arrayIds ops
        · have := (g4 d' _ k2).1
          rw [hj] at this
          exact h1 (mem_holes g1 k2 this hx)
        · exact ih g1 ht' (by rw [k2]; simp) (fun h => hd' (List.nodup_cons.mpr ⟨hx, h⟩)) h2

/-! ## The state of the expression -/

/-- What is asked of `id`s: with `strict`, also that variables keep their number of dimensions. -/
def Kept (strict : Bool) (ndim : A → Nat) (w : World A) : Prop := NoReuse (if strict then dims ndim else fun _ => []) w

/-- What holds of an expression throughout a history; with `strict`, all calls pass arrays with the numbers of dimensions `nds`. -/
structure ExprOK (strict : Bool) (lib : Library A) (ndim : A → Nat) (steps : List Step) (n : Nat) (constants : Dict Nat (Obj A)) (nds : List Nat)
    (e : Expr A) : Prop where
  full : e.full = steps
  fullNumArgs : e.fullNumArgs = n
  numArgs : e.numArgs = n - constants.length
  consts : e.constants = constants
  state : (e.evaluated = none ∧ e.list = steps ∧ (e.compiled = none ∨ constants = [])) ∨
    ∃ vals, Evaluated lib steps (slotVals n constants) vals e.list ∧ e.evaluated = some (vals.map (Option.map Node.const))
  compiled : ∀ ps g, e.compiled = some (ps, g) → ∃ vals rest arrays ops sh, Current lib steps (slotVals n constants) vals rest ∧
    callOps vals arrays = .ok ops ∧ List.Forall₂ HoleFor ops ps ∧ (holes ps).Nodup ∧ AnyLibrary.coreContract (graphOf lib) sh [] rest ps = .ok g ∧
    (strict = true → arrays.map (fun x : Obj A => ndim x.val) = nds ∧ List.Forall₂ (NodeFor (dims ndim)) ops ps)

/-- What is asked of a call. -/
def SafeCall (strict : Bool) (ndim : A → Nat) (nds : List Nat) (w : World A) (arrays : List (Obj A)) : Prop :=
  strict = true → arrays.map (fun x => ndim x.val) = nds ∧ (w.contexts = [] ∨ (arrays.map Obj.id).Nodup)

theorem new_ok (strict : Bool) (lib : Library A) (ndim : A → Nat) (steps : List Step) (n : Nat) (constants : Dict Nat (Obj A)) (nds : List Nat) :
    ExprOK strict lib ndim steps n constants nds (Expr.new steps n constants) :=
  ⟨rfl, rfl, rfl, rfl, Or.inl ⟨rfl, rfl, Or.inl rfl⟩, fun _ _ h => (by cases h)⟩

theorem dims_of_ndims {ndim : A → Nat} {arrays arrays' : List (Obj A)} (h : arrays.map (fun x => ndim x.val) = arrays'.map (fun x => ndim x.val)) :
    arrays.map (fun x => dims ndim x.val) = arrays'.map (fun x => dims ndim x.val) := by
  have := congrArg (List.map (fun k => [k])) h
  simpa [List.map_map, Function.comp_def, dims] using this

section
variable {strict : Bool} {lib : Library A} {ndim : A → Nat} {steps : List Step} {n : Nat} {constants : Dict Nat (Obj A)} {nds : List Nat}

theorem evaluateConstants_spec {w : World A} {e : Expr A} (hw : WorldOK (dims ndim) w) (he : ExprOK strict lib ndim steps n constants nds e)
    (ids : Nat → Nat) :
    WorldOK (dims ndim) (Theano.evaluateConstants lib ndim ids w e).2.1 ∧ Grows w (Theano.evaluateConstants lib ndim ids w e).2.1 ∧
    (Kept strict ndim (Theano.evaluateConstants lib ndim ids w e).2.1 →
      ExprOK strict lib ndim steps n constants nds (Theano.evaluateConstants lib ndim ids w e).2.2 ∧
      ((Theano.evaluateConstants lib ndim ids w e).1 = .ok () → ∃ vals,
        Evaluated lib steps (slotVals n constants) vals (Theano.evaluateConstants lib ndim ids w e).2.2.list ∧
        (Theano.evaluateConstants lib ndim ids w e).2.2.evaluated = some (vals.map (Option.map Node.const))) ∧
      (∀ er, (Theano.evaluateConstants lib ndim ids w e).1 = .error er → ∀ vals rest, ¬ Evaluated lib steps (slotVals n constants) vals rest)) := by
  obtain ⟨h1, h2, h3⟩ := convertConsts_spec hw e.slots
  have hslots : e.slots.map (Option.map (fun x => Node.const x.val)) = (slotVals n constants).map (Option.map Node.const) := by
    unfold Expr.slots slotVals
    rw [he.fullNumArgs, he.consts, List.map_map, List.map_map]
    refine List.map_congr_left (fun i _ => ?_)
    simp only [Function.comp, Option.map_map]
    rfl
  unfold Theano.evaluateConstants
  simp only
  rw [evalLoop_sharing, he.full]
  cases hl : GraphMode.evalLoop (graphOf lib) false steps (convertConsts (dims ndim) w e.slots).1 with
  | error er =>
    refine ⟨h1, h2, fun hn => ⟨he, fun h => (by cases h), fun _ _ vals rest ⟨ops, k, _⟩ => ?_⟩⟩
    rw [h3 _ (Grows.refl _) hn, hslots, k] at hl
    cases hl
  | ok r =>
    cases r with
    | none =>
      refine ⟨h1, h2, fun hn => ⟨he, fun h => (by cases h), fun _ _ vals rest ⟨ops, k, _⟩ => ?_⟩⟩
      rw [h3 _ (Grows.refl _) hn, hslots, k] at hl
      cases hl
    | some r =>
      obtain ⟨ops, rest⟩ := r
      simp only
      obtain ⟨g1, g2, g3⟩ := evalEach_spec h1 ids 0 ops
      cases hs : evalEach ndim ids 0 (convertConsts (dims ndim) w e.slots).2 ops with
      | mk r w' =>
        rw [hs] at g1 g2 g3
        cases r with
        | error er =>
          refine ⟨g1, h2.trans g2, fun hn => ⟨he, fun h => (by cases h), fun _ _ vals rest' ⟨ops', k, k'⟩ => ?_⟩⟩
          rw [h3 _ g2 hn, hslots, k] at hl
          simp only [Except.ok.injEq, Option.some.injEq, Prod.mk.injEq] at hl
          have := g3 _ (Grows.refl _) hn
          rw [← hl.1, k'] at this
          cases this
        | ok new =>
          refine ⟨g1, h2.trans g2, fun hn => ?_⟩
          have hnew := g3 _ (Grows.refl _) hn
          cases hr : sessionRun ops with
          | error er => rw [hr] at hnew; cases hnew
          | ok vals =>
            rw [hr] at hnew
            have hnew := Except.ok.inj hnew
            have hev : Evaluated lib steps (slotVals n constants) vals rest := by
              refine ⟨ops, ?_, hr⟩
              rw [← hl, h3 _ g2 hn, hslots]
            exact ⟨⟨rfl, he.fullNumArgs, he.numArgs, he.consts, Or.inr ⟨vals, hev, by rw [← hnew]⟩, he.compiled⟩,
              fun _ => ⟨vals, hev, by rw [← hnew]⟩, fun _ h => by cases h⟩

/-- Building the function if there is none, and running it. -/
theorem runCompiled_spec {path : List (List Nat)} (hpath : steps.map Step.inds = path.map sortedDesc) (hc : CompletePath n path)
    {w : World A} {e : Expr A} (hw : WorldOK (dims ndim) w) (he : ExprOK strict lib ndim steps n constants nds e) {vals : List (Option A)}
    (hcur : Current lib steps (slotVals n constants) vals e.list) (hst : constants = [] ∨ e.evaluated ≠ none) {arrays : List (Obj A)} {ops : List (Operand A)}
    (hops : callOps vals arrays = .ok ops) (hsafe : SafeCall strict ndim nds w arrays) :
    WorldOK (dims ndim) (Theano.runCompiled lib ndim w e ops).2.1 ∧ Grows w (Theano.runCompiled lib ndim w e ops).2.1 ∧
    (Kept strict ndim (Theano.runCompiled lib ndim w e ops).2.1 →
      ExprOK strict lib ndim steps n constants nds (Theano.runCompiled lib ndim w e ops).2.2 ∧
      (∀ a, (Theano.runCompiled lib ndim w e ops).1 = .ok a → outcome (liftLoop lib e.list (ops.map opVal)) = some a) ∧
      (strict = true → (Theano.runCompiled lib ndim w e ops).1.toOption = outcome (liftLoop lib e.list (ops.map opVal)))) := by
  have hcl : CompletePath (slotVals n constants).length path := by simpa [slotVals] using hc
  unfold Theano.runCompiled
  cases hcomp : e.compiled with
  | some r =>
    obtain ⟨ps, g⟩ := r
    refine ⟨hw, Grows.refl w, fun _ => ⟨he, ?_⟩⟩
    obtain ⟨vals', rest', arrays', ops', sh, k1, k2, k3, k4, k5, k6⟩ := he.compiled ps g hcomp
    obtain ⟨q1, q2⟩ := Current.unique hpath hcl hcur k1
    rw [← q1] at k2
    rw [← q2] at k5
    obtain ⟨r1, r2⟩ := runFunction_spec (ndim := ndim) (callOps_holes k2 hops k3) (callOps_const hops) k4 k5
    refine ⟨r1, fun hs => r2 ?_⟩
    obtain ⟨k7, k8⟩ := k6 hs
    exact callOps_nodes k2 hops (dims_of_ndims (by rw [k7, (hsafe hs).1])) k8
  | none =>
    obtain ⟨h1, h2, _, h4, h5⟩ := convertAll_spec hw ops (callOps_const hops)
    have hnode : strict = true → Kept strict ndim (convertAll (dims ndim) w ops).2 →
        List.Forall₂ (NodeFor (dims ndim)) ops (convertAll (dims ndim) w ops).1 := by
      rintro rfl hn
      exact h4 _ (Grows.refl _) hn
    have hnd : strict = true → (holes (convertAll (dims ndim) w ops).1).Nodup :=
      fun hs => h5 ((hsafe hs).2.imp id (fun h => (callOps_ids hops).nodup h))
    simp only
    cases hg : AnyLibrary.coreContract (graphOf lib) (!(convertAll (dims ndim) w ops).2.contexts.isEmpty) [] e.list (convertAll (dims ndim) w ops).1 with
    | error er =>
      refine ⟨h1, h2, fun hn => ⟨he, fun a h => (by cases h), fun hs => ?_⟩⟩
      rw [build_error (hnode hs hn) (callOps_const hops) (hnd hs) hg]
      rfl
    | ok g =>
      simp only [← holes_eq]
      by_cases hdup : (holes (convertAll (dims ndim) w ops).1).Nodup
      · rw [if_pos hdup]
        refine ⟨h1, h2, fun hn => ⟨⟨he.full, he.fullNumArgs, he.numArgs, he.consts, ?_, ?_⟩, ?_⟩⟩
        · rcases he.state with ⟨k1, k2, _⟩ | h
          · exact Or.inl ⟨k1, k2, Or.inr (hst.resolve_right (fun h => h k1))⟩
          · exact Or.inr h
        · intro ps g' h
          cases h
          exact ⟨vals, e.list, arrays, ops, _, hcur, hops, convertAll_holes hw ops, hdup, hg, fun hs => ⟨(hsafe hs).1, hnode hs hn⟩⟩
        · obtain ⟨r1, r2⟩ := runFunction_spec (ndim := ndim) (convertAll_holes hw ops) (callOps_const hops) hdup hg
          exact ⟨r1, fun hs => r2 (hnode hs hn)⟩
      · rw [if_neg hdup]
        exact ⟨h1, h2, fun _ => ⟨he, fun a h => (by cases h), fun hs => absurd (hnd hs) hdup⟩⟩

/-! ## Calls -/

theorem runCompiled_world {w : World A} (hw : WorldOK (dims ndim) w) (e : Expr A) (ops : List (Operand A)) :
    WorldOK (dims ndim) (Theano.runCompiled lib ndim w e ops).2.1 ∧ Grows w (Theano.runCompiled lib ndim w e ops).2.1 := by
  unfold Theano.runCompiled
  split
  · exact ⟨hw, Grows.refl w⟩
  · obtain ⟨h1, h2⟩ := convertAll_world hw ops
    simp only
    split
    · exact ⟨h1, h2⟩
    · split
      · exact ⟨h1, h2⟩
      · exact ⟨h1, h2⟩

theorem evaluateConstants_world {w : World A} (hw : WorldOK (dims ndim) w) (e : Expr A) (ids : Nat → Nat) :
    WorldOK (dims ndim) (Theano.evaluateConstants lib ndim ids w e).2.1 ∧ Grows w (Theano.evaluateConstants lib ndim ids w e).2.1 := by
  obtain ⟨h1, h2, _⟩ := convertConsts_spec hw e.slots
  unfold Theano.evaluateConstants
  simp only
  split
  · exact ⟨h1, h2⟩
  · exact ⟨h1, h2⟩
  · rename_i ops _ _
    obtain ⟨g1, g2, _⟩ := evalEach_spec h1 ids 0 ops
    split
    · rename_i hs
      rw [hs] at g1 g2
      exact ⟨g1, h2.trans g2⟩
    · rename_i hs
      rw [hs] at g1 g2
      exact ⟨g1, h2.trans g2⟩

/-- The end of a call with constants. -/
def finish (lib : Library A) (ndim : A → Nat) (arrays : List (Obj A)) (w : World A) (e : Expr A) (ops : List (Option (Node A))) :
    Except PyErr A × World A × Expr A :=
  match fill (ops.map (Option.map Operand.tensor)) (arrays.map Operand.array) with
  | .error er => (.error er, w, e)
  | .ok l => Theano.runCompiled lib ndim w e l

theorem call_eq (ids : Nat → Nat) (w : World A) (e : Expr A) (arrays : List (Obj A)) : Theano.call lib ndim ids w e arrays =
    if arrays.length ≠ e.numArgs then (.error .value, w, e)
    else if e.constants = [] then Theano.runCompiled lib ndim w e (arrays.map Operand.array)
    else match e.evaluated with
      | some ops => finish lib ndim arrays w e ops
      | none => match Theano.evaluateConstants lib ndim ids w e with
        | (.error er, w', e') => (.error er, w', e')
        | (.ok _, w', e') => match e'.evaluated with
          | none => (.error .key, w', e')
          | some ops => finish lib ndim arrays w' e' ops := rfl

theorem finish_world {w : World A} (hw : WorldOK (dims ndim) w) (e : Expr A) (arrays : List (Obj A)) (ops : List (Option (Node A))) :
    WorldOK (dims ndim) (finish lib ndim arrays w e ops).2.1 ∧ Grows w (finish lib ndim arrays w e ops).2.1 := by
  unfold finish
  split
  · exact ⟨hw, Grows.refl w⟩
  · exact runCompiled_world hw e _

theorem call_world {w : World A} (hw : WorldOK (dims ndim) w) (e : Expr A) (ids : Nat → Nat) (arrays : List (Obj A)) :
    WorldOK (dims ndim) (Theano.call lib ndim ids w e arrays).2.1 ∧ Grows w (Theano.call lib ndim ids w e arrays).2.1 := by
  rw [call_eq]
  split
  · exact ⟨hw, Grows.refl w⟩
  · split
    · exact runCompiled_world hw e _
    · split
      · exact finish_world hw e arrays _
      · obtain ⟨h1, h2⟩ := evaluateConstants_world (lib := lib) hw e ids
        split
        · rename_i h
          rw [h] at h1 h2
          exact ⟨h1, h2⟩
        · rename_i h
          rw [h] at h1 h2
          split
          · exact ⟨h1, h2⟩
          · obtain ⟨h3, h4⟩ := finish_world (lib := lib) h1 _ arrays _
            exact ⟨h3, h2.trans h4⟩

/-- What a call may return. -/
def Agrees (strict : Bool) (r : Except PyErr A) (v : Option A) : Prop := (∀ a, r = .ok a → v = some a) ∧ (strict = true → r.toOption = v)

theorem finish_spec {path : List (List Nat)} (hpath : steps.map Step.inds = path.map sortedDesc) (hc : CompletePath n path)
    {w : World A} {e : Expr A} (hw : WorldOK (dims ndim) w) (he : ExprOK strict lib ndim steps n constants nds e) {arrays : List (Obj A)}
    (hsafe : SafeCall strict ndim nds w arrays) {vals : List (Option A)}
    (hev : Evaluated lib steps (slotVals n constants) vals e.list) (hsome : e.evaluated = some (vals.map (Option.map Node.const)))
    (hn : Kept strict ndim (finish lib ndim arrays w e (vals.map (Option.map Node.const))).2.1) :
    ExprOK strict lib ndim steps n constants nds (finish lib ndim arrays w e (vals.map (Option.map Node.const))).2.2 ∧
      ∀ full, Merge ((List.range n).map (fun i => constants.get? i)) arrays full →
        Agrees strict (finish lib ndim arrays w e (vals.map (Option.map Node.const))).1
          (AnyLibrary.coreContract lib false [] steps (full.map Obj.val)).toOption := by
  unfold finish at hn ⊢
  rw [map_tensor_const] at hn ⊢
  have hdef : fill (vals.map (Option.map (fun a => Operand.tensor (.const a)))) (arrays.map Operand.array) = callOps vals arrays := rfl
  rw [hdef] at hn ⊢
  cases hops : callOps vals arrays with
  | error er =>
    refine ⟨he, fun full hm => ?_⟩
    obtain ⟨ops, h, _⟩ := current_outcome hpath hc (Or.inr hev) hm
    rw [hops] at h
    cases h
  | ok ops =>
    rw [hops] at hn
    obtain ⟨h1, h2, h3⟩ := runCompiled_spec hpath hc hw he (Or.inr hev) (Or.inr (by rw [hsome]; simp)) hops hsafe
    refine ⟨(h3 hn).1, fun full hm => ?_⟩
    obtain ⟨ops', h, h'⟩ := current_outcome hpath hc (Or.inr hev) hm
    rw [hops] at h
    cases h
    rw [← h']
    exact (h3 hn).2

/-- A call. -/
theorem call_spec {path : List (List Nat)} (hpath : steps.map Step.inds = path.map sortedDesc) (hc : CompletePath n path)
    (hnd : (constants.map Prod.fst).Nodup) (hlt : ∀ k ∈ constants.map Prod.fst, k < n)
    {w : World A} {e : Expr A} (hw : WorldOK (dims ndim) w) (he : ExprOK strict lib ndim steps n constants nds e) (ids : Nat → Nat) {arrays : List (Obj A)}
    (hsafe : SafeCall strict ndim nds w arrays) (hn : Kept strict ndim (Theano.call lib ndim ids w e arrays).2.1) :
    ExprOK strict lib ndim steps n constants nds (Theano.call lib ndim ids w e arrays).2.2 ∧
      ∀ full, (strict = true → arrays ≠ []) → Merge ((List.range n).map (fun i => constants.get? i)) arrays full →
        Agrees strict (Theano.call lib ndim ids w e arrays).1 (AnyLibrary.coreContract lib false [] steps (full.map Obj.val)).toOption := by
  have hcl : CompletePath (slotVals n constants).length path := by simpa [slotVals] using hc
  have hlen : ∀ full, Merge ((List.range n).map (fun i => constants.get? i)) arrays full → arrays.length = e.numArgs := by
    intro full hm
    rw [(merge_count hm).1, slots_length n constants hnd hlt, he.numArgs]
  rw [call_eq] at hn ⊢
  by_cases hna : arrays.length ≠ e.numArgs
  · rw [if_pos hna]
    exact ⟨he, fun full _ hm => absurd (hlen full hm) hna⟩
  · rw [if_neg hna] at hn ⊢
    push Not at hna
    by_cases hnil : e.constants = []
    · rw [if_pos hnil] at hn ⊢
      rw [he.consts] at hnil
      subst hnil
      have hn' : n = arrays.length := by rw [hna, he.numArgs]; simp
      subst hn'
      have hlist : e.list = steps := by
        rcases he.state with ⟨_, h, _⟩ | ⟨vals, h, _⟩
        · exact h
        · exact (Current.unique hpath hcl (Or.inr h) (Or.inl ⟨slotVals_nil _, rfl, rfl⟩)).2
      have hcur : Current lib steps (slotVals arrays.length []) (slotVals arrays.length []) e.list := Or.inl ⟨slotVals_nil _, rfl, hlist⟩
      obtain ⟨h1, h2, h3⟩ := runCompiled_spec hpath hc hw he hcur (Or.inl rfl) (callOps_nil arrays) hsafe
      refine ⟨(h3 hn).1, fun full _ hm => ?_⟩
      obtain ⟨ops', h, h'⟩ := current_outcome hpath hc hcur hm
      rw [callOps_nil] at h
      cases h
      rw [← h']
      exact (h3 hn).2
    · rw [if_neg hnil] at hn ⊢
      rcases he.state with ⟨hev, hlist, hcomp⟩ | ⟨vals, hev, hsome⟩
      · simp only [hev] at hn ⊢
        obtain ⟨h1, h2, h3⟩ := evaluateConstants_spec hw he ids
        cases hr : Theano.evaluateConstants lib ndim ids w e with
        | mk r we =>
          obtain ⟨w', e'⟩ := we
          rw [hr] at h1 h2 h3 hn
          cases r with
          | error er =>
            refine ⟨(h3 hn).1, fun full hne hm => ⟨fun a h => (by cases h), fun hs => ?_⟩⟩
            have hno := (h3 hn).2.2 er rfl
            have hf := merge_fill (fun x : Obj A => some x.val) hm
            have e1 : ((List.range n).map (fun i => constants.get? i)).map (Option.map (fun x : Obj A => some x.val)) =
                (slotVals n constants).map (Option.map some) := by
              unfold slotVals
              rw [List.map_map, List.map_map]
              refine List.map_congr_left (fun i _ => ?_)
              simp only [Function.comp, Option.map_map]
              rfl
            rw [e1] at hf
            have hnone : none ∈ slotVals n constants := by
              obtain ⟨i, hi, hi'⟩ := List.mem_map.mp (merge_none hm (hne hs))
              exact List.mem_map.mpr ⟨i, hi, by rw [hi']; rfl⟩
            have key := outcome_of_eval_error (sharing := false) hpath (inds_desc hpath hc) hcl hnone
              (fun ops rest vals k k' => hno vals rest ⟨ops, k, k'⟩) hf
            have e4 : full.map (fun x : Obj A => some x.val) = (full.map Obj.val).map some := by rw [List.map_map]; rfl
            rw [e4, outcome_array lib false hpath (by rw [List.length_map, (merge_count hm).2]; simpa using hc)] at key
            rw [key]
            rfl
          | ok u =>
            simp only at hn ⊢
            cases hev' : e'.evaluated with
            | none =>
              rw [hev'] at hn
              obtain ⟨vals, _, h⟩ := (h3 hn).2.1 rfl
              rw [hev'] at h
              cases h
            | some ops =>
              rw [hev'] at hn
              simp only at hn ⊢
              have hn' : Kept strict ndim w' := (finish_world (lib := lib) h1 e' arrays ops).2.noReuse hn
              obtain ⟨vals, k1, k2⟩ := (h3 hn').2.1 rfl
              rw [hev'] at k2
              cases k2
              obtain ⟨g1, g2⟩ := finish_spec hpath hc h1 (h3 hn').1 (fun hs => ⟨(hsafe hs).1, (hsafe hs).2.imp h2.nil id⟩) k1 hev' hn
              exact ⟨g1, fun full _ hm => g2 full hm⟩
      · simp only [hsome] at hn ⊢
        obtain ⟨g1, g2⟩ := finish_spec hpath hc hw he hsafe hev hsome hn
        exact ⟨g1, fun full _ hm => g2 full hm⟩

/-! ## Histories -/

/-- A history as asked for. -/
def GoodHistory (strict : Bool) (lib : Library A) (ndim : A → Nat) (nds : List Nat) : World A × Expr A → List (Event A) → Prop
  | _, [] => True
  | s, ev :: evs => (∀ ids arrays, ev = .call ids arrays → SafeCall strict ndim nds s.1 arrays) ∧ Kept strict ndim (Theano.step lib ndim s ev).1 ∧
    GoodHistory strict lib ndim nds (Theano.step lib ndim s ev) evs

theorem step_ok {path : List (List Nat)} (hpath : steps.map Step.inds = path.map sortedDesc) (hc : CompletePath n path)
    (hnd : (constants.map Prod.fst).Nodup) (hlt : ∀ k ∈ constants.map Prod.fst, k < n) {s : World A × Expr A} (hw : WorldOK (dims ndim) s.1)
    (he : ExprOK strict lib ndim steps n constants nds s.2) (ev : Event A) (hs : ∀ ids arrays, ev = .call ids arrays → SafeCall strict ndim nds s.1 arrays)
    (hn : Kept strict ndim (Theano.step lib ndim s ev).1) :
    WorldOK (dims ndim) (Theano.step lib ndim s ev).1 ∧ ExprOK strict lib ndim steps n constants nds (Theano.step lib ndim s ev).2 := by
  cases ev with
  | enter =>
    refine ⟨fun c h => ?_, he⟩
    rcases List.mem_cons.mp h with rfl | h
    · exact ⟨fun _ _ h => (by cases h), fun _ _ h => (by cases h), fun _ _ _ _ _ h => (by cases h)⟩
    · exact hw c h
  | exit => exact ⟨fun c h => hw c (List.mem_of_mem_tail h), he⟩
  | convert x b => exact ⟨(toGraph_spec hw x b).1, he⟩
  | evaluate ids =>
    obtain ⟨h1, _, h3⟩ := evaluateConstants_spec hw he ids
    exact ⟨h1, (h3 hn).1⟩
  | call ids arrays => exact ⟨(call_world hw s.2 ids arrays).1, (call_spec hpath hc hnd hlt hw he ids (hs ids arrays rfl) hn).1⟩

theorem history_ok {path : List (List Nat)} (hpath : steps.map Step.inds = path.map sortedDesc) (hc : CompletePath n path)
    (hnd : (constants.map Prod.fst).Nodup) (hlt : ∀ k ∈ constants.map Prod.fst, k < n) {s : World A × Expr A} (hw : WorldOK (dims ndim) s.1)
    (he : ExprOK strict lib ndim steps n constants nds s.2) (evs : List (Event A)) (ids : Nat → Nat) (arrays : List (Obj A))
    (h : GoodHistory strict lib ndim nds s (evs ++ [.call ids arrays])) :
    let s' := evs.foldl (Theano.step lib ndim) s
    WorldOK (dims ndim) s'.1 ∧ ExprOK strict lib ndim steps n constants nds s'.2 ∧ SafeCall strict ndim nds s'.1 arrays ∧
      Kept strict ndim (Theano.call lib ndim ids s'.1 s'.2 arrays).2.1 := by
  induction evs generalizing s with
  | nil => exact ⟨hw, he, h.1 ids arrays rfl, h.2.1⟩
  | cons ev evs ih =>
    obtain ⟨h1, h2, h3⟩ := h
    obtain ⟨g1, g2⟩ := step_ok hpath hc hnd hlt hw he ev h1 h2
    exact ih g1 g2 h3

theorem calls {path : List (List Nat)} (hpath : steps.map Step.inds = path.map sortedDesc) (hc : CompletePath n path)
    (hnd : (constants.map Prod.fst).Nodup) (hlt : ∀ k ∈ constants.map Prod.fst, k < n) (m : Nat) (evs : List (Event A)) (ids : Nat → Nat)
    (arrays full : List (Obj A)) (hv : strict = true → arrays ≠ []) (hm : Merge ((List.range n).map (fun i => constants.get? i)) arrays full)
    (h : GoodHistory strict lib ndim nds (⟨m, []⟩, Expr.new steps n constants) (evs ++ [.call ids arrays])) :
    let s := evs.foldl (Theano.step lib ndim) (⟨m, []⟩, Expr.new steps n constants)
    Agrees strict (Theano.call lib ndim ids s.1 s.2 arrays).1 (AnyLibrary.coreContract lib false [] steps (full.map Obj.val)).toOption := by
  intro s
  obtain ⟨g1, g2, g3, g4⟩ := history_ok hpath hc hnd hlt (world_new m) (new_ok strict lib ndim steps n constants nds) evs ids arrays h
  exact (call_spec hpath hc hnd hlt g1 g2 ids g3 g4).2 full hv hm

theorem arrayIds_map (arrays : List (Obj A)) : arrayIds (arrays.map Operand.array) = arrays.map Obj.id := by
  induction arrays with
  | nil => rfl
  | cons x l ih => rw [List.map_cons, List.map_cons, arrayIds, ih]

/-- Whatever happened, the memoized conversions are as `WorldOK` says, and the constants are those given. -/
theorem history_world {s : World A × Expr A} (hw : WorldOK (dims ndim) s.1) (evs : List (Event A)) :
    WorldOK (dims ndim) (evs.foldl (Theano.step lib ndim) s).1 ∧ (evs.foldl (Theano.step lib ndim) s).2.constants = s.2.constants := by
  have run : ∀ (w : World A) (e : Expr A) ops, (Theano.runCompiled lib ndim w e ops).2.2.constants = e.constants := by
    intro w e ops
    unfold Theano.runCompiled
    split
    · rfl
    · simp only
      split
      · rfl
      · split <;> rfl
  have fin : ∀ (arrays : List (Obj A)) (w : World A) (e : Expr A) ops, (finish lib ndim arrays w e ops).2.2.constants = e.constants := by
    intro arrays w e ops
    unfold finish
    split
    · rfl
    · exact run _ _ _
  have ev : ∀ (ids : Nat → Nat) (w : World A) (e : Expr A), (Theano.evaluateConstants lib ndim ids w e).2.2.constants = e.constants := by
    intro ids w e
    unfold Theano.evaluateConstants
    simp only
    split
    · rfl
    · rfl
    · split <;> rfl
  induction evs generalizing s with
  | nil => exact ⟨hw, rfl⟩
  | cons e evs ih =>
    have key : WorldOK (dims ndim) (Theano.step lib ndim s e).1 ∧ (Theano.step lib ndim s e).2.constants = s.2.constants := by
      cases e with
      | enter =>
        refine ⟨fun c h => ?_, rfl⟩
        rcases List.mem_cons.mp h with rfl | h
        · exact ⟨fun _ _ h => (by cases h), fun _ _ h => (by cases h), fun _ _ _ _ _ h => (by cases h)⟩
        · exact hw c h
      | exit => exact ⟨fun c h => hw c (List.mem_of_mem_tail h), rfl⟩
      | convert x b => exact ⟨(toGraph_spec hw x b).1, rfl⟩
      | evaluate ids => exact ⟨(evaluateConstants_world hw s.2 ids).1, ev _ _ _⟩
      | call ids arrays =>
        refine ⟨(call_world hw s.2 ids arrays).1, ?_⟩
        show (Theano.call lib ndim ids s.1 s.2 arrays).2.2.constants = _
        rw [call_eq]
        split
        · rfl
        · split
          · exact run _ _ _
          · split
            · exact fin _ _ _ _
            · have h := ev ids s.1 s.2
              split
              · rename_i hr
                rw [hr] at h
                exact h
              · rename_i hr
                rw [hr] at h
                split
                · exact h
                · rw [fin]
                  exact h
    obtain ⟨h1, h2⟩ := ih (s := Theano.step lib ndim s e) key.1
    exact ⟨h1, h2.trans key.2⟩

theorem good_of_kept {s : World A × Expr A} (evs : List (Event A)) (h : KeptHistory lib ndim s evs) : GoodHistory false lib ndim [] s evs := by
  induction evs generalizing s with
  | nil => trivial
  | cons ev evs ih =>
    exact ⟨fun _ _ _ hs => (by cases hs), fun c hc => ⟨h.1 c hc, fun _ _ _ _ _ => rfl⟩, ih h.2⟩

theorem good_of_theano {s : World A × Expr A} (evs : List (Event A)) (h : TheanoHistory lib ndim nds s evs) : GoodHistory true lib ndim nds s evs := by
  induction evs generalizing s with
  | nil => trivial
  | cons ev evs ih => exact ⟨fun ids arrays he _ => h.1 ids arrays he, h.2.1, ih h.2.2⟩

end

end OE.Props.Theano

namespace OE.Props
open OE OE.Py OE.Spec OE.Contract OE.AnyLibrary OE.GraphMode OE.Parser

variable {A : Type} {lib : Library A} {ndim : A → Nat} {steps : List Step} {n : Nat} {constants : Dict Nat (Obj A)}

/-- **C80.** With Theano, after any history in which the constants converted in a context are kept alive, a call that returns, returns what the library computes from
the constants and the arrays of *this* call, merged in order. The history may call the expression with any arrays: of other shapes, of other numbers of
dimensions, the same array several times; enter and leave contexts; convert arrays for other expressions; let arrays die and others get their `id`; evaluate the constants again. -/
theorem C80_theano_right {path : List (List Nat)} (hpath : steps.map Step.inds = path.map sortedDesc) (hc : CompletePath n path)
    (hnd : (constants.map Prod.fst).Nodup) (hlt : ∀ k ∈ constants.map Prod.fst, k < n) (m : Nat) (evs : List (Event A)) (ids : Nat → Nat)
    (arrays full : List (Obj A)) (hm : Merge ((List.range n).map (fun i => constants.get? i)) arrays full)
    (h : KeptHistory lib ndim (⟨m, []⟩, Expr.new steps n constants) (evs ++ [.call ids arrays])) (a : A)
    (ha : let s := evs.foldl (Theano.step lib ndim) (⟨m, []⟩, Expr.new steps n constants); (Theano.call lib ndim ids s.1 s.2 arrays).1 = .ok a) :
    AnyLibrary.coreContract lib false [] steps (full.map Obj.val) = .ok a := by
  have := (Theano.calls hpath hc hnd hlt m evs ids arrays full (fun hs => by cases hs) hm (Theano.good_of_kept _ h)).1 a ha
  cases hr : AnyLibrary.coreContract lib false [] steps (full.map Obj.val) with
  | error e => rw [hr] at this; cases this
  | ok b => rw [hr] at this; cases this; rfl

/-- **C80, when a call returns.** If moreover all calls pass arrays with the same numbers of dimensions (their shapes may differ) and, inside
`shared_intermediates`, different objects, and no `id` comes to stand for an array with another number of dimensions, then a call returns exactly if the contraction of the
constants and its arrays can be computed. -/
theorem C80_theano_returns {path : List (List Nat)} (hpath : steps.map Step.inds = path.map sortedDesc) (hc : CompletePath n path)
    (hnd : (constants.map Prod.fst).Nodup) (hlt : ∀ k ∈ constants.map Prod.fst, k < n) (nds : List Nat) (m : Nat) (evs : List (Event A)) (ids : Nat → Nat)
    (arrays full : List (Obj A)) (hv : arrays ≠ []) (hm : Merge ((List.range n).map (fun i => constants.get? i)) arrays full)
    (h : TheanoHistory lib ndim nds (⟨m, []⟩, Expr.new steps n constants) (evs ++ [.call ids arrays])) :
    let s := evs.foldl (Theano.step lib ndim) (⟨m, []⟩, Expr.new steps n constants)
    (Theano.call lib ndim ids s.1 s.2 arrays).1.toOption = (AnyLibrary.coreContract lib false [] steps (full.map Obj.val)).toOption :=
  (Theano.calls hpath hc hnd hlt m evs ids arrays full (fun _ => hv) hm (Theano.good_of_theano _ h)).2 rfl

/-- **C80, the same array twice.** Inside `shared_intermediates`, the first call of an expression without constants raises if an array is passed
twice (which is no reason for an expression not compiled by Theano), and stores nothing: unlike with tensorflow, later calls are not affected. -/
theorem C80_same_array (m : Nat) (evs : List (Event A)) (ids : Nat → Nat) (arrays : List (Obj A)) (hd : ¬ (arrays.map Obj.id).Nodup) :
    let s := evs.foldl (Theano.step lib ndim) (⟨m, []⟩, Expr.new steps n [])
    s.1.contexts ≠ [] → s.2.compiled = none →
      (∃ er, (Theano.call lib ndim ids s.1 s.2 arrays).1 = .error er) ∧ (Theano.call lib ndim ids s.1 s.2 arrays).2.2 = s.2 := by
  intro s hctx hcomp
  obtain ⟨h1, h2⟩ := Theano.history_world (lib := lib) (ndim := ndim) (s := (⟨m, []⟩, Expr.new steps n [])) (world_new m) evs
  have hc : s.2.constants = [] := h2
  rw [Theano.call_eq]
  split
  · exact ⟨⟨_, rfl⟩, rfl⟩
  · unfold Theano.runCompiled
    rw [hcomp]
    simp only
    split
    · exact ⟨⟨_, rfl⟩, rfl⟩
    · rw [← Theano.holes_eq, if_neg]
      · exact ⟨⟨_, rfl⟩, rfl⟩
      · exact Theano.holes_dup h1 (fun p hp => by simp at hp) hctx (by rw [Theano.arrayIds_map]; exact hd)

/-! ## Why constants must be kept -/

/-- Two dot products, and the product of both with an argument. -/
def twoSteps : List Step := [
  { inds := [1, 0], removed := {97}, einsumStr := S "a,a->", remaining := none, blas := .no },
  { inds := [1, 0], removed := {98}, einsumStr := S "b,b->", remaining := none, blas := .no },
  { inds := [2, 1, 0], removed := {99}, einsumStr := S ",,->", remaining := none, blas := .no }]

def vec (k : Nat) : Tensor Nat := ⟨[1], fun _ => k⟩
def scalar (k : Nat) : Tensor Nat := ⟨[], fun _ => k⟩

def twoExpr : Expr (Tensor Nat) := Expr.new twoSteps 5
  [(0, ⟨1, vec 1⟩), (1, ⟨2, vec 2⟩), (2, ⟨3, vec 3⟩), (3, ⟨4, vec 4⟩)]

def rank (t : Tensor Nat) : Nat := t.shape.length

/-- **Why constants must be kept.** The arrays that `x.eval()` returns are dropped one by one as they are converted, but their `id`s stay in the
cache. If inside `shared_intermediates` the second gets the `id` of the first, which has just been freed, the expression works with the first
constant in place of the second: `(1·2)(1·2)` instead of `(1·2)(3·4)`. Outside it does not matter. -/
theorem C80_counterexample_recycled :
    number (Theano.call numpyLibrary rank (fun _ => 9) ⟨0, [⟨[], []⟩]⟩ twoExpr [⟨8, scalar 1⟩]).1 = some 4 ∧
    number (Theano.call numpyLibrary rank (fun k => 9 + k) ⟨0, [⟨[], []⟩]⟩ twoExpr [⟨8, scalar 1⟩]).1 = some 24 ∧
    number (Theano.call numpyLibrary rank (fun _ => 9) ⟨0, []⟩ twoExpr [⟨8, scalar 1⟩]).1 = some 24 := by
  refine ⟨?_, ?_, ?_⟩ <;> decide +kernel

/-! ## Concrete cases -/

theorem kept_log {w : World A} {l : List (Bool × Obj A)} (h : w.contexts.head?.map Context.log = some l)
    (hl : ∀ p ∈ l, ∀ q ∈ l, p.1 = true → q.1 = true → p.2.id = q.2.id → p.2.val = q.2.val) : ConstantsKept w := by
  intro c hc x y hx hy hxy
  rw [hc] at h
  cases h
  exact hl _ hx _ hy rfl rfl hxy

theorem kept_nil {w : World A} (h : w.contexts.head? = none) : ConstantsKept w := by
  intro c hc
  rw [h] at hc
  cases hc

/-- Calls with arrays of another number of dimensions and of another shape, and an `id` that comes to stand for another array. -/
def keptEvents : List (Event (Tensor Nat)) :=
  [.enter, .call (fun _ => 5) [⟨2, vecY⟩], .call (fun _ => 6) [⟨2, mat22⟩], .exit, .call (fun _ => 6) [⟨3, vec 3⟩]]

theorem demo_kept : KeptHistory numpyLibrary rank (⟨0, []⟩, demoExpr) (keptEvents ++ [.call (fun _ => 7) [⟨3, vecY⟩]]) :=
  ⟨kept_log (l := []) rfl (by simp), kept_log (l := [(true, ⟨1, vecX⟩), (true, ⟨5, vecX⟩), (false, ⟨2, vecY⟩)]) rfl (by simp),
    kept_log (l := [(true, ⟨1, vecX⟩), (true, ⟨5, vecX⟩), (false, ⟨2, vecY⟩)]) rfl (by simp), kept_nil rfl, kept_nil rfl, kept_nil rfl, trivial⟩

example : ∃ a, (let s := keptEvents.foldl (Theano.step numpyLibrary rank) (⟨0, []⟩, demoExpr)
    (Theano.call numpyLibrary rank (fun _ => 7) s.1 s.2 [⟨3, vecY⟩]).1 = .ok a) ∧
    AnyLibrary.coreContract numpyLibrary false [] dotSteps [vecX, vecY] = .ok a := by
  have h : ∃ a, (let s := keptEvents.foldl (Theano.step numpyLibrary rank) (⟨0, []⟩, demoExpr)
      (Theano.call numpyLibrary rank (fun _ => 7) s.1 s.2 [⟨3, vecY⟩]).1 = .ok a) := ⟨_, rfl⟩
  obtain ⟨a, ha⟩ := h
  exact ⟨a, ha, C80_theano_right (constants := [(0, ⟨1, vecX⟩)]) (path := [[0, 1]]) (by decide) (completePath_range (n := 2) (by decide)) (by decide) (by decide) 0 keptEvents
    (fun _ => 7) [⟨3, vecY⟩] [⟨1, vecX⟩, ⟨3, vecY⟩] (.const _ _ _ _ (.var _ _ _ _ .nil)) demo_kept a ha⟩

/-- Which is eleven; and the call with a matrix raised `TypeError`. -/
example : (let s := keptEvents.foldl (Theano.step numpyLibrary rank) (⟨0, []⟩, demoExpr)
    number (Theano.call numpyLibrary rank (fun _ => 7) s.1 s.2 [⟨3, vecY⟩]).1 = some 11) ∧
    (let s := (keptEvents.take 2).foldl (Theano.step numpyLibrary rank) (⟨0, []⟩, demoExpr)
    errorOf (Theano.call numpyLibrary rank (fun _ => 6) s.1 s.2 [⟨2, mat22⟩]).1 = some .type) := by
  constructor <;> decide +kernel

/-- Arrays of other shapes with the same number of dimensions: no need for a new expression, unlike in tensorflow's graph mode. -/
def otherShapes : List (Event (Tensor Nat)) := [.call id [⟨1, vecX⟩, ⟨2, vecY⟩], .enter]

theorem demo_theano : TheanoHistory numpyLibrary rank [1, 1] (⟨0, []⟩, dot) (otherShapes ++ [.call id [⟨1, vec 3⟩, ⟨2, vec 4⟩]]) :=
  ⟨fun _ _ h => (by cases h; exact ⟨rfl, Or.inl rfl⟩), noReuse_nil rfl, fun _ _ h => (by cases h), noReuse_log (l := []) rfl (by simp),
    fun _ _ h => (by cases h; exact ⟨rfl, Or.inr (by decide)⟩), noReuse_log (l := []) rfl (by simp), trivial⟩

example : let s := otherShapes.foldl (Theano.step numpyLibrary rank) (⟨0, []⟩, dot)
    (Theano.call numpyLibrary rank id s.1 s.2 [⟨1, vec 3⟩, ⟨2, vec 4⟩]).1.toOption =
      (AnyLibrary.coreContract numpyLibrary false [] dotSteps [vec 3, vec 4]).toOption :=
  C80_theano_returns (path := [[0, 1]]) (by decide) (completePath_range (n := 2) (by decide)) (by decide) (by decide) [1, 1] 0 otherShapes id
    [⟨1, vec 3⟩, ⟨2, vec 4⟩] [⟨1, vec 3⟩, ⟨2, vec 4⟩] (by simp) (.var _ _ _ _ (.var _ _ _ _ .nil)) demo_theano

/-- Which is twelve; in tensorflow's graph mode it raises. -/
example : (let s := otherShapes.foldl (Theano.step numpyLibrary rank) (⟨0, []⟩, dot)
    number (Theano.call numpyLibrary rank id s.1 s.2 [⟨1, vec 3⟩, ⟨2, vec 4⟩]).1 = some 12) ∧
    (let s := otherShapes.foldl (step numpyLibrary Tensor.shape) (⟨0, []⟩, dot)
    errorOf (call numpyLibrary Tensor.shape id s.1 s.2 [⟨1, vec 3⟩, ⟨2, vec 4⟩]).1 = some .value) := by
  constructor <;> decide +kernel

/-- The same array twice, inside a context and outside. -/
example : (let s := [Event.enter].foldl (Theano.step numpyLibrary rank) (⟨0, []⟩, dot)
    s.1.contexts.isEmpty = false ∧ s.2.compiled.isNone ∧ errorOf (Theano.call numpyLibrary rank id s.1 s.2 [⟨1, vecX⟩, ⟨1, vecX⟩]).1 = some .value) ∧
    number (Theano.call numpyLibrary rank id ⟨0, []⟩ dot [⟨1, vecX⟩, ⟨1, vecX⟩]).1 = some 5 := by
  refine ⟨⟨rfl, rfl, ?_⟩, ?_⟩ <;> decide +kernel

end OE.Props
