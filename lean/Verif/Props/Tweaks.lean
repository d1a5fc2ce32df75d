import Verif.Spec.Tweaks
import Verif.Props.Assessed

/-!
# C96: the settings of a `BranchBound` object
-/

namespace OE.Props
open OE OE.Py OE.Spec OE.Paths

/-- The sets are iterated in some order of their elements in each call. -/
def CallOrdersOK (uses : List BBUse) : Prop := ∀ mem order, BBUse.call mem order ∈ uses → OrderOK order

/-- **C96.** What the constructor does, for all arguments: `nbranch` is checked first, then `minimize`. -/
theorem C96_new (nbranch : Option Int) (cutoff : ℚ) (minimize : Str) (cost : CostFn) :
    ((∃ k, nbranch = some k ∧ k < 1) → BBObj.new nbranch cutoff minimize cost = .error .value) ∧
    ((∀ k, nbranch = some k → 1 ≤ k) → minimize ≠ S "flops" → minimize ≠ S "size" → BBObj.new nbranch cutoff minimize cost = .error .key) ∧
    ((∀ k, nbranch = some k → 1 ≤ k) → minimize = S "flops" ∨ minimize = S "size" →
      ∃ o, BBObj.new nbranch cutoff minimize cost = .ok o ∧ o.nbranch = nbranch ∧ o.cutoff = cutoff ∧ o.cost = cost ∧
        (o.better = true ↔ minimize = S "size") ∧ o.st = BBSt.fresh) := by
  refine ⟨?_, ?_, ?_⟩
  · rintro ⟨k, rfl, hk⟩
    simp [BBObj.new, hk]
  · intro hk h1 h2
    have : nbranch.any (fun k => decide (k < 1)) = false := by
      cases nbranch with
      | none => rfl
      | some k => have := hk k rfl; simpa using this
    simp [BBObj.new, this, getBetterFn, h1, h2, bind, Except.bind]
  · intro hk h
    have : nbranch.any (fun k => decide (k < 1)) = false := by
      cases nbranch with
      | none => rfl
      | some k => have := hk k rfl; simpa using this
    rcases h with rfl | rfl
    · exact ⟨_, by simp only [BBObj.new, this, getBetterFn]; rfl, rfl, rfl, rfl, iff_of_false Bool.false_ne_true (by decide), rfl⟩
    · have hne : ¬ S "size" = S "flops" := by decide
      exact ⟨_, by simp only [BBObj.new, this, getBetterFn, if_neg hne]; rfl, rfl, rfl, rfl, by simp, rfl⟩

/-! ## Calls that visit no candidate -/

section
variable {cfg : BBCfg} {size : Nat → Nat} {out : Finset Nat} {mem : Option Nat} {order : SetOrder} {n : Nat}

theorem assess_some (nd : SearchNode) (sz : Nat) (st : BBSt) (ij : Nat × Nat) (h : st.path ≠ none) :
    (assess cfg size out mem order nd sz st ij).2.path ≠ none := by
  unfold assess
  simp only
  split
  · cases progressStep cfg.cutoff st.progress nd.inputs.length _ with
    | none => exact h
    | some p' =>
      simp only [assessFit]
      split
      · split
        · simp
        · exact h
      · exact h
  · exact h

theorem assess_fold_some (nd : SearchNode) (sz : Nat) (l : List (Nat × Nat)) (acc : List Cand × BBSt) (h : acc.2.path ≠ none) :
    (l.foldl (assessStep cfg size out mem order nd sz) acc).2.path ≠ none := by
  induction l generalizing acc with
  | nil => exact h
  | cons x xs ih =>
    rw [List.foldl_cons]
    exact ih _ (assess_some nd sz acc.2 x h)

theorem candidates_some (nd : SearchNode) (sz : Nat) (st : BBSt) (h : st.path ≠ none) :
    (candidates cfg size out mem order nd sz st).2.path ≠ none := by
  unfold candidates
  simp only
  split
  · exact assess_fold_some nd sz _ _ (assess_fold_some nd sz _ _ h)
  · exact assess_fold_some nd sz _ _ h

theorem branchIter_nothing (hb : cfg.nbranch = some 0) {fuel : Nat} (hf : 1 ≤ fuel) (nd : SearchNode) (hcard : nd.remaining.card ≠ 1) (sz : Nat)
    (st : BBSt) : branchIter cfg size out mem order fuel nd sz st = some (candidates cfg size out mem order nd sz st).2 := by
  obtain ⟨f, rfl⟩ : ∃ f, fuel = f + 1 := ⟨fuel - 1, by omega⟩
  rw [branchIter, if_neg hcard]
  simp [hb, visited]

/-- A call of an instance that has a path, whatever `nbranch`. -/
theorem branchCall_used (ho : OrderOK order) {inputs : List (Finset Nat)} (h2 : 2 ≤ inputs.length) {fuel : Nat}
    (hfuel : inputs.length ≤ fuel) {st : BBSt} (hst : BBReady inputs.length st) (hp : st.path ≠ none) :
    ∃ path st' p, branchCall cfg fuel size mem order inputs out st = some (.ok path, st') ∧ BBReady inputs.length st' ∧
      st'.path = some p ∧ ssaToLinear p = .ok path ∧ CompletePath inputs.length path := by
  have hne : inputs ≠ [] := by rintro rfl; simp at h2
  by_cases hb : cfg.nbranch = some 0
  · have hc : (rootNode inputs).remaining.card = inputs.length := by simp [rootNode]
    have hrun := branchIter_nothing (cfg := cfg) (size := size) (out := out) (mem := mem) (order := order) hb (fuel := fuel) (by omega)
      (rootNode inputs) (by omega) 0 { st with cache := [] }
    have hinv := (candidates_inv (cfg := cfg) (size := size) (output := out) (mem := mem) (sz := 0) ho (goodPath_root inputs) (by omega)
      (st := { st with cache := [] }) (BBInv.mono (d := 0) ⟨hst.complete, hst.fresh⟩ (by omega))).1
    have hsome := candidates_some (cfg := cfg) (size := size) (out := out) (mem := mem) (order := order) (rootNode inputs) 0
      { st with cache := [] } hp
    generalize candidates cfg size out mem order (rootNode inputs) 0 { st with cache := [] } = r at hrun hinv hsome
    obtain ⟨p, hp'⟩ := Option.ne_none_iff_exists'.mp hsome
    obtain ⟨q, e1, _, e3⟩ := linear_of_ssa (hinv.complete p hp')
    refine ⟨q, r.2, p, ?_, hinv.of_some hsome, hp', e1, e3 h2⟩
    unfold branchCall
    rw [hrun]
    simp only [Option.map_some, hp', e1]
  · obtain ⟨path, st', p, a1, a2, a3, _, a5, _, a7⟩ := branchCall_complete cfg size mem ho hb out hne hfuel hst
    exact ⟨path, st', p, a1, a2, a3, a5, a7 h2⟩

end

/-! ## Sequences of uses -/

/-- What is known of a result and of the state after it. -/
def Held (n : Nat) (r : Except PyErr Path) (st : BBSt) : Prop :=
  BBReady n st ∧ ∃ p path, st.path = some p ∧ ssaToLinear p = .ok path ∧ r = .ok path ∧ CompletePath n path

section
variable {size : Nat → Nat} {out : Finset Nat} {inputs : List (Finset Nat)} {fuel : Nat}

theorem uses_held (h2 : 2 ≤ inputs.length) (hfuel : inputs.length ≤ fuel) (uses : List BBUse) (ho : CallOrdersOK uses) (o : BBObj)
    (hst : BBReady inputs.length o.st) (hp : o.st.path ≠ none ∨ (o.st = BBSt.fresh ∧ FirstCallBranches o.nbranch uses)) :
    ∃ l : List (Except PyErr Path × BBSt), o.uses fuel size inputs out uses = some (l.map (fun x => (x.1, x.2.flops, x.2.size))) ∧
      l.length = callCount uses ∧ (∀ x ∈ l, Held inputs.length x.1 x.2 ∧ Kept o.better o.st x.2) ∧
      l.Pairwise (fun a b => Kept o.better a.2 b.2) := by
  induction uses generalizing o with
  | nil => exact ⟨[], rfl, rfl, by simp, List.Pairwise.nil⟩
  | cons u rest ih =>
    have ho' : CallOrdersOK rest := fun mem order h => ho mem order (List.mem_cons_of_mem _ h)
    cases u with
    | nbranch v =>
      obtain ⟨l, g⟩ := ih ho' { o with nbranch := v } hst (hp.imp_right (fun h => h))
      refine ⟨l, ?_, g.2⟩
      simp only [BBObj.uses, BBObj.use, bind, Option.bind, g.1, pure]; rfl
    | cutoff v =>
      obtain ⟨l, g⟩ := ih ho' { o with cutoff := v } hst (hp.imp_right (fun h => h))
      refine ⟨l, ?_, g.2⟩
      simp only [BBObj.uses, BBObj.use, bind, Option.bind, g.1, pure]; rfl
    | minimize v =>
      obtain ⟨l, g⟩ := ih ho' { o with minimize := v } hst (hp.imp_right (fun h => h))
      refine ⟨l, ?_, g.2⟩
      simp only [BBObj.uses, BBObj.use, bind, Option.bind, g.1, pure]; rfl
    | cost v =>
      obtain ⟨l, g⟩ := ih ho' { o with cost := v } hst (hp.imp_right (fun h => h))
      refine ⟨l, ?_, g.2⟩
      simp only [BBObj.uses, BBObj.use, bind, Option.bind, g.1, pure]; rfl
    | call mem order =>
      have hor : OrderOK order := ho mem order (by simp)
      have hcall : ∃ path st' p, branchCall o.cfg fuel size mem order inputs out o.st = some (.ok path, st') ∧ BBReady inputs.length st' ∧
          st'.path = some p ∧ ssaToLinear p = .ok path ∧ CompletePath inputs.length path := by
        rcases hp with hp | ⟨hfr, hk⟩
        · exact branchCall_used hor h2 hfuel hst hp
        · have hb : o.cfg.nbranch ≠ some 0 := by
            simp only [BBObj.cfg]
            intro h0
            obtain ⟨v, hv, h0⟩ := Option.map_eq_some_iff.mp h0
            have : (1 : Int) ≤ v := hk v hv
            omega
          obtain ⟨path, st', p, a1, a2, a3, _, a5, _, a7⟩ := branchCall_complete o.cfg size mem hor hb out
            (by rintro rfl; simp at h2) hfuel hst
          exact ⟨path, st', p, a1, a2, a3, a5, a7 h2⟩
      obtain ⟨path, st', p, a1, a2, a3, a4, a5⟩ := hcall
      have hkept : Kept o.better o.st st' := branchCall_kept (cfg := o.cfg) hor h2 a1
      obtain ⟨l, g1, g2, g3, g4⟩ := ih ho' { o with st := st' } a2 (Or.inl (by simp [a3]))
      refine ⟨(.ok path, st') :: l, ?_, ?_, ?_, List.Pairwise.cons (fun x hx => (g3 x hx).2) g4⟩
      · simp only [BBObj.uses, BBObj.use, a1, Option.map_some, bind, Option.bind, g1, pure]; rfl
      · simp only [List.length_cons, g2, callCount, List.filter_cons, if_true]
      · intro x hx
        rcases List.mem_cons.mp hx with rfl | hx
        · exact ⟨⟨a2, p, path, a3, a4, rfl, a5⟩, hkept⟩
        · exact ⟨(g3 x hx).1, hkept.trans (g3 x hx).2⟩

end

/-- **C96.** An object made by the constructor and used for one contraction of at least two inputs, with any assignments to
`nbranch`, `cutoff_flops_factor`, `minimize` and `cost_fn` between the calls: if the first call is made with `nbranch` of at least 1 or
`None`, every call returns a complete path, and each later call the path of the earlier one with the same figures in
`optimizer.best`, or a path with strictly better figures by the `minimize` of the constructor. This includes calls after
`nbranch` was set to 0 or less. -/
theorem C96_tweaks {nbranch : Option Int} {cutoff : ℚ} {minimize : Str} {cost : CostFn} {o : BBObj}
    (hnew : BBObj.new nbranch cutoff minimize cost = .ok o) (size : Nat → Nat) (out : Finset Nat) {inputs : List (Finset Nat)}
    (h2 : 2 ≤ inputs.length) {fuel : Nat} (hfuel : inputs.length ≤ fuel) (uses : List BBUse) (ho : CallOrdersOK uses)
    (hfirst : FirstCallBranches nbranch uses) :
    ∃ rs, o.uses fuel size inputs out uses = some rs ∧ rs.length = callCount uses ∧
      (∀ r ∈ rs, ∃ path, r.1 = .ok path ∧ CompletePath inputs.length path) ∧
      rs.Pairwise (fun a b => b = a ∨ Record.Before (decide (minimize = S "size")) ⟨b.2.1, b.2.2⟩ ⟨a.2.1, a.2.2⟩) := by
  have hk : ∀ k, nbranch = some k → 1 ≤ k := by
    intro k hk
    by_contra hlt
    rw [(C96_new nbranch cutoff minimize cost).1 ⟨k, hk, by omega⟩] at hnew
    cases hnew
  have hm : minimize = S "flops" ∨ minimize = S "size" := by
    by_contra h
    push Not at h
    rw [(C96_new nbranch cutoff minimize cost).2.1 hk h.1 h.2] at hnew
    cases hnew
  obtain ⟨o', e, e1, _, _, e4, e5⟩ := (C96_new nbranch cutoff minimize cost).2.2 hk hm
  rw [hnew] at e
  cases e
  have hbet : o.better = decide (minimize = S "size") := by
    by_cases h : minimize = S "size"
    · rw [e4.mpr h]; simp [h]
    · have : o.better ≠ true := fun h' => h (e4.mp h')
      simp only [Bool.not_eq_true] at this
      rw [this]; simp [h]
  obtain ⟨l, g1, g2, g3, g4⟩ := uses_held (size := size) (out := out) (inputs := inputs) (fuel := fuel) h2 hfuel uses ho o
    (by rw [e5]; exact fresh_ready _) (Or.inr ⟨e5, by rw [e1]; exact hfirst⟩)
  refine ⟨_, g1, by simpa using g2, ?_, ?_⟩
  · intro r hr
    obtain ⟨x, hx, rfl⟩ := List.mem_map.mp hr
    obtain ⟨⟨_, p, path, _, _, h, h'⟩, _⟩ := g3 x hx
    exact ⟨path, h, h'⟩
  · rw [List.pairwise_map, ← hbet]
    refine g4.imp_of_mem ?_
    rintro ⟨ra, a⟩ ⟨rb, b⟩ ha hb' h
    obtain ⟨⟨_, p, path, e1, e2, e3, _⟩, _⟩ := g3 _ ha
    obtain ⟨⟨_, q, path', f1, f2, f3, _⟩, _⟩ := g3 _ hb'
    simp only at e1 e3 f1 f3 h ⊢
    rcases h with ⟨h0, h1, h3⟩ | h
    · left
      rw [h0, e1] at f1
      cases f1
      rw [e2] at f2
      cases f2
      rw [e3, f3, h1, h3]
    · exact Or.inr (before_iff.mpr h)

/-- **C96.** Assigning `minimize` to an object has no effect. -/
theorem C96_minimize_ignored (size : Nat → Nat) (out : Finset Nat) (inputs : List (Finset Nat)) (fuel : Nat) (uses : List BBUse) (o : BBObj)
    (v : Str) : ({ o with minimize := v } : BBObj).uses fuel size inputs out uses =
      o.uses fuel size inputs out (uses.filter (fun u => !IsMinimize u)) := by
  induction uses generalizing o v with
  | nil => rfl
  | cons u rest ih =>
    cases u with
    | nbranch w => rw [List.filter_cons_of_pos (by rfl)]; simp only [BBObj.uses, BBObj.use, bind, Option.bind]; rw [← ih { o with nbranch := w } v]
    | cutoff w => rw [List.filter_cons_of_pos (by rfl)]; simp only [BBObj.uses, BBObj.use, bind, Option.bind]; rw [← ih { o with cutoff := w } v]
    | cost w => rw [List.filter_cons_of_pos (by rfl)]; simp only [BBObj.uses, BBObj.use, bind, Option.bind]; rw [← ih { o with cost := w } v]
    | minimize w =>
      rw [List.filter_cons_of_neg (by simp [IsMinimize])]; simp only [BBObj.uses, BBObj.use, bind, Option.bind]
      rw [← ih o w]
      cases ({ o with minimize := w } : BBObj).uses fuel size inputs out rest <;> rfl
    | call mem order =>
      rw [List.filter_cons_of_pos (by rfl)]; simp only [BBObj.uses, BBObj.use, bind, Option.bind]
      have hc : ({ o with minimize := v } : BBObj).cfg = o.cfg := rfl
      rw [hc]
      cases branchCall o.cfg fuel size mem order inputs out o.st with
      | none => rfl
      | some r => simp only [Option.map_some]; rw [← ih { o with st := r.2 } v]

/-- **C96.** After `optimizer.nbranch = 0` (or less) the first call, without memory limit, raises KeyError; the constructor
would have refused the value. -/
theorem C96_nbranch_zero (o : BBObj) (hfresh : o.st = BBSt.fresh) {k : Int} (hk : k < 1) (size : Nat → Nat) (out : Finset Nat)
    {inputs : List (Finset Nat)} (h2 : 2 ≤ inputs.length) {fuel : Nat} (hfuel : inputs.length ≤ fuel) (order : SetOrder) :
    ∃ st, ({ o with nbranch := some k } : BBObj).use fuel size inputs out (.call none order) =
      some (some (.error .key), { o with nbranch := some k, st }) := by
  have hb : ({ o with nbranch := some k } : BBObj).cfg.nbranch = some 0 := by
    simp only [BBObj.cfg, Option.map_some, Option.some.injEq]
    omega
  have hc : (rootNode inputs).remaining.card = inputs.length := by simp [rootNode]
  have hrun := branchIter_nothing (cfg := ({ o with nbranch := some k } : BBObj).cfg) (size := size) (out := out) (mem := none) (order := order)
    hb (fuel := fuel) (by omega) (rootNode inputs) (by omega) 0 { o.st with cache := [] }
  have hpath : (candidates ({ o with nbranch := some k } : BBObj).cfg size out none order (rootNode inputs) 0 { o.st with cache := [] }).2.path = none := by
    rw [candidates_path, hfresh]; rfl
  generalize hr : (candidates ({ o with nbranch := some k } : BBObj).cfg size out none order (rootNode inputs) 0 { o.st with cache := [] }).2 = r
    at hrun hpath
  refine ⟨r, ?_⟩
  · simp only [BBObj.use, branchCall]
    rw [hrun]
    simp only [Option.map_some, hpath]

/-! ### Examples -/

/-- `ab,bc,cd,de->ae` with dimensions 6, 5, 4, 3, 2, as the uses of the documentation: `nbranch=1`, then `nbranch=2`. -/
def c96Uses : List BBUse := [.call none ascending, .nbranch (some 2), .minimize (S "size"), .call none ascending, .nbranch (some 0), .call none ascending]

-- C96: the second call finds a path of fewer operations, the third returns it again
example : ((BBObj.new (some 1) 4 (S "flops") costMemoryRemoved).toOption.bind
      (fun o => o.uses 4 c95Size c95Chain {1, 5} c96Uses)).map (fun l => l.map (fun r => (r.1.toOption, r.2.1))) =
    some [(some [[0, 1], [0, 2], [0, 1]], 456), (some [[2, 3], [1, 2], [0, 1]], 248), (some [[2, 3], [1, 2], [0, 1]], 248)] := by
  decide +kernel

-- C96: hypotheses
example : FirstCallBranches (some 1) c96Uses ∧ callCount c96Uses = 3 ∧ CallOrdersOK c96Uses := by
  refine ⟨fun v h => by cases h; decide, rfl, ?_⟩
  intro mem order h
  simp only [c96Uses, List.mem_cons, List.not_mem_nil, BBUse.call.injEq, reduceCtorEq, or_false, false_or] at h
  rcases h with ⟨_, rfl⟩ | ⟨_, rfl⟩ | ⟨_, rfl⟩ <;> exact ascending_ok

end OE.Props
