import Verif.Lemmas.GraphMode
import Verif.Spec.GraphMode
import Verif.Lemmas.DictLemmas

/-!
# Conversions to the graph
-/

namespace OE.GraphMode
open OE OE.Py OE.Spec OE.Contract OE.AnyLibrary OE.Expression

variable {A : Type}

/-- The cache of a context holds what was converted in it, each placeholder once. -/
structure CtxOK (shape : A → Shape) (made : Nat) (c : Context A) : Prop where
  consts : ∀ id n, c.cache.get? (id, true) = some n → ∃ x, (true, x) ∈ c.log ∧ x.id = id ∧ n = .const x.val
  holes : ∀ id n, c.cache.get? (id, false) = some n → ∃ x i, (false, x) ∈ c.log ∧ x.id = id ∧ i < made ∧ n = .hole i (shape x.val)
  inj : ∀ id id' i s s', c.cache.get? (id, false) = some (.hole i s) → c.cache.get? (id', false) = some (.hole i s') → id = id'

/-- All contexts. -/
def WorldOK (shape : A → Shape) (w : World A) : Prop := ∀ c ∈ w.contexts, CtxOK shape w.made c

theorem CtxOK.mono {shape : A → Shape} {m m' : Nat} (h : m ≤ m') {c : Context A} (hc : CtxOK shape m c) : CtxOK shape m' c :=
  ⟨hc.consts, fun id n g => by
    obtain ⟨x, i, h1, h2, h3, h4⟩ := hc.holes id n g
    exact ⟨x, i, h1, h2, by omega, h4⟩, hc.inj⟩

/-- What conversions do to the state. -/
structure Grows (w w' : World A) : Prop where
  made : w.made ≤ w'.made
  contexts : (w.contexts = [] ∧ w'.contexts = []) ∨ ∃ c c' cs, w.contexts = c :: cs ∧ w'.contexts = c' :: cs ∧
    (∀ k n, c.cache.get? k = some n → c'.cache.get? k = some n) ∧ ∀ x ∈ c.log, x ∈ c'.log

theorem Grows.refl (w : World A) : Grows w w := ⟨le_refl _, by
  rcases h : w.contexts with _ | ⟨c, cs⟩
  · exact Or.inl ⟨rfl, rfl⟩
  · exact Or.inr ⟨c, c, cs, rfl, rfl, fun _ _ h => h, fun _ h => h⟩⟩

theorem Grows.trans {w w' w'' : World A} (h : Grows w w') (g : Grows w' w'') : Grows w w'' := ⟨le_trans h.made g.made, by
  rcases h.contexts with ⟨h1, h2⟩ | ⟨c, c', cs, h1, h2, h3, h4⟩
  · rcases g.contexts with ⟨g1, g2⟩ | ⟨d, d', ds, g1, _⟩
    · exact Or.inl ⟨h1, g2⟩
    · rw [h2] at g1; cases g1
  · rcases g.contexts with ⟨g1, g2⟩ | ⟨d, d', ds, g1, g2, g3, g4⟩
    · rw [h2] at g1; cases g1
    · rw [h2] at g1
      cases g1
      exact Or.inr ⟨c, d', cs, h1, g2, fun k n hk => g3 k n (h3 k n hk), fun x hx => g4 x (h4 x hx)⟩⟩

theorem Grows.noReuse {shape : A → Shape} {w w' : World A} (h : Grows w w') (g : NoReuse shape w') : NoReuse shape w := by
  intro c hc
  rcases h.contexts with ⟨h1, _⟩ | ⟨d, d', ds, h1, h2, h3, h4⟩
  · rw [h1] at hc; cases hc
  · rw [h1] at hc
    cases hc
    obtain ⟨g1, g2⟩ := g d' (by rw [h2]; rfl)
    exact ⟨fun x y hx hy => g1 x y (h4 _ hx) (h4 _ hy), fun x y hx hy => g2 x y (h4 _ hx) (h4 _ hy)⟩

theorem Grows.nil {w w' : World A} (h : Grows w w') (g : w.contexts = []) : w'.contexts = [] := by
  rcases h.contexts with ⟨_, h2⟩ | ⟨c, c', cs, h1, _⟩
  · exact h2
  · rw [g] at h1; cases h1

theorem const_ne_hole (a : A) (i : Nat) (s : Shape) : Node.const a ≠ Node.hole i s := by
  intro h
  have := congrArg Node.placeholder h
  cases this

theorem hole_inj {i j : Nat} {s t : Shape} (h : (Node.hole i s : Node A) = Node.hole j t) : i = j ∧ s = t := by
  have := congrArg Node.placeholder h
  simp only [Node.hole, Option.some.injEq, Prod.mk.injEq] at this
  exact this

/-- One conversion. -/
theorem toGraph_spec {shape : A → Shape} {w : World A} (hw : WorldOK shape w) (x : Obj A) (b : Bool) :
    WorldOK shape (toGraph shape w x b).2 ∧ Grows w (toGraph shape w x b).2 ∧
    (w.contexts = [] → toGraph shape w x b = make shape w x b) ∧
    (∀ c cs, (toGraph shape w x b).2.contexts = c :: cs → c.cache.get? (x.id, b) = some (toGraph shape w x b).1 ∧ (b, x) ∈ c.log) := by
  rcases hc : w.contexts with _ | ⟨c, cs⟩
  · have e : toGraph shape w x b = make shape w x b := by unfold toGraph; rw [hc]
    have hm : (make shape w x b).2.contexts = [] := by unfold make; split <;> exact hc
    rw [e]
    refine ⟨?_, ⟨?_, Or.inl ⟨hc, hm⟩⟩, fun _ => rfl, fun c cs h => ?_⟩
    · intro c h; rw [hm] at h; simp at h
    · unfold make; split <;> simp
    · rw [hm] at h; cases h
  · have hcc := hw c (by rw [hc]; simp)
    cases hg : c.cache.get? (x.id, b) with
    | some n =>
      have e : toGraph shape w x b = (n, { w with contexts := { c with log := c.log ++ [(b, x)] } :: cs }) := by
        unfold toGraph; rw [hc]; simp only [hg]
      rw [e]
      refine ⟨?_, ⟨le_refl _, Or.inr ⟨c, _, cs, hc, rfl, fun _ _ h => h, fun y hy => by simp [hy]⟩⟩, fun h => (by cases h), ?_⟩
      · intro d hd
        rcases List.mem_cons.mp hd with rfl | hd
        · refine ⟨fun id n h => ?_, fun id n h => ?_, hcc.inj⟩
          · obtain ⟨y, h1, h2⟩ := hcc.consts id n h
            exact ⟨y, by simp [h1], h2⟩
          · obtain ⟨y, i, h1, h2⟩ := hcc.holes id n h
            exact ⟨y, i, by simp [h1], h2⟩
        · exact hw d (by rw [hc]; simp [hd])
      · intro d ds h
        cases h
        exact ⟨hg, by simp⟩
    | none =>
      have e : toGraph shape w x b = ((make shape w x b).1, { (make shape w x b).2 with
          contexts := { cache := c.cache.set (x.id, b) (make shape w x b).1, log := c.log ++ [(b, x)] } :: cs }) := by
        unfold toGraph; rw [hc]; simp only [hg]
      have hmade : w.made ≤ (make shape w x b).2.made := by unfold make; split <;> simp
      rw [e]
      refine ⟨?_, ⟨hmade, Or.inr ⟨c, _, cs, hc, rfl, fun k n h => ?_, fun y hy => by simp [hy]⟩⟩, fun h => (by cases h), ?_⟩
      · intro d hd
        rcases List.mem_cons.mp hd with rfl | hd
        · have hcc' := hcc.mono hmade
          refine ⟨fun id n h => ?_, fun id n h => ?_, fun id id' i s s' h h' => ?_⟩
          · rw [Dict.get?_set] at h
            split at h
            · rename_i hk
              cases h
              obtain ⟨rfl, rfl⟩ := Prod.mk.inj hk
              exact ⟨x, by simp, rfl, rfl⟩
            · obtain ⟨y, h1, h2⟩ := hcc.consts id n h
              exact ⟨y, by simp [h1], h2⟩
          · rw [Dict.get?_set] at h
            split at h
            · rename_i hk
              cases h
              obtain ⟨rfl, rfl⟩ := Prod.mk.inj hk
              exact ⟨x, w.made, by simp, rfl, by simp [make], rfl⟩
            · obtain ⟨y, i, h1, h2⟩ := hcc'.holes id n h
              exact ⟨y, i, by simp [h1], h2⟩
          · have old : ∀ id i s, c.cache.get? (id, false) = some (.hole i s) → i < w.made := by
              intro id i s h
              obtain ⟨y, j, _, _, h3, h4⟩ := hcc.holes id _ h
              rw [(hole_inj h4).1]
              exact h3
            have new : ∀ id, (id, false) = (x.id, b) → ∀ i s, some (make shape w x b).1 = some (.hole i s) → i = w.made := by
              intro id hk i s h
              obtain ⟨rfl, rfl⟩ := Prod.mk.inj hk
              exact (hole_inj (Option.some.inj h)).1.symm
            simp only [Dict.get?_set] at h h'
            split at h
            · rename_i hk
              split at h'
              · rename_i hk'
                exact (Prod.mk.inj (hk.trans hk'.symm)).1
              · have := old _ _ _ h'
                have := new _ hk _ _ h
                omega
            · split at h'
              · rename_i hk'
                have := old _ _ _ h
                have := new _ hk' _ _ h'
                omega
              · exact hcc.inj _ _ _ _ _ h h'
        · exact (hw d (by rw [hc]; simp [hd])).mono hmade
      · simp only [Dict.get?_set]
        rw [if_neg]
        · exact h
        · rintro rfl; rw [hg] at h; cases h
      · intro d ds h
        cases h
        exact ⟨Dict.get?_set_self _ _ _, by simp⟩

/-- The node of a constant. -/
theorem toGraph_const {shape shape' : A → Shape} {w w' : World A} (hw : WorldOK shape w) (x : Obj A) (hg : Grows (toGraph shape w x true).2 w')
    (hn : NoReuse shape' w') : (toGraph shape w x true).1 = .const x.val := by
  obtain ⟨h1, h2, h3, h4⟩ := toGraph_spec hw x true
  rcases hc : (toGraph shape w x true).2.contexts with _ | ⟨c, cs⟩
  · have : w.contexts = [] := by
      rcases h2.contexts with ⟨h, _⟩ | ⟨_, _, _, _, h, _⟩
      · exact h
      · rw [hc] at h; cases h
    rw [h3 this]
    rfl
  · obtain ⟨g1, g2⟩ := h4 c cs hc
    obtain ⟨y, k1, k2, k3⟩ := (h1 c (by rw [hc]; simp)).consts _ _ g1
    rw [k3, ((hg.noReuse hn) c (by rw [hc]; rfl)).1 y x k1 g2 k2]

/-- The node of a variable. -/
theorem toGraph_hole {shape : A → Shape} {w w' : World A} (hw : WorldOK shape w) (x : Obj A) (hg : Grows (toGraph shape w x false).2 w')
    (hn : NoReuse shape w') : ∃ i, (toGraph shape w x false).1 = .hole i (shape x.val) := by
  obtain ⟨h1, h2, h3, h4⟩ := toGraph_spec hw x false
  rcases hc : (toGraph shape w x false).2.contexts with _ | ⟨c, cs⟩
  · have : w.contexts = [] := by
      rcases h2.contexts with ⟨h, _⟩ | ⟨_, _, _, _, h, _⟩
      · exact h
      · rw [hc] at h; cases h
    rw [h3 this]
    exact ⟨w.made, rfl⟩
  · obtain ⟨g1, g2⟩ := h4 c cs hc
    obtain ⟨y, i, k1, k2, _, k3⟩ := (h1 c (by rw [hc]; simp)).holes _ _ g1
    exact ⟨i, by rw [k3, ((hg.noReuse hn) c (by rw [hc]; rfl)).2 y x k1 g2 k2]⟩

/-- Converting the constants. -/
theorem convertConsts_spec {shape : A → Shape} {w : World A} (hw : WorldOK shape w) (l : List (Option (Obj A))) :
    WorldOK shape (convertConsts shape w l).2 ∧ Grows w (convertConsts shape w l).2 ∧
    ∀ {shape' : A → Shape} w', Grows (convertConsts shape w l).2 w' → NoReuse shape' w' →
      (convertConsts shape w l).1 = l.map (Option.map (fun x => Node.const x.val)) := by
  induction l generalizing w with
  | nil => exact ⟨hw, Grows.refl w, fun {_} _ _ _ => rfl⟩
  | cons o l ih =>
    cases o with
    | none =>
      obtain ⟨h1, h2, h3⟩ := ih hw
      refine ⟨h1, h2, fun {_} w' g n => ?_⟩
      simp only [convertConsts, List.map_cons, Option.map_none]
      rw [h3 w' g n]
    | some x =>
      obtain ⟨g1, g2, _⟩ := toGraph_spec hw x true
      obtain ⟨h1, h2, h3⟩ := ih g1
      refine ⟨h1, g2.trans h2, fun {_} w' g n => ?_⟩
      simp only [convertConsts, List.map_cons, Option.map_some]
      rw [h3 w' g n, toGraph_const hw x (h2.trans g) n]

/-- A node for an operand. -/
def NodeFor (shape : A → Shape) : Operand A → Node A → Prop
  | .tensor n, p => p = n
  | .array x, p => ∃ i, p = .hole i (shape x.val)

/-- The placeholders of a list of nodes. -/
def holes (ps : List (Node A)) : List Nat := ps.filterMap (fun p => p.placeholder.map Prod.fst)

/-- The `id`s of the arrays among the operands. -/
def arrayIds : List (Operand A) → List Nat
  | [] => []
  | .array x :: l => x.id :: arrayIds l
  | .tensor _ :: l => arrayIds l

/-- The evaluated constants are constants of the graph. -/
def TensorsConst (ops : List (Operand A)) : Prop := ∀ n, Operand.tensor n ∈ ops → ∃ a, n = .const a

theorem convertAll_spec {shape : A → Shape} {w : World A} (hw : WorldOK shape w) (ops : List (Operand A)) (ht : TensorsConst ops) :
    WorldOK shape (convertAll shape w ops).2 ∧ Grows w (convertAll shape w ops).2 ∧
    (∀ h ∈ holes (convertAll shape w ops).1,
      (w.contexts = [] → w.made ≤ h) ∧
      ∀ c cs, (convertAll shape w ops).2.contexts = c :: cs → ∃ id ∈ arrayIds ops, ∃ s, c.cache.get? (id, false) = some (.hole h s)) ∧
    (∀ w', Grows (convertAll shape w ops).2 w' → NoReuse shape w' → List.Forall₂ (NodeFor shape) ops (convertAll shape w ops).1) ∧
    (w.contexts = [] ∨ (arrayIds ops).Nodup → (holes (convertAll shape w ops).1).Nodup) := by
  induction ops generalizing w with
  | nil => exact ⟨hw, Grows.refl w, by simp [convertAll, holes], fun _ _ _ => .nil, fun _ => by simp [convertAll, holes]⟩
  | cons o ops ih =>
    have ht' : TensorsConst ops := fun n hn => ht n (by simp [hn])
    cases o with
    | tensor n =>
      obtain ⟨a, rfl⟩ := ht n (by simp)
      obtain ⟨h1, h2, h3, h4, h5⟩ := ih hw ht'
      refine ⟨h1, h2, h3, fun w' g k => .cons rfl (h4 w' g k), h5⟩
    | array x =>
      obtain ⟨g1, g2, g3, g4⟩ := toGraph_spec hw x false
      obtain ⟨h1, h2, h3, h4, h5⟩ := ih g1 ht'
      have hcons : (convertAll shape w (.array x :: ops)).1 = (toGraph shape w x false).1 :: (convertAll shape (toGraph shape w x false).2 ops).1 := rfl
      have hw2 : (convertAll shape w (.array x :: ops)).2 = (convertAll shape (toGraph shape w x false).2 ops).2 := rfl
      rw [hcons, hw2]
      -- the number of the new placeholder
      have hnode : ∃ i s, (toGraph shape w x false).1 = .hole i s ∧ (w.contexts = [] → i = w.made ∧ (toGraph shape w x false).2.made = w.made + 1) := by
        rcases hc : w.contexts with _ | ⟨c, cs⟩
        · rw [g3 hc]
          exact ⟨w.made, shape x.val, rfl, fun _ => ⟨rfl, rfl⟩⟩
        · rcases hc' : (toGraph shape w x false).2.contexts with _ | ⟨c', cs'⟩
          · rcases g2.contexts with ⟨h, _⟩ | ⟨_, _, _, _, h, _⟩
            · rw [hc] at h; cases h
            · rw [hc'] at h; cases h
          · obtain ⟨k1, _⟩ := g4 c' cs' hc'
            obtain ⟨y, i, _, _, _, k3⟩ := (g1 c' (by rw [hc']; simp)).holes _ _ k1
            exact ⟨i, shape y.val, k3, fun h => by cases h⟩
      obtain ⟨i, s, hi, hfresh⟩ := hnode
      have hholes : holes ((toGraph shape w x false).1 :: (convertAll shape (toGraph shape w x false).2 ops).1) =
          i :: holes (convertAll shape (toGraph shape w x false).2 ops).1 := by
        rw [hi]; rfl
      -- where the new placeholder is found at the end
      have hfound : ∀ c cs, (convertAll shape (toGraph shape w x false).2 ops).2.contexts = c :: cs →
          c.cache.get? (x.id, false) = some (.hole i s) := by
        intro c cs hc
        rcases h2.contexts with ⟨_, h⟩ | ⟨d, d', ds, k1, k2, k3, _⟩
        · rw [hc] at h; cases h
        · rw [k2] at hc
          cases hc
          have := (g4 d _ k1).1
          rw [hi] at this
          exact k3 _ _ this
      refine ⟨h1, g2.trans h2, ?_, ?_, ?_⟩
      · intro h hh
        rw [hholes] at hh
        rcases List.mem_cons.mp hh with rfl | hh
        · exact ⟨fun hc => by rw [(hfresh hc).1], fun c cs hc => ⟨x.id, by simp [arrayIds], s, hfound c cs hc⟩⟩
        · obtain ⟨k1, k2⟩ := h3 h hh
          refine ⟨fun hc => ?_, fun c cs hc => ?_⟩
          · have := k1 (g2.nil hc)
            have := g2.made
            omega
          · obtain ⟨id, hid, t, ht⟩ := k2 c cs hc
            exact ⟨id, by simp [arrayIds, hid], t, ht⟩
      · intro w' g n
        exact .cons (toGraph_hole hw x (h2.trans g) n) (h4 w' g n)
      · intro hor
        rw [hholes, List.nodup_cons]
        have hor' : (toGraph shape w x false).2.contexts = [] ∨ (arrayIds ops).Nodup := by
          rcases hor with h | h
          · exact Or.inl (g2.nil h)
          · exact Or.inr (List.nodup_cons.mp h).2
        refine ⟨fun hmem => ?_, h5 hor'⟩
        obtain ⟨k1, k2⟩ := h3 i hmem
        rcases hc : w.contexts with _ | ⟨c, cs⟩
        · have := k1 (g2.nil hc)
          have := hfresh hc
          omega
        · rcases hor with h | h
          · rw [hc] at h; cases h
          · rcases (g2.trans h2).contexts with ⟨e, _⟩ | ⟨_, c', cs', _, e, _⟩
            · rw [hc] at e; cases e
            · obtain ⟨id, hid, t, ht⟩ := k2 c' cs' e
              have := (h1 c' (by rw [e]; simp)).inj _ _ _ _ _ (hfound c' cs' e) ht
              subst this
              exact (List.nodup_cons.mp h).1 hid

/-- The value of an operand. -/
def opVal : Operand A → Option A
  | .array x => some x.val
  | .tensor n => val [] n

theorem feedOf_spec {shape : A → Shape} {ops : List (Operand A)} {ps : List (Node A)} (h : List.Forall₂ (NodeFor shape) ops ps)
    (ht : TensorsConst ops) (hn : (holes ps).Nodup) (feed₀ : Feed A) :
    ∃ feed, feedOf ps ops feed₀ = .ok feed ∧ (∀ i, i ∉ holes ps → feed.get? i = feed₀.get? i) ∧
      ps.map (val feed) = ops.map opVal ∧ fits shape ps feed = true := by
  induction h generalizing feed₀ with
  | nil => exact ⟨feed₀, rfl, fun _ _ => rfl, rfl, rfl⟩
  | @cons o p ops ps hop _ ih =>
    have ht' : TensorsConst ops := fun n hn => ht n (by simp [hn])
    cases o with
    | tensor n =>
      obtain ⟨a, rfl⟩ := ht n (by simp)
      cases hop
      obtain ⟨feed, h1, h2, h3, h4⟩ := ih ht' hn feed₀
      exact ⟨feed, h1, h2, by rw [List.map_cons, List.map_cons, h3]; rfl, by
        unfold fits at h4 ⊢
        rw [List.all_cons, h4]
        rfl⟩
    | array x =>
      obtain ⟨i, rfl⟩ := hop
      have hh : holes (Node.hole i (shape x.val) :: ps) = i :: holes ps := rfl
      rw [hh, List.nodup_cons] at hn
      obtain ⟨feed, h1, h2, h3, h4⟩ := ih ht' hn.2 (feed₀.set i x.val)
      have hi : feed.get? i = some x.val := by rw [h2 i hn.1, Dict.get?_set_self]
      refine ⟨feed, h1, fun j hj => ?_, ?_, ?_⟩
      · rw [hh, List.mem_cons, not_or] at hj
        rw [h2 j hj.2, Dict.get?_set_ne hj.1]
      · rw [List.map_cons, List.map_cons, h3]
        congr 1
        simp only [val, Node.hole, hi, opVal]
        rfl
      · unfold fits at h4 ⊢
        rw [List.all_cons, h4]
        simp [Node.hole, hi]

/-- Running a graph that was built for such operands. -/
theorem runGraph_spec {lib : Library A} {shape : A → Shape} {ops : List (Operand A)} {ps : List (Node A)} (h : List.Forall₂ (NodeFor shape) ops ps)
    (ht : TensorsConst ops) (hn : (holes ps).Nodup) {sharing : Bool} {steps : List Step} {g : Node A}
    (hg : AnyLibrary.coreContract (graphOf lib) sharing [] steps ps = .ok g) :
    (runGraph shape ps g ops).toOption = outcome (liftLoop lib steps (ops.map opVal)) := by
  obtain ⟨feed, h1, _, h3, h4⟩ := feedOf_spec h ht hn []
  have key := coreContract_graph lib sharing steps ps feed
  rw [hg, h3] at key
  rw [← key]
  unfold runGraph
  rw [h1]
  simp only [bind, Except.bind, h4, if_true]
  rfl

/-- Building fails only if the contraction does. -/
theorem build_error {lib : Library A} {shape : A → Shape} {ops : List (Operand A)} {ps : List (Node A)} (h : List.Forall₂ (NodeFor shape) ops ps)
    (ht : TensorsConst ops) (hn : (holes ps).Nodup) {sharing : Bool} {steps : List Step} {e : PyErr}
    (hg : AnyLibrary.coreContract (graphOf lib) sharing [] steps ps = .error e) :
    outcome (liftLoop lib steps (ops.map opVal)) = none := by
  obtain ⟨feed, _, _, h3, _⟩ := feedOf_spec h ht hn []
  have key := coreContract_graph lib sharing steps ps feed
  rw [hg, h3] at key
  rw [← key]
  rfl

end OE.GraphMode
