import Verif.Model.GraphMode
import Verif.Lemmas.Expression
import Verif.Props.AnyLibrary

/-!
# A graph evaluates to what its functions compute on arrays
-/

namespace OE.GraphMode
open OE OE.Py OE.Spec OE.Contract OE.AnyLibrary OE.Expression OE.Parser

variable {A : Type}

/-- The value of a node under a feed, if it has one. -/
def val (f : Feed A) (n : Node A) : Option A := (n.eval f).toOption

/-- What a step does to the values of the nodes: it fails while the graph is built, or a value may be missing. -/
def liftStep (lib : Library A) (s : Step) (os : List (Option A)) : Except PyErr (Option A) :=
  if usesBlas lib.einsum.isNone s.blas then
    match splitArrow s.einsumStr with
    | [inp, resultsIndex] =>
      match splitOn cComma inp with
      | [left, right] =>
        match os with
        | [oa, ob] =>
          let view := oa.bind (fun a => ob.bind (fun b => (lib.tensordot a b (blasAxes left right s.removed)).toOption))
          if (left ++ right).filter (fun c => c ∉ s.removed) ≠ resultsIndex then
            match transposeAxes ((left ++ right).filter (fun c => c ∉ s.removed)) resultsIndex with
            | .error e => .error e
            | .ok perm => .ok (view.bind (fun v => (lib.transpose v perm).toOption))
          else .ok view
        | _ => .error .type
      | _ => .error .value
    | _ => .error .value
  else match lib.einsum with
    | none => .error .attribute
    | some fn => .ok ((os.mapM id).bind (fun as => (fn (handedString s.einsumStr) as []).toOption))

theorem toOption_bind {α β : Type} (x : Except PyErr α) (g : α → Except PyErr β) :
    (x >>= g).toOption = x.toOption.bind (fun a => (g a).toOption) := by
  cases x <;> rfl

theorem toOption_mapM (f : Feed A) (ns : List (Node A)) : (ns.mapM (fun n : Node A => n.eval f) : Except PyErr (List A)).toOption = (ns.map (val f)).mapM id := by
  induction ns with
  | nil => rfl
  | cons n ns ih =>
    rw [List.mapM_cons, List.map_cons, List.mapM_cons, toOption_bind]
    show (n.eval f).toOption.bind _ = (val f n).bind _
    unfold val
    congr 1
    funext a
    rw [toOption_bind, ih]
    rfl

/-- Without keyword arguments nothing is handed on. -/
theorem handed_kw (sharing : Bool) : filterEinsumDefaults (if sharing then [] else ((S "out", Val.none) :: ([] : Kw A))) = [] := by
  cases sharing
  · rw [if_neg (by simp)]; exact Props.filter_only_out
  · rw [if_pos rfl]; exact Props.filter_nil

theorem stepResult_graph (lib : Library A) (sharing : Bool) (s : Step) (ns : List (Node A)) (f : Feed A) :
    (AnyLibrary.stepResult (graphOf lib) sharing [] s ns).map (val f) = liftStep lib s (ns.map (val f)) := by
  have he : (graphOf lib).einsum.isNone = lib.einsum.isNone := by simp [graphOf]
  unfold AnyLibrary.stepResult liftStep
  rw [he]
  split
  · unfold AnyLibrary.blasStep
    cases splitArrow s.einsumStr with
    | nil => rfl
    | cons a l =>
      rcases l with _ | ⟨b, _ | ⟨c, l⟩⟩
      · rfl
      · simp only
        cases splitOn cComma a with
        | nil => rfl
        | cons x l =>
          rcases l with _ | ⟨y, _ | ⟨z, l⟩⟩
          · rfl
          · simp only
            rcases ns with _ | ⟨n, _ | ⟨m, _ | ⟨k, ns⟩⟩⟩
            · rfl
            · rfl
            · simp only [List.map_cons, List.map_nil, ne_eq, not_true_eq_false, if_false, graphOf, bind, Except.bind]
              split
              · cases transposeAxes ((x ++ y).filter (fun c => c ∉ s.removed)) b with
                | error e => rfl
                | ok perm =>
                  simp only [Except.map, val]
                  congr 1
                  cases n.eval f with
                  | error e => rfl
                  | ok a =>
                    cases m.eval f with
                    | error e => rfl
                    | ok b' =>
                      simp only [Except.toOption, Option.bind_some]
                      cases lib.tensordot a b' (blasAxes x y s.removed) <;> rfl
              · simp only [Except.map, val]
                congr 1
                cases n.eval f with
                | error e => rfl
                | ok a =>
                  cases m.eval f <;> rfl
            · rfl
          · rfl
      · rfl
  · unfold AnyLibrary.einsumCall
    cases hl : lib.einsum with
    | none => simp [graphOf, hl, Except.map]
    | some fn =>
      simp only [graphOf, hl, Option.map_some, Except.map, val]
      congr 1
      rw [toOption_bind, toOption_mapM]

theorem liftStep_array (lib : Library A) (sharing : Bool) (s : Step) (as : List A) :
    (∀ e, liftStep lib s (as.map some) = .error e → (AnyLibrary.stepResult lib sharing [] s as).toOption = none) ∧
    (∀ o, liftStep lib s (as.map some) = .ok o → o = (AnyLibrary.stepResult lib sharing [] s as).toOption) := by
  unfold AnyLibrary.stepResult liftStep
  split
  · unfold AnyLibrary.blasStep
    cases splitArrow s.einsumStr with
    | nil => exact ⟨fun _ _ => rfl, fun _ h => (by cases h)⟩
    | cons a l =>
      rcases l with _ | ⟨b, _ | ⟨c, l⟩⟩
      · exact ⟨fun _ _ => rfl, fun _ h => (by cases h)⟩
      · simp only
        cases splitOn cComma a with
        | nil => exact ⟨fun _ _ => rfl, fun _ h => (by cases h)⟩
        | cons x l =>
          rcases l with _ | ⟨y, _ | ⟨z, l⟩⟩
          · exact ⟨fun _ _ => rfl, fun _ h => (by cases h)⟩
          · simp only
            rcases as with _ | ⟨n, _ | ⟨m, _ | ⟨k, ns⟩⟩⟩
            · exact ⟨fun _ _ => rfl, fun _ h => (by cases h)⟩
            · exact ⟨fun _ _ => rfl, fun _ h => (by cases h)⟩
            · simp only [List.map_cons, List.map_nil, ne_eq, not_true_eq_false, if_false, bind, Except.bind, Option.bind_some]
              split
              · cases transposeAxes ((x ++ y).filter (fun c => c ∉ s.removed)) b with
                | error e =>
                  refine ⟨fun _ _ => ?_, fun _ h => (by cases h)⟩
                  cases lib.tensordot n m (blasAxes x y s.removed) <;> rfl
                | ok perm =>
                  refine ⟨fun _ h => (by cases h), fun o h => ?_⟩
                  cases h
                  cases lib.tensordot n m (blasAxes x y s.removed) <;> rfl
              · refine ⟨fun _ h => (by cases h), fun o h => ?_⟩
                cases h
                cases lib.tensordot n m (blasAxes x y s.removed) <;> rfl
            · exact ⟨fun _ _ => rfl, fun _ h => (by cases h)⟩
          · exact ⟨fun _ _ => rfl, fun _ h => (by cases h)⟩
      · exact ⟨fun _ _ => rfl, fun _ h => (by cases h)⟩
  · unfold AnyLibrary.einsumCall
    cases lib.einsum with
    | none => exact ⟨fun _ _ => rfl, fun _ h => (by cases h)⟩
    | some fn =>
      refine ⟨fun _ h => (by cases h), fun o h => ?_⟩
      simp only [Except.ok.injEq] at h
      subst h
      rw [handed_kw]
      have : (as.map some).mapM id = some as := by
        induction as with
        | nil => rfl
        | cons a as ih => rw [List.map_cons, List.mapM_cons, ih]; rfl
      rw [this]
      rfl

theorem mapM_id_none {os : List (Option A)} (h : none ∈ os) : os.mapM id = none := by
  induction os with
  | nil => simp at h
  | cons o os ih =>
    rw [List.mapM_cons]
    cases o with
    | none => rfl
    | some a =>
      have : none ∈ os := by simpa using h
      rw [ih this]
      rfl

/-- A missing value makes the result's value missing. -/
theorem liftStep_strict {lib : Library A} {s : Step} {os : List (Option A)} {o : Option A} (h : liftStep lib s os = .ok o) (hn : none ∈ os) :
    o = none := by
  unfold liftStep at h
  split at h
  · split at h
    · split at h
      · split at h
        · rename_i oa ob
          have hv : ∀ ax, oa.bind (fun a => ob.bind (fun b => (lib.tensordot a b ax).toOption)) = none := by
            intro ax
            rcases oa with _ | a
            · rfl
            · rcases ob with _ | b
              · rfl
              · simp at hn
          simp only [hv] at h
          split at h
          · split at h
            · cases h
            · cases h; rfl
          · cases h; rfl
        · cases h
      · cases h
    · cases h
  · split at h
    · cases h
    · rw [mapM_id_none hn] at h
      cases h
      rfl

/-- The loop of `_core_contract` on the values of the nodes. -/
def liftLoop (lib : Library A) : List Step → List (Option A) → Except PyErr (List (Option A))
  | [], os => .ok os
  | s :: ss, os => do
    let (tmp, rest) ← popAll s.inds os
    let o ← liftStep lib s tmp
    liftLoop lib ss (rest ++ [o])

theorem coreLoop_graph (lib : Library A) (sharing : Bool) (steps : List Step) (ns : List (Node A)) (f : Feed A) :
    (AnyLibrary.coreLoop (graphOf lib) sharing [] steps ns).map (List.map (val f)) = liftLoop lib steps (ns.map (val f)) := by
  induction steps generalizing ns with
  | nil => rfl
  | cons s ss ih =>
    simp only [AnyLibrary.coreLoop, liftLoop, bind, Except.bind]
    rw [popAll_map]
    cases popAll s.inds ns with
    | error e => rfl
    | ok r =>
      obtain ⟨tmp, rest⟩ := r
      simp only [Except.map]
      have := stepResult_graph lib sharing s tmp f
      cases hs : AnyLibrary.stepResult (graphOf lib) sharing [] s tmp with
      | error e => rw [hs] at this; rw [← this]; rfl
      | ok n =>
        rw [hs] at this
        rw [← this]
        have := ih (rest ++ [n])
        rw [List.map_append, List.map_cons, List.map_nil] at this
        exact this

theorem liftLoop_strict {lib : Library A} {steps : List Step} {os os' : List (Option A)} (h : liftLoop lib steps os = .ok os') (hn : none ∈ os) :
    none ∈ os' := by
  induction steps generalizing os with
  | nil => cases h; exact hn
  | cons s ss ih =>
    simp only [liftLoop, bind, Except.bind] at h
    cases hp : popAll s.inds os with
    | error e => rw [hp] at h; cases h
    | ok r =>
      obtain ⟨tmp, rest⟩ := r
      rw [hp] at h
      simp only at h
      cases hs : liftStep lib s tmp with
      | error e => rw [hs] at h; cases h
      | ok o =>
        rw [hs] at h
        refine ih h ?_
        rcases List.mem_append.mp ((popAll_perm hp).mem_iff.mpr hn) with h1 | h1
        · rw [liftStep_strict hs h1]; simp
        · simp [h1]

theorem liftLoop_array (lib : Library A) (sharing : Bool) (steps : List Step) (as : List A) :
    (∀ bs, AnyLibrary.coreLoop lib sharing [] steps as = .ok bs → liftLoop lib steps (as.map some) = .ok (bs.map some)) ∧
    (∀ e os, AnyLibrary.coreLoop lib sharing [] steps as = .error e → liftLoop lib steps (as.map some) = .ok os → none ∈ os) := by
  induction steps generalizing as with
  | nil => exact ⟨fun bs h => by cases h; rfl, fun _ _ h => (by cases h)⟩
  | cons s ss ih =>
    simp only [AnyLibrary.coreLoop, liftLoop, bind, Except.bind]
    rw [popAll_map]
    cases popAll s.inds as with
    | error e => exact ⟨fun _ h => (by cases h), fun _ _ _ h => (by cases h)⟩
    | ok r =>
      obtain ⟨tmp, rest⟩ := r
      simp only [Except.map]
      obtain ⟨g1, g2⟩ := liftStep_array lib sharing s tmp
      cases hl : liftStep lib s (tmp.map some) with
      | error e =>
        have := g1 e hl
        cases hs : AnyLibrary.stepResult lib sharing [] s tmp with
        | error e' => exact ⟨fun _ h => (by cases h), fun _ _ _ h => (by cases h)⟩
        | ok a => rw [hs] at this; cases this
      | ok o =>
        have := g2 o hl
        cases hs : AnyLibrary.stepResult lib sharing [] s tmp with
        | error e' =>
          rw [hs] at this
          subst this
          refine ⟨fun _ h => (by cases h), fun _ os _ h => ?_⟩
          simp only [Except.toOption] at h
          exact liftLoop_strict h (by simp)
        | ok a =>
          rw [hs] at this
          subst this
          have := ih (rest ++ [a])
          rw [List.map_append, List.map_cons, List.map_nil] at this
          exact this

/-- The path leaves one operand. -/
theorem liftLoop_length {lib : Library A} {steps : List Step} {path : List (List Nat)} (hpath : steps.map Step.inds = path.map sortedDesc)
    {os os' : List (Option A)} (hc : CompletePath os.length path) (h : liftLoop lib steps os = .ok os') : os'.length = 1 := by
  induction path generalizing steps os with
  | nil => exact absurd hc (by simp [CompletePath])
  | cons p ps ih =>
    cases steps with
    | nil => simp at hpath
    | cons s ss =>
      simp only [List.map_cons, List.cons.injEq] at hpath
      obtain ⟨hs, hss⟩ := hpath
      simp only [liftLoop, bind, Except.bind] at h
      cases hp : popAll s.inds os with
      | error e => rw [hp] at h; cases h
      | ok r =>
        obtain ⟨tmp, rest⟩ := r
        rw [hp] at h
        simp only at h
        cases hl : liftStep lib s tmp with
        | error e => rw [hl] at h; cases h
        | ok o =>
          rw [hl] at h
          simp only at h
          have hlen := popAll_length hp
          rw [hs, sortedDesc_length] at hlen
          cases ps with
          | nil =>
            have : p.length = os.length := hc.2
            cases ss with
            | nil =>
              cases h
              have : rest.length = 0 := by omega
              simp [List.length_eq_zero_iff.mp this]
            | cons t ts => simp at hss
          | cons q qs =>
            refine ih hss (os := rest ++ [o]) ?_ h
            have : (rest ++ [o]).length = os.length + 1 - p.length := by simp; omega
            rw [this]
            exact hc.2

/-- The value that remains at the end, if any. -/
def outcome (r : Except PyErr (List (Option A))) : Option A := r.toOption.bind (fun os => os.head?.join)

/-- A graph for the whole contraction evaluates to what the library computes, and fails if it fails. -/
theorem outcome_array (lib : Library A) (sharing : Bool) {steps : List Step} {path : List (List Nat)}
    (hpath : steps.map Step.inds = path.map sortedDesc) {as : List A} (hc : CompletePath as.length path) :
    outcome (liftLoop lib steps (as.map some)) = (AnyLibrary.coreContract lib sharing [] steps as).toOption := by
  obtain ⟨g1, g2⟩ := liftLoop_array lib sharing steps as
  unfold AnyLibrary.coreContract
  simp only [bind, Except.bind]
  cases hl : AnyLibrary.coreLoop lib sharing [] steps as with
  | ok bs =>
    rw [g1 bs hl]
    cases bs <;> rfl
  | error e =>
    simp only
    cases ho : liftLoop lib steps (as.map some) with
    | error e' => rfl
    | ok os =>
      have h1 := g2 e os hl ho
      have h2 := liftLoop_length hpath (by simpa using hc) ho
      match os, h2 with
      | [o], _ =>
        have : o = none := by simpa [eq_comm] using h1
        subst this
        rfl

/-- With a missing value among the operands there is none at the end. -/
theorem outcome_strict (lib : Library A) {steps : List Step} {path : List (List Nat)}
    (hpath : steps.map Step.inds = path.map sortedDesc) {os : List (Option A)} (hc : CompletePath os.length path) (hn : none ∈ os) :
    outcome (liftLoop lib steps os) = none := by
  cases ho : liftLoop lib steps os with
  | error e' => rfl
  | ok os' =>
    have h1 := liftLoop_strict ho hn
    have h2 := liftLoop_length hpath hc ho
    match os', h2 with
    | [o], _ =>
      have : o = none := by simpa [eq_comm] using h1
      subst this
      rfl

/-- The value of the node that `_core_contract` returns. -/
theorem coreContract_graph (lib : Library A) (sharing : Bool) (steps : List Step) (ns : List (Node A)) (f : Feed A) :
    (AnyLibrary.coreContract (graphOf lib) sharing [] steps ns).toOption.bind (val f) = outcome (liftLoop lib steps (ns.map (val f))) := by
  rw [← coreLoop_graph lib sharing]
  unfold AnyLibrary.coreContract outcome
  simp only [bind, Except.bind]
  cases AnyLibrary.coreLoop (graphOf lib) sharing [] steps ns with
  | error e => rfl
  | ok l => cases l <;> rfl

/-! ## Evaluating the constants -/

/-- A partial evaluation of the constants leaves a contraction with the same outcome. -/
theorem evalLoop_fill (lib : Library A) (sharing : Bool) (steps : List Step) (hd : ∀ s ∈ steps, s.inds.Pairwise (· > ·)) {ops : List (Option A)}
    {vs full : List A} (hf : fill ops vs = .ok full) :
    (∀ ops' ss, GraphMode.evalLoop lib sharing steps ops = .ok (some (ops', ss)) →
      ∃ full', fill ops' vs = .ok full' ∧ AnyLibrary.coreLoop lib sharing [] steps full = AnyLibrary.coreLoop lib sharing [] ss full') ∧
    (∀ e, GraphMode.evalLoop lib sharing steps ops = .error e → AnyLibrary.coreLoop lib sharing [] steps full = .error e) := by
  induction steps generalizing ops full with
  | nil => exact ⟨fun _ _ h => (by cases h), fun _ h => (by cases h)⟩
  | cons s ss ih =>
    have hs := hd s (by simp)
    have hih := fun {o : List (Option A)} {f : List A} (h : fill o vs = .ok f) => ih (fun t ht => hd t (by simp [ht])) h
    simp only [GraphMode.evalLoop, AnyLibrary.coreLoop, bind, Except.bind]
    cases ha : anyNone ops s.inds with
    | error e =>
      obtain ⟨he, x, hx, hox⟩ := anyNone_error ha
      have hfx : full[x]? = none := by
        rw [List.getElem?_eq_none_iff] at hox ⊢
        rw [fill_length hf]; exact hox
      rw [popAll_out_of_range hs hx hfx]
      simp only
      exact ⟨fun _ _ h => (by cases h), fun e' h => by cases h; rw [he]⟩
    | ok b =>
      cases b with
      | true =>
        refine ⟨fun ops' ss' h => ?_, fun _ h => (by cases h)⟩
        simp only [if_true, Except.ok.injEq, Option.some.injEq, Prod.mk.injEq] at h
        obtain ⟨rfl, rfl⟩ := h
        refine ⟨full, hf, ?_⟩
        simp only [AnyLibrary.coreLoop, bind, Except.bind]
      | false =>
        simp only [Bool.false_eq_true, if_false]
        cases hp : popAll s.inds ops with
        | error e =>
          have hall := anyNone_false ha
          obtain ⟨P, Q, hPQ⟩ := popAll_desc (l := ops) hs (fun x hx => by
            obtain ⟨a, h⟩ := hall x hx
            exact (List.getElem?_eq_some_iff.mp h).1)
          rw [hPQ] at hp; cases hp
        | ok r =>
          obtain ⟨tmp, rest⟩ := r
          obtain ⟨tmp', ht⟩ := present_popped hs ha hp
          obtain ⟨rest', k1, k2⟩ := popAll_fill hf hp ht
          simp only [ht, k1]
          cases hv : AnyLibrary.stepResult lib sharing [] s tmp' with
          | error e => exact ⟨fun _ _ h => (by cases h), fun _ h => by cases h; rfl⟩
          | ok view => exact hih (fill_append k2 view)

/-- With a variable left, the evaluation of the constants stops before the end. -/
theorem evalLoop_ne_done (lib : Library A) (sharing : Bool) {steps : List Step} {path : List (List Nat)} (hpath : steps.map Step.inds = path.map sortedDesc)
    {ops : List (Option A)} (hc : CompletePath ops.length path) (hn : none ∈ ops) : GraphMode.evalLoop lib sharing steps ops ≠ .ok none := by
  induction path generalizing steps ops with
  | nil => exact absurd hc (by simp [CompletePath])
  | cons p ps ih =>
    cases steps with
    | nil => simp at hpath
    | cons s ss =>
      simp only [List.map_cons, List.cons.injEq] at hpath
      obtain ⟨hs, hss⟩ := hpath
      intro h
      simp only [GraphMode.evalLoop, bind, Except.bind] at h
      cases ha : anyNone ops s.inds with
      | error e => rw [ha] at h; cases h
      | ok b =>
        rw [ha] at h
        cases b with
        | true => cases h
        | false =>
          simp only [Bool.false_eq_true, if_false] at h
          cases hp : popAll s.inds ops with
          | error e => rw [hp] at h; cases h
          | ok r =>
            obtain ⟨tmp, rest⟩ := r
            rw [hp] at h
            simp only at h
            cases ht : present tmp with
            | error e => rw [ht] at h; cases h
            | ok tmp' =>
              rw [ht] at h
              simp only at h
              cases hv : AnyLibrary.stepResult lib sharing [] s tmp' with
              | error e => rw [hv] at h; cases h
              | ok view =>
                rw [hv] at h
                simp only at h
                have hlen := popAll_length hp
                have hnr : none ∈ rest := by
                  have := (popAll_perm hp).mem_iff.mpr hn
                  rcases List.mem_append.mp this with h1 | h1
                  · exfalso
                    have : ∀ (l : List (Option A)) (l' : List A), present l = .ok l' → none ∉ l := by
                      intro l
                      induction l with
                      | nil => simp
                      | cons o l ih =>
                        intro l' hl
                        cases o with
                        | none => cases hl
                        | some a =>
                          simp only [present, bind, Except.bind] at hl
                          cases h2 : present l with
                          | error e => rw [h2] at hl; cases hl
                          | ok l'' => simp [ih _ h2]
                    exact this _ _ ht h1
                  · exact h1
                have hr : 0 < rest.length := List.length_pos_of_mem hnr
                cases ps with
                | nil =>
                  have : p.length = ops.length := hc.2
                  rw [hs, sortedDesc_length] at hlen
                  omega
                | cons q qs =>
                  have hl : s.inds.length = p.length := by rw [hs, sortedDesc_length]
                  refine ih hss (ops := rest ++ [some view]) ?_ (by simp [hnr]) h
                  have hc' := hc.2
                  have hlp := hc.1
                  have : (rest ++ [some view]).length = ops.length + 1 - p.length := by simp; omega
                  rw [this]; exact hc'


theorem fill_map {α β : Type} (g : α → β) (os : List (Option α)) (vs : List α) :
    fill (os.map (Option.map g)) (vs.map g) = (fill os vs).map (List.map g) := by
  induction os generalizing vs with
  | nil => rfl
  | cons o os ih =>
    cases o with
    | some a =>
      simp only [List.map_cons, Option.map_some, fill, bind, Except.bind, ih]
      cases fill os vs <;> rfl
    | none =>
      cases vs with
      | nil => rfl
      | cons v vs =>
        simp only [List.map_cons, Option.map_none, fill, bind, Except.bind, ih]
        cases fill os vs <;> rfl

/-- The remaining steps and the evaluated constants do the rest of the work. -/
def Parts (lib : Library A) (steps : List Step) (slots : List (Option A)) (rest : List Step) (vals : List (Option A)) : Prop :=
  ∀ vs full : List (Option A), fill (slots.map (Option.map some)) vs = .ok full →
    ∃ full', fill (vals.map (Option.map some)) vs = .ok full' ∧ liftLoop lib rest full' = liftLoop lib steps full

theorem sessionRun_ok {ops : List (Option (Node A))} {vals : List (Option A)} (h : sessionRun ops = .ok vals) :
    ops.map (Option.map (val [])) = vals.map (Option.map some) := by
  induction ops generalizing vals with
  | nil => cases h; rfl
  | cons o ops ih =>
    cases o with
    | none =>
      simp only [sessionRun, bind, Except.bind] at h
      cases hr : sessionRun ops with
      | error e => rw [hr] at h; cases h
      | ok l => rw [hr] at h; cases h; simp [ih hr]
    | some n =>
      simp only [sessionRun, bind, Except.bind] at h
      cases hn : n.eval [] with
      | error e => rw [hn] at h; cases h
      | ok a =>
        rw [hn] at h
        simp only at h
        cases hr : sessionRun ops with
        | error e => rw [hr] at h; cases h
        | ok l => rw [hr] at h; cases h; simp [ih hr, val, hn, Except.toOption]

theorem sessionRun_error {ops : List (Option (Node A))} {e : PyErr} (h : sessionRun ops = .error e) : some none ∈ ops.map (Option.map (val [])) := by
  induction ops with
  | nil => cases h
  | cons o ops ih =>
    cases o with
    | none =>
      simp only [sessionRun, bind, Except.bind] at h
      cases hr : sessionRun ops with
      | error e' => rw [hr] at h; cases h; simpa using ih hr
      | ok l => rw [hr] at h; cases h
    | some n =>
      simp only [sessionRun, bind, Except.bind] at h
      cases hn : n.eval [] with
      | error e' => simp [val, hn, Except.toOption]
      | ok a =>
        rw [hn] at h
        simp only at h
        cases hr : sessionRun ops with
        | error e' =>
          rw [hr] at h
          cases h
          rw [List.map_cons]
          exact List.mem_cons_of_mem _ (ih hr)
        | ok l => rw [hr] at h; cases h

/-- A node with a given value. -/
def ofOption (o : Option A) : Node A := ⟨none, fun _ => match o with
  | some a => .ok a
  | none => .error .value⟩

theorem fill_nodes {slots : List (Option A)} {vs full : List (Option A)} (h : fill (slots.map (Option.map some)) vs = .ok full) :
    ∃ fullN, fill (slots.map (Option.map Node.const)) (vs.map ofOption) = .ok fullN ∧ fullN.map (val []) = full := by
  have key := fill_map (val []) (slots.map (Option.map Node.const)) (vs.map ofOption)
  have e1 : (slots.map (Option.map Node.const)).map (Option.map (val [])) = slots.map (Option.map (some : A → Option A)) := by
    rw [List.map_map]
    refine List.map_congr_left ?_
    rintro (_ | a) _ <;> rfl
  have e2 : (vs.map ofOption).map (val []) = vs := by
    rw [List.map_map]
    conv_rhs => rw [← List.map_id vs]
    refine List.map_congr_left ?_
    rintro (_ | a) _ <;> rfl
  rw [e1, e2, h] at key
  cases hf : fill (slots.map (Option.map Node.const)) (vs.map ofOption) with
  | error e => rw [hf] at key; cases key
  | ok fullN => rw [hf] at key; exact ⟨fullN, rfl, (Except.ok.inj key).symm⟩

theorem fill_mem {α : Type} {os : List (Option α)} {vs full : List α} (h : fill os vs = .ok full) {a : α} (ha : some a ∈ os) : a ∈ full := by
  obtain ⟨i, hi⟩ := List.mem_iff_getElem?.mp ha
  exact List.mem_of_getElem? (fill_some h hi).1

/-- Evaluating the constants leaves a contraction with the same outcome. -/
theorem parts_of_eval {lib : Library A} {sharing : Bool} {steps rest : List Step} (hd : ∀ s ∈ steps, s.inds.Pairwise (· > ·))
    {slots vals : List (Option A)} {ops : List (Option (Node A))}
    (h : GraphMode.evalLoop (graphOf lib) sharing steps (slots.map (Option.map Node.const)) = .ok (some (ops, rest)))
    (hs : sessionRun ops = .ok vals) : Parts lib steps slots rest vals := by
  intro vs full hf
  obtain ⟨fullN, h1, h2⟩ := fill_nodes hf
  obtain ⟨full', h3, h4⟩ := (evalLoop_fill (graphOf lib) sharing steps hd h1).1 ops rest h
  have key := fill_map (val []) ops (vs.map ofOption)
  have e2 : (vs.map ofOption).map (val []) = vs := by
    rw [List.map_map]
    conv_rhs => rw [← List.map_id vs]
    refine List.map_congr_left ?_
    rintro (_ | a) _ <;> rfl
  rw [sessionRun_ok hs, e2, h3] at key
  refine ⟨full'.map (val []), key, ?_⟩
  rw [← h2, ← coreLoop_graph lib sharing, ← coreLoop_graph lib sharing, h4]

/-- If evaluating the constants fails, so does the contraction. -/
theorem outcome_of_eval_error {lib : Library A} {sharing : Bool} {steps : List Step} {path : List (List Nat)}
    (hpath : steps.map Step.inds = path.map sortedDesc) (hd : ∀ s ∈ steps, s.inds.Pairwise (· > ·))
    {slots : List (Option A)} (hc : CompletePath slots.length path) (hn : none ∈ slots)
    (h : ∀ ops rest vals, GraphMode.evalLoop (graphOf lib) sharing steps (slots.map (Option.map Node.const)) = .ok (some (ops, rest)) →
      sessionRun ops ≠ .ok vals) {vs full : List (Option A)} (hf : fill (slots.map (Option.map some)) vs = .ok full) :
    outcome (liftLoop lib steps full) = none := by
  obtain ⟨fullN, h1, h2⟩ := fill_nodes hf
  have hlen : full.length = slots.length := by rw [fill_length hf, List.length_map]
  obtain ⟨g1, g2⟩ := evalLoop_fill (graphOf lib) sharing steps hd h1
  cases he : GraphMode.evalLoop (graphOf lib) sharing steps (slots.map (Option.map Node.const)) with
  | error e =>
    have := coreLoop_graph lib sharing steps fullN []
    rw [g2 e he, h2] at this
    rw [← this]
    rfl
  | ok r =>
    cases r with
    | none =>
      refine absurd he (evalLoop_ne_done (graphOf lib) sharing hpath (by simpa using hc) ?_)
      exact List.mem_map.mpr ⟨none, hn, rfl⟩
    | some r =>
      obtain ⟨ops, rest⟩ := r
      obtain ⟨full', h3, h4⟩ := g1 ops rest he
      cases hs : sessionRun ops with
      | ok vals => exact absurd hs (h ops rest vals he)
      | error e =>
        obtain ⟨o, ho, hv⟩ := List.mem_map.mp (sessionRun_error hs)
        cases o with
        | none => cases hv
        | some n =>
          have hv : val [] n = none := Option.some.inj hv
          have hm := fill_mem h3 ho
          have key : liftLoop lib rest (full'.map (val [])) = liftLoop lib steps full := by
            rw [← h2, ← coreLoop_graph lib sharing, ← coreLoop_graph lib sharing, h4]
          cases hl : liftLoop lib steps full with
          | error e' => rfl
          | ok os =>
            rw [hl] at key
            have k1 := liftLoop_strict key (List.mem_map.mpr ⟨n, hm, hv⟩)
            have k2 := liftLoop_length hpath (by rw [hlen]; exact hc) hl
            match os, k2 with
            | [o], _ =>
              have : o = none := by simpa [eq_comm] using k1
              subst this
              rfl

end OE.GraphMode
