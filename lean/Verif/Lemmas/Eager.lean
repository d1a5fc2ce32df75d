import Verif.Spec.Eager
import Verif.Props.GraphMode

/-!
# Steps on arrays that know where they are
-/

namespace OE.Eager
open OE OE.Py OE.Spec OE.Contract OE.AnyLibrary OE.Parser OE.Props
open OE.Expression (fill present anyNone)

variable {A : Type}

theorem stepResult_closed {W : World A} {b : Str} {P : Place → Prop} {q : Place} (h : Closed W b P q) (sh : Bool) (s : Step) {tmp : List (Arr A)}
    (hne : tmp ≠ []) (ht : ∀ a ∈ tmp, P a.place) :
    AnyLibrary.stepResult (placed W b) sh [] s tmp = (AnyLibrary.stepResult (W.lib b) sh [] s (tmp.map Arr.val)).map (fun v => ⟨q, v⟩) := by
  have he : (placed W b).einsum.isNone = (W.lib b).einsum.isNone := by simp [placed]
  unfold AnyLibrary.stepResult
  rw [he]
  split
  · unfold AnyLibrary.blasStep
    cases splitArrow s.einsumStr with
    | nil => rfl
    | cons a l =>
      rcases l with _ | ⟨r, _ | ⟨c, l⟩⟩
      · rfl
      · simp only
        cases splitOn cComma a with
        | nil => rfl
        | cons x l =>
          rcases l with _ | ⟨y, _ | ⟨z, l⟩⟩
          · rfl
          · simp only
            rcases tmp with _ | ⟨n, _ | ⟨m, _ | ⟨k, ns⟩⟩⟩
            · rfl
            · rfl
            · have hps : ∀ p ∈ [n.place, m.place], P p := by
                intro p hp
                simp only [List.mem_cons, List.not_mem_nil, or_false] at hp
                rcases hp with rfl | rfl
                · exact ht n (by simp)
                · exact ht m (by simp)
              simp only [List.map_cons, List.map_nil, ne_eq, not_true_eq_false, if_false, placed, bind, Except.bind,
                h.accepts _ (by simp) hps, h.made _ (by simp) hps, if_true]
              cases (W.lib b).tensordot n.val m.val (blasAxes x y s.removed) with
              | error e => rfl
              | ok v =>
                simp only
                split
                · cases transposeAxes ((x ++ y).filter (fun c => c ∉ s.removed)) r with
                  | error e => rfl
                  | ok perm =>
                    have hq : ∀ p ∈ [q], P p := by simp [h.mem]
                    simp only [h.accepts _ (by simp) hq, h.made _ (by simp) hq, if_true]
                    cases (W.lib b).transpose v perm <;> rfl
                · rfl
            · rfl
          · rfl
      · rfl
  · unfold AnyLibrary.einsumCall
    cases hl : (W.lib b).einsum with
    | none => simp [placed, hl, Except.map]
    | some fn =>
      have hps : ∀ p ∈ tmp.map Arr.place, P p := by
        intro p hp
        obtain ⟨a, ha, rfl⟩ := List.mem_map.mp hp
        exact ht a ha
      have hn : tmp.map Arr.place ≠ [] := by simpa using hne
      simp only [placed, hl, Option.map_some, h.accepts _ hn hps, h.made _ hn hps, if_true, bind, Except.bind]
      have : filterEinsumDefaults (if sh = true then [] else [(S "out", (Val.none : Val A))]) = [] := GraphMode.handed_kw sh
      rw [this]
      cases fn (handedString s.einsumStr) (tmp.map Arr.val) [] <;> rfl

/-- Where the result of a step is, and what that says about the operands. -/
theorem stepResult_place {W : World A} {b : Str} {sh : Bool} {s : Step} {tmp : List (Arr A)} {r : Arr A}
    (h : AnyLibrary.stepResult (placed W b) sh [] s tmp = .ok r) :
    (W.accepts b (tmp.map Arr.place) = true ∧ r.place = W.made b (tmp.map Arr.place)) ∨
    (W.accepts b (tmp.map Arr.place) = true ∧ W.accepts b [W.made b (tmp.map Arr.place)] = true ∧ r.place = W.made b [W.made b (tmp.map Arr.place)]) := by
  have he : (placed W b).einsum.isNone = (W.lib b).einsum.isNone := by simp [placed]
  unfold AnyLibrary.stepResult at h
  rw [he] at h
  split at h
  · unfold AnyLibrary.blasStep at h
    cases h1 : splitArrow s.einsumStr with
    | nil => rw [h1] at h; cases h
    | cons a l =>
      rw [h1] at h
      rcases l with _ | ⟨t, _ | ⟨c, l⟩⟩
      · cases h
      · simp only at h
        cases h2 : splitOn cComma a with
        | nil => rw [h2] at h; cases h
        | cons x l =>
          rw [h2] at h
          rcases l with _ | ⟨y, _ | ⟨z, l⟩⟩
          · cases h
          · simp only at h
            rcases tmp with _ | ⟨n, _ | ⟨m, _ | ⟨k, ns⟩⟩⟩
            · cases h
            · cases h
            · simp only [ne_eq, not_true_eq_false, if_false, placed, bind, Except.bind, List.map_cons, List.map_nil] at h ⊢
              by_cases ha : W.accepts b [n.place, m.place] = true
              · rw [if_pos ha] at h
                cases ht : (W.lib b).tensordot n.val m.val (blasAxes x y s.removed) with
                | error e => rw [ht] at h; cases h
                | ok v =>
                  rw [ht] at h
                  simp only at h
                  split at h
                  · cases hp : transposeAxes ((x ++ y).filter (fun c => c ∉ s.removed)) t with
                    | error e => rw [hp] at h; cases h
                    | ok perm =>
                      rw [hp] at h
                      simp only at h
                      by_cases hq : W.accepts b [W.made b [n.place, m.place]] = true
                      · rw [if_pos hq] at h
                        cases hv : (W.lib b).transpose v perm with
                        | error e => rw [hv] at h; cases h
                        | ok v' => rw [hv] at h; cases h; exact Or.inr ⟨ha, hq, rfl⟩
                      · rw [if_neg hq] at h; cases h
                  · cases h; exact Or.inl ⟨ha, rfl⟩
              · rw [if_neg ha] at h; cases h
            · cases h
          · cases h
      · cases h
  · unfold AnyLibrary.einsumCall at h
    cases hl : (W.lib b).einsum with
    | none => simp [placed, hl] at h
    | some fn =>
      simp only [placed, hl, Option.map_some, bind, Except.bind] at h
      by_cases ha : W.accepts b (tmp.map Arr.place) = true
      · rw [if_pos ha] at h
        cases hf : fn (handedString s.einsumStr) (tmp.map Arr.val) [] with
        | error e => rw [hf] at h; cases h
        | ok v => rw [hf] at h; cases h; exact Or.inl ⟨ha, rfl⟩
      · rw [if_neg ha] at h; cases h

theorem stepResult_made {W : World A} {b : Str} {sh : Bool} {s : Step} {tmp : List (Arr A)} {r : Arr A}
    (h : AnyLibrary.stepResult (placed W b) sh [] s tmp = .ok r) : ∃ ps, r.place = W.made b ps := by
  rcases stepResult_place h with ⟨_, h⟩ | ⟨_, _, h⟩
  · exact ⟨_, h⟩
  · exact ⟨_, h⟩

theorem stepResult_strict {W : World A} {b : Str} (hs : Strict W b) {sh : Bool} {s : Step} {tmp : List (Arr A)} {r : Arr A}
    (h : AnyLibrary.stepResult (placed W b) sh [] s tmp = .ok r) : ∀ a ∈ tmp, a.place = r.place := by
  intro a ha
  have hm : a.place ∈ tmp.map Arr.place := List.mem_map_of_mem ha
  rcases stepResult_place h with ⟨h1, h2⟩ | ⟨h1, h2, h3⟩
  · rw [h2, hs.stays _ h1 _ hm]
  · rw [h3, hs.stays _ h2 (W.made b (tmp.map Arr.place)) (by simp), hs.stays _ h1 _ hm]

theorem transposeAxes_noKey (l r : Str) : transposeAxes l r ≠ .error .key := by
  unfold transposeAxes
  induction r with
  | nil => simp [pure, Except.pure]
  | cons c r ih =>
    rw [List.mapM_cons]
    simp only [bind, Except.bind]
    split
    · rename_i e h
      split at h
      · cases h
      · cases h; simp
    · split
      · rename_i e h; rw [h] at ih; exact ih
      · simp [pure, Except.pure]

theorem stepResult_noKey {W : World A} {b : Str} (hk : NoKeyError (W.lib b)) (sh : Bool) (s : Step) (tmp : List (Arr A)) :
    AnyLibrary.stepResult (placed W b) sh [] s tmp ≠ .error .key := by
  intro h
  have he : (placed W b).einsum.isNone = (W.lib b).einsum.isNone := by simp [placed]
  unfold AnyLibrary.stepResult at h
  rw [he] at h
  split at h
  · unfold AnyLibrary.blasStep at h
    cases h1 : splitArrow s.einsumStr with
    | nil => rw [h1] at h; cases h
    | cons a l =>
      rw [h1] at h
      rcases l with _ | ⟨t, _ | ⟨c, l⟩⟩
      · cases h
      · simp only at h
        cases h2 : splitOn cComma a with
        | nil => rw [h2] at h; cases h
        | cons x l =>
          rw [h2] at h
          rcases l with _ | ⟨y, _ | ⟨z, l⟩⟩
          · cases h
          · simp only at h
            rcases tmp with _ | ⟨n, _ | ⟨m, _ | ⟨k, ns⟩⟩⟩
            · cases h
            · cases h
            · simp only [ne_eq, not_true_eq_false, if_false, placed, bind, Except.bind] at h
              by_cases ha : W.accepts b [n.place, m.place] = true
              · rw [if_pos ha] at h
                cases ht : (W.lib b).tensordot n.val m.val (blasAxes x y s.removed) with
                | error e => rw [ht] at h; cases h; exact hk.tensordot _ _ _ ht
                | ok v =>
                  rw [ht] at h
                  simp only at h
                  split at h
                  · cases hp : transposeAxes ((x ++ y).filter (fun c => c ∉ s.removed)) t with
                    | error e => rw [hp] at h; cases h; exact transposeAxes_noKey _ _ hp
                    | ok perm =>
                      rw [hp] at h
                      simp only at h
                      by_cases hq : W.accepts b [W.made b [n.place, m.place]] = true
                      · rw [if_pos hq] at h
                        cases hv : (W.lib b).transpose v perm with
                        | error e => rw [hv] at h; cases h; exact hk.transpose _ _ hv
                        | ok v' => rw [hv] at h; cases h
                      · rw [if_neg hq] at h; cases h
                  · cases h
              · rw [if_neg ha] at h; cases h
            · cases h
          · cases h
      · cases h
  · unfold AnyLibrary.einsumCall at h
    cases hl : (W.lib b).einsum with
    | none => simp [placed, hl] at h
    | some fn =>
      simp only [placed, hl, Option.map_some, bind, Except.bind] at h
      by_cases ha : W.accepts b (tmp.map Arr.place) = true
      · rw [if_pos ha] at h
        cases hf : fn (handedString s.einsumStr) (tmp.map Arr.val) [] with
        | error e => rw [hf] at h; cases h; exact hk.einsum _ hl _ _ _ hf
        | ok v => rw [hf] at h; cases h
      · rw [if_neg ha] at h; cases h

/-! ## The loops -/

theorem anyNone_noKey {α : Type} (ops : List (Option α)) (xs : List Nat) : anyNone ops xs ≠ .error .key := by
  intro h
  have := (OE.Expression.anyNone_error h).1
  cases this

theorem present_noKey {α : Type} (os : List (Option α)) : present os ≠ .error .key := by
  induction os with
  | nil => simp [present]
  | cons o os ih =>
    cases o with
    | none => simp [present]
    | some a =>
      simp only [present, bind, Except.bind]
      split
      · rename_i e h; rw [h] at ih; exact ih
      · simp

theorem evalLoop_noKey {W : World A} {b : Str} (hk : NoKeyError (W.lib b)) (steps : List Step) (ops : List (Option (Arr A))) :
    GraphMode.evalLoop (placed W b) false steps ops ≠ .error .key := by
  induction steps generalizing ops with
  | nil => simp [GraphMode.evalLoop]
  | cons s ss ih =>
    simp only [GraphMode.evalLoop, bind, Except.bind]
    cases ha : anyNone ops s.inds with
    | error e => intro h; cases h; exact anyNone_noKey _ _ ha
    | ok t =>
      cases t with
      | true => simp
      | false =>
        simp only [Bool.false_eq_true, if_false]
        cases hp : popAll s.inds ops with
        | error e => intro h; cases h; cases popAll_error hp
        | ok r =>
          obtain ⟨tmp, rest⟩ := r
          simp only
          cases ht : present tmp with
          | error e => intro h; cases h; exact present_noKey _ ht
          | ok tmp' =>
            simp only
            cases hv : AnyLibrary.stepResult (placed W b) false [] s tmp' with
            | error e => intro h; cases h; exact stepResult_noKey hk _ _ _ hv
            | ok v => exact ih _

theorem present_mem {α : Type} {os : List (Option α)} {as : List α} (h : present os = .ok as) : os = as.map some := by
  induction os generalizing as with
  | nil => cases h; rfl
  | cons o os ih =>
    cases o with
    | none => cases h
    | some a =>
      simp only [present, bind, Except.bind] at h
      cases hr : present os with
      | error e => rw [hr] at h; cases h
      | ok r => rw [hr] at h; cases h; simp [ih hr]

/-- What holds of the operands and of all results of the library holds of the evaluated constants. -/
theorem evalLoop_all {lib : Library A} {sh : Bool} {Q : A → Prop} (hQ : ∀ s tmp r, AnyLibrary.stepResult lib sh [] s tmp = .ok r → Q r) {steps ss : List Step}
    {ops ops' : List (Option A)} (ho : ∀ a, some a ∈ ops → Q a) (h : GraphMode.evalLoop lib sh steps ops = .ok (some (ops', ss))) :
    ∀ a, some a ∈ ops' → Q a := by
  induction steps generalizing ops with
  | nil => cases h
  | cons s ss' ih =>
    simp only [GraphMode.evalLoop, bind, Except.bind] at h
    cases ha : anyNone ops s.inds with
    | error e => rw [ha] at h; cases h
    | ok t =>
      rw [ha] at h
      cases t with
      | true => simp only [if_true, Except.ok.injEq, Option.some.injEq, Prod.mk.injEq] at h; rw [← h.1]; exact ho
      | false =>
        simp only [Bool.false_eq_true, if_false] at h
        cases hp : popAll s.inds ops with
        | error e => rw [hp] at h; cases h
        | ok r =>
          obtain ⟨tmp, rest⟩ := r
          rw [hp] at h
          simp only at h
          cases ht : present tmp with
          | error e => rw [ht] at h; cases h
          | ok tmp' =>
            rw [ht] at h
            simp only at h
            cases hv : AnyLibrary.stepResult lib sh [] s tmp' with
            | error e => rw [hv] at h; cases h
            | ok v =>
              rw [hv] at h
              refine ih (ops := rest ++ [some v]) (fun a ha' => ?_) h
              simp only [List.mem_append, List.mem_singleton, Option.some.injEq] at ha'
              rcases ha' with ha' | rfl
              · exact ho a ((popAll_perm hp).mem_iff.mp (by simp [ha']))
              · exact hQ _ _ _ hv

/-- Which steps remain depends only on which operands are constant. -/
theorem evalLoop_rest {B : Type} {lib : Library A} {lib' : Library B} {sh sh' : Bool} {steps ss ss' : List Step} {ops r : List (Option A)} {ops' r' : List (Option B)}
    (hp : ops.map Option.isSome = ops'.map Option.isSome) (h : GraphMode.evalLoop lib sh steps ops = .ok (some (r, ss)))
    (h' : GraphMode.evalLoop lib' sh' steps ops' = .ok (some (r', ss'))) : ss = ss' := by
  have hany : ∀ {α : Type} (l : List (Option α)) (xs : List Nat), anyNone l xs = anyNone (l.map (fun o => if o.isSome then some () else none)) xs := by
    intro α l xs
    induction xs with
    | nil => rfl
    | cons x xs ih =>
      simp only [anyNone, List.getElem?_map]
      cases l[x]? with
      | none => rfl
      | some o => cases o <;> simp [ih]
  have hpat : ∀ {α : Type} (l : List (Option α)), l.map (fun o => if o.isSome then some () else none) = (l.map Option.isSome).map (fun b : Bool => if b then some () else none) := by
    intro α l; rw [List.map_map]; rfl
  induction steps generalizing ops ops' with
  | nil => cases h
  | cons s st ih =>
    simp only [GraphMode.evalLoop, bind, Except.bind] at h h'
    have hsame : anyNone ops s.inds = anyNone ops' s.inds := by rw [hany ops, hany ops', hpat, hpat, hp]
    rw [← hsame] at h'
    cases ha : anyNone ops s.inds with
    | error e => rw [ha] at h; cases h
    | ok t =>
      rw [ha] at h h'
      cases t with
      | true =>
        simp only [if_true, Except.ok.injEq, Option.some.injEq, Prod.mk.injEq] at h h'
        rw [← h.2, ← h'.2]
      | false =>
        simp only [Bool.false_eq_true, if_false] at h h'
        cases hq : popAll s.inds ops with
        | error e => rw [hq] at h; cases h
        | ok u =>
          obtain ⟨tmp, rest⟩ := u
          cases hq' : popAll s.inds ops' with
          | error e => rw [hq'] at h'; cases h'
          | ok u' =>
            obtain ⟨tmp', rest'⟩ := u'
            rw [hq] at h
            rw [hq'] at h'
            simp only at h h'
            cases ht : present tmp with
            | error e => rw [ht] at h; cases h
            | ok t1 =>
              cases ht' : present tmp' with
              | error e => rw [ht'] at h'; cases h'
              | ok t1' =>
                rw [ht] at h
                rw [ht'] at h'
                simp only at h h'
                cases hv : AnyLibrary.stepResult lib sh [] s t1 with
                | error e => rw [hv] at h; cases h
                | ok v =>
                  cases hv' : AnyLibrary.stepResult lib' sh' [] s t1' with
                  | error e => rw [hv'] at h'; cases h'
                  | ok v' =>
                    rw [hv] at h
                    rw [hv'] at h'
                    refine ih (ops := rest ++ [some v]) (ops' := rest' ++ [some v']) ?_ h h'
                    have k1 := popAll_map_ok Option.isSome hq
                    have k2 := popAll_map_ok Option.isSome hq'
                    rw [hp, k2] at k1
                    simp only [Except.ok.injEq, Prod.mk.injEq] at k1
                    simp [k1.2]

/-- The path leaves one operand. -/
theorem coreLoop_length {lib : Library A} {sh : Bool} {steps : List Step} {path : List (List Nat)} (hpath : steps.map Step.inds = path.map sortedDesc)
    {os os' : List A} (hc : CompletePath os.length path) (h : AnyLibrary.coreLoop lib sh [] steps os = .ok os') : os'.length = 1 := by
  induction path generalizing steps os with
  | nil => exact absurd hc (by simp [CompletePath])
  | cons p ps ih =>
    cases steps with
    | nil => simp at hpath
    | cons s ss =>
      simp only [List.map_cons, List.cons.injEq] at hpath
      obtain ⟨hs, hss⟩ := hpath
      simp only [AnyLibrary.coreLoop, bind, Except.bind] at h
      cases hp : popAll s.inds os with
      | error e => rw [hp] at h; cases h
      | ok r =>
        obtain ⟨tmp, rest⟩ := r
        rw [hp] at h
        simp only at h
        cases hl : AnyLibrary.stepResult lib sh [] s tmp with
        | error e => rw [hl] at h; cases h
        | ok o =>
          rw [hl] at h
          simp only at h
          have hlen := popAll_length hp
          rw [hs, sortedDesc_length] at hlen
          cases ps with
          | nil =>
            have : p.length = os.length := hc.2
            cases ss with
            | nil =>
              cases h
              have : rest.length = 0 := by omega
              simp [List.length_eq_zero_iff.mp this]
            | cons t ts => simp at hss
          | cons q qs =>
            refine ih hss (os := rest ++ [o]) ?_ h
            have : (rest ++ [o]).length = os.length + 1 - p.length := by simp; omega
            rw [this]
            exact hc.2

/-- Operands at places that the library accepts: the contraction computes what the functions compute on the contents, and the last array is at the
place where the library puts its results. -/
theorem coreLoop_closed {W : World A} {b : Str} {P : Place → Prop} {q : Place} (h : Closed W b P q) (sh : Bool) {steps : List Step}
    (hi : ∀ s ∈ steps, s.inds ≠ []) {ops : List (Arr A)} (ho : ∀ a ∈ ops, P a.place) :
    (AnyLibrary.coreLoop (placed W b) sh [] steps ops).map (List.map Arr.val) = AnyLibrary.coreLoop (W.lib b) sh [] steps (ops.map Arr.val) ∧
    ∀ r, AnyLibrary.coreLoop (placed W b) sh [] steps ops = .ok r → (steps ≠ [] ∨ ops.getLast?.map Arr.place = some q) → r.getLast?.map Arr.place = some q := by
  induction steps generalizing ops with
  | nil =>
    refine ⟨rfl, fun r hr hq => ?_⟩
    cases hr
    simpa using hq
  | cons s ss ih =>
    simp only [AnyLibrary.coreLoop, bind, Except.bind]
    rw [popAll_map]
    cases hp : popAll s.inds ops with
    | error e => exact ⟨rfl, fun r hr => by cases hr⟩
    | ok u =>
      obtain ⟨tmp, rest⟩ := u
      have hmem := fun a => (popAll_perm hp).mem_iff (a := a)
      have hne : tmp ≠ [] := by
        have h1 := popAll_length hp
        have h2 := hi s (by simp)
        intro h0
        rw [h0] at h1
        exact h2 (List.length_eq_zero_iff.mp (by simpa using h1.1.symm))
      simp only [Except.map]
      rw [stepResult_closed h sh s hne (fun a ha => ho a ((hmem a).mp (by simp [ha])))]
      cases AnyLibrary.stepResult (W.lib b) sh [] s (tmp.map Arr.val) with
      | error e => exact ⟨rfl, fun r hr => by cases hr⟩
      | ok v =>
        simp only [Except.map]
        obtain ⟨g1, g2⟩ := ih (fun t ht => hi t (by simp [ht])) (ops := rest ++ [⟨q, v⟩]) (by
          intro a ha
          simp only [List.mem_append, List.mem_singleton] at ha
          rcases ha with ha | rfl
          · exact ho a ((hmem a).mp (by simp [ha]))
          · exact h.mem)
        refine ⟨?_, fun r hr _ => g2 r hr (Or.inr (by simp))⟩
        simpa [Except.map] using g1

theorem coreContract_closed {W : World A} {b : Str} {P : Place → Prop} {q : Place} (h : Closed W b P q) (sh : Bool) {steps : List Step}
    {path : List (List Nat)} (hpath : steps.map Step.inds = path.map sortedDesc) {ops : List (Arr A)} (hc : CompletePath ops.length path)
    (hi : ∀ s ∈ steps, s.inds ≠ []) (ho : ∀ a ∈ ops, P a.place) :
    AnyLibrary.coreContract (placed W b) sh [] steps ops =
      (AnyLibrary.coreContract (W.lib b) sh [] steps (ops.map Arr.val)).map (fun v => ⟨q, v⟩) := by
  obtain ⟨g1, g2⟩ := coreLoop_closed h sh hi ho
  have hne : steps ≠ [] := by
    rintro rfl
    cases path with
    | nil => exact absurd hc (by simp [CompletePath])
    | cons p ps => simp at hpath
  unfold AnyLibrary.coreContract
  simp only [bind, Except.bind]
  rw [← g1]
  cases hl : AnyLibrary.coreLoop (placed W b) sh [] steps ops with
  | error e => rfl
  | ok r =>
    have hlen := coreLoop_length hpath hc hl
    have hq := g2 r hl (Or.inl hne)
    match r, hlen with
    | [a], _ =>
      simp only [List.getLast?_singleton, Option.map_some, Option.some.injEq] at hq
      simp only [Except.map, List.map_cons]
      rw [← hq]

/-- A library that refuses arrays at different places does not contract operands at different places. -/
theorem coreLoop_strict {W : World A} {b : Str} (hs : Strict W b) {sh : Bool} {steps : List Step} {ops r : List (Arr A)}
    (h : AnyLibrary.coreLoop (placed W b) sh [] steps ops = .ok r) {p : Place} (hr : ∀ a ∈ r, a.place = p) : ∀ a ∈ ops, a.place = p := by
  induction steps generalizing ops with
  | nil => cases h; exact hr
  | cons s ss ih =>
    simp only [AnyLibrary.coreLoop, bind, Except.bind] at h
    cases hp : popAll s.inds ops with
    | error e => rw [hp] at h; cases h
    | ok u =>
      obtain ⟨tmp, rest⟩ := u
      rw [hp] at h
      simp only at h
      cases hv : AnyLibrary.stepResult (placed W b) sh [] s tmp with
      | error e => rw [hv] at h; cases h
      | ok v =>
        rw [hv] at h
        have h1 := ih h
        have h2 := stepResult_strict hs hv
        intro a ha
        rcases List.mem_append.mp ((popAll_perm hp).mem_iff.mpr ha) with ha | ha
        · rw [h2 a ha]; exact h1 v (by simp)
        · exact h1 a (by simp [ha])

theorem coreContract_strict {W : World A} {b : Str} (hs : Strict W b) {sh : Bool} {steps : List Step} {path : List (List Nat)}
    (hpath : steps.map Step.inds = path.map sortedDesc) {ops : List (Arr A)} (hc : CompletePath ops.length path) {r : Arr A}
    (h : AnyLibrary.coreContract (placed W b) sh [] steps ops = .ok r) : ∀ a ∈ ops, a.place = r.place := by
  unfold AnyLibrary.coreContract at h
  simp only [bind, Except.bind] at h
  cases hl : AnyLibrary.coreLoop (placed W b) sh [] steps ops with
  | error e => rw [hl] at h; cases h
  | ok os =>
    rw [hl] at h
    have hlen := coreLoop_length hpath hc hl
    match os, hlen with
    | [a], _ =>
      cases h
      exact coreLoop_strict hs hl (by simp)

end OE.Eager
