import Verif.Lemmas.Expression
import Verif.Lemmas.PlainSteps
import Verif.Lemmas.GreedyInv
import Verif.Props.Contract3
import Verif.Props.Parser2

/-!
# C39, C40: contraction expressions
-/

namespace OE.Props
open OE OE.Py OE.Spec OE.Parser OE.Contract OE.Expression

variable {R : Type} [CommSemiring R]

/-! ## Commas and operands -/

theorem count_filter_space (s : Str) : (s.filter (· ≠ cSpace)).count cComma = s.count cComma := by
  have : s.filter (· ≠ cSpace) = removeChar cSpace s := rfl
  rw [this, count_removeChar (by decide)]

theorem isSplit_count {ts : List Str} {s : Str} (h : IsSplit ts s) : ts.length = s.count cComma + 1 := by
  obtain ⟨hne, rfl, hfree⟩ := h
  have : splitOn cComma (join [cComma] ts) = ts := splitOn_join cComma ts hne hfree
  have hj : join [cComma] ts = List.intercalate [cComma] ts := by
    clear hne hfree this
    induction ts with
    | nil => rfl
    | cons t ts ih =>
      cases ts with
      | nil => simp [join, List.intercalate]
      | cons u us => rw [List.intercalate_cons_cons, ← ih]; rfl
  rw [← hj, ← splitOn_length, this]

theorem expandOut_comma {eo r r' : Str} (h : ExpandOut eo r r') (hc : cComma ∉ r') : cComma ∉ r := by
  induction h with
  | nil => simp
  | dots r r' _ ih =>
    simp only [List.mem_append, not_or] at hc ⊢
    exact ⟨by decide, ih hc.2⟩
  | char c r r' _ _ ih =>
    simp only [List.mem_cons, not_or] at hc ⊢
    exact ⟨hc.1, ih hc.2⟩

/-- `contraction.count(",") + 1` is the number of operands. -/
theorem count_of_parse {eq : Str} {shapes : List Shape} {inp out : Str} (hp : parseEinsum eq shapes = .ok (inp, out)) (hc : cComma ∉ out) :
    eq.count cComma + 1 = shapes.length := by
  rw [← count_filter_space]
  by_cases hd : cDot ∈ eq
  · obtain ⟨E, lhs, terms, terms', ks, L, eo, _, _, h3, _, h5, _, _, _, _, _, _, _, h9, _, _⟩ := C35_ellipsis_expansion eq shapes inp out hd hp
    have := isSplit_count h3
    rcases h9 with ⟨rhs, h9, h10⟩ | ⟨h9, _⟩
    · rw [h9, List.count_append, List.count_append, List.count_eq_zero_of_not_mem (expandOut_comma h10 hc),
        List.count_eq_zero_of_not_mem (l := S "->") (by decide)]
      omega
    · rw [h9]; omega
  · rw [C34_parse_einsum_input_iff eq shapes hd] at hp
    generalize ht : eq.filter (· ≠ cSpace) = t at hp
    cases hp with
    | explicit _ _ _ _ _ _ _ _ hn =>
      rw [List.count_append, List.count_append, List.count_eq_zero_of_not_mem hc, List.count_eq_zero_of_not_mem (l := S "->") (by decide)]
      omega
    | implicit _ _ _ _ _ _ hn => exact hn

/-- The positions recorded in the contraction list are those of the path, in decreasing order. -/
theorem pathLoop_inds {ub : Bool} {output : Str} {d : Dict Nat Nat} {ps : List (List Nat)} {st st' : PathState} {outs : List StepOut}
    (h : pathLoop ub output d st ps = .ok (st', outs)) : (outs.map StepOut.step).map Step.inds = ps.map sortedDesc := by
  induction ps generalizing st st' outs with
  | nil => simp only [pathLoop, Except.ok.injEq, Prod.mk.injEq] at h; rw [← h.2]; rfl
  | cons p ps ih =>
    simp only [pathLoop, bind, Except.bind] at h
    cases h1 : pathStep ub output d st p ps.isEmpty with
    | error e => rw [h1] at h; cases h
    | ok r =>
      obtain ⟨st1, o⟩ := r
      rw [h1] at h
      simp only at h
      cases h2 : pathLoop ub output d st1 ps with
      | error e => rw [h2] at h; cases h
      | ok r2 =>
        obtain ⟨st2, os⟩ := r2
        rw [h2] at h
        simp only [Except.ok.injEq, Prod.mk.injEq] at h
        rw [← h.2]
        simp only [List.map_cons, ih h2, List.cons.injEq, and_true]
        unfold pathStep at h1
        simp only [bind, Except.bind] at h1
        repeat (split at h1; · cases h1)
        simp only [Except.ok.injEq, Prod.mk.injEq] at h1
        rw [← h1.2]

theorem contractPath_inds {inputs : List Str} {output : Str} {shapes : List Shape} {opt : Optimize} {mem : MemLimit} {useBlas : Bool}
    {info : PathInfo} (h : contractPath inputs output shapes opt mem useBlas = .ok info) :
    info.contractionList.map Step.inds = info.path.map sortedDesc := by
  unfold contractPath at h
  simp only [bind, Except.bind] at h
  repeat (split at h; · cases h)
  rename_i hr
  simp only [Except.ok.injEq] at h
  subst h
  exact pathLoop_inds hr

/-! ## What building an expression records -/

/-- The constants among the items given to `contract_expression`, `none` where a shape was given. -/
def slots (items : List (Item R)) : List (Option (Arr R)) :=
  items.map (fun it => match it with | .array a => some a | .shape _ => none)

omit [CommSemiring R] in
theorem slots_get {items : List (Item R)} {i : Nat} {o : Option (Arr R)} (h : (slots items)[i]? = some o) :
    (∃ a, o = some a ∧ items[i]? = some (.array a)) ∨ (o = none ∧ ∃ s, items[i]? = some (.shape s)) := by
  unfold slots at h
  rw [List.getElem?_map, Option.map_eq_some_iff] at h
  obtain ⟨it, h1, h2⟩ := h
  cases it with
  | shape s => exact Or.inr ⟨h2.symm, s, h1⟩
  | array a => exact Or.inl ⟨a, h2.symm, h1⟩

omit [CommSemiring R] in
theorem constantsDict_aux (items : List (Item R)) (cs : List Nat) (d0 d : Dict Nat (Arr R)) (h0 : (d0.keys).Nodup)
    (h : cs.foldlM (fun (d : Dict Nat (Arr R)) i => match items[i]? with
      | none => .error .index
      | some (Item.shape _) => .error .type
      | some (Item.array a) => .ok (d.set i a)) d0 = (.ok d : Except PyErr _)) :
    d.keys.Nodup ∧ (∀ i ∈ cs, ∃ a, items[i]? = some (.array a) ∧ d.get? i = some a) ∧ (∀ i, i ∉ cs → d.get? i = d0.get? i) := by
  induction cs generalizing d0 with
  | nil => cases h; exact ⟨h0, by simp, fun _ _ => rfl⟩
  | cons c cs ih =>
    rw [List.foldlM_cons] at h
    simp only [bind, Except.bind] at h
    cases hi : items[c]? with
    | none => rw [hi] at h; cases h
    | some it =>
      rw [hi] at h
      cases it with
      | shape s => cases h
      | array a =>
        simp only at h
        obtain ⟨g1, g2, g3⟩ := ih (d0.set c a) (OE.Py.Dict.keys_set_nodup h0 c a) h
        refine ⟨g1, ?_, ?_⟩
        · intro i hic
          by_cases hm : i ∈ cs
          · exact g2 i hm
          · have : i = c := by simpa [hm] using hic
            subst this
            exact ⟨a, hi, by rw [g3 i hm, Dict.get?_set_self]⟩
        · intro i hic
          simp only [List.mem_cons, not_or] at hic
          rw [g3 i hic.2, OE.Py.Dict.get?_set_ne hic.1]

theorem mapM_get_ok {α β : Type} {f : α → Except PyErr β} {l : List α} {r : List β} (h : l.mapM f = .ok r) :
    r.length = l.length ∧ ∀ (i : Nat) (x : α), l[i]? = some x → ∃ y, r[i]? = some y ∧ f x = .ok y := by
  induction l generalizing r with
  | nil => cases h; simp
  | cons a t ih =>
    rw [List.mapM_cons] at h
    simp only [bind, Except.bind] at h
    cases ha : f a with
    | error e => rw [ha] at h; cases h
    | ok y =>
      rw [ha] at h
      simp only at h
      cases ht : t.mapM f with
      | error e => rw [ht] at h; cases h
      | ok ys =>
        rw [ht] at h
        simp only [pure, Except.pure, Except.ok.injEq] at h
        subst h
        obtain ⟨h1, h2⟩ := ih ht
        refine ⟨by simp [h1], ?_⟩
        intro i x hx
        cases i with
        | zero => simp only [List.getElem?_cons_zero, Option.some.injEq] at hx; subst hx; exact ⟨y, rfl, ha⟩
        | succ i => simpa using h2 i x (by simpa using hx)

/-- Everything a newly built expression holds. -/
structure Built (subs : Str) (items : List (Item R)) (opt : Optimize) (mem : MemLimit) (ub : Bool) (e : Expr R) (shapes : List Shape)
    (inp out : Str) (info : PathInfo) : Prop where
  len : shapes.length = items.length
  shape : ∀ (i : Nat) (s : Shape), items[i]? = some (Item.shape s) → shapes[i]? = some s
  array : ∀ (i : Nat) (a : Arr R), items[i]? = some (Item.array a) → shapes[i]? = some a.tensor.shape
  parse : parseEinsum subs shapes = .ok (inp, out)
  path : contractPath (splitOn cComma inp) out shapes opt mem ub = .ok info
  opt : opt ≠ .off
  full : e.fullList = info.contractionList
  list : e.list = info.contractionList
  evaluated : e.evaluated = []
  consts : constOps e = slots items
  numArgs : e.numArgs = ((slots items).filter Option.isNone).length
  none_iff : e.constants = [] ↔ ∀ o ∈ slots items, o = none

omit [CommSemiring R] in
theorem get?_isSome_iff_mem_keys (d : Dict Nat (Arr R)) (k : Nat) : (d.get? k).isSome ↔ k ∈ d.keys := by
  induction d with
  | nil => simp [Dict.get?, Dict.keys]
  | cons p d ih =>
    obtain ⟨k', v⟩ := p
    simp only [Dict.get?, Dict.keys, List.map_cons, List.mem_cons]
    by_cases hk : k' = k
    · simp [hk]
    · rw [if_neg hk, ih, Dict.keys]
      simp [Ne.symm hk]

omit [CommSemiring R] in
theorem slots_eq_range (items : List (Item R)) :
    slots items = (List.range items.length).map (fun i => ((slots items)[i]?).getD none) := by
  apply List.ext_getElem?
  intro i
  by_cases hi : i < items.length
  · have hi' : i < (slots items).length := by simpa [slots] using hi
    simp [List.getElem?_eq_getElem hi', hi]
  · rw [List.getElem?_eq_none (by simpa [slots] using hi), List.getElem?_eq_none (by simpa using hi)]

omit [CommSemiring R] in
theorem contractExpression_inv {subs : Str} {items : List (Item R)} {cs : List Nat} {opt : Optimize} {mem : MemLimit} {ub : Bool}
    {e : Expr R} (h : contractExpression subs items cs opt mem ub = .ok e) :
    ∃ shapes inp out info, Built subs items opt mem ub e shapes inp out info := by
  have hopt : opt ≠ .off := by rintro rfl; cases h
  have h' : (do
      let d ← constantsDict items cs
      let shapes ← items.zipIdx.mapM (fun p : Item R × Nat => p.1.shapeAt cs p.2)
      let (inp, out) ← parseEinsum subs shapes
      let info ← contractPath (splitOn cComma inp) out shapes opt mem ub
      Expression.init subs info.contractionList d) = .ok e := by
    unfold contractExpression at h
    split at h
    · cases h
    · cases h
    · exact h
  simp only [bind, Except.bind] at h'
  cases hd : constantsDict items cs with
  | error er => rw [hd] at h'; cases h'
  | ok d =>
    rw [hd] at h'
    simp only at h'
    cases hs : items.zipIdx.mapM (fun p : Item R × Nat => p.1.shapeAt cs p.2) with
    | error er => rw [hs] at h'; cases h'
    | ok shapes =>
      rw [hs] at h'
      simp only at h'
      cases hp : parseEinsum subs shapes with
      | error er => rw [hp] at h'; cases h'
      | ok r =>
        obtain ⟨inp, out⟩ := r
        rw [hp] at h'
        simp only at h'
        cases hc : contractPath (splitOn cComma inp) out shapes opt mem ub with
        | error er => rw [hc] at h'; cases h'
        | ok info =>
          rw [hc] at h'
          simp only [Expression.init, bind, Except.bind] at h'
          split at h'
          · cases h'
          rename_i formatted hfmt
          simp only [Except.ok.injEq] at h'
          obtain ⟨hl, hget⟩ := mapM_get_ok hs
          have hlen : shapes.length = items.length := by simpa using hl
          have hcount := count_of_parse hp (no_comma_of_path hc)
          obtain ⟨hnd, hin, hout⟩ := constantsDict_aux items cs [] d (by simp [Dict.keys]) hd
          have hat : ∀ (i : Nat) (it : Item R), items[i]? = some it → ∃ s, shapes[i]? = some s ∧ it.shapeAt cs i = .ok s := by
            intro i it hit
            exact hget i (it, i) (by simp [List.getElem?_zipIdx, hit])
          have hdget : ∀ i, i < items.length → d.get? i = ((slots items)[i]?).getD none := by
            intro i hi
            obtain ⟨s, hs1, hs2⟩ := hat i items[i] (List.getElem?_eq_getElem hi)
            by_cases hic : i ∈ cs
            · obtain ⟨a, ha, hda⟩ := hin i hic
              rw [hda]
              simp [slots, ha]
            · rw [hout i hic]
              cases hit : items[i] with
              | array a => rw [hit] at hs2; simp [Item.shapeAt, hic] at hs2
              | shape s' => simp [slots, List.getElem?_eq_getElem hi, hit, Dict.get?]
          have hconst : (List.range items.length).map (fun i => d.get? i) = slots items := by
            rw [slots_eq_range items]
            apply List.map_congr_left
            intro i hi
            rw [hdget i (by simpa using hi)]
          have hfull : subs.count cComma + 1 = items.length := by omega
          have hkeys : ∀ i ∈ d.keys, i < items.length := by
            intro i hi
            rw [← get?_isSome_iff_mem_keys] at hi
            by_cases hic : i ∈ cs
            · obtain ⟨a, ha, _⟩ := hin i hic
              exact (List.getElem?_eq_some_iff.mp ha).1
            · rw [hout i hic] at hi; simp [Dict.get?] at hi
          have hdlen : d.length = ((slots items).filter Option.isSome).length := by
            have hperm : d.keys.Perm ((List.range items.length).filter (fun i => (d.get? i).isSome)) := by
              rw [List.perm_ext_iff_of_nodup hnd (List.nodup_range.filter _)]
              intro i
              rw [List.mem_filter, List.mem_range, ← get?_isSome_iff_mem_keys]
              exact ⟨fun hi => ⟨hkeys i ((get?_isSome_iff_mem_keys d i).mp hi), hi⟩, fun hi => hi.2⟩
            rw [← hconst, List.filter_map, List.length_map]
            have := hperm.length_eq
            simp only [Dict.keys, List.length_map] at this
            exact this
          refine ⟨shapes, inp, out, info, ?_⟩
          subst h'
          refine ⟨hlen, ?_, ?_, hp, hc, hopt, rfl, rfl, rfl, ?_, ?_, ?_⟩
          · intro i s hit
            obtain ⟨s', g1, g2⟩ := hat i _ hit
            simp only [Item.shapeAt] at g2
            split at g2
            · cases g2
            · cases g2; exact g1
          · intro i a hit
            obtain ⟨s', g1, g2⟩ := hat i _ hit
            simp only [Item.shapeAt] at g2
            split at g2
            · cases g2; exact g1
            · cases g2
          · simp only [constOps, hfull]; exact hconst
          · simp only [hfull, hdlen]
            have h1 : ((slots items).filter Option.isSome).length + ((slots items).filter Option.isNone).length = (slots items).length := by
              generalize slots items = l
              induction l with
              | nil => rfl
              | cons o l ih => cases o <;> simp <;> omega
            have h2 : (slots items).length = items.length := by simp [slots]
            omega
          · simp only
            rw [← List.length_eq_zero_iff, hdlen, List.length_eq_zero_iff, List.filter_eq_nil_iff]
            constructor
            · intro hh o ho
              cases o with
              | none => rfl
              | some a => exact absurd rfl (hh _ ho)
            · intro hh o ho
              rw [hh o ho]; simp

/-! ## Histories -/

/-- The contents of the constants. -/
def constTensors (e : Expr R) : List (Option (Tensor R)) := (constOps e).map (Option.map Arr.tensor)

/-- What every use of an expression preserves. -/
structure ExprInv (L : Lib) (e₀ e : Expr R) : Prop where
  full : e.fullList = e₀.fullList
  constants : e.constants = e₀.constants
  fullNumArgs : e.fullNumArgs = e₀.fullNumArgs
  numArgs : e.numArgs = e₀.numArgs
  entries : ∀ b ops, e.evaluated.get? b = some ops →
    ∃ he, L.hasEinsum b = .ok he ∧ evalLoop (!he) e₀.fullList (constTensors e₀) = .ok (some (ops, e.list))
  fresh : e.evaluated = [] → e.list = e₀.fullList

omit [CommSemiring R] in
theorem constOps_congr {e e₀ : Expr R} (h1 : e.constants = e₀.constants) (h2 : e.fullNumArgs = e₀.fullNumArgs) :
    constOps e = constOps e₀ := by unfold constOps; rw [h1, h2]

theorem evaluateConstants_cases (L : Lib) {e₀ e : Expr R} (h : ExprInv L e₀ e) (backend : Option Str) :
    (∃ er, evaluateConstants L e backend = (.error er, e)) ∨
    (∃ b he ops steps, parseBackend L ((constOps e₀).map inferBackend) backend = .ok b ∧ L.hasEinsum b = .ok he ∧
      evalLoop (!he) e₀.fullList (constTensors e₀) = .ok (some (ops, steps)) ∧
      evaluateConstants L e backend = (.ok (), { e with evaluated := e.evaluated.set b ops, list := steps }) ∧
      ExprInv L e₀ { e with evaluated := e.evaluated.set b ops, list := steps }) := by
  have hc := constOps_congr h.constants h.fullNumArgs
  unfold evaluateConstants
  rw [hc]
  cases hb : parseBackend L ((constOps e₀).map inferBackend) backend with
  | error er => exact Or.inl ⟨er, rfl⟩
  | ok b =>
    simp only
    split
    · exact Or.inl ⟨_, rfl⟩
    cases he : L.hasEinsum b with
    | error er => exact Or.inl ⟨er, rfl⟩
    | ok x =>
      simp only
      cases hl : evalLoop (!x) e.fullList ((constOps e₀).map (Option.map Arr.tensor)) with
      | error er => exact Or.inl ⟨er, rfl⟩
      | ok r =>
        cases r with
        | none => exact Or.inl ⟨_, rfl⟩
        | some r =>
          obtain ⟨ops, steps⟩ := r
          rw [h.full] at hl
          refine Or.inr ⟨b, x, ops, steps, rfl, he, hl, rfl, h.full, h.constants, h.fullNumArgs, h.numArgs, ?_, ?_⟩
          · intro b' ops' hg
            simp only at hg
            by_cases hbb : b' = b
            · subst hbb
              rw [Dict.get?_set_self] at hg
              cases hg
              exact ⟨x, he, hl⟩
            · rw [OE.Py.Dict.get?_set_ne hbb] at hg
              obtain ⟨he', h1, h2⟩ := h.entries b' ops' hg
              refine ⟨he', h1, ?_⟩
              have : e.list = steps := evalLoop_same_rest rfl h2 hl
              rw [h2, this]
          · intro hnil
            have := Dict.get?_set_self e.evaluated b ops
            simp only at hnil
            rw [hnil] at this
            cases this

theorem call_inv (L : Lib) {e₀ e : Expr R} (h : ExprInv L e₀ e) (arrays : List (Arr R)) (backend : Option Str) :
    ExprInv L e₀ (call L e arrays backend).2 := by
  unfold call
  split
  · exact h
  split
  · exact h
  split
  · exact h
  split
  · exact h
  rename_i b _ _ _ _ _
  rcases evaluateConstants_cases L h (some b) with ⟨er, h1⟩ | ⟨b', he, ops, steps, _, _, _, h1, h2⟩
  · rw [h1]; exact h
  · rw [h1]
    simp only
    split <;> exact h2

theorem use_inv (L : Lib) {e₀ e : Expr R} (h : ExprInv L e₀ e) (u : Use R) : ExprInv L e₀ (use L e u) := by
  cases u with
  | call arrays backend => exact call_inv L h arrays backend
  | evaluate backend =>
    rcases evaluateConstants_cases L h backend with ⟨er, h1⟩ | ⟨b', he, ops, steps, _, _, _, h1, h2⟩
    · simp only [use, h1]; exact h
    · simp only [use, h1]; exact h2

theorem uses_inv (L : Lib) {e₀ e : Expr R} (h : ExprInv L e₀ e) (us : List (Use R)) : ExprInv L e₀ (uses L e us) := by
  unfold uses
  induction us generalizing e with
  | nil => exact h
  | cons u us ih => exact ih (use_inv L h u)

theorem built_inv (L : Lib) {subs : Str} {items : List (Item R)} {opt : Optimize} {mem : MemLimit} {ub : Bool} {e : Expr R}
    {shapes : List Shape} {inp out : Str} {info : PathInfo} (h : Built subs items opt mem ub e shapes inp out info) : ExprInv L e e :=
  ⟨rfl, rfl, rfl, rfl, fun b ops hg => (by rw [h.evaluated] at hg; cases hg), fun _ => (by rw [h.list, h.full])⟩

theorem merge_fill {α β : Type} (f : α → β) {sl : List (Option α)} {vars full : List α} (h : Merge sl vars full) :
    fill (sl.map (Option.map f)) (vars.map f) = .ok (full.map f) := by
  induction h with
  | nil => rfl
  | const a sl vars full _ ih => simp only [List.map_cons, Option.map_some, fill, bind, Except.bind, ih]
  | var v sl vars full _ ih => simp only [List.map_cons, Option.map_none, fill, bind, Except.bind, ih]

theorem merge_count {α : Type} {sl : List (Option α)} {vars full : List α} (h : Merge sl vars full) :
    vars.length = (sl.filter Option.isNone).length ∧ full.length = sl.length := by
  induction h with
  | nil => exact ⟨rfl, rfl⟩
  | const a sl vars full _ ih => simpa using ih
  | var v sl vars full _ ih => simpa using ih

theorem merge_none {α : Type} {sl : List (Option α)} {vars full : List α} (h : Merge sl vars full) (hv : vars ≠ []) : none ∈ sl := by
  induction h with
  | nil => exact absurd rfl hv
  | const a sl vars full _ ih => simp [ih hv]
  | var v sl vars full _ ih => simp

theorem merge_all_none {α : Type} {sl : List (Option α)} {vars full : List α} (h : Merge sl vars full) (hn : ∀ o ∈ sl, o = none) :
    vars = full := by
  induction h with
  | nil => rfl
  | const a sl vars full _ ih => exact absurd (hn (some a) (by simp)) (by simp)
  | var v sl vars full _ ih => rw [ih (fun o ho => hn o (by simp [ho]))]

theorem merge_get {α : Type} {sl : List (Option α)} {vars full : List α} (h : Merge sl vars full) {i : Nat} {a : α}
    (ha : sl[i]? = some (some a)) : full[i]? = some a := by
  induction h generalizing i with
  | nil => simp at ha
  | const b sl vars full _ ih =>
    cases i with
    | zero => simpa using ha
    | succ i => simpa using ih (by simpa using ha)
  | var v sl vars full _ ih =>
    cases i with
    | zero => simp at ha
    | succ i => simpa using ih (by simpa using ha)

theorem inds_desc {steps : List Step} {path : List (List Nat)} (h : steps.map Step.inds = path.map sortedDesc) {n : Nat}
    (hc : CompletePath n path) : ∀ s ∈ steps, s.inds.Pairwise (· > ·) := by
  have hnd : ∀ p ∈ path, p.Nodup := by
    clear h
    induction path generalizing n with
    | nil => simp
    | cons p ps ih =>
      cases ps with
      | nil => intro q hq; simp at hq; subst hq; exact hc.1.2.1
      | cons q qs =>
        intro r hr
        rcases List.mem_cons.mp hr with rfl | hr
        · exact hc.1.2.1
        · exact ih hc.2 r hr
  intro s hs
  have : s.inds ∈ path.map sortedDesc := by rw [← h]; exact List.mem_map_of_mem hs
  obtain ⟨p, hp, he⟩ := List.mem_map.mp this
  rw [← he]
  exact sortedDesc_strict (hnd p hp)

/-- With no constants at all, evaluating them changes nothing. -/
theorem evalLoop_all_none (noE : Bool) {steps : List Step} {path : List (List Nat)} (h : steps.map Step.inds = path.map sortedDesc)
    {ops : List (Option (Tensor R))} (hc : CompletePath ops.length path) (hn : ∀ o ∈ ops, o = none) :
    evalLoop noE steps ops = .ok (some (ops, steps)) := by
  cases path with
  | nil => exact absurd hc (by simp [CompletePath])
  | cons p ps =>
    cases steps with
    | nil => simp at h
    | cons s ss =>
      simp only [List.map_cons, List.cons.injEq] at h
      have hv : ValidStep ops.length p := by
        cases ps with
        | nil => exact hc.1
        | cons q qs => exact hc.1
      have : anyNone ops s.inds = .ok true := by
        rw [h.1]
        cases hp : sortedDesc p with
        | nil => exact absurd (sortedDesc_eq_nil.mp hp) hv.1
        | cons x xs =>
          have hx : x < ops.length := hv.2.2 x (mem_sortedDesc.mp (by rw [hp]; simp))
          have : ops[x]? = some none := by rw [List.getElem?_eq_getElem hx, hn _ (List.getElem_mem hx)]
          simp only [anyNone, this]
      simp only [evalLoop, bind, Except.bind, this, if_true]

theorem coreContract_congr {noE : Bool} {s₁ s₂ : List Step} {o₁ o₂ : List (Tensor R)} (h : coreLoop noE s₁ o₁ = coreLoop noE s₂ o₂) :
    coreContract noE s₁ o₁ = coreContract noE s₂ o₂ := by unfold coreContract; rw [h]

theorem builtins_ne_numpy : S "builtins" ≠ S "numpy" := by decide

/-- The central fact: whatever was done before, a call with the right arrays runs the whole contraction on the merged operands. -/
theorem call_merged (L : Lib) {subs : Str} {items : List (Item R)} {opt : Optimize} {mem : MemLimit} {ub : Bool} {e₀ e : Expr R}
    {shapes : List Shape} {inp out : Str} {info : PathInfo} (hb : Built subs items opt mem ub e₀ shapes inp out info)
    (hc : CompletePath items.length info.path) (h : ExprInv L e₀ e) {arrays ops : List (Arr R)} (hm : Merge (slots items) arrays ops)
    (hv : arrays ≠ []) {backend : Option Str} {b : Str} (hp : parseBackend L (arrays.map Arr.module) backend = .ok b)
    (hauto : b ≠ S "auto") (hname : hasBackend b = true → b ∉ convertBackends → ∃ a ∈ arrays, a.module ≠ S "numpy") :
    (call L e arrays backend).1 = (do
      let he ← L.hasEinsum b
      coreContract (!he) info.contractionList (ops.map Arr.tensor)) := by
  have hinds := contractPath_inds hb.path
  have hlen : (constTensors e₀).length = items.length := by simp [constTensors, hb.consts, slots]
  have hdesc := inds_desc hinds hc
  have hfill : fill (constTensors e₀) (arrays.map Arr.tensor) = .ok (ops.map Arr.tensor) := by
    unfold constTensors; rw [hb.consts]; exact merge_fill Arr.tensor hm
  have hnone : none ∈ constTensors e₀ := by
    unfold constTensors
    rw [hb.consts]
    exact List.mem_map.mpr ⟨none, merge_none hm hv, rfl⟩
  have hfin : ∀ (e' : Expr R) (t : List (Tensor R)), finish L e' b arrays t = (do
      let he ← L.hasEinsum b
      coreContract (!he) e'.list t) := by
    intro e' t
    unfold finish
    rw [if_neg]
    rintro ⟨h1, h2, h3⟩
    obtain ⟨a, ha, hne⟩ := hname h1 h3
    exact hne (h2 a ha)
  have hent : ∀ (e' : Expr R), ExprInv L e₀ e' → ∀ t, e'.evaluated.get? b = some t →
      (do finish L e' b arrays (← fill t (arrays.map Arr.tensor))) = (do
        let he ← L.hasEinsum b
        coreContract (!he) info.contractionList (ops.map Arr.tensor)) := by
    intro e' he' t ht
    obtain ⟨x, hx, hl⟩ := he'.entries b t ht
    obtain ⟨full', g1, g2⟩ := (evalLoop_fill (!x) e₀.fullList (by rw [hb.full]; exact hdesc) hfill).1 t e'.list hl
    simp only [bind, Except.bind, g1, hfin, hx]
    rw [← coreContract_congr g2, hb.full]
  unfold call
  rw [hp]
  simp only
  rw [if_neg (by rw [h.numArgs, hb.numArgs, (merge_count hm).1]; simp)]
  split
  · rename_i hnil
    rw [h.constants] at hnil
    have hall := hb.none_iff.mp hnil
    have hlist : e.list = info.contractionList := by
      cases hev : e.evaluated with
      | nil => rw [h.fresh hev, hb.full]
      | cons q qs =>
        obtain ⟨b', t⟩ := q
        obtain ⟨x, _, hl⟩ := h.entries b' t (by rw [hev]; simp [Dict.get?])
        rw [evalLoop_all_none (!x) (by rw [hb.full]; exact hinds) (by rw [hlen]; exact hc) (by
          intro o ho
          unfold constTensors at ho
          rw [hb.consts] at ho
          obtain ⟨o', ho', rfl⟩ := List.mem_map.mp ho
          rw [hall o' ho']; rfl)] at hl
        simp only [Except.ok.injEq, Option.some.injEq, Prod.mk.injEq] at hl
        rw [← hl.2, hb.full]
    simp only [hfin, hlist]
    rw [merge_all_none hm hall]
  · split
    · rename_i t ht
      exact hent e h t ht
    · rename_i hnone'
      have hpb : parseBackend L ((constOps e₀).map inferBackend) (some b) = .ok b := by
        simp [parseBackend, hauto]
      cases hx : L.hasEinsum b with
      | error er =>
        have : evaluateConstants L e (some b) = (.error er, e) := by
          unfold evaluateConstants
          rw [constOps_congr h.constants h.fullNumArgs, hpb]
          simp only
          rw [if_neg, hx]
          rintro ⟨_, _, h3⟩
          rw [List.all_eq_true] at h3
          have := h3 none (by rw [hb.consts]; exact merge_none hm hv)
          simp [inferBackend, builtins_ne_numpy] at this
        rw [this]
        rfl
      | ok x =>
        rcases evaluateConstants_cases L h (some b) with ⟨er, h1⟩ | ⟨b', he, t, steps, h1, h2, h3, h4, h5⟩
        · rw [h1]
          unfold evaluateConstants at h1
          rw [constOps_congr h.constants h.fullNumArgs, hpb] at h1
          simp only at h1
          rw [if_neg (by
            rintro ⟨_, _, h3⟩
            rw [List.all_eq_true] at h3
            have := h3 none (by rw [hb.consts]; exact merge_none hm hv)
            simp [inferBackend, builtins_ne_numpy] at this), hx] at h1
          simp only at h1
          rw [h.full] at h1
          cases hl : evalLoop (!x) e₀.fullList (constTensors e₀) with
          | error er' =>
            unfold constTensors at hl
            rw [hl] at h1
            simp only [Prod.mk.injEq, Except.error.injEq, and_true] at h1
            subst h1
            have := (evalLoop_fill (!x) e₀.fullList (by rw [hb.full]; exact hdesc) hfill).2 _ hl
            rw [hb.full] at this
            simp only [bind, Except.bind, coreContract, this]
          | ok r =>
            cases r with
            | none => exact absurd hl (evalLoop_ne_done (!x) (by rw [hb.full]; exact hinds) (by rw [hlen]; exact hc) hnone)
            | some r =>
              unfold constTensors at hl
              rw [hl] at h1
              simp only [Prod.mk.injEq, reduceCtorEq, false_and] at h1
        · rw [hpb] at h1
          cases h1
          rw [h4]
          simp only [Dict.get?_set_self]
          rw [← hx]
          exact hent _ h5 t (Dict.get?_set_self _ _ _)

/-! ## C39 -/

/-- The operands have the shapes the expression was built with. -/
def ShapesAsBuilt (items : List (Item R)) (ops : List (Arr R)) : Prop :=
  ∀ (i : Nat) (s : Shape) (a : Arr R), items[i]? = some (Item.shape s) → ops[i]? = some a → a.tensor.shape = s

/-- The path chosen when the expression was built contracts everything. -/
def BuiltComplete (subs : Str) (items : List (Item R)) (ops : List (Arr R)) (opt : Optimize) (mem : MemLimit) (ub : Bool) : Prop :=
  ∀ inp out info, parseEinsum subs (ops.map (fun a => a.tensor.shape)) = .ok (inp, out) →
    contractPath (splitOn cComma inp) out (ops.map (fun a => a.tensor.shape)) opt mem ub = .ok info → CompletePath items.length info.path

omit [CommSemiring R] in
theorem shapes_of_merge {subs : Str} {items : List (Item R)} {opt : Optimize} {mem : MemLimit} {ub : Bool} {e₀ : Expr R}
    {shapes : List Shape} {inp out : Str} {info : PathInfo} (hb : Built subs items opt mem ub e₀ shapes inp out info)
    {arrays ops : List (Arr R)} (hm : Merge (slots items) arrays ops) (hs : ShapesAsBuilt items ops) :
    ops.map (fun a => a.tensor.shape) = shapes := by
  have hlen : ops.length = items.length := by rw [(merge_count hm).2]; simp [slots]
  apply List.ext_getElem?
  intro i
  by_cases hi : i < items.length
  · have hio : i < ops.length := by omega
    rw [List.getElem?_map, List.getElem?_eq_getElem hio]
    cases hit : items[i] with
    | shape s =>
      have h1 : items[i]? = some (Item.shape s) := by rw [List.getElem?_eq_getElem hi, hit]
      rw [hb.shape i s h1, Option.map_some, hs i s _ h1 (List.getElem?_eq_getElem hio)]
    | array a =>
      have h1 : items[i]? = some (Item.array a) := by rw [List.getElem?_eq_getElem hi, hit]
      have h2 : ops[i]? = some a := merge_get hm (by simp [slots, h1])
      rw [List.getElem?_eq_getElem hio] at h2
      cases h2
      rw [hb.array i _ h1, Option.map_some]
  · rw [List.getElem?_eq_none (by simp; omega), List.getElem?_eq_none (by rw [hb.len]; omega)]

/-- C39. An expression, called after any history of calls and evaluations of its constants with any backends, does what `contract` does
with the constants and the given arrays merged in position order: the same result or the same error.
The backend `b` is the one the call resolves to. Excluded: no variable at all; a backend whose name differs from a convertible one only in
letter case, with nothing but numpy arrays; modules called `auto`. -/
theorem C39_expression_equals_contract (L : Lib) (subs : Str) (items : List (Item R)) (constants : List Nat) (opt : Optimize)
    (mem : MemLimit) (ub : Bool) (e : Expr R) (hbuild : contractExpression subs items constants opt mem ub = .ok e)
    (arrays ops : List (Arr R)) (hm : Merge (slots items) arrays ops) (hs : ShapesAsBuilt items ops) (hv : arrays ≠ [])
    (hc : BuiltComplete subs items ops opt mem ub) (us : List (Use R)) (backend : Option Str) (b : Str)
    (hp : parseBackend L (arrays.map Arr.module) backend = .ok b) (hauto : b ≠ S "auto")
    (hname : hasBackend b = true → b ∉ convertBackends → ∃ a ∈ arrays, a.module ≠ S "numpy") :
    (call L (uses L e us) arrays backend).1 = contractWith L subs ops opt mem ub (some b) := by
  obtain ⟨shapes, inp, out, info, hb⟩ := contractExpression_inv hbuild
  have hsh := shapes_of_merge hb hm hs
  have hpath := hc inp out info (by rw [hsh]; exact hb.parse) (by rw [hsh]; exact hb.path)
  rw [call_merged L hb hpath (uses_inv L (built_inv L hb) us) hm hv hp hauto hname]
  unfold contractWith
  rw [hsh, hb.parse]
  simp only [bind, Except.bind]
  rw [hb.path]
  simp [parseBackend, hauto]

/-- C39, what the value is: with a backend that has `einsum`, and at most 52 labels, every such call returns the Einstein summation of the
merged operands. -/
theorem C39_expression_is_einsum (L : Lib) (subs : Str) (items : List (Item R)) (constants : List Nat) (opt : Optimize)
    (mem : MemLimit) (hmem : ValidMemory mem) (ub : Bool) (e : Expr R)
    (hbuild : contractExpression subs items constants opt mem ub = .ok e)
    (arrays ops : List (Arr R)) (hm : Merge (slots items) arrays ops) (hs : ShapesAsBuilt items ops) (hv : arrays ≠ [])
    (size : Nat → Nat) (inp out : Str) (hparse : parseEinsum subs (ops.map (fun a => a.tensor.shape)) = .ok (inp, out))
    (hfit : OperandsFit size (splitOn cComma inp) (ops.map (fun a => a.tensor.shape)))
    (hlab : (splitOn cComma inp).flatten.toFinset.card ≤ 52) (hopt : ChoosesComplete opt size (splitOn cComma inp) out)
    (us : List (Use R)) (backend : Option Str) (b : Str) (hp : parseBackend L (arrays.map Arr.module) backend = .ok b)
    (hauto : b ≠ S "auto") (hname : hasBackend b = true → b ∉ convertBackends → ∃ a ∈ arrays, a.module ≠ S "numpy")
    (hein : L.hasEinsum b = .ok true) :
    ∃ T, (call L (uses L e us) arrays backend).1 = .ok T ∧ IsEinsum size (splitOn cComma inp) out (ops.map Arr.tensor) T := by
  have hmap : (ops.map Arr.tensor).map Tensor.shape = ops.map (fun a => a.tensor.shape) := by simp
  obtain ⟨shapes, inp', out', info, hb⟩ := contractExpression_inv hbuild
  have hsh := shapes_of_merge hb hm hs
  have hpi := hb.parse
  rw [← hsh, hparse] at hpi
  cases hpi
  have hcomma := no_comma_of_path hb.path
  obtain ⟨T, hT, hE⟩ := C01_contract size subs (ops.map Arr.tensor) inp out (by rw [hmap]; exact hparse) hcomma (by rw [hmap]; exact hfit)
    hlab opt mem hmem hopt ub
  obtain ⟨info', h1, hcp, _, _⟩ := C01_contract_terms size (splitOn cComma inp) out (ops.map Arr.tensor)
    (wellPosed_of_parse (by rw [hmap]; exact hparse) hcomma (by rw [hmap]; exact hfit)) opt mem hmem hopt ub false
  refine ⟨T, ?_, hE⟩
  have hbp := hb.path
  rw [← hsh] at hbp
  rw [hmap, hbp] at h1
  cases h1
  have hlen : (splitOn cComma inp).length = items.length := by
    rw [(wellPosed_of_parse hparse hcomma hfit).len, hsh, hb.len]
  rw [call_merged L hb (by rw [← hlen]; exact hcp) (uses_inv L (built_inv L hb) us) hm hv hp hauto hname, hein]
  have : contract false subs (ops.map Arr.tensor) opt mem ub = coreContract false info.contractionList (ops.map Arr.tensor) := by
    cases opt with
    | off => exact absurd rfl hb.opt
    | path p => simp only [contract, bind, Except.bind]; rw [hmap, hparse]; simp only; rw [hbp]
    | finder f => simp only [contract, bind, Except.bind]; rw [hmap, hparse]; simp only; rw [hbp]
  rw [this] at hT
  exact hT

/-! ## C40 -/

omit [CommSemiring R] in
theorem merge_exists {α : Type} (sl : List (Option α)) (vars : List α) (h : vars.length = (sl.filter Option.isNone).length) :
    ∃ full, Merge sl vars full := by
  induction sl generalizing vars with
  | nil => cases vars with
    | nil => exact ⟨[], .nil⟩
    | cons v vs => simp at h
  | cons o sl ih =>
    cases o with
    | some a => obtain ⟨f, hf⟩ := ih vars (by simpa using h); exact ⟨_, .const a _ _ _ hf⟩
    | none =>
      cases vars with
      | nil => simp at h
      | cons v vs => obtain ⟨f, hf⟩ := ih vs (by simpa using h); exact ⟨_, .var v _ _ _ hf⟩

/-- C40. After any history, a call with a number of arrays other than the number of operands that were given as shapes raises
`ValueError` and leaves the expression as it was. (The backend must resolve: see `C40_no_arrays_counterexample`.) -/
theorem C40_wrong_number_of_arrays (L : Lib) (subs : Str) (items : List (Item R)) (constants : List Nat) (opt : Optimize)
    (mem : MemLimit) (ub : Bool) (e : Expr R) (hbuild : contractExpression subs items constants opt mem ub = .ok e)
    (us : List (Use R)) (arrays : List (Arr R)) (backend : Option Str) (b : Str)
    (hp : parseBackend L (arrays.map Arr.module) backend = .ok b)
    (hn : arrays.length ≠ (items.filter (fun it => match it with | .shape _ => true | .array _ => false)).length) :
    call L (uses L e us) arrays backend = (.error .value, uses L e us) := by
  obtain ⟨shapes, inp, out, info, hb⟩ := contractExpression_inv hbuild
  have hi := uses_inv L (built_inv L hb) us
  have hcount : ((slots items).filter Option.isNone).length =
      (items.filter (fun it => match it with | .shape _ => true | .array _ => false)).length := by
    clear hbuild hb hn hi
    induction items with
    | nil => rfl
    | cons it items ih => cases it <;> simpa [slots] using ih
  unfold call
  rw [hp]
  simp only
  rw [if_pos (by rw [hi.numArgs, hb.numArgs, hcount]; exact hn)]

/-- C40, the other direction: with the right number of arrays (and shapes that fit) the call returns. -/
theorem C40_right_number_returns (L : Lib) (subs : Str) (items : List (Item R)) (constants : List Nat) (opt : Optimize)
    (mem : MemLimit) (hmem : ValidMemory mem) (ub : Bool) (e : Expr R)
    (hbuild : contractExpression subs items constants opt mem ub = .ok e) (us : List (Use R)) (arrays : List (Arr R)) (backend : Option Str)
    (b : Str) (hp : parseBackend L (arrays.map Arr.module) backend = .ok b) (hauto : b ≠ S "auto")
    (hname : hasBackend b = true → b ∈ convertBackends) (hein : L.hasEinsum b = .ok true)
    (hn : arrays.length = (items.filter (fun it => match it with | .shape _ => true | .array _ => false)).length) (hv : arrays ≠ []) :
    ∃ ops, Merge (slots items) arrays ops ∧ ∀ (size : Nat → Nat) (inp out : Str), ShapesAsBuilt items ops →
      parseEinsum subs (ops.map (fun a => a.tensor.shape)) = .ok (inp, out) →
      OperandsFit size (splitOn cComma inp) (ops.map (fun a => a.tensor.shape)) → (splitOn cComma inp).flatten.toFinset.card ≤ 52 →
      ChoosesComplete opt size (splitOn cComma inp) out → ∃ T, (call L (uses L e us) arrays backend).1 = .ok T := by
  have hcount : ((slots items).filter Option.isNone).length =
      (items.filter (fun it => match it with | .shape _ => true | .array _ => false)).length := by
    clear hbuild hn
    induction items with
    | nil => rfl
    | cons it items ih => cases it <;> simpa [slots] using ih
  obtain ⟨ops, hm⟩ := merge_exists (slots items) arrays (by rw [hcount]; exact hn)
  refine ⟨ops, hm, ?_⟩
  intro size inp out hs hparse hfit hlab hopt
  obtain ⟨T, hT, _⟩ := C39_expression_is_einsum L subs items constants opt mem hmem ub e hbuild arrays ops hm hs hv size inp out hparse hfit
    hlab hopt us backend b hp hauto (fun h1 h2 => absurd (hname h1) h2) hein
  exact ⟨T, hT⟩

/-! ## Concrete cases -/

/-- numpy and torch only. -/
def demoLib : Lib :=
  { hasTensordot := fun b => if b = S "numpy" ∨ b = S "torch" then .ok true else if b = S "builtins" then .ok false else .error .importError
    hasEinsum := fun b => if b = S "numpy" ∨ b = S "torch" then .ok true else .error .importError }

/-- A numpy array of the given shape whose entry at `coords` is `f coords`. -/
def npArray (shape : Shape) (f : List Nat → ℤ) : Arr ℤ := ⟨S "numpy", ⟨shape, f⟩⟩

def demoA : Arr ℤ := npArray [2, 2] (fun c => match c with | [i, j] => i + 2 * j | _ => 0)
def demoB : Arr ℤ := npArray [2, 2] (fun c => match c with | [i, j] => 3 * i - j | _ => 0)
def demoC : Arr ℤ := npArray [2, 3] (fun c => match c with | [i, j] => i * j + 1 | _ => 0)

/-- `'ab,bc,cd->ad'` with the first two operands constant. -/
def demoItems : List (Item ℤ) := [.array demoA, .array demoB, .shape [2, 3]]

-- C39, C40: the hypotheses hold for 'ab,bc,cd->ad' with constants 0 and 1 (contracted with each other in advance), after evaluating the
-- constants for torch and a failing call
example : ∃ e, contractExpression (S "ab,bc,cd->ad") demoItems [0, 1] (.path [[0, 1], [0, 1]]) .none true = .ok e ∧
    Merge (slots demoItems) [demoC] [demoA, demoB, demoC] ∧ ShapesAsBuilt demoItems [demoA, demoB, demoC] ∧
    BuiltComplete (S "ab,bc,cd->ad") demoItems [demoA, demoB, demoC] (.path [[0, 1], [0, 1]]) .none true ∧
    parseBackend demoLib [S "numpy"] (some (S "torch")) = .ok (S "torch") ∧
    (uses demoLib e [.evaluate (some (S "torch")), .call [demoA, demoC] none]).list.length = 1 ∧
    (call demoLib (uses demoLib e [.evaluate (some (S "torch")), .call [demoA, demoC] none]) [demoC] none).1.map
      (fun T => (T.shape, T.val [1, 0])) = .ok ([2, 3], 14) := by
  refine ⟨_, rfl, .const _ _ _ _ (.const _ _ _ _ (.var _ _ _ _ .nil)), ?_, ?_, by decide, by decide +kernel, by decide +kernel⟩
  · intro i s a h1 h2
    match i with
    | 0 => cases h1
    | 1 => cases h1
    | 2 => cases h1; cases h2; rfl
    | (n + 3) => cases h1
  · intro inp out info h1 h2
    cases h1
    cases h2
    simp only [CompletePath, ValidStep]
    decide +kernel

/-- What C39 leaves out: when all operands are constant, a call finds no array to guess the backend from. -/
theorem C39_all_constant_counterexample :
    ∃ e, contractExpression (S "ab,bc->ac") [.array demoA, .array demoB] [0, 1] (.path [[0, 1]]) .none true = .ok e ∧
      (call demoLib e [] (some (S "auto"))).1 = .error .index := ⟨_, rfl, rfl⟩

/-- What C39 leaves out: `has_backend` ignores letter case but the tables of conversions do not, so an upper-case name is accepted and then
not found. -/
theorem C39_backend_case_counterexample (L : Lib) :
    ∃ e, contractExpression (R := ℤ) (S "ab,bc->ac") [.shape [2, 2], .shape [2, 2]] [] (.path [[0, 1]]) .none true = .ok e ∧
      (call L e [demoA, demoB] (some (S "Torch"))).1 = .error .key := ⟨_, rfl, rfl⟩

/-- What C40 leaves out: an expression called with no arrays at all raises `IndexError` instead of `ValueError`, because the backend is
guessed from the first array before the count is checked. -/
theorem C40_no_arrays_counterexample (L : Lib) :
    ∃ e, contractExpression (R := ℤ) (S "ab,bc->ac") [.shape [2, 2], .shape [2, 2]] [] (.path [[0, 1]]) .none true = .ok e ∧
      (call L e [] (some (S "auto"))).1 = .error .index := ⟨_, rfl, rfl⟩

end OE.Props
