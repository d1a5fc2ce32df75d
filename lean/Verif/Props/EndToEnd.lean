import Verif.Spec.EndToEnd
import Verif.Props.Registry
import Verif.Props.Optimal3
import Verif.Props.Branch3
import Verif.Props.Branch4
import Verif.Props.Greedy3

/-!
# C61, C62: what `contract_path` reports for the path finders by name
-/

namespace OE.Props
open OE OE.Py OE.Spec OE.Parser OE.Helpers OE.Contract OE.Paths OE.Registry

/-! ## The path finder that runs, and what it is given -/

theorem computeSize_labelSize {d : Dict Nat Nat} {t : List Nat} {v : Nat} (h : computeSizeByDict t d = .ok v) : v = (t.map (labelSize d)).prod := by
  unfold computeSizeByDict at h
  suffices ∀ (l : List Nat) (a : Nat), l.foldlM (fun r i => do .ok (r * (← d.get! i))) a = (.ok v : Except PyErr Nat) →
      v = a * (l.map (labelSize d)).prod by
    have := this t 1 h
    rwa [Nat.one_mul] at this
  intro l
  induction l with
  | nil => intro a h; cases h; simp
  | cons c l ih =>
    intro a h
    rw [List.foldlM_cons] at h
    simp only [bind, Except.bind] at h
    cases hg : d.get? c with
    | none => simp [Dict.get!, hg] at h
    | some x =>
      simp only [Dict.get!, hg] at h
      rw [ih _ h]
      simp [labelSize, hg, Nat.mul_assoc]

theorem mapM_size {d : Dict Nat Nat} {l : List Str} {r : List Nat} (h : l.mapM (fun t => computeSizeByDict t d) = .ok r) :
    r = l.map (fun t => (t.map (labelSize d)).prod) := by
  induction l generalizing r with
  | nil => simp only [List.mapM_nil, pure, Except.pure] at h; cases h; rfl
  | cons t l ih =>
    rw [List.mapM_cons] at h
    simp only [bind, Except.bind, pure, Except.pure] at h
    split at h
    · cases h
    rename_i v hv
    split at h
    · cases h
    rename_i r' hr
    cases h
    rw [List.map_cons, ← computeSize_labelSize hv, ← ih hr]

theorem mapM_size_some {d : Dict Nat Nat} {l : List Str} {r : List Nat} (h : l.mapM (fun t => computeSizeByDict t d) = .ok r) :
    ∀ t ∈ l, ∀ c ∈ t, (d.get? c).isSome := by
  induction l generalizing r with
  | nil => simp
  | cons t l ih =>
    rw [List.mapM_cons] at h
    simp only [bind, Except.bind, pure, Except.pure] at h
    split at h
    · cases h
    rename_i v hv
    split at h
    · cases h
    rename_i r' hr
    intro t' ht'
    rcases List.mem_cons.mp ht' with rfl | ht'
    · exact foldlM_size_inv d _ 1 v hv
    · exact ih hr t' ht'

/-- What `contract_path` hands to the choice of the path. -/
theorem contractPath_chosen_args {inputs : List Str} {output : Str} {shapes : List Shape} {opt : Optimize} {mem : MemLimit} {ub : Bool} {info : PathInfo}
    (h : contractPath inputs output shapes opt mem ub = .ok info) :
    sizeLoop [] inputs shapes = .ok info.sizeDict ∧ (∀ t ∈ inputs ++ [output], ∀ c ∈ t, (info.sizeDict.get? c).isSome) ∧
      ∃ m, chooseMemoryArg mem ((inputs ++ [output]).map (fun t => (t.map (labelSize info.sizeDict)).prod)) = .ok m ∧
      choosePath opt inputs.length (inputs.map List.toFinset) output.toFinset info.sizeDict m = .ok info.path := by
  unfold contractPath at h
  simp only [bind, Except.bind] at h
  split at h
  · cases h
  rename_i d hd
  split at h
  · cases h
  rename_i l hl
  split at h
  · cases h
  rename_i m hm
  split at h
  · cases h
  split at h
  · cases h
  rename_i p hp
  split at h
  · cases h
  cases h
  exact ⟨hd, mapM_size_some hl, m, by rw [← mapM_size hl]; exact hm, hp⟩

/-- The integer that `_choose_memory_arg` makes of the limit allows exactly what the limit allows. -/
theorem chooseMemory_within {mem : MemLimit} {size : Nat → Nat} {inputs : List Str} {output : Str} {m : Option Nat}
    (h : chooseMemoryArg mem ((inputs ++ [output]).map (fun t => (t.map size).prod)) = .ok m) (s : Nat) :
    WithinMemory mem size inputs output s ↔ ∀ k, m = some k → s ≤ k := by
  cases mem with
  | none => simp only [chooseMemoryArg] at h; cases h; simp [WithinMemory]
  | otherStr => simp only [chooseMemoryArg] at h; cases h
  | maxInput =>
    simp only [chooseMemoryArg] at h
    split at h
    · rename_i v hv
      cases h
      obtain ⟨h1, h2⟩ := List.max?_eq_some_iff.mp hv
      simp only [WithinMemory, Option.some.injEq, forall_eq']
      constructor
      · rintro ⟨t, ht, hs⟩
        exact le_trans hs (h2 _ (List.mem_map_of_mem ht))
      · intro hs
        obtain ⟨t, ht, hv⟩ := List.mem_map.mp h1
        exact ⟨t, ht, by rw [hv]; exact hs⟩
    · cases h
  | num q =>
    simp only [chooseMemoryArg] at h
    split at h
    · rename_i hq
      split at h
      · rename_i hq1
        cases h
        simp [WithinMemory, hq1]
      · cases h
    · rename_i hq
      cases h
      have hq1 : 1 ≤ q := not_lt.mp hq
      have h0 : (0 : ℤ) ≤ ⌊q⌋ := Int.floor_nonneg.mpr (le_trans zero_le_one hq1)
      simp only [WithinMemory, Option.some.injEq, forall_eq']
      have hne : q ≠ -1 := by intro e; rw [e] at hq1; norm_num at hq1
      have : (s : ℚ) ≤ q ↔ s ≤ q.floor.toNat := by
        show (s : ℚ) ≤ q ↔ s ≤ ⌊q⌋.toNat
        rw [Int.le_toNat h0, Int.le_floor]
        exact_mod_cast Iff.rfl
      rw [this]
      simp [hne]

theorem contractPath_named {lower : Str → Str} (hl : LowerOK lower) {t : Dict Str Builtin} (ht : importedOptions lower = .ok t) {e : Env}
    {name : Str} {b : Builtin} (hname : documentedName (lower name) = some b) {inputs : List Str} {output : Str} {shapes : List Shape}
    {mem : MemLimit} {ub : Bool} {info : PathInfo}
    (h : contractPath inputs output shapes (resolve lower (optionFns e t) (.name name)) mem ub = .ok info) :
    ∃ m, chooseMemoryArg mem ((inputs ++ [output]).map (fun t => (t.map (labelSize info.sizeDict)).prod)) = .ok m ∧
      (2 < inputs.length → b.fn e (inputs.map List.toFinset) output.toFinset info.sizeDict m = .ok info.path) ∧
      (inputs.length ≤ 2 → info.path = [List.range inputs.length]) := by
  obtain ⟨-, -, m, hm, hp⟩ := contractPath_chosen_args h
  refine ⟨m, hm, ?_, ?_⟩
  · intro h2
    simp only [resolve, choosePath, if_neg (not_le.mpr h2)] at hp
    rw [getPathFn_eq, optionFns_get, importedOptions_get hl ht, hname] at hp
    exact hp
  · intro h2
    simp only [resolve, choosePath, if_pos h2] at hp
    exact (Except.ok.inj hp).symm

theorem labelSize_spec {inputs : List Str} {shapes : List Shape} (hlen : inputs.length = shapes.length) {d : Dict Nat Nat}
    (hd : sizeLoop [] inputs shapes = .ok d) : ∀ c s, IsLabelSize inputs shapes c s ↔ d.get? c = some s := by
  have hc6 := C06_size_dict inputs shapes hlen
  have hcomp : Compatible inputs shapes := by
    by_contra hno
    rw [hc6.2 hno] at hd
    cases hd
  obtain ⟨d', hd', hiff⟩ := hc6.1 hcomp
  rw [hd] at hd'
  cases hd'
  exact fun c s => (hiff c s).symm

/-- **C61.** With three or more operands, the path that `contract_path` reports for a registered name, in any capitals, is the path that this
finder returns for the label sets of the operands and of the output, with the sizes of the labels, and a limit that allows exactly what
`memory_limit` allows. With one or two operands it is one step. -/
theorem C61_named_path {lower : Str → Str} (hl : LowerOK lower) {t : Dict Str Builtin} (ht : importedOptions lower = .ok t) {e : Env}
    {name : Str} {b : Builtin} (hname : documentedName (lower name) = some b) {inputs : List Str} {output : Str} {shapes : List Shape}
    (hlen : inputs.length = shapes.length) {mem : MemLimit} {ub : Bool} {info : PathInfo}
    (h : contractPath inputs output shapes (resolve lower (optionFns e t) (.name name)) mem ub = .ok info) :
    (2 < inputs.length → ∃ (d : Dict Nat Nat) (m : Option Nat), (∀ c s, d.get? c = some s ↔ IsLabelSize inputs shapes c s) ∧
      (∀ s, (∀ k, m = some k → s ≤ k) ↔ WithinMemory mem (labelSize d) inputs output s) ∧
      b.fn e (inputs.map List.toFinset) output.toFinset d m = .ok info.path) ∧
    (inputs.length ≤ 2 → info.path = [List.range inputs.length]) := by
  obtain ⟨hd, -⟩ := contractPath_chosen_args h
  obtain ⟨m, hm, h1, h2⟩ := contractPath_named hl ht hname h
  exact ⟨fun hn => ⟨info.sizeDict, m, fun c s => (labelSize_spec hlen hd c s).symm, fun s => (chooseMemory_within hm s).symm, h1 hn⟩, h2⟩

/-! ## `PathInfo` and the searches count alike -/

theorem countP_select {P : Finset Nat → Bool} {terms : List (Finset Nat)} {p : List Nat} (hv : ValidStep terms.length p) :
    terms.countP P = p.countP (fun i => P (terms.getD i ∅)) + (unselected terms p).countP P := by
  obtain ⟨sel, hperm, -, -, hsel⟩ := select hv
  rw [← hperm.countP_eq, List.countP_append]
  congr 1
  rw [← (sortedDesc_perm p).countP_eq]
  have hlt : ∀ i ∈ sortedDesc p, i < terms.length := fun i hi => hv.2.2 i ((sortedDesc_perm p).mem_iff.mp hi)
  clear hperm
  generalize sortedDesc p = q at hsel hlt
  induction q generalizing sel with
  | nil =>
    cases sel with
    | nil => rfl
    | cons a l => simp at hsel
  | cons i q ih =>
    cases sel with
    | nil => simp at hsel
    | cons a l =>
      simp only [List.map_cons, List.cons.injEq] at hsel
      have hi := hlt i (by simp)
      rw [List.countP_cons, List.countP_cons]
      have ha : terms.getD i ∅ = a := by
        rw [List.getD_eq_getElem?_getD, ← hsel.1]
        rfl
      rw [ha]
      congr 1
      exact ih l hsel.2 (fun j hj => hlt j (by simp [hj]))

theorem noLone_afterStep {terms : List (Finset Nat)} {out : Finset Nat} {p : List Nat} (hl : NoLoneLabels terms out)
    (hv : ValidStep terms.length p) : NoLoneLabels (afterStep out terms p) out := by
  intro s hs c hc
  have hpos : 0 < (afterStep out terms p).countP (fun s => decide (c ∈ s)) := List.countP_pos_iff.mpr ⟨s, hs, by simpa using hc⟩
  unfold occurrences
  by_cases hout : c ∈ out
  · rw [if_pos hout]; omega
  rw [if_neg hout]
  unfold afterStep at hs ⊢
  rw [List.countP_append, List.countP_singleton]
  by_cases hk : c ∈ keptLabels out terms p
  · have := hk
    unfold keptLabels at this
    obtain ⟨-, h | ⟨t, ht, hct⟩⟩ := Finset.mem_filter.mp this
    · exact absurd h hout
    have : 0 < (unselected terms p).countP (fun s => decide (c ∈ s)) := List.countP_pos_iff.mpr ⟨t, ht, by simpa using hct⟩
    rw [if_pos (by simpa using hk)]
    omega
  · have hs' : s ∈ unselected terms p := by
      rcases List.mem_append.mp hs with h | h
      · exact h
      · rw [List.mem_singleton.mp h] at hc
        exact absurd hc hk
    have hst : s ∈ terms := by
      unfold unselected at hs'
      obtain ⟨i, -, hi⟩ := List.mem_filterMap.mp hs'
      exact List.mem_of_getElem? hi
    have h2 := hl s hst c hc
    unfold occurrences at h2
    rw [if_neg hout, countP_select hv] at h2
    have h0 : p.countP (fun i => decide (c ∈ terms.getD i ∅)) = 0 := by
      rw [List.countP_eq_zero]
      intro i hi hci
      have hci : c ∈ terms.getD i ∅ := by simpa using hci
      refine hk (Finset.mem_filter.mpr ⟨mem_labelsAt.mpr ⟨i, hi, terms.getD i ∅, ?_, hci⟩, Or.inr ⟨s, hs', hc⟩⟩)
      rw [List.getD_eq_getElem?_getD, List.getElem?_eq_getElem (hv.2.2 i hi)]
      rfl
    omega

theorem stepFlops_eq_pairFlops {size : Nat → Nat} {terms : List (Finset Nat)} {out : Finset Nat} {p : List Nat} (hl : NoLoneLabels terms out)
    (hv : ValidStep terms.length p) :
    stepFlops size (labelsAt terms p) (keptLabels out terms p) p.length = pairFlops size out terms p := by
  unfold stepFlops pairFlops
  congr 2
  have hiff : labelsAt terms p = keptLabels out terms p ↔
      (labelsAt terms p).filter (fun c => c ∉ keptLabels out terms p ∧ 1 < p.countP (fun i => c ∈ terms.getD i ∅)) = ∅ := by
    constructor
    · intro e
      rw [Finset.filter_eq_empty_iff]
      intro c hc h
      exact h.1 (e ▸ hc)
    · intro e
      rw [Finset.filter_eq_empty_iff] at e
      apply Finset.Subset.antisymm _ (Finset.filter_subset _ _)
      intro c hc
      by_contra hk
      refine e hc ⟨hk, ?_⟩
      have hout : c ∉ out ∧ ¬ ∃ t ∈ unselected terms p, c ∈ t := by
        simp only [Finset.mem_filter, not_and, not_or] at hk
        exact hk hc
      obtain ⟨i, hi, s, hs, hci⟩ := mem_labelsAt.mp hc
      have h2 := hl s (List.mem_of_getElem? hs) c hci
      unfold occurrences at h2
      rw [if_neg hout.1, countP_select hv] at h2
      have h0 : (unselected terms p).countP (fun s => decide (c ∈ s)) = 0 := by
        rw [List.countP_eq_zero]
        intro t ht
        simpa using fun h => hout.2 ⟨t, ht, h⟩
      omega
  by_cases h : labelsAt terms p = keptLabels out terms p
  · rw [if_pos h, if_pos (hiff.mp h)]
  · rw [if_neg h, if_neg (fun e => h (hiff.mpr e))]

/-- If no axis is summed alone, `PathInfo` counts the operations of any legal path as the searches do. -/
theorem plan_eq_search_any {size : Nat → Nat} {out : Finset Nat} (q : Path) {terms : List (Finset Nat)} (hl : NoLoneLabels terms out)
    (hv : ValidPath terms.length q) : ((planFigures size out terms q).map StepFigures.flops).sum = searchFlops size out terms q := by
  induction q generalizing terms with
  | nil => rfl
  | cons p q ih =>
    simp only [planFigures, List.map_cons, List.sum_cons, searchFlops]
    rw [stepFlops_eq_pairFlops hl hv.1, ih (noLone_afterStep hl hv.1)]
    have := unselected_length hv.1.2.1 hv.1.2.2
    have h1 : 1 ≤ p.length := List.length_pos_iff.mpr hv.1.1
    have h2 : (afterStep out terms p).length = terms.length + 1 - p.length := by
      unfold afterStep
      rw [List.length_append, List.length_singleton]
      omega
    rw [h2]
    exact hv.2

theorem elements_eq_resultSizes {size : Nat → Nat} {out : Finset Nat} (q : Path) (terms : List (Finset Nat)) :
    (planFigures size out terms q).map StepFigures.elements = resultSizes size out terms q := by
  induction q generalizing terms with
  | nil => rfl
  | cons p q ih => simp only [planFigures, List.map_cons, resultSizes, ih]

/-! ## C62 for `optimal` and the finders that use it -/

theorem withinMemory_congr {mem : MemLimit} {size size' : Nat → Nat} {inputs : List Str} {output : Str}
    (h : ∀ t ∈ inputs ++ [output], ∀ c ∈ t, size c = size' c) (s : Nat) :
    WithinMemory mem size inputs output s ↔ WithinMemory mem size' inputs output s := by
  cases mem with
  | maxInput =>
    simp only [WithinMemory]
    constructor
    · rintro ⟨t, ht, hs⟩
      exact ⟨t, ht, by rwa [← List.map_congr_left (h t ht)]⟩
    · rintro ⟨t, ht, hs⟩
      exact ⟨t, ht, by rwa [List.map_congr_left (h t ht)]⟩
  | _ => exact Iff.rfl

/-- The figures that `contract_path` reports for a complete path, in terms of the searches. -/
theorem reported {inputs : List Str} {output : Str} {shapes : List Shape} (hlen : inputs.length = shapes.length) {opt : Optimize} {mem : MemLimit} {ub : Bool}
    {info : PathInfo} (h : contractPath inputs output shapes opt mem ub = .ok info) (hv : CompletePath inputs.length info.path) :
    info.optCost = ((planFigures (labelSize info.sizeDict) output.toFinset (inputs.map List.toFinset) info.path).map StepFigures.flops).sum ∧
    (NoLoneLabels (inputs.map List.toFinset) output.toFinset →
      info.optCost = searchFlops (labelSize info.sizeDict) output.toFinset (inputs.map List.toFinset) info.path) ∧
    info.sizeList = resultSizes (labelSize info.sizeDict) output.toFinset (inputs.map List.toFinset) info.path ∧
    info.largestIntermediate = peak (labelSize info.sizeDict) output.toFinset (inputs.map List.toFinset) info.path := by
  obtain ⟨hd, -⟩ := contractPath_chosen_args h
  have hvp := completePath_valid hv
  obtain ⟨h1, -, h3, h4, h5, -⟩ := C05_path_info (labelSize info.sizeDict) inputs output shapes opt mem ub info hlen (fun c s hs => by
    rw [labelSize_spec hlen hd] at hs
    simp [labelSize, hs]) h hvp
  rw [elements_eq_resultSizes] at h3
  refine ⟨h1, fun hl => ?_, h3, ?_⟩
  · rw [h1, plan_eq_search_any _ hl (by simpa using hvp)]
  · have hne : info.path ≠ [] := by
      intro e
      rw [e] at hv
      exact hv
    unfold peak
    rw [← h3]
    have h5 := h5 hne
    clear h3
    apply le_antisymm
    · generalize info.sizeList = l at h4 h5
      clear h4
      induction l with
      | nil => simp at h5
      | cons a l ih =>
        rw [List.foldr_cons]
        rcases List.mem_cons.mp h5 with h | h
        · rw [h]; exact le_max_left _ _
        · exact le_trans (ih h) (le_max_right _ _)
    · generalize info.sizeList = l at h4 h5
      clear h5
      induction l with
      | nil => exact Nat.zero_le _
      | cons a l ih =>
        rw [List.foldr_cons]
        exact max_le (h4 a (by simp)) (ih (fun x hx => h4 x (by simp [hx])))

theorem planFigures_single {size : Nat → Nat} {out : Finset Nat} {terms : List (Finset Nat)} {p q : List Nat} (h : p.Perm q) :
    planFigures size out terms [p] = planFigures size out terms [q] := by
  have h1 : labelsAt terms p = labelsAt terms q := by
    ext c
    rw [mem_labelsAt, mem_labelsAt]
    simp only [h.mem_iff]
  have h2 : keptLabels out terms p = keptLabels out terms q := by
    unfold keptLabels
    rw [h1, unselected_congr terms (fun x => h.mem_iff)]
  simp only [planFigures, h1, h2, h.length_eq]

/-- A complete path in pairs for at most two tensors. -/
theorem complete_small {n : Nat} (hn : n ≤ 2) {q : Path} (hq : CompletePath n q) (hp : Pairwise2 q) : ∃ p, q = [p] ∧ p.Perm (List.range n) := by
  have hle : ∀ (k : Nat) (p : List Nat), ValidStep k p → p.Subperm (List.range k) := fun k p h =>
    List.subperm_of_subset h.2.1 (fun x hx => List.mem_range.mpr (h.2.2 x hx))
  match q, hq with
  | [p], hq => exact ⟨p, rfl, (hle n p hq.1).perm_of_length_le (by rw [List.length_range, hq.2])⟩
  | p :: p' :: ps, hq =>
    exfalso
    have h1 := (hle n p hq.1).length_le
    have hv : ValidStep (n + 1 - p.length) p' := by
      have := hq.2
      cases ps with
      | nil => exact this.1
      | cons a l => exact this.1
    have h2 := (hle _ p' hv).length_le
    have e1 := hp p (by simp)
    have e2 := hp p' (by simp)
    rw [List.length_range] at h1 h2
    omega

theorem complete_range {n : Nat} (hn : 0 < n) : CompletePath n [List.range n] :=
  ⟨⟨by simp; omega, List.nodup_range, fun _ h => List.mem_range.mp h⟩, List.length_range⟩

/-- The finders that search all paths, for `n` operands. -/
def SearchesAll (b : Builtin) (n : Nat) : Prop := b = .optimal ∨ (b = .auto ∧ n < 5) ∨ (b = .autoHq ∧ n < 6)

theorem searchesAll_fn {b : Builtin} {inputs : List (Finset Nat)} (hb : SearchesAll b inputs.length) (hne : inputs ≠ []) (e : Env) (output : Finset Nat)
    (d : Dict Nat Nat) (m : Option Nat) :
    b.fn e inputs output d m = (optimal e.fuel (labelSize d) m e.orders.set inputs output).getD (.error .stopIteration) := by
  have : 1 ≤ inputs.length := List.length_pos_iff.mpr hne
  rcases hb with rfl | ⟨rfl, h⟩ | ⟨rfl, h⟩
  · rfl
  · simp only [Builtin.fn, asPathFn, auto, if_pos (And.intro this h)]
  · simp only [Builtin.fn, asPathFn, autoHq, if_pos (And.intro this h)]

/-- **C62, least cost (partial).** In a network without hyperedges, and without axes that are summed alone, `contract_path` with
`optimize='optimal'`, `'auto'` (up to four operands) or `'auto-hq'` (up to five), with or without memory limit, reports a path whose
intermediates are within the limit, and whose `opt_cost` is at most the `opt_cost` reported for any complete path in pairs, given by
the user, whose intermediates are within the limit.

Missing: hyperedges, for which the claim is false (`C18_counterexample`). -/
theorem C62_least_cost_partial {lower : Str → Str} (hl : LowerOK lower) {t : Dict Str Builtin} (ht : importedOptions lower = .ok t)
    {e : Env} (he : EnvOK e) {name : Str} {b : Builtin} (hname : documentedName (lower name) = some b)
    {size : Nat → Nat} {inputs : List Str} {output : Str} {shapes : List Shape} (hne : inputs ≠ [])
    (hlen : inputs.length = shapes.length) (hsize : ∀ c s, IsLabelSize inputs shapes c s → size c = s)
    (hb : SearchesAll b inputs.length) (hfuel : inputs.length ≤ e.fuel)
    (hh : NoHyperEdges (inputs.map List.toFinset) output.toFinset) (hlone : NoLoneLabels (inputs.map List.toFinset) output.toFinset)
    {mem : MemLimit} {ub : Bool} {info : PathInfo}
    (h : contractPath inputs output shapes (resolve lower (optionFns e t) (.name name)) mem ub = .ok info) :
    CompletePath inputs.length info.path ∧ (∀ s ∈ info.sizeList.dropLast, WithinMemory mem size inputs output s) ∧
    ∀ q mem' ub' info', CompletePath inputs.length q → Pairwise2 q → contractPath inputs output shapes (.path q) mem' ub' = .ok info' →
      (∀ s ∈ info'.sizeList.dropLast, WithinMemory mem size inputs output s) → info.optCost ≤ info'.optCost := by
  obtain ⟨hd, hsome, -⟩ := contractPath_chosen_args h
  obtain ⟨m, hm, h3, h12⟩ := contractPath_named hl ht hname h
  have hwithin : ∀ s, WithinMemory mem size inputs output s ↔ ∀ k, m = some k → s ≤ k := by
    intro s
    rw [← chooseMemory_within hm]
    apply withinMemory_congr
    intro t ht c hc
    obtain ⟨v, hv⟩ := Option.isSome_iff_exists.mp (hsome t ht c hc)
    rw [hsize c v ((labelSize_spec hlen hd c v).mpr hv)]
    simp [labelSize, hv]
  -- what is reported for a path of the user
  have hq : ∀ q mem' ub' info', CompletePath inputs.length q → contractPath inputs output shapes (.path q) mem' ub' = .ok info' →
      info'.path = q ∧ info'.sizeDict = info.sizeDict := by
    intro q mem' ub' info' hq hq2
    obtain ⟨hd', -, m', -, hp'⟩ := contractPath_chosen_args hq2
    rw [hd] at hd'
    exact ⟨(Except.ok.inj hp').symm, (Except.ok.inj hd').symm⟩
  simp only [hwithin]
  by_cases hn : inputs.length ≤ 2
  · have hpath := h12 hn
    have hc : CompletePath inputs.length info.path := by rw [hpath]; exact complete_range (List.length_pos_iff.mpr hne)
    obtain ⟨r1, -, r3, -⟩ := reported hlen h hc
    refine ⟨hc, ?_, ?_⟩
    · rw [r3, hpath]
      simp [resultSizes]
    · intro q mem' ub' info' q1 q2 q3 _
      obtain ⟨g1, g2⟩ := hq q mem' ub' info' q1 q3
      obtain ⟨s1, -⟩ := reported hlen q3 (g1 ▸ q1)
      rw [r1, s1, g1, g2, hpath]
      obtain ⟨p, rfl, hp⟩ := complete_small hn q1 q2
      rw [planFigures_single hp]
  · push Not at hn
    have hfn := h3 hn
    have hne : inputs.map List.toFinset ≠ [] := by intro e; rw [List.map_eq_nil_iff] at e; rw [e] at hn; simp at hn
    rw [searchesAll_fn (by simpa using hb) hne] at hfn
    cases m with
    | none =>
      obtain ⟨path, e1, e2, e3, e4⟩ := C18_optimal_minimal_partial (size := labelSize info.sizeDict) hh he.orders.1 (by simpa using hn.le) (fuel := e.fuel) (by simpa using hfuel)
      rw [e1] at hfn
      cases hfn
      rw [List.length_map] at e2 e4
      obtain ⟨r1, -, r3, -⟩ := reported hlen h e2
      refine ⟨e2, by simp, ?_⟩
      intro q mem' ub' info' q1 q2 q3 _
      obtain ⟨g1, g2⟩ := hq q mem' ub' info' q1 q3
      obtain ⟨s1, -⟩ := reported hlen q3 (g1 ▸ q1)
      rw [r1, s1, g1, g2]
      exact (e4 q q1 q2).2 hlone
    | some k =>
      obtain ⟨path, e1, e2, e3, e4⟩ := C18_optimal_limit_partial (size := labelSize info.sizeDict) hh k he.orders.1 (by simpa using hn.le) (fuel := e.fuel) (by simpa using hfuel)
      rw [e1] at hfn
      cases hfn
      rw [List.length_map] at e2 e4
      obtain ⟨-, r2, r3, -⟩ := reported hlen h e2
      refine ⟨e2, by rw [r3]; simpa using e3, ?_⟩
      intro q mem' ub' info' q1 q2 q3 q4
      obtain ⟨g1, g2⟩ := hq q mem' ub' info' q1 q3
      obtain ⟨-, s2, s3, -⟩ := reported hlen q3 (g1 ▸ q1)
      rw [r2 hlone, s2 hlone, g1, g2]
      rw [g1, g2] at s3
      rw [s3] at q4
      exact e4 q q1 q2 (by simpa using q4) (Or.inl hlone)

/-! ## C62 for the limit and for `branch-all`, C61 for `greedy` -/

/-- The finders that look at the memory limit and always return a path, for `n` operands. -/
def HonoursLimit (b : Builtin) (n : Nat) : Prop :=
  b = .optimal ∨ b = .branchAll ∨ b = .branch2 ∨ b = .branch1 ∨ b = .greedy ∨ b = .auto ∨ (b = .autoHq ∧ n < 6)

/-- The finders that follow one branch under a memory limit, for `n` operands. -/
def OneBranch (b : Builtin) (n : Nat) : Prop := b = .branch1 ∨ b = .greedy ∨ (b = .auto ∧ 9 ≤ n)

theorem oneBranch_fn {b : Builtin} {inputs : List (Finset Nat)} (hb : OneBranch b inputs.length) (e : Env) (output : Finset Nat) (d : Dict Nat Nat) (k : Nat) :
    b.fn e inputs output d (some k) = (branchN (some 1) e.orders e.fuel (labelSize d) (some k) inputs output).getD (.error .stopIteration) := by
  rcases hb with rfl | rfl | ⟨rfl, h⟩
  · rfl
  · rfl
  · simp only [Builtin.fn, asPathFn, auto]
    rw [if_neg (by omega), if_neg (by omega), if_neg (by omega)]
    split
    · rfl
    · rfl

theorem honoursLimit_fn {b : Builtin} {inputs : List (Finset Nat)} (hb : HonoursLimit b inputs.length) (hne : inputs ≠ []) (e : Env) (output : Finset Nat)
    (d : Dict Nat Nat) (k : Nat) :
    SearchesAll b inputs.length ∨ ∃ nb, nb ≠ some 0 ∧
      b.fn e inputs output d (some k) = (branchN nb e.orders e.fuel (labelSize d) (some k) inputs output).getD (.error .stopIteration) := by
  have hpos : 1 ≤ inputs.length := List.length_pos_iff.mpr hne
  rcases hb with rfl | rfl | rfl | rfl | rfl | rfl | ⟨rfl, h⟩
  · exact Or.inl (Or.inl rfl)
  · exact Or.inr ⟨none, by simp, rfl⟩
  · exact Or.inr ⟨some 2, by simp, rfl⟩
  · exact Or.inr ⟨some 1, by simp, rfl⟩
  · exact Or.inr ⟨some 1, by simp, rfl⟩
  · by_cases h5 : inputs.length < 5
    · exact Or.inl (Or.inr (Or.inl ⟨rfl, h5⟩))
    right
    by_cases h9 : 9 ≤ inputs.length
    · exact ⟨some 1, by simp, oneBranch_fn (Or.inr (Or.inr ⟨rfl, h9⟩)) e output d k⟩
    simp only [Builtin.fn, asPathFn, auto]
    rw [if_neg (by omega)]
    split
    · exact ⟨none, by simp, rfl⟩
    · rw [if_pos (by omega)]
      exact ⟨some 2, by simp, rfl⟩
  · exact Or.inl (Or.inr (Or.inr ⟨rfl, h⟩))

/-- **C62, memory limit (partial).** The steps that `contract_path` reports, but the last, are within the memory limit, for all registered
finders but `dp` (and `auto-hq` where it runs `dp`) and the random ones: in networks without hyperedges, or if all sizes are at least 1
and the finder follows one branch.

Missing: hyperedges with several branches, for which the claim is false (`C19_counterexample`, `C20_counterexample`); `dp`; the random
finders ignore the limit. -/
theorem C62_memory_partial {lower : Str → Str} (hl : LowerOK lower) {t : Dict Str Builtin} (ht : importedOptions lower = .ok t)
    {e : Env} (he : EnvOK e) {name : Str} {b : Builtin} (hname : documentedName (lower name) = some b)
    {size : Nat → Nat} {inputs : List Str} {output : Str} {shapes : List Shape} (hne : inputs ≠ [])
    (hlen : inputs.length = shapes.length) (hsize : ∀ c s, IsLabelSize inputs shapes c s → size c = s) (hfuel : inputs.length ≤ e.fuel)
    (hb : (HonoursLimit b inputs.length ∧ NoHyperEdges (inputs.map List.toFinset) output.toFinset) ∨
      (OneBranch b inputs.length ∧ ∀ c s, IsLabelSize inputs shapes c s → 0 < s))
    {mem : MemLimit} {ub : Bool} {info : PathInfo}
    (h : contractPath inputs output shapes (resolve lower (optionFns e t) (.name name)) mem ub = .ok info) :
    ∀ s ∈ info.sizeList.dropLast, WithinMemory mem size inputs output s := by
  obtain ⟨hd, hsome, -⟩ := contractPath_chosen_args h
  obtain ⟨m, hm, h3, h12⟩ := contractPath_named hl ht hname h
  have hwithin : ∀ s, WithinMemory mem size inputs output s ↔ ∀ k, m = some k → s ≤ k := by
    intro s
    rw [← chooseMemory_within hm]
    apply withinMemory_congr
    intro t ht c hc
    obtain ⟨v, hv⟩ := Option.isSome_iff_exists.mp (hsome t ht c hc)
    rw [hsize c v ((labelSize_spec hlen hd c v).mpr hv)]
    simp [labelSize, hv]
  simp only [hwithin]
  by_cases hn : inputs.length ≤ 2
  · have hpath := h12 hn
    have hc : CompletePath inputs.length info.path := by rw [hpath]; exact complete_range (List.length_pos_iff.mpr hne)
    obtain ⟨-, -, r3, -⟩ := reported hlen h hc
    rw [r3, hpath]
    simp [resultSizes]
  push Not at hn
  cases m with
  | none => simp
  | some k =>
    have hfn := h3 hn
    have hne' : inputs.map List.toFinset ≠ [] := by simpa using hne
    have hn' : 2 ≤ (inputs.map List.toFinset).length := by rw [List.length_map]; omega
    have hf' : (inputs.map List.toFinset).length ≤ e.fuel := by rwa [List.length_map]
    suffices hs : CompletePath inputs.length info.path ∧
        ∀ s ∈ (resultSizes (labelSize info.sizeDict) output.toFinset (inputs.map List.toFinset) info.path).dropLast, s ≤ k by
      obtain ⟨-, -, r3, -⟩ := reported hlen h hs.1
      rw [r3]
      simpa using hs.2
    rcases hb with ⟨hb, hh⟩ | ⟨hb, hpos⟩
    · rcases honoursLimit_fn (inputs := inputs.map List.toFinset) (by simpa using hb) hne' e output.toFinset info.sizeDict k with hs | ⟨nb, hnb, hs⟩
      · rw [searchesAll_fn hs hne'] at hfn
        obtain ⟨path, e1, e2, e3⟩ := C19_optimal_memory_partial (size := labelSize info.sizeDict) hh k he.orders.1 hn' hf'
        rw [e1] at hfn
        cases hfn
        exact ⟨by simpa using e2, e3⟩
      · rw [hs] at hfn
        obtain ⟨path, e1, e2, e3⟩ := C20_branch_function_partial hh { nbranch := nb, cutoff := 4, bySize := false, cost := costMemoryRemoved } hnb
          (labelSize info.sizeDict) k hn' hf' he.orders.1
        unfold branchN at hfn
        rw [e1] at hfn
        cases hfn
        exact ⟨by simpa using e2, e3⟩
    · rw [oneBranch_fn (by simpa using hb)] at hfn
      obtain ⟨path, e1, e2, e3⟩ := C20_one_branch_memory { nbranch := some 1, cutoff := 4, bySize := false, cost := costMemoryRemoved } rfl
        (size := labelSize info.sizeDict) (fun c => by
          unfold labelSize
          cases hc : info.sizeDict.get? c with
          | none => exact le_refl _
          | some v => exact hpos c v ((labelSize_spec hlen hd c v).mpr hc)) k hn' hf' he.orders.1 (out := output.toFinset)
      unfold branchN at hfn
      rw [e1] at hfn
      cases hfn
      exact ⟨by simpa using e2, e3⟩

theorem unlimited_arg {mem : MemLimit} (hu : Unlimited mem) {l : List Nat} {m : Option Nat} (h : chooseMemoryArg mem l = .ok m) : m = none := by
  rcases hu with rfl | rfl
  · simp only [chooseMemoryArg, Except.ok.injEq] at h
    exact h.symm
  · simp only [chooseMemoryArg] at h
    norm_num at h
    exact h.symm

theorem searchFlops_congr {size size' : Nat → Nat} {out : Finset Nat} (q : Path) {terms : List (Finset Nat)}
    (h : ∀ s ∈ terms, ∀ c ∈ s, size c = size' c) : searchFlops size out terms q = searchFlops size' out terms q := by
  have hlab : ∀ (p : List Nat), ∀ c ∈ labelsAt terms p, size c = size' c := by
    intro p c hc
    obtain ⟨i, -, s, hs, hcs⟩ := mem_labelsAt.mp hc
    exact h s (List.mem_of_getElem? hs) c hcs
  induction q generalizing terms with
  | nil => rfl
  | cons p q ih =>
    have hafter : ∀ s ∈ afterStep out terms p, ∀ c ∈ s, size c = size' c := by
      intro s hs c hc
      unfold afterStep at hs
      rcases List.mem_append.mp hs with hs | hs
      · unfold unselected at hs
        obtain ⟨i, -, hi⟩ := List.mem_filterMap.mp hs
        exact h s (List.mem_of_getElem? hi) c hc
      · rw [List.mem_singleton.mp hs] at hc
        exact hlab p c (Finset.mem_filter.mp hc).1
    simp only [searchFlops]
    rw [ih hafter (by
      intro p' c hc
      obtain ⟨i, -, s, hs, hcs⟩ := mem_labelsAt.mp hc
      exact hafter s (List.mem_of_getElem? hs) c hcs)]
    congr 1
    unfold pairFlops
    rw [Finset.prod_congr rfl (hlab p)]

/-- **C62, `branch-all` (partial).** In a network without hyperedges, and without axes that are summed alone, `contract_path` with
`optimize='branch-all'`, or `'auto'` with five or six operands, without memory limit, reports a path that no path given by the user beats
(by `opt_cost`, at equal cost by `largest_intermediate`) among those that contract tensors with a common label as long as there are any
and whose beginnings cost at most four times those of any other.

Missing: hyperedges, for which the claim is false (`C58_counterexample`). -/
theorem C62_branch_all_partial {lower : Str → Str} (hl : LowerOK lower) {t : Dict Str Builtin} (ht : importedOptions lower = .ok t)
    {e : Env} (he : EnvOK e) {name : Str} {b : Builtin} (hname : documentedName (lower name) = some b)
    {size : Nat → Nat} {inputs : List Str} {output : Str} {shapes : List Shape} (hn : 2 < inputs.length)
    (hlen : inputs.length = shapes.length) (hsize : ∀ c s, IsLabelSize inputs shapes c s → size c = s)
    (hb : b = .branchAll ∨ (b = .auto ∧ 5 ≤ inputs.length ∧ inputs.length < 7)) (hfuel : inputs.length ≤ e.fuel)
    (hh : NoHyperEdges (inputs.map List.toFinset) output.toFinset) (hlone : NoLoneLabels (inputs.map List.toFinset) output.toFinset)
    {mem : MemLimit} (hmem : Unlimited mem) {ub : Bool} {info : PathInfo}
    (h : contractPath inputs output shapes (resolve lower (optionFns e t) (.name name)) mem ub = .ok info) :
    CompletePath inputs.length info.path ∧ Pairwise2 info.path ∧
    ∀ q mem' ub' info', CompletePath inputs.length q → Pairwise2 q → contractPath inputs output shapes (.path q) mem' ub' = .ok info' →
      InnerFirst output.toFinset (inputs.map List.toFinset) q → WithinCutoff 4 size output.toFinset (inputs.map List.toFinset) q →
      ¬ LexLess false info'.optCost info'.largestIntermediate info.optCost info.largestIntermediate := by
  obtain ⟨hd, hsome, -⟩ := contractPath_chosen_args h
  obtain ⟨m, hm, h3, -⟩ := contractPath_named hl ht hname h
  have hfn := h3 hn
  rw [unlimited_arg hmem hm] at hfn
  have hbr : b.fn e (inputs.map List.toFinset) output.toFinset info.sizeDict none =
      (branchN none e.orders e.fuel (labelSize info.sizeDict) none (inputs.map List.toFinset) output.toFinset).getD (.error .stopIteration) := by
    rcases hb with rfl | ⟨rfl, h5, h7⟩
    · rfl
    · simp only [Builtin.fn, asPathFn, auto, List.length_map]
      rw [if_neg (by omega), if_pos ⟨h5, h7⟩]
  obtain ⟨path, e1, e2, e3, e4⟩ := C58_branch_all_partial hh { nbranch := none, cutoff := 4, bySize := false, cost := costMemoryRemoved } rfl
    (labelSize info.sizeDict) he.orders.1 (by rw [List.length_map]; omega) (fuel := e.fuel) (by rwa [List.length_map])
  unfold branchN at hbr
  rw [hbr, e1] at hfn
  cases hfn
  rw [List.length_map] at e2 e4
  refine ⟨e2, e3, ?_⟩
  intro q mem' ub' info' q1 q2 q3 q4 q5
  obtain ⟨hd', -, m', -, hp'⟩ := contractPath_chosen_args q3
  rw [hd] at hd'
  have g1 : info'.path = q := (Except.ok.inj hp').symm
  have g2 : info'.sizeDict = info.sizeDict := (Except.ok.inj hd').symm
  obtain ⟨-, r2, -, r4⟩ := reported hlen h e2
  obtain ⟨-, s2, -, s4⟩ := reported hlen q3 (g1 ▸ q1)
  rw [r2 hlone, r4, s2 hlone, s4, g1, g2]
  apply e4 q q1 q2 q4
  intro r d hr hr2
  have hc : ∀ p, searchFlops (labelSize info.sizeDict) output.toFinset (inputs.map List.toFinset) p =
      searchFlops size output.toFinset (inputs.map List.toFinset) p := by
    intro p
    apply searchFlops_congr
    intro s hs c hc
    obtain ⟨t, ht, rfl⟩ := List.mem_map.mp hs
    obtain ⟨v, hv⟩ := Option.isSome_iff_exists.mp (hsome t (by simp [ht]) c (List.mem_toFinset.mp hc))
    rw [hsize c v ((labelSize_spec hlen hd c v).mpr hv)]
    simp [labelSize, hv]
  rw [hc, hc]
  exact q5 r d hr hr2

/-- **C61, `greedy`.** The path that `contract_path` reports for three or more operands with `optimize='greedy'` (or `'eager'`, `'opportunistic'`, or
`'auto'` for fifteen or more) without memory limit, and with `'random-greedy'`, `'random-greedy-128'` and `'auto-hq'` (for seventeen or
more) with or without limit, contracts two tensors without a common inner label only if no two remaining tensors have one, or if the
two have the same labels. -/
theorem C61_connected_first {lower : Str → Str} (hl : LowerOK lower) {t : Dict Str Builtin} (ht : importedOptions lower = .ok t)
    {e : Env} (he : EnvOK e) {name : Str} {b : Builtin} (hname : documentedName (lower name) = some b)
    {inputs : List Str} {output : Str} {shapes : List Shape} (hn : 2 < inputs.length)
    {mem : MemLimit} {ub : Bool} {info : PathInfo}
    (hb : (Unlimited mem ∧ (b = .greedy ∨ (b = .auto ∧ 15 ≤ inputs.length))) ∨
      b = .randomGreedy ∨ b = .randomGreedy128 ∨ (b = .autoHq ∧ 17 ≤ inputs.length))
    (h : contractPath inputs output shapes (resolve lower (optionFns e t) (.name name)) mem ub = .ok info) :
    CompletePath inputs.length info.path ∧ Pairwise2 info.path ∧
    ConnectedFirst (InnerLabel (inputs.map List.toFinset) output.toFinset) output.toFinset (inputs.map List.toFinset) info.path := by
  obtain ⟨m, hm, h3, -⟩ := contractPath_named hl ht hname h
  have hfn := h3 hn
  have hl' : (inputs.map List.toFinset).length = inputs.length := List.length_map _
  have get : ∀ {o : Option (Except PyErr Path)}, o.getD (.error .stopIteration) = .ok info.path → o = some (.ok info.path) := by
    intro o ho
    cases o with
    | none => cases ho
    | some r => rw [← ho]; rfl
  rw [← hl']
  rcases hb with ⟨hu, rfl | ⟨rfl, h15⟩⟩ | rfl | rfl | ⟨rfl, h17⟩
  · rw [unlimited_arg hu hm] at hfn
    exact C59_greedy_connected_first (by rintro c ⟨⟩) he.orders.2.1 (by omega) (get hfn)
  · rw [unlimited_arg hu hm] at hfn
    exact C59_auto_connected_first (mem := none) he.pick he.orders.2.1 (Or.inl ⟨by omega, get hfn⟩) (cost := e.cost)
  · exact C59_random_greedy_connected_first (by decide) he.pick he.orders.2.1 (by omega) (get hfn)
  · exact C59_random_greedy_connected_first (by decide) he.pick he.orders.2.1 (by omega) (get hfn)
  · exact C59_auto_connected_first he.pick he.orders.2.1 (Or.inr ⟨by omega, get hfn⟩)

/-! ## Concrete cases -/

/-- The table of finders after the import, and `contract_path` with it. -/
def exampleTable : Dict Str Builtin := pathOptions ++ [(S "random-greedy", .randomGreedy), (S "random-greedy-128", .randomGreedy128)]

/-- 'ab,bc,cd,de->ae' with a, c, e of size 2 and b, d of size 6. -/
def exampleReport (opt : OptimizeArg) (mem : MemLimit) : Except PyErr PathInfo :=
  contractPath [S "ab", S "bc", S "cd", S "de"] (S "ae") [[2, 6], [6, 2], [2, 6], [6, 2]] (resolve asciiLower (optionFns exampleEnv exampleTable) opt) mem true

-- a path of the user; no limit; a limit that excludes all intermediates; the largest operand as limit
example : (exampleReport (.path [[1, 2], [0, 2], [0, 1]]) .none).map (fun i => (i.path, i.optCost, i.sizeList)) =
    .ok ([[1, 2], [0, 2], [0, 1]], 336, [36, 12, 4]) := by decide +kernel
example : (exampleReport (.name (S "OPTIMAL")) .none).map (fun i => (i.path, i.optCost, i.sizeList)) =
    .ok ([[0, 1], [0, 1], [0, 1]], 112, [4, 4, 4]) := by decide +kernel
example : (exampleReport (.name (S "auto")) (.num (7 / 2))).map (fun i => (i.path, i.optCost, i.sizeList)) = .ok ([[0, 1, 2, 3]], 1152, [4]) := by
  decide +kernel
example : (exampleReport (.name (S "branch-2")) .maxInput).map (fun i => (i.path, i.optCost, i.sizeList)) =
    .ok ([[0, 1], [0, 1], [0, 1]], 112, [4, 4, 4]) := by decide +kernel

theorem exampleReport_noHyper : NoHyperEdges ([S "ab", S "bc", S "cd", S "de"].map List.toFinset) (S "ae").toFinset := by
  intro c _
  by_cases h : c ∈ ({97, 98, 99, 100, 101} : Finset Nat)
  · have : ∀ c ∈ ({97, 98, 99, 100, 101} : Finset Nat),
        ([S "ab", S "bc", S "cd", S "de"].map List.toFinset).countP (fun s => decide (c ∈ s)) ≤ 2 := by decide +kernel
    exact this c h
  · rw [List.countP_eq_zero.mpr]
    · exact Nat.zero_le _
    · intro s hs hc
      refine h ?_
      have hc : c ∈ s := by simpa using hc
      have : ∀ s ∈ [S "ab", S "bc", S "cd", S "de"].map List.toFinset, ∀ c ∈ s, c ∈ ({97, 98, 99, 100, 101} : Finset Nat) := by decide +kernel
      exact this s hs c hc

theorem exampleReport_noLone : NoLoneLabels ([S "ab", S "bc", S "cd", S "de"].map List.toFinset) (S "ae").toFinset := by
  unfold NoLoneLabels
  decide +kernel

theorem exampleReport_sizes (c s : Nat) (hs : IsLabelSize [S "ab", S "bc", S "cd", S "de"] [[2, 6], [6, 2], [2, 6], [6, 2]] c s) :
    (if c = 98 ∨ c = 100 then 6 else 2) = s := by
  obtain ⟨⟨i, j, t, sh, g1, g2, g3, g4⟩, -⟩ := hs
  have key : ∀ p ∈ [S "ab", S "bc", S "cd", S "de"].zip [[2, 6], [6, 2], [2, 6], [6, 2]], ∀ x ∈ p.1.zip p.2, (if x.1 = 98 ∨ x.1 = 100 then 6 else 2) = x.2 := by
    decide +kernel
  exact key (t, sh) (List.mem_of_getElem? (List.getElem?_zip_eq_some.mpr ⟨g1, g2⟩)) (c, s)
    (List.mem_of_getElem? (List.getElem?_zip_eq_some.mpr ⟨g3, g4⟩))

-- C62_least_cost_partial: nothing below 112
example (q : Path) (info' : PathInfo) (h1 : CompletePath 4 q) (h2 : Pairwise2 q) (h : exampleReport (.path q) .none = .ok info') : 112 ≤ info'.optCost := by
  have hrun : (exampleReport (.name (S "OPTIMAL")) .none).map (fun i => i.optCost) = .ok 112 := by decide +kernel
  have hname : documentedName (asciiLower (S "OPTIMAL")) = some .optimal := by decide +kernel
  have ht : importedOptions asciiLower = .ok exampleTable := importedOptions_ok asciiLower_ok
  generalize S "OPTIMAL" = name at hrun hname
  have key := @C62_least_cost_partial _ asciiLower_ok _ ht _ exampleEnv_ok _ _ hname (fun c => if c = 98 ∨ c = 100 then 6 else 2)
    [S "ab", S "bc", S "cd", S "de"] (S "ae") [[2, 6], [6, 2], [2, 6], [6, 2]] (by simp) rfl exampleReport_sizes (Or.inl rfl)
    (by decide) exampleReport_noHyper exampleReport_noLone .none true
  unfold exampleReport at hrun h
  simp only [resolve] at h
  generalize contractPath _ (S "ae") _ (resolve asciiLower (optionFns exampleEnv exampleTable) (.name name)) .none true = r at hrun key
  cases r with
  | error e => cases hrun
  | ok info =>
    rw [← Except.ok.inj hrun]
    exact (key rfl).2.2 q .none true info' h1 h2 h (fun _ _ => trivial)

-- C61_connected_first: two chains; labels 0 to 5
example : (contractPath [[0, 1], [3, 4], [1, 2], [4, 5]] [0, 2, 3, 5] (List.replicate 4 [2, 2])
    (resolve asciiLower (optionFns exampleEnv exampleTable) (.name (S "Eager"))) .none true).map PathInfo.path = .ok [[0, 2], [0, 1], [0, 1]] := by
  decide +kernel

end OE.Props
