import Verif.Spec.CostLaws
import Verif.Props.DpReport

/-!
# C91: the reported costs of the exact finders do not depend on the order of the operands and do not fall when axes get longer
-/

namespace OE.Props
open OE OE.Py OE.Spec OE.Parser OE.Helpers OE.Contract OE.Paths OE.Registry

/-- Where the elements of a list are after a permutation. -/
theorem perm_positions {α : Type} {a b : List α} (h : a.Perm b) :
    ∃ σ : Nat → Nat, (∀ i < a.length, σ i < b.length) ∧ (∀ i < a.length, ∀ j < a.length, σ i = σ j → i = j) ∧ ∀ i < a.length, b[σ i]? = a[i]? := by
  induction h with
  | nil => exact ⟨id, by simp, by simp, by simp⟩
  | cons x h ih =>
    obtain ⟨σ, h1, h2, h3⟩ := ih
    refine ⟨fun i => match i with | 0 => 0 | i + 1 => σ i + 1, ?_, ?_, ?_⟩
    · intro i hi
      cases i with
      | zero => simp
      | succ i => have := h1 i (by simpa using hi); simpa using this
    · intro i hi j hj e
      cases i with
      | zero => cases j with
        | zero => rfl
        | succ j => simp at e
      | succ i => cases j with
        | zero => simp at e
        | succ j =>
          have := h2 i (by simpa using hi) j (by simpa using hj) (by simpa using e)
          omega
    · intro i hi
      cases i with
      | zero => rfl
      | succ i => simpa using h3 i (by simpa using hi)
  | swap x y l =>
    refine ⟨fun i => match i with | 0 => 1 | 1 => 0 | i + 2 => i + 2, ?_, ?_, ?_⟩
    · intro i hi
      match i with
      | 0 => simp
      | 1 => simp
      | i + 2 => simpa using hi
    · intro i _ j _ e
      match i, j with
      | 0, 0 => rfl
      | 0, 1 => simp at e
      | 0, j + 2 => simp at e
      | 1, 0 => simp at e
      | 1, 1 => rfl
      | 1, j + 2 => simp at e
      | i + 2, 0 => simp at e
      | i + 2, 1 => simp at e
      | i + 2, j + 2 => simpa using e
    · intro i _
      match i with
      | 0 => rfl
      | 1 => rfl
      | i + 2 => rfl
  | trans p q ih1 ih2 =>
    obtain ⟨σ, h1, h2, h3⟩ := ih1
    obtain ⟨τ, g1, g2, g3⟩ := ih2
    refine ⟨fun i => τ (σ i), fun i hi => g1 _ (h1 i hi), fun i hi j hj e => h2 i hi j hj (g2 _ (h1 i hi) _ (h1 j hj) e), fun i hi => ?_⟩
    rw [g3 _ (h1 i hi), h3 i hi]

/-- A path for a list of terms, done on the terms in another order. -/
theorem path_perm (out : Finset Nat) (q : Path) {terms terms' : List (Finset Nat)} (h : terms.Perm terms') (hv : ValidPath terms.length q) :
    ∃ q' : Path, ValidPath terms'.length q' ∧ q'.map List.length = q.map List.length ∧
      (∀ size, planFigures size out terms' q' = planFigures size out terms q) ∧ (NoOuterPath out terms q → NoOuterPath out terms' q') := by
  induction q generalizing terms terms' with
  | nil => exact ⟨[], trivial, rfl, fun _ => rfl, fun h => h⟩
  | cons p ps ih =>
    obtain ⟨hv1, hv2⟩ := hv
    obtain ⟨σ, h1, h2, h3⟩ := perm_positions h
    have hv1' : ValidStep terms'.length (p.map σ) := by
      refine ⟨by simpa using hv1.1, ?_, ?_⟩
      · exact List.Nodup.map_on (fun i hi j hj e => h2 i (hv1.2.2 i hi) j (hv1.2.2 j hj) e) hv1.2.1
      · intro x hx
        obtain ⟨i, hi, rfl⟩ := List.mem_map.mp hx
        exact h1 i (hv1.2.2 i hi)
    have hpick : pick terms' (p.map σ) = pick terms p := by
      unfold pick
      rw [List.filterMap_map]
      congr 1
      apply List.filterMap_congr
      intro i hi
      exact h3 i (hv1.2.2 i hi)
    have hun : (unselected terms p).Perm (unselected terms' (p.map σ)) := by
      obtain ⟨sel, e1, e2, -, -⟩ := select hv1
      obtain ⟨sel', e1', e2', -, -⟩ := select hv1'
      rw [hpick, e2] at e2'
      have hs : sel.Perm sel' := Multiset.coe_eq_coe.mp e2'
      have : (sel ++ unselected terms p).Perm (sel ++ unselected terms' (p.map σ)) :=
        e1.trans (h.trans (e1'.symm.trans (hs.symm.append_right _)))
      exact (List.perm_append_left_iff _).mp this
    have hlab : labelsAt terms' (p.map σ) = labelsAt terms p := by
      ext c
      rw [mem_labelsAt, mem_labelsAt]
      constructor
      · rintro ⟨i, hi, s, hs, hc⟩
        obtain ⟨j, hj, rfl⟩ := List.mem_map.mp hi
        exact ⟨j, hj, s, by rw [← h3 j (hv1.2.2 j hj)]; exact hs, hc⟩
      · rintro ⟨j, hj, s, hs, hc⟩
        exact ⟨σ j, List.mem_map.mpr ⟨j, hj, rfl⟩, s, by rw [h3 j (hv1.2.2 j hj)]; exact hs, hc⟩
    have hkept : keptLabels out terms' (p.map σ) = keptLabels out terms p := by
      unfold keptLabels
      rw [hlab]
      apply Finset.filter_congr
      intro c _
      simp only [hun.mem_iff]
    have hafter : (afterStep out terms p).Perm (afterStep out terms' (p.map σ)) := by
      unfold afterStep
      rw [hkept]
      exact hun.append_right _
    have hlen : (afterStep out terms p).length = terms.length + 1 - p.length := by
      have := unselected_length hv1.2.1 hv1.2.2
      unfold afterStep
      rw [List.length_append, List.length_singleton]
      have : 0 < p.length := List.length_pos_iff.mpr hv1.1
      omega
    obtain ⟨q', g1, g2, g3, g4⟩ := ih hafter (by rw [hlen]; exact hv2)
    refine ⟨p.map σ :: q', ⟨hv1', ?_⟩, ?_, ?_, ?_⟩
    · rw [← hafter.length_eq, hlen] at g1
      rw [List.length_map, ← h.length_eq]
      exact g1
    · simp only [List.map_cons, List.length_map, g2]
    · intro size
      simp only [planFigures, g3, hlab, hkept, List.length_map]
    · rintro ⟨⟨c, hc, hci⟩, hrest⟩
      refine ⟨⟨c, hc, fun i hi => ?_⟩, g4 hrest⟩
      obtain ⟨j, hj, rfl⟩ := List.mem_map.mp hi
      have := hci j hj
      rw [List.getD_eq_getElem?_getD] at this ⊢
      rw [h3 j (hv1.2.2 j hj)]
      exact this

theorem complete_perm {n m : Nat} (hnm : n = m) {q q' : Path} (hq : CompletePath n q) (hv : ValidPath m q') (hl : q'.map List.length = q.map List.length) :
    CompletePath m q' := by
  rw [completePath_iff] at hq ⊢
  have hlen : q'.length = q.length := by simpa using congrArg List.length hl
  refine ⟨fun e => hq.1 ?_, hv, ?_⟩
  · rw [e] at hlen
    exact List.length_eq_zero_iff.mp hlen.symm
  · rw [hl, hlen, ← hnm]
    exact hq.2.2

theorem pairwise_perm {q q' : Path} (hq : Pairwise2 q) (hl : q'.map List.length = q.map List.length) : Pairwise2 q' := by
  intro p hp
  have : p.length ∈ q.map List.length := by rw [← hl]; exact List.mem_map.mpr ⟨p, hp, rfl⟩
  obtain ⟨p', h1, h2⟩ := List.mem_map.mp this
  rw [← h2]
  exact hq p' h1

/-- Figures that are at most others, step by step. -/
def FiguresLe (l l' : List StepFigures) : Prop := List.Forall₂ (fun f g => f.flops ≤ g.flops ∧ f.elements ≤ g.elements) l l'

theorem forall₂_left {α β : Type} {R : α → β → Prop} {l : List α} {l' : List β} (h : List.Forall₂ R l l') : ∀ a ∈ l, ∃ b ∈ l', R a b := by
  induction h with
  | nil => simp
  | cons h _ ih =>
    intro a ha
    rcases List.mem_cons.mp ha with rfl | ha
    · exact ⟨_, List.mem_cons_self, h⟩
    · obtain ⟨b, hb, hr⟩ := ih a ha
      exact ⟨b, List.mem_cons_of_mem _ hb, hr⟩

/-- The figures of a path grow with the sizes. -/
theorem figures_mono {size size' : Nat → Nat} (out : Finset Nat) (q : Path) {terms : List (Finset Nat)}
    (h : ∀ s ∈ terms, ∀ c ∈ s, size c ≤ size' c) : FiguresLe (planFigures size out terms q) (planFigures size' out terms q) := by
  induction q generalizing terms with
  | nil => exact .nil
  | cons p q ih =>
    have hlab : ∀ c ∈ labelsAt terms p, size c ≤ size' c := by
      intro c hc
      obtain ⟨i, -, s, hs, hcs⟩ := mem_labelsAt.mp hc
      exact h s (List.mem_of_getElem? hs) c hcs
    have hafter : ∀ s ∈ afterStep out terms p, ∀ c ∈ s, size c ≤ size' c := by
      intro s hs c hc
      unfold afterStep at hs
      rcases List.mem_append.mp hs with hs | hs
      · unfold unselected at hs
        obtain ⟨i, -, hi⟩ := List.mem_filterMap.mp hs
        exact h s (List.mem_of_getElem? hi) c hc
      · rw [List.mem_singleton.mp hs] at hc
        exact hlab c (Finset.mem_filter.mp hc).1
    refine .cons ⟨?_, ?_⟩ (ih hafter)
    · unfold stepFlops
      exact Nat.mul_le_mul_right _ (Finset.prod_le_prod' hlab)
    · exact Finset.prod_le_prod' (fun c hc => hlab c (Finset.mem_filter.mp hc).1)

theorem flops_le {l l' : List StepFigures} (h : FiguresLe l l') : (l.map StepFigures.flops).sum ≤ (l'.map StepFigures.flops).sum := by
  induction h with
  | nil => simp
  | cons h _ ih => simp only [List.map_cons, List.sum_cons]; exact Nat.add_le_add h.1 ih

theorem score_le (m : Metric) {l l' : List StepFigures} (h : FiguresLe l l') : planScore m l ≤ planScore m l' := by
  cases m with
  | flops => exact flops_le h
  | size =>
    simp only [planScore]
    induction h with
    | nil => simp
    | cons h _ ih => simp only [List.map_cons, List.foldr_cons]; exact max_le_max h.2 ih
  | write =>
    simp only [planScore]
    induction h with
    | nil => simp
    | cons h _ ih => simp only [List.map_cons, List.sum_cons]; exact Nat.add_le_add h.2 ih
  | combo k =>
    simp only [planScore]
    induction h with
    | nil => simp
    | cons h _ ih =>
      simp only [List.map_cons, List.sum_cons]
      exact Nat.add_le_add (Nat.add_le_add h.1 (Nat.mul_le_mul_left _ h.2)) ih
  | limit k =>
    simp only [planScore]
    induction h with
    | nil => simp
    | cons h _ ih =>
      simp only [List.map_cons, List.sum_cons]
      exact Nat.add_le_add (max_le_max h.1 (Nat.mul_le_mul_left _ h.2)) ih
  | custom f => exact le_refl _

theorem noHyper_perm {ins ins' : List (Finset Nat)} {out : Finset Nat} (hp : ins.Perm ins') (h : NoHyperEdges ins out) : NoHyperEdges ins' out := by
  intro c hc
  rw [← hp.countP_eq]
  exact h c hc

theorem noLone_perm {ins ins' : List (Finset Nat)} {out : Finset Nat} (hp : ins.Perm ins') (h : NoLoneLabels ins out) : NoLoneLabels ins' out := by
  intro s hs c hc
  have := h s (hp.mem_iff.mpr hs) c hc
  unfold occurrences at this ⊢
  rwa [hp.countP_eq] at this

/-- **C91, optimal.** No hyperedges, no axis that is summed alone, no memory limit: the `opt_cost` that `contract_path` reports for `optimal`,
`auto` (up to four operands) or `auto-hq` (up to five) is at most the one reported, by any of these, for the same operands in another order,
with their labels and those of the output in another order, and with axes that are at least as long. -/
theorem C91_optimal {lower : Str → Str} (hl : LowerOK lower) {t : Dict Str Builtin} (ht : importedOptions lower = .ok t)
    {e e' : Env} (he : EnvOK e) (he' : EnvOK e') {name name' : Str} {b b' : Builtin} (hname : documentedName (lower name) = some b)
    (hname' : documentedName (lower name') = some b') {size size' : Nat → Nat} {inputs inputs' : List Str} {output output' : Str}
    {shapes shapes' : List Shape} (hne : inputs ≠ []) (hlen : inputs.length = shapes.length) (hlen' : inputs'.length = shapes'.length)
    (hsize : ∀ c s, IsLabelSize inputs shapes c s → size c = s) (hsize' : ∀ c s, IsLabelSize inputs' shapes' c s → size' c = s)
    (hb : SearchesAll b inputs.length) (hb' : SearchesAll b' inputs'.length) (hfuel : inputs.length ≤ e.fuel) (hfuel' : inputs'.length ≤ e'.fuel)
    (hh : NoHyperEdges (inputs.map List.toFinset) output.toFinset) (hlone : NoLoneLabels (inputs.map List.toFinset) output.toFinset)
    (hle : NoSmaller size size' inputs inputs' output output') {ub ub' : Bool} {info info' : PathInfo}
    (h : contractPath inputs output shapes (resolve lower (optionFns e t) (.name name)) .none ub = .ok info)
    (h' : contractPath inputs' output' shapes' (resolve lower (optionFns e' t) (.name name')) .none ub' = .ok info') :
    info.optCost ≤ info'.optCost := by
  obtain ⟨hd, hsome, -⟩ := contractPath_chosen_args h
  obtain ⟨hd', hsome', -⟩ := contractPath_chosen_args h'
  obtain ⟨m, hm, h3, h12⟩ := contractPath_named hl ht hname h
  obtain ⟨m', hm', h3', h12'⟩ := contractPath_named hl ht hname' h'
  have hm0 : m = none := unlimited_arg (mem := .none) (Or.inl rfl) hm
  have hm0' : m' = none := unlimited_arg (mem := .none) (Or.inl rfl) hm'
  subst hm0 hm0'
  have hn' : inputs'.length = inputs.length := by simpa using hle.operands.length_eq.symm
  have hsz : ∀ t ∈ inputs, ∀ c ∈ t, size c = labelSize info.sizeDict c := by
    intro t ht c hc
    obtain ⟨v, hv⟩ := Option.isSome_iff_exists.mp (hsome t (List.mem_append_left _ ht) c hc)
    rw [hsize c v ((labelSize_spec hlen hd c v).mpr hv)]
    simp [labelSize, hv]
  have hsz' : ∀ t ∈ inputs', ∀ c ∈ t, size' c = labelSize info'.sizeDict c := by
    intro t ht c hc
    obtain ⟨v, hv⟩ := Option.isSome_iff_exists.mp (hsome' t (List.mem_append_left _ ht) c hc)
    rw [hsize' c v ((labelSize_spec hlen' hd' c v).mpr hv)]
    simp [labelSize, hv]
  have hgrow : ∀ s ∈ inputs.map List.toFinset, ∀ c ∈ s, labelSize info.sizeDict c ≤ labelSize info'.sizeDict c := by
    intro s hs c hc
    have hs' := hle.operands.mem_iff.mp hs
    obtain ⟨t, ht, rfl⟩ := List.mem_map.mp hs
    obtain ⟨t', ht', e'⟩ := List.mem_map.mp hs'
    have hc' : c ∈ t' := by rw [← List.mem_toFinset, e']; exact hc
    rw [List.mem_toFinset] at hc
    rw [← hsz t ht c hc, ← hsz' t' ht' c hc']
    exact hle.sizes t ht c hc
  have hcall : ∀ {inputs : List Str} {output : Str} {info : PathInfo} {b : Builtin} {e : Env} (_ : EnvOK e) (_ : inputs ≠ []) (_ : SearchesAll b inputs.length)
      (_ : inputs.length ≤ e.fuel) (_ : NoHyperEdges (inputs.map List.toFinset) output.toFinset)
      (_ : NoLoneLabels (inputs.map List.toFinset) output.toFinset)
      (_ : inputs.length > 2 → b.fn e (inputs.map List.toFinset) output.toFinset info.sizeDict none = .ok info.path), 2 < inputs.length →
      CompletePath inputs.length info.path ∧ Pairwise2 info.path ∧ ∀ q, CompletePath inputs.length q → Pairwise2 q →
        ((planFigures (labelSize info.sizeDict) output.toFinset (inputs.map List.toFinset) info.path).map StepFigures.flops).sum ≤
          ((planFigures (labelSize info.sizeDict) output.toFinset (inputs.map List.toFinset) q).map StepFigures.flops).sum := by
    intro inputs output info b e he hne hb hfuel hh hlone h3 hn
    have hfn := h3 hn
    have hne : inputs.map List.toFinset ≠ [] := by intro e; rw [List.map_eq_nil_iff] at e; exact hne e
    rw [searchesAll_fn (by simpa using hb) hne] at hfn
    obtain ⟨path, e1, e2, e3, e4⟩ := C18_optimal_minimal_partial (size := labelSize info.sizeDict) hh he.orders.1 (by simpa using hn.le) (fuel := e.fuel) (by simpa using hfuel)
    rw [e1] at hfn
    cases hfn
    rw [List.length_map] at e2 e4
    exact ⟨e2, e3, fun q hq hqp => (e4 q hq hqp).2 hlone⟩
  by_cases hn : inputs.length ≤ 2
  · have hp := h12 hn
    have hp' := h12' (by omega)
    have hpos : 0 < inputs.length := List.length_pos_iff.mpr hne
    have hc : CompletePath inputs.length info.path := by rw [hp]; exact complete_range hpos
    have hc' : CompletePath inputs'.length info'.path := by rw [hp', hn']; exact complete_range hpos
    rw [(reported hlen h hc).1, (reported hlen' h' hc').1, hp]
    obtain ⟨q', g1, g2, g3, -⟩ := path_perm output.toFinset info'.path hle.operands.symm (by simpa using completePath_valid hc')
    have hq' : CompletePath inputs.length q' := complete_perm hn' hc' (by simpa using g1) g2
    rw [← hle.output, ← g3]
    refine le_trans (flops_le (figures_mono _ _ hgrow)) (le_of_eq ?_)
    congr 2
    have h1 : q'.length = 1 := by
      have := congrArg List.length g2
      rw [hp'] at this
      simpa using this
    obtain ⟨p, rfl⟩ := List.length_eq_one_iff.mp h1
    apply planFigures_single
    have hv := hq'.1
    exact ((hv.2.1.subperm (fun x hx => List.mem_range.mpr (hv.2.2 x hx)) : p.Subperm (List.range inputs.length)).perm_of_length_le
      (by rw [List.length_range, hq'.2])).symm
  push Not at hn
  have hne' : inputs' ≠ [] := by intro e; rw [e] at hn'; simp at hn'; omega
  obtain ⟨c1, -, c3⟩ := hcall he hne hb hfuel hh hlone h3 hn
  obtain ⟨c1', c2', -⟩ := hcall (output := output') he' hne' hb' hfuel' (hle.output ▸ noHyper_perm hle.operands hh) (hle.output ▸ noLone_perm hle.operands hlone) h3' (by omega)
  obtain ⟨q', g1, g2, g3, -⟩ := path_perm output.toFinset info'.path hle.operands.symm (by simpa using completePath_valid c1')
  rw [(reported hlen h c1).1, (reported hlen' h' c1').1, ← hle.output, ← g3]
  exact le_trans (c3 q' (complete_perm hn' c1' (by simpa using g1) g2) (pairwise_perm c2' g2)) (flops_le (figures_mono _ _ hgrow))

/-- What is reported of a complete path is its score. -/
theorem reportedScore_plan {metric : Metric} {size : Nat → Nat} {inputs : List Str} {output : Str} {shapes : List Shape}
    (hlen : inputs.length = shapes.length) (hsize : ∀ c s, IsLabelSize inputs shapes c s → size c = s) {opt : Optimize} {mem : MemLimit} {ub : Bool} {info : PathInfo}
    (h : contractPath inputs output shapes opt mem ub = .ok info) (hc : CompletePath inputs.length info.path) :
    reportedScore metric size inputs output info = planScore metric (planFigures size output.toFinset (inputs.map List.toFinset) info.path) := by
  obtain ⟨hd, hsome, -⟩ := contractPath_chosen_args h
  have hfig : planFigures size output.toFinset (inputs.map List.toFinset) info.path =
      planFigures (labelSize info.sizeDict) output.toFinset (inputs.map List.toFinset) info.path := by
    apply planFigures_congr
    intro s hs c hc
    obtain ⟨t, ht, rfl⟩ := List.mem_map.mp hs
    rw [List.mem_toFinset] at hc
    obtain ⟨v, hv⟩ := Option.isSome_iff_exists.mp (hsome t (List.mem_append_left _ ht) c hc)
    rw [hsize c v ((labelSize_spec hlen hd c v).mpr hv)]
    simp [labelSize, hv]
  obtain ⟨r1, -, r3, r4⟩ := reported hlen h hc
  rw [← elements_eq_resultSizes] at r3
  unfold peak at r4
  rw [← elements_eq_resultSizes] at r4
  cases metric with
  | flops => rw [hfig]; exact r1
  | size => rw [hfig]; exact r4
  | write => rw [hfig]; simp only [reportedScore, r3, planScore]
  | combo k => rw [hfig, combo_sum]; simp only [reportedScore, r1, r3]
  | limit k => rfl
  | custom f => rfl

/-- Whether a network hangs together does not depend on the order. -/
theorem connected_perm {ins ins' : List (Finset Nat)} {out : Finset Nat} (hp : ins.Perm ins') (h : Connected ins out) : Connected ins' out := by
  obtain ⟨σ, h1, h2, h3⟩ := perm_positions hp
  have hn := hp.length_eq
  have hget : ∀ i, i < ins.length → ins'.getD (σ i) ∅ = ins.getD i ∅ := by
    intro i hi
    rw [List.getD_eq_getElem?_getD, List.getD_eq_getElem?_getD, h3 i hi]
  have hsurj : ∀ j, j < ins'.length → ∃ i < ins.length, σ i = j := by
    intro j hj
    have hmaps : Set.MapsTo σ (Finset.range ins.length) (Finset.range ins.length) := by
      intro i hi
      have := h1 i (by simpa using hi)
      simpa [hn] using this
    have := Finset.surjOn_of_injOn_of_card_le σ hmaps (fun i hi j hj e => h2 i (by simpa using hi) j (by simpa using hj) e) (le_refl _)
    obtain ⟨i, hi, e⟩ := this (show j ∈ (Finset.range ins.length : Set Nat) by simpa [hn] using hj)
    exact ⟨i, by simpa using hi, e⟩
  have hmap : ∀ i j, Chain ins out (Finset.range ins.length) i j → Chain ins' out (Finset.range ins'.length) (σ i) (σ j) := by
    intro i j hc
    induction hc with
    | refl hi => exact .refl (Finset.mem_range.mpr (h1 _ (Finset.mem_range.mp hi)))
    | step hc hs hk ih =>
      rename_i j k
      obtain ⟨c, e1, e2, e3⟩ := hs
      have hj : j < ins.length := by
        by_contra hj
        rw [List.getD_eq_default _ _ (by omega)] at e1
        simp at e1
      refine .step ih ⟨c, ?_, ?_, e3⟩ (Finset.mem_range.mpr (h1 _ (Finset.mem_range.mp hk)))
      · rw [hget _ hj]; exact e1
      · rw [hget _ (Finset.mem_range.mp hk)]; exact e2
  intro i hi j hj
  obtain ⟨a, ha, rfl⟩ := hsurj i hi
  obtain ⟨b, hb, rfl⟩ := hsurj j hj
  exact hmap a b (h a ha b hb)

/-- The call of dynamic programming that `contract_path` makes for three or more operands. -/
theorem dp_call {order : PopOrder} {cfg : DPCfg} {fuel : Nat} {size : Nat → Nat} {inputs : List Str} {output : Str} {shapes : List Shape}
    (hn : 2 < inputs.length) (hlen : inputs.length = shapes.length) (hsize : ∀ c s, IsLabelSize inputs shapes c s → size c = s) {mem : MemLimit} {ub : Bool} {info : PathInfo}
    (h : contractPath inputs output shapes (.finder (dpFinder cfg order fuel)) mem ub = .ok info) :
    ∃ m, (∀ s, WithinMemory mem size inputs output s ↔ ∀ k, m = some k → s ≤ k) ∧
      (∀ s ∈ inputs.map List.toFinset, ∀ c ∈ s, size c = labelSize info.sizeDict c) ∧
      dpCall cfg order (labelSize info.sizeDict) m (inputs.map List.toFinset) output.toFinset fuel = some (.ok info.path) := by
  obtain ⟨hd, hsome, m, hm, hp⟩ := contractPath_chosen_args h
  have hsz : ∀ t ∈ inputs ++ [output], ∀ c ∈ t, size c = labelSize info.sizeDict c := by
    intro t ht c hc
    obtain ⟨v, hv⟩ := Option.isSome_iff_exists.mp (hsome t ht c hc)
    rw [hsize c v ((labelSize_spec hlen hd c v).mpr hv)]
    simp [labelSize, hv]
  refine ⟨m, ?_, ?_, ?_⟩
  · intro s
    rw [← chooseMemory_within hm]
    exact withinMemory_congr hsz s
  · intro s hs c hc
    obtain ⟨t, ht, rfl⟩ := List.mem_map.mp hs
    exact hsz t (List.mem_append_left _ ht) c (List.mem_toFinset.mp hc)
  · simp only [choosePath, if_neg (not_le.mpr hn), dpFinder, asPathFn] at hp
    generalize dpCall cfg order (labelSize info.sizeDict) m (inputs.map List.toFinset) output.toFinset fuel = r at hp
    cases r with
    | none => cases hp
    | some r => rw [← hp]; rfl

/-- **C91, dynamic programming.** Three or more operands, connected, no hyperedges, no axis that is summed alone: what `contract_path` reports for
`DynamicProgramming(minimize)` of the figures that `minimize` names is at most what it reports for the same operands in another order, with labels in
another order, with axes at least as long, with any `cost_cap` and a memory limit that is at most the same. -/
theorem C91_dp {order order' : PopOrder} (ho : PopOK order) (ho' : PopOK order') {metric : Metric} (hmet : Named metric) {cap cap' : CostCap} {fuel fuel' : Nat}
    {size size' : Nat → Nat} {inputs inputs' : List Str} {output output' : Str} {shapes shapes' : List Shape} (hn : 2 < inputs.length)
    (hlen : inputs.length = shapes.length) (hlen' : inputs'.length = shapes'.length)
    (hsize : ∀ c s, IsLabelSize inputs shapes c s → size c = s) (hsize' : ∀ c s, IsLabelSize inputs' shapes' c s → size' c = s)
    (hh : NoHyperEdges (inputs.map List.toFinset) output.toFinset) (hlone : NoLoneLabels (inputs.map List.toFinset) output.toFinset)
    (hconn : Connected (inputs.map List.toFinset) output.toFinset) (hle : NoSmaller size size' inputs inputs' output output')
    {mem mem' : MemLimit} (hmem : ∀ s, WithinMemory mem' size' inputs' output' s → WithinMemory mem size inputs output s)
    {ub ub' : Bool} {info info' : PathInfo}
    (h : contractPath inputs output shapes (.finder (dpFinder ⟨metric, cap, false⟩ order fuel)) mem ub = .ok info)
    (h' : contractPath inputs' output' shapes' (.finder (dpFinder ⟨metric, cap', false⟩ order' fuel')) mem' ub' = .ok info') :
    reportedScore metric size inputs output info ≤ reportedScore metric size' inputs' output' info' := by
  have hn' : inputs'.length = inputs.length := by simpa using hle.operands.length_eq.symm
  obtain ⟨m, w1, s1, c1⟩ := dp_call hn hlen hsize h
  obtain ⟨m', w1', s1', c1'⟩ := dp_call (by omega) hlen' hsize' h'
  obtain ⟨d1, d2, d3, d4, d5⟩ := dp_path ho hmet (by rw [List.length_map]; omega) hlone (Or.inl hconn) c1
  obtain ⟨d1', d2', d3', d4', -⟩ := dp_path ho' hmet (by rw [List.length_map]; omega) (hle.output ▸ noLone_perm hle.operands hlone)
    (Or.inl (hle.output ▸ connected_perm hle.operands hconn)) c1'
  rw [List.length_map] at d1 d5 d1'
  rw [reportedScore_plan hlen hsize h d1, reportedScore_plan hlen' hsize' h' d1']
  obtain ⟨q', g1, g2, g3, g4⟩ := path_perm output.toFinset info'.path hle.operands.symm (by simpa using completePath_valid d1')
  have hgrow : ∀ s ∈ inputs.map List.toFinset, ∀ c ∈ s, size c ≤ size' c := by
    intro s hs c hc
    obtain ⟨t, ht, rfl⟩ := List.mem_map.mp hs
    exact hle.sizes t ht c (List.mem_toFinset.mp hc)
  have hfig := figures_mono (size := size) (size' := size') output.toFinset q' hgrow
  rw [planFigures_congr info.path s1]
  have hsz : ∀ s ∈ resultSizes (labelSize info.sizeDict) output.toFinset (inputs.map List.toFinset) q', ∀ k, m = some k → s ≤ k := by
    rw [← elements_eq_resultSizes, ← planFigures_congr q' s1]
    intro s hs
    rw [← w1]
    obtain ⟨f, hf, rfl⟩ := List.mem_map.mp hs
    obtain ⟨g, hg, -, hfg⟩ := forall₂_left hfig f hf
    have : g.elements ∈ resultSizes (labelSize info'.sizeDict) output'.toFinset (inputs'.map List.toFinset) info'.path := by
      rw [← elements_eq_resultSizes, ← planFigures_congr info'.path s1', ← hle.output, ← g3]
      exact List.mem_map.mpr ⟨g, hg, rfl⟩
    have hw := hmem _ ((w1' _).mpr (d3' _ this))
    rw [w1] at hw ⊢
    intro k hk
    exact hfg.trans (hw k hk)
  refine le_trans ((d5 q' (complete_perm hn' d1' (by simpa using g1) g2) (pairwise_perm d2' g2) (fun s hs => hsz s (List.dropLast_subset _ hs))
    (fun hs => g4 (hle.output ▸ d4' hs))).2 hh rfl) ?_
  rw [← planFigures_congr q' s1, ← hle.output, ← g3]
  exact score_le metric hfig

/-- A network compared with the same in another order, from the other side. -/
theorem noSmaller_symm {size : Nat → Nat} {inputs inputs' : List Str} {output output' : Str} (h : NoSmaller size size inputs inputs' output output') :
    NoSmaller size size inputs' inputs output' output := ⟨h.operands.symm, h.output.symm, fun _ _ _ _ => le_refl _⟩

/-- **C91, the order.** The `opt_cost` reported for `optimal` does not depend on the order of the operands and of the labels. -/
theorem C91_optimal_order {lower : Str → Str} (hl : LowerOK lower) {t : Dict Str Builtin} (ht : importedOptions lower = .ok t)
    {e e' : Env} (he : EnvOK e) (he' : EnvOK e') {name name' : Str} {b b' : Builtin} (hname : documentedName (lower name) = some b)
    (hname' : documentedName (lower name') = some b') {size : Nat → Nat} {inputs inputs' : List Str} {output output' : Str}
    {shapes shapes' : List Shape} (hne : inputs ≠ []) (hlen : inputs.length = shapes.length) (hlen' : inputs'.length = shapes'.length)
    (hsize : ∀ c s, IsLabelSize inputs shapes c s → size c = s) (hsize' : ∀ c s, IsLabelSize inputs' shapes' c s → size c = s)
    (hb : SearchesAll b inputs.length) (hb' : SearchesAll b' inputs'.length) (hfuel : inputs.length ≤ e.fuel) (hfuel' : inputs'.length ≤ e'.fuel)
    (hh : NoHyperEdges (inputs.map List.toFinset) output.toFinset) (hlone : NoLoneLabels (inputs.map List.toFinset) output.toFinset)
    (hsame : NoSmaller size size inputs inputs' output output') {ub ub' : Bool} {info info' : PathInfo}
    (h : contractPath inputs output shapes (resolve lower (optionFns e t) (.name name)) .none ub = .ok info)
    (h' : contractPath inputs' output' shapes' (resolve lower (optionFns e' t) (.name name')) .none ub' = .ok info') :
    info.optCost = info'.optCost := by
  have hn' : inputs'.length = inputs.length := by simpa using hsame.operands.length_eq.symm
  have hne' : inputs' ≠ [] := by
    intro e
    rw [e] at hn'
    exact hne (List.length_eq_zero_iff.mp hn'.symm)
  exact le_antisymm (C91_optimal hl ht he he' hname hname' hne hlen hlen' hsize hsize' hb hb' hfuel hfuel' hh hlone hsame h h')
    (C91_optimal hl ht he' he hname' hname hne' hlen' hlen hsize' hsize hb' hb hfuel' hfuel (hsame.output ▸ noHyper_perm hsame.operands hh)
      (hsame.output ▸ noLone_perm hsame.operands hlone) (noSmaller_symm hsame) h' h)

/-- **C91, the order.** Nor do the figures that `minimize` names, reported for `DynamicProgramming`, also with a memory limit that is the same for both. -/
theorem C91_dp_order {order order' : PopOrder} (ho : PopOK order) (ho' : PopOK order') {metric : Metric} (hmet : Named metric) {cap cap' : CostCap} {fuel fuel' : Nat}
    {size : Nat → Nat} {inputs inputs' : List Str} {output output' : Str} {shapes shapes' : List Shape} (hn : 2 < inputs.length)
    (hlen : inputs.length = shapes.length) (hlen' : inputs'.length = shapes'.length)
    (hsize : ∀ c s, IsLabelSize inputs shapes c s → size c = s) (hsize' : ∀ c s, IsLabelSize inputs' shapes' c s → size c = s)
    (hh : NoHyperEdges (inputs.map List.toFinset) output.toFinset) (hlone : NoLoneLabels (inputs.map List.toFinset) output.toFinset)
    (hconn : Connected (inputs.map List.toFinset) output.toFinset) (hsame : NoSmaller size size inputs inputs' output output')
    {mem mem' : MemLimit} (hmem : ∀ s, WithinMemory mem size inputs output s ↔ WithinMemory mem' size inputs' output' s)
    {ub ub' : Bool} {info info' : PathInfo}
    (h : contractPath inputs output shapes (.finder (dpFinder ⟨metric, cap, false⟩ order fuel)) mem ub = .ok info)
    (h' : contractPath inputs' output' shapes' (.finder (dpFinder ⟨metric, cap', false⟩ order' fuel')) mem' ub' = .ok info') :
    reportedScore metric size inputs output info = reportedScore metric size inputs' output' info' := by
  have hn' : inputs'.length = inputs.length := by simpa using hsame.operands.length_eq.symm
  exact le_antisymm (C91_dp ho ho' hmet hn hlen hlen' hsize hsize' hh hlone hconn hsame (fun s => (hmem s).mpr) h h')
    (C91_dp ho' ho hmet (by omega) hlen' hlen hsize' hsize (hsame.output ▸ noHyper_perm hsame.operands hh)
      (hsame.output ▸ noLone_perm hsame.operands hlone) (hsame.output ▸ connected_perm hsame.operands hconn) (noSmaller_symm hsame) (fun s => (hmem s).mp) h' h)

/-! ## Concrete cases -/

/-- The order does count with an axis that is summed alone, 'a,ab,bc->', and with a hyperedge, 'a,a,ab->b': all axes of size 2. -/
theorem C91_counterexample :
    (contractPath [S "a", S "ab", S "bc"] [] [[2], [2, 2], [2, 2]] (.finder (Builtin.optimal.fn exampleEnv)) .none true).map PathInfo.optCost = .ok 16 ∧
    (contractPath [S "bc", S "a", S "ab"] [] [[2, 2], [2], [2, 2]] (.finder (Builtin.optimal.fn exampleEnv)) .none true).map PathInfo.optCost = .ok 24 ∧
    (contractPath [S "a", S "a", S "ab"] (S "b") [[2], [2], [2, 2]] (.finder (Builtin.optimal.fn exampleEnv)) .none true).map PathInfo.optCost = .ok 12 ∧
    (contractPath [S "ab", S "a", S "a"] (S "b") [[2, 2], [2], [2]] (.finder (Builtin.optimal.fn exampleEnv)) .none true).map PathInfo.optCost = .ok 10 := by
  refine ⟨?_, ?_, ?_, ?_⟩ <;> decide +kernel

theorem exampleOrder : ([S "ab", S "bc", S "cd", S "de"].map List.toFinset).Perm ([S "ed", S "ba", S "dc", S "bc"].map List.toFinset) := by decide +kernel

-- the chain 'ab,bc,cd,de->ae' in another order, with axes at least as long
example (size' : Nat → Nat) (h2 : ∀ c, (if c = 98 ∨ c = 100 then 6 else 2) ≤ size' c) (shapes' : List Shape) (hlen : 4 = shapes'.length)
    (hs : ∀ c s, IsLabelSize [S "ed", S "ba", S "dc", S "bc"] shapes' c s → size' c = s) (info' : PathInfo)
    (h : contractPath [S "ed", S "ba", S "dc", S "bc"] (S "ea") shapes' (resolve asciiLower (optionFns exampleEnv exampleTable) (.name (S "auto"))) .none true = .ok info') :
    112 ≤ info'.optCost := by
  have hrun : (exampleReport (.name (S "OPTIMAL")) .none).map (fun i => i.optCost) = .ok 112 := by decide +kernel
  have hname : documentedName (asciiLower (S "OPTIMAL")) = some .optimal := by decide +kernel
  have hname' : documentedName (asciiLower (S "auto")) = some .auto := by decide +kernel
  have ht : importedOptions asciiLower = .ok exampleTable := importedOptions_ok asciiLower_ok
  generalize S "OPTIMAL" = name at hrun hname
  generalize S "auto" = name' at h hname'
  have hle : NoSmaller (fun c => if c = 98 ∨ c = 100 then 6 else 2) size' [S "ab", S "bc", S "cd", S "de"] [S "ed", S "ba", S "dc", S "bc"] (S "ae") (S "ea") :=
    ⟨exampleOrder, by decide +kernel, fun _ _ c _ => h2 c⟩
  have key := @C91_optimal _ asciiLower_ok _ ht _ _ exampleEnv_ok exampleEnv_ok _ _ _ _ hname hname' (fun c => if c = 98 ∨ c = 100 then 6 else 2) size'
    [S "ab", S "bc", S "cd", S "de"] [S "ed", S "ba", S "dc", S "bc"] (S "ae") (S "ea") [[2, 6], [6, 2], [2, 6], [6, 2]] shapes' (by simp) rfl hlen exampleReport_sizes hs
    (Or.inl rfl) (Or.inr (Or.inl ⟨rfl, by decide⟩)) (by decide) (by decide) exampleReport_noHyper exampleReport_noLone hle true true
  unfold exampleReport at hrun
  generalize contractPath _ (S "ae") _ (resolve asciiLower (optionFns exampleEnv exampleTable) (.name name)) .none true = r at hrun key
  cases r with
  | error e => cases hrun
  | ok info =>
    rw [← Except.ok.inj hrun]
    exact key rfl h

-- the same for dynamic programming, by the largest intermediate
example (order : PopOrder) (ho : PopOK order) (cap : CostCap) (fuel : Nat) (q : ℚ) (info' : PathInfo)
    (h : contractPath [S "ed", S "ba", S "dc", S "bc"] (S "ea") [[2, 6], [6, 2], [6, 2], [6, 2]] (.finder (dpFinder ⟨.size, cap, false⟩ order fuel)) (.num q) true = .ok info') :
    4 ≤ info'.largestIntermediate := by
  have hrun : (dpReport .size false [S "ab", S "bc", S "cd", S "de"] (S "ae") [[2, 6], [6, 2], [2, 6], [6, 2]] .none).map (fun i => i.largestIntermediate) = .ok 4 := by
    decide +kernel
  unfold dpReport at hrun
  cases hr : contractPath [S "ab", S "bc", S "cd", S "de"] (S "ae") [[2, 6], [6, 2], [2, 6], [6, 2]]
      (.finder (dpFinder ⟨.size, .increase, false⟩ ascendingPop 60)) .none true with
  | error e => rw [hr] at hrun; cases hrun
  | ok info =>
    rw [hr] at hrun
    rw [← Except.ok.inj hrun]
    have hle : NoSmaller (fun c => if c = 98 ∨ c = 100 then 6 else 2) (fun c => if c = 98 ∨ c = 100 then 6 else 2)
        [S "ab", S "bc", S "cd", S "de"] [S "ed", S "ba", S "dc", S "bc"] (S "ae") (S "ea") := ⟨exampleOrder, by decide +kernel, fun _ _ c _ => le_refl _⟩
    exact C91_dp (metric := .size) (mem := .none) (inputs := [S "ab", S "bc", S "cd", S "de"]) (inputs' := [S "ed", S "ba", S "dc", S "bc"]) (shapes := [[2, 6], [6, 2], [2, 6], [6, 2]]) (shapes' := [[2, 6], [6, 2], [6, 2], [6, 2]]) ascendingPop_ok ho (fun fn h => by cases h) (by decide) rfl rfl exampleReport_sizes
      (by
        intro c s hs
        obtain ⟨⟨i, j, t, sh, g1, g2, g3, g4⟩, -⟩ := hs
        have key : ∀ p ∈ [S "ed", S "ba", S "dc", S "bc"].zip [[2, 6], [6, 2], [6, 2], [6, 2]], ∀ x ∈ p.1.zip p.2, (if x.1 = 98 ∨ x.1 = 100 then 6 else 2) = x.2 := by
          decide +kernel
        exact key (t, sh) (List.mem_of_getElem? (i := i) (by rw [List.getElem?_zip_eq_some]; exact ⟨g1, g2⟩)) (c, s)
          (List.mem_of_getElem? (i := j) (by rw [List.getElem?_zip_eq_some]; exact ⟨g3, g4⟩)))
      exampleReport_noHyper exampleReport_noLone exampleReport_connected hle (fun _ _ => trivial) hr h

end OE.Props
