import Verif.Props.Contract2
import Verif.Lemmas.Unselected

/-!
# C03, C05, C09: the contraction list, its recorded costs, and the BLAS steps
-/

namespace OE.Props
open OE OE.Py OE.Spec OE.Paths OE.Parser OE.Helpers OE.Blas OE.Contract

/-! ## What a successful run of the path loop produced -/

theorem foldlM_size_inv (d : Dict Nat Nat) (l : List Nat) (acc v : Nat)
    (h : l.foldlM (fun ret i => do let x ← d.get! i; pure (ret * x)) acc = (.ok v : Except PyErr Nat)) :
    ∀ c ∈ l, (d.get? c).isSome := by
  induction l generalizing acc with
  | nil => simp
  | cons c t ih =>
    rw [List.foldlM_cons] at h
    simp only [bind, Except.bind] at h
    cases hg : d.get? c with
    | none => simp [Dict.get!, hg] at h
    | some x =>
      simp only [Dict.get!, hg, pure, Except.pure] at h
      intro c' hc'
      rcases List.mem_cons.mp hc' with rfl | hm
      · rw [hg]; rfl
      · exact ih _ h c' hm

theorem flopCount_inv {d : Dict Nat Nat} {l : List Nat} {b : Bool} {n v : Nat} (h : flopCount l b n d = .ok v) :
    ∀ c ∈ l, (d.get? c).isSome := by
  unfold flopCount at h
  cases hs : computeSizeByDict l d with
  | error e => rw [hs] at h; cases h
  | ok w => exact foldlM_size_inv d l 1 w hs

/-- The plan described step by step (internal form). -/
inductive Plan (useBlas : Bool) (output : Str) (d : Dict Nat Nat) : List Str → List (List Nat) → List StepOut → Prop
  | nil (terms : List Str) : Plan useBlas output d terms [] []
  | cons (terms : List Str) (p : List Nat) (ps : List (List Nat)) (os : List StepOut) (tI rI : List Str) (tS : List Shape)
      (hpop : popAll (sortedDesc p) terms = .ok (tI, rI)) (hd : ∀ c ∈ tI.flatten, (d.get? c).isSome)
      (hrest : Plan useBlas output d (rI ++ [resultTerm ps.isEmpty tI rI output]) ps os) :
      Plan useBlas output d terms (p :: ps)
        ({ step := stepOf useBlas output p ps.isEmpty tI rI tS,
           cost := (∏ c ∈ tI.flatten.toFinset, dsize d c) * opFactor (decide (tI.flatten.toFinset \ needed tI rI output ≠ ∅)) p.length,
           scale := tI.flatten.toFinset.card,
           size := ∏ c ∈ needed tI rI output, dsize d c } :: os)

theorem plan_of_pathLoop {useBlas : Bool} {output : Str} {d : Dict Nat Nat} (path : List (List Nat)) :
    ∀ (st st' : PathState) (outs : List StepOut), (path ≠ [] → st.sets = st.inputs.map List.toFinset) →
      ValidPath st.inputs.length path → pathLoop useBlas output d st path = .ok (st', outs) →
      Plan useBlas output d st.inputs path outs := by
  induction path with
  | nil =>
    intro st st' outs _ _ h
    simp only [pathLoop, Except.ok.injEq, Prod.mk.injEq] at h
    rw [← h.2]
    exact Plan.nil _
  | cons p ps ih =>
    intro st st' outs hsets hv h
    obtain ⟨⟨hne, hnd, hlt⟩, hv'⟩ := hv
    have hsets := hsets (by simp)
    obtain ⟨tI, rI, h1⟩ := popAll_valid (l := st.inputs) hnd hlt
    rw [pathLoop] at h
    simp only [bind, Except.bind] at h
    have hstep : ∃ r, pathStep useBlas output d st p ps.isEmpty = .ok r := by
      cases hs : pathStep useBlas output d st p ps.isEmpty with
      | error e => rw [hs] at h; cases h
      | ok r => exact ⟨r, rfl⟩
    obtain ⟨⟨st1, o⟩, hstep⟩ := hstep
    have hkeep := hstep
    -- read off the pieces of the step
    have hf := findContraction_ok (p := sortedDesc p) (out := output.toFinset) (by rw [sortedDesc_idem]; exact h1)
      (sortedDesc_ne_nil hne)
    rw [← hsets] at hf
    unfold pathStep at hkeep
    simp only [hf, bind, Except.bind, h1] at hkeep
    split at hkeep
    · cases hkeep
    rename_i q hq
    obtain ⟨tS, rS⟩ := q
    simp only at hkeep
    split at hkeep
    · cases hkeep
    rename_i cost hcost
    have hdd := flopCount_inv hcost
    have hd : ∀ c ∈ tI.flatten, (d.get? c).isSome := fun c hc =>
      hdd c (mem_enum.mpr ⟨hc, List.mem_toFinset.mpr hc⟩)
    split at hkeep
    · cases hkeep
    split at hkeep
    · cases hkeep
    rename_i shp hshp
    have heq := pathStep_eq (useBlas := useBlas) (isLast := ps.isEmpty) (output := output) hsets h1 hq hne hd hshp
    rw [heq] at h
    simp only at h
    split at h
    · cases h
    rename_i r hr
    obtain ⟨st2, os⟩ := r
    simp only [Except.ok.injEq, Prod.mk.injEq] at h
    obtain ⟨-, rfl⟩ := h
    have hlen := popAll_length h1
    rw [sortedDesc_length] at hlen
    refine Plan.cons _ _ _ _ tI rI tS h1 hd (ih _ _ _ ?_ ?_ hr)
    · intro hps
      simp only
      rw [List.map_append, List.map_singleton]
      congr 2
      have : ps.isEmpty = false := by cases ps with
        | nil => exact absurd rfl hps
        | cons => rfl
      rw [this]
      ext c
      simp only [resultTerm, Bool.false_eq_true, if_false, List.mem_toFinset, mem_tensordotOrder]
      constructor
      · intro hc; exact ⟨by have := (mem_needed.mp hc).1; rwa [List.mem_flatten], hc⟩
      · exact fun hc => hc.2
    · simp only [List.length_append, List.length_singleton]
      have : rI.length + 1 = st.inputs.length + 1 - p.length := by omega
      rw [this]; exact hv'

theorem contractPath_inv {inputs : List Str} {output : Str} {shapes : List Shape} {opt : Optimize} {mem : MemLimit} {useBlas : Bool}
    {info : PathInfo} (h : contractPath inputs output shapes opt mem useBlas = .ok info) (hv : ValidPath inputs.length info.path) :
    ∃ outs, sizeLoop [] inputs shapes = .ok info.sizeDict ∧ Plan useBlas output info.sizeDict inputs info.path outs ∧
      (∀ c ∈ inputs.flatten, (info.sizeDict.get? c).isSome) ∧
      info.contractionList = outs.map StepOut.step ∧ info.scaleList = outs.map StepOut.scale ∧
      info.optCost = (outs.map StepOut.cost).sum ∧ info.sizeList = outs.map StepOut.size ∧
      info.largestIntermediate = (outs.map StepOut.size).max?.getD 1 ∧
      info.naiveCost = (∏ c ∈ inputs.flatten.toFinset, dsize info.sizeDict c) *
        opFactor (decide (0 < ((inputs.map List.toFinset).map Finset.card).sum - inputs.flatten.toFinset.card)) inputs.length := by
  unfold contractPath at h
  simp only [bind, Except.bind] at h
  split at h
  · cases h
  rename_i d hd
  split at h
  · cases h
  split at h
  · cases h
  split at h
  · cases h
  rename_i naive hn
  split at h
  · cases h
  rename_i path hp
  split at h
  · cases h
  rename_i r hr
  obtain ⟨st, outs⟩ := r
  simp only [Except.ok.injEq] at h
  subst h
  have hsome : ∀ c ∈ inputs.flatten, (d.get? c).isSome := fun c hc =>
    flopCount_inv hn c (mem_enum.mpr ⟨hc, List.mem_toFinset.mpr hc⟩)
  refine ⟨outs, hd, plan_of_pathLoop path _ _ _ (fun _ => rfl) hv hr, hsome, rfl, rfl, rfl, rfl, rfl, ?_⟩
  rw [flopCount_enum (fun c hc => List.mem_toFinset.mp hc) (fun c hc => hsome c (List.mem_toFinset.mp hc))] at hn
  simp only [Except.ok.injEq] at hn
  exact hn.symm

/-! ## Popping described by positions -/

theorem labelsAt_eq {terms tI rI : List Str} {p : List Nat} (hnd : p.Nodup) (h : popAll (sortedDesc p) terms = .ok (tI, rI)) :
    labelsAt (terms.map List.toFinset) p = tI.flatten.toFinset := by
  obtain ⟨h1, _⟩ := popAll_selected hnd h
  ext c
  rw [mem_labelsAt, List.mem_toFinset, List.mem_flatten]
  simp only [List.getElem?_map, Option.map_eq_some_iff]
  constructor
  · rintro ⟨i, hi, s, ⟨t, ht, rfl⟩, hc⟩
    exact ⟨t, (mem_selected h1).mpr ⟨i, hi, ht⟩, List.mem_toFinset.mp hc⟩
  · rintro ⟨t, ht, hc⟩
    obtain ⟨i, hi, hti⟩ := (mem_selected h1).mp ht
    exact ⟨i, hi, _, ⟨t, hti, rfl⟩, List.mem_toFinset.mpr hc⟩

theorem keptLabels_eq {terms tI rI : List Str} {output : Str} {p : List Nat} (hnd : p.Nodup)
    (h : popAll (sortedDesc p) terms = .ok (tI, rI)) :
    keptLabels output.toFinset (terms.map List.toFinset) p = needed tI rI output := by
  obtain ⟨_, h2⟩ := popAll_selected hnd h
  ext c
  unfold keptLabels
  rw [Finset.mem_filter, labelsAt_eq hnd h, unselected_map, ← h2, mem_needed]
  simp only [List.mem_toFinset, List.mem_flatten, List.mem_map, exists_exists_and_eq_and]

theorem resultTerm_toFinset {tI rI : List Str} {output : Str} : (resultTerm false tI rI output).toFinset = needed tI rI output := by
  ext c
  simp only [resultTerm, Bool.false_eq_true, if_false, List.mem_toFinset, mem_tensordotOrder]
  constructor
  · exact fun hc => hc.2
  · intro hc; exact ⟨by have := (mem_needed.mp hc).1; rwa [List.mem_flatten], hc⟩

/-! ## C05 -/

theorem figures_of_plan {useBlas : Bool} {output : Str} {d : Dict Nat Nat} {size : Nat → Nat} {terms : List Str} {path : List (List Nat)}
    {outs : List StepOut} (h : Plan useBlas output d terms path outs) (hv : ValidPath terms.length path)
    (hsize : ∀ c v, d.get? c = some v → size c = v) :
    outs.map (fun o => StepFigures.mk o.cost o.scale o.size) =
      planFigures size output.toFinset (terms.map List.toFinset) path := by
  induction h with
  | nil => rfl
  | cons terms p ps os tI rI tS hpop hd hrest ih =>
    obtain ⟨⟨hne, hnd, hlt⟩, hv'⟩ := hv
    have hlen := popAll_length hpop
    rw [sortedDesc_length] at hlen
    have hsz : ∀ c ∈ tI.flatten.toFinset, dsize d c = size c := by
      intro c hc
      obtain ⟨v, hv⟩ := Option.isSome_iff_exists.mp (hd c (List.mem_toFinset.mp hc))
      rw [hsize c v hv]
      simp [dsize, hv]
    have hsub : needed tI rI output ⊆ tI.flatten.toFinset := Finset.inter_subset_right
    rw [List.map_cons, planFigures, labelsAt_eq hnd hpop, keptLabels_eq hnd hpop]
    congr 1
    · congr 1
      · unfold stepFlops opFactor
        rw [Finset.prod_congr rfl hsz]
        have : (tI.flatten.toFinset \ needed tI rI output ≠ ∅) ↔ ¬ (tI.flatten.toFinset = needed tI rI output) := by
          rw [not_iff_not, Finset.sdiff_eq_empty_iff_subset]
          constructor
          · intro h; exact Finset.Subset.antisymm h hsub
          · intro h; rw [← h]
        by_cases he : tI.flatten.toFinset = needed tI rI output
        · simp [he]
        · rw [if_neg he, if_pos (by simpa using this.mpr he)]
      · exact Finset.prod_congr rfl (fun c hc => hsz c (hsub hc))
    · cases ps with
      | nil => cases hrest; rfl
      | cons q qs =>
        rw [ih (by
          rw [List.length_append, List.length_singleton]
          have : rI.length + 1 = terms.length + 1 - p.length := by omega
          rw [this]; exact hv')]
        unfold afterStep
        rw [keptLabels_eq hnd hpop, unselected_map, ← (popAll_selected hnd hpop).2, List.map_append, List.map_singleton]
        simp only [List.isEmpty_cons]
        rw [resultTerm_toFinset]

/-- Cost of one `einsum` call as recorded in `naive_cost`: an addition is counted iff some label occurs in two
terms. -/
def naiveFlops (size : Nat → Nat) (inputs : List Str) : Nat :=
  (∏ c ∈ inputs.flatten.toFinset, size c) *
    (max 1 (inputs.length - 1) + if ∃ (i j : Fin inputs.length), i ≠ j ∧ ∃ c, c ∈ inputs[i] ∧ c ∈ inputs[j] then 1 else 0)

theorem card_sum_gt (l : List Str) :
    0 < ((l.map List.toFinset).map Finset.card).sum - l.flatten.toFinset.card ↔
      ∃ (i j : Nat) (s t : Str), i ≠ j ∧ l[i]? = some s ∧ l[j]? = some t ∧ ∃ c, c ∈ s ∧ c ∈ t := by
  have key : l.flatten.toFinset.card ≤ ((l.map List.toFinset).map Finset.card).sum ∧
      (l.flatten.toFinset.card = ((l.map List.toFinset).map Finset.card).sum ↔
        ∀ (i j : Nat) (s t : Str), i ≠ j → l[i]? = some s → l[j]? = some t → ∀ c, c ∈ s → c ∉ t) := by
    induction l with
    | nil => simp
    | cons a l ih =>
      have hu : (a :: l).flatten.toFinset = a.toFinset ∪ l.flatten.toFinset := by simp [List.toFinset_append]
      have hcard := Finset.card_union_add_card_inter a.toFinset l.flatten.toFinset
      rw [hu]
      simp only [List.map_cons, List.sum_cons]
      obtain ⟨h1, h2⟩ := ih
      refine ⟨by omega, ?_⟩
      have hd : (a.toFinset ∪ l.flatten.toFinset).card = a.toFinset.card + ((l.map List.toFinset).map Finset.card).sum ↔
          (a.toFinset ∩ l.flatten.toFinset = ∅) ∧ l.flatten.toFinset.card = ((l.map List.toFinset).map Finset.card).sum := by
        rw [← Finset.card_eq_zero]
        omega
      rw [hd, h2]
      constructor
      · rintro ⟨g1, g2⟩ i j s t hij hi hj c hcs hct
        have hno : ∀ c, c ∈ a → c ∉ l.flatten := by
          intro c ha hl
          have : c ∈ a.toFinset ∩ l.flatten.toFinset := Finset.mem_inter.mpr ⟨List.mem_toFinset.mpr ha, List.mem_toFinset.mpr hl⟩
          rw [g1] at this
          simp at this
        cases i with
        | zero =>
          cases j with
          | zero => exact hij rfl
          | succ j =>
            simp only [List.getElem?_cons_zero, Option.some.injEq] at hi
            subst hi
            rw [List.getElem?_cons_succ] at hj
            exact hno c hcs (List.mem_flatten.mpr ⟨t, List.mem_of_getElem? hj, hct⟩)
        | succ i =>
          rw [List.getElem?_cons_succ] at hi
          cases j with
          | zero =>
            simp only [List.getElem?_cons_zero, Option.some.injEq] at hj
            subst hj
            exact hno c hct (List.mem_flatten.mpr ⟨s, List.mem_of_getElem? hi, hcs⟩)
          | succ j =>
            rw [List.getElem?_cons_succ] at hj
            exact g2 i j s t (by omega) hi hj c hcs hct
      · intro g
        refine ⟨?_, ?_⟩
        · rw [Finset.eq_empty_iff_forall_notMem]
          intro c hc
          rw [Finset.mem_inter, List.mem_toFinset, List.mem_toFinset, List.mem_flatten] at hc
          obtain ⟨ha, t, ht, hct⟩ := hc
          obtain ⟨j, hj⟩ := List.mem_iff_getElem?.mp ht
          exact g 0 (j + 1) a t (by omega) rfl (by rw [List.getElem?_cons_succ]; exact hj) c ha hct
        · intro i j s t hij hi hj
          exact g (i + 1) (j + 1) s t (by omega) (by rw [List.getElem?_cons_succ]; exact hi) (by rw [List.getElem?_cons_succ]; exact hj)
  obtain ⟨k1, k2⟩ := key
  constructor
  · intro h
    have hne : ¬ (l.flatten.toFinset.card = ((l.map List.toFinset).map Finset.card).sum) := by omega
    rw [k2] at hne
    push Not at hne
    obtain ⟨i, j, s, t, g1, g2, g3, c, g4, g5⟩ := hne
    exact ⟨i, j, s, t, g1, g2, g3, c, g4, g5⟩
  · rintro ⟨i, j, s, t, g1, g2, g3, c, g4, g5⟩
    have hne : ¬ (l.flatten.toFinset.card = ((l.map List.toFinset).map Finset.card).sum) := by
      rw [k2]
      intro h
      exact h i j s t g1 g2 g3 c g4 g5
    omega

/-- C05. The figures of `PathInfo` are the true costs of the plan: for every path whose steps are legal, `opt_cost` is the
sum of the operations of the steps, `scale_list` and `size_list` hold the number of labels and the number of elements
of each step, `largest_intermediate` is the maximum of the latter, and `naive_cost` is the cost of one call on all
operands. -/
theorem C05_path_info (size : Nat → Nat) (inputs : List Str) (output : Str) (shapes : List Shape) (opt : Optimize) (mem : MemLimit)
    (useBlas : Bool) (info : PathInfo) (hlen : inputs.length = shapes.length)
    (hsize : ∀ c s, IsLabelSize inputs shapes c s → size c = s)
    (h : contractPath inputs output shapes opt mem useBlas = .ok info) (hv : ValidPath inputs.length info.path) :
    info.optCost = ((planFigures size output.toFinset (inputs.map List.toFinset) info.path).map StepFigures.flops).sum ∧
    info.scaleList = (planFigures size output.toFinset (inputs.map List.toFinset) info.path).map StepFigures.scale ∧
    info.sizeList = (planFigures size output.toFinset (inputs.map List.toFinset) info.path).map StepFigures.elements ∧
    (∀ x ∈ info.sizeList, x ≤ info.largestIntermediate) ∧ (info.path ≠ [] → info.largestIntermediate ∈ info.sizeList) ∧
    info.naiveCost = naiveFlops size inputs := by
  obtain ⟨outs, hd, hplan, hsome, e1, e2, e3, e4, e5, e6⟩ := contractPath_inv h hv
  have hc6 := C06_size_dict inputs shapes hlen
  have hcomp : Compatible inputs shapes := by
    by_contra hno
    rw [hc6.2 hno] at hd
    cases hd
  obtain ⟨d', hd', hiff⟩ := hc6.1 hcomp
  rw [hd] at hd'
  simp only [Except.ok.injEq] at hd'
  rw [← hd'] at hiff
  have hsz : ∀ c v, info.sizeDict.get? c = some v → size c = v := fun c v hv => hsize c v ((hiff c v).mp hv)
  have hfig := figures_of_plan (size := size) hplan hv hsz
  rw [← hfig]
  refine ⟨?_, ?_, ?_, ?_, ?_, ?_⟩
  · rw [e3, List.map_map]; rfl
  · rw [e2, List.map_map]; rfl
  · rw [e4, List.map_map]; rfl
  · intro x hx
    rw [e5, ← e4]
    cases hm : info.sizeList.max? with
    | none => rw [List.max?_eq_none_iff] at hm; rw [hm] at hx; simp at hx
    | some m => exact (List.max?_eq_some_iff.mp hm).2 x hx
  · intro hp
    rw [e5, ← e4]
    cases hm : info.sizeList.max? with
    | none =>
      exfalso
      rw [List.max?_eq_none_iff, e4, List.map_eq_nil_iff] at hm
      rw [hm] at hplan
      have hnil : ∀ path, Plan useBlas output info.sizeDict inputs path [] → path = [] := by
        intro path h; cases h; rfl
      exact hp (hnil _ hplan)
    | some m => exact (List.max?_eq_some_iff.mp hm).1
  · rw [e6]
    unfold naiveFlops opFactor
    have hpr : ∏ c ∈ inputs.flatten.toFinset, dsize info.sizeDict c = ∏ c ∈ inputs.flatten.toFinset, size c := by
      apply Finset.prod_congr rfl
      intro c hc
      obtain ⟨v, hv⟩ := Option.isSome_iff_exists.mp (hsome c (List.mem_toFinset.mp hc))
      rw [hsz c v hv]
      simp [dsize, hv]
    rw [hpr]
    congr 2
    have hiff2 : (0 < ((inputs.map List.toFinset).map Finset.card).sum - inputs.flatten.toFinset.card) ↔
        ∃ (i j : Fin inputs.length), i ≠ j ∧ ∃ c, c ∈ inputs[i] ∧ c ∈ inputs[j] := by
      rw [card_sum_gt]
      constructor
      · rintro ⟨i, j, s, t, g1, g2, g3, c, g4, g5⟩
        obtain ⟨hi, rfl⟩ := List.getElem?_eq_some_iff.mp g2
        obtain ⟨hj, rfl⟩ := List.getElem?_eq_some_iff.mp g3
        exact ⟨⟨i, hi⟩, ⟨j, hj⟩, by simpa using g1, c, g4, g5⟩
      · rintro ⟨i, j, g1, c, g4, g5⟩
        exact ⟨i.1, j.1, _, _, fun e => g1 (Fin.ext e), List.getElem?_eq_getElem i.2, List.getElem?_eq_getElem j.2, c, g4, g5⟩
    by_cases hx : 0 < ((inputs.map List.toFinset).map Finset.card).sum - inputs.flatten.toFinset.card
    · rw [if_pos (by simpa using hx), if_pos (hiff2.mp hx)]
    · rw [if_neg (by simpa using hx), if_neg (fun hh => hx (hiff2.mpr hh))]

-- C05 on 'ab,bc,cd->ad' with sizes 2, 3, 4, 5: steps bc,cd->bd (60 labels values, 2 operations) and ab,bd->ad
example : ((contractPath [S "ab", S "bc", S "cd"] (S "ad") [[2, 3], [3, 4], [4, 5]] (.path [[1, 2], [0, 1]]) .none true).map
    (fun i => decide (i.optCost = 60 * 2 + 30 * 2 ∧ i.sizeList = [15, 10] ∧ i.largestIntermediate = 15 ∧ i.scaleList = [3, 3] ∧
      i.naiveCost = 120 * 3))) = .ok true := by decide +kernel

/-- C05, a peculiarity of `naive_cost`: it counts an addition iff a label occurs in two terms, so it differs from the cost
of the one-step plan: too low for `a->`, too high for `a,a->a`. -/
theorem C05_naive_cost_differs :
    (contractPath [S "a"] [] [[3]] (.path [[0]]) .none true).map (fun i => (i.naiveCost, i.optCost)) = .ok (3, 6) ∧
    (contractPath [S "a", S "a"] (S "a") [[3], [3]] (.path [[0, 1]]) .none true).map (fun i => (i.naiveCost, i.optCost)) =
      .ok (6, 3) := by
  constructor <;> decide +kernel

/-! ## C03 -/

/-- What one entry of the contraction list has to say about the contraction of the terms at positions `p`, giving the
term `r`. -/
structure StepFaithful (output : Str) (terms : List Str) (p : List Nat) (s : Step) (r : Str) (sel : List Str) : Prop where
  /-- the positions, from right to left; they exist -/
  inds : s.inds.Pairwise (· > ·) ∧ (∀ i, i ∈ s.inds ↔ i ∈ p) ∧ ∀ i ∈ p, i < terms.length
  /-- `sel` are the terms popped, in that order -/
  selected : sel.map some = s.inds.map (fun i => terms[i]?)
  /-- the equation of the step -/
  eq : s.einsumStr = List.intercalate [cComma] sel ++ S "->" ++ r
  /-- the removed labels: those that neither the output nor another operand needs -/
  removed : ∀ c, c ∈ s.removed ↔ (∃ t ∈ sel, c ∈ t) ∧ c ∉ output ∧ ∀ t ∈ unselected terms p, c ∉ t
  /-- the result labels: those needed, each once -/
  kept : ∀ c, c ∈ r ↔ (∃ t ∈ sel, c ∈ t) ∧ (c ∈ output ∨ ∃ t ∈ unselected terms p, c ∈ t)
  nodup : r.Nodup
  /-- the terms left for the following steps (recorded up to 20) -/
  remaining : s.remaining = if (unselected terms p).length < 20 then some (unselected terms p ++ [r]) else none
  /-- a step flagged for BLAS contracts two operands over exactly their shared labels -/
  blas : s.blas ≠ .no → ∃ left right, sel = [left, right] ∧ PairContraction left right r

/-- A faithful plan: every step is, the last one contracts all that is left and yields the output term in the
requested order. -/
inductive FaithfulPlan (output : Str) : List Str → List (List Nat) → List Step → Prop
  | last (terms : List Str) (p : List Nat) (s : Step) (sel : List Str) (hs : StepFaithful output terms p s output sel)
      (hall : unselected terms p = []) : FaithfulPlan output terms [p] [s]
  | step (terms : List Str) (p : List Nat) (ps : List (List Nat)) (s : Step) (ss : List Step) (r : Str) (sel : List Str)
      (hs : StepFaithful output terms p s r sel) (hrest : FaithfulPlan output (unselected terms p ++ [r]) ps ss) :
      FaithfulPlan output terms (p :: ps) (s :: ss)

theorem stepOf_faithful {useBlas : Bool} {output : Str} {terms tI rI : List Str} {p : List Nat} {tS : List Shape} {isLast : Bool}
    (hv : ValidStep terms.length p) (hpop : popAll (sortedDesc p) terms = .ok (tI, rI)) (hn : output.Nodup)
    (hout : ∀ c ∈ output, ∃ t ∈ terms, c ∈ t) (hlast : isLast = true → rI = []) :
    StepFaithful output terms p (stepOf useBlas output p isLast tI rI tS) (resultTerm isLast tI rI output) tI := by
  obtain ⟨hne, hnd, hlt⟩ := hv
  obtain ⟨h1, h2⟩ := popAll_selected hnd hpop
  have harrow : S "->" = [cDash, cGt] := by decide
  have hkept : ∀ c, c ∈ resultTerm isLast tI rI output ↔ (∃ t ∈ tI, c ∈ t) ∧ (c ∈ output ∨ ∃ t ∈ rI, c ∈ t) := by
    intro c
    unfold resultTerm
    by_cases hl : isLast = true
    · rw [if_pos hl]
      have hr := hlast hl
      subst hr
      constructor
      · intro hc
        refine ⟨?_, Or.inl hc⟩
        obtain ⟨t, ht, hct⟩ := hout c hc
        have hp := popAll_perm hpop
        rw [List.append_nil] at hp
        exact ⟨t, hp.mem_iff.mpr ht, hct⟩
      · rintro ⟨_, h | ⟨t, ht, _⟩⟩
        · exact h
        · simp at ht
    · rw [if_neg hl, mem_tensordotOrder, mem_needed]
      constructor
      · exact fun h => h.2
      · intro h; exact ⟨List.mem_flatten.mpr h.1, h⟩
  refine ⟨⟨sortedDesc_strict hnd, fun i => mem_sortedDesc, hlt⟩, h1, ?_, ?_, ?_, resultTerm_nodup hn, ?_, ?_⟩
  · simp only [stepOf, einsumStrOf]
    rw [join_eq_intercalate, harrow]
  · intro c
    rw [← h2]
    simp only [stepOf, Finset.mem_sdiff, List.mem_toFinset, List.mem_flatten, mem_needed]
    constructor
    · rintro ⟨g1, g2⟩
      refine ⟨g1, fun ho => g2 ⟨g1, Or.inl ho⟩, fun t ht hc => g2 ⟨g1, Or.inr ⟨t, ht, hc⟩⟩⟩
    · rintro ⟨g1, g2, g3⟩
      refine ⟨g1, ?_⟩
      rintro ⟨_, h | ⟨t, ht, hc⟩⟩
      · exact g2 h
      · exact g3 t ht hc
  · intro c; rw [← h2]; exact hkept c
  · rw [← h2]
    simp only [stepOf, List.length_append, List.length_singleton]
    by_cases hl : rI.length < 20
    · rw [if_pos (by omega), if_pos hl]
    · rw [if_neg (by omega), if_neg hl]
  · intro hb
    have hub : useBlas = true := by
      by_contra hu
      simp [stepOf, hu] at hb
    simp only [stepOf, hub, if_true] at hb
    have hlen := C08_two_terms _ _ _ _ hb
    obtain ⟨left, right, rfl⟩ := List.length_eq_two.mp hlen
    refine ⟨left, right, rfl, ?_⟩
    have hlab : (left ++ right).any (labelBad left right (enum [left, right].flatten (needed [left, right] rI output))) = false := by
      by_contra hbad
      rw [Bool.not_eq_false] at hbad
      apply hb
      simp only [canBlas]
      rw [if_pos]
      exact hbad
    have hpc := any_labelBad_iff.mp hlab
    have hmem : ∀ c, c ∈ enum [left, right].flatten (needed [left, right] rI output) ↔ c ∈ resultTerm isLast [left, right] rI output := by
      intro c
      rw [hkept, mem_enum, mem_needed]
      constructor
      · exact fun h => h.2
      · intro h; exact ⟨List.mem_flatten.mpr h.1, h⟩
    exact ⟨hpc.nl, hpc.nr, fun c h1 h2 h3 => hpc.shared c h1 h2 ((hmem c).mpr h3), fun c h1 h2 => (hmem c).mp (hpc.unshared c h1 h2)⟩

theorem faithful_of_plan {useBlas : Bool} {output : Str} {d : Dict Nat Nat} {terms : List Str} {path : List (List Nat)}
    {outs : List StepOut} (h : Plan useBlas output d terms path outs) (hc : CompletePath terms.length path) (hn : output.Nodup)
    (hout : ∀ c ∈ output, ∃ t ∈ terms, c ∈ t) :
    FaithfulPlan output terms path (outs.map StepOut.step) := by
  induction h with
  | nil => exact absurd hc (by simp [CompletePath])
  | cons terms p ps os tI rI tS hpop hd hrest ih =>
    have hlen := popAll_length hpop
    rw [sortedDesc_length] at hlen
    cases ps with
    | nil =>
      cases hrest
      obtain ⟨hv, hall⟩ := hc
      have hrI : rI = [] := List.length_eq_zero_iff.mp (by omega)
      simp only [List.map_cons, List.map_nil]
      refine FaithfulPlan.last _ _ _ tI ?_ ?_
      · exact stepOf_faithful (isLast := true) hv hpop hn hout (fun _ => hrI)
      · rw [← (popAll_selected hv.2.1 hpop).2, hrI]
    | cons q qs =>
      obtain ⟨hv, hc'⟩ := hc
      have hsf := stepOf_faithful (useBlas := useBlas) (isLast := false) (tS := tS) hv hpop hn hout (by simp)
      have h2 := (popAll_selected hv.2.1 hpop).2
      simp only [List.map_cons]
      refine FaithfulPlan.step _ _ _ _ _ _ tI hsf ?_
      rw [← h2]
      apply ih
      · rw [List.length_append, List.length_singleton]
        have : rI.length + 1 = terms.length + 1 - p.length := by omega
        rw [this]; exact hc'
      · intro c hco
        obtain ⟨t, ht, hct⟩ := hout c hco
        have hm := (popAll_perm hpop).mem_iff.mpr ht
        rw [List.mem_append] at hm
        rcases hm with hm | hm
        · exact ⟨_, by simp, (hsf.kept c).mpr ⟨⟨t, hm, hct⟩, Or.inl hco⟩⟩
        · exact ⟨t, by simp [hm], hct⟩

/-- C03. The contraction list built for a complete path is a faithful plan of the contraction. -/
theorem C03_contraction_list (inputs : List Str) (output : Str) (shapes : List Shape) (opt : Optimize) (mem : MemLimit)
    (useBlas : Bool) (info : PathInfo) (hn : output.Nodup) (hout : ∀ c ∈ output, ∃ t ∈ inputs, c ∈ t)
    (h : contractPath inputs output shapes opt mem useBlas = .ok info) (hc : CompletePath inputs.length info.path) :
    FaithfulPlan output inputs info.path info.contractionList := by
  obtain ⟨outs, _, hplan, _, e1, _⟩ := contractPath_inv h (validPath_of_complete hc)
  rw [e1]
  exact faithful_of_plan hplan hc hn hout

-- C03: the hypotheses hold for 'ab,bc,cd->da' along the path (1,2), (0,1)
example : ∃ info, contractPath [S "ab", S "bc", S "cd"] (S "da") [[2, 3], [3, 4], [4, 5]] (.path [[1, 2], [0, 1]]) .none true = .ok info ∧
    info.path = [[1, 2], [0, 1]] ∧ info.contractionList.map (fun s => (s.inds, s.einsumStr)) =
      [([2, 1], S "cd,bc->db"), ([1, 0], S "db,ab->da")] ∧ CompletePath 3 info.path := by
  refine ⟨_, rfl, rfl, by decide +kernel, ?_⟩
  simp only [CompletePath, ValidStep]; decide +kernel

/-! ## C09 -/

section
variable {R : Type} [CommSemiring R]

omit [CommSemiring R] in
theorem val_eq_get {T : Tensor R} {r : Str} (hr : r.Nodup) {size : Nat → Nat} (hsh : T.shape = r.map size) {coords : List Nat}
    (hl : coords.length = r.length)
    (hb : ∀ (i c x : Nat), r[i]? = some c → coords[i]? = some x → x < size c) :
    T.val coords = T.get (r.map (envOf r coords)) := by
  unfold Tensor.get
  rw [map_envOf hr hl]
  congr 1
  rw [hsh]
  apply List.ext_getElem
  · simp [hl]
  · intro i h1 h2
    simp only [List.getElem_zipWith, List.getElem_map, bc]
    split
    · rename_i hs
      have hi : i < r.length := by omega
      have := hb i r[i] coords[i] (List.getElem?_eq_getElem hi) (List.getElem?_eq_getElem h1)
      omega
    · rfl

theorem contraction_unique {size : Nat → Nat} {P : List (Str × Tensor R)} {r : Str} {S T : Tensor R} (hr : r.Nodup)
    (hS : IsContraction size P r S) (hT : IsContraction size P r T) : SameArray S T := by
  refine ⟨by rw [hS.shape, hT.shape], ?_⟩
  intro coords hl hb
  have hl' : coords.length = r.length := by rw [hl, hS.shape, List.length_map]
  have hb' : ∀ (i c x : Nat), r[i]? = some c → coords[i]? = some x → x < localSize P c := by
    intro i c x h1 h2
    apply hb i (localSize P c) x _ h2
    rw [hS.shape, List.getElem?_map, h1]; rfl
  rw [val_eq_get hr hS.shape hl' hb', val_eq_get hr hT.shape hl' hb', hS.get, hT.get]

/-- C09. If `can_blas` accepts a pair of operands, then `tensordot` over the removed labels followed by the transpose
succeeds, whatever order of the result labels is requested, and gives the same array as the einsum string of
the step, for every backend. -/
theorem C09_blas_step_eq_einsum (left right r result : Str) (a b : Tensor R) (step : Step)
    (ha : a.shape.length = left.length) (hb : b.shape.length = right.length)
    (hpunct : ∀ c, c ∈ left ∨ c ∈ right → ¬ IsPunct c)
    (hnd : r.Nodup) (hsub : ∀ c ∈ r, c ∈ left ∨ c ∈ right) (hres : result.Perm r)
    (hrm : ∀ c, c ∈ step.removed ↔ (c ∈ left ∨ c ∈ right) ∧ c ∉ r)
    (hstr : step.einsumStr = left ++ S "," ++ right ++ S "->" ++ r)
    (hflag : canBlas [left, right] result step.removed (some [a.shape, b.shape]) ≠ .no)
    (hlab : (left ++ right).toFinset.card ≤ 52) :
    ∃ T T', blasStep step [a, b] = .ok T ∧ einsumCall false step.einsumStr [a, b] = .ok T' ∧ SameArray T T' := by
  have hpc : PairContraction left right result := by
    apply any_labelBad_iff.mp
    by_contra hbad
    rw [Bool.not_eq_false] at hbad
    apply hflag
    simp only [canBlas]
    rw [if_pos]
    exact hbad
  have hrmiff : ∀ c, c ∈ step.removed ↔ c ∈ left ∧ c ∈ right := by
    intro c
    rw [hrm]
    constructor
    · rintro ⟨h1, h2⟩
      by_contra hno
      exact h2 (hres.mem_iff.mp (hpc.unshared c h1 hno))
    · rintro ⟨h1, h2⟩
      exact ⟨Or.inl h1, fun hn => hpc.shared c h1 h2 (hres.mem_iff.mpr hn)⟩
  have hsame := (((C08_can_blas_iff left right result step.removed a.shape b.shape ha hb (fun c hc => (hrmiff c).mp hc)).1).mp hflag).2
  have hdims : ∀ c ∈ step.removed, dimOf left a c = dimOf right b c := by
    intro c hc
    have hlr := (hrmiff c).mp hc
    apply hsame c hc
    · have := dimOf_mem ha.symm hlr.1
      obtain ⟨i, hi⟩ := mem_zip_get.mp this
      exact ⟨i, hi⟩
    · have := dimOf_mem hb.symm hlr.2
      obtain ⟨i, hi⟩ := mem_zip_get.mp this
      exact ⟨i, hi⟩
  have hok : BlasOk left right a b step.removed r := by
    refine ⟨hpc.nl, hpc.nr, ha.symm, hb.symm, hrmiff, ?_, hdims⟩
    intro c
    rw [hrm]
    constructor
    · intro hc; exact ⟨hsub c hc, fun h => h.2 hc⟩
    · rintro ⟨h1, h2⟩
      by_contra hno
      exact h2 ⟨h1, hno⟩
  set P := [(left, a), (right, b)] with hP
  have hocc : ∀ c, Occurs P c ↔ c ∈ left ∨ c ∈ right := by intro c; simp [Occurs, hP]
  have harrow : S "->" = [cDash, cGt] := by decide
  have hcom : S "," = [cComma] := by decide
  have hstr' : step.einsumStr = einsumStrOf [left, right] r := by
    rw [hstr, harrow, hcom]; rfl
  obtain ⟨T, h1, h2⟩ := blasStep_contraction (size := localSize P) hok hnd hstr' hpunct (fun c _ => rfl)
  -- the operands fit
  have huniq : ∀ (t : Str) (s : Shape), t.Nodup → ∀ c d d', (c, d) ∈ t.zip s → (c, d') ∈ t.zip s → d = d' := by
    intro t s hn c d d' h1 h2
    obtain ⟨i, g1, g2⟩ := mem_zip_get.mp h1
    obtain ⟨j, g3, g4⟩ := mem_zip_get.mp h2
    have hij : i = j := by
      obtain ⟨hi, e1⟩ := List.getElem?_eq_some_iff.mp g1
      obtain ⟨hj, e2⟩ := List.getElem?_eq_some_iff.mp g3
      exact (List.Nodup.getElem_inj_iff hn).mp (e1.trans e2.symm)
    subst hij
    simp only at g2 g4
    rw [g2] at g4
    exact Option.some.inj g4
  have hfits : ∃ size, Fits size P := by
    refine ⟨fun c => if c ∈ left then dimOf left a c else dimOf right b c, ?_, ?_, ?_, ?_⟩
    · intro p hp
      simp only [hP, List.mem_cons, List.not_mem_nil, or_false] at hp
      rcases hp with rfl | rfl
      · exact ha.symm
      · exact hb.symm
    · intro p hp
      simp only [hP, List.mem_cons, List.not_mem_nil, or_false] at hp
      rcases hp with rfl | rfl
      · exact huniq left a.shape hpc.nl
      · exact huniq right b.shape hpc.nr
    · rintro c d ⟨p, hp, hd⟩
      right
      simp only [hP, List.mem_cons, List.not_mem_nil, or_false] at hp
      rcases hp with rfl | rfl
      · have hcl : c ∈ left := (List.of_mem_zip hd).1
        rw [if_pos hcl]
        exact huniq left a.shape hpc.nl c d _ hd (dimOf_mem ha.symm hcl)
      · have hcr : c ∈ right := (List.of_mem_zip hd).1
        have hdr := huniq right b.shape hpc.nr c d _ hd (dimOf_mem hb.symm hcr)
        by_cases hcl : c ∈ left
        · rw [if_pos hcl, hdims c ((hrmiff c).mpr ⟨hcl, hcr⟩)]; exact hdr
        · rw [if_neg hcl]; exact hdr
    · intro c hc
      rw [hocc] at hc
      by_cases hcl : c ∈ left
      · rw [if_pos hcl]
        exact ⟨(left, a), by simp [hP], dimOf_mem ha.symm hcl⟩
      · rw [if_neg hcl]
        exact ⟨(right, b), by simp [hP], dimOf_mem hb.symm (hc.resolve_left hcl)⟩
  obtain ⟨size, hfit⟩ := hfits
  have hfit' : Fits (localSize P) P := hfit.sub (fun p hp => hp)
  rcases einsumCall_contraction (size := localSize P) (P := P) (r := r) (by simp [hP]) hfit' hnd (fun c hc => (hocc c).mpr (hsub c hc))
    (fun c _ _ => rfl) (fun c hc => hpunct c ((hocc c).mp hc)) with ⟨T', h3, h4⟩ | ⟨_, h4⟩
  · exact ⟨T, T', h1, by rw [hstr']; exact h3, contraction_unique hnd h2 h4⟩
  · exfalso
    have := h4 (left ++ right).toFinset.toList (by
      intro c hc
      rw [Finset.mem_toList, List.mem_toFinset, List.mem_append]; exact (hocc c).mp hc)
    rw [Finset.length_toList] at this
    omega

end

-- C09: the hypotheses hold for 'abc,dcb->da' on operands of shapes (2,3,4), (5,4,3)
example : ∃ T T', blasStep { inds := [1, 0], removed := {98, 99}, einsumStr := S "abc,dcb->da", remaining := none, blas := .tdot }
      [ones [2, 3, 4], ones [5, 4, 3]] = .ok T ∧ einsumCall false (S "abc,dcb->da") [ones [2, 3, 4], ones [5, 4, 3]] = .ok T' ∧ SameArray T T' := by
  apply C09_blas_step_eq_einsum (S "abc") (S "dcb") (S "da") (S "ad")
  · rfl
  · rfl
  · have : ∀ c ∈ S "abc" ++ S "dcb", ¬ (c = cDot ∨ c = cComma ∨ c = cDash ∨ c = cGt) := by decide +kernel
    intro c hc
    exact this c (List.mem_append.mpr hc)
  · decide +kernel
  · decide +kernel
  · decide +kernel
  · have h1 : S "abc" = [97, 98, 99] := by decide
    have h2 : S "dcb" = [100, 99, 98] := by decide
    have h3 : S "da" = [100, 97] := by decide
    intro c
    rw [h1, h2, h3]
    simp only [Finset.mem_insert, Finset.mem_singleton, List.mem_cons, List.not_mem_nil, or_false]
    omega
  · decide +kernel
  · decide +kernel
  · decide +kernel

end OE.Props
