import Verif.Model.RandomUse
import Verif.Props.Random2
import Verif.Props.EndToEnd

/-!
# C72: a `RandomGreedy` instance is never worse than `greedy` and never gets worse
-/

namespace OE.Props
open OE OE.Py OE.Spec OE.Parser OE.Helpers OE.Contract OE.Paths OE.Registry

section
variable {bySize : Bool} {order : GOrder} {size : Nat → Nat} {ins : List (Finset Nat)} {out : Finset Nat}

/-- A use with a possible choice. -/
def UseOK (u : RGUse) : Prop := 0 < u.nbranch ∧ ∀ r, PickOK (u.pick r)

/-- The trials recorded: each was run in one of the uses, the first one as trial 0. -/
structure Ran (order : GOrder) (size : Nat → Nat) (ins : List (Finset Nat)) (out : Finset Nat) (uses : List RGUse) (hist : List Trial) : Prop where
  all : ∀ t ∈ hist, ∃ u ∈ uses, ∃ r, u.trial order size ins out r = .ok t
  first : ∀ t, hist.head? = some t → ∃ u ∈ uses, u.trial order size ins out 0 = .ok t

theorem callTrials_ok {m start : Nat} {pre : Option Nat} {trial : Nat → Except PyErr Trial} {t : Trial}
    (h : Except.ok t ∈ callTrials m pre trial start) : ∃ r, trial r = .ok t := by
  cases pre with
  | none =>
    obtain ⟨r, -, hr⟩ := List.mem_map.mp h
    exact ⟨r, hr⟩
  | some p =>
    simp only [callTrials] at h
    by_cases hp : 0 < p
    · rw [genParallel_eq hp trial _ [] (by simp)] at h
      obtain ⟨r, -, hr⟩ := List.mem_map.mp h
      exact ⟨r, hr⟩
    · have : p = 0 := by omega
      subst this
      cases m with
      | zero => simp [genParallel] at h
      | succ m =>
        rw [List.range'_succ, genParallel.eq_def] at h
        simp at h

theorem callTrials_head {m start : Nat} {pre : Option Nat} {trial : Nat → Except PyErr Trial} {t : Trial} {rest : List (Except PyErr Trial)}
    (h : callTrials m pre trial start = .ok t :: rest) : trial start = .ok t := by
  cases m with
  | zero =>
    cases pre with
    | none => simp [callTrials] at h
    | some p => simp [callTrials, genParallel] at h
  | succ m =>
    cases pre with
    | none =>
      simp only [callTrials, List.range'_succ, List.map_cons, List.cons.injEq] at h
      exact h.1
    | some p =>
      simp only [callTrials] at h
      by_cases hp : 0 < p
      · rw [genParallel_eq hp trial _ [] (by simp)] at h
        rw [List.range'_succ, submitted, if_pos (by simpa using hp)] at h
        simp only [List.nil_append, List.map_cons, List.cons.injEq] at h
        exact h.1
      · have : p = 0 := by omega
        subst this
        rw [List.range'_succ, genParallel.eq_def] at h
        simp at h

/-- One more use. -/
theorem run_ran {uses : List RGUse} {hist : List Trial} {st : ROSt} (hr : Records bySize hist st) (h : Ran order size ins out uses hist) (u : RGUse) :
    ∃ new, Records bySize (hist ++ new) (u.run bySize order size ins out st).2 ∧ Ran order size ins out (uses ++ [u]) (hist ++ new) := by
  obtain ⟨new, g1, g2, -⟩ := C24_call bySize u.maxRepeats u.preDispatch u.late (u.trial order size ins out) hist st hr
  refine ⟨new, g1, ?_, ?_⟩
  · intro t ht
    rcases List.mem_append.mp ht with ht | ht
    · obtain ⟨v, hv, r, hr⟩ := h.all t ht
      exact ⟨v, List.mem_append_left _ hv, r, hr⟩
    · obtain ⟨r, hr⟩ := callTrials_ok (g2.subset (List.mem_map.mpr ⟨t, ht, rfl⟩))
      exact ⟨u, by simp, r, hr⟩
  · intro t ht
    cases hist with
    | cons a l =>
      obtain ⟨v, hv, hr⟩ := h.first t (by simpa using ht)
      exact ⟨v, List.mem_append_left _ hv, hr⟩
    | nil =>
      cases new with
      | nil => simp at ht
      | cons b l =>
        have hb : b = t := by simpa using ht
        subst hb
        obtain ⟨rest, hrest⟩ := g2
        rw [List.length_nil] at hrest
        exact ⟨u, by simp, callTrials_head (rest := l.map Except.ok ++ rest) hrest.symm⟩

/-- All uses so far. -/
theorem uses_ran (uses : List RGUse) : ∃ hist, Records bySize hist (afterUses bySize order size ins out uses) ∧ Ran order size ins out uses hist := by
  induction uses using List.reverseRecOn with
  | nil => exact ⟨[], ⟨rfl, rfl, fun _ => ⟨rfl, rfl, rfl⟩, fun h => absurd rfl h⟩, by simp, by simp⟩
  | append_singleton uses u ih =>
    obtain ⟨hist, h1, h2⟩ := ih
    obtain ⟨new, g1, g2⟩ := run_ran h1 h2 u
    refine ⟨hist ++ new, ?_, g2⟩
    unfold afterUses at g1 ⊢
    rw [List.foldl_append]
    exact g1

theorem more_uses {uses : List RGUse} {hist : List Trial} (hr : Records bySize hist (afterUses bySize order size ins out uses))
    (h : Ran order size ins out uses hist) (more : List RGUse) :
    ∃ new, Records bySize (hist ++ new) (afterUses bySize order size ins out (uses ++ more)) ∧ Ran order size ins out (uses ++ more) (hist ++ new) := by
  induction more using List.reverseRecOn with
  | nil => exact ⟨[], by simpa using hr, by simpa using h⟩
  | append_singleton more u ih =>
    obtain ⟨new, h1, h2⟩ := ih
    obtain ⟨new', g1, g2⟩ := run_ran h1 h2 u
    refine ⟨new ++ new', ?_, ?_⟩
    · rw [← List.append_assoc, ← List.append_assoc]
      unfold afterUses at g1 ⊢
      rw [List.foldl_append]
      exact g1
    · rw [← List.append_assoc, ← List.append_assoc]
      exact g2

/-- A trial that ends has a complete path in pairs, and records its figures. -/
theorem trial_figures (ho : GOrderOK order) (h2 : 2 ≤ ins.length) {u : RGUse} (hu : UseOK u) {r : Nat} {t : Trial}
    (h : u.trial order size ins out r = .ok t) :
    ∃ q, ssaToLinear t.path = .ok q ∧ CompletePath ins.length q ∧ Pairwise2 q ∧ t.cost = searchFlops size out ins q ∧ t.size = peak size out ins q ∧
      ssaGreedy u.fuel size (u.cost r) (if r = 0 then none else randomGreedyChooser u.nbranch u.pick r) order ins out = some (.ok t.path) := by
  unfold RGUse.trial trialGreedy at h
  cases hs : ssaGreedy u.fuel size (u.cost r) (if r = 0 then none else randomGreedyChooser u.nbranch u.pick r) order ins out with
  | none => rw [hs] at h; cases h
  | some p =>
    rw [hs] at h
    cases p with
    | error e => cases h
    | ok p =>
      simp only [Option.getD_some] at h
      obtain ⟨F, p', hF, hcp, hpw⟩ := ssaGreedy_complete size (u.cost r) (chooser := if r = 0 then none else randomGreedyChooser u.nbranch u.pick r)
        (by
          intro c hc
          split at hc
          · cases hc
          · unfold randomGreedyChooser at hc
            split at hc
            · cases hc
            · cases hc; exact thermal_ok _ hu.1 (hu.2 r)) ho (inputs := ins) (by rintro rfl; simp at h2) out
      have hpp : p = p' := by
        have e1 := hF (max F u.fuel) (le_max_left _ _)
        rw [ssaGreedy_fuel (le_max_right F u.fuel) hs] at e1
        cases e1
        rfl
      subst hpp
      obtain ⟨q, q1, q2, q3, q4⟩ := ssaPathCost_spec (size := size) (out := out) h2 hcp (hpw h2)
      rw [q4] at h
      cases h
      refine ⟨q, q1, q2, q3, rfl, ?_, rfl⟩
      unfold peak
      generalize resultSizes size out ins q = l
      have : ∀ (l : List Nat) (a : Nat), l.foldl max a = max a (l.foldr max 0) := by
        intro l
        induction l with
        | nil => simp
        | cons x l ih => intro a; rw [List.foldl_cons, ih, List.foldr_cons, max_assoc]
      show l.foldl max 0 = _
      rw [this, Nat.zero_max]

/-- What a use returns is the path of the best trial recorded. -/
theorem run_best {hist : List Trial} {st : ROSt} {u : RGUse} {path : Path} (hr : Records bySize hist (u.run bySize order size ins out st).2)
    (h : (u.run bySize order size ins out st).1 = .ok path) :
    ∃ t ∈ hist, ssaToLinear t.path = .ok path ∧ ∀ v ∈ hist, ¬ Beats bySize v t := by
  have key : ∃ p, (u.run bySize order size ins out st).2.path = some p ∧ ssaToLinear p = .ok path := by
    unfold RGUse.run roCall at h ⊢
    generalize assessLoop bySize u.late 0 (callTrials u.maxRepeats u.preDispatch (u.trial order size ins out) st.costs.length) st = a at h ⊢
    obtain ⟨a, st'⟩ := a
    cases a with
    | error e => cases h
    | ok _ =>
      simp only at h ⊢
      cases hp : st'.path with
      | none => rw [hp] at h; cases h
      | some p => rw [hp] at h; exact ⟨p, rfl, h⟩
  obtain ⟨p, hp, hq⟩ := key
  have hne : hist ≠ [] := by
    intro e
    rw [(hr.none e).1] at hp
    cases hp
  obtain ⟨pre, t, post, e1, e2, -, -, -, e6⟩ := hr.best hne
  rw [hp] at e2
  cases e2
  exact ⟨t, by rw [e1]; simp, hq, e6⟩

end

/-- `greedy` with a cost function given to `contract_path` (no memory limit passes to it). -/
def greedyFinder (cost : CostFn) (order : GOrder) (setOrder : SetOrder) (fuel : Nat) : PathFn :=
  asPathFn fun size mem i o => greedy fuel size mem cost none order setOrder i o

/-- The figures of the paths compare as the reported figures. -/
theorem beats_reported {bySize : Bool} {inputs : List Str} {output : Str} {shapes : List Shape} (hlen : inputs.length = shapes.length)
    {opt opt' : Optimize} {mem mem' : MemLimit} {ub ub' : Bool} {info info' : PathInfo}
    (h : contractPath inputs output shapes opt mem ub = .ok info) (h' : contractPath inputs output shapes opt' mem' ub' = .ok info')
    (hc : CompletePath inputs.length info.path) (hc' : CompletePath inputs.length info'.path) {t t' : Trial}
    (ht : t.cost = searchFlops (labelSize info.sizeDict) output.toFinset (inputs.map List.toFinset) info.path ∧
      t.size = peak (labelSize info.sizeDict) output.toFinset (inputs.map List.toFinset) info.path)
    (ht' : t'.cost = searchFlops (labelSize info.sizeDict) output.toFinset (inputs.map List.toFinset) info'.path ∧
      t'.size = peak (labelSize info.sizeDict) output.toFinset (inputs.map List.toFinset) info'.path)
    (hb : ¬ Beats bySize t' t) :
    (NoLoneLabels (inputs.map List.toFinset) output.toFinset →
      ¬ LexLess bySize info'.optCost info'.largestIntermediate info.optCost info.largestIntermediate) ∧
    (bySize = true → info.largestIntermediate ≤ info'.largestIntermediate) := by
  obtain ⟨hd, -⟩ := contractPath_chosen_args h
  obtain ⟨hd', -⟩ := contractPath_chosen_args h'
  have hdd : info'.sizeDict = info.sizeDict := by
    rw [hd] at hd'
    exact (Except.ok.inj hd').symm
  obtain ⟨-, r2, -, r4⟩ := reported hlen h hc
  obtain ⟨-, s2, -, s4⟩ := reported hlen h' hc'
  rw [hdd] at s2 s4
  rw [← ht.1] at r2
  rw [← ht'.1] at s2
  rw [← ht.2] at r4
  rw [← ht'.2] at s4
  constructor
  · intro hl
    rw [r2 hl, s2 hl, r4, s4]
    exact hb
  · intro hs
    subst hs
    rw [r4, s4]
    unfold Beats at hb
    rw [if_pos rfl] at hb
    omega

theorem not_worse_than_greedy {order : GOrder} (ho : GOrderOK order) {bySize : Bool} {cost : CostFn} {uses : List RGUse} {u : RGUse}
    (hu : ∀ v ∈ uses ++ [u], UseOK v ∧ v.cost 0 = cost) {inputs : List Str} {output : Str} {shapes : List Shape} (hn : 2 < inputs.length)
    (hlen : inputs.length = shapes.length) {d : Dict Nat Nat} (hd : sizeLoop [] inputs shapes = .ok d)
    {mem mem' : MemLimit} {ub ub' : Bool} {info info' : PathInfo} {setOrder : SetOrder} {fuel : Nat}
    (h : contractPath inputs output shapes
      (.finder (u.finder bySize order (afterUses bySize order (labelSize d) (inputs.map List.toFinset) output.toFinset uses))) mem ub = .ok info)
    {opt' : Optimize} (h' : contractPath inputs output shapes opt' mem' ub' = .ok info')
    (hp' : greedyFinder cost order setOrder fuel (inputs.map List.toFinset) output.toFinset d none = .ok info'.path) :
    CompletePath inputs.length info.path ∧ Pairwise2 info.path ∧
    (NoLoneLabels (inputs.map List.toFinset) output.toFinset →
      ¬ LexLess bySize info'.optCost info'.largestIntermediate info.optCost info.largestIntermediate) ∧
    (bySize = true → info.largestIntermediate ≤ info'.largestIntermediate) := by
  have hl : (inputs.map List.toFinset).length = inputs.length := List.length_map _
  obtain ⟨hd1, -, m, -, hp⟩ := contractPath_chosen_args h
  have e1 : info.sizeDict = d := by rw [hd] at hd1; exact (Except.ok.inj hd1).symm
  simp only [choosePath, if_neg (not_le.mpr hn), RGUse.finder] at hp
  simp only [greedyFinder, asPathFn] at hp'
  rw [e1] at hp
  -- what has been recorded
  obtain ⟨hist0, a1, a2⟩ := uses_ran (bySize := bySize) (order := order) (size := labelSize d) (ins := inputs.map List.toFinset) (out := output.toFinset) uses
  obtain ⟨new, b1, b2⟩ := run_ran a1 a2 u
  generalize hist0 ++ new = hist at b1 b2
  obtain ⟨t, ht, hq, hbest⟩ := run_best b1 hp
  obtain ⟨v, hv, r, hr⟩ := b2.all t ht
  obtain ⟨q, q1, q2, q3, q4, q5, -⟩ := trial_figures ho (by omega) (hu v hv).1 hr
  rw [hq] at q1
  cases q1
  rw [hl] at q2
  -- the first trial is that of `greedy`
  obtain ⟨g, hg⟩ : ∃ g, hist.head? = some g := by
    cases hist with
    | nil => simp at ht
    | cons g l => exact ⟨g, rfl⟩
  obtain ⟨w, hw, hw0⟩ := b2.first g hg
  obtain ⟨p, p1, p2, p3, p4, p5, p6⟩ := trial_figures ho (by omega) (hu w hw).1 hw0
  rw [hl] at p2
  rw [if_pos rfl, (hu w hw).2] at p6
  have hpath : info'.path = p := by
    simp only [greedy] at hp'
    cases hs : ssaGreedy fuel (labelSize d) cost none order (inputs.map List.toFinset) output.toFinset with
    | none => rw [hs] at hp'; cases hp'
    | some x =>
      have := ssaGreedy_fuel (le_max_left fuel w.fuel) hs
      rw [ssaGreedy_fuel (le_max_right fuel w.fuel) p6] at this
      cases this
      rw [hs] at hp'
      simp only [Option.getD_some] at hp'
      rw [p1] at hp'
      exact (Except.ok.inj hp').symm
  subst hpath
  rw [← e1] at q4 q5 p4 p5
  have hb := hbest g (List.mem_of_mem_head? hg)
  exact ⟨q2, q3, beats_reported hlen h h' q2 p2 ⟨q4, q5⟩ ⟨p4, p5⟩ hb⟩

/-- **C72, never worse than `greedy`.** Let a `RandomGreedy` instance be used as `optimize` any number of times for the same operands, with
any `max_repeats`, time-outs, executors, random choices and failing trials, where trial 0 uses the cost function `cost`. If `contract_path`
returns with it, the reported figures are not beaten by those of `greedy` with that cost function: not
by (`opt_cost`, `largest_intermediate`), in the order given by `minimize`, if no axis is summed alone; and with
`minimize='size'`, `largest_intermediate` is never larger. -/
theorem C72_not_worse_than_greedy {order : GOrder} (ho : GOrderOK order) {bySize : Bool} {cost : CostFn} {uses : List RGUse} {u : RGUse}
    (hu : ∀ v ∈ uses ++ [u], UseOK v ∧ v.cost 0 = cost) {inputs : List Str} {output : Str} {shapes : List Shape} (hn : 2 < inputs.length)
    (hlen : inputs.length = shapes.length) {d : Dict Nat Nat} (hd : sizeLoop [] inputs shapes = .ok d)
    {mem mem' : MemLimit} (hmem : Unlimited mem') {ub ub' : Bool} {info info' : PathInfo} {setOrder : SetOrder} {fuel : Nat}
    (h : contractPath inputs output shapes
      (.finder (u.finder bySize order (afterUses bySize order (labelSize d) (inputs.map List.toFinset) output.toFinset uses))) mem ub = .ok info)
    (h' : contractPath inputs output shapes (.finder (greedyFinder cost order setOrder fuel)) mem' ub' = .ok info') :
    CompletePath inputs.length info.path ∧ Pairwise2 info.path ∧
    (NoLoneLabels (inputs.map List.toFinset) output.toFinset →
      ¬ LexLess bySize info'.optCost info'.largestIntermediate info.optCost info.largestIntermediate) ∧
    (bySize = true → info.largestIntermediate ≤ info'.largestIntermediate) := by
  obtain ⟨hd2, -, m', hm', hp'⟩ := contractPath_chosen_args h'
  have e2 : info'.sizeDict = d := by rw [hd] at hd2; exact (Except.ok.inj hd2).symm
  simp only [choosePath, if_neg (not_le.mpr hn)] at hp'
  rw [e2, unlimited_arg hmem hm'] at hp'
  exact not_worse_than_greedy ho hu hn hlen hd h h' hp'

/-- **C72, the names.** The same against any name of `greedy`, for trials 0 with the cost function 'memory-removed'. -/
theorem C72_not_worse_than_named {lower : Str → Str} (hl : LowerOK lower) {t : Dict Str Builtin} (ht : importedOptions lower = .ok t) {e : Env}
    {name : Str} (hname : documentedName (lower name) = some .greedy) (ho : GOrderOK e.orders.greedy) {bySize : Bool} {uses : List RGUse} {u : RGUse}
    (hu : ∀ v ∈ uses ++ [u], UseOK v ∧ v.cost 0 = costMemoryRemoved) {inputs : List Str} {output : Str} {shapes : List Shape}
    (hn : 2 < inputs.length) (hlen : inputs.length = shapes.length) {d : Dict Nat Nat} (hd : sizeLoop [] inputs shapes = .ok d)
    {mem mem' : MemLimit} (hmem : Unlimited mem') {ub ub' : Bool} {info info' : PathInfo}
    (h : contractPath inputs output shapes (.finder (u.finder bySize e.orders.greedy
      (afterUses bySize e.orders.greedy (labelSize d) (inputs.map List.toFinset) output.toFinset uses))) mem ub = .ok info)
    (h' : contractPath inputs output shapes (resolve lower (optionFns e t) (.name name)) mem' ub' = .ok info') :
    CompletePath inputs.length info.path ∧ Pairwise2 info.path ∧
    (NoLoneLabels (inputs.map List.toFinset) output.toFinset →
      ¬ LexLess bySize info'.optCost info'.largestIntermediate info.optCost info.largestIntermediate) ∧
    (bySize = true → info.largestIntermediate ≤ info'.largestIntermediate) := by
  obtain ⟨hd2, -⟩ := contractPath_chosen_args h'
  have e2 : info'.sizeDict = d := by rw [hd] at hd2; exact (Except.ok.inj hd2).symm
  obtain ⟨m', hm', hp', -⟩ := contractPath_named hl ht hname h'
  have hp' := hp' hn
  rw [e2, unlimited_arg hmem hm'] at hp'
  exact not_worse_than_greedy (setOrder := e.orders.set) (fuel := e.fuel) ho hu hn hlen hd h h' hp'

/-- **C72, never getting worse.** If `contract_path` returns with a `RandomGreedy` instance and again, after any further uses for the same
operands, the later figures are not beaten by the earlier ones. -/
theorem C72_never_gets_worse {order : GOrder} (ho : GOrderOK order) {bySize : Bool} {uses more : List RGUse} {u u' : RGUse}
    (hu : ∀ v ∈ uses ++ [u] ++ more ++ [u'], UseOK v) {inputs : List Str} {output : Str} {shapes : List Shape} (hn : 2 < inputs.length)
    (hlen : inputs.length = shapes.length) {d : Dict Nat Nat} (hd : sizeLoop [] inputs shapes = .ok d)
    {mem mem' : MemLimit} {ub ub' : Bool} {info info' : PathInfo}
    (h' : contractPath inputs output shapes
      (.finder (u.finder bySize order (afterUses bySize order (labelSize d) (inputs.map List.toFinset) output.toFinset uses))) mem' ub' = .ok info')
    (h : contractPath inputs output shapes (.finder (u'.finder bySize order
      (afterUses bySize order (labelSize d) (inputs.map List.toFinset) output.toFinset (uses ++ [u] ++ more)))) mem ub = .ok info) :
    (NoLoneLabels (inputs.map List.toFinset) output.toFinset →
      ¬ LexLess bySize info'.optCost info'.largestIntermediate info.optCost info.largestIntermediate) ∧
    (bySize = true → info.largestIntermediate ≤ info'.largestIntermediate) := by
  have hl : (inputs.map List.toFinset).length = inputs.length := List.length_map _
  obtain ⟨hd1, -, m, -, hp⟩ := contractPath_chosen_args h
  obtain ⟨hd2, -, m', -, hp'⟩ := contractPath_chosen_args h'
  have e1 : info.sizeDict = d := by rw [hd] at hd1; exact (Except.ok.inj hd1).symm
  have e2 : info'.sizeDict = d := by rw [hd] at hd2; exact (Except.ok.inj hd2).symm
  simp only [choosePath, if_neg (not_le.mpr hn), RGUse.finder] at hp hp'
  rw [e1] at hp
  rw [e2] at hp'
  obtain ⟨hist0, a1, a2⟩ := uses_ran (bySize := bySize) (order := order) (size := labelSize d) (ins := inputs.map List.toFinset) (out := output.toFinset) uses
  obtain ⟨new, b1, b2⟩ := run_ran a1 a2 u
  obtain ⟨t', ht', hq', -⟩ := run_best b1 hp'
  have b1' : Records bySize (hist0 ++ new) (afterUses bySize order (labelSize d) (inputs.map List.toFinset) output.toFinset (uses ++ [u])) := by
    unfold afterUses at b1 ⊢
    rw [List.foldl_append]
    exact b1
  obtain ⟨new2, c1, c2⟩ := more_uses b1' b2 more
  obtain ⟨new3, d1, d2⟩ := run_ran c1 c2 u'
  obtain ⟨t, ht, hq, hbest⟩ := run_best d1 hp
  obtain ⟨v, hv, r, hr⟩ := d2.all t ht
  obtain ⟨q, q1, q2, q3, q4, q5, -⟩ := trial_figures ho (by omega) (hu v hv) hr
  rw [hq] at q1
  cases q1
  have ht2 : t' ∈ hist0 ++ new ++ new2 ++ new3 := List.mem_append_left _ (List.mem_append_left _ ht')
  obtain ⟨v', hv', r', hr'⟩ := d2.all t' ht2
  obtain ⟨q', p1, p2, p3, p4, p5, -⟩ := trial_figures ho (by omega) (hu v' hv') hr'
  rw [hq'] at p1
  cases p1
  rw [hl] at q2 p2
  rw [← e1] at q4 q5 p4 p5
  exact beats_reported hlen h h' q2 p2 ⟨q4, q5⟩ ⟨p4, p5⟩ (hbest t' ht2)

/-! ## Examples -/

/-- 'ab,bc,cd->ad' with sizes 2, 3, 3, d, where the labels are 0 to 3. -/
def exampleUse (opt : Optimize) (d : Nat) : Except PyErr PathInfo :=
  contractPath [[0, 1], [1, 2], [2, 3]] [0, 3] [[2, 3], [3, 3], [3, d]] opt .none true

/-- A use with three trials, each picking the given choice. -/
def exampleRG (choice repeats : Nat) (cost : CostFn) : RGUse :=
  { maxRepeats := repeats, preDispatch := none, late := fun _ => false, nbranch := 8, pick := fun _ _ l => min choice (l.length - 1),
    cost := fun _ => cost, fuel := 20 }

theorem exampleRG_ok (choice repeats : Nat) (cost : CostFn) : UseOK (exampleRG choice repeats cost) := by
  refine ⟨by simp [exampleRG], fun r path l hl => ?_⟩
  have := List.length_pos_iff.mpr hl
  show min choice (l.length - 1) < l.length
  omega

/-- A jitter of half a percent for the contraction of the second and third operand of the example. -/
def exampleJitter : CostFn := fun _ size12 size1 size2 k12 _ _ => (if 1 ∈ k12 then 1005 / 1000 else 1) * ((size12 : ℚ) - size1 - size2)

-- `greedy` takes the first of two pairs of equal cost; here the other one is better, and is found by trial 1 (then kept)
example : (exampleUse (.finder (greedyFinder costMemoryRemoved gAscending ascending 20)) 1).map (fun i => (i.path, i.optCost)) =
    .ok ([[0, 1], [0, 1]], 48) := by decide +kernel
example : (exampleUse (.finder ((exampleRG 1 3 costMemoryRemoved).finder false gAscending ROSt.fresh)) 1).map (fun i => (i.path, i.optCost)) =
    .ok ([[1, 2], [0, 1]], 30) := by decide +kernel
example : (exampleUse (.finder ((exampleRG 0 1 costMemoryRemoved).finder false gAscending (afterUses false gAscending
      (fun c => if c = 0 then 2 else if c = 3 then 1 else 3) [{0, 1}, {1, 2}, {2, 3}] {0, 3} [exampleRG 1 2 costMemoryRemoved]))) 1).map
      (fun i => (i.path, i.optCost)) = .ok ([[1, 2], [0, 1]], 30) := by decide +kernel

/-- **C72, counterexample.** With a random cost function such as the default 'memory-removed-jitter' trial 0 is not `greedy`: equal costs
may be perturbed either way. For 'ab,bc,cd->ad' with sizes 2, 3, 3, 4 and a jitter within one percent, all 32 repeats can
report 120 operations where `greedy` reports 84. -/
theorem C72_counterexample_jitter :
    UseOK (exampleRG 0 32 exampleJitter) ∧
    (∀ seed size12 size1 size2 k12 k1 k2, ∃ f : ℚ, 99 / 100 ≤ f ∧ f ≤ 101 / 100 ∧
      exampleJitter seed size12 size1 size2 k12 k1 k2 = f * costMemoryRemoved seed size12 size1 size2 k12 k1 k2) ∧
    (exampleUse (.finder ((exampleRG 0 32 exampleJitter).finder false gAscending ROSt.fresh)) 4).map PathInfo.optCost = .ok 120 ∧
    (exampleUse (.finder (greedyFinder costMemoryRemoved gAscending ascending 20)) 4).map PathInfo.optCost = .ok 84 := by
  refine ⟨exampleRG_ok 0 32 exampleJitter, ?_, by decide +kernel, by decide +kernel⟩
  intro seed size12 size1 size2 k12 k1 k2
  unfold exampleJitter costMemoryRemoved
  split
  · exact ⟨1005 / 1000, by norm_num, by norm_num, rfl⟩
  · exact ⟨1, by norm_num, by norm_num, rfl⟩

end OE.Props
