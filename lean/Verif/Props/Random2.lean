import Verif.Props.Random1
import Verif.Props.Contract3

/-!
# C48, C24, C25, C53: ranking of paths and the random optimizers
-/

namespace OE.Props
open OE OE.Py OE.Spec OE.Paths OE.Contract

/-! ## C48 -/

section
variable {size : Nat → Nat} {ins : List (Finset Nat)} {out : Finset Nat}

theorem ssaCostLoop_spec {store : List Tag} {nd : SearchNode} (h : Good size ins out store nd) (cost maxSize : Nat) (rest : Path)
    (hv : SsaValid nd.remaining nd.inputs.length rest) (hp : Pairwise2 rest) :
    ssaCostLoop size out nd.inputs nd.remaining cost maxSize rest =
      .ok (cost + ((ssaTrace combineTag store rest).map (gFlops size ins out)).sum,
        ((ssaTrace combineTag store rest).map (gSize size ins out)).foldl max maxSize) := by
  induction rest generalizing store nd cost maxSize with
  | nil => simp [ssaCostLoop, ssaTrace]
  | cons p ps ih =>
    obtain ⟨i, j, rfl⟩ : ∃ i j, p = [i, j] := by
      have := hp p (by simp)
      match p, this with
      | [i, j], _ => exact ⟨i, j, rfl⟩
    obtain ⟨_, hnd, hm, hrest⟩ := hv
    have hi := hm i (by simp)
    have hj := hm j (by simp)
    have hij : i ≠ j := by simpa using hnd
    have hcalc := h.calc hi hj hij
    have hc := h.child hi hj hij
    rw [pair_toFinset] at hrest
    have := ih hc (cost + gFlops size ins out (pick store [i, j]))
      (max maxSize (gSize size ins out (pick store [i, j]))) (by simpa [SearchNode.child] using hrest) (fun q hq => hp q (by simp [hq]))
    simp only [SearchNode.child] at this
    have hrem : (nd.remaining.erase i).erase j = nd.remaining \ {i, j} := by
      ext x
      simp only [Finset.mem_erase, Finset.mem_sdiff, Finset.mem_insert, Finset.mem_singleton]
      tauto
    simp only [ssaCostLoop, hcalc, hrem, ssaTrace, List.map_cons, List.sum_cons, List.foldl_cons]
    rw [← add_assoc]
    exact this

theorem foldl_max_eq (l : List Nat) (a : Nat) : l.foldl max a = max a (l.foldl max 0) := by
  induction l generalizing a with
  | nil => simp
  | cons x l ih =>
    rw [List.foldl_cons, List.foldl_cons, ih (max a x), ih (max 0 x)]
    omega

theorem le_foldl_max {l : List Nat} {x : Nat} (h : x ∈ l) : x ≤ l.foldl max 0 := by
  induction l with
  | nil => simp at h
  | cons y l ih =>
    rw [List.foldl_cons, foldl_max_eq]
    rcases List.mem_cons.mp h with rfl | h
    · omega
    · have := ih h; omega

theorem foldl_max_mem {l : List Nat} (h : l ≠ []) : l.foldl max 0 ∈ l := by
  induction l with
  | nil => exact absurd rfl h
  | cons y l ih =>
    rw [List.foldl_cons, foldl_max_eq]
    by_cases hl : l = []
    · subst hl; simp
    · have := ih hl
      rcases le_total (max 0 y) (l.foldl max 0) with h1 | h1
      · rw [max_eq_right h1]; exact List.mem_cons_of_mem _ this
      · rw [max_eq_left h1]; simp

/-- The figures by which the random optimizers rank a complete pairwise path. -/
theorem ssaPathCost_spec {path : Path} (h2 : 2 ≤ ins.length) (hc : SsaComplete ins.length path) (hp : Pairwise2 path) :
    ∃ q, ssaToLinear path = .ok q ∧ CompletePath ins.length q ∧ Pairwise2 q ∧
      ssaPathCost size path ins out = .ok (searchFlops size out ins q, (resultSizes size out ins q).foldl max 0) := by
  obtain ⟨q, e1, e2, _, e4, e5⟩ := C11_ssa_to_linear hc (ssaComplete_ne_nil hc h2)
  have hpq : Pairwise2 q := by
    intro p hpm
    have : p.length ∈ q.map List.length := List.mem_map.mpr ⟨p, hpm, rfl⟩
    rw [e4] at this
    obtain ⟨p', hp', he⟩ := List.mem_map.mp this
    rw [← he]
    exact hp p' hp'
  refine ⟨q, e1, e2, hpq, ?_⟩
  have hspec := ssaCostLoop_spec (good_root (size := size) (ins := ins) (out := out)) 0 0 path (by simpa [rootNode] using hc.1) hp
  obtain ⟨f1, f2, _⟩ := figures_complete (size := size) (out := out) e2
  rw [f1, f2, (e5 Tag combineTag (tags ins.length) (tags_length _)).1]
  simp only [rootNode, Nat.zero_add] at hspec
  exact hspec

end

/-- **C48 (partial).** For a complete pairwise ssa path, the figures by which a random optimizer ranks it are those that
`contract_path` reports for the corresponding path: the size is always `largest_intermediate`, and the flops are `opt_cost`
provided every label that occurs, occurs at least twice over the inputs and the output. (Missing: without that proviso the flops
differ, see `C48_counterexample`.) -/
theorem C48_cost_partial (size : Nat → Nat) (inputs : List Str) (output : Str) (shapes : List Shape) (opt : Optimize) (mem : MemLimit)
    (useBlas : Bool) (info : PathInfo) (hlen : inputs.length = shapes.length)
    (hsize : ∀ c s, IsLabelSize inputs shapes c s → size c = s)
    (h : contractPath inputs output shapes opt mem useBlas = .ok info) {path : Path} (h2 : 2 ≤ inputs.length)
    (hc : SsaComplete inputs.length path) (hp : Pairwise2 path) (hq : ssaToLinear path = .ok info.path) :
    ∃ flops, ssaPathCost size path (inputs.map List.toFinset) output.toFinset = .ok (flops, info.largestIntermediate) ∧
      (NoLoneLabels (inputs.map List.toFinset) output.toFinset → flops = info.optCost) := by
  have hl : (inputs.map List.toFinset).length = inputs.length := List.length_map _
  obtain ⟨q, e1, e2, e3, e4⟩ := ssaPathCost_spec (size := size) (ins := inputs.map List.toFinset) (out := output.toFinset) (path := path)
    (by rw [hl]; exact h2) (by rw [hl]; exact hc) hp
  rw [hq] at e1
  cases e1
  have hv : ValidPath inputs.length info.path := by
    have := completePath_valid e2
    rwa [hl] at this
  obtain ⟨c1, _, c3, c4, c5, _⟩ := C05_path_info size inputs output shapes opt mem useBlas info hlen hsize h hv
  refine ⟨searchFlops size output.toFinset (inputs.map List.toFinset) info.path, ?_, fun hnl => ?_⟩
  rotate_left
  · rw [c1, plan_eq_search hnl e2 e3]
  · rw [e4]
    congr 2
    have hres : resultSizes size output.toFinset (inputs.map List.toFinset) info.path = info.sizeList := by
      rw [c3]
      generalize inputs.map List.toFinset = ts
      generalize info.path = ps
      induction ps generalizing ts with
      | nil => rfl
      | cons p ps ih => simp only [resultSizes, planFigures, List.map_cons]; rw [ih]
    rw [hres]
    have hne : info.path ≠ [] := by
      intro h0
      rw [h0] at e2
      exact e2
    apply le_antisymm
    · apply c4
      apply foldl_max_mem
      rw [← hres]
      cases hpp : info.path with
      | nil => exact absurd hpp hne
      | cons p ps => simp [resultSizes]
    · exact le_foldl_max (c5 hne)

/-- **C48, counterexample.** A label that occurs in one input only ('ab,c->bc', sizes 2): the random optimizers count 8 operations,
`opt_cost` is 16. -/
theorem C48_counterexample :
    ssaPathCost (fun _ => 2) [[0, 1]] ([S "ab", S "c"].map List.toFinset) (S "bc").toFinset = .ok (8, 4) ∧
    (contractPath [S "ab", S "c"] (S "bc") [[2, 2], [2]] (.path [[0, 1]]) .none true).map (fun i => (i.optCost, i.largestIntermediate)) =
      .ok (16, 4) := by
  constructor <;> decide +kernel

-- C48: 'ab,bc,cd->ad' contracted from the right
example : ssaPathCost (fun c => c - 95) [[1, 2], [0, 3]] ([S "ab", S "bc", S "cd"].map List.toFinset) (S "ad").toFinset = .ok (180, 15) := by
  decide +kernel

/-! ## C24 -/

/-- One trial is strictly better than another. -/
def Beats (bySize : Bool) (t u : Trial) : Prop :=
  if bySize then t.size < u.size ∨ t.size = u.size ∧ t.cost < u.cost else t.cost < u.cost ∨ t.cost = u.cost ∧ t.size < u.size

/-- The attributes record the history: all costs and sizes in order; the best trial is the first one that no other beats. -/
structure Records (bySize : Bool) (hist : List Trial) (st : ROSt) : Prop where
  costs : st.costs = hist.map Trial.cost
  sizes : st.sizes = hist.map Trial.size
  none : hist = [] → st.path = none ∧ st.flops = ⊤ ∧ st.size = ⊤
  best : hist ≠ [] → ∃ pre t post, hist = pre ++ t :: post ∧ st.path = some t.path ∧ st.flops = WithTop.some t.cost ∧ st.size = WithTop.some t.size ∧
    (∀ u ∈ pre, Beats bySize t u) ∧ ∀ u ∈ hist, ¬ Beats bySize u t

theorem better_iff (bySize : Bool) (t u : Trial) : better bySize (WithTop.some t.cost) (WithTop.some t.size) (WithTop.some u.cost) (WithTop.some u.size) = true ↔ Beats bySize t u := by
  cases bySize
  · simp only [better, Beats, Bool.false_eq_true, if_false, decide_eq_true_eq]
    rw [WithTop.coe_lt_coe, WithTop.coe_lt_coe, WithTop.coe_eq_coe]
  · simp only [better, Beats, if_true, decide_eq_true_eq]
    rw [WithTop.coe_lt_coe, WithTop.coe_lt_coe, WithTop.coe_eq_coe]

theorem beats_trans {bySize : Bool} {t u v : Trial} (h1 : Beats bySize t u) (h2 : ¬ Beats bySize v u) : Beats bySize t v := by
  unfold Beats at *
  cases bySize
  · simp only [Bool.false_eq_true, if_false] at *; omega
  · simp only [if_true] at *; omega

theorem beats_irrefl {bySize : Bool} {t : Trial} : ¬ Beats bySize t t := by
  unfold Beats
  cases bySize <;> simp

theorem not_beats_of_beats {bySize : Bool} {t u v : Trial} (h1 : ¬ Beats bySize u v) (h2 : Beats bySize t v) : ¬ Beats bySize u t := by
  unfold Beats at *
  cases bySize
  · simp only [Bool.false_eq_true, if_false] at *; omega
  · simp only [if_true] at *; omega

theorem records_step {bySize : Bool} {hist : List Trial} {st : ROSt} (h : Records bySize hist st) (t : Trial) :
    Records bySize (hist ++ [t]) (assessTrial bySize st t) := by
  unfold assessTrial
  simp only
  by_cases hb : better bySize (WithTop.some t.cost) (WithTop.some t.size) st.flops st.size = true
  · rw [if_pos hb]
    refine ⟨by simp [h.costs], by simp [h.sizes], by simp, fun _ => ⟨hist, t, [], rfl, rfl, rfl, rfl, ?_, ?_⟩⟩
    · intro u hu
      obtain ⟨pre, t0, post, e1, _, e3, e4, _, e6⟩ := h.best (List.ne_nil_of_mem hu)
      rw [e3, e4, better_iff] at hb
      exact beats_trans hb (e6 u hu)
    · intro u hu
      rcases List.mem_append.mp hu with hu | hu
      · obtain ⟨pre, t0, post, e1, _, e3, e4, _, e6⟩ := h.best (List.ne_nil_of_mem hu)
        rw [e3, e4, better_iff] at hb
        exact not_beats_of_beats (e6 u hu) hb
      · rw [List.mem_singleton] at hu
        subst hu
        exact beats_irrefl
  · rw [if_neg hb]
    refine ⟨by simp [h.costs], by simp [h.sizes], by simp, fun _ => ?_⟩
    by_cases h0 : hist = []
    · obtain ⟨_, e2, e3⟩ := h.none h0
      rw [e2, e3, better_top] at hb
      exact absurd rfl hb
    · obtain ⟨pre, t0, post, e1, e2, e3, e4, e5, e6⟩ := h.best h0
      rw [e3, e4, better_iff] at hb
      refine ⟨pre, t0, post ++ [t], by rw [e1]; simp, e2, e3, e4, e5, ?_⟩
      intro u hu
      rcases List.mem_append.mp hu with hu | hu
      · exact e6 u hu
      · rw [List.mem_singleton] at hu
        subst hu
        exact hb

theorem assessLoop_records {bySize : Bool} {late : Nat → Bool} (ts : List (Except PyErr Trial)) (k : Nat) {hist : List Trial} {st : ROSt}
    (h : Records bySize hist st) :
    ∃ new : List Trial, Records bySize (hist ++ new) (assessLoop bySize late k ts st).2 ∧ new.map Except.ok <+: ts ∧
      ((∀ t ∈ ts, ∃ x, t = .ok x) → (assessLoop bySize late k ts st).1 = .ok ()) ∧
      ((assessLoop bySize late k ts st).1 = .ok () → ts ≠ [] → new ≠ []) ∧
      ((assessLoop bySize late k ts st).1 = .ok () → (∀ j, late j = false) → new.length = ts.length) := by
  induction ts generalizing k hist st with
  | nil => exact ⟨[], by simpa [assessLoop] using h, by simp, by simp [assessLoop], by simp, by simp⟩
  | cons t ts ih =>
    cases t with
    | error e =>
      refine ⟨[], by simpa [assessLoop] using h, by simp, fun hall => ?_, by simp [assessLoop], by simp [assessLoop]⟩
      obtain ⟨x, hx⟩ := hall (.error e) (by simp)
      cases hx
    | ok t =>
      simp only [assessLoop]
      by_cases hl : late (k + 1) = true
      · rw [if_pos hl]
        refine ⟨[t], records_step h t, by simp, fun _ => rfl, fun _ _ => by simp, fun _ hno => ?_⟩
        rw [hno] at hl; cases hl
      · rw [if_neg hl]
        obtain ⟨new, g1, g2, g3, g4, g5⟩ := ih (k + 1) (records_step h t)
        refine ⟨t :: new, by simpa using g1, ?_, fun hall => g3 (fun x hx => hall x (by simp [hx])), fun _ _ => by simp, ?_⟩
        · simpa using g2
        · intro hok hno
          simp [g5 hok hno]

/-- **C24, one call.** Given any history that the attributes record, a call extends it by trials that were run in this call, in
order (without executor: the trials numbered from the length of the history on; all of them if there is no time-out), the
attributes record the new history, and if no trial raises and `max_repeats` is positive, the path returned is the one of the
best trial of the whole history. -/
theorem C24_call (bySize : Bool) (maxRepeats : Nat) (preDispatch : Option Nat) (late : Nat → Bool) (trial : Nat → Except PyErr Trial)
    (hist : List Trial) (st : ROSt) (h : Records bySize hist st) :
    ∃ new : List Trial, Records bySize (hist ++ new) (roCall bySize maxRepeats preDispatch late trial st).2 ∧
      new.map Except.ok <+: callTrials maxRepeats preDispatch trial hist.length ∧
      ((∀ t ∈ callTrials maxRepeats preDispatch trial hist.length, ∃ x, t = .ok x) →
        ((∀ j, late j = false) → new.map Except.ok = callTrials maxRepeats preDispatch trial hist.length) ∧
        (callTrials maxRepeats preDispatch trial hist.length ≠ [] → ∃ pre t post, hist ++ new = pre ++ t :: post ∧
          (∀ u ∈ pre, Beats bySize t u) ∧ (∀ u ∈ hist ++ new, ¬ Beats bySize u t) ∧
          (roCall bySize maxRepeats preDispatch late trial st).1 = ssaToLinear t.path)) := by
  have hlen : st.costs.length = hist.length := by rw [h.costs, List.length_map]
  unfold roCall
  rw [hlen]
  obtain ⟨new, g1, g2, g3, g4, g5⟩ := assessLoop_records (late := late) (callTrials maxRepeats preDispatch trial hist.length) 0 h
  generalize assessLoop bySize late 0 (callTrials maxRepeats preDispatch trial hist.length) st = r at *
  obtain ⟨r, st'⟩ := r
  refine ⟨new, ?_, g2, fun hall => ⟨fun hno => ?_, fun hne => ?_⟩⟩
  · cases r with
    | error e => exact g1
    | ok _ => exact g1
  · exact g2.eq_of_length (by rw [List.length_map]; exact g5 (g3 hall) hno)
  · have hr := g3 hall
    simp only at hr
    subst hr
    have hnew := g4 rfl hne
    obtain ⟨pre, t, post, e1, e2, _, _, e5, e6⟩ := g1.best (by simp [hnew])
    refine ⟨pre, t, post, e1, e5, e6, ?_⟩
    simp only
    simp only at e2
    rw [e2]

/-- The arguments of a call that matter. -/
structure ROCall where
  maxRepeats : Nat
  preDispatch : Option Nat
  late : Nat → Bool
  trial : Nat → Except PyErr Trial

/-- A sequence of calls on one instance. -/
def roCalls (bySize : Bool) (calls : List ROCall) (st : ROSt) : ROSt :=
  calls.foldl (fun st c => (roCall bySize c.maxRepeats c.preDispatch c.late c.trial st).2) st

/-- **C24.** After any sequence of calls on a new instance (with trials that may raise and calls that may run out of time), the
attributes record exactly the trials assessed. -/
theorem C24_history (bySize : Bool) (calls : List ROCall) : ∃ hist, Records bySize hist (roCalls bySize calls ROSt.fresh) := by
  have : ∀ (st : ROSt) (hist : List Trial), Records bySize hist st → ∃ hist, Records bySize hist (roCalls bySize calls st) := by
    induction calls with
    | nil => exact fun st hist h => ⟨hist, h⟩
    | cons c cs ih =>
      intro st hist h
      obtain ⟨new, g, _⟩ := C24_call bySize c.maxRepeats c.preDispatch c.late c.trial hist st h
      exact ih _ _ g
  exact this ROSt.fresh [] ⟨rfl, rfl, fun _ => ⟨rfl, rfl, rfl⟩, fun h => absurd rfl h⟩

-- C24: two calls, the second interrupted by a time-out after one trial
example : let t : Nat → Except PyErr Trial := fun r => .ok { path := [[0, 1]], cost := (r * 5) % 7, size := r }
    let st := roCalls false [⟨3, none, fun _ => false, t⟩, ⟨3, none, fun k => k == 1, t⟩] ROSt.fresh
    st.costs = [0, 5, 3, 1] ∧ st.flops = 0 ∧ st.path = some [[0, 1]] := by decide +kernel

/-! ## C25 -/

/-- Which run numbers are submitted when `k` futures are outstanding. -/
def submitted (p : Nat) : List Nat → Nat → List Nat
  | [], _ => []
  | r :: rs, k => if k < p then r :: submitted p rs (k + 1) else submitted p rs (k - 1)

theorem genParallel_eq {τ : Type} {p : Nat} (hp : 0 < p) (f : Nat → Except PyErr τ) (rs : List Nat) (q : List (Except PyErr τ)) (hq : q.length ≤ p) :
    genParallel p f rs q = q ++ (submitted p rs q.length).map f := by
  induction rs generalizing q with
  | nil => simp [genParallel, submitted]
  | cons r rs ih =>
    rw [genParallel.eq_def, submitted]
    simp only
    by_cases h : q.length < p
    · rw [if_pos h, if_pos h, ih _ (by simp; omega)]
      simp
    · rw [if_neg h, if_neg h]
      match q, hq, h with
      | [], _, h => simp at h; omega
      | x :: q, hq, h =>
        simp only [List.length_cons] at hq ⊢
        rw [ih _ (by omega)]
        simp

theorem submitted_fill {p : Nat} (s m k : Nat) (h : k + m ≤ p) : submitted p (List.range' s m) k = List.range' s m := by
  induction m generalizing s k with
  | zero => simp [submitted]
  | succ m ih => rw [List.range'_succ, submitted, if_pos (by omega), ih _ _ (by omega)]

theorem submitted_full {p : Nat} (hp : 0 < p) (s m : Nat) :
    submitted p (List.range' s m) p = (List.range' s m).filter (fun r => (r - s) % 2 = 1) ∧
    submitted p (List.range' s m) (p - 1) = (List.range' s m).filter (fun r => (r - s) % 2 = 0) := by
  induction m generalizing s with
  | zero => simp [submitted]
  | succ m ih =>
    obtain ⟨h1, h2⟩ := ih (s + 1)
    have hfil : ∀ b : Nat, b < 2 → (List.range' (s + 1) m).filter (fun r => (r - s) % 2 = b) =
        (List.range' (s + 1) m).filter (fun r => (r - (s + 1)) % 2 = 1 - b) := by
      intro b hb
      apply List.filter_congr
      intro r hr
      rw [List.mem_range'_1] at hr
      rw [decide_eq_decide]
      omega
    rw [List.range'_succ, submitted, submitted, if_neg (lt_irrefl _), if_pos (by omega), Nat.sub_add_cancel hp, h1, h2]
    constructor
    · rw [List.filter_cons_of_neg (by simp), hfil 1 (by omega)]
    · rw [List.filter_cons_of_pos (by simp), hfil 0 (by omega)]

theorem submitted_all {p : Nat} (hp : 0 < p) (s m : Nat) :
    submitted p (List.range' s m) 0 = (List.range' s m).filter (fun r => decide (r - s < p ∨ (r - s - p) % 2 = 1)) := by
  by_cases hm : m ≤ p
  · rw [submitted_fill s m 0 (by omega)]
    symm
    apply List.filter_eq_self.mpr
    intro r hr
    rw [List.mem_range'_1] at hr
    rw [decide_eq_true_eq]
    omega
  · have key : ∀ j k, k + j = p → submitted p (List.range' (s + k) (m - k)) k =
        (List.range' (s + k) (m - k)).filter (fun r => decide (r - s < p ∨ (r - s - p) % 2 = 1)) := by
      intro j
      induction j with
      | zero =>
        intro k hk
        rw [Nat.add_zero] at hk
        subst hk
        rw [(submitted_full hp _ _).1]
        apply List.filter_congr
        intro r hr
        rw [List.mem_range'_1] at hr
        rw [decide_eq_decide]
        omega
      | succ j ih =>
        intro k hk
        obtain ⟨m', hm'⟩ : ∃ m', m - k = m' + 1 := ⟨m - k - 1, by omega⟩
        rw [hm', List.range'_succ, submitted, if_pos (by omega), List.filter_cons_of_pos (by rw [decide_eq_true_eq]; omega)]
        have := ih (k + 1) (by omega)
        have e : m - (k + 1) = m' := by omega
        rw [e, ← Nat.add_assoc] at this
        rw [this]
    have := key p 0 (by omega)
    simpa using this

/-- **C25 (partial).** With an executor and `max_repeats ≤ pre_dispatch`, a call assesses the same trials in the same order as
without. (Missing: the claim is false for `max_repeats > pre_dispatch ≥ 1`, see `C25_counterexample`.) -/
theorem C25_parallel_partial {τ : Type} (trial : Nat → Except PyErr τ) (start maxRepeats preDispatch : Nat) (h : maxRepeats ≤ preDispatch) :
    genParallel preDispatch trial (List.range' start maxRepeats) [] = (List.range' start maxRepeats).map trial := by
  by_cases hp : 0 < preDispatch
  · rw [genParallel_eq hp trial _ [] (by simp)]
    simp only [List.length_nil, List.nil_append]
    rw [submitted_fill _ _ 0 (by omega)]
  · have : maxRepeats = 0 := by omega
    subst this
    rfl

/-- **C25, what happens otherwise.** For any `pre_dispatch ≥ 1`: the trials assessed are the first `pre_dispatch` ones, and of the
rest every other one; the first of the rest is skipped. So whenever `max_repeats` exceeds `pre_dispatch`, fewer trials are run
than asked for. -/
theorem C25_counterexample {τ : Type} (trial : Nat → Except PyErr τ) (start maxRepeats preDispatch : Nat) (hp : 0 < preDispatch) :
    genParallel preDispatch trial (List.range' start maxRepeats) [] =
      ((List.range' start maxRepeats).filter (fun r => decide (r - start < preDispatch ∨ (r - start - preDispatch) % 2 = 1))).map trial ∧
    (preDispatch < maxRepeats → (genParallel preDispatch trial (List.range' start maxRepeats) []).length < maxRepeats) := by
  have h1 : genParallel preDispatch trial (List.range' start maxRepeats) [] =
      ((List.range' start maxRepeats).filter (fun r => decide (r - start < preDispatch ∨ (r - start - preDispatch) % 2 = 1))).map trial := by
    rw [genParallel_eq hp trial _ [] (by simp)]
    simp only [List.length_nil, List.nil_append]
    rw [submitted_all hp]
  refine ⟨h1, fun hm => ?_⟩
  rw [h1, List.length_map]
  have := List.length_filter_lt_length_iff_exists (p := fun r => decide (r - start < preDispatch ∨ (r - start - preDispatch) % 2 = 1))
    (l := List.range' start maxRepeats)
  rw [List.length_range'] at this
  rw [this]
  refine ⟨start + preDispatch, by rw [List.mem_range'_1]; omega, ?_⟩
  rw [decide_eq_true_eq]
  omega

-- C25: 6 trials with pre_dispatch 2: trials 2 and 4 are never run
example : genParallel 2 (fun r => (.ok r : Except PyErr Nat)) (List.range' 0 6) [] = [.ok 0, .ok 1, .ok 3, .ok 5] := by decide

/-! ## C53 -/

/-- A trial of `RandomGreedy` on two or more inputs succeeds with a complete pairwise path. -/
theorem trialGreedy_ok (size : Nat → Nat) (cost : Nat → CostFn) {nbranch : Nat} (hb : 0 < nbranch) {pick : Nat → Path → List ℚ → Nat}
    (hpick : ∀ r, PickOK (pick r)) {order : GOrder} (ho : GOrderOK order) {inputs : List (Finset Nat)} (h2 : 2 ≤ inputs.length)
    (output : Finset Nat) (r : Nat) :
    ∃ F t, (∀ fuel, F ≤ fuel → trialGreedy fuel size cost (randomGreedyChooser nbranch pick) order inputs output r = some (.ok t)) ∧
      SsaComplete inputs.length t.path := by
  obtain ⟨F, path, hF, hc, hp⟩ := ssaGreedy_complete size (cost r) (chooser := if r = 0 then none else randomGreedyChooser nbranch pick r)
    (by
      intro c hc
      split at hc
      · cases hc
      · unfold randomGreedyChooser at hc
        split at hc
        · cases hc
        · cases hc; exact thermal_ok nbranch hb (hpick r)) ho (inputs := inputs) (by rintro rfl; simp at h2) output
  obtain ⟨q, _, _, _, e4⟩ := ssaPathCost_spec (size := size) (out := output) h2 hc (hp h2)
  refine ⟨F, { path, cost := searchFlops size output inputs q, size := (resultSizes size output inputs q).foldl max 0 }, fun fuel hf => ?_, ?_⟩
  · unfold trialGreedy
    rw [hF fuel hf]
    simp only
    rw [e4]
  · exact hc

/-- **C53.** `RandomGreedy` on two or more inputs, with `max_repeats ≥ 1` and `nbranch ≥ 1`: whatever is drawn and whenever
time runs out, a call returns a complete path, provided the paths recorded by earlier calls are complete. -/
theorem C53_random_greedy_complete (size : Nat → Nat) (cost : Nat → CostFn) {nbranch : Nat} (hb : 0 < nbranch)
    {pick : Nat → Path → List ℚ → Nat} (hpick : ∀ r, PickOK (pick r)) {order : GOrder} (ho : GOrderOK order) {inputs : List (Finset Nat)}
    (h2 : 2 ≤ inputs.length) (output : Finset Nat) (bySize : Bool) (maxRepeats : Nat) (hm : 0 < maxRepeats) (late : Nat → Bool)
    (hist : List Trial) (st : ROSt) (h : Records bySize hist st) (hold : ∀ t ∈ hist, SsaComplete inputs.length t.path) :
    ∃ F trial path new, (∀ fuel, F ≤ fuel → ∀ r ∈ List.range' hist.length maxRepeats,
        trialGreedy fuel size cost (randomGreedyChooser nbranch pick) order inputs output r = some (trial r)) ∧
      (roCall bySize maxRepeats none late trial st).1 = .ok path ∧ CompletePath inputs.length path ∧
      Records bySize (hist ++ new) (roCall bySize maxRepeats none late trial st).2 ∧ ∀ t ∈ hist ++ new, SsaComplete inputs.length t.path := by
  have hall := fun r => trialGreedy_ok size cost hb hpick ho h2 output r
  choose F t hF ht using hall
  obtain ⟨new, g1, g2, g3⟩ := C24_call bySize maxRepeats none late (fun r => .ok (t r)) hist st h
  have hct : callTrials maxRepeats none (fun r => .ok (t r)) hist.length = (List.range' hist.length maxRepeats).map (fun r => Except.ok (t r)) := rfl
  obtain ⟨_, g5⟩ := g3 (by
    intro x hx
    rw [hct] at hx
    obtain ⟨r, _, rfl⟩ := List.mem_map.mp hx
    exact ⟨_, rfl⟩)
  obtain ⟨pre, u, post, e1, _, _, e4⟩ := g5 (by
    rw [hct]
    intro h0
    have := congrArg List.length h0
    simp at this
    omega)
  have hnew : ∀ x ∈ hist ++ new, SsaComplete inputs.length x.path := by
    intro x hx
    rcases List.mem_append.mp hx with hx | hx
    · exact hold x hx
    · have hx' : Except.ok x ∈ callTrials maxRepeats none (fun r => Except.ok (t r)) hist.length :=
        g2.subset (List.mem_map.mpr ⟨x, hx, rfl⟩)
      rw [hct] at hx'
      obtain ⟨r, _, hr⟩ := List.mem_map.mp hx'
      cases hr
      exact ht r
  obtain ⟨q, q1, _, q3⟩ := linear_of_ssa (hnew u (by rw [e1]; simp))
  refine ⟨((List.range' hist.length maxRepeats).map F).foldl max 0, fun r => .ok (t r), q, new, ?_, ?_, q3 h2, g1, hnew⟩
  · intro fuel hf r hr
    apply hF
    exact le_trans (le_foldl_max (List.mem_map.mpr ⟨r, hr, rfl⟩)) hf
  · rw [e4, q1]

/-- A single input makes every trial raise: the step `(0,)` is not a pair. -/
theorem C53_single_input (fuel : Nat) (size : Nat → Nat) (cost : Nat → CostFn) (chooser : Nat → Option Chooser) (order : GOrder)
    (k output : Finset Nat) (r : Nat) : trialGreedy fuel size cost chooser order [k] output r = some (.error .value) := rfl

end OE.Props
