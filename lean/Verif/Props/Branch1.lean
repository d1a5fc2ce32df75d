import Verif.Model.Branch
import Verif.Props.Optimal2
import Verif.Lemmas.DictLemmas

/-!
# C15, C20, C27: branch and bound
-/

namespace OE.Props
open OE OE.Py OE.Spec OE.Paths

section
variable {cfg : BBCfg} {size : Nat → Nat} {output : Finset Nat} {mem : Option Nat} {order : SetOrder} {n : Nat}

/-- What the instance knows: a recorded path is complete; without one, nothing has been recorded, and nothing about progress
from depth `d` on. -/
structure BBInv (n d : Nat) (st : BBSt) : Prop where
  complete : ∀ p, st.path = some p → SsaComplete n p
  fresh : st.path = none → st.flops = ⊤ ∧ st.size = ⊤ ∧ ∀ k, d ≤ k → st.progress.get? k = none

theorem BBInv.mono {d d' : Nat} {st : BBSt} (h : BBInv n d st) (hd : d ≤ d') : BBInv n d' st :=
  ⟨h.complete, fun e => ⟨(h.fresh e).1, (h.fresh e).2.1, fun k hk => (h.fresh e).2.2 k (by omega)⟩⟩

theorem BBInv.of_some {d d' : Nat} {st : BBSt} (h : BBInv n d st) (hp : st.path ≠ none) : BBInv n d' st :=
  ⟨h.complete, fun e => absurd e hp⟩

theorem better_top (b : Bool) (f s : Nat) : better b f s ⊤ ⊤ = true := by
  cases b <;> simp [better]

theorem progressStep_get {cutoff : ℚ} {progress p' : Dict Nat Nat} {d f k : Nat} (h : progressStep cutoff progress d f = some p')
    (hk : k ≠ d) : p'.get? k = progress.get? k := by
  unfold progressStep at h
  split at h
  · cases h; exact Dict.get?_set_ne hk
  · split at h
    · cases h; exact Dict.get?_set_ne hk
    · split at h
      · cases h
      · cases h; rfl

theorem assessFit_inv (ho : OrderOK order) {nd : SearchNode} (hnd : GoodPath n nd) (hcard : nd.remaining ≠ ∅) {d : Nat} {st : BBSt}
    (h : BBInv n d st) (c : Cand) :
    BBInv n d (assessFit size output mem order nd st c).2 ∧
    (st.path ≠ none → (assessFit size output mem order nd st c).2.path ≠ none) ∧
    (∀ c', (assessFit size output mem order nd st c).1 = some c' → c' = c) ∧
    ((assessFit size output mem order nd st c).1 = none → (assessFit size output mem order nd st c).2.path ≠ none) := by
  unfold assessFit
  by_cases hm : mem.any (fun m => decide (Paths.sizeOf size c.k12 > m)) = true
  · rw [if_pos hm]
    simp only
    split
    · refine ⟨⟨?_, by simp⟩, by simp, by simp, by simp⟩
      intro p hp
      cases hp
      exact hnd.complete_all hcard (ho _ _).1 (ho _ _).2
    · rename_i hlt
      refine ⟨h, fun e => e, by simp, fun _ e => ?_⟩
      exact hlt (by rw [(h.fresh e).1]; exact WithTop.coe_lt_top _)
  · rw [if_neg hm]
    exact ⟨h, fun e => e, by rintro c' ⟨⟩; rfl, by simp⟩

theorem assess_inv (ho : OrderOK order) {nd : SearchNode} {sz : Nat} (hnd : GoodPath n nd) (hcard : nd.remaining ≠ ∅) {st : BBSt}
    (h : BBInv n (nd.inputs.length + 1) st) (ij : Nat × Nat) :
    BBInv n (nd.inputs.length + 1) (assess cfg size output mem order nd sz st ij).2 ∧
    (st.path ≠ none → (assess cfg size output mem order nd sz st ij).2.path ≠ none) ∧
    (∀ c, (assess cfg size output mem order nd sz st ij).1 = some c → c.i = ij.1 ∧ c.j = ij.2) ∧
    (BBInv n nd.inputs.length st → (assess cfg size output mem order nd sz st ij).1 = none →
      (assess cfg size output mem order nd sz st ij).2.path ≠ none) := by
  unfold assess
  simp only
  set r := cached st.cache (nd.inputs.getD ij.1 ∅, nd.inputs.getD ij.2 ∅) (calcK12 size nd.inputs output nd.remaining ij.1 ij.2) with hr
  have hc : BBInv n (nd.inputs.length + 1) { st with cache := r.2 } := ⟨h.complete, h.fresh⟩
  by_cases hb : better cfg.bySize ((nd.flops + r.1.2 : Nat) : WithTop Nat) ((max sz (Paths.sizeOf size r.1.1) : Nat) : WithTop Nat) st.flops st.size = true
  · rw [if_pos hb]
    cases hp : progressStep cfg.cutoff st.progress nd.inputs.length (nd.flops + r.1.2) with
    | none =>
      simp only
      refine ⟨hc, fun e => e, by simp, fun h0 _ e => ?_⟩
      have := (h0.fresh e).2.2 nd.inputs.length (le_refl _)
      unfold progressStep at hp
      rw [this] at hp
      simp at hp
    | some p' =>
      simp only
      have hinv : BBInv n (nd.inputs.length + 1) { st with cache := r.2, progress := p' } := by
        refine ⟨h.complete, fun e => ⟨(h.fresh e).1, (h.fresh e).2.1, fun k hk => ?_⟩⟩
        simp only
        rw [progressStep_get hp (by omega)]
        exact (h.fresh e).2.2 k hk
      obtain ⟨a1, a2, a3, a4⟩ := assessFit_inv (size := size) (output := output) (mem := mem) ho hnd hcard hinv
        { cost := cfg.cost (nd.path ++ [[ij.1, ij.2]]) (Paths.sizeOf size r.1.1) (Paths.sizeOf size (nd.inputs.getD ij.1 ∅)) (Paths.sizeOf size (nd.inputs.getD ij.2 ∅)) r.1.1 (nd.inputs.getD ij.1 ∅) (nd.inputs.getD ij.2 ∅),
          flops12 := r.1.2, newFlops := nd.flops + r.1.2, newSize := max sz (Paths.sizeOf size r.1.1), i := ij.1, j := ij.2, k12 := r.1.1 }
      refine ⟨a1, a2, ?_, fun _ => a4⟩
      intro c hc'
      have := a3 c hc'
      subst this
      exact ⟨rfl, rfl⟩
  · rw [if_neg hb]
    refine ⟨hc, fun e => e, by simp, fun _ _ e => ?_⟩
    apply hb
    rw [(h.fresh e).1, (h.fresh e).2.1]
    exact better_top _ _ _

/-- A loop over pairs. -/
theorem assess_fold (ho : OrderOK order) {nd : SearchNode} {sz : Nat} (hnd : GoodPath n nd) (hcard : nd.remaining ≠ ∅)
    (l : List (Nat × Nat)) (hl : ∀ x ∈ l, x.1 ∈ nd.remaining ∧ x.2 ∈ nd.remaining ∧ x.1 ≠ x.2) (acc : List Cand × BBSt)
    (hacc : ∀ c ∈ acc.1, c.i ∈ nd.remaining ∧ c.j ∈ nd.remaining ∧ c.i ≠ c.j) (h : BBInv n (nd.inputs.length + 1) acc.2) :
    BBInv n (nd.inputs.length + 1) (l.foldl (assessStep cfg size output mem order nd sz) acc).2 ∧
    (∀ c ∈ (l.foldl (assessStep cfg size output mem order nd sz) acc).1, c.i ∈ nd.remaining ∧ c.j ∈ nd.remaining ∧ c.i ≠ c.j) ∧
    ((acc.1 ≠ [] ∨ acc.2.path ≠ none) → (l.foldl (assessStep cfg size output mem order nd sz) acc).1 ≠ [] ∨
      (l.foldl (assessStep cfg size output mem order nd sz) acc).2.path ≠ none) ∧
    (l ≠ [] → BBInv n nd.inputs.length acc.2 → (l.foldl (assessStep cfg size output mem order nd sz) acc).1 ≠ [] ∨
      (l.foldl (assessStep cfg size output mem order nd sz) acc).2.path ≠ none) := by
  induction l generalizing acc with
  | nil => exact ⟨h, hacc, fun e => e, fun e => absurd rfl e⟩
  | cons x xs ih =>
    obtain ⟨a1, a2, a3, a4⟩ := assess_inv (cfg := cfg) (size := size) (output := output) (mem := mem) (sz := sz) ho hnd hcard h x
    rw [List.foldl_cons]
    have hacc' : ∀ c ∈ (assessStep cfg size output mem order nd sz acc x).1, c.i ∈ nd.remaining ∧ c.j ∈ nd.remaining ∧ c.i ≠ c.j := by
      intro c hc
      simp only [assessStep, List.mem_append, Option.mem_toList] at hc
      rcases hc with hc | hc
      · exact hacc c hc
      · obtain ⟨e1, e2⟩ := a3 c hc
        rw [e1, e2]; exact hl x (by simp)
    obtain ⟨b1, b2, b3, b4⟩ := ih (fun y hy => hl y (by simp [hy])) (assessStep cfg size output mem order nd sz acc x) hacc' a1
    refine ⟨b1, b2, ?_, ?_⟩
    · intro e
      apply b3
      rcases e with e | e
      · left; simp only [assessStep]; intro h0; exact e (List.append_eq_nil_iff.mp h0).1
      · right; exact a2 e
    · intro _ h0
      apply b3
      by_cases hnone : (assess cfg size output mem order nd sz acc.2 x).1 = none
      · right; exact a4 h0 hnone
      · left
        simp only [assessStep]
        intro h1
        have := (List.append_eq_nil_iff.mp h1).2
        cases hx : (assess cfg size output mem order nd sz acc.2 x).1 with
        | none => exact hnone hx
        | some c => rw [hx] at this; simp at this

theorem pairs_ok (ho : OrderOK order) (path : Path) (s : Finset Nat) :
    ∀ x ∈ (combinations2 (order path s)).map orient, x.1 ∈ s ∧ x.2 ∈ s ∧ x.1 ≠ x.2 := by
  intro x hx
  obtain ⟨y, hy, rfl⟩ := List.mem_map.mp hx
  exact pair_of_order ho hy

theorem candidates_inv (ho : OrderOK order) {nd : SearchNode} {sz : Nat} (hnd : GoodPath n nd) (hcard : 1 < nd.remaining.card) {st : BBSt}
    (h : BBInv n nd.inputs.length st) :
    BBInv n (nd.inputs.length + 1) (candidates cfg size output mem order nd sz st).2 ∧
    (∀ c ∈ (candidates cfg size output mem order nd sz st).1, c.i ∈ nd.remaining ∧ c.j ∈ nd.remaining ∧ c.i ≠ c.j) ∧
    ((candidates cfg size output mem order nd sz st).1 ≠ [] ∨ (candidates cfg size output mem order nd sz st).2.path ≠ none) := by
  have hne : nd.remaining ≠ ∅ := by intro h0; rw [h0] at hcard; simp at hcard
  have hpairs := pairs_ok ho nd.path nd.remaining
  have hpn : (combinations2 (order nd.path nd.remaining)).map orient ≠ [] := by
    obtain ⟨a, ha, b, hb, hab⟩ := Finset.one_lt_card.mp hcard
    intro h0
    rcases combinations2_complete (((ho nd.path nd.remaining).2 a).mpr ha) (((ho nd.path nd.remaining).2 b).mpr hb) hab with h | h <;>
    · rw [List.map_eq_nil_iff.mp h0] at h; simp at h
  unfold candidates
  simp only
  generalize (combinations2 (order nd.path nd.remaining)).map orient = pairs at hpairs hpn ⊢
  set l1 := pairs.filter (fun ij => ¬ Disjoint (nd.inputs.getD ij.1 ∅) (nd.inputs.getD ij.2 ∅)) with hl1
  have hl1p : ∀ x ∈ l1, x.1 ∈ nd.remaining ∧ x.2 ∈ nd.remaining ∧ x.1 ≠ x.2 := fun x hx => hpairs x (List.mem_filter.mp hx).1
  obtain ⟨a1, a2, a3, a4⟩ := assess_fold (cfg := cfg) (size := size) (output := output) (mem := mem) (sz := sz) ho hnd hne l1 hl1p
    ([], st) (by simp) (h.mono (by omega))
  split
  · rename_i hnil
    obtain ⟨b1, b2, b3, b4⟩ := assess_fold (cfg := cfg) (size := size) (output := output) (mem := mem) (sz := sz) ho hnd hne pairs hpairs
      (l1.foldl (assessStep cfg size output mem order nd sz) ([], st)) a2 a1
    refine ⟨b1, b2, ?_⟩
    by_cases h1 : l1 = []
    · apply b4 hpn
      rw [h1]
      exact h
    · exact b3 (a4 h1 h)
  · rename_i hnn
    exact ⟨a1, a2, Or.inl hnn⟩

theorem mem_visited {nbranch : Option Nat} {l : List Cand} {c : Cand} (h : c ∈ visited nbranch l) : c ∈ l := by
  unfold visited at h
  cases nbranch with
  | none => exact (List.perm_insertionSort _ l).mem_iff.mp h
  | some k => exact (List.perm_insertionSort _ l).mem_iff.mp (List.mem_of_mem_take h)

theorem visited_ne_nil {nbranch : Option Nat} {l : List Cand} (hb : nbranch ≠ some 0) (h : l ≠ []) : visited nbranch l ≠ [] := by
  have hs : l.insertionSort (fun a b => a.le b = true) ≠ [] := by
    intro h0
    apply h
    have := (List.perm_insertionSort (fun a b : Cand => a.le b = true) l).length_eq
    rw [h0] at this
    exact List.length_eq_zero_iff.mp this.symm
  unfold visited
  cases nbranch with
  | none => exact hs
  | some k =>
    simp only
    intro h0
    rw [List.take_eq_nil_iff] at h0
    rcases h0 with h0 | h0
    · subst h0; exact hb rfl
    · exact hs h0

theorem branchIter_complete (ho : OrderOK order) (hb : cfg.nbranch ≠ some 0) (fuel : Nat) (nd : SearchNode) (hnd : GoodPath n nd)
    (hcard : 0 < nd.remaining.card) (hfuel : nd.remaining.card ≤ fuel + 1) (sz : Nat) (st : BBSt) (hst : BBInv n nd.inputs.length st) :
    ∃ st', branchIter cfg size output mem order fuel nd sz st = some st' ∧ ∃ p, st'.path = some p ∧ SsaComplete n p := by
  induction fuel generalizing nd sz st with
  | zero =>
    have h1 : nd.remaining.card = 1 := by omega
    rw [branchIter, if_pos h1]
    exact ⟨_, rfl, _, rfl, hnd.complete h1⟩
  | succ fuel ih =>
    rw [branchIter]
    by_cases h1 : nd.remaining.card = 1
    · rw [if_pos h1]
      exact ⟨_, rfl, _, rfl, hnd.complete h1⟩
    · rw [if_neg h1]
      simp only
      obtain ⟨a1, a2, a3⟩ := candidates_inv (cfg := cfg) (size := size) (output := output) (mem := mem) (sz := sz) ho hnd (by omega) hst
      generalize candidates cfg size output mem order nd sz st = r at a1 a2 a3 ⊢
      obtain ⟨cands, s⟩ := r
      simp only at a1 a2 a3 ⊢
      have hv : ∀ c ∈ visited cfg.nbranch cands, c.i ∈ nd.remaining ∧ c.j ∈ nd.remaining ∧ c.i ≠ c.j := fun c hc => a2 c (mem_visited hc)
      have hne : visited cfg.nbranch cands ≠ [] ∨ s.path ≠ none := by
        rcases a3 with a3 | a3
        · exact Or.inl (visited_ne_nil hb a3)
        · exact Or.inr a3
      generalize visited cfg.nbranch cands = l at hv hne
      clear a2 a3
      induction l generalizing s with
      | nil =>
        rcases hne with hne | hne
        · exact absurd rfl hne
        · refine ⟨s, rfl, ?_⟩
          cases hp : s.path with
          | none => exact absurd hp hne
          | some p => exact ⟨p, rfl, a1.complete p hp⟩
      | cons c cs ihl =>
        obtain ⟨hi, hj, hij⟩ := hv c (by simp)
        have hcc := child_remaining_card hnd hi hj hij c.k12 c.newFlops
        obtain ⟨s', e1, p, e2, e3⟩ := ih _ (goodPath_child hnd hi hj hij c.k12 c.newFlops) (by omega) (by omega) c.newSize s
          (by simpa [SearchNode.child] using a1)
        rw [List.foldlM_cons, e1]
        refine ihl s' ⟨?_, fun h => absurd h (by rw [e2]; simp)⟩ (fun y hy => hv y (by simp [hy])) (Or.inr (by rw [e2]; simp))
        intro p' hp'
        rw [e2] at hp'
        cases hp'
        exact e3

/-- The states an instance can be in between calls for `n` inputs. -/
def BBReady (n : Nat) (st : BBSt) : Prop := BBInv n 0 st

theorem fresh_ready (n : Nat) : BBReady n BBSt.fresh := ⟨by simp [BBSt.fresh], fun _ => ⟨rfl, rfl, fun k _ => rfl⟩⟩

/-- One call. -/
theorem branchCall_complete (cfg : BBCfg) (size : Nat → Nat) (mem : Option Nat) (ho : OrderOK order) (hb : cfg.nbranch ≠ some 0)
    {inputs : List (Finset Nat)} (output : Finset Nat) (hne : inputs ≠ []) {fuel : Nat} (hfuel : inputs.length ≤ fuel) {st : BBSt}
    (hst : BBReady inputs.length st) :
    ∃ path st' p, branchCall cfg fuel size mem order inputs output st = some (.ok path, st') ∧ BBReady inputs.length st' ∧
      st'.path = some p ∧ SsaComplete inputs.length p ∧ ssaToLinear p = .ok path ∧
      (inputs.length = 1 → path = []) ∧ (2 ≤ inputs.length → CompletePath inputs.length path) := by
  have hn : 0 < inputs.length := List.length_pos_iff.mpr hne
  obtain ⟨st', e1, p, e2, e3⟩ := branchIter_complete (cfg := cfg) (size := size) (output := output) (mem := mem) ho hb fuel (rootNode inputs)
    (goodPath_root inputs) (by simpa [rootNode] using hn) (by simp [rootNode]; omega) 0 { st with cache := [] }
    (BBInv.mono (d := 0) ⟨hst.complete, hst.fresh⟩ (by omega))
  obtain ⟨q, g1, g2, g3⟩ := linear_of_ssa e3
  refine ⟨q, st', p, ?_, ⟨?_, fun h => absurd h (by rw [e2]; simp)⟩, e2, e3, g1, ?_, g3⟩
  · unfold branchCall; rw [e1]; simp only [Option.map_some, e2, g1]
  · intro p' hp'
    rw [e2] at hp'; cases hp'; exact e3
  · intro hone
    apply g2 hone
    rw [branchIter.eq_def] at e1
    simp only at e1
    rw [if_pos (by simpa [rootNode] using hone)] at e1
    cases e1
    cases e2
    rfl

/-- A history of calls of one instance: the memory limits and set orders of the calls. -/
def branchCalls (cfg : BBCfg) (fuel : Nat) (size : Nat → Nat) (inputs : List (Finset Nat)) (output : Finset Nat) :
    List (Option Nat × SetOrder) → BBSt → Option (List (Except PyErr Path))
  | [], _ => some []
  | (mem, order) :: rest, st => do
    let r ← branchCall cfg fuel size mem order inputs output st
    let rs ← branchCalls cfg fuel size inputs output rest r.2
    pure (r.1 :: rs)

/-- **C15.** Any number of calls of a `BranchBound` instance with any options (`nbranch ≥ 1` or `None`, any cutoff factor,
criterion and cost function), each with any memory limit and set iteration order, all terminate without raising and return
complete paths, for any non-empty list of inputs. -/
theorem C15_branch_complete (cfg : BBCfg) (hb : cfg.nbranch ≠ some 0) (size : Nat → Nat) (output : Finset Nat)
    {inputs : List (Finset Nat)} (hne : inputs ≠ []) {fuel : Nat} (hfuel : inputs.length ≤ fuel)
    (calls : List (Option Nat × SetOrder)) (ho : ∀ c ∈ calls, OrderOK c.2) :
    ∃ rs, branchCalls cfg fuel size inputs output calls BBSt.fresh = some rs ∧ rs.length = calls.length ∧
      ∀ r ∈ rs, ∃ path, r = .ok path ∧ (inputs.length = 1 → path = []) ∧ (2 ≤ inputs.length → CompletePath inputs.length path) := by
  have : ∀ st, BBReady inputs.length st → ∃ rs, branchCalls cfg fuel size inputs output calls st = some rs ∧ rs.length = calls.length ∧
      ∀ r ∈ rs, ∃ path, r = .ok path ∧ (inputs.length = 1 → path = []) ∧ (2 ≤ inputs.length → CompletePath inputs.length path) := by
    induction calls with
    | nil => intro st _; exact ⟨[], rfl, rfl, by simp⟩
    | cons c cs ih =>
      intro st hst
      obtain ⟨path, st', p, h1, h2, _, _, _, h3, h4⟩ := branchCall_complete cfg size c.1 (ho c (by simp)) hb output hne hfuel hst
      obtain ⟨rs, g1, g2, g3⟩ := ih (fun x hx => ho x (by simp [hx])) st' h2
      refine ⟨.ok path :: rs, ?_, by simp [g2], ?_⟩
      · simp only [branchCalls, h1, bind, Option.bind, g1, pure]
      · intro r hr
        rcases List.mem_cons.mp hr with rfl | hr
        · exact ⟨path, rfl, h3, h4⟩
        · exact g3 r hr
  exact this _ (fresh_ready _)

/-- `branch` is one call of a new instance. -/
theorem C15_branch_function (cfg : BBCfg) (hb : cfg.nbranch ≠ some 0) (size : Nat → Nat) (output : Finset Nat) (mem : Option Nat)
    (ho : OrderOK order) {inputs : List (Finset Nat)} (hne : inputs ≠ []) {fuel : Nat} (hfuel : inputs.length ≤ fuel) :
    ∃ path, branch cfg fuel size mem order inputs output = some (.ok path) ∧
      (inputs.length = 1 → path = []) ∧ (2 ≤ inputs.length → CompletePath inputs.length path) := by
  obtain ⟨path, st', p, h1, _, _, _, _, h3, h4⟩ := branchCall_complete cfg size mem ho hb output hne hfuel (fresh_ready inputs.length)
  refine ⟨path, ?_, h3, h4⟩
  unfold branch
  rw [if_neg hb, h1]; rfl

end

/-- Default options with `nbranch`. -/
def bbDefault (nbranch : Option Nat) : BBCfg := { nbranch, cutoff := 4, bySize := false, cost := costMemoryRemoved }

-- C15: 'abd,ac,bdc->' with sizes 1, 2, 3, 4, one branch, all branches
example : branch (bbDefault (some 1)) 3 (fun c => c + 1) none ascending [{0, 1, 3}, {0, 2}, {1, 3, 2}] ∅ = some (.ok [[0, 2], [0, 1]]) := by
  decide +kernel
-- an instance called twice, first under a limit that allows no intermediate
example : branchCalls (bbDefault none) 3 (fun c => c + 2) [{0, 1, 3}, {0, 2}, {1, 3, 2}] ∅ [(some 1, ascending), (none, ascending)] BBSt.fresh =
    some [.ok [[0, 1, 2]], .ok [[0, 2], [0, 1]]] := by
  decide +kernel

/-! ## C27 -/

/-- A history of argument checks: `true` for an accepted call. The instance keeps what it remembered when a call is refused. -/
def checkCalls {α : Type} [DecidableEq α] : List α → Option α → List (Except PyErr Unit)
  | [], _ => []
  | a :: as, first =>
    match checkArgs first a with
    | .ok first' => .ok () :: checkCalls as first'
    | .error e => .error e :: checkCalls as first

/-- **C27.** In any sequence of calls of a new instance the first is accepted, and each later one is accepted iff its arguments
equal those of the first call, and raises `ValueError` otherwise. -/
theorem C27_check_args {α : Type} [DecidableEq α] (a : α) (as : List α) :
    checkCalls (a :: as) none = .ok () :: as.map (fun b => if b = a then .ok () else .error .value) := by
  simp only [checkCalls, checkArgs, List.cons.injEq, true_and]
  induction as with
  | nil => rfl
  | cons b bs ih =>
    simp only [checkCalls, checkArgs, List.map_cons]
    by_cases h : b = a
    · simp [h, ih]
    · simp [h, ih]

-- C27: the third call differs
example : checkCalls [([[0, 1], [1]], [0]), ([[0, 1], [1]], [0]), ([[0, 1], [2]], [0])] none =
    [.ok (), .ok (), .error .value] := by decide

end OE.Props
