import Verif.Lemmas.CacheSafe
import Verif.Props.Optimal1

/-!
# C18, C19: what the path of `optimal` costs and how large its intermediates are
-/

namespace OE.Props
open OE OE.Py OE.Spec OE.Paths

variable {size : Nat → Nat} {ins : List (Finset Nat)} {out : Finset Nat}

/-- Operations of a path on tags. -/
def tagCost (size : Nat → Nat) (ins : List (Finset Nat)) (out : Finset Nat) (l : List Tag) (path : Path) : Nat :=
  ((ssaTrace combineTag l path).map (gFlops size ins out)).sum

/-- `best` is infinite or the cost of the recorded pairwise path. -/
def BestInv (size : Nat → Nat) (ins : List (Finset Nat)) (out : Finset Nat) (st : OptSt) : Prop :=
  st.bestFlops = ⊤ ∨ (st.bestFlops = (tagCost size ins out (tags ins.length) st.bestPath : Nat) ∧ Pairwise2 st.bestPath ∧
    SsaComplete ins.length st.bestPath)

theorem pick_swap {α : Type} (l : List α) (i j : Nat) : pick l [i, j] = pick l [j, i] := pick_perm l (List.Perm.swap _ _ _)

theorem orient_eq (x : Nat × Nat) : orient x = x ∨ orient x = (x.2, x.1) := by
  unfold orient; split
  · exact Or.inr rfl
  · exact Or.inl rfl

theorem optIter_leaf {order : SetOrder} (fuel : Nat) (nd : SearchNode) (store : List Tag) (hnd : Good size ins out store nd)
    (hpw : Pairwise2 nd.path) (h1 : nd.remaining.card = 1) (st : OptSt) (hc : CacheInv size ins out st.cache)
    (hlt : (nd.flops : WithTop Nat) < st.bestFlops) :
    ∃ st', optIter size out none order fuel nd st = some st' ∧ BestInv size ins out st' ∧ CacheInv size ins out st'.cache ∧
      st'.bestFlops ≤ st.bestFlops ∧ st'.bestFlops ≠ ⊤ ∧
      ∀ rest, SsaValid nd.remaining nd.inputs.length rest → Pairwise2 rest → rest.length + 1 = nd.remaining.card →
        st'.bestFlops ≤ ((nd.flops + tagCost size ins out store rest : Nat) : WithTop Nat) := by
  rw [optIter.eq_def]
  simp only
  rw [if_pos h1]
  refine ⟨_, rfl, Or.inr ⟨?_, hpw, hnd.complete h1⟩, hc, hlt.le, WithTop.coe_ne_top, ?_⟩
  · simp only [tagCost]; rw [hnd.flops_eq]
  · intro rest _ _ hl
    have : rest = [] := List.length_eq_zero_iff.mp (by omega)
    subst this
    simp [tagCost, ssaTrace]

theorem optIter_minimal (hsafe : CacheSafe ins out) {order : SetOrder} (ho : OrderOK order) (fuel : Nat) (nd : SearchNode)
    (store : List Tag) (hnd : Good size ins out store nd) (hpw : Pairwise2 nd.path) (hcard : 0 < nd.remaining.card)
    (hfuel : nd.remaining.card ≤ fuel + 1) (st : OptSt) (hst : BestInv size ins out st) (hc : CacheInv size ins out st.cache)
    (hlt : (nd.flops : WithTop Nat) < st.bestFlops) :
    ∃ st', optIter size out none order fuel nd st = some st' ∧ BestInv size ins out st' ∧ CacheInv size ins out st'.cache ∧
      st'.bestFlops ≤ st.bestFlops ∧ st'.bestFlops ≠ ⊤ ∧
      ∀ rest, SsaValid nd.remaining nd.inputs.length rest → Pairwise2 rest → rest.length + 1 = nd.remaining.card →
        st'.bestFlops ≤ ((nd.flops + tagCost size ins out store rest : Nat) : WithTop Nat) := by
  induction fuel generalizing nd store st with
  | zero => exact optIter_leaf _ _ _ hnd hpw (by omega) st hc hlt
  | succ fuel ih =>
    by_cases h1 : nd.remaining.card = 1
    · exact optIter_leaf _ _ _ hnd hpw h1 st hc hlt
    rw [optIter, if_neg h1]
    have hfold := foldlM_rule (f := optBody size out none order (optIter size out none order fuel) nd)
      (fun s : OptSt => BestInv size ins out s ∧ CacheInv size ins out s.cache)
      (fun s t => t.bestFlops ≤ s.bestFlops)
      (fun x s => s.bestFlops ≠ ⊤ ∧ ∀ rest, SsaValid (insert nd.inputs.length (nd.remaining \ {(orient x).1, (orient x).2})) (nd.inputs.length + 1) rest →
        Pairwise2 rest → rest.length + 2 = nd.remaining.card →
        s.bestFlops ≤ ((nd.flops + tagCost size ins out store ([(orient x).1, (orient x).2] :: rest) : Nat) : WithTop Nat))
      (fun _ => le_refl _) (fun _ _ _ h g => le_trans g h)
      (fun x s t hR hP => ⟨fun h => hP.1 (top_le_iff.mp (h ▸ hR)), fun rest a b c => le_trans hR (hP.2 rest a b c)⟩)
      (combinations2 (order nd.path nd.remaining)) ?_ st ⟨hst, hc⟩
    · obtain ⟨st', e1, ⟨e2, e3⟩, e4, e5⟩ := hfold
      refine ⟨st', e1, e2, e3, e4, ?_, ?_⟩
      · -- there is at least one pair
        have h2 : 1 < nd.remaining.card := by omega
        obtain ⟨a, ha, b, hb, hab⟩ := Finset.one_lt_card.mp h2
        rcases combinations2_complete (((ho nd.path nd.remaining).2 a).mpr ha) (((ho nd.path nd.remaining).2 b).mpr hb) hab with h | h
        · exact (e5 _ h).1
        · exact (e5 _ h).1
      · intro rest hv hp hl
        cases rest with
        | nil => simp at hl; omega
        | cons p ps =>
          obtain ⟨i, j, rfl⟩ : ∃ i j, p = [i, j] := by
            have := hp p (by simp)
            match p, this with
            | [i, j], _ => exact ⟨i, j, rfl⟩
          obtain ⟨_, hn, hm, hrest⟩ := hv
          have hi := hm i (by simp)
          have hj := hm j (by simp)
          have hij : i ≠ j := by simpa using hn
          rw [pair_toFinset] at hrest
          have hps : Pairwise2 ps := fun q hq => hp q (by simp [hq])
          have hl' : ps.length + 2 = nd.remaining.card := by simp at hl; omega
          have hsw : tagCost size ins out store ([j, i] :: ps) = tagCost size ins out store ([i, j] :: ps) := by
            unfold tagCost; simp only [ssaTrace]; rw [pick_swap store i j]
          have hset : ({j, i} : Finset Nat) = {i, j} := Finset.pair_comm _ _
          rcases combinations2_complete (((ho nd.path nd.remaining).2 i).mpr hi) (((ho nd.path nd.remaining).2 j).mpr hj) hij with h | h
          · have h5 := (e5 _ h).2 ps
            rcases orient_eq (i, j) with e | e <;> rw [e] at h5
            · exact h5 hrest hps hl'
            · rw [← hsw]; exact h5 (by simp only; rw [hset]; exact hrest) hps hl'
          · have h5 := (e5 _ h).2 ps
            rcases orient_eq (j, i) with e | e <;> rw [e] at h5
            · rw [← hsw]; exact h5 (by simp only; rw [hset]; exact hrest) hps hl'
            · exact h5 hrest hps hl'
    · rintro s x hx ⟨hs, hsc⟩
      obtain ⟨hi, hj, hij⟩ := pair_of_order ho hx
      obtain ⟨r1, r2⟩ := cached_good hsafe hnd hi hj hij hsc
      unfold optBody
      simp only
      rw [r1]
      simp only
      by_cases hcut : ((nd.flops + gFlops size ins out (pick store [(orient x).1, (orient x).2]) : Nat) : WithTop Nat) < s.bestFlops
      · rw [if_pos hcut]
        have hcc := child_remaining_card hnd.toGoodPath hi hj hij (termOf ins out (combineTag (pick store [(orient x).1, (orient x).2])))
          (nd.flops + gFlops size ins out (pick store [(orient x).1, (orient x).2]))
        have hgc := hnd.child hi hj hij
        obtain ⟨s', g1, g2, g3, g4, g5, g6⟩ := ih _ _ hgc (by
            intro p hp
            simp only [SearchNode.child, List.mem_append, List.mem_singleton] at hp
            rcases hp with hp | rfl
            · exact hpw p hp
            · rfl) (by omega) (by omega)
          { s with cache := (cached s.cache (nd.inputs.getD (orient x).1 ∅, nd.inputs.getD (orient x).2 ∅)
            (calcK12 size nd.inputs out nd.remaining (orient x).1 (orient x).2)).2 } hs r2 hcut
        refine ⟨s', g1, ⟨g2, g3⟩, g4, g5, ?_⟩
        intro rest hv hp hl
        have := g6 rest (by simpa [SearchNode.child] using hv) hp (by omega)
        refine le_trans this (le_of_eq ?_)
        simp only [SearchNode.child, tagCost, ssaTrace, List.map_cons, List.sum_cons]
        rw [Nat.add_assoc]
      · rw [if_neg hcut]
        push Not at hcut
        refine ⟨_, rfl, ⟨hs, r2⟩, le_refl _, fun h => ?_, ?_⟩
        · simp only at h
          rw [h] at hcut; exact WithTop.coe_ne_top (top_le_iff.mp hcut)
        · intro rest _ _ _
          refine le_trans hcut ?_
          simp only [tagCost, ssaTrace, List.map_cons, List.sum_cons]
          exact WithTop.coe_le_coe.mpr (by omega)

/-- Pairwise complete paths with recycled positions, as traces. -/
theorem ssa_of_pairwise {n : Nat} {q : Path} (hq : CompletePath n q) (hp : Pairwise2 q) :
    ∃ path, SsaComplete n path ∧ Pairwise2 path ∧ path.length + 1 = n ∧
      ∀ (α : Type) (combine : Multiset α → α) (ts : List α), ts.length = n → ssaTrace combine ts path = linTrace combine ts q := by
  obtain ⟨path, _, h2, h3, h4⟩ := C12_linear_to_ssa hq
  have hne : path ≠ [] := by
    rintro rfl
    have := h4 Unit (fun _ => ()) (List.replicate n ()) (by simp)
    have hqn := ((completePath_iff n q).mp hq).1
    cases q with
    | nil => exact hqn rfl
    | cons p ps => simp [ssaTrace, linTrace] at this
  obtain ⟨q', g1, _, _, g4, _⟩ := C11_ssa_to_linear h2 hne
  rw [h3] at g1
  cases g1
  have hlen : path.map List.length = q.map List.length := by
    rw [← g4, List.map_map]
    apply List.map_congr_left
    intro p _
    exact (List.perm_insertionSort _ p).length_eq
  have hpw : Pairwise2 path := by
    intro p hpm
    have : p.length ∈ q.map List.length := by rw [← hlen]; exact List.mem_map_of_mem hpm
    obtain ⟨p', hp', e⟩ := List.mem_map.mp this
    rw [← e]; exact hp p' hp'
  refine ⟨path, h2, hpw, ?_, h4⟩
  have hs : (path.map List.length).sum = 2 * path.length := by
    have : ∀ l : Path, (∀ p ∈ l, p.length = 2) → (l.map List.length).sum = 2 * l.length := by
      intro l
      induction l with
      | nil => simp
      | cons a t ih =>
        intro h
        have h1 := h a (by simp)
        have h2 := ih (fun p hp => h p (by simp [hp]))
        simp only [List.map_cons, List.sum_cons, List.length_cons, h1, h2]; omega
    exact this path hpw
  have := h2.2
  omega

theorem completePath_valid {n : Nat} {q : Path} (h : CompletePath n q) : ValidPath n q := ((completePath_iff n q).mp h).2.1

theorem tags_length (n : Nat) : (tags n).length = n := by simp [tags]

/-- Figures of a complete path through its trace. -/
theorem figures_complete {q : Path} (h : CompletePath ins.length q) :
    searchFlops size out ins q = ((linTrace combineTag (tags ins.length) q).map (gFlops size ins out)).sum ∧
    resultSizes size out ins q = (linTrace combineTag (tags ins.length) q).map (gSize size ins out) ∧
    (planFigures size out ins q).map StepFigures.flops = (linTrace combineTag (tags ins.length) q).map (gPlan size ins out) := by
  have := figures_trace (ins := ins) (out := out) (size := size) q (part_tags ins.length) (by rw [tags_length]; exact completePath_valid h)
  rwa [tags_terms] at this

/-- The core of C18 for any network for which `result_cache` is sound. -/
theorem optimal_minimal (hsafe : CacheSafe ins out) {order : SetOrder} (ho : OrderOK order) (h2 : 2 ≤ ins.length) {fuel : Nat}
    (hfuel : ins.length ≤ fuel) :
    ∃ path, optimal fuel size none order ins out = some (.ok path) ∧ CompletePath ins.length path ∧ Pairwise2 path ∧
      ∀ q, CompletePath ins.length q → Pairwise2 q → searchFlops size out ins path ≤ searchFlops size out ins q := by
  obtain ⟨st, e1, e2, _, _, e5, e6⟩ := optIter_minimal (size := size) hsafe ho fuel (rootNode ins) _ good_root
    (by intro p hp; simp [rootNode] at hp) (by simp [rootNode]; omega) (by simp [rootNode]; omega)
    { bestFlops := ⊤, bestPath := [List.range ins.length], cache := [] } (Or.inl rfl) cacheInv_nil (by exact WithTop.coe_lt_top _)
  rcases e2 with e2 | ⟨e2, e3, e4⟩
  · exact absurd e2 e5
  · have hne := ssaComplete_ne_nil e4 h2
    obtain ⟨p, g1, g2, _, g4, g5⟩ := C11_ssa_to_linear e4 hne
    refine ⟨p, ?_, g2, ?_, ?_⟩
    · unfold optimal optimalSsa; rw [e1]; exact congrArg some g1
    · intro x hx
      have : x.length ∈ st.bestPath.map List.length := by rw [← g4]; exact List.mem_map_of_mem hx
      obtain ⟨y, hy, e⟩ := List.mem_map.mp this
      rw [← e]; exact e3 y hy
    · intro q hq hqp
      obtain ⟨sq, s1, s2, s3, s4⟩ := ssa_of_pairwise hq hqp
      have hle := e6 sq (by simpa [rootNode] using s1.1) s2 (by simpa [rootNode] using s3)
      rw [e2] at hle
      rw [(figures_complete g2).1, (figures_complete hq).1, (g5 Tag combineTag (tags ins.length) (tags_length _)).1,
        ← s4 Tag combineTag (tags ins.length) (tags_length _)]
      have hle' := WithTop.coe_le_coe.mp hle
      simpa [rootNode, tagCost] using hle'

/-- The operations of a pairwise path as `PathInfo` counts them are those the search counts, if no axis is summed alone. -/
theorem plan_eq_search (hl : NoLoneLabels ins out) {q : Path} (hq : CompletePath ins.length q) (hp : Pairwise2 q) :
    ((planFigures size out ins q).map StepFigures.flops).sum = searchFlops size out ins q := by
  obtain ⟨f1, _, f3⟩ := figures_complete (size := size) (out := out) hq
  rw [f1, f3]
  obtain ⟨sq, s1, s2, s3, s4⟩ := ssa_of_pairwise hq hp
  rw [← s4 Tag combineTag (tags ins.length) (tags_length _)]
  congr 1
  apply List.map_congr_left
  intro m hm
  obtain ⟨X, Y, rfl, hg⟩ := (good_root (size := size) (ins := ins) (out := out)).trace_pairs sq (by simpa [rootNode] using s1.1) s2 m hm
  exact gPlan_eq_gFlops hl hg

/-- **C18 (partial).** In a network without hyperedges (no summed label on three tensors), for any sizes
and any set iteration order, `optimal` without memory limit returns a pairwise path, and no pairwise complete path has a
smaller total number of operations; `PathInfo` agrees if moreover no axis is summed alone.

Missing: networks with hyperedges, for which the claim is false (`C18_counterexample`). -/
theorem C18_optimal_minimal_partial (hh : NoHyperEdges ins out) {order : SetOrder} (ho : OrderOK order) (h2 : 2 ≤ ins.length)
    {fuel : Nat} (hfuel : ins.length ≤ fuel) :
    ∃ path, optimal fuel size none order ins out = some (.ok path) ∧ CompletePath ins.length path ∧ Pairwise2 path ∧
      ∀ q, CompletePath ins.length q → Pairwise2 q →
        searchFlops size out ins path ≤ searchFlops size out ins q ∧
        (NoLoneLabels ins out → ((planFigures size out ins path).map StepFigures.flops).sum ≤
          ((planFigures size out ins q).map StepFigures.flops).sum) := by
  obtain ⟨path, h1, h2, h3, h4⟩ := optimal_minimal (size := size) (cacheSafe_of_noHyper hh) ho h2 hfuel
  refine ⟨path, h1, h2, h3, fun q hq hp => ⟨h4 q hq hp, fun hl => ?_⟩⟩
  rw [plan_eq_search hl h2 h3, plan_eq_search hl hq hp]
  exact h4 q hq hp

/-- A network without hyperedges and lone labels: a matrix chain 'ab,bc,cd->ad' (a = 0, …). -/
def chainNet : List (Finset Nat) := [{0, 1}, {1, 2}, {2, 3}]

theorem noHyper_of_inputs {ins : List (Finset Nat)} {out : Finset Nat}
    (h : ∀ s ∈ ins, ∀ c ∈ s, c ∉ out → ins.countP (fun s => c ∈ s) ≤ 2) : NoHyperEdges ins out := by
  intro c hc
  by_cases h0 : ins.countP (fun s => decide (c ∈ s)) = 0
  · omega
  · obtain ⟨s, hs, hcs⟩ := List.countP_pos_iff.mp (Nat.pos_of_ne_zero h0)
    exact h s hs c (by simpa using hcs) hc

theorem chainNet_ok : NoHyperEdges chainNet {0, 3} ∧ NoLoneLabels chainNet {0, 3} :=
  ⟨noHyper_of_inputs (by decide), by unfold NoLoneLabels; decide⟩

-- a batch of such chains, 'zab,zbc,zcd->zad' (z = 4)
example : NoHyperEdges [{0, 1, 4}, {1, 2, 4}, {2, 3, 4}] {0, 3, 4} ∧ NoLoneLabels [{0, 1, 4}, {1, 2, 4}, {2, 3, 4}] {0, 3, 4} :=
  ⟨noHyper_of_inputs (by decide), by unfold NoLoneLabels; decide⟩

-- C18: the chain with sizes 10, 2, 10, 2 is contracted from the right
example : optimal 3 (fun c => if c % 2 = 0 then 10 else 2) none ascending chainNet {0, 3} = some (.ok [[1, 2], [0, 1]]) := by
  decide +kernel

/-- Sizes for the counterexamples. -/
def sizes235 : Nat → Nat := fun c => if c = 1 then 3 else if c = 0 then 2 else 5

/-- **C18 is false with hyperedges**: for 'd,bd,d->b' with sizes b = 3, d = 5, `optimal` (with sets iterated in increasing
order, as CPython iterates small sets of small integers) returns a path that costs 45, while another costs 35: the cache of
intermediate results, keyed by label sets only, confuses the contraction of an input 'd' with 'bd' and that of the
intermediate 'd' with 'bd'. -/
theorem C18_counterexample :
    optimal 3 sizes235 none ascending [{3}, {1, 3}, {3}] {1} = some (.ok [[0, 1], [0, 1]]) ∧
    searchFlops sizes235 {1} [{3}, {1, 3}, {3}] [[0, 1], [0, 1]] = 45 ∧
    searchFlops sizes235 {1} [{3}, {1, 3}, {3}] [[0, 2], [0, 1]] = 35 := by
  decide +kernel

/-! ## C19 -/

/-- All but the last contraction of a path stay within the limit. -/
def Fits (size : Nat → Nat) (ins : List (Finset Nat)) (out : Finset Nat) (m : Nat) (path : Path) : Prop :=
  ∀ x ∈ (ssaTrace combineTag (tags ins.length) path).dropLast, gSize size ins out x ≤ m

theorem optIter_fits (hsafe : CacheSafe ins out) {m : Nat} {order : SetOrder} (ho : OrderOK order) (fuel : Nat) (nd : SearchNode)
    (store : List Tag) (hnd : Good size ins out store nd)
    (hfit : ∀ x ∈ ssaTrace combineTag (tags ins.length) nd.path, gSize size ins out x ≤ m) (hcard : 0 < nd.remaining.card)
    (st : OptSt) (hst : Fits size ins out m st.bestPath) (hc : CacheInv size ins out st.cache) (st' : OptSt)
    (hrun : optIter size out (some m) order fuel nd st = some st') :
    Fits size ins out m st'.bestPath ∧ CacheInv size ins out st'.cache := by
  induction fuel generalizing nd store st st' with
  | zero =>
    rw [optIter] at hrun
    split at hrun
    · cases hrun
      exact ⟨fun x hx => hfit x (List.mem_of_mem_dropLast hx), hc⟩
    · cases hrun
  | succ fuel ih =>
    rw [optIter] at hrun
    split at hrun
    · cases hrun
      exact ⟨fun x hx => hfit x (List.mem_of_mem_dropLast hx), hc⟩
    · revert hrun
      have : ∀ (l : List (Nat × Nat)), (∀ x ∈ l, x ∈ combinations2 (order nd.path nd.remaining)) → ∀ st : OptSt,
          Fits size ins out m st.bestPath → CacheInv size ins out st.cache →
          l.foldlM (optBody size out (some m) order (optIter size out (some m) order fuel) nd) st = some st' →
          Fits size ins out m st'.bestPath ∧ CacheInv size ins out st'.cache := by
        intro l
        induction l with
        | nil =>
          intro _ st hst hc h
          simp only [List.foldlM_nil, pure, Option.some.injEq] at h
          subst h
          exact ⟨hst, hc⟩
        | cons x xs ihl =>
          intro hmem s hs hsc h
          rw [List.foldlM_cons] at h
          cases hb : optBody size out (some m) order (optIter size out (some m) order fuel) nd s x with
          | none => rw [hb] at h; simp [bind, Option.bind] at h
          | some s1 =>
            rw [hb] at h
            obtain ⟨hi, hj, hij⟩ := pair_of_order ho (hmem x (by simp))
            obtain ⟨r1, r2⟩ := cached_good hsafe hnd hi hj hij hsc
            have hs1 : Fits size ins out m s1.bestPath ∧ CacheInv size ins out s1.cache := by
              unfold optBody at hb
              simp only at hb
              rw [r1] at hb
              simp only at hb
              split at hb
              · split at hb
                · split at hb
                  · cases hb
                    refine ⟨?_, r2⟩
                    intro y hy
                    simp only [ssaTrace_append, ssaTrace, List.dropLast_concat] at hy
                    exact hfit y hy
                  · cases hb; exact ⟨hs, r2⟩
                · rename_i hle
                  refine ih _ _ (hnd.child hi hj hij) ?_ (Finset.card_pos.mpr ⟨_, Finset.mem_insert_self _ _⟩)
                    { s with cache := (cached s.cache (nd.inputs.getD (orient x).1 ∅, nd.inputs.getD (orient x).2 ∅)
                      (calcK12 size nd.inputs out nd.remaining (orient x).1 (orient x).2)).2 } hs r2 _ hb
                  intro y hy
                  simp only [SearchNode.child, ssaTrace_append, ssaTrace, List.mem_append, List.mem_singleton] at hy
                  rcases hy with hy | rfl
                  · exact hfit y hy
                  · rw [← hnd.store_eq]
                    push Not at hle
                    exact hle
              · cases hb; exact ⟨hs, r2⟩
            exact ihl (fun y hy => hmem y (by simp [hy])) s1 hs1.1 hs1.2 h
      exact this _ (fun _ h => h) st hst hc

/-- Sizes of a path that fits. -/
theorem resultSizes_of_fits {m : Nat} {path q : Path} (hfit : Fits size ins out m path) (hq : CompletePath ins.length q)
    (htr : linTrace combineTag (tags ins.length) q = ssaTrace combineTag (tags ins.length) path) :
    ∀ s ∈ (resultSizes size out ins q).dropLast, s ≤ m := by
  rw [(figures_complete hq).2.1, htr, ← List.map_dropLast]
  intro s hs
  obtain ⟨x, hx, rfl⟩ := List.mem_map.mp hs
  exact hfit x hx

/-- **C19 (partial).** In a network without hyperedges, for any limit, sizes and set iteration order, every step of the path
returned by `optimal` but the last produces an intermediate of at most `memory_limit` elements.

Missing: networks with hyperedges, for which the claim is false (`C19_counterexample`). -/
theorem C19_optimal_memory_partial (hh : NoHyperEdges ins out) (m : Nat) {order : SetOrder} (ho : OrderOK order) (h2 : 2 ≤ ins.length)
    {fuel : Nat} (hfuel : ins.length ≤ fuel) :
    ∃ path, optimal fuel size (some m) order ins out = some (.ok path) ∧ CompletePath ins.length path ∧
      ∀ s ∈ (resultSizes size out ins path).dropLast, s ≤ m := by
  have hne : ins ≠ [] := by rintro rfl; simp at h2
  obtain ⟨st, e1, e2⟩ := optimalSsa_complete (size := size) (output := out) (mem := some m) ho hne (fuel := fuel) (by omega)
  obtain ⟨p, g1, g2, _, g4, g5⟩ := C11_ssa_to_linear e2 (ssaComplete_ne_nil e2 h2)
  refine ⟨p, by unfold optimal; rw [e1]; exact congrArg some g1, g2, ?_⟩
  refine resultSizes_of_fits ?_ g2 (g5 Tag combineTag (tags ins.length) (tags_length _)).1
  exact (optIter_fits (cacheSafe_of_noHyper hh) ho fuel (rootNode ins) _ good_root (by intro x hx; simp [rootNode, ssaTrace] at hx)
    (by simp [rootNode]; omega) _ (by intro x hx; simp [ssaTrace] at hx) cacheInv_nil st e1).1

-- C19: a chain whose cheap intermediates exceed the limit
example : optimal 3 (fun _ => 3) (some 8) ascending chainNet {0, 3} = some (.ok [[0, 1, 2]]) ∧
    optimal 3 (fun _ => 3) (some 9) ascending chainNet {0, 3} = some (.ok [[0, 1], [0, 1]]) := by decide +kernel

/-- **C19 is false with hyperedges**: for 'c,abc,bc,ab->a' with sizes 2, 3, 2 and `memory_limit=10`, `optimal` returns a path
whose first intermediate has 12 elements: the cache returns the labels 'ac' of an earlier intermediate, not 'abc'. -/
theorem C19_counterexample :
    optimal 4 (fun c => if c = 1 then 3 else 2) (some 10) ascending [{2}, {0, 1, 2}, {1, 2}, {0, 1}] {0} =
      some (.ok [[1, 2], [1, 2], [0, 1]]) ∧
    resultSizes (fun c => if c = 1 then 3 else 2) {0} [{2}, {0, 1, 2}, {1, 2}, {0, 1}] [[1, 2], [1, 2], [0, 1]] = [12, 4, 2] := by
  decide +kernel

end OE.Props
