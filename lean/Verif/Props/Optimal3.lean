import Verif.Props.Optimal2

/-!
# C18 with a memory limit
-/

namespace OE.Props
open OE OE.Py OE.Spec OE.Paths

variable {size : Nat → Nat} {ins : List (Finset Nat)} {out : Finset Nat}

theorem gFlops_le_gPlan (m : Multiset Tag) : gFlops size ins out m ≤ gPlan size ins out m := by
  unfold gFlops gPlan stepFlops
  refine Nat.mul_le_mul_left _ (Nat.add_le_add_left ?_ _)
  by_cases h : mLabels ins out m = termOf ins out (combineTag m)
  · rw [if_pos h, if_pos]
    rw [Finset.filter_eq_empty_iff]
    rintro c hc ⟨h1, _⟩
    rw [h] at hc
    exact h1 hc
  · rw [if_neg h]
    split <;> omega

/-- `_compute_oversize_flops` is the number of operations of contracting all that remains. -/
theorem oversize_eq {store : List Tag} {nd : SearchNode} (h : Good size ins out store nd) {l : List Nat} (hn : l.Nodup)
    (hl : ∀ i, i ∈ l ↔ i ∈ nd.remaining) :
    oversizeFlops size nd.inputs nd.remaining out = gPlan size ins out (pick store l) := by
  have hlab : nd.remaining.biUnion (fun k => nd.inputs.getD k ∅) = mLabels ins out (pick store l) := by
    ext c
    rw [mem_mLabels]
    simp only [Finset.mem_biUnion, mem_pick]
    constructor
    · rintro ⟨k, hk, hc⟩
      have hk' := h.lt k hk
      rw [h.len] at hk'
      refine ⟨store[k], ⟨k, (hl k).mpr hk, List.getElem?_eq_getElem hk'⟩, ?_⟩
      rw [h.inputs_eq, List.getD_eq_getElem?_getD, List.getElem?_map, List.getElem?_eq_getElem hk'] at hc
      exact hc
    · rintro ⟨t, ⟨k, hk, hkt⟩, hc⟩
      refine ⟨k, (hl k).mp hk, ?_⟩
      rw [h.inputs_eq, List.getD_eq_getElem?_getD, List.getElem?_map, hkt]
      exact hc
  have hcard : (pick store l).card = nd.remaining.card := by
    have h1 : l.toFinset = nd.remaining := by ext i; rw [List.mem_toFinset, hl]
    rw [← h1, List.toFinset_card_of_nodup hn]
    have : ∀ l : List Nat, (∀ i ∈ l, i < store.length) → (pick store l).card = l.length := by
      intro l
      induction l with
      | nil => simp [pick]
      | cons a t ih =>
        intro hlt
        have := ih (fun i hi => hlt i (by simp [hi]))
        simp only [pick, List.filterMap_cons, List.getElem?_eq_getElem (hlt a (by simp)), Multiset.coe_card, List.length_cons] at this ⊢
        rw [this]
    refine this l (fun i hi => ?_)
    rw [← h.len]
    exact h.lt i ((hl i).mp hi)
  have hkeep : termOf ins out (combineTag (pick store l)) = mLabels ins out (pick store l) ∩ out := by
    ext c
    rw [show termOf ins out (combineTag (pick store l)) = legs ins out (combineTag (pick store l)).1 from rfl,
      legs_union (S := fun t => t ∈ pick store l) (R := fun _ => False), Finset.mem_inter, mem_mLabels]
    · simp
    · intro a; exact mem_combineTag
    · intro a
      rw [h.cover, mem_combineTag]
      simp only [mem_pick]
      constructor
      · rintro ⟨k, hk, t, hkt, ha⟩
        exact Or.inl ⟨t, ⟨k, (hl k).mpr hk, hkt⟩, ha⟩
      · rintro (⟨t, ⟨k, hk, hkt⟩, ha⟩ | ⟨_, h, _⟩)
        · exact ⟨k, (hl k).mp hk, t, hkt, ha⟩
        · exact h.elim
    · intro t h; exact h.elim
  unfold oversizeFlops gPlan stepFlops flopsOf Paths.sizeOf
  simp only
  rw [hlab, hcard, hkeep]
  congr 1
  have : mLabels ins out (pick store l) = mLabels ins out (pick store l) ∩ out ↔ mLabels ins out (pick store l) \ out = ∅ := by
    rw [Finset.sdiff_eq_empty_iff_subset, eq_comm, Finset.inter_eq_left]
  simp only [this]
  by_cases h : mLabels ins out (pick store l) \ out = ∅ <;> simp [h]

/-- The steps of a path that `optimal` considers under a limit. -/
def Allowed (size : Nat → Nat) (ins : List (Finset Nat)) (out : Finset Nat) (m : Nat) (trace : List (Multiset Tag)) : Prop :=
  (∀ x ∈ trace.dropLast, gSize size ins out x ≤ m) ∧ (NoLoneLabels ins out ∨ ∀ x ∈ trace, gSize size ins out x ≤ m)

theorem Allowed.tail {m : Nat} {x : Multiset Tag} {t : List (Multiset Tag)} (h : Allowed size ins out m (x :: t)) :
    Allowed size ins out m t := by
  refine ⟨fun y hy => h.1 y ?_, h.2.imp_right (fun h y hy => h y (by simp [hy]))⟩
  cases t with
  | nil => simp at hy
  | cons a t => rw [List.dropLast_cons_of_ne_nil (by simp)]; exact List.mem_cons_of_mem _ hy

/-- `best` is infinite or at least the cost of the recorded path. -/
def BestLe (size : Nat → Nat) (ins : List (Finset Nat)) (out : Finset Nat) (st : OptSt) : Prop :=
  ((tagCost size ins out (tags ins.length) st.bestPath : Nat) : WithTop Nat) ≤ st.bestFlops

theorem optIter_leaf_limit {m : Nat} {order : SetOrder} (fuel : Nat) (nd : SearchNode) (store : List Tag) (hnd : Good size ins out store nd)
    (h1 : nd.remaining.card = 1) (st : OptSt) (hc : CacheInv size ins out st.cache)
    (hlt : (nd.flops : WithTop Nat) < st.bestFlops) :
    ∃ st', optIter size out (some m) order fuel nd st = some st' ∧ BestLe size ins out st' ∧ CacheInv size ins out st'.cache ∧
      st'.bestFlops ≤ st.bestFlops ∧
      ∀ rest, SsaValid nd.remaining nd.inputs.length rest → Pairwise2 rest → rest.length + 1 = nd.remaining.card →
        Allowed size ins out m (ssaTrace combineTag store rest) →
        st'.bestFlops ≤ ((nd.flops + tagCost size ins out store rest : Nat) : WithTop Nat) := by
  rw [optIter.eq_def]
  simp only
  rw [if_pos h1]
  refine ⟨_, rfl, ?_, hc, hlt.le, ?_⟩
  · show _ ≤ _
    simp only [tagCost]; rw [hnd.flops_eq]
  · intro rest _ _ hl _
    have : rest = [] := List.length_eq_zero_iff.mp (by omega)
    subst this
    simp [tagCost, ssaTrace]

theorem optIter_minimal_limit (hsafe : CacheSafe ins out) {m : Nat} {order : SetOrder} (ho : OrderOK order) (fuel : Nat) (nd : SearchNode)
    (store : List Tag) (hnd : Good size ins out store nd) (hcard : 0 < nd.remaining.card)
    (hfuel : nd.remaining.card ≤ fuel + 1) (st : OptSt) (hst : BestLe size ins out st) (hc : CacheInv size ins out st.cache)
    (hlt : (nd.flops : WithTop Nat) < st.bestFlops) :
    ∃ st', optIter size out (some m) order fuel nd st = some st' ∧ BestLe size ins out st' ∧ CacheInv size ins out st'.cache ∧
      st'.bestFlops ≤ st.bestFlops ∧
      ∀ rest, SsaValid nd.remaining nd.inputs.length rest → Pairwise2 rest → rest.length + 1 = nd.remaining.card →
        Allowed size ins out m (ssaTrace combineTag store rest) →
        st'.bestFlops ≤ ((nd.flops + tagCost size ins out store rest : Nat) : WithTop Nat) := by
  induction fuel generalizing nd store st with
  | zero => exact optIter_leaf_limit _ _ _ hnd (by omega) st hc hlt
  | succ fuel ih =>
    by_cases h1 : nd.remaining.card = 1
    · exact optIter_leaf_limit _ _ _ hnd h1 st hc hlt
    rw [optIter, if_neg h1]
    have hfold := foldlM_rule (f := optBody size out (some m) order (optIter size out (some m) order fuel) nd)
      (fun s : OptSt => BestLe size ins out s ∧ CacheInv size ins out s.cache)
      (fun s t => t.bestFlops ≤ s.bestFlops)
      (fun x s => ∀ rest, SsaValid (insert nd.inputs.length (nd.remaining \ {(orient x).1, (orient x).2})) (nd.inputs.length + 1) rest →
        Pairwise2 rest → rest.length + 2 = nd.remaining.card →
        Allowed size ins out m (ssaTrace combineTag store ([(orient x).1, (orient x).2] :: rest)) →
        s.bestFlops ≤ ((nd.flops + tagCost size ins out store ([(orient x).1, (orient x).2] :: rest) : Nat) : WithTop Nat))
      (fun _ => le_refl _) (fun _ _ _ h g => le_trans g h)
      (fun x s t hR hP rest a b c d => le_trans hR (hP rest a b c d))
      (combinations2 (order nd.path nd.remaining)) ?_ st ⟨hst, hc⟩
    · obtain ⟨st', e1, ⟨e2, e3⟩, e4, e5⟩ := hfold
      refine ⟨st', e1, e2, e3, e4, ?_⟩
      intro rest hv hp hl hal
      cases rest with
      | nil => simp at hl; omega
      | cons p ps =>
        obtain ⟨i, j, rfl⟩ : ∃ i j, p = [i, j] := by
          have := hp p (by simp)
          match p, this with
          | [i, j], _ => exact ⟨i, j, rfl⟩
        obtain ⟨_, hn, hm, hrest⟩ := hv
        have hi := hm i (by simp)
        have hj := hm j (by simp)
        have hij : i ≠ j := by simpa using hn
        rw [pair_toFinset] at hrest
        have hps : Pairwise2 ps := fun q hq => hp q (by simp [hq])
        have hl' : ps.length + 2 = nd.remaining.card := by simp at hl; omega
        have hsw : ssaTrace combineTag store ([j, i] :: ps) = ssaTrace combineTag store ([i, j] :: ps) := by
          simp only [ssaTrace]; rw [pick_swap store i j]
        have hsw' : tagCost size ins out store ([j, i] :: ps) = tagCost size ins out store ([i, j] :: ps) := by
          unfold tagCost; rw [hsw]
        have hset : ({j, i} : Finset Nat) = {i, j} := Finset.pair_comm _ _
        rcases combinations2_complete (((ho nd.path nd.remaining).2 i).mpr hi) (((ho nd.path nd.remaining).2 j).mpr hj) hij with h | h
        · have h5 := e5 _ h ps
          rcases orient_eq (i, j) with e | e <;> rw [e] at h5
          · exact h5 hrest hps hl' hal
          · rw [← hsw']; exact h5 (by simp only; rw [hset]; exact hrest) hps hl' (by simp only; rw [hsw]; exact hal)
        · have h5 := e5 _ h ps
          rcases orient_eq (j, i) with e | e <;> rw [e] at h5
          · rw [← hsw']; exact h5 (by simp only; rw [hset]; exact hrest) hps hl' (by simp only; rw [hsw]; exact hal)
          · exact h5 hrest hps hl' hal
    · rintro s x hx ⟨hs, hsc⟩
      obtain ⟨hi, hj, hij⟩ := pair_of_order ho hx
      obtain ⟨r1, r2⟩ := cached_good hsafe hnd hi hj hij hsc
      unfold optBody
      simp only
      rw [r1]
      simp only
      by_cases hcut : ((nd.flops + gFlops size ins out (pick store [(orient x).1, (orient x).2]) : Nat) : WithTop Nat) < s.bestFlops
      · rw [if_pos hcut]
        by_cases hbig : Paths.sizeOf size (termOf ins out (combineTag (pick store [(orient x).1, (orient x).2]))) > m
        · rw [if_pos hbig]
          have hov := oversize_eq hnd (ho nd.path nd.remaining).1 (fun i => (ho nd.path nd.remaining).2 i)
          -- an oversize pair is allowed only as the last one, and then the two counts agree
          have hlast : ∀ rest : Path, Pairwise2 rest → rest.length + 2 = nd.remaining.card →
              Allowed size ins out m (ssaTrace combineTag store ([(orient x).1, (orient x).2] :: rest)) →
              rest = [] ∧ oversizeFlops size nd.inputs nd.remaining out = gFlops size ins out (pick store [(orient x).1, (orient x).2]) := by
            intro rest _ hl hal
            have hrest : rest = [] := by
              cases rest with
              | nil => rfl
              | cons p ps =>
                refine absurd (hal.1 (pick store [(orient x).1, (orient x).2]) ?_) (not_le.mpr hbig)
                simp [ssaTrace]
            refine ⟨hrest, ?_⟩
            subst hrest
            have hlone : NoLoneLabels ins out := by
              rcases hal.2 with h | h
              · exact h
              · exact absurd (h _ (by simp [ssaTrace])) (not_le.mpr hbig)
            have hrem : nd.remaining = {(orient x).1, (orient x).2} := by
              symm
              apply Finset.eq_of_subset_of_card_le
              · intro k hk
                simp only [Finset.mem_insert, Finset.mem_singleton] at hk
                rcases hk with rfl | rfl
                · exact hi
                · exact hj
              · rw [Finset.card_pair hij]; simp at hl; omega
            obtain ⟨X, Y, _, _, hg, hp, _, _⟩ := hnd.pair hi hj hij
            rw [oversize_eq hnd (l := [(orient x).1, (orient x).2]) (by simpa using hij) (by intro i; rw [hrem]; simp), hp]
            exact gPlan_eq_gFlops hlone hg
          by_cases hov2 : ((nd.flops + oversizeFlops size nd.inputs nd.remaining out : Nat) : WithTop Nat) < s.bestFlops
          · rw [if_pos hov2]
            refine ⟨_, rfl, ⟨?_, r2⟩, hov2.le, ?_⟩
            · show _ ≤ _
              simp only [tagCost, ssaTrace_append, List.map_append, List.sum_append, ← hnd.flops_eq, ← hnd.store_eq, ssaTrace, List.map_cons,
                List.map_nil, List.sum_cons, List.sum_nil, Nat.add_zero]
              rw [hov]
              exact WithTop.coe_le_coe.mpr (Nat.add_le_add_left (gFlops_le_gPlan _) _)
            · intro rest _ hp hl hal
              obtain ⟨rfl, he⟩ := hlast rest hp hl hal
              simp only [tagCost, ssaTrace, List.map_cons, List.map_nil, List.sum_cons, List.sum_nil, Nat.add_zero]
              rw [he]
          · rw [if_neg hov2]
            push Not at hov2
            refine ⟨_, rfl, ⟨hs, r2⟩, le_refl _, ?_⟩
            intro rest _ hp hl hal
            obtain ⟨rfl, he⟩ := hlast rest hp hl hal
            simp only [tagCost, ssaTrace, List.map_cons, List.map_nil, List.sum_cons, List.sum_nil, Nat.add_zero]
            rw [← he]
            exact hov2
        · rw [if_neg hbig]
          have hcc := child_remaining_card hnd.toGoodPath hi hj hij (termOf ins out (combineTag (pick store [(orient x).1, (orient x).2])))
            (nd.flops + gFlops size ins out (pick store [(orient x).1, (orient x).2]))
          have hgc := hnd.child hi hj hij
          obtain ⟨s', g1, g2, g3, g4, g6⟩ := ih _ _ hgc (by omega) (by omega)
            { s with cache := (cached s.cache (nd.inputs.getD (orient x).1 ∅, nd.inputs.getD (orient x).2 ∅)
              (calcK12 size nd.inputs out nd.remaining (orient x).1 (orient x).2)).2 } hs r2 hcut
          refine ⟨s', g1, ⟨g2, g3⟩, g4, ?_⟩
          intro rest hv hp hl hal
          have := g6 rest (by simpa [SearchNode.child] using hv) hp (by omega) hal.tail
          refine le_trans this (le_of_eq ?_)
          simp only [SearchNode.child, tagCost, ssaTrace, List.map_cons, List.sum_cons]
          rw [Nat.add_assoc]
      · rw [if_neg hcut]
        push Not at hcut
        refine ⟨_, rfl, ⟨hs, r2⟩, le_refl _, ?_⟩
        intro rest _ _ _ _
        refine le_trans hcut ?_
        simp only [tagCost, ssaTrace, List.map_cons, List.sum_cons]
        exact WithTop.coe_le_coe.mpr (by omega)

/-- **C18 with a memory limit (partial).** In a network without hyperedges, for any sizes, limit and set iteration order, `optimal` with a memory
limit returns a path none of whose steps but the last exceeds the limit, and no pairwise complete path whose results all stay within the
limit has a smaller total number of operations. If no axis is summed alone the last result (the output) may exceed the limit as well.

Missing: networks with hyperedges, for which the claim is false (`C18_counterexample`). -/
theorem C18_optimal_limit_partial (hh : NoHyperEdges ins out) (m : Nat) {order : SetOrder} (ho : OrderOK order) (h2 : 2 ≤ ins.length)
    {fuel : Nat} (hfuel : ins.length ≤ fuel) :
    ∃ path, optimal fuel size (some m) order ins out = some (.ok path) ∧ CompletePath ins.length path ∧
      (∀ s ∈ (resultSizes size out ins path).dropLast, s ≤ m) ∧
      ∀ q, CompletePath ins.length q → Pairwise2 q → (∀ s ∈ (resultSizes size out ins q).dropLast, s ≤ m) →
        (NoLoneLabels ins out ∨ ∀ s ∈ resultSizes size out ins q, s ≤ m) →
        searchFlops size out ins path ≤ searchFlops size out ins q := by
  obtain ⟨path, a1, a2, a3⟩ := C19_optimal_memory_partial (size := size) hh m ho h2 hfuel
  refine ⟨path, a1, a2, a3, ?_⟩
  have hne : ins ≠ [] := by rintro rfl; simp at h2
  obtain ⟨st, e1, e2, e3, e4, e5⟩ := optIter_minimal_limit (size := size) (cacheSafe_of_noHyper hh) (m := m) ho fuel (rootNode ins) _ good_root
    (by simp [rootNode]; omega) (by simp [rootNode]; omega)
    { bestFlops := ⊤, bestPath := [List.range ins.length], cache := [] } le_top cacheInv_nil (by exact WithTop.coe_lt_top _)
  obtain ⟨st', f1, f2⟩ := optimalSsa_complete (size := size) (output := out) (mem := some m) ho hne (fuel := fuel) (by omega)
  have : st' = st := by
    have := f1.symm.trans e1
    exact Option.some.inj this
  subst this
  obtain ⟨p, g1, g2, _, _, g5⟩ := C11_ssa_to_linear f2 (ssaComplete_ne_nil f2 h2)
  have hp : path = p := by
    unfold optimal optimalSsa at a1
    rw [e1] at a1
    simp only [Option.map_some, Option.some.injEq] at a1
    rw [g1] at a1
    cases a1; rfl
  subst hp
  intro q hq hqp hfit hlone
  obtain ⟨sq, s1, s2, s3, s4⟩ := ssa_of_pairwise hq hqp
  have htr := s4 Tag combineTag (tags ins.length) (tags_length _)
  have hal : Allowed size ins out m (ssaTrace combineTag (tags ins.length) sq) := by
    rw [(figures_complete hq).2.1] at hfit hlone
    rw [← List.map_dropLast] at hfit
    rw [htr]
    exact ⟨fun x hx => hfit _ (List.mem_map_of_mem hx), hlone.imp_right (fun h x hx => h _ (List.mem_map_of_mem hx))⟩
  have hle := e5 sq (by simpa [rootNode] using s1.1) s2 (by simpa [rootNode] using s3) hal
  have hle2 := le_trans e2 hle
  rw [(figures_complete g2).1, (figures_complete hq).1, (g5 Tag combineTag (tags ins.length) (tags_length _)).1, ← htr]
  have hle' := WithTop.coe_le_coe.mp hle2
  simpa [rootNode, tagCost] using hle'

-- C18 with a limit: 'ab,bc,cd,de->ae' with sizes 2, 6, 2, 6, 2; both orders of the chain in pairs from the ends fit in 4 elements
example : optimal 4 (fun c => if c % 2 = 0 then 2 else 6) (some 4) ascending [{0, 1}, {1, 2}, {2, 3}, {3, 4}] {0, 4} =
      some (.ok [[0, 1], [0, 1], [0, 1]]) ∧
    resultSizes (fun c => if c % 2 = 0 then 2 else 6) {0, 4} [{0, 1}, {1, 2}, {2, 3}, {3, 4}] [[0, 1], [0, 1], [0, 1]] = [4, 4, 4] := by
  decide +kernel

end OE.Props
