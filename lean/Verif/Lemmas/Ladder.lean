import Verif.Props.Assessed
import Verif.Props.CostLaws

/-! The order of the contractions of a search with one branch, and paths without outer products. -/

namespace OE.Paths
open OE OE.Py OE.Spec OE.Props

variable {cfg : BBCfg} {size : Nat → Nat} {ins : List (Finset Nat)} {out : Finset Nat} {order : SetOrder}

/-! ## One branch -/

theorem live_pair {store : List Tag} {rem : Finset Nat} {X Y : Tag} (h : ({X, Y} : Multiset Tag) ≤ liveTags store rem) :
    ∃ i ∈ rem, ∃ j ∈ rem, i ≠ j ∧ store[i]? = some X ∧ store[j]? = some Y := by
  have hX : X ∈ liveTags store rem := Multiset.mem_of_le h (by simp)
  obtain ⟨i, hi, e1⟩ := (Multiset.mem_filterMap _ _).mp hX
  have hi' : i ∈ rem := by simpa using hi
  have hsplit : liveTags store rem = X ::ₘ liveTags store (rem.erase i) := by
    unfold liveTags
    rw [← Multiset.filterMap_cons_some _ _ _ e1, Finset.erase_val, Multiset.cons_erase hi]
  rw [hsplit] at h
  have hY : Y ∈ liveTags store (rem.erase i) :=
    Multiset.mem_of_le ((Multiset.cons_le_cons_iff X).mp h) (by simp)
  obtain ⟨j, hj, e2⟩ := (Multiset.mem_filterMap _ _).mp hY
  have hj' : j ∈ rem.erase i := Finset.mem_val.mp hj
  exact ⟨i, hi', j, Finset.mem_of_mem_erase hj', fun e => Finset.ne_of_mem_erase hj' e.symm, e1, e2⟩

/-- The candidates of a search that has not found a path: if one of them has no common label, no remaining pair has. -/
theorem candidates_inner (ho : OrderOK order) {n : Nat} {nd : SearchNode} {sz : Nat} (hnd : GoodPath n nd) (hcard : 1 < nd.remaining.card)
    {st : BBSt} (h : BBInv n nd.inputs.length st) (hnone : st.path = none) :
    ∀ c ∈ (candidates cfg size out none order nd sz st).1, Disjoint (nd.inputs.getD c.i ∅) (nd.inputs.getD c.j ∅) →
      ∀ i ∈ nd.remaining, ∀ j ∈ nd.remaining, i ≠ j → Disjoint (nd.inputs.getD i ∅) (nd.inputs.getD j ∅) := by
  have hne : nd.remaining ≠ ∅ := by intro h0; rw [h0] at hcard; simp at hcard
  have hpairs := pairs_ok ho nd.path nd.remaining
  intro c hc hdis i hi j hj hij
  have hin : orient (i, j) ∈ (combinations2 (order nd.path nd.remaining)).map orient := by
    rcases combinations2_complete (((ho nd.path nd.remaining).2 i).mpr hi) (((ho nd.path nd.remaining).2 j).mpr hj) hij with h | h
    · exact List.mem_map.mpr ⟨_, h, rfl⟩
    · refine List.mem_map.mpr ⟨_, h, ?_⟩
      unfold orient
      simp only
      split <;> split <;> first | rfl | (simp only [Prod.mk.injEq]; omega)
  have hor : Disjoint (nd.inputs.getD (orient (i, j)).1 ∅) (nd.inputs.getD (orient (i, j)).2 ∅) →
      Disjoint (nd.inputs.getD i ∅) (nd.inputs.getD j ∅) := by
    unfold orient
    simp only
    split
    · exact fun h => h.symm
    · exact fun h => h
  unfold candidates at hc
  simp only at hc
  generalize (combinations2 (order nd.path nd.remaining)).map orient = pairs at hpairs hin hc
  generalize hl1 : pairs.filter (fun ij : Nat × Nat => ¬ Disjoint (nd.inputs.getD ij.1 ∅) (nd.inputs.getD ij.2 ∅)) = l1 at hc
  by_contra hcon
  have hmem : orient (i, j) ∈ l1 := by
    rw [← hl1, List.mem_filter]
    exact ⟨hin, by simpa using fun h => hcon (hor h)⟩
  have hl1p : ∀ x ∈ l1, x.1 ∈ nd.remaining ∧ x.2 ∈ nd.remaining ∧ x.1 ≠ x.2 := by
    intro x hx
    rw [← hl1] at hx
    exact hpairs x (List.mem_filter.mp hx).1
  obtain ⟨a1, a2, a3, a4⟩ := assess_fold (cfg := cfg) (size := size) (output := out) (mem := none) (sz := sz) ho hnd hne l1 hl1p
    ([], st) (by simp) (h.mono (by omega))
  have hfirst : (l1.foldl (assessStep cfg size out none order nd sz) ([], st)).1 ≠ [] := by
    rcases a4 (List.ne_nil_of_mem hmem) h with h | h
    · exact h
    · rw [assess_fold_path] at h
      exact absurd hnone h
  rw [if_neg hfirst] at hc
  obtain ⟨new, b1, b2⟩ := assess_fold_pairs (cfg := cfg) (size := size) (out := out) (mem := none) (order := order) nd sz l1 ([], st)
  rw [b1, List.nil_append] at hc
  have hc' : (c.i, c.j) ∈ l1 := b2.subset (List.mem_map.mpr ⟨c, hc, rfl⟩)
  rw [← hl1, List.mem_filter] at hc'
  have := hc'.2
  simp only [decide_eq_true_eq] at this
  exact this hdis

/-- A search with one branch contracts tensors with common labels first. -/
theorem branchOne_trace (hsafe : CacheSafe ins out) (ho : OrderOK order) (h1 : cfg.nbranch = some 1) (fuel : Nat) (nd : SearchNode) (store : List Tag)
    (sz : Nat) (hnd : NodeTrue size ins out store nd sz) (hcard : 0 < nd.remaining.card) (hfuel : nd.remaining.card ≤ fuel + 1) (st : BBSt)
    (hst : BBTrue size ins out st) (hinv : BBInv ins.length nd.inputs.length st) (hnone : st.path = none) (st' : BBSt)
    (h : branchIter cfg size out none order fuel nd sz st = some st') :
    ∃ rest, st'.path = some (nd.path ++ rest) ∧ InnerTr ins out (liveTags store nd.remaining) (ssaTrace combineTag store rest) := by
  induction fuel generalizing nd store sz st with
  | zero =>
    rw [branchIter, if_pos (by omega)] at h
    cases h
    exact ⟨[], by simp, trivial⟩
  | succ fuel ih =>
    by_cases hc : nd.remaining.card = 1
    · rw [branchIter, if_pos hc] at h
      cases h
      exact ⟨[], by simp, trivial⟩
    rw [branchIter, if_neg hc] at h
    simp only [h1] at h
    have hcard2 : 1 < nd.remaining.card := by omega
    obtain ⟨a1, -, -, a4, -, -⟩ := candidates_true (cfg := cfg) hsafe ho hnd hst
    obtain ⟨b1, b2, b3⟩ := candidates_inv (cfg := cfg) (size := size) (output := out) (mem := none) (sz := sz) ho hnd.toGoodPath hcard2 hinv
    have hin := candidates_inner (cfg := cfg) (size := size) (out := out) (sz := sz) ho hnd.toGoodPath hcard2 hinv hnone
    have hpath := candidates_path (cfg := cfg) (size := size) (out := out) (order := order) nd sz st
    generalize candidates cfg size out none order nd sz st = r at a1 a4 b1 b2 b3 hin hpath h
    obtain ⟨cands, s⟩ := r
    simp only at a1 a4 b1 b2 b3 hin hpath h
    have hne : cands ≠ [] := by
      rcases b3 with h | h
      · exact h
      · exact absurd (hpath.trans hnone) h
    rcases visited_head (nbranch := some 1) (by simp) cands with ⟨v1, -⟩ | ⟨c, cs, v1, -⟩
    · exfalso
      apply hne
      unfold visited at v1
      simp only at v1
      have hl := (List.perm_insertionSort (fun a b : Cand => a.le b = true) cands).length_eq
      generalize cands.insertionSort (fun a b => a.le b = true) = l' at v1 hl
      cases l' with
      | nil => exact List.length_eq_zero_iff.mp hl.symm
      | cons a l' => simp at v1
    · rw [v1] at h
      have hcm : c ∈ cands := mem_visited (nbranch := some 1) (by rw [v1]; simp)
      obtain ⟨hi, hj, hij, hk, hf, hs, -⟩ := a4 c hcm
      have hrun : branchIter cfg size out none order fuel (nd.child c.i c.j c.k12 c.newFlops) c.newSize s = some st' := by
        rw [List.foldlM_cons] at h
        cases hx : branchIter cfg size out none order fuel (nd.child c.i c.j c.k12 c.newFlops) c.newSize s with
        | none => rw [hx] at h; cases h
        | some x => rw [hx] at h; exact h
      have hcc := child_remaining_card hnd.toGoodPath hi hj hij c.k12 c.newFlops
      have hnode : NodeTrue size ins out (store ++ [combineTag (pick store [c.i, c.j])]) (nd.child c.i c.j c.k12 c.newFlops) c.newSize := by
        rw [hk, hf, hs]; exact hnd.child hi hj hij
      obtain ⟨rest, g1, g2⟩ := ih _ _ _ hnode (by omega) (by omega) s a1 (by
        have : (nd.child c.i c.j c.k12 c.newFlops).inputs.length = nd.inputs.length + 1 := by simp [SearchNode.child]
        rw [this]; exact b1) (hpath.trans hnone) hrun
      refine ⟨[c.i, c.j] :: rest, by rw [g1]; simp [SearchNode.child], ?_⟩
      rw [ssaTrace]
      refine ⟨?_, ?_⟩
      · rintro ⟨X, Y, hle, hd⟩
        obtain ⟨i, hi', j, hj', hij', e1, e2⟩ := live_pair hle
        obtain ⟨U, V, u1, u2, -, hp, f1, f2⟩ := hnd.toGood.pair hi hj hij
        obtain ⟨U', V', u1', u2', -, -, f1', f2'⟩ := hnd.toGood.pair hi' hj' hij'
        rw [e1] at u1'; rw [e2] at u2'
        cases u1'; cases u2'
        refine ⟨U, V, by rw [hp], ?_⟩
        intro hdis
        rw [← f1, ← f2] at hdis
        have := hin c hcm hdis i hi' j hj' hij'
        rw [f1', f2'] at this
        exact hd this
      · rw [liveTags_child hnd.toGood hi hj hij c.k12 c.newFlops] at g2
        exact g2

theorem innerFirst_of_innerTr (q : Path) {l : List Tag} (hpart : Part ins.length l) (hv : ValidPath l.length q) (hp2 : Pairwise2 q)
    (htr : InnerTr ins out (Multiset.ofList l) (linTrace combineTag l q)) : InnerFirst out (l.map (termOf ins out)) q := by
  induction q generalizing l with
  | nil => trivial
  | cons p ps ih =>
    obtain ⟨hv1, hv2⟩ := hv
    obtain ⟨ht1, ht2⟩ := htr
    refine ⟨?_, ?_⟩
    · rintro ⟨i, j, s, t, hij, e1, e2, hd⟩
      rw [List.getElem?_map] at e1 e2
      obtain ⟨X, f1, rfl⟩ := Option.map_eq_some_iff.mp e1
      obtain ⟨Y, f2, rfl⟩ := Option.map_eq_some_iff.mp e2
      have hle : ({X, Y} : Multiset Tag) ≤ Multiset.ofList l := by
        have k1 := (List.getElem?_eq_some_iff.mp f1).1
        have k2 := (List.getElem?_eq_some_iff.mp f2).1
        have := pick_pair_le (l := l) (p := List.range l.length) (i := i) (j := j) (by simpa using k1) (by simpa using k2) hij f1 f2
        have hall : pick l (List.range l.length) = Multiset.ofList l := by
          unfold pick
          congr 1
          exact filterMap_range l
        rwa [hall] at this
      obtain ⟨A, B, hm, hAB⟩ := ht1 ⟨X, Y, hle, hd⟩
      obtain ⟨a, b, rfl⟩ : ∃ a b, p = [a, b] := by
        have := hp2 p (by simp)
        match p, this with
        | [a, b], _ => exact ⟨a, b, rfl⟩
      obtain ⟨_, hnd, hlt⟩ := hv1
      have hab : a ≠ b := by simpa using hnd
      have ha := hlt a (by simp)
      have hb := hlt b (by simp)
      have hpk : pick l [a, b] = Multiset.ofList [l[a], l[b]] := by
        unfold pick
        rw [List.filterMap_cons_some (List.getElem?_eq_getElem ha), List.filterMap_cons_some (List.getElem?_eq_getElem hb)]
        rfl
      rw [hpk] at hm
      obtain ⟨i', j', h1, h2, h3⟩ := pair_positions hm
      have hlt2 : ∀ k (Z : Tag), [l[a], l[b]][k]? = some Z → k = 0 ∧ l[a] = Z ∨ k = 1 ∧ l[b] = Z := by
        intro k Z hk
        match k with
        | 0 => left; simpa using hk
        | 1 => right; simpa using hk
        | k + 2 => simp at hk
      have hga : (l.map (termOf ins out))[a]? = some (termOf ins out l[a]) := by rw [List.getElem?_map, List.getElem?_eq_getElem ha]; rfl
      have hgb : (l.map (termOf ins out))[b]? = some (termOf ins out l[b]) := by rw [List.getElem?_map, List.getElem?_eq_getElem hb]; rfl
      refine ⟨a, b, _, _, by simp, by simp, hab, hga, hgb, ?_⟩
      rcases hlt2 i' A h2 with ⟨x1, x2⟩ | ⟨x1, x2⟩ <;> rcases hlt2 j' B h3 with ⟨y1, y2⟩ | ⟨y1, y2⟩
      · omega
      · rw [x2, y2]; exact hAB
      · rw [x2, y2]; exact fun h => hAB h.symm
      · omega
    · rw [afterStep_tags hpart hv1]
      have hlen : (unselected l p ++ [combineTag (pick l p)]).length = l.length + 1 - p.length := by
        have := unselected_length hv1.2.1 hv1.2.2
        rw [List.length_append, List.length_singleton]; omega
      obtain ⟨sel, hperm, hpick, _, _⟩ := select hv1
      have hl : Multiset.ofList l - pick l p = Multiset.ofList (unselected l p) := by
        rw [hpick, ← Multiset.coe_eq_coe.mpr hperm, ← Multiset.coe_add, add_tsub_cancel_left]
      refine ih (part_step hpart hv1) (by rw [hlen]; exact hv2) (fun x hx => hp2 x (by simp [hx])) ?_
      rw [hl] at ht2
      exact ht2

/-- `branch` with one branch. -/
theorem branch_one_innerFirst (hh : NoHyperEdges ins out) (h1 : cfg.nbranch = some 1) (ho : OrderOK order) (h2 : 2 ≤ ins.length) {fuel : Nat}
    (hfuel : ins.length ≤ fuel) :
    ∃ path, branch cfg fuel size none order ins out = some (.ok path) ∧ CompletePath ins.length path ∧ Pairwise2 path ∧ InnerFirst out ins path := by
  have hsafe := cacheSafe_of_noHyper hh
  have hb : cfg.nbranch ≠ some 0 := by rw [h1]; simp
  have hne : ins ≠ [] := by rintro rfl; simp at h2
  have hroot : NodeTrue size ins out (tags ins.length) (rootNode ins) 0 :=
    { good_root with pairwise := by intro p hp; simp [rootNode] at hp, peak := rfl }
  have hfresh : BBTrue size ins out BBSt.fresh := ⟨cacheInv_nil, by simp [BBSt.fresh, Dict.get?], fun _ => ⟨rfl, rfl⟩, by simp [BBSt.fresh]⟩
  obtain ⟨st, p, path, e1, e2, -, -, e5, e6, e7, -, -⟩ := branch_run (cfg := cfg) (size := size) hsafe ho hb h2 hfuel
  refine ⟨path, e2, e6, e7, ?_⟩
  obtain ⟨path', st', p', g1, -, g3, g4, g5, -, g7⟩ := branchCall_complete cfg size none ho hb out hne hfuel (fresh_ready _)
  have hrun : branchCall cfg fuel size none order ins out BBSt.fresh = some (.ok path', st') := g1
  have hst : st' = st ∧ path' = path := by
    unfold branch at e2
    rw [if_neg hb, hrun] at e2
    refine ⟨?_, by simpa using e2⟩
    unfold branchCall at g1
    have : branchIter cfg size out none order fuel (rootNode ins) 0 { BBSt.fresh with cache := [] } = some st := e1
    rw [this] at g1
    simp only [Option.map_some, Option.some.injEq, Prod.mk.injEq] at g1
    exact g1.2.symm
  obtain ⟨rfl, rfl⟩ := hst
  obtain ⟨rest, t1, t2⟩ := branchOne_trace (cfg := cfg) (size := size) hsafe ho h1 fuel (rootNode ins) _ 0 hroot (by simp [rootNode]; omega)
    (by simp [rootNode]; omega) BBSt.fresh hfresh ((fresh_ready ins.length).mono (Nat.zero_le _)) rfl st' e1
  rw [g3] at t1
  have hrest : rest = p' := by simpa [rootNode] using (Option.some.inj t1).symm
  subst hrest
  obtain ⟨q, f1, f2, _, f4, f5⟩ := C11_ssa_to_linear g4 (ssaComplete_ne_nil g4 h2)
  rw [g5] at f1
  cases f1
  have hlive : liveTags (tags ins.length) (rootNode ins).remaining = Multiset.ofList (tags ins.length) := by
    show liveTags (tags ins.length) (Finset.range ins.length) = _
    unfold liveTags
    rw [Finset.range_val, ← Multiset.coe_range, Multiset.filterMap_coe]
    congr 1
    unfold tags
    rw [← List.filterMap_eq_map]
    apply List.filterMap_congr
    intro a ha
    simp [List.mem_range.mp ha]
  rw [hlive, ← (f5 Tag combineTag (tags ins.length) (tags_length _)).1] at t2
  have := innerFirst_of_innerTr path' (part_tags _) (by rw [tags_length]; exact completePath_valid f2) e7 t2
  rwa [tags_terms] at this

/-! ## Networks that hang together -/

/-- However the tensors are divided into two groups, the groups share a summed label. -/
def Conn (out : Finset Nat) (l : List (Finset Nat)) : Prop :=
  ∀ a b, (a ++ b).Perm l → a ≠ [] → b ≠ [] → ∃ s ∈ a, ∃ t ∈ b, ∃ c, c ∉ out ∧ c ∈ s ∧ c ∈ t

theorem conn_of_connected (h : Connected ins out) : Conn out ins := by
  intro a b hp ha hb
  have h' := connected_perm hp.symm h
  have ha' := List.length_pos_iff.mpr ha
  have hb' := List.length_pos_iff.mpr hb
  have hch := h' 0 (by rw [List.length_append]; omega) a.length (by rw [List.length_append]; omega)
  have key : ∀ i j, Chain (a ++ b) out (Finset.range (a ++ b).length) i j → i < a.length → a.length ≤ j → ∃ s ∈ a, ∃ t ∈ b, ∃ c, c ∉ out ∧ c ∈ s ∧ c ∈ t := by
    intro i j hc hi hj
    induction hc with
    | refl _ => omega
    | @step j k h1 h2 h3 ih =>
      by_cases hjl : a.length ≤ j
      · exact ih hjl
      · have hk : k < (a ++ b).length := by simpa using h3
        rw [List.length_append] at hk
        obtain ⟨c, x1, x2, x3⟩ := h2
        rw [List.getD_append _ _ _ _ (by omega)] at x1
        rw [List.getD_append_right _ _ _ _ hj] at x2
        refine ⟨_, ?_, _, ?_, c, x3, x1, x2⟩
        · rw [List.getD_eq_getElem _ _ (by omega : j < a.length)]; exact List.getElem_mem _
        · rw [List.getD_eq_getElem _ _ (by omega : k - a.length < b.length)]; exact List.getElem_mem _
  exact key 0 a.length hch ha' (le_refl _)

theorem conn_step {l : List (Finset Nat)} (h : Conn out l) {p : List Nat} (hv : ValidStep l.length p) : Conn out (afterStep out l p) := by
  obtain ⟨sel, hperm, hpick, hlen, hsel⟩ := select hv
  have hselne : sel ≠ [] := by
    intro h0
    rw [h0] at hlen
    exact hv.1 (List.length_eq_zero_iff.mp hlen.symm)
  have hlab : ∀ s ∈ sel, ∀ c ∈ s, ∀ t ∈ unselected l p, c ∈ t → c ∈ keptLabels out l p := by
    intro s hs c hcs t ht hct
    have : some s ∈ (sortedDesc p).map (fun x => l[x]?) := by rw [← hsel]; exact List.mem_map.mpr ⟨s, hs, rfl⟩
    obtain ⟨i, hi, e⟩ := List.mem_map.mp this
    exact Finset.mem_filter.mpr ⟨mem_labelsAt.mpr ⟨i, (sortedDesc_perm p).mem_iff.mp hi, s, e, hcs⟩, Or.inr ⟨t, ht, hct⟩⟩
  have main : ∀ a b, (a ++ b).Perm (afterStep out l p) → keptLabels out l p ∈ a → b ≠ [] →
      ∃ s ∈ a, ∃ t ∈ b, ∃ c, c ∉ out ∧ c ∈ s ∧ c ∈ t := by
    intro a b hab hka hb
    obtain ⟨a', ha'⟩ : ∃ a', a.Perm (keptLabels out l p :: a') := ⟨_, List.perm_cons_erase hka⟩
    have hp' : (a' ++ b).Perm (unselected l p) := by
      have h1 : (keptLabels out l p :: (a' ++ b)).Perm (keptLabels out l p :: unselected l p) := by
        refine ((ha'.append_right b).symm.trans hab).trans ?_
        unfold afterStep
        exact List.perm_append_singleton _ _
      exact (List.perm_cons _).mp h1
    obtain ⟨s, hs, t, ht, c, h1, h2, h3⟩ := h (sel ++ a') b (by
      rw [List.append_assoc]
      exact (hp'.append_left sel).trans hperm) (by simp [hselne]) hb
    rcases List.mem_append.mp hs with hs | hs
    · exact ⟨_, hka, t, ht, c, h1, hlab s hs c h2 t (hp'.mem_iff.mp (List.mem_append_right _ ht)) h3, h3⟩
    · exact ⟨s, ha'.mem_iff.mpr (List.mem_cons_of_mem _ hs), t, ht, c, h1, h2, h3⟩
  intro a b hab ha hb
  have hk : keptLabels out l p ∈ a ++ b := hab.mem_iff.mpr (by simp [afterStep])
  rcases List.mem_append.mp hk with hk | hk
  · exact main a b hab hk hb
  · obtain ⟨s, hs, t, ht, c, h1, h2, h3⟩ := main b a (List.perm_append_comm.trans hab) hk ha
    exact ⟨t, ht, s, hs, c, h1, h3, h2⟩

theorem afterStep_length {l : List (Finset Nat)} {p : List Nat} (hv : ValidStep l.length p) : (afterStep out l p).length = l.length + 1 - p.length := by
  have := unselected_length hv.2.1 hv.2.2
  unfold afterStep
  rw [List.length_append, List.length_singleton]; omega

/-- Two of the tensors share a summed label. -/
theorem conn_pair {l : List (Finset Nat)} (h : Conn out l) (h2 : 2 ≤ l.length) :
    ∃ (i j : Nat) (s t : Finset Nat) (c : Nat), i ≠ j ∧ l[i]? = some s ∧ l[j]? = some t ∧ c ∉ out ∧ c ∈ s ∧ c ∈ t := by
  match l, h2 with
  | s :: t :: l, _ =>
    obtain ⟨s', hs, t', ht, c, h1, h2, h3⟩ := h [s] (t :: l) (List.Perm.refl _) (by simp) (by simp)
    rw [List.mem_singleton] at hs
    subst hs
    obtain ⟨k, hk⟩ := List.mem_iff_getElem?.mp ht
    exact ⟨0, k + 1, s', t', c, by omega, rfl, by simpa using hk, h1, h2, h3⟩

/-- Every tensor has a summed label. -/
theorem conn_label {l : List (Finset Nat)} (h : Conn out l) (h2 : 2 ≤ l.length) {s : Finset Nat} (hs : s ∈ l) : ∃ c, c ∉ out ∧ c ∈ s := by
  have hp := List.perm_cons_erase hs
  obtain ⟨s', hs', t, _, c, h1, h3, _⟩ := h [s] (l.erase s) hp.symm (by simp) (by
    intro h0
    have := hp.length_eq
    rw [h0] at this
    simp at this
    omega)
  rw [List.mem_singleton] at hs'
  subst hs'
  exact ⟨c, h1, h3⟩

theorem noOuter_of_connectedFirst {inner : Nat → Prop} (hinner : ∀ c, inner c ↔ c ∉ out) (q : Path) {l : List (Finset Nat)} (hv : ValidPath l.length q)
    (hp2 : Pairwise2 q) (hc : Conn out l) (h : ConnectedFirst inner out l q) : NoOuterPath out l q := by
  induction q generalizing l with
  | nil => trivial
  | cons p ps ih =>
    obtain ⟨hv1, hv2⟩ := hv
    obtain ⟨c1, c2⟩ := h
    obtain ⟨a, b, rfl⟩ : ∃ a b, p = [a, b] := by
      have := hp2 p (by simp)
      match p, this with
      | [a, b], _ => exact ⟨a, b, rfl⟩
    have hab : a ≠ b := by simpa using hv1.2.1
    have ha := hv1.2.2 a (by simp)
    have hb := hv1.2.2 b (by simp)
    refine ⟨?_, ih (by rw [afterStep_length hv1]; exact hv2) (fun x hx => hp2 x (by simp [hx])) (conn_step hc hv1) c2⟩
    obtain ⟨i, j, s, t, c, x1, x2, x3, x4, x5, x6⟩ := conn_pair hc (by omega)
    obtain ⟨i', j', s', t', y1, y2, y3, y4, y5, y6⟩ := c1 ⟨i, j, s, t, c, x1, x2, x3, (hinner c).mpr x4, x5, x6⟩
    have hboth : ∃ c, c ∉ out ∧ c ∈ s' ∧ c ∈ t' := by
      rcases y6 with rfl | ⟨c, z1, z2, z3⟩
      · obtain ⟨c, z1, z2⟩ := conn_label hc (by omega) (List.mem_of_getElem? y4)
        exact ⟨c, z1, z2, z2⟩
      · exact ⟨c, (hinner c).mp z1, z2, z3⟩
    obtain ⟨c, z1, z2, z3⟩ := hboth
    refine ⟨c, z1, ?_⟩
    intro k hk
    have hk' : k = i' ∨ k = j' := by
      simp only [List.mem_cons, List.not_mem_nil, or_false] at hk y1 y2
      omega
    rcases hk' with rfl | rfl
    · rw [List.getD_eq_getElem?_getD, y4]; exact z2
    · rw [List.getD_eq_getElem?_getD, y5]; exact z3

/-- The output labels of a list of tensors are not shared. -/
def Unshared (out : Finset Nat) (l : List (Finset Nat)) : Prop := ∀ c ∈ out, l.countP (fun s => c ∈ s) ≤ 1

theorem unshared_step {l : List (Finset Nat)} (h : Unshared out l) {p : List Nat} (hv : ValidStep l.length p) : Unshared out (afterStep out l p) := by
  intro c hc
  obtain ⟨sel, hperm, hpick, hlen, hsel⟩ := select hv
  have h1 := h c hc
  rw [← hperm.countP_eq, List.countP_append] at h1
  unfold afterStep
  rw [List.countP_append, List.countP_singleton]
  split
  · rename_i hk
    have hk' : c ∈ keptLabels out l p := by simpa using hk
    obtain ⟨i, hi, s, hs, hcs⟩ := mem_labelsAt.mp (Finset.mem_filter.mp hk').1
    have : some s ∈ sel.map some := by
      rw [hsel]
      exact List.mem_map.mpr ⟨i, (sortedDesc_perm p).mem_iff.mpr hi, hs⟩
    have hs' : s ∈ sel := by simpa using this
    have : 0 < sel.countP (fun s => decide (c ∈ s)) := List.countP_pos_iff.mpr ⟨s, hs', by simpa using hcs⟩
    omega
  · omega

theorem unshared_pair {l : List (Finset Nat)} (h : Unshared out l) {i j : Nat} {s t : Finset Nat} (hij : i ≠ j) (hi : l[i]? = some s)
    (hj : l[j]? = some t) {c : Nat} (hs : c ∈ s) (ht : c ∈ t) : c ∉ out := by
  intro hc
  have key : ∀ (i j : Nat) (s t : Finset Nat) (l : List (Finset Nat)), i < j → l[i]? = some s → l[j]? = some t → c ∈ s → c ∈ t →
      2 ≤ l.countP (fun s => decide (c ∈ s)) := by
    intro i
    induction i with
    | zero =>
      intro j s t l hij hi hj hs ht
      match l, j with
      | x :: l, j + 1 =>
        simp only [List.getElem?_cons_zero, Option.some.injEq] at hi
        subst hi
        rw [List.getElem?_cons_succ] at hj
        rw [List.countP_cons_of_pos (by simpa using hs)]
        have : 0 < l.countP (fun s => decide (c ∈ s)) := List.countP_pos_iff.mpr ⟨t, List.mem_of_getElem? hj, by simpa using ht⟩
        omega
    | succ i ih =>
      intro j s t l hij hi hj hs ht
      match l, j with
      | x :: l, j + 1 =>
        rw [List.getElem?_cons_succ] at hi hj
        have := ih j s t l (by omega) hi hj hs ht
        rw [List.countP_cons]
        omega
  have h1 := h c hc
  rcases Nat.lt_or_gt_of_ne hij with h' | h'
  · have := key i j s t l h' hi hj hs ht; omega
  · have := key j i t s l h' hj hi ht hs; omega

theorem noOuter_of_innerFirst (q : Path) {l : List (Finset Nat)} (hv : ValidPath l.length q)
    (hp2 : Pairwise2 q) (hc : Conn out l) (hu : Unshared out l) (h : InnerFirst out l q) : NoOuterPath out l q := by
  apply noOuter_of_connectedFirst (inner := fun c => c ∉ out) (fun c => Iff.rfl) q hv hp2 hc
  clear hc
  induction q generalizing l with
  | nil => trivial
  | cons p ps ih =>
    obtain ⟨hv1, hv2⟩ := hv
    obtain ⟨c1, c2⟩ := h
    refine ⟨?_, ih (by rw [afterStep_length hv1]; exact hv2) (fun x hx => hp2 x (by simp [hx])) (unshared_step hu hv1) c2⟩
    rintro ⟨i, j, s, t, c, h1, h2, h3, h4, h5, h6⟩
    obtain ⟨i', j', s', t', y1, y2, y3, y4, y5, y6⟩ := c1 ⟨i, j, s, t, h1, h2, h3, Finset.not_disjoint_iff.mpr ⟨c, h5, h6⟩⟩
    obtain ⟨c', z1, z2⟩ := Finset.not_disjoint_iff.mp y6
    exact ⟨i', j', s', t', y1, y2, y3, y4, y5, Or.inr ⟨c', unshared_pair hu y3 y4 y5 z1 z2, z1, z2⟩⟩

end OE.Paths
