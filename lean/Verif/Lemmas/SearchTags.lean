import Verif.Lemmas.SearchNode
import Verif.Lemmas.DictLemmas

/-! Nodes of the searches, with the sets of inputs each tensor is made of; soundness of `result_cache`. -/

namespace OE.Paths
open OE OE.Py OE.Spec OE.Props

variable {size : Nat → Nat} {ins : List (Finset Nat)} {out : Finset Nat}

/-- All tensors ever made along a path with static single assignment ids. -/
def ssaStore {α : Type} (combine : Multiset α → α) : List α → List (List Nat) → List α
  | l, [] => l
  | l, p :: ps => ssaStore combine (l ++ [combine (pick l p)]) ps

theorem ssaStore_append {α : Type} (combine : Multiset α → α) (l : List α) (a b : List (List Nat)) :
    ssaStore combine l (a ++ b) = ssaStore combine (ssaStore combine l a) b := by
  induction a generalizing l with
  | nil => rfl
  | cons p ps ih => exact ih _

theorem ssaTrace_append {α : Type} (combine : Multiset α → α) (l : List α) (a b : List (List Nat)) :
    ssaTrace combine l (a ++ b) = ssaTrace combine l a ++ ssaTrace combine (ssaStore combine l a) b := by
  induction a generalizing l with
  | nil => rfl
  | cons p ps ih => simp only [List.cons_append, ssaTrace, ssaStore, ih]

/-! ## Pairs -/

/-- Two disjoint non-empty tensors of a pairwise contraction: the flag tells whether it is an input. -/
structure GoodPair (X Y : Tag) : Prop where
  disj : Disjoint X.1 Y.1
  left : X.1.Nonempty ∧ X.2 = decide (1 < X.1.card)
  right : Y.1.Nonempty ∧ Y.2 = decide (1 < Y.1.card)

theorem mem_pair {X Y t : Tag} : t ∈ ({X, Y} : Multiset Tag) ↔ t = X ∨ t = Y := by simp

theorem mLabels_pair (X Y : Tag) : mLabels ins out {X, Y} = termOf ins out X ∪ termOf ins out Y := by
  ext c
  rw [mem_mLabels, Finset.mem_union]
  constructor
  · rintro ⟨t, ht, hc⟩
    rcases mem_pair.mp ht with rfl | rfl
    · exact Or.inl hc
    · exact Or.inr hc
  · rintro (h | h)
    · exact ⟨X, by simp, h⟩
    · exact ⟨Y, by simp, h⟩

theorem countP_pair (p : Tag → Prop) [DecidablePred p] (X Y : Tag) : 1 < Multiset.countP p {X, Y} ↔ p X ∧ p Y := by
  have : ({X, Y} : Multiset Tag) = Multiset.ofList [X, Y] := rfl
  rw [this, Multiset.coe_countP, List.countP_cons, List.countP_cons, List.countP_nil]
  by_cases h1 : p X <;> by_cases h2 : p Y <;> simp [h1, h2]

theorem gFlops_pair (X Y : Tag) : gFlops size ins out {X, Y} =
    flopsOf size (termOf ins out X ∪ termOf ins out Y)
      (decide ((termOf ins out X ∩ termOf ins out Y) \ termOf ins out (combineTag {X, Y}) ≠ ∅)) 2 := by
  unfold gFlops flopsOf Paths.sizeOf
  rw [mLabels_pair]
  have hcard : (({X, Y} : Multiset Tag)).card = 2 := rfl
  rw [hcard]
  congr 1
  have : (termOf ins out X ∪ termOf ins out Y).filter (fun c => c ∉ termOf ins out (combineTag {X, Y}) ∧
      1 < Multiset.countP (fun t => c ∈ termOf ins out t) {X, Y}) =
      (termOf ins out X ∩ termOf ins out Y) \ termOf ins out (combineTag {X, Y}) := by
    ext c
    simp only [Finset.mem_filter, countP_pair, Finset.mem_union, Finset.mem_sdiff, Finset.mem_inter]
    tauto
  rw [this]
  generalize (termOf ins out X ∩ termOf ins out Y) \ termOf ins out (combineTag {X, Y}) = s
  by_cases h : s = ∅ <;> simp [h]

theorem goodPair_combine {X Y : Tag} (h : GoodPair X Y) :
    (combineTag {X, Y}).1 = X.1 ∪ Y.1 ∧ (combineTag {X, Y}).1.Nonempty ∧
      (combineTag {X, Y}).2 = decide (1 < (combineTag {X, Y}).1.card) := by
  have h1 : (combineTag {X, Y}).1 = X.1 ∪ Y.1 := by
    ext a
    rw [mem_combineTag, Finset.mem_union]
    constructor
    · rintro ⟨t, ht, hc⟩
      rcases mem_pair.mp ht with rfl | rfl
      · exact Or.inl hc
      · exact Or.inr hc
    · rintro (h | h)
      · exact ⟨X, by simp, h⟩
      · exact ⟨Y, by simp, h⟩
  refine ⟨h1, ?_, ?_⟩
  · rw [h1]; exact h.left.1.mono Finset.subset_union_left
  · rw [h1, Finset.card_union_of_disjoint h.disj]
    have := h.left.1.card_pos
    have := h.right.1.card_pos
    show true = _
    simp; omega

/-! ## Good nodes -/

structure Good (size : Nat → Nat) (ins : List (Finset Nat)) (out : Finset Nat) (store : List Tag) (nd : SearchNode) : Prop
    extends GoodPath ins.length nd where
  store_eq : store = ssaStore combineTag (tags ins.length) nd.path
  inputs_eq : nd.inputs = store.map (termOf ins out)
  flag : ∀ i ∈ nd.remaining, ∀ t, store[i]? = some t → t.1.Nonempty ∧ t.2 = decide (1 < t.1.card)
  disj : ∀ i ∈ nd.remaining, ∀ j ∈ nd.remaining, i ≠ j → ∀ t u, store[i]? = some t → store[j]? = some u → Disjoint t.1 u.1
  cover : ∀ a, a < ins.length ↔ ∃ i ∈ nd.remaining, ∃ t, store[i]? = some t ∧ a ∈ t.1
  flops_eq : nd.flops = ((ssaTrace combineTag (tags ins.length) nd.path).map (gFlops size ins out)).sum

theorem tags_get {n i : Nat} {t : Tag} : (tags n)[i]? = some t ↔ i < n ∧ t = ({i}, false) := by
  unfold tags
  rw [List.getElem?_map]
  by_cases hi : i < n
  · rw [List.getElem?_eq_getElem (by simpa using hi)]
    simp [hi, eq_comm]
  · rw [List.getElem?_eq_none (by simpa using hi)]
    simp [hi]

theorem good_root : Good size ins out (tags ins.length) (rootNode ins) := by
  refine { goodPath_root ins with store_eq := rfl, inputs_eq := (tags_terms ins out).symm, flag := ?_, disj := ?_, cover := ?_, flops_eq := rfl }
  · intro i _ t ht
    obtain ⟨_, rfl⟩ := tags_get.mp ht
    simp
  · intro i _ j _ hij t u ht hu
    obtain ⟨_, rfl⟩ := tags_get.mp ht
    obtain ⟨_, rfl⟩ := tags_get.mp hu
    simpa using hij
  · intro a
    constructor
    · intro ha
      exact ⟨a, by simpa [rootNode] using ha, _, tags_get.mpr ⟨ha, rfl⟩, by simp⟩
    · rintro ⟨i, hi, t, ht, ha⟩
      obtain ⟨hi', rfl⟩ := tags_get.mp ht
      simp only [Finset.mem_singleton] at ha
      omega

section
variable {store : List Tag} {nd : SearchNode}

theorem Good.len (h : Good size ins out store nd) : nd.inputs.length = store.length := by rw [h.inputs_eq, List.length_map]

/-- The pair at two remaining positions. -/
theorem Good.pair (h : Good size ins out store nd) {i j : Nat} (hi : i ∈ nd.remaining) (hj : j ∈ nd.remaining) (hij : i ≠ j) :
    ∃ X Y, store[i]? = some X ∧ store[j]? = some Y ∧ GoodPair X Y ∧ pick store [i, j] = {X, Y} ∧
      nd.inputs.getD i ∅ = termOf ins out X ∧ nd.inputs.getD j ∅ = termOf ins out Y := by
  have hi' := h.lt i hi
  have hj' := h.lt j hj
  rw [h.len] at hi' hj'
  have e1 := List.getElem?_eq_getElem hi'
  have e2 := List.getElem?_eq_getElem hj'
  refine ⟨store[i], store[j], e1, e2, ⟨h.disj i hi j hj hij _ _ e1 e2, h.flag i hi _ e1, h.flag j hj _ e2⟩, ?_, ?_, ?_⟩
  · simp only [pick, List.filterMap_cons, e1, e2, List.filterMap_nil]; rfl
  · rw [h.inputs_eq, List.getD_eq_getElem?_getD, List.getElem?_map, e1]; rfl
  · rw [h.inputs_eq, List.getD_eq_getElem?_getD, List.getElem?_map, e2]; rfl

/-- `calc_k12_flops` computes the labels and the operations of the contraction. -/
theorem Good.calc (h : Good size ins out store nd) {i j : Nat} (hi : i ∈ nd.remaining) (hj : j ∈ nd.remaining) (hij : i ≠ j) :
    calcK12 size nd.inputs out nd.remaining i j = (termOf ins out (combineTag (pick store [i, j])), gFlops size ins out (pick store [i, j])) := by
  obtain ⟨X, Y, e1, e2, hg, hp, f1, f2⟩ := h.pair hi hj hij
  rw [hp, gFlops_pair]
  unfold calcK12
  simp only [f1, f2]
  have hrest : ∀ c, c ∈ (nd.remaining \ {i, j}).biUnion (fun k => nd.inputs.getD k ∅) ↔
      ∃ t, (∃ k ∈ nd.remaining, k ≠ i ∧ k ≠ j ∧ store[k]? = some t) ∧ c ∈ termOf ins out t := by
    intro c
    simp only [Finset.mem_biUnion, Finset.mem_sdiff, Finset.mem_insert, Finset.mem_singleton]
    constructor
    · rintro ⟨k, ⟨hk, hne⟩, hc⟩
      push Not at hne
      have hk' := h.lt k hk
      rw [h.len] at hk'
      refine ⟨store[k], ⟨k, hk, hne.1, hne.2, List.getElem?_eq_getElem hk'⟩, ?_⟩
      rw [h.inputs_eq, List.getD_eq_getElem?_getD, List.getElem?_map, List.getElem?_eq_getElem hk'] at hc
      exact hc
    · rintro ⟨t, ⟨k, hk, h1, h2, hkt⟩, hc⟩
      refine ⟨k, ⟨hk, by simp [h1, h2]⟩, ?_⟩
      rw [h.inputs_eq, List.getD_eq_getElem?_getD, List.getElem?_map, hkt]
      exact hc
  have hU : ∀ a, a ∈ (combineTag {X, Y}).1 ↔ ∃ t, (t = X ∨ t = Y) ∧ a ∈ t.1 := by
    intro a
    rw [mem_combineTag]
    simp only [mem_pair]
  have hkey : (termOf ins out X ∪ termOf ins out Y) ∩ (out ∪ (nd.remaining \ {i, j}).biUnion (fun k => nd.inputs.getD k ∅)) =
      termOf ins out (combineTag {X, Y}) := by
    ext c
    rw [show termOf ins out (combineTag {X, Y}) = legs ins out (combineTag {X, Y}).1 from rfl]
    rw [legs_union (S := fun t => t = X ∨ t = Y) (R := fun t => ∃ k ∈ nd.remaining, k ≠ i ∧ k ≠ j ∧ store[k]? = some t) hU]
    · simp only [Finset.mem_inter, Finset.mem_union, hrest]
      constructor
      · rintro ⟨h1, h2⟩
        refine ⟨?_, h2⟩
        rcases h1 with h1 | h1
        · exact ⟨X, Or.inl rfl, h1⟩
        · exact ⟨Y, Or.inr rfl, h1⟩
      · rintro ⟨⟨t, rfl | rfl, h1⟩, h2⟩
        · exact ⟨Or.inl h1, h2⟩
        · exact ⟨Or.inr h1, h2⟩
    · intro a
      rw [h.cover, hU]
      constructor
      · rintro ⟨k, hk, t, hkt, ha⟩
        by_cases hki : k = i
        · subst hki
          rw [e1] at hkt; cases hkt
          exact Or.inl ⟨_, Or.inl rfl, ha⟩
        · by_cases hkj : k = j
          · subst hkj
            rw [e2] at hkt; cases hkt
            exact Or.inl ⟨_, Or.inr rfl, ha⟩
          · exact Or.inr ⟨t, ⟨k, hk, hki, hkj, hkt⟩, ha⟩
      · rintro (⟨t, rfl | rfl, ha⟩ | ⟨t, ⟨k, hk, _, _, hkt⟩, ha⟩)
        · exact ⟨i, hi, _, e1, ha⟩
        · exact ⟨j, hj, _, e2, ha⟩
        · exact ⟨k, hk, t, hkt, ha⟩
    · rintro t ⟨k, hk, hki, hkj, hkt⟩ a ha hc
      obtain ⟨u, rfl | rfl, hau⟩ := (hU a).mp hc
      · exact Finset.disjoint_left.mp (h.disj k hk i hi hki _ _ hkt e1) ha hau
      · exact Finset.disjoint_left.mp (h.disj k hk j hj hkj _ _ hkt e2) ha hau
  rw [hkey]
  congr 2
  have : (termOf ins out X ∩ termOf ins out Y) \ (out ∪ (nd.remaining \ {i, j}).biUnion (fun k => nd.inputs.getD k ∅)) =
      (termOf ins out X ∩ termOf ins out Y) \ termOf ins out (combineTag {X, Y}) := by
    rw [← hkey]
    ext c
    simp only [Finset.mem_sdiff, Finset.mem_inter, Finset.mem_union]
    tauto
  rw [this]

theorem Good.child (h : Good size ins out store nd) {i j : Nat} (hi : i ∈ nd.remaining) (hj : j ∈ nd.remaining) (hij : i ≠ j) :
    Good size ins out (store ++ [combineTag (pick store [i, j])])
      (nd.child i j (termOf ins out (combineTag (pick store [i, j]))) (nd.flops + gFlops size ins out (pick store [i, j]))) := by
  obtain ⟨X, Y, e1, e2, hg, hp, f1, f2⟩ := h.pair hi hj hij
  obtain ⟨c1, c2, c3⟩ := goodPair_combine hg
  have hlen := h.len
  have hget : ∀ k t, (store ++ [combineTag (pick store [i, j])])[k]? = some t →
      k ∈ (nd.child i j (termOf ins out (combineTag (pick store [i, j]))) (nd.flops + gFlops size ins out (pick store [i, j]))).remaining →
      (k = store.length ∧ t = combineTag {X, Y}) ∨ (k ∈ nd.remaining ∧ k ≠ i ∧ k ≠ j ∧ store[k]? = some t) := by
    intro k t hkt hk
    simp only [SearchNode.child, Finset.mem_insert, Finset.mem_sdiff, Finset.mem_singleton] at hk
    rw [hp] at hkt
    rcases hk with rfl | ⟨hk, hne⟩
    · left
      rw [hlen] at hkt ⊢
      refine ⟨rfl, ?_⟩
      simpa using hkt.symm
    · right
      push Not at hne
      have := h.lt k hk
      rw [List.getElem?_append_left (by omega)] at hkt
      exact ⟨hk, hne.1, hne.2, hkt⟩
  refine { goodPath_child h.toGoodPath hi hj hij _ _ with store_eq := ?_, inputs_eq := ?_, flag := ?_, disj := ?_, cover := ?_, flops_eq := ?_ }
  · simp only [SearchNode.child]
    rw [ssaStore_append, ← h.store_eq]; rfl
  · simp only [SearchNode.child]
    rw [h.inputs_eq, List.map_append]; rfl
  · intro k hk t hkt
    rcases hget k t hkt hk with ⟨_, rfl⟩ | ⟨hk', _, _, hkt'⟩
    · exact ⟨c2, c3⟩
    · exact h.flag k hk' t hkt'
  · intro k hk l hl hkl t u hkt hlu
    have hnew : ∀ k t, k ∈ nd.remaining → k ≠ i → k ≠ j → store[k]? = some t → Disjoint t.1 (combineTag {X, Y}).1 := by
      intro k t hk hki hkj hkt
      rw [c1, Finset.disjoint_union_right]
      exact ⟨h.disj k hk i hi hki _ _ hkt e1, h.disj k hk j hj hkj _ _ hkt e2⟩
    rcases hget k t hkt hk with ⟨hk1, rfl⟩ | ⟨hk', hk2, hk3, hkt'⟩ <;> rcases hget l u hlu hl with ⟨hl1, rfl⟩ | ⟨hl', hl2, hl3, hlt'⟩
    · exact absurd (hk1.trans hl1.symm) hkl
    · exact (hnew l u hl' hl2 hl3 hlt').symm
    · exact hnew k t hk' hk2 hk3 hkt'
    · exact h.disj k hk' l hl' hkl t u hkt' hlt'
  · intro a
    rw [h.cover]
    have hnewget : (store ++ [combineTag (pick store [i, j])])[store.length]? = some (combineTag {X, Y}) := by rw [hp]; simp
    constructor
    · rintro ⟨k, hk, t, hkt, ha⟩
      have hin : nd.inputs.length ∈ (nd.child i j (termOf ins out (combineTag (pick store [i, j]))) (nd.flops + gFlops size ins out (pick store [i, j]))).remaining := by
        simp [SearchNode.child]
      by_cases hki : k = i
      · subst hki
        rw [e1] at hkt; cases hkt
        exact ⟨_, hin, _, by rw [hlen]; exact hnewget, by rw [c1]; simp [ha]⟩
      · by_cases hkj : k = j
        · subst hkj
          rw [e2] at hkt; cases hkt
          exact ⟨_, hin, _, by rw [hlen]; exact hnewget, by rw [c1]; simp [ha]⟩
        · have := h.lt k hk
          refine ⟨k, ?_, t, ?_, ha⟩
          · simp [SearchNode.child, hk, hki, hkj]
          · rw [List.getElem?_append_left (by omega)]; exact hkt
    · rintro ⟨k, hk, t, hkt, ha⟩
      rcases hget k t hkt hk with ⟨_, rfl⟩ | ⟨hk', _, _, hkt'⟩
      · rw [c1, Finset.mem_union] at ha
        rcases ha with ha | ha
        · exact ⟨i, hi, _, e1, ha⟩
        · exact ⟨j, hj, _, e2, ha⟩
      · exact ⟨k, hk', t, hkt', ha⟩
  · simp only [SearchNode.child]
    rw [ssaTrace_append, ← h.store_eq, List.map_append, List.sum_append, ← h.flops_eq]
    simp [ssaTrace]

end

/-! ## The cache -/

/-- The labels of the result of a contraction are determined by the labels of the two tensors. -/
def CacheSafe (ins : List (Finset Nat)) (out : Finset Nat) : Prop :=
  ∀ X Y X' Y', GoodPair X Y → GoodPair X' Y' → termOf ins out X = termOf ins out X' → termOf ins out Y = termOf ins out Y' →
    termOf ins out (combineTag {X, Y}) = termOf ins out (combineTag {X', Y'})

/-- Every entry of the cache is right for every pair with these labels. -/
def CacheInv (size : Nat → Nat) (ins : List (Finset Nat)) (out : Finset Nat) (cache : ResCache) : Prop :=
  ∀ k v, cache.get? k = some v → ∀ X Y, GoodPair X Y → termOf ins out X = k.1 → termOf ins out Y = k.2 →
    v = (termOf ins out (combineTag {X, Y}), gFlops size ins out {X, Y})

theorem cacheInv_nil : CacheInv size ins out [] := by intro k v h; simp [Dict.get?] at h

theorem cached_good (hsafe : CacheSafe ins out) {store : List Tag} {nd : SearchNode} (h : Good size ins out store nd) {i j : Nat}
    (hi : i ∈ nd.remaining) (hj : j ∈ nd.remaining) (hij : i ≠ j) {cache : ResCache} (hc : CacheInv size ins out cache) :
    (cached cache (nd.inputs.getD i ∅, nd.inputs.getD j ∅) (calcK12 size nd.inputs out nd.remaining i j)).1 =
      (termOf ins out (combineTag (pick store [i, j])), gFlops size ins out (pick store [i, j])) ∧
    CacheInv size ins out (cached cache (nd.inputs.getD i ∅, nd.inputs.getD j ∅) (calcK12 size nd.inputs out nd.remaining i j)).2 := by
  obtain ⟨X, Y, e1, e2, hg, hp, f1, f2⟩ := h.pair hi hj hij
  rw [h.calc hi hj hij, hp, f1, f2]
  unfold cached
  cases hget : cache.get? (termOf ins out X, termOf ins out Y) with
  | some v => exact ⟨hc _ _ hget X Y hg rfl rfl, hc⟩
  | none =>
    refine ⟨rfl, ?_⟩
    intro k v hkv X' Y' hg' hX hY
    simp only at hkv
    by_cases hk : k = (termOf ins out X, termOf ins out Y)
    · subst hk
      rw [Dict.get?_set_self] at hkv
      cases hkv
      simp only at hX hY
      have := hsafe X' Y' X Y hg' hg hX hY
      rw [gFlops_pair, gFlops_pair, this, hX, hY]
    · rw [Dict.get?_set_ne hk] at hkv
      exact hc k v hkv X' Y' hg' hX hY

end OE.Paths
