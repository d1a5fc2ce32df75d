import Verif.Props.Branch2
import Mathlib.Algebra.Order.BigOperators.Group.Finset

/-!
# C20 with one branch: the memory limit holds for every network

With `nbranch=1` the search is a single descent. The cached labels of an intermediate can then be too many, never too few.
-/

namespace OE.Props
open OE OE.Py OE.Spec OE.Paths

section
variable {cfg : BBCfg} {size : Nat → Nat} {ins : List (Finset Nat)} {out : Finset Nat} {m : Nat} {order : SetOrder}

/-- The node as it would be with the true labels. -/
def trueNode (size : Nat → Nat) (ins : List (Finset Nat)) (out : Finset Nat) (store : List Tag) (nd : SearchNode) : SearchNode :=
  { nd with inputs := store.map (termOf ins out), flops := tagCost size ins out (tags ins.length) nd.path }

/-- A node whose recorded terms may have too many labels. -/
structure Loose (size : Nat → Nat) (ins : List (Finset Nat)) (out : Finset Nat) (store : List Tag) (nd : SearchNode) : Prop where
  good : Good size ins out store (trueNode size ins out store nd)
  len : nd.inputs.length = store.length
  lower : ∀ i ∈ nd.remaining, ∀ t, store[i]? = some t → termOf ins out t ⊆ nd.inputs.getD i ∅
  upper : ∀ i ∈ nd.remaining, ∀ t, store[i]? = some t → nd.inputs.getD i ∅ ⊆ labels ins t.1

/-- The sets of inputs of the live tensors. -/
def Block (store : List Tag) (nd : SearchNode) (T : Finset Nat) : Prop := ∃ i ∈ nd.remaining, ∃ t, store[i]? = some t ∧ T = t.1

/-- Labels missing in a cached result are summed inside one tensor, or inside the two contracted. -/
def EntryOK (ins : List (Finset Nat)) (out : Finset Nat) (B : Finset Nat → Prop) (k1 k2 v : Finset Nat) : Prop :=
  v ⊆ k1 ∪ k2 ∧ ∀ c ∈ k1 ∪ k2, c ∉ v → c ∉ out ∧
    ((∃ T, B T ∧ holders ins c ⊆ T) ∨ (c ∈ k1 ∧ c ∈ k2 ∧ ∃ P Q, B P ∧ B Q ∧ holders ins c ⊆ P ∪ Q))

def CacheLoose (ins : List (Finset Nat)) (out : Finset Nat) (B : Finset Nat → Prop) (cache : ResCache) : Prop :=
  ∀ k v, cache.get? k = some v → EntryOK ins out B k.1 k.2 v.1

theorem EntryOK.coarser {B B' : Finset Nat → Prop} (hB : ∀ T, B T → ∃ T', B' T' ∧ T ⊆ T') {k1 k2 v : Finset Nat}
    (h : EntryOK ins out B k1 k2 v) : EntryOK ins out B' k1 k2 v := by
  refine ⟨h.1, fun c hc hv => ⟨(h.2 c hc hv).1, ?_⟩⟩
  rcases (h.2 c hc hv).2 with ⟨T, hT, hs⟩ | ⟨h1, h2, P, Q, hP, hQ, hs⟩
  · obtain ⟨T', hT', hsub⟩ := hB T hT
    exact Or.inl ⟨T', hT', hs.trans hsub⟩
  · obtain ⟨P', hP', hsp⟩ := hB P hP
    obtain ⟨Q', hQ', hsq⟩ := hB Q hQ
    exact Or.inr ⟨h1, h2, P', Q', hP', hQ', hs.trans (Finset.union_subset_union hsp hsq)⟩

theorem loose_root : Loose size ins out (tags ins.length) (rootNode ins) := by
  have hg := good_root (size := size) (ins := ins) (out := out)
  have hin : (rootNode ins).inputs = (tags ins.length).map (termOf ins out) := hg.inputs_eq
  have heq : trueNode size ins out (tags ins.length) (rootNode ins) = rootNode ins := by
    unfold trueNode
    rw [← hin]
    rfl
  refine ⟨by rw [heq]; exact hg, by rw [hin, List.length_map], ?_, ?_⟩
  · intro i _ t ht
    rw [hin, List.getD_eq_getElem?_getD, List.getElem?_map, ht]; exact subset_refl _
  · intro i _ t ht
    rw [hin, List.getD_eq_getElem?_getD, List.getElem?_map, ht]
    intro c hc
    exact mem_labels.mpr (mem_termOf_labels hc)

section
variable {store : List Tag} {nd : SearchNode}

theorem Loose.block_unique (h : Loose size ins out store nd) {i : Nat} (hi : i ∈ nd.remaining) {t : Tag} (ht : store[i]? = some t)
    {T : Finset Nat} (hT : Block store nd T) {a : Nat} (h1 : a ∈ t.1) (h2 : a ∈ T) : T = t.1 := by
  obtain ⟨j, hj, u, hu, rfl⟩ := hT
  by_cases hij : i = j
  · subst hij; rw [ht] at hu; cases hu; rfl
  · exact absurd h2 (Finset.disjoint_left.mp (h.good.disj i hi j hj hij t u ht hu) h1)

/-- The value computed now. -/
theorem Loose.calc (h : Loose size ins out store nd) {i j : Nat} (hi : i ∈ nd.remaining) (hj : j ∈ nd.remaining) (hij : i ≠ j) :
    EntryOK ins out (Block store nd) (nd.inputs.getD i ∅) (nd.inputs.getD j ∅) (calcK12 size nd.inputs out nd.remaining i j).1 := by
  obtain ⟨X, Y, e1, e2, hg, hp, _, _⟩ := h.good.pair hi hj hij
  unfold calcK12
  simp only
  refine ⟨Finset.inter_subset_left, ?_⟩
  intro c hc hv
  have hnk : c ∉ out ∪ (nd.remaining \ {i, j}).biUnion (fun k => nd.inputs.getD k ∅) := fun hk => hv (Finset.mem_inter.mpr ⟨hc, hk⟩)
  rw [Finset.mem_union] at hnk
  push Not at hnk
  refine ⟨hnk.1, ?_⟩
  -- other tensors with the label contain all its holders
  by_cases hT : ∃ T, Block store nd T ∧ holders ins c ⊆ T
  · exact Or.inl hT
  · right
    push Not at hT
    have houter : ∀ k ∈ nd.remaining, ∀ t, store[k]? = some t → ∀ a ∈ t.1, c ∈ ins.getD a ∅ → c ∈ nd.inputs.getD k ∅ := by
      intro k hk t ht a ha hca
      apply h.lower k hk t ht
      refine termOf_of ⟨a, ha, hca⟩ (Or.inr ?_)
      have := hT t.1 ⟨k, hk, t, ht, rfl⟩
      rw [Finset.not_subset] at this
      obtain ⟨b, hb, hbt⟩ := this
      exact ⟨b, hbt, mem_holders.mp hb⟩
    have hXY : holders ins c ⊆ X.1 ∪ Y.1 := by
      intro a ha
      have hca := mem_holders.mp ha
      obtain ⟨k, hk, t, ht, hat⟩ := (h.good.cover a).mp (mem_getD hca)
      have hk' : k ∈ nd.remaining := hk
      by_cases hki : k = i
      · subst hki; rw [e1] at ht; cases ht; exact Finset.mem_union_left _ hat
      · by_cases hkj : k = j
        · subst hkj; rw [e2] at ht; cases ht; exact Finset.mem_union_right _ hat
        · exfalso
          apply hnk.2
          rw [Finset.mem_biUnion]
          exact ⟨k, by simp [hk', hki, hkj], houter k hk' t ht a hat hca⟩
    have hX := hT X.1 ⟨i, hi, X, e1, rfl⟩
    have hY := hT Y.1 ⟨j, hj, Y, e2, rfl⟩
    rw [Finset.not_subset] at hX hY
    obtain ⟨a, ha, haX⟩ := hX
    obtain ⟨b, hb, hbY⟩ := hY
    have haY : a ∈ Y.1 := by
      rcases Finset.mem_union.mp (hXY ha) with h' | h'
      · exact absurd h' haX
      · exact h'
    have hbX : b ∈ X.1 := by
      rcases Finset.mem_union.mp (hXY hb) with h' | h'
      · exact h'
      · exact absurd h' hbY
    exact ⟨houter i hi X e1 b hbX (mem_holders.mp hb), houter j hj Y e2 a haY (mem_holders.mp ha),
      X.1, Y.1, ⟨i, hi, X, e1, rfl⟩, ⟨j, hj, Y, e2, rfl⟩, hXY⟩

/-- A value found in the cache, or computed, has all labels of the result, and only labels of the two tensors. -/
theorem Loose.entry (h : Loose size ins out store nd) {i j : Nat} (hi : i ∈ nd.remaining) (hj : j ∈ nd.remaining) (hij : i ≠ j)
    {v : Finset Nat} (hv : EntryOK ins out (Block store nd) (nd.inputs.getD i ∅) (nd.inputs.getD j ∅) v) :
    termOf ins out (combineTag (pick store [i, j])) ⊆ v ∧ v ⊆ labels ins (combineTag (pick store [i, j])).1 := by
  obtain ⟨X, Y, e1, e2, hg, hp, _, _⟩ := h.good.pair hi hj hij
  rw [hp]
  have hU := (goodPair_combine hg).1
  have hux := h.upper i hi X e1
  have huy := h.upper j hj Y e2
  constructor
  · intro c hc
    rw [show termOf ins out (combineTag {X, Y}) = legs ins out (combineTag {X, Y}).1 from rfl, hU, mem_legs'] at hc
    obtain ⟨⟨a, ha, hca⟩, ho⟩ := hc
    have hck : c ∈ nd.inputs.getD i ∅ ∪ nd.inputs.getD j ∅ := by
      rcases Finset.mem_union.mp ha with ha | ha
      · refine Finset.mem_union_left _ (h.lower i hi X e1 (termOf_of ⟨a, ha, hca⟩ ?_))
        rcases ho with ho | ⟨b, hb, hcb⟩
        · exact Or.inl ho
        · exact Or.inr ⟨b, fun hb' => hb (Finset.mem_union_left _ hb'), hcb⟩
      · refine Finset.mem_union_right _ (h.lower j hj Y e2 (termOf_of ⟨a, ha, hca⟩ ?_))
        rcases ho with ho | ⟨b, hb, hcb⟩
        · exact Or.inl ho
        · exact Or.inr ⟨b, fun hb' => hb (Finset.mem_union_right _ hb'), hcb⟩
    by_contra hcv
    obtain ⟨hno, hcase⟩ := hv.2 c hck hcv
    rcases ho with ho | ⟨b, hb, hcb⟩
    · exact hno ho
    · have hbh := mem_holders.mpr hcb
      have hah := mem_holders.mpr hca
      rw [Finset.mem_union] at hb
      push Not at hb
      rcases hcase with ⟨T, hT, hs⟩ | ⟨h1, h2, P, Q, hP, hQ, hs⟩
      · rcases Finset.mem_union.mp ha with ha | ha
        · have := h.block_unique hi e1 hT ha (hs hah)
          subst this; exact hb.1 (hs hbh)
        · have := h.block_unique hj e2 hT ha (hs hah)
          subst this; exact hb.2 (hs hbh)
      · -- both tensors hold the label
        obtain ⟨x, hx, hcx⟩ := mem_labels.mp (hux h1)
        obtain ⟨y, hy, hcy⟩ := mem_labels.mp (huy h2)
        have hxh := hs (mem_holders.mpr hcx)
        have hyh := hs (mem_holders.mpr hcy)
        have hbh' := hs hbh
        rw [Finset.mem_union] at hxh hyh hbh'
        have hXY : X.1 ≠ Y.1 := by
          intro e
          obtain ⟨z, hz⟩ := hg.left.1
          exact Finset.disjoint_left.mp hg.disj hz (e ▸ hz)
        rcases hxh with hxP | hxQ
        · have ePX := h.block_unique hi e1 hP hx hxP
          rcases hyh with hyP | hyQ
          · have ePY := h.block_unique hj e2 hP hy hyP
            exact hXY (ePX.symm.trans ePY)
          · have eQY := h.block_unique hj e2 hQ hy hyQ
            subst ePX; subst eQY
            rcases hbh' with hb' | hb'
            · exact hb.1 hb'
            · exact hb.2 hb'
        · have eQX := h.block_unique hi e1 hQ hx hxQ
          rcases hyh with hyP | hyQ
          · have ePY := h.block_unique hj e2 hP hy hyP
            subst eQX; subst ePY
            rcases hbh' with hb' | hb'
            · exact hb.2 hb'
            · exact hb.1 hb'
          · have eQY := h.block_unique hj e2 hQ hy hyQ
            exact hXY (eQX.symm.trans eQY)
  · intro c hc
    rw [mem_labels, hU]
    rcases Finset.mem_union.mp (hv.1 hc) with h' | h'
    · obtain ⟨a, ha, hca⟩ := mem_labels.mp (hux h')
      exact ⟨a, Finset.mem_union_left _ ha, hca⟩
    · obtain ⟨a, ha, hca⟩ := mem_labels.mp (huy h')
      exact ⟨a, Finset.mem_union_right _ ha, hca⟩

theorem cached_loose (h : Loose size ins out store nd) {i j : Nat} (hi : i ∈ nd.remaining) (hj : j ∈ nd.remaining) (hij : i ≠ j)
    {cache : ResCache} (hc : CacheLoose ins out (Block store nd) cache) :
    EntryOK ins out (Block store nd) (nd.inputs.getD i ∅) (nd.inputs.getD j ∅)
      (cached cache (nd.inputs.getD i ∅, nd.inputs.getD j ∅) (calcK12 size nd.inputs out nd.remaining i j)).1.1 ∧
    CacheLoose ins out (Block store nd) (cached cache (nd.inputs.getD i ∅, nd.inputs.getD j ∅) (calcK12 size nd.inputs out nd.remaining i j)).2 := by
  have hcalc := h.calc hi hj hij
  unfold cached
  cases hget : cache.get? (nd.inputs.getD i ∅, nd.inputs.getD j ∅) with
  | some v => exact ⟨hc _ _ hget, hc⟩
  | none =>
    refine ⟨hcalc, ?_⟩
    intro k v hkv
    simp only at hkv
    by_cases hk : k = (nd.inputs.getD i ∅, nd.inputs.getD j ∅)
    · subst hk
      rw [Dict.get?_set_self] at hkv
      cases hkv
      exact hcalc
    · rw [Dict.get?_set_ne hk] at hkv
      exact hc k v hkv

theorem Loose.child (h : Loose size ins out store nd) {i j : Nat} (hi : i ∈ nd.remaining) (hj : j ∈ nd.remaining) (hij : i ≠ j)
    {v : Finset Nat} (hv : EntryOK ins out (Block store nd) (nd.inputs.getD i ∅) (nd.inputs.getD j ∅) v) (f : Nat) :
    Loose size ins out (store ++ [combineTag (pick store [i, j])]) (nd.child i j v f) ∧
    ∀ T, Block store nd T → ∃ T', Block (store ++ [combineTag (pick store [i, j])]) (nd.child i j v f) T' ∧ T ⊆ T' := by
  obtain ⟨hlo, hup⟩ := h.entry hi hj hij hv
  have hg := h.good.child (i := i) (j := j) hi hj hij
  have heq : trueNode size ins out (store ++ [combineTag (pick store [i, j])]) (nd.child i j v f) =
      (trueNode size ins out store nd).child i j (termOf ins out (combineTag (pick store [i, j])))
        ((trueNode size ins out store nd).flops + gFlops size ins out (pick store [i, j])) := by
    simp only [trueNode, SearchNode.child, SearchNode.mk.injEq, List.map_append, List.map_cons, List.map_nil, true_and,
      List.length_map, h.len]
    unfold tagCost
    have := h.good.store_eq
    simp only [trueNode] at this
    rw [ssaTrace_append, List.map_append, List.sum_append, ← this]
    simp [ssaTrace]
  have hnew : (store ++ [combineTag (pick store [i, j])])[nd.inputs.length]? = some (combineTag (pick store [i, j])) := by
    rw [h.len]; simp
  have hold : ∀ k ∈ nd.remaining, k < store.length := by
    intro k hk
    have := h.good.lt k hk
    simpa [trueNode] using this
  refine ⟨⟨by rw [heq]; exact hg, by simp [SearchNode.child, h.len], ?_, ?_⟩, ?_⟩
  · intro k hk t ht
    simp only [SearchNode.child, Finset.mem_insert, Finset.mem_sdiff] at hk ⊢
    rcases hk with rfl | ⟨hk, _⟩
    · rw [hnew] at ht; cases ht
      simpa using hlo
    · have hlt := hold k hk
      rw [List.getElem?_append_left hlt] at ht
      have : (nd.inputs ++ [v]).getD k ∅ = nd.inputs.getD k ∅ := by
        simp only [List.getD_eq_getElem?_getD]
        rw [List.getElem?_append_left (by rw [h.len]; exact hlt)]
      rw [this]
      exact h.lower k hk t ht
  · intro k hk t ht
    simp only [SearchNode.child, Finset.mem_insert, Finset.mem_sdiff] at hk ⊢
    rcases hk with rfl | ⟨hk, _⟩
    · rw [hnew] at ht; cases ht
      simpa using hup
    · have hlt := hold k hk
      rw [List.getElem?_append_left hlt] at ht
      have : (nd.inputs ++ [v]).getD k ∅ = nd.inputs.getD k ∅ := by
        simp only [List.getD_eq_getElem?_getD]
        rw [List.getElem?_append_left (by rw [h.len]; exact hlt)]
      rw [this]
      exact h.upper k hk t ht
  · rintro T ⟨k, hk, t, ht, rfl⟩
    have hnewB : Block (store ++ [combineTag (pick store [i, j])]) (nd.child i j v f) (combineTag (pick store [i, j])).1 :=
      ⟨nd.inputs.length, by simp [SearchNode.child], _, hnew, rfl⟩
    have hsub : ∀ k', k' = i ∨ k' = j → ∀ t, store[k']? = some t → t.1 ⊆ (combineTag (pick store [i, j])).1 := by
      intro k' hk' t ht a ha
      rw [mem_combineTag]
      refine ⟨t, mem_pick.mpr ⟨k', ?_, ht⟩, ha⟩
      rcases hk' with rfl | rfl <;> simp
    by_cases hki : k = i ∨ k = j
    · exact ⟨_, hnewB, hsub k hki t ht⟩
    · push Not at hki
      refine ⟨t.1, ⟨k, ?_, t, ?_, rfl⟩, subset_refl _⟩
      · simp [SearchNode.child, hk, hki.1, hki.2]
      · rw [List.getElem?_append_left (hold k hk)]; exact ht

/-- A candidate is what it says up to additional labels, and fits. -/
def CandLoose (size : Nat → Nat) (ins : List (Finset Nat)) (out : Finset Nat) (m : Nat) (store : List Tag) (nd : SearchNode) (c : Cand) : Prop :=
  c.i ∈ nd.remaining ∧ c.j ∈ nd.remaining ∧ c.i ≠ c.j ∧
    EntryOK ins out (Block store nd) (nd.inputs.getD c.i ∅) (nd.inputs.getD c.j ∅) c.k12 ∧ Paths.sizeOf size c.k12 ≤ m

/-- As `BBFits`, with a cache that may return too many labels. -/
structure BBLoose (size : Nat → Nat) (ins : List (Finset Nat)) (out : Finset Nat) (m : Nat) (B : Finset Nat → Prop) (st : BBSt) : Prop where
  fits : ∀ p, st.path = some p → Fits size ins out m p
  cache : CacheLoose ins out B st.cache

theorem assessFit_loose {B : Finset Nat → Prop} (hfit : ∀ x ∈ ssaTrace combineTag (tags ins.length) nd.path, gSize size ins out x ≤ m)
    {m' : Nat} (hm : m' ≤ m) {st : BBSt} (h : BBLoose size ins out m B st) (c : Cand) :
    BBLoose size ins out m B (assessFit size out (some m') order nd st c).2 ∧
    (∀ c', (assessFit size out (some m') order nd st c).1 = some c' → c' = c ∧ Paths.sizeOf size c.k12 ≤ m) := by
  unfold assessFit
  by_cases hs : (some m').any (fun m => decide (Paths.sizeOf size c.k12 > m)) = true
  · rw [if_pos hs]
    simp only
    split
    · refine ⟨⟨?_, h.cache⟩, by simp⟩
      intro p hp
      cases hp
      intro y hy
      simp only [ssaTrace_append, ssaTrace, List.dropLast_concat] at hy
      exact hfit y hy
    · exact ⟨h, by simp⟩
  · rw [if_neg hs]
    refine ⟨h, ?_⟩
    rintro c' ⟨⟩
    simp at hs
    exact ⟨rfl, le_trans hs hm⟩

theorem assess_loose {sz : Nat} (hnd : Loose size ins out store nd)
    (hfit : ∀ x ∈ ssaTrace combineTag (tags ins.length) nd.path, gSize size ins out x ≤ m) {m' : Nat} (hm : m' ≤ m) {st : BBSt}
    (h : BBLoose size ins out m (Block store nd) st) {ij : Nat × Nat} (hi : ij.1 ∈ nd.remaining) (hj : ij.2 ∈ nd.remaining)
    (hij : ij.1 ≠ ij.2) :
    BBLoose size ins out m (Block store nd) (assess cfg size out (some m') order nd sz st ij).2 ∧
    (∀ c, (assess cfg size out (some m') order nd sz st ij).1 = some c → CandLoose size ins out m store nd c) := by
  obtain ⟨r1, r2⟩ := cached_loose hnd hi hj hij h.cache
  unfold assess
  simp only
  generalize hr : cached st.cache (nd.inputs.getD ij.1 ∅, nd.inputs.getD ij.2 ∅) (calcK12 size nd.inputs out nd.remaining ij.1 ij.2) = r at r1 r2 ⊢
  split
  · split
    · exact ⟨⟨h.fits, r2⟩, by simp⟩
    · rename_i p' _
      obtain ⟨a1, a2⟩ := assessFit_loose (order := order) hfit hm (st := { st with cache := r.2, progress := p' }) ⟨h.fits, r2⟩ _
      refine ⟨a1, ?_⟩
      intro c hc
      obtain ⟨rfl, h2⟩ := a2 c hc
      exact ⟨hi, hj, hij, r1, h2⟩
  · exact ⟨⟨h.fits, r2⟩, by simp⟩

theorem assess_fold_loose {sz : Nat} (hnd : Loose size ins out store nd)
    (hfit : ∀ x ∈ ssaTrace combineTag (tags ins.length) nd.path, gSize size ins out x ≤ m) {m' : Nat} (hm : m' ≤ m)
    (l : List (Nat × Nat)) (hl : ∀ x ∈ l, x.1 ∈ nd.remaining ∧ x.2 ∈ nd.remaining ∧ x.1 ≠ x.2) (acc : List Cand × BBSt)
    (hacc : ∀ c ∈ acc.1, CandLoose size ins out m store nd c) (h : BBLoose size ins out m (Block store nd) acc.2) :
    BBLoose size ins out m (Block store nd) (l.foldl (assessStep cfg size out (some m') order nd sz) acc).2 ∧
    (∀ c ∈ (l.foldl (assessStep cfg size out (some m') order nd sz) acc).1, CandLoose size ins out m store nd c) := by
  induction l generalizing acc with
  | nil => exact ⟨h, hacc⟩
  | cons x xs ih =>
    rw [List.foldl_cons]
    obtain ⟨hi, hj, hij⟩ := hl x (by simp)
    obtain ⟨a1, a2⟩ := assess_loose (cfg := cfg) (order := order) (sz := sz) hnd hfit hm h hi hj hij
    refine ih (fun y hy => hl y (by simp [hy])) _ ?_ a1
    intro c hc
    simp only [assessStep, List.mem_append, Option.mem_toList] at hc
    rcases hc with hc | hc
    · exact hacc c hc
    · exact a2 c hc

theorem candidates_loose (ho : OrderOK order) {sz : Nat} (hnd : Loose size ins out store nd)
    (hfit : ∀ x ∈ ssaTrace combineTag (tags ins.length) nd.path, gSize size ins out x ≤ m) {m' : Nat} (hm : m' ≤ m) {st : BBSt}
    (h : BBLoose size ins out m (Block store nd) st) :
    BBLoose size ins out m (Block store nd) (candidates cfg size out (some m') order nd sz st).2 ∧
    (∀ c ∈ (candidates cfg size out (some m') order nd sz st).1, CandLoose size ins out m store nd c) := by
  have hpairs := pairs_ok ho nd.path nd.remaining
  unfold candidates
  simp only
  obtain ⟨a1, a2⟩ := assess_fold_loose (cfg := cfg) (order := order) (sz := sz) hnd hfit hm
    (((combinations2 (order nd.path nd.remaining)).map orient).filter (fun ij => ¬ Disjoint (nd.inputs.getD ij.1 ∅) (nd.inputs.getD ij.2 ∅)))
    (fun x hx => hpairs x (List.mem_filter.mp hx).1) ([], st) (by simp) h
  split
  · exact assess_fold_loose hnd hfit hm _ hpairs _ a2 a1
  · exact ⟨a1, a2⟩

end

theorem sizeOf_mono (hpos : ∀ c, 1 ≤ size c) {a b : Finset Nat} (h : a ⊆ b) : Paths.sizeOf size a ≤ Paths.sizeOf size b :=
  Finset.prod_le_prod_of_subset_of_one_le' h (fun c _ _ => hpos c)

theorem branchIter_loose (hone : cfg.nbranch = some 1) (hpos : ∀ c, 1 ≤ size c) (ho : OrderOK order) {m' : Nat} (hm : m' ≤ m)
    (fuel : Nat) (nd : SearchNode) (store : List Tag) (hnd : Loose size ins out store nd)
    (hfit : ∀ x ∈ ssaTrace combineTag (tags ins.length) nd.path, gSize size ins out x ≤ m) (sz : Nat) (st : BBSt)
    (hst : BBLoose size ins out m (Block store nd) st) (st' : BBSt)
    (hrun : branchIter cfg size out (some m') order fuel nd sz st = some st') :
    ∀ p, st'.path = some p → Fits size ins out m p := by
  have hleaf : Fits size ins out m nd.path := fun x hx => hfit x (List.mem_of_mem_dropLast hx)
  induction fuel generalizing nd store sz st st' with
  | zero =>
    rw [branchIter] at hrun
    split at hrun
    · cases hrun; intro p hp; cases hp; exact hleaf
    · cases hrun
  | succ fuel ih =>
    rw [branchIter] at hrun
    split at hrun
    · cases hrun; intro p hp; cases hp; exact hleaf
    · simp only at hrun
      obtain ⟨a1, a2⟩ := candidates_loose (cfg := cfg) (sz := sz) ho hnd hfit hm hst
      generalize candidates cfg size out (some m') order nd sz st = r at a1 a2 hrun
      obtain ⟨cands, s⟩ := r
      simp only at a1 a2 hrun
      have hv : ∀ c ∈ visited cfg.nbranch cands, CandLoose size ins out m store nd c := fun c hc => a2 c (mem_visited hc)
      have hlen : (visited cfg.nbranch cands).length ≤ 1 := by
        rw [hone]
        simp only [visited, List.length_take]
        omega
      generalize visited cfg.nbranch cands = l at hv hlen hrun
      match l, hlen with
      | [], _ =>
        simp only [List.foldlM_nil, pure, Option.some.injEq] at hrun
        subst hrun
        exact a1.fits
      | [c], _ =>
        obtain ⟨hi, hj, hij, hk, hs⟩ := hv c (by simp)
        obtain ⟨hch, hco⟩ := hnd.child hi hj hij hk c.newFlops
        simp only [List.foldlM_cons, List.foldlM_nil, bind_pure] at hrun
        have hfit' : ∀ x ∈ ssaTrace combineTag (tags ins.length) (nd.child c.i c.j c.k12 c.newFlops).path, gSize size ins out x ≤ m := by
          intro y hy
          simp only [SearchNode.child, ssaTrace_append, ssaTrace, List.mem_append, List.mem_singleton] at hy
          rcases hy with hy | rfl
          · exact hfit y hy
          · have hse := hnd.good.store_eq
            simp only [trueNode] at hse
            rw [← hse]
            exact le_trans (sizeOf_mono hpos (hnd.entry hi hj hij hk).1) hs
        exact ih _ _ hch hfit' _ s ⟨a1.fits, fun k v hkv => (a1.cache k v hkv).coarser hco⟩ st' hrun
          (fun x hx => hfit' x (List.mem_of_mem_dropLast hx))

end

/-- **C20, one branch.** With `nbranch=1` (in particular for `greedy` with a memory limit, paths.py:770-771) the claim holds for
every network, also with hyperedges, if all sizes are positive. -/
theorem C20_one_branch_memory {ins : List (Finset Nat)} {out : Finset Nat} (cfg : BBCfg) (hone : cfg.nbranch = some 1) {size : Nat → Nat}
    (hpos : ∀ c, 1 ≤ size c) (m : Nat) (h2 : 2 ≤ ins.length) {fuel : Nat} (hfuel : ins.length ≤ fuel) {order : SetOrder}
    (ho : OrderOK order) :
    ∃ path, branch cfg fuel size (some m) order ins out = some (.ok path) ∧ CompletePath ins.length path ∧
      ∀ s ∈ (resultSizes size out ins path).dropLast, s ≤ m := by
  have hne : ins ≠ [] := by rintro rfl; simp at h2
  have hb : cfg.nbranch ≠ some 0 := by rw [hone]; simp
  obtain ⟨path, st', p, h1, _, hp, hcp, hlin, _, h4⟩ := branchCall_complete cfg size (some m) ho hb out hne hfuel (fresh_ready ins.length)
  have hrun : branchIter cfg size out (some m) order fuel (rootNode ins) 0 { BBSt.fresh with cache := [] } = some st' := by
    unfold branchCall at h1
    cases hr : branchIter cfg size out (some m) order fuel (rootNode ins) 0 { BBSt.fresh with cache := [] } with
    | none => rw [hr] at h1; cases h1
    | some s =>
      rw [hr] at h1
      simp only [Option.map_some, Option.some.injEq, Prod.mk.injEq] at h1
      rw [h1.2]
  have hf := branchIter_loose hone hpos ho (le_refl m) fuel (rootNode ins) _ (loose_root (size := size) (ins := ins) (out := out))
    (by intro x hx; simp [rootNode, ssaTrace] at hx) 0 _ ⟨by simp [BBSt.fresh], by intro k v h; simp [Dict.get?] at h⟩ st' hrun
  refine ⟨path, ?_, h4 h2, ?_⟩
  · unfold branch; rw [if_neg hb, h1]; rfl
  · obtain ⟨q, e1, e2, _, _, e5⟩ := C11_ssa_to_linear hcp (ssaComplete_ne_nil hcp h2)
    rw [hlin] at e1
    cases e1
    exact resultSizes_of_fits (hf p hp) e2 (e5 Tag combineTag (tags ins.length) (tags_length _)).1

/-- The network of the counterexample: 'ab,c,ac,a,abc->' with sizes 5, 2, 3. -/
def hyperNet : List (Finset Nat) := [{0, 1}, {2}, {0, 2}, {0}, {0, 1, 2}]

/-- Its sizes. -/
def hyperSize : Nat → Nat := fun c => if c = 0 then 5 else if c = 1 then 2 else 3

/-- **C20 is false with hyperedges and two branches**: for 'ab,c,ac,a,abc->' with sizes 5, 2, 3 and `memory_limit=15`, `branch`
with `nbranch=2` returns a path with an intermediate of 30 elements. -/
theorem C20_counterexample :
    branch (bbDefault (some 2)) 5 hyperSize (some 15) ascending hyperNet ∅ = some (.ok [[2, 3], [2, 3], [0, 2], [0, 1]]) ∧
    resultSizes hyperSize ∅ hyperNet [[2, 3], [2, 3], [0, 2], [0, 1]] = [15, 30, 3, 1] := by
  constructor <;> decide +kernel

-- the same network with one branch
example : branch (bbDefault (some 1)) 5 hyperSize (some 15) ascending hyperNet ∅ = some (.ok [[0, 3], [2, 3], [1, 2], [0, 1]]) := by
  decide +kernel

end OE.Props
