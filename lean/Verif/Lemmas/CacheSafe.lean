import Verif.Lemmas.SearchTags

/-! Without hyperedges the labels of a result depend on the labels of the two tensors only. -/

namespace OE.Paths
open OE OE.Py OE.Spec OE.Props

variable {size : Nat → Nat} {ins : List (Finset Nat)} {out : Finset Nat}

/-- The inputs that have the label. -/
def holders (ins : List (Finset Nat)) (c : Nat) : Finset Nat := (Finset.range ins.length).filter (fun i => c ∈ ins.getD i ∅)

theorem mem_getD {i c : Nat} (h : c ∈ ins.getD i ∅) : i < ins.length := by
  by_contra hlt
  rw [List.getD_eq_getElem?_getD, List.getElem?_eq_none (by omega)] at h
  simp at h

theorem mem_holders {c i : Nat} : i ∈ holders ins c ↔ c ∈ ins.getD i ∅ := by
  simp only [holders, Finset.mem_filter, Finset.mem_range]
  exact ⟨fun h => h.2, fun h => ⟨mem_getD h, h⟩⟩

theorem occurrences_eq (c : Nat) : occurrences ins out c = (holders ins c).card + if c ∈ out then 1 else 0 := by
  unfold occurrences
  congr 1
  have h1 : ins = (List.range ins.length).map (fun i => ins.getD i ∅) := by
    apply List.ext_getElem
    · simp
    · intro i h1 h2
      simp [List.getElem?_eq_getElem h1]
  have h2 : ins.countP (fun s => decide (c ∈ s)) = (List.range ins.length).countP (fun i => decide (c ∈ ins.getD i ∅)) := by
    conv_lhs => rw [h1]
    rw [List.countP_map]; rfl
  rw [h2, List.countP_eq_length_filter, ← List.toFinset_card_of_nodup (List.nodup_range.filter _)]
  congr 1
  ext i
  rw [mem_holders]
  simp only [List.mem_toFinset, List.mem_filter, List.mem_range, decide_eq_true_eq]
  exact ⟨fun h => h.2, fun h => ⟨mem_getD h, h⟩⟩

/-- Where else a label can occur. -/
def Outside (ins : List (Finset Nat)) (out : Finset Nat) (U : Finset Nat) (c : Nat) : Prop :=
  c ∈ out ∨ ∃ i, i ∉ U ∧ c ∈ ins.getD i ∅

theorem mem_legs' {U : Finset Nat} {c : Nat} : c ∈ legs ins out U ↔ (∃ i ∈ U, c ∈ ins.getD i ∅) ∧ Outside ins out U c := by
  rw [mem_legs]
  constructor
  · rintro ⟨h1, h2⟩
    refine ⟨h1, ?_⟩
    rcases h2 with h2 | ⟨i, h3, h4, h5⟩
    · exact Or.inl h2
    · exact Or.inr ⟨i, by assumption, by assumption⟩
  · rintro ⟨h1, h2⟩
    refine ⟨h1, ?_⟩
    rcases h2 with h2 | ⟨i, h3, h4⟩
    · exact Or.inl h2
    · exact Or.inr ⟨i, mem_getD h4, h3, h4⟩

theorem termOf_has {t : Tag} {c : Nat} (h : c ∈ termOf ins out t) : ∃ i ∈ t.1, c ∈ ins.getD i ∅ := mem_termOf_labels h

/-- A label of a tensor that also occurs elsewhere is one of its term. -/
theorem termOf_of {t : Tag} {c : Nat} (h1 : ∃ i ∈ t.1, c ∈ ins.getD i ∅) (h2 : Outside ins out t.1 c) : c ∈ termOf ins out t := by
  have h3 := mem_legs'.mpr ⟨h1, h2⟩
  unfold termOf
  split
  · exact h3
  · exact mem_labels.mpr h1

/-- A label of a term occurs elsewhere, or the tensor is an input. -/
theorem termOf_outside {t : Tag} {c : Nat} (hf : t.2 = decide (1 < t.1.card)) (hne : t.1.Nonempty) (h : c ∈ termOf ins out t) :
    Outside ins out t.1 c ∨ ∃ i, t.1 = {i} := by
  by_cases hc : 1 < t.1.card
  · left
    have h2 : t.2 = true := by rw [hf]; simpa using hc
    unfold termOf at h
    rw [h2] at h
    exact (mem_legs'.mp (by simpa using h)).2
  · right
    have := hne.card_pos
    exact Finset.card_eq_one.mp (by omega)

theorem two_holders {c i : Nat} (h : 2 ≤ occurrences ins out c) : c ∈ out ∨ ∃ k, k ≠ i ∧ c ∈ ins.getD k ∅ := by
  by_cases ho : c ∈ out
  · exact Or.inl ho
  · right
    rw [occurrences_eq, if_neg ho] at h
    by_contra hk
    push Not at hk
    have hsub : holders ins c ⊆ {i} := by
      intro k hk'
      rw [mem_holders] at hk'
      rw [Finset.mem_singleton]
      by_contra hne
      exact hk k hne hk'
    have := Finset.card_le_card hsub
    simp at this
    omega

theorem two_le_occurrences {U : Finset Nat} {c i : Nat} (hi : i ∈ U) (hc : c ∈ ins.getD i ∅) (ho : Outside ins out U c) :
    2 ≤ occurrences ins out c := by
  rw [occurrences_eq]
  rcases ho with ho | ⟨k, hk, hck⟩
  · rw [if_pos ho]
    have : 0 < (holders ins c).card := Finset.card_pos.mpr ⟨i, mem_holders.mpr hc⟩
    omega
  · have : ({i, k} : Finset Nat) ⊆ holders ins c := by
      intro x hx
      simp only [Finset.mem_insert, Finset.mem_singleton] at hx
      rcases hx with rfl | rfl
      · exact mem_holders.mpr hc
      · exact mem_holders.mpr hck
    have h2 := Finset.card_le_card this
    rw [Finset.card_pair (by rintro rfl; exact hk hi)] at h2
    omega

theorem three_le_occurrences {U : Finset Nat} {c i j : Nat} (hi : i ∈ U) (hj : j ∈ U) (hij : i ≠ j) (hci : c ∈ ins.getD i ∅)
    (hcj : c ∈ ins.getD j ∅) (ho : Outside ins out U c) : 3 ≤ occurrences ins out c := by
  rw [occurrences_eq]
  rcases ho with ho | ⟨k, hk, hck⟩
  · rw [if_pos ho]
    have : ({i, j} : Finset Nat) ⊆ holders ins c := by
      intro x hx
      simp only [Finset.mem_insert, Finset.mem_singleton] at hx
      rcases hx with rfl | rfl
      · exact mem_holders.mpr hci
      · exact mem_holders.mpr hcj
    have h2 := Finset.card_le_card this
    rw [Finset.card_pair hij] at h2
    omega
  · have : ({i, j, k} : Finset Nat) ⊆ holders ins c := by
      intro x hx
      simp only [Finset.mem_insert, Finset.mem_singleton] at hx
      rcases hx with rfl | rfl | rfl
      · exact mem_holders.mpr hci
      · exact mem_holders.mpr hcj
      · exact mem_holders.mpr hck
    have h2 := Finset.card_le_card this
    rw [Finset.card_eq_three.mpr ⟨i, j, k, hij, by rintro rfl; exact hk hi, by rintro rfl; exact hk hj, rfl⟩] at h2
    omega

/-- A label of one tensor of a pair and not of the other does not occur in the other's inputs. -/
theorem not_in_other {X Y : Tag} (hd : Disjoint X.1 Y.1) {c : Nat} (hX : ∃ i ∈ X.1, c ∈ ins.getD i ∅) (hY : c ∉ termOf ins out Y) :
    ∀ k ∈ Y.1, c ∉ ins.getD k ∅ := by
  intro k hk hck
  obtain ⟨i, hi, hci⟩ := hX
  exact hY (termOf_of ⟨k, hk, hck⟩ (Or.inr ⟨i, Finset.disjoint_left.mp hd hi, hci⟩))

theorem combine_one {X Y : Tag} (hg : GoodPair X Y) {c : Nat} (h2 : 2 ≤ occurrences ins out c) (hX : c ∈ termOf ins out X)
    (hY : c ∉ termOf ins out Y) : Outside ins out (X.1 ∪ Y.1) c := by
  have hno := not_in_other hg.disj (termOf_has hX) hY
  have : Outside ins out X.1 c := by
    rcases termOf_outside hg.left.2 hg.left.1 hX with h | ⟨i, hi⟩
    · exact h
    · rcases two_holders (i := i) h2 with h | ⟨k, hk, hck⟩
      · exact Or.inl h
      · exact Or.inr ⟨k, by rw [hi]; simpa using hk, hck⟩
  rcases this with h | ⟨k, hk, hck⟩
  · exact Or.inl h
  · exact Or.inr ⟨k, by rw [Finset.mem_union]; push Not; exact ⟨hk, fun h => hno k h hck⟩, hck⟩

theorem combine_comm (X Y : Tag) : combineTag {X, Y} = combineTag {Y, X} := by rw [Multiset.pair_comm]

theorem GoodPair.symm {X Y : Tag} (h : GoodPair X Y) : GoodPair Y X := ⟨h.disj.symm, h.right, h.left⟩

theorem occurrences_le_two (hn : NoHyperEdges ins out) {c : Nat} (hc : c ∉ out) : occurrences ins out c ≤ 2 := by
  have := hn c hc
  unfold occurrences
  rw [if_neg hc]
  exact this

/-- The labels of the result of a pair in a network without hyperedges. -/
theorem mem_combine_of_noHyper (hn : NoHyperEdges ins out) {X Y : Tag} (hg : GoodPair X Y) (c : Nat) :
    c ∈ termOf ins out (combineTag {X, Y}) ↔
      if c ∈ out then c ∈ termOf ins out X ∨ c ∈ termOf ins out Y else
      ((c ∈ termOf ins out X ∧ c ∉ termOf ins out Y) ∨ (c ∉ termOf ins out X ∧ c ∈ termOf ins out Y)) ∧ occurrences ins out c = 2 := by
  rw [show termOf ins out (combineTag {X, Y}) = legs ins out (combineTag {X, Y}).1 from rfl, (goodPair_combine hg).1, mem_legs']
  by_cases hout : c ∈ out
  · rw [if_pos hout]
    constructor
    · rintro ⟨⟨i, hi, hci⟩, _⟩
      rcases Finset.mem_union.mp hi with hi | hi
      · exact Or.inl (termOf_of ⟨i, hi, hci⟩ (Or.inl hout))
      · exact Or.inr (termOf_of ⟨i, hi, hci⟩ (Or.inl hout))
    · rintro (h | h)
      · obtain ⟨i, hi, hci⟩ := termOf_has h
        exact ⟨⟨i, Finset.mem_union_left _ hi, hci⟩, Or.inl hout⟩
      · obtain ⟨i, hi, hci⟩ := termOf_has h
        exact ⟨⟨i, Finset.mem_union_right _ hi, hci⟩, Or.inl hout⟩
  rw [if_neg hout]
  constructor
  · rintro ⟨⟨i, hi, hci⟩, ho⟩
    have h2 : occurrences ins out c = 2 := le_antisymm (occurrences_le_two hn hout) (two_le_occurrences hi hci ho)
    refine ⟨?_, h2⟩
    have key : ∀ X Y : Tag, Disjoint X.1 Y.1 → i ∈ X.1 → Outside ins out (X.1 ∪ Y.1) c → c ∈ termOf ins out X ∧ c ∉ termOf ins out Y := by
      intro X Y hd hi ho
      refine ⟨termOf_of ⟨i, hi, hci⟩ ?_, ?_⟩
      · rcases ho with ho | ⟨k, hk, hck⟩
        · exact Or.inl ho
        · exact Or.inr ⟨k, fun h => hk (Finset.mem_union_left _ h), hck⟩
      · intro hY
        obtain ⟨j, hj, hcj⟩ := termOf_has hY
        have := three_le_occurrences (Finset.mem_union_left Y.1 hi) (Finset.mem_union_right X.1 hj)
          (by rintro rfl; exact Finset.disjoint_left.mp hd hi hj) hci hcj ho
        omega
    rcases Finset.mem_union.mp hi with hi | hi
    · exact Or.inl (key X Y hg.disj hi ho)
    · exact Or.inr ((key Y X hg.disj.symm hi (by rwa [Finset.union_comm])).symm)
  · rintro ⟨⟨hX, hY⟩ | ⟨hX, hY⟩, h2⟩
    · obtain ⟨i, hi, hci⟩ := termOf_has hX
      exact ⟨⟨i, Finset.mem_union_left _ hi, hci⟩, combine_one hg (by omega) hX hY⟩
    · obtain ⟨i, hi, hci⟩ := termOf_has hY
      refine ⟨⟨i, Finset.mem_union_right _ hi, hci⟩, ?_⟩
      rw [Finset.union_comm]
      exact combine_one hg.symm (by omega) hY hX

/-- The bookkeeping of the searches is exact in networks without hyperedges. -/
theorem cacheSafe_of_noHyper (hn : NoHyperEdges ins out) : CacheSafe ins out := by
  intro X Y X' Y' hg hg' hX hY
  ext c
  rw [mem_combine_of_noHyper hn hg, mem_combine_of_noHyper hn hg', hX, hY]

/-- Without axes that are summed alone, the two ways of counting operations agree on pairs. -/
theorem gPlan_eq_gFlops (hl : NoLoneLabels ins out) {X Y : Tag} (hg : GoodPair X Y) :
    gPlan size ins out {X, Y} = gFlops size ins out {X, Y} := by
  unfold gPlan gFlops stepFlops
  congr 1
  have hcard : (({X, Y} : Multiset Tag)).card = 2 := rfl
  rw [hcard]
  have key : ∀ X Y : Tag, GoodPair X Y → ∀ c, c ∈ termOf ins out X → c ∉ termOf ins out (combineTag {X, Y}) → c ∈ termOf ins out Y := by
    intro X Y hg c hX hc
    by_contra hY
    apply hc
    obtain ⟨i, hi, hci⟩ := termOf_has hX
    rw [show termOf ins out (combineTag {X, Y}) = legs ins out (combineTag {X, Y}).1 from rfl, (goodPair_combine hg).1, mem_legs']
    refine ⟨⟨i, Finset.mem_union_left _ hi, hci⟩, combine_one hg ?_ hX hY⟩
    have hlt := mem_getD hci
    rw [List.getD_eq_getElem?_getD, List.getElem?_eq_getElem hlt] at hci
    exact hl _ (List.getElem_mem hlt) c hci
  have hset : mLabels ins out {X, Y} \ termOf ins out (combineTag {X, Y}) =
      (mLabels ins out {X, Y}).filter (fun c => c ∉ termOf ins out (combineTag {X, Y}) ∧
        1 < Multiset.countP (fun t => c ∈ termOf ins out t) {X, Y}) := by
    ext c
    rw [Finset.mem_sdiff, Finset.mem_filter, mLabels_pair, Finset.mem_union, countP_pair]
    constructor
    · rintro ⟨h1, h2⟩
      refine ⟨h1, h2, ?_⟩
      rcases h1 with h1 | h1
      · exact ⟨h1, key X Y hg c h1 h2⟩
      · exact ⟨key Y X hg.symm c h1 (by rwa [combine_comm]), h1⟩
    · rintro ⟨h1, h2, _⟩
      exact ⟨h1, h2⟩
  have hsub : termOf ins out (combineTag {X, Y}) ⊆ mLabels ins out {X, Y} := by
    intro c hc
    rw [show termOf ins out (combineTag {X, Y}) = legs ins out (combineTag {X, Y}).1 from rfl, (goodPair_combine hg).1, mem_legs'] at hc
    obtain ⟨⟨i, hi, hci⟩, ho⟩ := hc
    rw [mLabels_pair, Finset.mem_union]
    rcases Finset.mem_union.mp hi with hi | hi
    · refine Or.inl (termOf_of ⟨i, hi, hci⟩ ?_)
      rcases ho with ho | ⟨k, hk, hck⟩
      · exact Or.inl ho
      · exact Or.inr ⟨k, fun h => hk (Finset.mem_union_left _ h), hck⟩
    · refine Or.inr (termOf_of ⟨i, hi, hci⟩ ?_)
      rcases ho with ho | ⟨k, hk, hck⟩
      · exact Or.inl ho
      · exact Or.inr ⟨k, fun h => hk (Finset.mem_union_right _ h), hck⟩
  have hiff : mLabels ins out {X, Y} = termOf ins out (combineTag {X, Y}) ↔
      mLabels ins out {X, Y} \ termOf ins out (combineTag {X, Y}) = ∅ := by
    rw [Finset.sdiff_eq_empty_iff_subset]
    exact ⟨fun h => h.subset, fun h => h.antisymm hsub⟩
  simp only [hiff, hset]

/-- The steps of a pairwise path contract pairs of disjoint tensors. -/
theorem Good.trace_pairs {store : List Tag} {nd : SearchNode} (h : Good size ins out store nd) (rest : Path)
    (hv : SsaValid nd.remaining nd.inputs.length rest) (hp : Pairwise2 rest) :
    ∀ m ∈ ssaTrace combineTag store rest, ∃ X Y, m = {X, Y} ∧ GoodPair X Y := by
  induction rest generalizing store nd with
  | nil => simp [ssaTrace]
  | cons p ps ih =>
    obtain ⟨i, j, rfl⟩ : ∃ i j, p = [i, j] := by
      have := hp p (by simp)
      match p, this with
      | [i, j], _ => exact ⟨i, j, rfl⟩
    obtain ⟨_, hnd, hm, hrest⟩ := hv
    have hi := hm i (by simp)
    have hj := hm j (by simp)
    have hij : i ≠ j := by simpa using hnd
    obtain ⟨X, Y, _, _, hg, hpick, _, _⟩ := h.pair hi hj hij
    intro m hmem
    simp only [ssaTrace, List.mem_cons] at hmem
    rcases hmem with rfl | hmem
    · exact ⟨X, Y, hpick, hg⟩
    · refine ih (h.child hi hj hij) ?_ (fun q hq => hp q (by simp [hq])) m hmem
      rw [pair_toFinset] at hrest
      simpa [SearchNode.child] using hrest

end OE.Paths
