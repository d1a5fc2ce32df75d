import Verif.Spec.Search
import Verif.Lemmas.Unselected
import Mathlib.Data.Finset.Union
import Mathlib.Data.Finset.Lattice.Fold
import Mathlib.Algebra.Order.BigOperators.Group.Multiset

/-!
The labels of an intermediate depend only on which inputs it is made of.

A *tag* is a set of inputs with a flag: `false` for an input as given, `true` for the result of a contraction.
-/

namespace OE.Paths
open OE OE.Py OE.Spec

abbrev Tag := Finset Nat × Bool

/-- The labels of the inputs `X`. -/
def labels (ins : List (Finset Nat)) (X : Finset Nat) : Finset Nat := X.biUnion (fun i => ins.getD i ∅)

/-- Those needed outside `X`. -/
def legs (ins : List (Finset Nat)) (out X : Finset Nat) : Finset Nat :=
  labels ins X ∩ (out ∪ labels ins (Finset.range ins.length \ X))

/-- The labels of a tensor. -/
def termOf (ins : List (Finset Nat)) (out : Finset Nat) (t : Tag) : Finset Nat :=
  if t.2 then legs ins out t.1 else labels ins t.1

/-- Contracting tags. -/
def combineTag (m : Multiset Tag) : Tag := ((m.map Prod.fst).sup, true)

/-- The inputs. -/
def tags (n : Nat) : List Tag := (List.range n).map (fun i => ({i}, false))

theorem mem_labels {ins : List (Finset Nat)} {X : Finset Nat} {c : Nat} : c ∈ labels ins X ↔ ∃ i ∈ X, c ∈ ins.getD i ∅ := by
  simp [labels]

theorem mem_legs {ins : List (Finset Nat)} {out X : Finset Nat} {c : Nat} : c ∈ legs ins out X ↔
    (∃ i ∈ X, c ∈ ins.getD i ∅) ∧ (c ∈ out ∨ ∃ i < ins.length, i ∉ X ∧ c ∈ ins.getD i ∅) := by
  simp only [legs, Finset.mem_inter, Finset.mem_union, mem_labels, Finset.mem_sdiff, Finset.mem_range, and_assoc]

theorem mem_termOf_labels {ins : List (Finset Nat)} {out : Finset Nat} {t : Tag} {c : Nat} (h : c ∈ termOf ins out t) :
    ∃ i ∈ t.1, c ∈ ins.getD i ∅ := by
  unfold termOf at h
  split at h
  · exact (mem_legs.mp h).1
  · exact mem_labels.mp h

theorem mem_termOf {ins : List (Finset Nat)} {out : Finset Nat} {t : Tag} {c : Nat} (h1 : ∃ i ∈ t.1, c ∈ ins.getD i ∅)
    (h2 : c ∈ out ∨ ∃ i < ins.length, i ∉ t.1 ∧ c ∈ ins.getD i ∅) : c ∈ termOf ins out t := by
  unfold termOf
  split
  · exact mem_legs.mpr ⟨h1, h2⟩
  · exact mem_labels.mpr h1

/-- The labels of the union of the tensors `S`, the other tensors being `R`. -/
theorem legs_union {ins : List (Finset Nat)} {out U : Finset Nat} {S R : Tag → Prop}
    (hU : ∀ a, a ∈ U ↔ ∃ t, S t ∧ a ∈ t.1) (hcover : ∀ a, a < ins.length ↔ a ∈ U ∨ ∃ t, R t ∧ a ∈ t.1)
    (hdisj : ∀ t, R t → ∀ a ∈ t.1, a ∉ U) (c : Nat) :
    c ∈ legs ins out U ↔ (∃ t, S t ∧ c ∈ termOf ins out t) ∧ (c ∈ out ∨ ∃ t, R t ∧ c ∈ termOf ins out t) := by
  rw [mem_legs]
  constructor
  · rintro ⟨⟨a, ha, hca⟩, h⟩
    obtain ⟨t, hSt, hat⟩ := (hU a).mp ha
    constructor
    · refine ⟨t, hSt, mem_termOf ⟨a, hat, hca⟩ ?_⟩
      rcases h with h | ⟨b, hb, hbU, hcb⟩
      · exact Or.inl h
      · exact Or.inr ⟨b, hb, fun hbt => hbU ((hU b).mpr ⟨t, hSt, hbt⟩), hcb⟩
    · rcases h with h | ⟨b, hb, hbU, hcb⟩
      · exact Or.inl h
      · right
        rcases (hcover b).mp hb with h | ⟨t', hRt, hbt⟩
        · exact absurd h hbU
        · refine ⟨t', hRt, mem_termOf ⟨b, hbt, hcb⟩ (Or.inr ⟨a, (hcover a).mpr (Or.inl ha), ?_, hca⟩)⟩
          exact fun hat' => hdisj t' hRt a hat' ha
  · rintro ⟨⟨t, hSt, hc⟩, h⟩
    obtain ⟨a, hat, hca⟩ := mem_termOf_labels hc
    refine ⟨⟨a, (hU a).mpr ⟨t, hSt, hat⟩, hca⟩, ?_⟩
    rcases h with h | ⟨t', hRt, hc'⟩
    · exact Or.inl h
    · obtain ⟨b, hbt, hcb⟩ := mem_termOf_labels hc'
      exact Or.inr ⟨b, (hcover b).mpr (Or.inr ⟨t', hRt, hbt⟩), hdisj t' hRt b hbt, hcb⟩

theorem mem_multiset_sup {m : Multiset (Finset Nat)} {a : Nat} : a ∈ m.sup ↔ ∃ s ∈ m, a ∈ s := by
  induction m using Multiset.induction with
  | empty => simp
  | cons s m ih => simp [ih]

theorem mem_combineTag {m : Multiset Tag} {a : Nat} : a ∈ (combineTag m).1 ↔ ∃ t ∈ m, a ∈ t.1 := by
  unfold combineTag
  rw [mem_multiset_sup]
  simp only [Multiset.mem_map]
  constructor
  · rintro ⟨_, ⟨t, ht, rfl⟩, ha⟩; exact ⟨t, ht, ha⟩
  · rintro ⟨t, ht, ha⟩; exact ⟨_, ⟨t, ht, rfl⟩, ha⟩

/-! ## Figures of a contraction of tags -/

/-- All labels of the contracted tensors. -/
def mLabels (ins : List (Finset Nat)) (out : Finset Nat) (m : Multiset Tag) : Finset Nat := (m.map (termOf ins out)).sup

/-- Number of elements of the result. -/
def gSize (size : Nat → Nat) (ins : List (Finset Nat)) (out : Finset Nat) (m : Multiset Tag) : Nat :=
  ∏ c ∈ termOf ins out (combineTag m), size c

/-- Operations as the path finders count them. -/
def gFlops (size : Nat → Nat) (ins : List (Finset Nat)) (out : Finset Nat) (m : Multiset Tag) : Nat :=
  (∏ c ∈ mLabels ins out m, size c) *
    (max 1 (m.card - 1) +
      if (mLabels ins out m).filter (fun c => c ∉ termOf ins out (combineTag m) ∧ 1 < m.countP (fun t => c ∈ termOf ins out t)) = ∅
      then 0 else 1)

/-- Operations as `PathInfo` counts them. -/
def gPlan (size : Nat → Nat) (ins : List (Finset Nat)) (out : Finset Nat) (m : Multiset Tag) : Nat :=
  stepFlops size (mLabels ins out m) (termOf ins out (combineTag m)) m.card

theorem mem_mLabels {ins : List (Finset Nat)} {out : Finset Nat} {m : Multiset Tag} {c : Nat} :
    c ∈ mLabels ins out m ↔ ∃ t ∈ m, c ∈ termOf ins out t := by
  unfold mLabels
  rw [mem_multiset_sup]
  simp only [Multiset.mem_map]
  constructor
  · rintro ⟨_, ⟨t, ht, rfl⟩, ha⟩; exact ⟨t, ht, ha⟩
  · rintro ⟨t, ht, ha⟩; exact ⟨_, ⟨t, ht, rfl⟩, ha⟩

/-! ## Lists of tags -/

/-- The tags are disjoint and cover the inputs. -/
structure Part (n : Nat) (l : List Tag) : Prop where
  disj : (l.map Prod.fst).Pairwise Disjoint
  cover : ∀ a, a < n ↔ ∃ t ∈ l, a ∈ t.1

theorem part_tags (n : Nat) : Part n (tags n) := by
  constructor
  · unfold tags
    rw [List.map_map, List.pairwise_map]
    apply List.Pairwise.imp _ (List.nodup_range (n := n))
    intro a b hab
    simp [hab]
  · intro a
    simp [tags]

theorem Part.perm {n : Nat} {l l' : List Tag} (h : Part n l) (hp : l.Perm l') : Part n l' := by
  constructor
  · exact (hp.map Prod.fst).pairwise h.disj (fun h => h.symm)
  · intro a; rw [h.cover]; simp only [hp.mem_iff]

theorem Part.step {n : Nat} {sel rest : List Tag} (h : Part n (sel ++ rest)) : Part n (rest ++ [combineTag (Multiset.ofList sel)]) := by
  constructor
  · rw [List.map_append, List.pairwise_append]
    have h1 := h.disj
    rw [List.map_append, List.pairwise_append] at h1
    refine ⟨h1.2.1, by simp, ?_⟩
    intro a ha b hb
    simp only [List.map_cons, List.map_nil, List.mem_singleton] at hb
    subst hb
    rw [Finset.disjoint_left]
    intro x hxa hx
    obtain ⟨t, ht, hxt⟩ := mem_combineTag.mp hx
    have := h1.2.2 t.1 (List.mem_map_of_mem (by simpa using ht)) a ha
    exact Finset.disjoint_left.mp this hxt hxa
  · intro a
    rw [h.cover]
    simp only [List.mem_append, List.mem_singleton]
    constructor
    · rintro ⟨t, ht | ht, ha⟩
      · exact ⟨_, Or.inr rfl, mem_combineTag.mpr ⟨t, by simpa using ht, ha⟩⟩
      · exact ⟨t, Or.inl ht, ha⟩
    · rintro ⟨t, ht | rfl, ha⟩
      · exact ⟨t, Or.inr ht, ha⟩
      · obtain ⟨t, ht, ha⟩ := mem_combineTag.mp ha
        exact ⟨t, Or.inl (by simpa using ht), ha⟩

/-- What a step on tags selects and leaves. -/
theorem select {α : Type} {l : List α} {p : List Nat} (hv : ValidStep l.length p) :
    ∃ sel, (sel ++ unselected l p).Perm l ∧ pick l p = Multiset.ofList sel ∧ sel.length = p.length ∧
      sel.map some = (sortedDesc p).map (fun x => l[x]?) := by
  obtain ⟨hne, hn, hlt⟩ := hv
  obtain ⟨P, Q, h⟩ := popAll_valid hn hlt
  obtain ⟨h1, h2⟩ := popAll_selected hn h
  refine ⟨P, ?_, ?_, ?_, h1⟩
  · rw [← h2]; exact popAll_perm h
  · rw [pick_perm l (sortedDesc_perm p).symm]
    unfold pick
    congr 1
    have : (sortedDesc p).filterMap (fun i => l[i]?) = ((sortedDesc p).map (fun x => l[x]?)).filterMap id := by
      rw [List.filterMap_map]; rfl
    rw [this, ← h1, List.filterMap_map]
    simp
  · rw [(popAll_length h).1, sortedDesc_length]

section
variable {ins : List (Finset Nat)} {out : Finset Nat} {l : List Tag} {p : List Nat}

theorem mem_pick {α : Type} {l : List α} {p : List Nat} {t : α} : t ∈ pick l p ↔ ∃ i ∈ p, l[i]? = some t := by
  simp [pick]

theorem labelsAt_tags : labelsAt (l.map (termOf ins out)) p = mLabels ins out (pick l p) := by
  ext c
  rw [mem_labelsAt, mem_mLabels]
  simp only [List.getElem?_map, Option.map_eq_some_iff, mem_pick]
  constructor
  · rintro ⟨i, hi, _, ⟨t, ht, rfl⟩, hc⟩; exact ⟨t, ⟨i, hi, ht⟩, hc⟩
  · rintro ⟨t, ⟨i, hi, ht⟩, hc⟩; exact ⟨i, hi, _, ⟨t, ht, rfl⟩, hc⟩

theorem kept_tags (hpart : Part ins.length l) (hv : ValidStep l.length p) :
    keptLabels out (l.map (termOf ins out)) p = termOf ins out (combineTag (pick l p)) := by
  obtain ⟨sel, hperm, hpick, _, _⟩ := select hv
  have hp := hpart.perm hperm.symm
  ext c
  have hcover : ∀ a, a < ins.length ↔ a ∈ (combineTag (pick l p)).1 ∨ ∃ t, t ∈ unselected l p ∧ a ∈ t.1 := by
    intro a
    rw [hp.cover, mem_combineTag, hpick]
    simp only [List.mem_append, Multiset.mem_coe]
    constructor
    · rintro ⟨t, ht | ht, ha⟩
      · exact Or.inl ⟨t, ht, ha⟩
      · exact Or.inr ⟨t, ht, ha⟩
    · rintro (⟨t, ht, ha⟩ | ⟨t, ht, ha⟩)
      · exact ⟨t, Or.inl ht, ha⟩
      · exact ⟨t, Or.inr ht, ha⟩
  have hdisj : ∀ t, t ∈ unselected l p → ∀ a ∈ t.1, a ∉ (combineTag (pick l p)).1 := by
    intro t ht a ha hc
    rw [mem_combineTag, hpick] at hc
    obtain ⟨t', ht', ha'⟩ := hc
    have h1 := hp.disj
    rw [List.map_append, List.pairwise_append] at h1
    exact Finset.disjoint_left.mp (h1.2.2 t'.1 (List.mem_map_of_mem (by simpa using ht')) t.1 (List.mem_map_of_mem ht)) ha' ha
  have hk := legs_union (ins := ins) (out := out) (S := fun t => t ∈ pick l p) (R := fun t => t ∈ unselected l p)
    (U := (combineTag (pick l p)).1) (fun a => mem_combineTag) hcover hdisj c
  rw [show termOf ins out (combineTag (pick l p)) = legs ins out (combineTag (pick l p)).1 from rfl, hk]
  unfold keptLabels
  rw [Finset.mem_filter, labelsAt_tags, mem_mLabels, unselected_map]
  simp only [List.mem_map, exists_exists_and_eq_and]

theorem afterStep_tags (hpart : Part ins.length l) (hv : ValidStep l.length p) :
    afterStep out (l.map (termOf ins out)) p = (unselected l p ++ [combineTag (pick l p)]).map (termOf ins out) := by
  unfold afterStep
  rw [kept_tags hpart hv, unselected_map, List.map_append, List.map_singleton]

theorem part_step {n : Nat} (hpart : Part n l) (hv : ValidStep l.length p) : Part n (unselected l p ++ [combineTag (pick l p)]) := by
  obtain ⟨sel, hperm, hpick, _, _⟩ := select hv
  rw [hpick]
  exact (hpart.perm hperm.symm).step

theorem pairFlops_tags {size : Nat → Nat} (hpart : Part ins.length l) (hv : ValidStep l.length p) :
    pairFlops size out (l.map (termOf ins out)) p = gFlops size ins out (pick l p) := by
  obtain ⟨sel, hperm, hpick, hlen, _⟩ := select hv
  unfold pairFlops gFlops
  rw [labelsAt_tags, kept_tags hpart hv]
  congr 2
  · rw [hpick, Multiset.coe_card, hlen]
  · have : ∀ c, p.countP (fun i => c ∈ (l.map (termOf ins out)).getD i ∅) = (pick l p).countP (fun t => c ∈ termOf ins out t) := by
      intro c
      unfold pick
      rw [Multiset.coe_countP, List.countP_filterMap]
      apply List.countP_congr
      intro i hi
      have hi := hv.2.2 i hi
      simp only [List.getD_eq_getElem?_getD, List.getElem?_map, List.getElem?_eq_getElem hi]
      simp
    simp only [this]

theorem stepFlops_tags {size : Nat → Nat} (hpart : Part ins.length l) (hv : ValidStep l.length p) :
    stepFlops size (labelsAt (l.map (termOf ins out)) p) (keptLabels out (l.map (termOf ins out)) p) p.length =
      gPlan size ins out (pick l p) := by
  obtain ⟨sel, hperm, hpick, hlen, _⟩ := select hv
  unfold gPlan
  rw [labelsAt_tags, kept_tags hpart hv, hpick, Multiset.coe_card, hlen]

end

theorem tags_terms (ins : List (Finset Nat)) (out : Finset Nat) : (tags ins.length).map (termOf ins out) = ins := by
  apply List.ext_getElem?
  intro i
  unfold tags
  rw [List.map_map, List.getElem?_map]
  by_cases hi : i < ins.length
  · rw [List.getElem?_eq_getElem (by simpa using hi), List.getElem?_eq_getElem hi]
    simp [termOf, labels, hi]
  · rw [List.getElem?_eq_none (by simpa using hi), List.getElem?_eq_none (by omega)]; rfl

/-- The figures of a path are determined by its trace on tags. -/
theorem figures_trace {ins : List (Finset Nat)} {out : Finset Nat} {size : Nat → Nat} (path : List (List Nat)) {l : List Tag}
    (hpart : Part ins.length l) (hv : ValidPath l.length path) :
    searchFlops size out (l.map (termOf ins out)) path = ((linTrace combineTag l path).map (gFlops size ins out)).sum ∧
    resultSizes size out (l.map (termOf ins out)) path = (linTrace combineTag l path).map (gSize size ins out) ∧
    (planFigures size out (l.map (termOf ins out)) path).map StepFigures.flops =
      (linTrace combineTag l path).map (gPlan size ins out) := by
  induction path generalizing l with
  | nil => exact ⟨rfl, rfl, rfl⟩
  | cons p ps ih =>
    obtain ⟨hs, hrest⟩ := hv
    have hlen : (unselected l p ++ [combineTag (pick l p)]).length = l.length + 1 - p.length := by
      have := unselected_length hs.2.1 hs.2.2
      rw [List.length_append, List.length_singleton]; omega
    rw [← hlen] at hrest
    obtain ⟨h1, h2, h3⟩ := ih (part_step hpart hs) hrest
    refine ⟨?_, ?_, ?_⟩
    · simp only [searchFlops, linTrace, List.map_cons, List.sum_cons]
      rw [afterStep_tags hpart hs, h1, pairFlops_tags hpart hs]
    · simp only [resultSizes, linTrace, List.map_cons]
      rw [afterStep_tags hpart hs, h2, kept_tags hpart hs]
      rfl
    · simp only [planFigures, linTrace, List.map_cons]
      rw [afterStep_tags hpart hs, h3, stepFlops_tags hpart hs]

end OE.Paths
