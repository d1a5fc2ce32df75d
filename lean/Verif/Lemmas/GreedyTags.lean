import Verif.Props.Branch4
import Verif.Props.Greedy1

/-! The tensors of a greedy search as sets of inputs, and the order of its contractions. -/

namespace OE.Paths
open OE OE.Py OE.Spec OE.Props

variable {ins : List (Finset Nat)} {out out' : Finset Nat}

/-- Two tensors with a common label outside `out'`. -/
def Joined (ins : List (Finset Nat)) (out out' : Finset Nat) (X Y : Tag) : Prop :=
  ∃ c, c ∉ out' ∧ c ∈ termOf ins out X ∧ c ∈ termOf ins out Y

/-- A step of the required kind. -/
def GStepOK (ins : List (Finset Nat)) (out out' : Finset Nat) (live m : Multiset Tag) : Prop :=
  (∃ X Y, m = {X, Y} ∧ (termOf ins out X = termOf ins out Y ∨ Joined ins out out' X Y)) ∨
  ∀ X Y, ({X, Y} : Multiset Tag) ≤ live → ¬ Joined ins out out' X Y

/-- All steps of a trace are of the required kind. -/
def GTr (ins : List (Finset Nat)) (out out' : Finset Nat) : Multiset Tag → List (Multiset Tag) → Prop
  | _, [] => True
  | live, m :: ms => GStepOK ins out out' live m ∧ GTr ins out out' (live - m + {combineTag m}) ms

/-- The set of inputs of a tensor. -/
def tagAt (n : Nat) (path : Path) (id : Nat) : Tag := (ssaStore combineTag (tags n) path)[id]?.getD (∅, false)

theorem tagAt_old {n id : Nat} {path : Path} (h : id < (ssaStore combineTag (tags n) path).length) (p : List Nat) :
    tagAt n (path ++ [p]) id = tagAt n path id := by
  unfold tagAt
  rw [ssaStore_append]
  simp only [ssaStore]
  rw [List.getElem?_append_left h]

theorem tagAt_pick {n a b : Nat} {path : Path} (ha : a < (ssaStore combineTag (tags n) path).length)
    (hb : b < (ssaStore combineTag (tags n) path).length) :
    pick (ssaStore combineTag (tags n) path) [a, b] = {tagAt n path a, tagAt n path b} := by
  unfold pick tagAt
  rw [List.filterMap_cons_some (List.getElem?_eq_getElem ha), List.filterMap_cons_some (List.getElem?_eq_getElem hb),
    List.getElem?_eq_getElem ha, List.getElem?_eq_getElem hb]
  rfl

theorem tagAt_new {n a b : Nat} {path : Path} (ha : a < (ssaStore combineTag (tags n) path).length)
    (hb : b < (ssaStore combineTag (tags n) path).length) :
    tagAt n (path ++ [[a, b]]) (ssaStore combineTag (tags n) path).length = combineTag {tagAt n path a, tagAt n path b} := by
  rw [← tagAt_pick ha hb]
  unfold tagAt
  rw [ssaStore_append]
  simp [ssaStore]

/-- The beginning of a path after which the tensors `ids` remain, all steps so far being of the required kind. -/
structure TPre (ins : List (Finset Nat)) (out out' : Finset Nat) (ids : List Nat) (next : Nat) (path : Path) : Prop where
  len : (ssaStore combineTag (tags ins.length) path).length = next
  lt : ∀ i ∈ ids, i < next
  part : Part ins.length (ids.map (tagAt ins.length path))
  tr : ∀ ms, GTr ins out out' (Multiset.ofList (ids.map (tagAt ins.length path))) ms →
    GTr ins out out' (Multiset.ofList (tags ins.length)) (ssaTrace combineTag (tags ins.length) path ++ ms)

theorem tPre_nil : TPre ins out out' (List.range ins.length) ins.length [] := by
  have h : (List.range ins.length).map (tagAt ins.length []) = tags ins.length := by
    unfold tags
    apply List.map_congr_left
    intro i hi
    have := (tags_get (n := ins.length) (i := i) (t := ({i}, false))).mpr ⟨by simpa using hi, rfl⟩
    simp [tagAt, ssaStore, this]
  refine ⟨tags_length _, fun i hi => by simpa using hi, ?_, ?_⟩
  · rw [h]; exact part_tags _
  · intro ms hms
    rw [h] at hms
    simpa [ssaTrace] using hms

theorem TPre.perm {ids ids' : List Nat} {next : Nat} {path : Path} (h : TPre ins out out' ids next path) (hp : ids.Perm ids') :
    TPre ins out out' ids' next path := by
  refine ⟨h.len, fun i hi => h.lt i (hp.mem_iff.mpr hi), h.part.perm (hp.map _), fun ms hms => h.tr ms ?_⟩
  rwa [Multiset.coe_eq_coe.mpr (hp.map _)]

theorem TPre.old {ids : List Nat} {next : Nat} {path : Path} (h : TPre ins out out' ids next path) {i : Nat} (hi : i < next) (p : List Nat) :
    tagAt ins.length (path ++ [p]) i = tagAt ins.length path i := tagAt_old (by rw [h.len]; exact hi) p

theorem TPre.new {a b : Nat} {ids : List Nat} {next : Nat} {path : Path} (h : TPre ins out out' (a :: b :: ids) next path) :
    tagAt ins.length (path ++ [[a, b]]) next = combineTag {tagAt ins.length path a, tagAt ins.length path b} := by
  have := tagAt_new (n := ins.length) (path := path) (a := a) (b := b) (by rw [h.len]; exact h.lt a (by simp)) (by rw [h.len]; exact h.lt b (by simp))
  rwa [h.len] at this

theorem TPre.step {a b : Nat} {ids : List Nat} {next : Nat} {path : Path} (h : TPre ins out out' (a :: b :: ids) next path)
    (hok : GStepOK ins out out' (Multiset.ofList ((a :: b :: ids).map (tagAt ins.length path)))
      {tagAt ins.length path a, tagAt ins.length path b}) :
    TPre ins out out' (next :: ids) (next + 1) (path ++ [[a, b]]) := by
  have ha : a < (ssaStore combineTag (tags ins.length) path).length := by rw [h.len]; exact h.lt a (by simp)
  have hb : b < (ssaStore combineTag (tags ins.length) path).length := by rw [h.len]; exact h.lt b (by simp)
  have hlt : ∀ i ∈ ids, i < next := fun i hi => h.lt i (by simp [hi])
  have hmap : (next :: ids).map (tagAt ins.length (path ++ [[a, b]])) =
      combineTag {tagAt ins.length path a, tagAt ins.length path b} :: ids.map (tagAt ins.length path) := by
    rw [List.map_cons, h.new]
    congr 1
    exact List.map_congr_left (fun i hi => h.old (hlt i hi) _)
  refine ⟨?_, ?_, ?_, ?_⟩
  · rw [ssaStore_append]
    simp [ssaStore, h.len]
  · intro i hi
    rcases List.mem_cons.mp hi with rfl | hi
    · omega
    · have := hlt i hi; omega
  · rw [hmap]
    have := Part.step (n := ins.length) (sel := [tagAt ins.length path a, tagAt ins.length path b]) (rest := ids.map (tagAt ins.length path))
      (by simpa using h.part)
    exact this.perm (List.perm_append_singleton _ _)
  · intro ms hms
    rw [hmap] at hms
    have := h.tr ({tagAt ins.length path a, tagAt ins.length path b} :: ms) ⟨hok, by
      have e : Multiset.ofList ((a :: b :: ids).map (tagAt ins.length path)) - {tagAt ins.length path a, tagAt ins.length path b} =
          Multiset.ofList (ids.map (tagAt ins.length path)) := by
        have : Multiset.ofList ((a :: b :: ids).map (tagAt ins.length path)) =
            ({tagAt ins.length path a, tagAt ins.length path b} : Multiset Tag) + Multiset.ofList (ids.map (tagAt ins.length path)) := rfl
        rw [this, add_tsub_cancel_left]
      rw [e, add_comm]
      exact hms⟩
    rw [ssaTrace_append, List.append_assoc]
    simp only [ssaTrace, List.singleton_append]
    rw [tagAt_pick ha hb]
    exact this

/-! ## Disjoint tensors -/

theorem Part.mem_lt {n : Nat} {l : List Tag} (h : Part n l) {t : Tag} (ht : t ∈ l) {a : Nat} (ha : a ∈ t.1) : a < n :=
  (h.cover a).mpr ⟨t, ht, ha⟩

/-- A label of two tensors is needed by both. -/
theorem shared_term {l : List Tag} {X Y : Tag} (h : Part ins.length (X :: Y :: l)) {c : Nat} (hx : c ∈ labels ins X.1) (hy : c ∈ labels ins Y.1) :
    c ∈ termOf ins out X ∧ c ∈ termOf ins out Y := by
  have hd : Disjoint X.1 Y.1 := by
    have := h.disj
    simp only [List.map_cons, List.pairwise_cons] at this
    exact this.1 _ (by simp)
  obtain ⟨i, hi, hci⟩ := mem_labels.mp hx
  obtain ⟨j, hj, hcj⟩ := mem_labels.mp hy
  exact ⟨mem_termOf ⟨i, hi, hci⟩ (Or.inr ⟨j, h.mem_lt (by simp) hj, fun hj' => Finset.disjoint_left.mp hd hj' hj, hcj⟩),
    mem_termOf ⟨j, hj, hcj⟩ (Or.inr ⟨i, h.mem_lt (by simp) hi, fun hi' => Finset.disjoint_left.mp hd hi hi', hci⟩)⟩

theorem termOf_subset_labels (t : Tag) : termOf ins out t ⊆ labels ins t.1 :=
  fun _ hc => mem_labels.mpr (mem_termOf_labels hc)

theorem legs_subset_termOf (t : Tag) : legs ins out t.1 ⊆ termOf ins out t := by
  unfold termOf
  split
  · exact subset_rfl
  · exact Finset.inter_subset_left

theorem combine_pair_fst (X Y : Tag) : (combineTag {X, Y}).1 = X.1 ∪ Y.1 := by
  ext a
  rw [mem_combineTag, Finset.mem_union]
  constructor
  · rintro ⟨t, ht, hc⟩
    rcases mem_pair.mp ht with rfl | rfl
    · exact Or.inl hc
    · exact Or.inr hc
  · rintro (h | h)
    · exact ⟨X, by simp, h⟩
    · exact ⟨Y, by simp, h⟩

theorem labels_union (X Y : Finset Nat) : labels ins (X ∪ Y) = labels ins X ∪ labels ins Y := by
  ext c
  simp only [mem_labels, Finset.mem_union]
  constructor
  · rintro ⟨i, hi | hi, hc⟩
    · exact Or.inl ⟨i, hi, hc⟩
    · exact Or.inr ⟨i, hi, hc⟩
  · rintro (⟨i, hi, hc⟩ | ⟨i, hi, hc⟩)
    · exact ⟨i, Or.inl hi, hc⟩
    · exact ⟨i, Or.inr hi, hc⟩

theorem labels_combine (X Y : Tag) : labels ins (combineTag {X, Y}).1 = labels ins X.1 ∪ labels ins Y.1 := by
  rw [combine_pair_fst, labels_union]

/-- What the product of two tensors keeps: labels of the output, and labels of a third tensor. -/
theorem term_combine {l : List Tag} {X Y : Tag} (h : Part ins.length (X :: Y :: l)) {c : Nat} (hc : c ∈ termOf ins out (combineTag {X, Y})) :
    (c ∈ termOf ins out X ∨ c ∈ termOf ins out Y) ∧ (c ∈ out ∨ ∃ Z ∈ l, c ∈ termOf ins out Z) := by
  have hp := h.disj
  simp only [List.map_cons, List.pairwise_cons, List.mem_cons, List.mem_map] at hp
  have := (legs_union (ins := ins) (out := out) (U := (combineTag {X, Y}).1) (S := fun t => t = X ∨ t = Y) (R := fun t => t ∈ l)
    (by intro a; rw [mem_combineTag]; simp only [mem_pair])
    (by
      intro a
      rw [h.cover, combine_pair_fst, Finset.mem_union]
      constructor
      · rintro ⟨t, ht, ha⟩
        rcases List.mem_cons.mp ht with rfl | ht
        · exact Or.inl (Or.inl ha)
        · rcases List.mem_cons.mp ht with rfl | ht
          · exact Or.inl (Or.inr ha)
          · exact Or.inr ⟨t, ht, ha⟩
      · rintro ((ha | ha) | ⟨t, ht, ha⟩)
        · exact ⟨X, by simp, ha⟩
        · exact ⟨Y, by simp, ha⟩
        · exact ⟨t, by simp [ht], ha⟩)
    (by
      intro t ht a ha hc
      rw [combine_pair_fst, Finset.mem_union] at hc
      rcases hc with hc | hc
      · exact Finset.disjoint_left.mp (hp.1 t.1 (Or.inr ⟨t, ht, rfl⟩)) hc ha
      · exact Finset.disjoint_left.mp (hp.2.1 t.1 ⟨t, ht, rfl⟩) hc ha) c).mp (by simpa [termOf, combineTag] using hc)
  obtain ⟨⟨t, ht, h1⟩, h2⟩ := this
  refine ⟨?_, h2⟩
  rcases ht with rfl | rfl
  · exact Or.inl h1
  · exact Or.inr h1

/-! ## No common labels -/

/-- No two tensors have a common label outside `out'`. -/
def NoShare (ins : List (Finset Nat)) (out' : Finset Nat) (l : List Tag) : Prop :=
  l.Pairwise (fun X Y => ∀ c, c ∉ out' → c ∈ labels ins X.1 → c ∉ labels ins Y.1)

theorem NoShare.perm {l l' : List Tag} (h : NoShare ins out' l) (hp : l.Perm l') : NoShare ins out' l' :=
  hp.pairwise h (fun h c hc h1 h2 => h c hc h2 h1)

theorem NoShare.stepOK {l : List Tag} (h : NoShare ins out' l) (m : Multiset Tag) : GStepOK ins out out' (Multiset.ofList l) m := by
  right
  rintro X Y hle ⟨c, hc, hx, hy⟩
  obtain ⟨i, j, hij, e1, e2⟩ := pair_positions hle
  have hx' := termOf_subset_labels X hx
  have hy' := termOf_subset_labels Y hy
  obtain ⟨hi, rfl⟩ := List.getElem?_eq_some_iff.mp e1
  obtain ⟨hj, rfl⟩ := List.getElem?_eq_some_iff.mp e2
  rcases Nat.lt_or_gt_of_ne hij with hlt | hlt
  · exact List.pairwise_iff_getElem.mp h i j hi hj hlt c hc hx' hy'
  · exact List.pairwise_iff_getElem.mp h j i hj hi hlt c hc hy' hx'

theorem NoShare.step {X Y : Tag} {l : List Tag} (h : NoShare ins out' (X :: Y :: l)) : NoShare ins out' (combineTag {X, Y} :: l) := by
  unfold NoShare at *
  simp only [List.pairwise_cons, List.mem_cons] at h ⊢
  refine ⟨?_, h.2.2⟩
  intro t ht c hc hcl
  rw [labels_combine, Finset.mem_union] at hcl
  rcases hcl with hcl | hcl
  · exact h.1 t (Or.inr ht) c hc hcl
  · exact h.2.1 t ht c hc hcl

/-! ## From traces to paths -/

theorem filterMap_range {α : Type} (m : List α) : (List.range m.length).filterMap (fun i => m[i]?) = m := by
  induction m using List.reverseRecOn with
  | nil => rfl
  | append_singleton m x ihm =>
    rw [List.length_append, List.length_singleton, List.range_succ, List.filterMap_append]
    congr 1
    · refine Eq.trans ?_ ihm
      apply List.filterMap_congr
      intro i hi
      rw [List.getElem?_append_left (by simpa using hi)]
    · simp

theorem connectedFirst_of_trace {inner : Nat → Prop} (hinner : ∀ c, inner c → c ∉ out') (hinner' : ∀ c i, c ∉ out' → c ∈ ins.getD i ∅ → inner c)
    (q : Path) {l : List Tag} (hpart : Part ins.length l) (hv : ValidPath l.length q)
    (htr : GTr ins out out' (Multiset.ofList l) (linTrace combineTag l q)) (hp2 : Pairwise2 q) :
    ConnectedFirst inner out (l.map (termOf ins out)) q := by
  induction q generalizing l with
  | nil => trivial
  | cons p ps ih =>
    obtain ⟨hv1, hv2⟩ := hv
    obtain ⟨ht1, ht2⟩ := htr
    refine ⟨?_, ?_⟩
    · rintro ⟨i, j, s, t, c, hij, e1, e2, hc, hcs, hct⟩
      rw [List.getElem?_map] at e1 e2
      obtain ⟨X, f1, rfl⟩ := Option.map_eq_some_iff.mp e1
      obtain ⟨Y, f2, rfl⟩ := Option.map_eq_some_iff.mp e2
      rcases ht1 with ⟨A, B, hm, hAB⟩ | hno
      · obtain ⟨a, b, rfl⟩ : ∃ a b, p = [a, b] := by
          have := hp2 p (by simp)
          match p, this with
          | [a, b], _ => exact ⟨a, b, rfl⟩
        obtain ⟨_, hnd, hlt⟩ := hv1
        have hab : a ≠ b := by simpa using hnd
        have ha := hlt a (by simp)
        have hb := hlt b (by simp)
        have hpk : pick l [a, b] = {l[a], l[b]} := by
          unfold pick
          rw [List.filterMap_cons_some (List.getElem?_eq_getElem ha), List.filterMap_cons_some (List.getElem?_eq_getElem hb)]
          rfl
        rw [hpk] at hm
        have hcase : (l[a] = A ∧ l[b] = B) ∨ (l[a] = B ∧ l[b] = A) := by
          have hm' : Multiset.ofList [l[a], l[b]] = Multiset.ofList [A, B] := hm
          rw [Multiset.coe_eq_coe] at hm'
          have hA : l[a] ∈ [A, B] := hm'.mem_iff.mp (by simp)
          rcases List.mem_cons.mp hA with hA | hA
          · rw [hA] at hm'
            left
            exact ⟨hA, by simpa using (List.perm_cons A).mp hm'⟩
          · rw [List.mem_singleton] at hA
            rw [hA] at hm'
            right
            exact ⟨hA, by simpa using (List.perm_cons B).mp (hm'.trans (List.Perm.swap _ _ _))⟩
        have hga : (l.map (termOf ins out))[a]? = some (termOf ins out l[a]) := by rw [List.getElem?_map, List.getElem?_eq_getElem ha]; rfl
        have hgb : (l.map (termOf ins out))[b]? = some (termOf ins out l[b]) := by rw [List.getElem?_map, List.getElem?_eq_getElem hb]; rfl
        have hin : ∀ c, c ∉ out' → c ∈ termOf ins out A → inner c := by
          intro c hc1 hc2
          obtain ⟨i, _, hi⟩ := mem_termOf_labels hc2
          exact hinner' c i hc1 hi
        refine ⟨a, b, _, _, by simp, by simp, hab, hga, hgb, ?_⟩
        rcases hcase with ⟨h1, h2⟩ | ⟨h1, h2⟩
        · rw [h1, h2]
          rcases hAB with h | ⟨c, k1, k2, k3⟩
          · exact Or.inl h
          · exact Or.inr ⟨c, hin c k1 k2, k2, k3⟩
        · rw [h1, h2]
          rcases hAB with h | ⟨c, k1, k2, k3⟩
          · exact Or.inl h.symm
          · exact Or.inr ⟨c, hin c k1 k2, k3, k2⟩
      · refine absurd ⟨c, hinner c hc, hcs, hct⟩ (hno X Y ?_)
        have h1 := (List.getElem?_eq_some_iff.mp f1).1
        have h2 := (List.getElem?_eq_some_iff.mp f2).1
        have := pick_pair_le (l := l) (p := List.range l.length) (i := i) (j := j) (by simpa using h1) (by simpa using h2) hij f1 f2
        have hall : pick l (List.range l.length) = Multiset.ofList l := by
          unfold pick
          congr 1
          exact filterMap_range l
        rwa [hall] at this
    · rw [afterStep_tags hpart hv1]
      have hlen : (unselected l p ++ [combineTag (pick l p)]).length = l.length + 1 - p.length := by
        have := unselected_length hv1.2.1 hv1.2.2
        rw [List.length_append, List.length_singleton]; omega
      obtain ⟨sel, hperm, hpick, _, _⟩ := select hv1
      have hl : Multiset.ofList l - pick l p = Multiset.ofList (unselected l p) := by
        rw [hpick, ← Multiset.coe_eq_coe.mpr hperm, ← Multiset.coe_add, add_tsub_cancel_left]
      refine ih (part_step hpart hv1) (by rw [hlen]; exact hv2) ?_ (fun x hx => hp2 x (by simp [hx]))
      rw [hl] at ht2
      exact ht2

end OE.Paths
