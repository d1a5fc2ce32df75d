import Verif.Spec.Exec
import Verif.Lemmas.Pop

/-! Selecting and removing positions of a list. -/

namespace OE.Paths
open OE OE.Py OE.Spec

theorem popAll_selected {α : Type} {p : List Nat} {l tI rI : List α} (hnd : p.Nodup) (h : popAll (sortedDesc p) l = .ok (tI, rI)) :
    tI.map some = (sortedDesc p).map (fun x => l[x]?) ∧ rI = unselected l p := by
  obtain ⟨h1, h2⟩ := popAll_spec (sortedDesc_strict hnd) h
  refine ⟨h1, ?_⟩
  rw [h2]
  unfold unselected
  simp only [mem_sortedDesc]

theorem mem_selected {α : Type} {p : List Nat} {l tI : List α} (h : tI.map some = (sortedDesc p).map (fun x => l[x]?)) {t : α} :
    t ∈ tI ↔ ∃ i ∈ p, l[i]? = some t := by
  have : t ∈ tI ↔ some t ∈ tI.map some := by simp
  rw [this, h, List.mem_map]
  simp only [mem_sortedDesc]

theorem unselected_map {α β : Type} (f : α → β) (l : List α) (p : List Nat) :
    unselected (l.map f) p = (unselected l p).map f := by
  unfold unselected
  rw [List.length_map, List.map_filterMap]
  simp only [List.getElem?_map]

theorem validPath_of_complete {n : Nat} {path : List (List Nat)} (h : CompletePath n path) : ValidPath n path := by
  induction path generalizing n with
  | nil => trivial
  | cons p ps ih =>
    cases ps with
    | nil => exact ⟨h.1, trivial⟩
    | cons q qs => exact ⟨h.1, ih h.2⟩


theorem range_filterMap_get {α : Type} (l : List α) : (List.range l.length).filterMap (fun i => l[i]?) = l := by
  induction l using List.reverseRecOn with
  | nil => rfl
  | append_singleton l a ih =>
    rw [List.length_append, List.length_singleton, List.range_succ, List.filterMap_append]
    have h1 : (List.range l.length).filterMap (fun i => (l ++ [a])[i]?) = (List.range l.length).filterMap (fun i => l[i]?) := by
      apply List.filterMap_congr
      intro i hi
      rw [List.getElem?_append_left (List.mem_range.mp hi)]
    rw [h1, ih]
    simp

theorem unselected_nil {α : Type} (l : List α) : unselected l [] = l := by
  unfold unselected
  simp [range_filterMap_get]

theorem unselected_congr {α : Type} (l : List α) {p q : List Nat} (h : ∀ x, x ∈ p ↔ x ∈ q) : unselected l p = unselected l q := by
  unfold unselected
  simp only [h]

/-- On a list without duplicates, removing positions is filtering by them. -/
theorem unselected_eq_filter {α : Type} [DecidableEq α] {l : List α} (hl : l.Nodup) (p : List Nat) :
    unselected l p = l.filter (fun x => l.idxOf x ∉ p) := by
  conv_rhs => rw [← range_filterMap_get l]
  unfold unselected
  rw [List.filter_filterMap, List.filterMap_filter]
  apply List.filterMap_congr
  intro i hi
  have hi := List.mem_range.mp hi
  rw [List.getElem?_eq_getElem hi, range_filterMap_get]
  by_cases hp : i ∈ p
  · simp [hp, hl.idxOf_getElem, Option.filter_some]
  · simp [hp, hl.idxOf_getElem, Option.filter_some]

theorem unselected_length {α : Type} {l : List α} {p : List Nat} (hn : p.Nodup) (hlt : ∀ x ∈ p, x < l.length) :
    (unselected l p).length + p.length = l.length := by
  obtain ⟨P, Q, h⟩ := popAll_valid hn hlt
  rw [← (popAll_selected hn h).2]
  have := popAll_length h
  rw [sortedDesc_length] at this
  omega

theorem pick_perm {α : Type} (l : List α) {p q : List Nat} (h : p.Perm q) : pick l p = pick l q := by
  unfold pick
  exact Multiset.coe_eq_coe.mpr (h.filterMap _)

theorem unselected_append {α : Type} (a b : List α) (p : List Nat) :
    unselected (a ++ b) p = unselected a p ++ unselected b ((p.filter (fun x => a.length ≤ x)).map (· - a.length)) := by
  unfold unselected
  rw [List.length_append, List.range_add, List.filter_append, List.filterMap_append]
  congr 1
  · apply List.filterMap_congr
    intro i hi
    rw [List.mem_filter, List.mem_range] at hi
    rw [List.getElem?_append_left hi.1]
  · rw [List.filter_map, List.filterMap_map]
    have : ((fun i => decide (i ∉ p)) ∘ fun x => a.length + x) =
        (fun i => decide (i ∉ (p.filter (fun x => a.length ≤ x)).map (· - a.length))) := by
      funext i
      simp only [Function.comp_apply, decide_eq_decide, List.mem_map, List.mem_filter, decide_eq_true_eq, not_iff_not]
      constructor
      · intro h; exact ⟨_, ⟨h, by omega⟩, by omega⟩
      · rintro ⟨x, ⟨h, hx⟩, rfl⟩
        rwa [show a.length + (x - a.length) = x by omega]
    rw [this]
    apply List.filterMap_congr
    intro i _
    simp only [Function.comp_apply]
    rw [List.getElem?_append_right (by omega)]
    congr 1; omega

theorem unselected_all {α : Type} (l : List α) {p : List Nat} (h : ∀ i < l.length, i ∈ p) : unselected l p = [] := by
  unfold unselected
  have : (List.range l.length).filter (fun i => decide (i ∉ p)) = [] := by
    rw [List.filter_eq_nil_iff]
    intro i hi
    simp [h i (List.mem_range.mp hi)]
  rw [this]; rfl

theorem unselected_none {α : Type} (l : List α) {p : List Nat} (h : ∀ i ∈ p, l.length ≤ i) : unselected l p = l := by
  conv_rhs => rw [← unselected_nil l]
  unfold unselected
  congr 1
  apply List.filter_congr
  intro x hx
  have hx := List.mem_range.mp hx
  have : x ∉ p := fun hp => by have := h x hp; omega
  simp [this]

theorem pick_append {α : Type} (l : List α) (p q : List Nat) : pick l (p ++ q) = pick l p + pick l q := by
  unfold pick
  rw [List.filterMap_append, ← Multiset.coe_add]

theorem mem_labelsAt {terms : List (Finset Nat)} {p : List Nat} {c : Nat} :
    c ∈ labelsAt terms p ↔ ∃ i ∈ p, ∃ s, terms[i]? = some s ∧ c ∈ s := by
  unfold labelsAt
  induction p with
  | nil => simp
  | cons a t ih =>
    simp only [List.foldr_cons, Finset.mem_union, ih, List.mem_cons, exists_eq_or_imp]
    apply or_congr _ Iff.rfl
    rw [List.getD_eq_getElem?_getD]
    cases terms[a]? with
    | none => simp
    | some s => simp

end OE.Paths
