import Verif.Py.Basic
import Mathlib.Data.List.Perm.Basic

/-! Lemmas on `list.pop` sequences and on sorting positions. -/

namespace OE.Py

theorem sortedDesc_pairwise (l : List Nat) : (sortedDesc l).Pairwise (· ≥ ·) := List.pairwise_insertionSort _ l
theorem sortedDesc_perm (l : List Nat) : (sortedDesc l).Perm l := List.perm_insertionSort _ l
theorem mem_sortedDesc {l : List Nat} {a : Nat} : a ∈ sortedDesc l ↔ a ∈ l := (sortedDesc_perm l).mem_iff
theorem sortedDesc_length (l : List Nat) : (sortedDesc l).length = l.length := (sortedDesc_perm l).length_eq
theorem sortedDesc_ne_nil {l : List Nat} (h : l ≠ []) : sortedDesc l ≠ [] := by
  intro e; have := sortedDesc_length l; rw [e] at this; simp at this; exact h (by simpa using this.symm)
theorem sortedDesc_eq_nil {l : List Nat} : sortedDesc l = [] ↔ l = [] := by
  constructor
  · intro h; by_contra hl; exact sortedDesc_ne_nil hl h
  · rintro rfl; rfl

theorem pairwise_ge_ext {l₁ l₂ : List Nat} (h₁ : l₁.Pairwise (· ≥ ·)) (h₂ : l₂.Pairwise (· ≥ ·)) (h : l₁.Perm l₂) :
    l₁ = l₂ := h.eq_of_pairwise (le := (· ≥ ·)) (fun _ _ _ _ h1 h2 => Nat.le_antisymm h2 h1) h₁ h₂

theorem sortedDesc_idem (l : List Nat) : sortedDesc (sortedDesc l) = sortedDesc l :=
  pairwise_ge_ext (sortedDesc_pairwise _) (sortedDesc_pairwise _) (sortedDesc_perm _)

theorem sortedDesc_of_perm {l₁ l₂ : List Nat} (h : l₁.Perm l₂) : sortedDesc l₁ = sortedDesc l₂ :=
  pairwise_ge_ext (sortedDesc_pairwise _) (sortedDesc_pairwise _)
    ((sortedDesc_perm _).trans (h.trans (sortedDesc_perm _).symm))

theorem sortedDesc_of_pairwise {l : List Nat} (h : l.Pairwise (· ≥ ·)) : sortedDesc l = l :=
  pairwise_ge_ext (sortedDesc_pairwise _) h (sortedDesc_perm _)

theorem popAll_nil {α : Type} (l : List α) : popAll [] l = .ok ([], l) := rfl

theorem popAll_cons {α : Type} (x : Nat) (xs : List Nat) (l : List α) :
    popAll (x :: xs) l = (match l[x]? with
      | none => .error .index
      | some a => match popAll xs (l.eraseIdx x) with
        | .error e => .error e
        | .ok (as, l'') => .ok (a :: as, l'')) := by
  simp only [popAll, pop]
  cases h : l[x]? with
  | none => rfl
  | some a =>
    simp only [bind, Except.bind]
    cases popAll xs (l.eraseIdx x) <;> rfl

theorem popAll_map {α β : Type} (f : α → β) (xs : List Nat) (l : List α) :
    popAll xs (l.map f) = (popAll xs l).map (fun p => (p.1.map f, p.2.map f)) := by
  induction xs generalizing l with
  | nil => rfl
  | cons x xs ih =>
    rw [popAll_cons, popAll_cons, List.getElem?_map]
    cases h : l[x]? with
    | none => rfl
    | some a =>
      simp only [Option.map_some]
      rw [List.eraseIdx_map, ih]
      cases popAll xs (l.eraseIdx x) <;> rfl

theorem popAll_map_ok {α β : Type} (f : α → β) {xs : List Nat} {l P Q : List α} (h : popAll xs l = .ok (P, Q)) :
    popAll xs (l.map f) = .ok (P.map f, Q.map f) := by
  rw [popAll_map, h]; rfl

theorem popAll_perm {α : Type} {xs : List Nat} {l P Q : List α} (h : popAll xs l = .ok (P, Q)) : (P ++ Q).Perm l := by
  induction xs generalizing l P with
  | nil => cases h; exact List.Perm.refl _
  | cons x xs ih =>
    rw [popAll_cons] at h
    cases hx : l[x]? with
    | none => rw [hx] at h; cases h
    | some a =>
      rw [hx] at h
      simp only at h
      cases hp : popAll xs (l.eraseIdx x) with
      | error e => rw [hp] at h; cases h
      | ok r =>
        rw [hp] at h
        obtain ⟨as, l''⟩ := r
        cases h
        have h1 := ih hp
        have h2 : (a :: l.eraseIdx x).Perm l := by
          obtain ⟨hlt, rfl⟩ := List.getElem?_eq_some_iff.mp hx
          exact List.getElem_cons_eraseIdx_perm hlt
        exact (h1.cons a).trans h2

theorem popAll_length {α : Type} {xs : List Nat} {l P Q : List α} (h : popAll xs l = .ok (P, Q)) :
    P.length = xs.length ∧ P.length + Q.length = l.length := by
  refine ⟨?_, by rw [← (popAll_perm h).length_eq]; simp⟩
  induction xs generalizing l P with
  | nil => cases h; rfl
  | cons x xs ih =>
    rw [popAll_cons] at h
    cases hx : l[x]? with
    | none => rw [hx] at h; cases h
    | some a =>
      rw [hx] at h
      simp only at h
      cases hp : popAll xs (l.eraseIdx x) with
      | error e => rw [hp] at h; cases h
      | ok r =>
        rw [hp] at h
        obtain ⟨as, l''⟩ := r
        cases h
        simp [ih hp]

/-- Popping strictly decreasing positions inside the list succeeds; the popped elements are those at the
positions, the rest keeps its order. -/
theorem popAll_desc {α : Type} {xs : List Nat} {l : List α} (hd : xs.Pairwise (· > ·)) (hlt : ∀ x ∈ xs, x < l.length) :
    ∃ P Q, popAll xs l = .ok (P, Q) := by
  induction xs generalizing l with
  | nil => exact ⟨[], l, rfl⟩
  | cons x xs ih =>
    rw [List.pairwise_cons] at hd
    have hx := hlt x (by simp)
    have h2 : ∀ y ∈ xs, y < (l.eraseIdx x).length := by
      intro y hy
      have := hd.1 y hy
      rw [List.length_eraseIdx_of_lt hx]
      omega
    obtain ⟨P, Q, hPQ⟩ := ih hd.2 h2
    refine ⟨l[x] :: P, Q, ?_⟩
    rw [popAll_cons, List.getElem?_eq_getElem hx]
    simp only [hPQ]

theorem sortedDesc_strict {l : List Nat} (h : l.Nodup) : (sortedDesc l).Pairwise (· > ·) := by
  have h1 := sortedDesc_pairwise l
  have h2 : (sortedDesc l).Nodup := (sortedDesc_perm l).nodup_iff.mpr h
  have := h1.and h2
  exact this.imp (fun ⟨a, b⟩ => by omega)

theorem popAll_valid {α : Type} {p : List Nat} {l : List α} (hn : p.Nodup) (hlt : ∀ x ∈ p, x < l.length) :
    ∃ P Q, popAll (sortedDesc p) l = .ok (P, Q) :=
  popAll_desc (sortedDesc_strict hn) (fun x hx => hlt x (mem_sortedDesc.mp hx))

theorem popAll_error {α : Type} {xs : List Nat} {l : List α} {e : PyErr} (h : popAll xs l = .error e) : e = .index := by
  induction xs generalizing l with
  | nil => cases h
  | cons x xs ih =>
    rw [popAll_cons] at h
    cases hx : l[x]? with
    | none => rw [hx] at h; cases h; rfl
    | some a =>
      rw [hx] at h
      simp only at h
      cases hp : popAll xs (l.eraseIdx x) with
      | error e' => rw [hp] at h; cases h; exact ih hp
      | ok r => rw [hp] at h; cases h

/-- Description of popping strictly decreasing positions. -/
theorem popAll_spec {α : Type} {xs : List Nat} {l P Q : List α} (hd : xs.Pairwise (· > ·)) (h : popAll xs l = .ok (P, Q)) :
    P.map some = xs.map (fun x => l[x]?) ∧
    Q = ((List.range l.length).filter (fun i => i ∉ xs)).filterMap (fun i => l[i]?) := by
  induction xs generalizing l P with
  | nil =>
    simp only [popAll_nil, Except.ok.injEq, Prod.mk.injEq] at h
    obtain ⟨rfl, rfl⟩ := h
    refine ⟨rfl, ?_⟩
    simp only [List.not_mem_nil, not_false_eq_true, decide_true, List.filter_true]
    have : ∀ l : List α, (List.range l.length).filterMap (fun i => l[i]?) = l := by
      intro l
      induction l using List.reverseRecOn with
      | nil => rfl
      | append_singleton l a ih =>
        rw [List.length_append, List.length_singleton, List.range_succ, List.filterMap_append]
        have h1 : (List.range l.length).filterMap (fun i => (l ++ [a])[i]?) = (List.range l.length).filterMap (fun i => l[i]?) := by
          apply List.filterMap_congr
          intro i hi
          rw [List.getElem?_append_left (List.mem_range.mp hi)]
        rw [h1, ih]
        simp
    rw [this]
  | cons x xs ih =>
    rw [List.pairwise_cons] at hd
    rw [popAll_cons] at h
    cases hx : l[x]? with
    | none => rw [hx] at h; cases h
    | some a =>
      rw [hx] at h
      simp only at h
      cases hp : popAll xs (l.eraseIdx x) with
      | error e => rw [hp] at h; cases h
      | ok r =>
        rw [hp] at h
        obtain ⟨as, l''⟩ := r
        cases h
        obtain ⟨h1, h2⟩ := ih hd.2 hp
        have hlt : x < l.length := (List.getElem?_eq_some_iff.mp hx).1
        constructor
        · simp only [List.map_cons, hx, List.cons.injEq, true_and]
          rw [h1]
          apply List.map_congr_left
          intro y hy
          have := hd.1 y hy
          rw [List.getElem?_eraseIdx_of_lt this]
        · rw [h2]
          have hsplit : List.range l.length = List.range x ++ x :: (List.range (l.length - x - 1)).map (· + (x + 1)) := by
            have e1 : l.length = x + ((l.length - x - 1) + 1) := by omega
            conv_lhs => rw [e1, List.range_add, List.range_succ_eq_map]
            simp only [List.map_cons, List.map_map, Nat.add_zero]
            congr 2
            apply List.map_congr_left
            intro i _
            simp only [Function.comp, Nat.succ_eq_add_one]; omega
          have hsplit2 : List.range (l.eraseIdx x).length = List.range x ++ (List.range (l.length - x - 1)).map (· + x) := by
            rw [List.length_eraseIdx_of_lt hlt]
            have e1 : l.length - 1 = x + (l.length - x - 1) := by omega
            rw [e1, List.range_add]
            congr 1
            apply List.map_congr_left
            intro i _; omega
          rw [hsplit, hsplit2]
          simp only [List.filter_append, List.filterMap_append, List.filter_cons, List.mem_cons, true_or, not_true_eq_false,
            decide_false, Bool.false_eq_true, if_false]
          congr 1
          · have hf : (List.range x).filter (fun i => decide (¬(i = x ∨ i ∈ xs))) = (List.range x).filter (fun i => decide (i ∉ xs)) := by
              apply List.filter_congr
              intro i hi
              have := List.mem_range.mp hi
              have hne : i ≠ x := by omega
              simp [hne]
            rw [hf]
            apply List.filterMap_congr
            intro i hi
            rw [List.getElem?_eraseIdx_of_lt (List.mem_range.mp (List.mem_filter.mp hi).1)]
          · rw [List.filter_map, List.filter_map, List.filterMap_map, List.filterMap_map]
            have hf1 : ((fun i => decide (i ∉ xs)) ∘ (fun i => i + x)) = fun _ => true := by
              funext i
              simp only [Function.comp, decide_eq_true_eq]
              intro hi; have := hd.1 _ hi; omega
            have hf2 : ((fun i => decide (¬(i = x ∨ i ∈ xs))) ∘ (fun i => i + (x + 1))) = fun _ => true := by
              funext i
              simp only [Function.comp, decide_eq_true_eq, not_or]
              exact ⟨by omega, fun hi => by have := hd.1 _ hi; omega⟩
            rw [hf1, hf2]
            apply List.filterMap_congr
            intro i _
            simp only [Function.comp]
            rw [List.getElem?_eraseIdx_of_ge (by omega)]
            congr 1

end OE.Py
