import Verif.Model.Parser
import Verif.Spec.Parser

/-! Lemmas about the Python string primitives: sorting, splitting, joining, replacing. -/

namespace OE.Py
open OE

/-! ### sorted -/

theorem sorted_pairwise (l : List Nat) : (sorted l).Pairwise (· ≤ ·) :=
  List.pairwise_insertionSort _ l

theorem sorted_perm (l : List Nat) : (sorted l).Perm l := List.perm_insertionSort _ l

theorem mem_sorted {l : List Nat} {a : Nat} : a ∈ sorted l ↔ a ∈ l := (sorted_perm l).mem_iff

theorem sortedSet_mem {s : Str} {a : Nat} : a ∈ sortedSet s ↔ a ∈ s := by
  simp [sortedSet, mem_sorted]

theorem sortedSet_nodup (s : Str) : (sortedSet s).Nodup :=
  (sorted_perm _).nodup_iff.2 (List.nodup_dedup s)

theorem sortedSet_strict (s : Str) : (sortedSet s).Pairwise (· < ·) := by
  have h1 := sorted_pairwise s.dedup
  have h2 := sortedSet_nodup s
  unfold sortedSet at *
  exact (h1.and h2).imp (fun {a b} h => lt_of_le_of_ne h.1 h.2)

theorem strict_ext {l₁ l₂ : List Nat} (h₁ : l₁.Pairwise (· < ·)) (h₂ : l₂.Pairwise (· < ·))
    (h : ∀ a, a ∈ l₁ ↔ a ∈ l₂) : l₁ = l₂ :=
  List.Pairwise.eq_of_mem_iff h₁ h₂ (fun {a} => h a)

/-! ### split / join -/

theorem splitOn_ne_nil (c : Nat) (s : Str) : splitOn c s ≠ [] := by
  cases s with
  | nil => simp [splitOn]
  | cons x xs => simp only [splitOn]; split <;> [simp; (split <;> simp)]

theorem splitOn_length (c : Nat) (s : Str) : (splitOn c s).length = s.count c + 1 := by
  induction s with
  | nil => simp [splitOn]
  | cons x xs ih =>
    simp only [splitOn]
    split
    · subst_vars; simp [ih]
    · rename_i hx
      have hne := splitOn_ne_nil c xs
      cases hsp : splitOn c xs with
      | nil => exact absurd hsp hne
      | cons h t =>
        rw [hsp] at ih
        simp only [List.length_cons] at ih ⊢
        rw [ih, List.count_cons_of_ne hx]

theorem join_splitOn (c : Nat) (s : Str) : join [c] (splitOn c s) = s := by
  induction s with
  | nil => simp [splitOn, join]
  | cons x xs ih =>
    simp only [splitOn]
    have hne := splitOn_ne_nil c xs
    cases hsp : splitOn c xs with
    | nil => exact absurd hsp hne
    | cons h t =>
      rw [hsp] at ih
      split
      · subst_vars; simp [join]
      · cases t with
        | nil => simp only [join] at ih ⊢; rw [ih]
        | cons b u => simp only [join] at ih ⊢; rw [← ih]; simp

theorem splitOn_mem_free (c : Nat) (s : Str) : ∀ t ∈ splitOn c s, c ∉ t := by
  induction s with
  | nil => simp [splitOn]
  | cons x xs ih =>
    simp only [splitOn]
    have hne := splitOn_ne_nil c xs
    cases hsp : splitOn c xs with
    | nil => exact absurd hsp hne
    | cons h t =>
      rw [hsp] at ih
      split
      · intro u hu
        simp only [List.mem_cons] at hu
        rcases hu with rfl | hu
        · simp
        · exact ih u (by simpa using hu)
      · rename_i hx
        intro u hu
        simp only [List.mem_cons] at hu
        rcases hu with rfl | hu
        · simp only [List.mem_cons, not_or]
          exact ⟨fun h => hx h.symm, ih h (by simp)⟩
        · exact ih u (by simp [hu])

theorem splitOn_of_free (c : Nat) (s : Str) (h : c ∉ s) : splitOn c s = [s] := by
  induction s with
  | nil => rfl
  | cons x xs ih =>
    simp only [List.mem_cons, not_or] at h
    simp only [splitOn, if_neg (Ne.symm h.1), ih h.2]

theorem splitOn_append (c : Nat) (a b : Str) (h : c ∉ a) :
    splitOn c (a ++ c :: b) = a :: splitOn c b := by
  induction a with
  | nil => simp [splitOn]
  | cons x xs ih =>
    simp only [List.mem_cons, not_or] at h
    simp only [List.cons_append, splitOn, if_neg (Ne.symm h.1), ih h.2]

theorem splitOn_join (c : Nat) (l : List Str) (hne : l ≠ []) (h : ∀ t ∈ l, c ∉ t) :
    splitOn c (join [c] l) = l := by
  induction l with
  | nil => exact absurd rfl hne
  | cons a t ih =>
    cases t with
    | nil => simp only [join]; exact splitOn_of_free c a (h a (by simp))
    | cons b u =>
      simp only [join, List.append_assoc, List.singleton_append]
      rw [splitOn_append c a _ (h a (by simp)), ih (by simp) (fun t ht => h t (by simp [ht]))]

theorem mem_join (sep : Str) (l : List Str) (x : Nat) (h : x ∈ join sep l) :
    (x ∈ sep) ∨ ∃ t ∈ l, x ∈ t := by
  induction l with
  | nil => simp [join] at h
  | cons a t ih =>
    cases t with
    | nil => simp only [join] at h; exact Or.inr ⟨a, by simp, h⟩
    | cons b u =>
      simp only [join, List.append_assoc, List.mem_append] at h
      rcases h with h | h | h
      · exact Or.inr ⟨a, by simp, h⟩
      · exact Or.inl h
      · rcases ih h with h | ⟨t, ht, hx⟩
        · exact Or.inl h
        · exact Or.inr ⟨t, by simp [ht], hx⟩

theorem mem_join_of_mem (sep : Str) (l : List Str) (x : Nat) (t : Str) (ht : t ∈ l) (hx : x ∈ t) :
    x ∈ join sep l := by
  induction l with
  | nil => simp at ht
  | cons a r ih =>
    cases r with
    | nil => simp only [List.mem_singleton] at ht; subst ht; simpa [join]
    | cons b u =>
      simp only [join, List.append_assoc, List.mem_append]
      rcases List.mem_cons.1 ht with rfl | ht
      · exact Or.inl hx
      · exact Or.inr (Or.inr (ih ht))

/-! ### the arrow -/

theorem splitArrow_ne_nil (s : Str) : splitArrow s ≠ [] := by
  fun_induction splitArrow s <;> simp_all

theorem splitArrow_of_free (s : Str) (h : cGt ∉ s) : splitArrow s = [s] := by
  fun_induction splitArrow s with
  | case1 => rfl
  | case2 xs ih => simp at h
  | case3 x xs _ hh ih => exact absurd hh (splitArrow_ne_nil xs)
  | case4 x xs _ h' t hh ih =>
    simp only [List.mem_cons, not_or] at h
    have := ih h.2
    rw [this] at hh
    simp at hh
    obtain ⟨rfl, rfl⟩ := hh
    rfl

theorem countArrow_of_free (s : Str) (h : cGt ∉ s) : countArrow s = 0 := by
  fun_induction countArrow s with
  | case1 => rfl
  | case2 xs ih => simp at h
  | case3 x xs _ ih =>
    simp only [List.mem_cons, not_or] at h
    exact ih h.2

theorem splitArrow_append (a b : Str) (ha : cDash ∉ a) :
    splitArrow (a ++ cDash :: cGt :: b) = a :: splitArrow b := by
  induction a with
  | nil => simp [splitArrow]
  | cons x xs ih =>
    simp only [List.mem_cons, not_or] at ha
    simp only [List.cons_append]
    rw [splitArrow]
    · rw [ih ha.2]
    · intro ys hx; exact absurd hx.symm ha.1

theorem countArrow_append (a b : Str) (ha : cDash ∉ a) :
    countArrow (a ++ cDash :: cGt :: b) = countArrow b + 1 := by
  induction a with
  | nil => simp [countArrow]
  | cons x xs ih =>
    simp only [List.mem_cons, not_or] at ha
    simp only [List.cons_append]
    rw [countArrow]
    · rw [ih ha.2]
    · intro ys hx; exact absurd hx.symm ha.1

theorem exists_arrow_of_count (s : Str) (h : countArrow s ≠ 0) :
    ∃ a b, s = a ++ cDash :: cGt :: b := by
  fun_induction countArrow s with
  | case1 => simp at h
  | case2 xs ih => exact ⟨[], xs, rfl⟩
  | case3 x xs _ ih =>
    obtain ⟨a, b, hab⟩ := ih h
    exact ⟨x :: a, b, by simp [hab]⟩

/-- The arrow check of the parser: passing it means no `-`/`>` at all, or exactly one arrow. -/
theorem badArrow_false_iff (s : Str) : Parser.badArrow s = false ↔
    (cDash ∉ s ∧ cGt ∉ s) ∨
    ∃ a b, s = a ++ [cDash, cGt] ++ b ∧ cDash ∉ a ∧ cGt ∉ a ∧ cDash ∉ b ∧ cGt ∉ b := by
  unfold Parser.badArrow
  constructor
  · intro h
    by_cases hm : cDash ∈ s ∨ cGt ∈ s
    · right
      have : (decide (cDash ∈ s) || decide (cGt ∈ s)) = true := by simpa using hm
      rw [this] at h
      simp only [Bool.true_and, Bool.or_eq_false_iff, decide_eq_false_iff_not, not_lt, not_not] at h
      obtain ⟨⟨h1, h2⟩, h3⟩ := h
      obtain ⟨a, b, rfl⟩ := exists_arrow_of_count s (by omega)
      simp only [List.count_append, List.count_cons, beq_iff_eq] at h1 h2
      simp at h1 h2
      refine ⟨a, b, by simp, ?_, ?_, ?_, ?_⟩
      · rw [← List.count_eq_zero]; omega
      · rw [← List.count_eq_zero]; omega
      · rw [← List.count_eq_zero]; omega
      · rw [← List.count_eq_zero]; omega
    · left
      exact not_or.1 hm
  · rintro (⟨h1, h2⟩ | ⟨a, b, rfl, h1, h2, h3, h4⟩)
    · simp [h1, h2]
    · have e1 := List.count_eq_zero.2 h1
      have e2 := List.count_eq_zero.2 h2
      have e3 := List.count_eq_zero.2 h3
      have e4 := List.count_eq_zero.2 h4
      have : countArrow (a ++ [cDash, cGt] ++ b) = 1 := by
        have := countArrow_append a b h1
        simp only [List.append_assoc, List.cons_append, List.nil_append] at this ⊢
        rw [this, countArrow_of_free b h4]
      rw [this]
      simp [List.count_append, e1, e2, e3, e4]

theorem splitArrow_two (a b : Str) (h1 : cDash ∉ a) (h4 : cGt ∉ b) :
    splitArrow (a ++ [cDash, cGt] ++ b) = [a, b] := by
  have := splitArrow_append a b h1
  simp only [List.append_assoc, List.cons_append, List.nil_append] at this ⊢
  rw [this, splitArrow_of_free b h4]

/-! ### removing characters -/

theorem mem_removeChar {c : Nat} {s : Str} {x : Nat} : x ∈ removeChar c s ↔ x ∈ s ∧ x ≠ c := by
  simp [removeChar]

theorem removeChar_of_not_mem {c : Nat} {s : Str} (h : c ∉ s) : removeChar c s = s := by
  unfold removeChar
  rw [List.filter_eq_self]
  intro a ha
  simp only [ne_eq, decide_not, Bool.not_eq_eq_eq_not, Bool.not_true, decide_eq_false_iff_not]
  rintro rfl; exact h ha

theorem count_removeChar {c : Nat} {s : Str} {x : Nat} (h : x ≠ c) :
    (removeChar c s).count x = s.count x := by
  unfold removeChar
  rw [List.count_filter]
  simpa using h

theorem mem_removeArrow (s : Str) {x : Nat} (hx : x ≠ cDash) (hx' : x ≠ cGt) : x ∈ removeArrow s ↔ x ∈ s := by
  fun_induction removeArrow s with
  | case1 => simp
  | case2 xs ih => rw [ih]; simp [hx, hx']
  | case3 y xs _ ih => simp [ih]

/-! ### find_output_str -/

theorem findOutputStr_strict (s : Str) : (Parser.findOutputStr s).Pairwise (· < ·) :=
  (sortedSet_strict _).filter _

theorem mem_findOutputStr (s : Str) (c : Nat) :
    c ∈ Parser.findOutputStr s ↔ c ≠ cComma ∧ s.count c = 1 := by
  unfold Parser.findOutputStr
  simp only [List.mem_filter, sortedSet_mem, mem_removeChar, decide_eq_true_eq]
  constructor
  · rintro ⟨⟨h1, h2⟩, h3⟩
    rw [count_removeChar h2] at h3
    exact ⟨h2, h3⟩
  · rintro ⟨h2, h3⟩
    rw [count_removeChar h2]
    exact ⟨⟨List.count_pos_iff.1 (by omega), h2⟩, h3⟩

end OE.Py
