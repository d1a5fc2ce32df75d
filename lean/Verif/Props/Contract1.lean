import Verif.Lemmas.PathStep
import Verif.Lemmas.Tensordot
import Verif.Spec.Contract

/-!
# C04, C06, C07, C08: index sets, sizes, memory argument, BLAS classification
-/

namespace OE.Props
open OE OE.Py OE.Spec OE.Parser OE.Helpers OE.Blas OE.Contract

/-! ## C04 find_contraction -/

/-- C04. For distinct positions: the result labels are those of selected terms needed by the output or by an
unselected term, the removed ones are the other labels of the selected terms, and the unselected terms stay
in order, followed by the result. -/
theorem C04_find_contraction (positions : List Nat) (sets : List (Finset Nat)) (out : Finset Nat)
    (hne : positions ≠ []) (hnd : positions.Nodup) (hlt : ∀ x ∈ positions, x < sets.length) :
    ∃ c, findContraction positions sets out = .ok c ∧
      (∀ x, x ∈ c.idxContract ↔ ∃ i ∈ positions, ∃ s, sets[i]? = some s ∧ x ∈ s) ∧
      (∀ x, x ∈ c.newResult ↔ x ∈ c.idxContract ∧
        (x ∈ out ∨ ∃ (i : Nat) (s : Finset Nat), i ∉ positions ∧ sets[i]? = some s ∧ x ∈ s)) ∧
      (∀ x, x ∈ c.idxRemoved ↔ x ∈ c.idxContract ∧ x ∉ c.newResult) ∧
      c.remaining = ((List.range sets.length).filter (fun i => i ∉ positions)).filterMap (fun i => sets[i]?) ++ [c.newResult] := by
  obtain ⟨P, Q, hpop⟩ := popAll_valid hnd hlt
  obtain ⟨hP, hQ⟩ := popAll_spec (sortedDesc_strict hnd) hpop
  have hfold : ∀ (l : List (Finset Nat)) (s : Finset Nat) (x : Nat), x ∈ l.foldr (· ∪ ·) s ↔ (∃ t ∈ l, x ∈ t) ∨ x ∈ s := by
    intro l s x
    induction l with
    | nil => simp
    | cons a t ih => simp [ih, or_assoc]
  have hPm : ∀ t, t ∈ P ↔ ∃ i ∈ positions, sets[i]? = some t := by
    intro t
    have : t ∈ P ↔ some t ∈ P.map some := by simp
    rw [this, hP, List.mem_map]
    simp only [mem_sortedDesc]
  have hQm : ∀ t, t ∈ Q ↔ ∃ i : Nat, i ∉ positions ∧ sets[i]? = some t := by
    intro t
    rw [hQ, List.mem_filterMap]
    constructor
    · rintro ⟨i, hi, hs⟩
      simp only [List.mem_filter, decide_eq_true_eq, mem_sortedDesc] at hi
      exact ⟨i, hi.2, hs⟩
    · rintro ⟨i, hi, hs⟩
      refine ⟨i, ?_, hs⟩
      simp only [List.mem_filter, decide_eq_true_eq, mem_sortedDesc, List.mem_range]
      exact ⟨(List.getElem?_eq_some_iff.mp hs).1, hi⟩
  have hPne : P ≠ [] := by
    intro e
    have := (popAll_length hpop).1
    rw [e, sortedDesc_length] at this
    exact hne (by simpa using this.symm)
  refine ⟨⟨Q.foldr (· ∪ ·) out ∩ P.foldr (· ∪ ·) ∅, Q ++ [Q.foldr (· ∪ ·) out ∩ P.foldr (· ∪ ·) ∅],
    P.foldr (· ∪ ·) ∅ \ (Q.foldr (· ∪ ·) out ∩ P.foldr (· ∪ ·) ∅), P.foldr (· ∪ ·) ∅⟩, ?_, ?_, ?_, ?_, ?_⟩
  · unfold findContraction
    rw [hpop]
    cases P with
    | nil => exact absurd rfl hPne
    | cons a b => rfl
  · intro x
    simp only [hfold, Finset.notMem_empty, or_false, hPm]
    constructor
    · rintro ⟨t, ⟨i, hi, hs⟩, hx⟩; exact ⟨i, hi, t, hs, hx⟩
    · rintro ⟨i, hi, t, hs, hx⟩; exact ⟨t, ⟨i, hi, hs⟩, hx⟩
  · intro x
    simp only [Finset.mem_inter, hfold Q, hQm]
    constructor
    · rintro ⟨h1, h2⟩
      refine ⟨h2, ?_⟩
      rcases h1 with ⟨t, ⟨i, hi, hs⟩, hx⟩ | h
      · right; exact ⟨i, t, hi, hs, hx⟩
      · left; exact h
    · rintro ⟨h2, h1⟩
      refine ⟨?_, h2⟩
      rcases h1 with h | ⟨i, t, hi, hs, hx⟩
      · right; exact h
      · left; exact ⟨t, ⟨i, hi, hs⟩, hx⟩
  · intro x; simp only [Finset.mem_sdiff]
  · simp only [hQ, mem_sortedDesc]

/-- C04. A position past the end raises `IndexError`, no position at all `TypeError`. -/
theorem C04_find_contraction_error (positions : List Nat) (sets : List (Finset Nat)) (out : Finset Nat) :
    ((∃ x ∈ positions, sets.length ≤ x) → findContraction positions sets out = .error .index) ∧
    (positions = [] → findContraction positions sets out = .error .type) := by
  constructor
  · rintro ⟨x, hx, hlen⟩
    have hx' := mem_sortedDesc.mpr hx
    cases h : sortedDesc positions with
    | nil => rw [h] at hx'; simp at hx'
    | cons y ys =>
      have hge := sortedDesc_pairwise positions
      rw [h] at hx' hge
      rw [List.pairwise_cons] at hge
      have hy : sets.length ≤ y := by
        rcases List.mem_cons.mp hx' with rfl | hm
        · exact hlen
        · have := hge.1 x hm; omega
      unfold findContraction
      rw [h, popAll_cons, List.getElem?_eq_none hy]
      rfl
  · rintro rfl; rfl

-- C04: 'ab,bc,cd->ad' contracting positions (2, 1)
example : ((findContraction [1, 2] [{97, 98}, {98, 99}, {99, 100}] {97, 100}).map (fun c =>
    decide (c.newResult = {98, 100} ∧ c.remaining = [{97, 98}, {98, 100}] ∧ c.idxRemoved = {99} ∧
      c.idxContract = {98, 99, 100}))) = .ok true := by decide +kernel

/-! ## C06 dimension checking -/

theorem get?_set (d : Dict Nat Nat) (k k' v : Nat) : (d.set k v).get? k' = if k' = k then some v else d.get? k' := by
  induction d with
  | nil =>
    simp only [Dict.set, Dict.get?]
    by_cases h : k' = k
    · subst h; simp
    · simp [h, Ne.symm h]
  | cons a t ih =>
    obtain ⟨ka, va⟩ := a
    simp only [Dict.set]
    by_cases hk : ka = k
    · subst hk
      simp only [if_true, Dict.get?]
      by_cases h : k' = ka
      · subst h; simp
      · simp [h, Ne.symm h]
    · rw [if_neg hk]
      simp only [Dict.get?, ih]
      by_cases h : ka = k'
      · subst h; simp [hk]
      · simp [h]

/-- Sizes recorded after some (label, dimension) pairs have been seen. -/
def SizesOf (d : Dict Nat Nat) (seen : List (Nat × Nat)) : Prop :=
  ∀ c, (d.get? c = none ∧ ∀ x, (c, x) ∉ seen) ∨
    ∃ s, d.get? c = some s ∧ (c, s) ∈ seen ∧ ∀ x, (c, x) ∈ seen → x = 1 ∨ x = s

/-- Two different dimensions other than 1 for the same label. -/
def Conflict (ps : List (Nat × Nat)) : Prop := ∃ c x y, (c, x) ∈ ps ∧ (c, y) ∈ ps ∧ x ≠ 1 ∧ y ≠ 1 ∧ x ≠ y

theorem sizesOf_no_conflict {d : Dict Nat Nat} {seen : List (Nat × Nat)} (h : SizesOf d seen) : ¬ Conflict seen := by
  rintro ⟨c, x, y, hx, hy, h1, h2, h3⟩
  rcases h c with ⟨_, hn⟩ | ⟨s, _, _, ha⟩
  · exact hn x hx
  · rcases ha x hx with rfl | rfl
    · exact h1 rfl
    · rcases ha y hy with rfl | rfl
      · exact h2 rfl
      · exact h3 rfl

theorem sizeTerm_spec (ps seen : List (Nat × Nat)) (d : Dict Nat Nat) (h : SizesOf d seen) :
    (∃ d', sizeTerm d ps = .ok d' ∧ SizesOf d' (seen ++ ps)) ∨
    (sizeTerm d ps = .error .value ∧ Conflict (seen ++ ps)) := by
  induction ps generalizing seen d with
  | nil => left; exact ⟨d, rfl, by simpa using h⟩
  | cons p t ih =>
    obtain ⟨c, dim⟩ := p
    have happ : seen ++ (c, dim) :: t = (seen ++ [(c, dim)]) ++ t := by simp
    simp only [sizeTerm]
    have hset : ∀ (hc : ∀ x, (c, x) ∈ seen → x = 1 ∨ x = dim), SizesOf (d.set c dim) (seen ++ [(c, dim)]) := by
      intro hc c'
      by_cases hcc : c' = c
      · subst hcc
        right
        refine ⟨dim, by rw [get?_set, if_pos rfl], by simp, ?_⟩
        intro x hx
        simp only [List.mem_append, List.mem_singleton, Prod.mk.injEq, true_and] at hx
        rcases hx with hx | rfl
        · exact hc x hx
        · right; rfl
      · rw [get?_set, if_neg hcc]
        rcases h c' with ⟨h1, h2⟩ | ⟨s, h1, h2, h3⟩
        · left; exact ⟨h1, by intro x; simp [h2 x, hcc]⟩
        · right; exact ⟨s, h1, by simp [h2], by
            intro x hx
            simp only [List.mem_append, List.mem_singleton, Prod.mk.injEq, hcc, false_and, or_false] at hx
            exact h3 x hx⟩
    rcases h c with ⟨h1, h2⟩ | ⟨s, h1, h2, h3⟩
    · rw [h1]
      simp only
      rw [happ]
      exact ih _ _ (hset (fun x hx => absurd hx (h2 x)))
    · rw [h1]
      simp only
      by_cases hs1 : s = 1
      · rw [if_pos hs1, happ]
        apply ih
        apply hset
        intro x hx
        left
        rcases h3 x hx with h | h
        · exact h
        · rw [h, hs1]
      · rw [if_neg hs1]
        by_cases hbad : dim ≠ 1 ∧ dim ≠ s
        · rw [if_pos hbad]
          right
          refine ⟨rfl, c, s, dim, by simp [h2], by simp, hs1, hbad.1, fun e => hbad.2 e.symm⟩
        · rw [if_neg hbad, happ]
          apply ih
          intro c'
          rcases h c' with ⟨g1, g2⟩ | ⟨s', g1, g2, g3⟩
          · left
            refine ⟨g1, ?_⟩
            intro x
            have : c' ≠ c := by rintro rfl; rw [h1] at g1; cases g1
            simp [g2 x, this]
          · right
            refine ⟨s', g1, by simp [g2], ?_⟩
            intro x hx
            simp only [List.mem_append, List.mem_singleton, Prod.mk.injEq] at hx
            rcases hx with hx | ⟨rfl, rfl⟩
            · exact g3 x hx
            · rw [h1] at g1
              simp only [Option.some.injEq] at g1
              subst g1
              by_cases hx1 : x = 1
              · left; exact hx1
              · right
                by_contra hne
                exact hbad ⟨hx1, hne⟩

/-- All (label, dimension) pairs. -/
def allPairs (inputs : List Str) (shapes : List Shape) : List (Nat × Nat) := (inputs.zip shapes).flatMap (fun p => p.1.zip p.2)

theorem sizeLoop_spec (inputs : List Str) (shapes : List Shape) (hlen : inputs.length = shapes.length)
    (seen : List (Nat × Nat)) (d : Dict Nat Nat) (h : SizesOf d seen) :
    (∃ d', sizeLoop d inputs shapes = .ok d' ∧ SizesOf d' (seen ++ allPairs inputs shapes) ∧
      ∀ p ∈ inputs.zip shapes, p.2.length = p.1.length) ∨
    (sizeLoop d inputs shapes = .error .value ∧ (Conflict (seen ++ allPairs inputs shapes) ∨
      ∃ p ∈ inputs.zip shapes, p.2.length ≠ p.1.length)) := by
  induction inputs generalizing shapes seen d with
  | nil => left; exact ⟨d, rfl, by simpa [allPairs] using h, by simp⟩
  | cons t ts ih =>
    cases shapes with
    | nil => simp at hlen
    | cons s ss =>
      simp only [sizeLoop]
      by_cases hl : s.length ≠ t.length
      · rw [if_pos hl]; right; exact ⟨rfl, Or.inr ⟨(t, s), by simp, hl⟩⟩
      · rw [if_neg hl]
        rw [not_not] at hl
        have happ : seen ++ allPairs (t :: ts) (s :: ss) = (seen ++ t.zip s) ++ allPairs ts ss := by
          simp [allPairs]
        rcases sizeTerm_spec (t.zip s) seen d h with ⟨d', h1, h2⟩ | ⟨h1, h2⟩
        · rw [h1]
          simp only [bind, Except.bind]
          rcases ih ss (by simpa using hlen) _ d' h2 with ⟨d'', h3, h4, h5⟩ | ⟨h3, h4⟩
          · left
            refine ⟨d'', h3, by rw [happ]; exact h4, ?_⟩
            intro p hp
            simp only [List.zip_cons_cons, List.mem_cons] at hp
            rcases hp with rfl | hp
            · exact hl
            · exact h5 p hp
          · right
            refine ⟨h3, ?_⟩
            rcases h4 with h4 | ⟨p, hp, hne⟩
            · left; rw [happ]; exact h4
            · right; exact ⟨p, by simp [hp], hne⟩
        · rw [h1]
          right
          refine ⟨rfl, Or.inl ?_⟩
          obtain ⟨c, x, y, hx, hy, hr⟩ := h2
          exact ⟨c, x, y, by rw [happ]; exact List.mem_append_left _ hx, by rw [happ]; exact List.mem_append_left _ hy, hr⟩

theorem mem_allPairs {inputs : List Str} {shapes : List Shape} {c d : Nat} :
    (c, d) ∈ allPairs inputs shapes ↔ DimOccurs inputs shapes c d := by
  unfold allPairs DimOccurs
  rw [List.mem_flatMap]
  constructor
  · rintro ⟨p, hp, hcd⟩
    rw [List.mem_iff_getElem?] at hp hcd
    obtain ⟨i, hi⟩ := hp
    obtain ⟨j, hj⟩ := hcd
    rw [List.getElem?_zip_eq_some] at hi hj
    exact ⟨i, j, p.1, p.2, hi.1, hi.2, hj.1, hj.2⟩
  · rintro ⟨i, j, t, s, h1, h2, h3, h4⟩
    refine ⟨(t, s), ?_, ?_⟩
    · rw [List.mem_iff_getElem?]; exact ⟨i, by rw [List.getElem?_zip_eq_some]; exact ⟨h1, h2⟩⟩
    · rw [List.mem_iff_getElem?]; exact ⟨j, by rw [List.getElem?_zip_eq_some]; exact ⟨h3, h4⟩⟩

/-- C06. The shapes are accepted exactly when they are compatible (else `ValueError`); the recorded size of each
label is then its broadcast size. -/
theorem C06_size_dict (inputs : List Str) (shapes : List Shape) (hlen : inputs.length = shapes.length) :
    (Compatible inputs shapes → ∃ d, sizeLoop [] inputs shapes = .ok d ∧
      ∀ c s, d.get? c = some s ↔ IsLabelSize inputs shapes c s) ∧
    (¬ Compatible inputs shapes → sizeLoop [] inputs shapes = .error .value) := by
  have h0 : SizesOf [] [] := fun c => Or.inl ⟨rfl, by simp⟩
  have hzip : (∀ p ∈ inputs.zip shapes, p.2.length = p.1.length) ↔
      ∀ (i : Nat) (t : Str) (s : Shape), inputs[i]? = some t → shapes[i]? = some s → s.length = t.length := by
    constructor
    · intro h i t s h1 h2
      exact h (t, s) (by rw [List.mem_iff_getElem?]; exact ⟨i, by rw [List.getElem?_zip_eq_some]; exact ⟨h1, h2⟩⟩)
    · intro h p hp
      rw [List.mem_iff_getElem?] at hp
      obtain ⟨i, hi⟩ := hp
      rw [List.getElem?_zip_eq_some] at hi
      exact h i _ _ hi.1 hi.2
  have hconf : ¬ Conflict (allPairs inputs shapes) ↔
      ∀ c d d', DimOccurs inputs shapes c d → DimOccurs inputs shapes c d' → d ≠ 1 → d' ≠ 1 → d = d' := by
    unfold Conflict
    simp only [mem_allPairs]
    constructor
    · intro h c d d' h1 h2 h3 h4
      by_contra hne
      exact h ⟨c, d, d', h1, h2, h3, h4, hne⟩
    · rintro h ⟨c, x, y, h1, h2, h3, h4, h5⟩
      exact h5 (h c x y h1 h2 h3 h4)
  have hiff : Compatible inputs shapes ↔ (∀ p ∈ inputs.zip shapes, p.2.length = p.1.length) ∧ ¬ Conflict (allPairs inputs shapes) := by
    unfold Compatible; rw [hzip, hconf]
  rcases sizeLoop_spec inputs shapes hlen [] [] h0 with ⟨d, h1, h2, h3⟩ | ⟨h1, h2⟩
  · rw [List.nil_append] at h2
    constructor
    · intro _
      refine ⟨d, h1, ?_⟩
      intro c s
      unfold IsLabelSize
      simp only [← mem_allPairs]
      rcases h2 c with ⟨g1, g2⟩ | ⟨s', g1, g2, g3⟩
      · rw [g1]
        constructor
        · intro h; cases h
        · rintro ⟨h, _⟩; exact absurd h (g2 s)
      · rw [g1]
        constructor
        · intro h; cases h; exact ⟨g2, g3⟩
        · rintro ⟨h, h'⟩
          rcases g3 s h with e | e
          · rcases h' s' g2 with e' | e'
            · rw [e, e']
            · rw [e']
          · rw [e]
    · intro hn
      exact absurd (hiff.mpr ⟨h3, sizesOf_no_conflict h2⟩) hn
  · rw [List.nil_append] at h2
    constructor
    · intro hc
      rw [hiff] at hc
      rcases h2 with h2 | ⟨p, hp, hne⟩
      · exact absurd h2 hc.2
      · exact absurd (hc.1 p hp) hne
    · intro _; exact h1

-- C06: broadcasting in both orders, a zero dimension, and a conflict
example : sizeLoop [] [S "ab", S "bc", S "cab"] [[1, 3], [1, 0], [1, 2, 3]] = .ok [(97, 2), (98, 3), (99, 0)] := by decide
example : Compatible [S "ab", S "b"] [[1, 3], [1]] := by
  by_contra h
  have := (C06_size_dict [S "ab", S "b"] [[1, 3], [1]] rfl).2 h
  revert this; decide
example : sizeLoop [] [S "ab", S "bc"] [[1, 3], [2, 0]] = .error .value := by decide

/-! ## C07 memory_limit -/

/-- C07. Without limit (`None` or `-1`), a number from 1 on (rounded down), and every other number or string
rejected; `'max_input'` is the largest of the sizes handed over. -/
theorem C07_choose_memory_arg (sizes : List Nat) :
    chooseMemoryArg .none sizes = .ok none ∧ chooseMemoryArg (.num (-1)) sizes = .ok none ∧
    chooseMemoryArg .otherStr sizes = .error .value ∧
    (∀ n : Nat, 1 ≤ n → chooseMemoryArg (.num n) sizes = .ok (some n)) ∧
    (∀ q : ℚ, 1 ≤ q → ∃ n : Nat, chooseMemoryArg (.num q) sizes = .ok (some n) ∧ (n : ℚ) ≤ q ∧ q < n + 1) ∧
    (∀ q : ℚ, q < 1 → q ≠ -1 → chooseMemoryArg (.num q) sizes = .error .value) ∧
    (∀ m ∈ sizes, (∀ x ∈ sizes, x ≤ m) → chooseMemoryArg .maxInput sizes = .ok (some m)) := by
  have hq : ∀ q : ℚ, 1 ≤ q → ∃ n : Nat, chooseMemoryArg (.num q) sizes = .ok (some n) ∧ (n : ℚ) ≤ q ∧ q < n + 1 := by
    intro q hq
    have h0 : (0 : ℤ) ≤ ⌊q⌋ := Int.floor_nonneg.mpr (le_trans zero_le_one hq)
    refine ⟨⌊q⌋.toNat, ?_, ?_, ?_⟩
    · simp only [chooseMemoryArg]
      rw [if_neg (not_lt.mpr hq)]
      rfl
    · have : ((⌊q⌋.toNat : ℤ) : ℚ) ≤ q := by rw [Int.toNat_of_nonneg h0]; exact Int.floor_le q
      exact_mod_cast this
    · have : q < ((⌊q⌋.toNat : ℤ) : ℚ) + 1 := by rw [Int.toNat_of_nonneg h0]; exact Int.lt_floor_add_one q
      exact_mod_cast this
  refine ⟨rfl, ?_, rfl, ?_, hq, ?_, ?_⟩
  · simp only [chooseMemoryArg]
    rw [if_pos (by norm_num)]; simp
  · intro n hn
    obtain ⟨m, h1, h2, h3⟩ := hq n (by exact_mod_cast hn)
    rw [h1]
    have h2' : m ≤ n := by exact_mod_cast h2
    have h3' : n < m + 1 := by exact_mod_cast h3
    have : m = n := by omega
    rw [this]
  · intro q h1 h2
    simp only [chooseMemoryArg]
    rw [if_pos h1, if_neg h2]
  · intro m hm hle
    simp only [chooseMemoryArg]
    cases h : sizes.max? with
    | none => rw [List.max?_eq_none_iff] at h; rw [h] at hm; simp at hm
    | some v =>
      rw [List.max?_eq_some_iff] at h
      have := h.2 m hm
      have := hle v h.1
      have : v = m := by omega
      rw [this]

/-! ## C08 can_blas -/

/-- The label conditions for a pairwise contraction by `tensordot`: no label repeats inside a term, shared labels
are summed, unshared labels are kept. -/
structure PairContraction (left right : Str) (result : List Nat) : Prop where
  nl : left.Nodup
  nr : right.Nodup
  shared : ∀ c, c ∈ left → c ∈ right → c ∉ result
  unshared : ∀ c, (c ∈ left ∨ c ∈ right) → ¬ (c ∈ left ∧ c ∈ right) → c ∈ result

theorem labelBad_false_iff {left right : Str} {result : List Nat} {c : Nat} (hc : c ∈ left ∨ c ∈ right) :
    labelBad left right result c = false ↔ left.count c ≤ 1 ∧ right.count c ≤ 1 ∧
      (c ∈ result ↔ ¬ (c ∈ left ∧ c ∈ right)) := by
  have hl := List.count_pos_iff (l := left) (a := c)
  have hr := List.count_pos_iff (l := right) (a := c)
  unfold labelBad
  simp only [Bool.or_eq_false_iff, decide_eq_false_iff_not, not_lt]
  rw [← hl, ← hr] at hc
  rw [← hl, ← hr]
  by_cases hres : c ∈ result
  · simp only [hres, if_true, true_iff]
    omega
  · simp only [hres, if_false, false_iff, not_not]
    omega

theorem any_labelBad_iff {left right : Str} {result : List Nat} :
    (left ++ right).any (labelBad left right result) = false ↔ PairContraction left right result := by
  rw [List.any_eq_false]
  simp only [List.mem_append]
  constructor
  · intro h
    have h' : ∀ c, (c ∈ left ∨ c ∈ right) → left.count c ≤ 1 ∧ right.count c ≤ 1 ∧
      (c ∈ result ↔ ¬ (c ∈ left ∧ c ∈ right)) := fun c hc => (labelBad_false_iff hc).mp (by simpa using h c hc)
    refine ⟨?_, ?_, ?_, ?_⟩
    · rw [List.nodup_iff_count_le_one]
      intro c
      by_cases hc : c ∈ left
      · exact (h' c (Or.inl hc)).1
      · rw [List.count_eq_zero_of_not_mem hc]; omega
    · rw [List.nodup_iff_count_le_one]
      intro c
      by_cases hc : c ∈ right
      · exact (h' c (Or.inr hc)).2.1
      · rw [List.count_eq_zero_of_not_mem hc]; omega
    · intro c h1 h2 h3
      exact (h' c (Or.inl h1)).2.2.mp h3 ⟨h1, h2⟩
    · intro c h1 h2
      exact (h' c h1).2.2.mpr h2
  · intro h c hc
    have := (labelBad_false_iff (result := result) hc).mpr ⟨List.nodup_iff_count_le_one.mp h.nl c,
      List.nodup_iff_count_le_one.mp h.nr c, fun h1 h2 => h.shared c h2.1 h2.2 h1, fun h1 => h.unshared c hc h1⟩
    simp [this]

/-- The dimension of a label in a term. -/
def LabelDim (t : Str) (s : Shape) (c d : Nat) : Prop := ∃ i : Nat, t[i]? = some c ∧ s[i]? = some d

/-- The removed labels have equal dimensions on both sides. -/
def SameDims (left right : Str) (sl sr : Shape) (removed : Finset Nat) : Prop :=
  ∀ c ∈ removed, ∀ d d', LabelDim left sl c d → LabelDim right sr c d' → d = d'

theorem dimAt_eq {t : Str} {s : Shape} {c d : Nat} (hn : t.Nodup) (h : LabelDim t s c d) : dimAt t s c = some d := by
  obtain ⟨i, h1, h2⟩ := h
  have hlt : i < t.length := (List.getElem?_eq_some_iff.mp h1).1
  have he : t[i] = c := (List.getElem?_eq_some_iff.mp h1).2
  have : t.idxOf? c = some i := by
    rw [List.idxOf?_eq_some_iff]
    refine ⟨hlt, he, ?_⟩
    intro j hj hjc
    rw [← he] at hjc
    have := (List.Nodup.getElem_inj_iff hn).mp hjc
    omega
  simp [dimAt, find?, this, h2]

theorem exists_labelDim {t : Str} {s : Shape} {c : Nat} (hlen : s.length = t.length) (hc : c ∈ t) : ∃ d, LabelDim t s c d := by
  obtain ⟨i, hi, rfl⟩ := List.getElem_of_mem hc
  exact ⟨s[i]'(by omega), i, List.getElem?_eq_getElem hi, List.getElem?_eq_getElem _⟩

/-- C08, acceptance: `can_blas` answers something other than `False` exactly for two terms forming a pair
contraction, whose removed labels have equal dimensions when shapes are given. The removed labels are
labels of both terms (as `contract_path` guarantees) and the shapes have the ranks of the terms. -/
theorem C08_can_blas_iff (left right : Str) (result : List Nat) (removed : Finset Nat) (sl sr : Shape)
    (hl : sl.length = left.length) (hr : sr.length = right.length)
    (hrm : ∀ c ∈ removed, c ∈ left ∧ c ∈ right) :
    (canBlas [left, right] result removed (some [sl, sr]) ≠ .no ↔
      PairContraction left right result ∧ SameDims left right sl sr removed) ∧
    (canBlas [left, right] result removed none ≠ .no ↔ PairContraction left right result) := by
  have tail : ∀ b : Flag, (if removed.card = 0 then Flag.outerEinsum
      else if left = right then .dot
        else if left.toFinset = right.toFinset then .dotEinsum
        else if suffix left removed.card = right.take removed.card then .gemm
        else if left.take removed.card = suffix right removed.card then .gemm
        else if suffix left removed.card = suffix right removed.card then .gemm
        else if left.take removed.card = right.take removed.card then .gemm
        else if left.toFinset \ removed = ∅ ∨ right.toFinset \ removed = ∅ then .gemvEinsum
        else .tdot) = b → b ≠ .no := by
    rintro b rfl
    repeat' split
    all_goals simp
  constructor
  · unfold canBlas bcastBad
    simp only
    by_cases hb : (left ++ right).any (labelBad left right result) = true
    · rw [if_pos hb]
      constructor
      · intro h; exact absurd rfl h
      · rintro ⟨h, _⟩
        rw [any_labelBad_iff.mpr h] at hb; cases hb
    · rw [if_neg hb]
      have hpc : PairContraction left right result := any_labelBad_iff.mp (by simpa using hb)
      have hdim : (∃ c ∈ removed, dimAt left sl c ≠ dimAt right sr c) ↔ ¬ SameDims left right sl sr removed := by
        unfold SameDims
        constructor
        · rintro ⟨c, hc, hne⟩ h
          obtain ⟨d, hd⟩ := exists_labelDim hl (hrm c hc).1
          obtain ⟨d', hd'⟩ := exists_labelDim hr (hrm c hc).2
          apply hne
          rw [dimAt_eq hpc.nl hd, dimAt_eq hpc.nr hd', h c hc d d' hd hd']
        · intro h
          by_contra hno
          apply h
          intro c hc d d' hd hd'
          by_contra hne
          apply hno
          refine ⟨c, hc, ?_⟩
          rw [dimAt_eq hpc.nl hd, dimAt_eq hpc.nr hd']
          simpa using hne
      by_cases hs : SameDims left right sl sr removed
      · rw [if_neg (by rw [decide_eq_true_eq, hdim, not_not]; exact hs)]
        exact ⟨fun _ => ⟨hpc, hs⟩, fun _ => tail _ rfl⟩
      · rw [if_pos (by rw [decide_eq_true_eq, hdim]; exact hs)]
        exact ⟨fun h => absurd rfl h, fun h => absurd h.2 hs⟩
  · unfold canBlas bcastBad
    simp only
    by_cases hb : (left ++ right).any (labelBad left right result) = true
    · rw [if_pos hb]
      constructor
      · intro h; exact absurd rfl h
      · intro h
        rw [any_labelBad_iff.mpr h] at hb; cases hb
    · rw [if_neg hb, if_neg (by simp)]
      exact ⟨fun _ => any_labelBad_iff.mp (by simpa using hb), fun _ => tail _ rfl⟩

/-- C08: anything but two terms is refused. -/
theorem C08_two_terms (inputs : List Str) (result : List Nat) (removed : Finset Nat) (shapes : Option (List Shape))
    (h : canBlas inputs result removed shapes ≠ .no) : inputs.length = 2 := by
  unfold canBlas at h
  split at h
  · rfl
  · exact absurd rfl h

/-- C08, kind of the answer: `GEMM` means that the removed labels are contiguous at an end of both terms, in the same
order; `DOT` that the terms are equal; an answer without `EINSUM` means that some label is removed. -/
theorem C08_can_blas_kind (left right : Str) (result : List Nat) (removed : Finset Nat) (shapes : Option (List Shape))
    (hrm : ∀ c, c ∈ removed ↔ c ∈ left ∧ c ∈ right) :
    (canBlas [left, right] result removed shapes = .gemm → ∃ m x y : Str, m.toFinset = removed ∧
      (left = x ++ m ∨ left = m ++ x) ∧ (right = y ++ m ∨ right = m ++ y)) ∧
    (canBlas [left, right] result removed shapes = .dot → left = right) ∧
    (canBlas [left, right] result removed shapes = .dotEinsum → left.toFinset = right.toFinset ∧ left ≠ right) ∧
    (canBlas [left, right] result removed shapes = .gemvEinsum → (∀ c ∈ left, c ∈ removed) ∨ (∀ c ∈ right, c ∈ removed)) ∧
    (canBlas [left, right] result removed shapes = .outerEinsum → removed = ∅) ∧
    (canBlas [left, right] result removed shapes = .tdot → removed ≠ ∅) := by
  unfold canBlas
  simp only
  by_cases hb : (left ++ right).any (labelBad left right result) = true
  · rw [if_pos hb]; simp
  · rw [if_neg hb]
    have hpc : PairContraction left right result := any_labelBad_iff.mp (by simpa using hb)
    by_cases hbc : bcastBad left right removed shapes = true
    · rw [if_pos hbc]; simp
    · rw [if_neg hbc]
      have hsubl : removed ⊆ left.toFinset := fun c hc => List.mem_toFinset.mpr ((hrm c).mp hc).1
      have hsubr : removed ⊆ right.toFinset := fun c hc => List.mem_toFinset.mpr ((hrm c).mp hc).2
      have hcl : removed.card ≤ left.length := by
        have := Finset.card_le_card hsubl
        rwa [List.toFinset_card_of_nodup hpc.nl] at this
      have hcr : removed.card ≤ right.length := by
        have := Finset.card_le_card hsubr
        rwa [List.toFinset_card_of_nodup hpc.nr] at this
      -- a common piece of the right length consists of the removed labels
      have key : ∀ m : Str, m.Sublist left → m.Sublist right → m.length = removed.card → m.toFinset = removed := by
        intro m h1 h2 h3
        apply Finset.eq_of_subset_of_card_le
        · intro c hc
          rw [List.mem_toFinset] at hc
          exact (hrm c).mpr ⟨h1.subset hc, h2.subset hc⟩
        · rw [List.toFinset_card_of_nodup (hpc.nl.sublist h1), h3]
      have hsl : suffix left removed.card = left.drop (left.length - removed.card) := rfl
      have hsr : suffix right removed.card = right.drop (right.length - removed.card) := rfl
      have ll : (left.drop (left.length - removed.card)).length = removed.card := by rw [List.length_drop]; omega
      have lr : (right.drop (right.length - removed.card)).length = removed.card := by rw [List.length_drop]; omega
      have tl : (left.take removed.card).length = removed.card := by rw [List.length_take]; omega
      have tr : (right.take removed.card).length = removed.card := by rw [List.length_take]; omega
      have g1 : suffix left removed.card = right.take removed.card → ∃ m x y : Str, m.toFinset = removed ∧
          (left = x ++ m ∨ left = m ++ x) ∧ (right = y ++ m ∨ right = m ++ y) := by
        intro h
        rw [hsl] at h
        exact ⟨left.drop (left.length - removed.card), left.take (left.length - removed.card), right.drop removed.card,
          key _ (List.drop_sublist _ _) (h ▸ List.take_sublist _ _) ll, Or.inl (List.take_append_drop _ _).symm,
          Or.inr (by rw [h]; exact (List.take_append_drop _ _).symm)⟩
      have g2 : left.take removed.card = suffix right removed.card → ∃ m x y : Str, m.toFinset = removed ∧
          (left = x ++ m ∨ left = m ++ x) ∧ (right = y ++ m ∨ right = m ++ y) := by
        intro h
        rw [hsr] at h
        exact ⟨left.take removed.card, left.drop removed.card, right.take (right.length - removed.card),
          key _ (List.take_sublist _ _) (h ▸ List.drop_sublist _ _) tl, Or.inr (List.take_append_drop _ _).symm,
          Or.inl (by rw [h]; exact (List.take_append_drop _ _).symm)⟩
      have g3 : suffix left removed.card = suffix right removed.card → ∃ m x y : Str, m.toFinset = removed ∧
          (left = x ++ m ∨ left = m ++ x) ∧ (right = y ++ m ∨ right = m ++ y) := by
        intro h
        rw [hsl, hsr] at h
        exact ⟨left.drop (left.length - removed.card), left.take (left.length - removed.card), right.take (right.length - removed.card),
          key _ (List.drop_sublist _ _) (h ▸ List.drop_sublist _ _) ll, Or.inl (List.take_append_drop _ _).symm,
          Or.inl (by rw [h]; exact (List.take_append_drop _ _).symm)⟩
      have g4 : left.take removed.card = right.take removed.card → ∃ m x y : Str, m.toFinset = removed ∧
          (left = x ++ m ∨ left = m ++ x) ∧ (right = y ++ m ∨ right = m ++ y) := by
        intro h
        exact ⟨left.take removed.card, left.drop removed.card, right.drop removed.card,
          key _ (List.take_sublist _ _) (h ▸ List.take_sublist _ _) tl, Or.inr (List.take_append_drop _ _).symm,
          Or.inr (by rw [h]; exact (List.take_append_drop _ _).symm)⟩
      have g5 : (left.toFinset \ removed = ∅ ∨ right.toFinset \ removed = ∅) →
          (∀ c ∈ left, c ∈ removed) ∨ (∀ c ∈ right, c ∈ removed) := by
        intro h
        rw [Finset.sdiff_eq_empty_iff_subset, Finset.sdiff_eq_empty_iff_subset] at h
        rcases h with h | h
        · left; intro c hc; exact h (List.mem_toFinset.mpr hc)
        · right; intro c hc; exact h (List.mem_toFinset.mpr hc)
      repeat' split
      all_goals refine ⟨fun hh => ?_, fun hh => ?_, fun hh => ?_, fun hh => ?_, fun hh => ?_, fun hh => ?_⟩
      all_goals first
        | exact absurd hh (by decide)
        | exact g1 ‹_›
        | exact g2 ‹_›
        | exact g3 ‹_›
        | exact g4 ‹_›
        | exact g5 ‹_›
        | exact Finset.card_eq_zero.mp ‹_›
        | assumption
        | exact ⟨‹_›, ‹_›⟩
        | (rintro rfl; simp_all)

-- C08: the documented answers
example : canBlas [S "ij", S "jk"] (S "ik") {106} none = .gemm ∧ canBlas [S "ijj", S "jk"] (S "ik") {106} none = .no ∧
    canBlas [S "ab", S "cd"] (S "abcd") ∅ none = .outerEinsum ∧
    canBlas [S "ij", S "jk"] (S "ik") {106} (some [[4, 1], [5, 6]]) = .no := by decide

end OE.Props
