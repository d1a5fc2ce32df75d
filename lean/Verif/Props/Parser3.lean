import Verif.Props.Parser2

/-!
# Properties of the parser utilities: C36 – C38
-/

namespace OE.Props
open OE OE.Py OE.Parser OE.Spec

/-! ## C38 format_const_einsum_str -/

/-- Read a formatted equation: every character other than a bracket, with the information whether it
stands inside brackets. -/
def readBrackets : Bool → Str → List (Nat × Bool)
  | _, [] => []
  | b, c :: cs =>
    if c = cLb then readBrackets true cs
    else if c = cRb then readBrackets false cs
    else (c, b) :: readBrackets b cs

/-- The expected reading of terms with their "is constant" flags: the characters of a term carry the
term's flag, a comma is inside brackets iff both its neighbours are constant. -/
def markTerms : List (Str × Bool) → List (Nat × Bool)
  | [] => []
  | [(t, b)] => t.map (fun c => (c, b))
  | (t, b) :: (t', b') :: r => t.map (fun c => (c, b)) ++ (cComma, b && b') :: markTerms ((t', b') :: r)

theorem readBrackets_append (b : Bool) (t s : Str) (h1 : cLb ∉ t) (h2 : cRb ∉ t) :
    readBrackets b (t ++ s) = t.map (fun c => (c, b)) ++ readBrackets b s := by
  induction t with
  | nil => simp
  | cons x xs ih =>
    simp only [List.mem_cons, not_or] at h1 h2
    simp only [List.cons_append, readBrackets, if_neg (Ne.symm h1.1), if_neg (Ne.symm h2.1), List.map_cons]
    rw [ih h1.2 h2.2]

theorem readBrackets_of_free (b : Bool) (t : Str) (h1 : cLb ∉ t) (h2 : cRb ∉ t) :
    readBrackets b t = t.map (fun c => (c, b)) := by
  have := readBrackets_append b t [] h1 h2
  simpa [readBrackets] using this

theorem mergeBrackets_append (t s : Str) (h : cRb ∉ t) : mergeBrackets (t ++ s) = t ++ mergeBrackets s := by
  induction t with
  | nil => simp
  | cons x xs ih =>
    simp only [List.mem_cons, not_or] at h
    simp only [List.cons_append]
    rw [mergeBrackets]
    · rw [ih h.2]
    · intro ys hx; exact absurd hx.symm h.1

theorem mergeBrackets_of_free (t : Str) (h : cRb ∉ t) : mergeBrackets t = t := by
  have := mergeBrackets_append t [] h
  simpa [mergeBrackets] using this

def wrapTerm (p : Str × Bool) : Str := if p.2 then [cLb] ++ p.1 ++ [cRb] else p.1

/-- Everything after the opening bracket of the first term. -/
def fmtBody (tail : Str) : List (Str × Bool) → Str
  | [] => tail
  | [(t, b)] => t ++ (if b then [cRb] else []) ++ tail
  | (t, b) :: (t', b') :: r =>
    t ++ (if b then [cRb] else []) ++ [cComma] ++ (if b' then [cLb] else []) ++ fmtBody tail ((t', b') :: r)

theorem fmtBody_eq (tail : Str) (t : Str) (b : Bool) (r : List (Str × Bool)) :
    join [cComma] (((t, b) :: r).map wrapTerm) ++ tail = (if b then [cLb] else []) ++ fmtBody tail ((t, b) :: r) := by
  induction r generalizing t b with
  | nil => cases b <;> simp [join, wrapTerm, fmtBody]
  | cons p r ih =>
    obtain ⟨t', b'⟩ := p
    have := ih t' b'
    simp only [List.map_cons, join, fmtBody] at this ⊢
    rw [List.append_assoc, this]
    cases b <;> simp [wrapTerm]

theorem fmtBody_not_lb (tail : Str) (htail : tail = [] ∨ ∃ r, tail = cDash :: r) (t : Str) (b : Bool)
    (r : List (Str × Bool)) (ht : cLb ∉ t) (ys : Str) : fmtBody tail ((t, b) :: r) ≠ cLb :: ys := by
  intro h
  cases t with
  | cons x xs =>
    simp only [List.mem_cons, not_or] at ht
    cases r with
    | nil => simp only [fmtBody, List.cons_append, List.cons.injEq] at h; exact ht.1 h.1.symm
    | cons p r =>
      obtain ⟨t', b'⟩ := p
      simp only [fmtBody, List.cons_append, List.cons.injEq] at h; exact ht.1 h.1.symm
  | nil =>
    cases r with
    | nil =>
      cases b
      · simp only [fmtBody] at h
        rcases htail with rfl | ⟨r, rfl⟩ <;> simp at h
      · simp [fmtBody] at h
    | cons p r =>
      obtain ⟨t', b'⟩ := p
      cases b <;> simp [fmtBody] at h

theorem read_fmtBody (tail : Str) (htail : tail = [] ∨ ∃ r, tail = cDash :: r) (hl : cLb ∉ tail) (hr : cRb ∉ tail)
    (l : List (Str × Bool)) (t : Str) (b : Bool)
    (hfree : ∀ p ∈ (t, b) :: l, cLb ∉ p.1 ∧ cRb ∉ p.1) :
    readBrackets b (mergeBrackets (fmtBody tail ((t, b) :: l))) =
      markTerms ((t, b) :: l) ++ tail.map (fun c => (c, false)) := by
  induction l generalizing t b with
  | nil =>
    have ht := hfree (t, b) (by simp)
    simp only at ht
    cases b
    · simp only [fmtBody, markTerms, Bool.false_eq_true, if_false, List.append_nil]
      rw [mergeBrackets_append _ _ ht.2, readBrackets_append _ _ _ ht.1 ht.2, mergeBrackets_of_free _ hr,
        readBrackets_of_free _ _ hl hr]
    · simp only [fmtBody, markTerms, if_true, List.append_assoc]
      rw [mergeBrackets_append _ _ ht.2, readBrackets_append _ _ _ ht.1 ht.2]
      congr 1
      have : mergeBrackets ([cRb] ++ tail) = cRb :: tail := by
        simp only [List.singleton_append]
        rw [mergeBrackets]
        · rw [mergeBrackets_of_free _ hr]
        · intro xs _ hx
          rcases htail with rfl | ⟨r, rfl⟩ <;> simp at hx
      rw [this]
      simp only [readBrackets]
      rw [if_neg (by omega), if_pos trivial, readBrackets_of_free _ _ hl hr]
  | cons p r ih =>
    obtain ⟨t', b'⟩ := p
    have ht := hfree (t, b) (by simp)
    have ht' := hfree (t', b') (by simp)
    have ih' := ih t' b' (fun p hp => hfree p (by simp only [List.mem_cons] at hp ⊢; tauto))
    simp only at ht ht'
    have hmB : ∀ x : Str, mergeBrackets (cComma :: x) = cComma :: mergeBrackets x := by
      intro x; rw [mergeBrackets]; intro ys hx; omega
    have hmB' : ∀ x : Str, mergeBrackets (cLb :: x) = cLb :: mergeBrackets x := by
      intro x; rw [mergeBrackets]; intro ys hx; omega
    have hrC : ∀ b x, readBrackets b (cComma :: x) = (cComma, b) :: readBrackets b x := by
      intro b x; simp only [readBrackets]; rw [if_neg (by omega), if_neg (by omega)]
    have hrL : ∀ b x, readBrackets b (cLb :: x) = readBrackets true x := by
      intro b x; simp [readBrackets]
    have hrR : ∀ b x, readBrackets b (cRb :: x) = readBrackets false x := by
      intro b x; simp [readBrackets]
    simp only [fmtBody, markTerms, List.append_assoc]
    rw [mergeBrackets_append _ _ ht.2, readBrackets_append _ _ _ ht.1 ht.2]
    congr 1
    cases b <;> cases b'
    · simp only [Bool.false_eq_true, if_false, List.nil_append, List.singleton_append, Bool.and_false]
      rw [hmB, hrC, ih']; simp
    · simp only [Bool.false_eq_true, if_false, if_true, List.nil_append, List.singleton_append, Bool.false_and]
      rw [hmB, hmB', hrC, hrL, ih']; simp
    · simp only [Bool.false_eq_true, if_false, if_true, List.nil_append, List.singleton_append, Bool.and_false]
      rw [mergeBrackets]
      · rw [hmB, hrR, hrC, ih']; simp
      · intro xs _ hx
        simp only [List.cons.injEq, true_and] at hx
        exact fmtBody_not_lb tail htail t' false r ht'.1 xs hx
    · simp only [if_true, List.singleton_append, Bool.and_true]
      simp only [List.cons_append]
      rw [mergeBrackets, hrC, ih']

/-- The terms of the equation's left side paired with "is this position constant". -/
def flagged (lhs : Str) (constants : List Nat) : List (Str × Bool) :=
  (splitOn cComma lhs).zipIdx.map (fun p => (p.1, decide (p.2 ∈ constants)))

theorem flagged_spec (lhs : Str) (constants : List Nat) :
    IsSplit ((flagged lhs constants).map Prod.fst) lhs ∧
    ∀ (i : Nat) (t : Str) (b : Bool), (flagged lhs constants)[i]? = some (t, b) → (b = true ↔ i ∈ constants) := by
  constructor
  · have : (flagged lhs constants).map Prod.fst = splitOn cComma lhs := by
      unfold flagged
      rw [List.map_map]
      have : (Prod.fst ∘ fun p : Str × Nat => (p.1, decide (p.2 ∈ constants))) = Prod.fst := rfl
      rw [this, List.zipIdx_map_fst]
    rw [this]
    exact ⟨splitOn_ne_nil _ _, by rw [← join_eq_intercalate, join_splitOn], splitOn_mem_free _ _⟩
  · intro i t b h
    unfold flagged at h
    simp only [List.getElem?_map, List.getElem?_zipIdx, Option.map_map] at h
    cases hx : (splitOn cComma lhs)[i]? with
    | none => rw [hx] at h; cases h
    | some y =>
      rw [hx] at h
      simp at h
      rw [← h.2]; simp

/-- C38. For an equation without brackets, the formatted string read back gives every character of the
equation in order; the characters of a term are inside brackets iff its position is a constant, a
comma iff both its neighbours are, and nothing after the terms is. -/
theorem C38_format_const_einsum_str (lhs rhs : Str) (arrow : Bool) (constants : List Nat)
    (hl : cLb ∉ lhs ∧ cRb ∉ lhs) (hr : cLb ∉ rhs ∧ cRb ∉ rhs) (hda : cDash ∉ lhs) (hga : cGt ∉ lhs)
    (hgr : cGt ∉ rhs) (harrow : arrow = false → rhs = []) :
    ∃ r, Contract.formatConstEinsumStr (lhs ++ (if arrow then S "->" else []) ++ rhs) constants = .ok r ∧
      readBrackets false r =
        markTerms (flagged lhs constants) ++ ((if arrow then S "->" else []) ++ rhs).map (fun c => (c, false)) := by
  have hS : S "->" = [cDash, cGt] := by decide
  rw [hS]
  set tail := (if arrow then [cDash, cGt] else []) ++ rhs with htaildef
  have htail : tail = [] ∨ ∃ r, tail = cDash :: r := by
    cases arrow
    · left; simp [htaildef, harrow rfl]
    · right; exact ⟨cGt :: rhs, by simp [htaildef]⟩
  have htl : cLb ∉ tail := by cases arrow <;> simp [htaildef, hr]
  have htr : cRb ∉ tail := by cases arrow <;> simp [htaildef, hr]
  have hfl : ∀ p ∈ flagged lhs constants, cLb ∉ p.1 ∧ cRb ∉ p.1 := by
    intro p hp
    have h1 := (flagged_spec lhs constants).1
    have hm : p.1 ∈ (flagged lhs constants).map Prod.fst := List.mem_map_of_mem hp
    have hsub : ∀ c ∈ p.1, c ∈ lhs := by
      intro c hc
      rw [← h1.2.1, ← join_eq_intercalate]
      exact mem_join_of_mem _ _ _ _ hm hc
    exact ⟨fun h => hl.1 (hsub _ h), fun h => hl.2 (hsub _ h)⟩
  have hne : flagged lhs constants ≠ [] := by
    have := (flagged_spec lhs constants).1.1
    intro h; apply this; rw [h]; rfl
  -- the string before merging
  have hwrap : (splitOn cComma lhs).zipIdx.map (fun p : Str × Nat => if p.2 ∈ constants then [cLb] ++ p.1 ++ [cRb] else p.1) =
      (flagged lhs constants).map wrapTerm := by
    unfold flagged wrapTerm
    rw [List.map_map]
    apply List.map_congr_left
    intro p _
    simp
  have main : readBrackets false (mergeBrackets (join [cComma] ((flagged lhs constants).map wrapTerm) ++ tail)) =
      markTerms (flagged lhs constants) ++ tail.map (fun c => (c, false)) := by
    obtain ⟨⟨t, b⟩, r, hfr⟩ := List.exists_cons_of_ne_nil hne
    rw [hfr] at hfl ⊢
    rw [fmtBody_eq]
    have := read_fmtBody tail htail htl htr r t b hfl
    cases b
    · simpa using this
    · simp only [if_true, List.singleton_append]
      have hmB' : ∀ x : Str, mergeBrackets (cLb :: x) = cLb :: mergeBrackets x := by
        intro x; rw [mergeBrackets]; intro ys hx; omega
      rw [hmB', readBrackets, if_pos rfl, this]
  by_cases hc : constants = []
  · refine ⟨lhs ++ tail, ?_, ?_⟩
    · unfold Contract.formatConstEinsumStr; rw [if_pos hc, List.append_assoc]
    · rw [readBrackets_append _ _ _ hl.1 hl.2, readBrackets_of_free _ _ htl htr]
      congr 1
      -- no constants: all flags are false
      have hall : ∀ l : List (Str × Bool), l ≠ [] → (∀ p ∈ l, p.2 = false) →
          markTerms l = (join [cComma] (l.map Prod.fst)).map (fun c => (c, false)) := by
        intro l hl h
        induction l with
        | nil => exact absurd rfl hl
        | cons p r ih =>
          obtain ⟨t, b⟩ := p
          have hb : b = false := h (t, b) (by simp)
          subst hb
          cases r with
          | nil => simp [markTerms, join]
          | cons q r =>
            obtain ⟨t', b'⟩ := q
            have ih' := ih (by simp) (fun p hp => h p (by simp [hp]))
            simp only [markTerms, Bool.false_and, List.map_cons, join] at ih' ⊢
            rw [ih']; simp
      rw [hall _ hne]
      · congr 1
        have := (flagged_spec lhs constants).1.2.1
        rw [← join_eq_intercalate] at this
        exact this.symm
      · intro p hp
        subst hc
        unfold flagged at hp
        simp only [List.not_mem_nil, decide_false, List.mem_map] at hp
        obtain ⟨q, _, rfl⟩ := hp
        rfl
  · unfold Contract.formatConstEinsumStr
    rw [if_neg hc]
    simp only
    cases arrow
    · have hrhs := harrow rfl
      subst hrhs
      have ht0 : tail = [] := by simp [htaildef]
      simp only [Bool.false_eq_true, if_false, List.append_nil]
      rw [countArrow_of_free lhs hga, if_pos rfl, hwrap]
      rw [ht0] at main ⊢
      exact ⟨_, rfl, by simpa using main⟩
    · have hcnt : countArrow (lhs ++ [cDash, cGt] ++ rhs) ≠ 0 := by
        have := countArrow_append lhs rhs hda
        simp only [List.append_assoc, List.cons_append, List.nil_append] at this ⊢
        rw [this]; omega
      simp only [if_true]
      rw [if_neg hcnt, splitArrow_two lhs rhs hda hgr]
      simp only [hwrap]
      refine ⟨_, rfl, ?_⟩
      have ht1 : tail = [cDash, cGt] ++ rhs := by simp [htaildef]
      rw [ht1] at main
      rw [List.append_assoc]
      exact main

/-- Erasing the brackets gives back the equation. -/
theorem C38_erase_brackets (s : Str) (b : Bool) : (readBrackets b s).map Prod.fst = s.filter (fun c => c ≠ cLb ∧ c ≠ cRb) := by
  induction s generalizing b with
  | nil => rfl
  | cons c cs ih =>
    simp only [readBrackets]
    split
    · rename_i h; subst h; simp [ih]
    · split
      · rename_i h; subst h; simp [ih]
      · rename_i h1 h2; simp [h1, h2, ih]

example : Contract.formatConstEinsumStr (S "ab,bc,cd->ad") [0, 2] = .ok (S "[ab],bc,[cd]->ad") ∧
    Contract.formatConstEinsumStr (S "ab,bc,cd->ad") [0, 1] = .ok (S "[ab,bc],cd->ad") := by decide

/-! ## C36 interleaved input -/

section Interleaved
variable {κ : Type} [LinearOrder κ]

theorem sortedLabels_pairwise (subs : List (List (Lbl κ))) : (sortedLabels subs).Pairwise (· < ·) := by
  unfold sortedLabels
  have h1 := List.pairwise_insertionSort (· ≤ ·) (subs.flatten.filterMap (fun l => match l with | Lbl.ellipsis => none | Lbl.key k => some k)).dedup
  have h2 := ((List.perm_insertionSort (· ≤ ·) (subs.flatten.filterMap (fun l => match l with | Lbl.ellipsis => none | Lbl.key k => some k)).dedup).nodup_iff).2 (List.nodup_dedup _)
  exact (h1.and h2).imp (fun {a b} h => lt_of_le_of_ne h.1 h.2)

theorem mem_sortedLabels (subs : List (List (Lbl κ))) (k : κ) :
    k ∈ sortedLabels subs ↔ ∃ sub ∈ subs, Lbl.key k ∈ sub := by
  unfold sortedLabels
  rw [List.mem_insertionSort, List.mem_dedup, List.mem_filterMap]
  constructor
  · rintro ⟨l, hl, h⟩
    cases l with
    | ellipsis => simp at h
    | key k' =>
      simp only [Option.some.injEq] at h
      subst h
      obtain ⟨sub, h1, h2⟩ := List.mem_flatten.1 hl
      exact ⟨sub, h1, h2⟩
  · rintro ⟨sub, h1, h2⟩
    exact ⟨.key k, List.mem_flatten.2 ⟨sub, h1, h2⟩, rfl⟩

/-- The characters that a user subscript list stands for under a symbol assignment. -/
def render (sym : κ → Nat) : List (Lbl κ) → Str
  | [] => []
  | .ellipsis :: t => S "..." ++ render sym t
  | .key k :: t => sym k :: render sym t

/-- The symbol given to a label: `get_symbol` of its rank. -/
def symOf (labels : List κ) (k : κ) : Nat := getSymbol ((labels.idxOf? k).getD 0)

theorem convertSubscripts_ok (labels : List κ) (sub : List (Lbl κ)) (h : ∀ k, Lbl.key k ∈ sub → k ∈ labels) :
    convertSubscripts labels sub = .ok (render (symOf labels) sub) := by
  induction sub with
  | nil => rfl
  | cons l t ih =>
    have ih' := ih (fun k hk => h k (by simp [hk]))
    cases l with
    | ellipsis =>
      simp only [convertSubscripts, ih', render, bind, Except.bind, dots_eq]
    | key k =>
      have hk : k ∈ labels := h k (by simp)
      have hs : (labels.idxOf? k).isSome := by simpa using hk
      obtain ⟨i, hi⟩ := Option.isSome_iff_exists.1 hs
      simp only [convertSubscripts, hi, ih', render, bind, Except.bind, symOf, Option.getD_some]

theorem convertSubscripts_missing (labels : List κ) (sub : List (Lbl κ)) (k : κ) (hk : Lbl.key k ∈ sub)
    (h : k ∉ labels) : convertSubscripts labels sub = .error .key := by
  induction sub with
  | nil => simp at hk
  | cons l t ih =>
    cases l with
    | ellipsis =>
      have := ih (by simpa using hk)
      simp only [convertSubscripts, this, bind, Except.bind]
    | key k' =>
      simp only [convertSubscripts]
      cases hi : labels.idxOf? k' with
      | none => rfl
      | some i =>
        have hne : k ≠ k' := by
          rintro rfl
          rw [List.idxOf?_eq_none_iff.2 h] at hi; cases hi
        have := ih (by simpa [hne] using hk)
        simp only [this, bind, Except.bind]

theorem mapM_convert (labels : List κ) (subs : List (List (Lbl κ))) (h : ∀ sub ∈ subs, ∀ k, Lbl.key k ∈ sub → k ∈ labels) :
    subs.mapM (convertSubscripts labels) = .ok (subs.map (render (symOf labels))) := by
  induction subs with
  | nil => rfl
  | cons a t ih =>
    rw [List.mapM_cons, convertSubscripts_ok labels a (h a (by simp)), ih (fun s hs => h s (by simp [hs]))]
    rfl

theorem symOf_injOn (subs : List (List (Lbl κ))) :
    Set.InjOn (symOf (sortedLabels subs)) {k | k ∈ sortedLabels subs} := by
  intro a ha b hb hab
  have hsa : ((sortedLabels subs).idxOf? a).isSome := by simpa using ha
  have hsb : ((sortedLabels subs).idxOf? b).isSome := by simpa using hb
  obtain ⟨i, hi⟩ := Option.isSome_iff_exists.1 hsa
  obtain ⟨j, hj⟩ := Option.isSome_iff_exists.1 hsb
  simp only [symOf, hi, hj, Option.getD_some] at hab
  have := getSymbol_injective hab
  subst this
  rw [List.idxOf?_eq_some_iff] at hi hj
  obtain ⟨p1, e1, _⟩ := hi
  obtain ⟨p2, e2, _⟩ := hj
  rw [← e1, ← e2]

/-- C36, the conversion itself: for interleaved operands whose output labels (if given) occur in the inputs,
the resulting equation renders every subscript list position by position under one symbol
assignment that is injective on the labels and never produces punctuation; the operands are kept in order. -/
theorem C36_convert_interleaved {α : Type} (items : List (α × List (Lbl κ))) (output : Option (List (Lbl κ)))
    (hout : ∀ o, output = some o → ∀ k, Lbl.key k ∈ o → ∃ sub ∈ items.map Prod.snd, Lbl.key k ∈ sub) :
    ∃ sym : κ → Nat,
      Set.InjOn sym {k | ∃ sub ∈ items.map Prod.snd, Lbl.key k ∈ sub} ∧
      (∀ k, ¬ IsPunct (sym k)) ∧
      convertInterleaved items output = .ok
        (List.intercalate [cComma] ((items.map Prod.snd).map (render sym)) ++
          (match output with | none => [] | some o => S "->" ++ render sym o), items.map Prod.fst) := by
  have hS : S "->" = [cDash, cGt] := by decide
  refine ⟨symOf (sortedLabels (items.map Prod.snd)), ?_, fun k => getSymbol_not_isPunct _, ?_⟩
  · have := symOf_injOn (items.map Prod.snd)
    intro a ha b hb hab
    exact this ((mem_sortedLabels _ _).2 ha) ((mem_sortedLabels _ _).2 hb) hab
  · unfold convertInterleaved
    simp only
    rw [mapM_convert]
    · cases output with
      | none => simp [bind, Except.bind, join_eq_intercalate]
      | some o =>
        have := convertSubscripts_ok (sortedLabels (items.map Prod.snd)) o
          (fun k hk => (mem_sortedLabels _ _).2 (hout o rfl k hk))
        simp only [bind, Except.bind, this, join_eq_intercalate, hS]
        simp
    · intro sub hsub k hk
      exact (mem_sortedLabels _ _).2 ⟨sub, hsub, hk⟩

/-- An output label that occurs in no input is a `KeyError`. -/
theorem C36_unknown_output_label {α : Type} (items : List (α × List (Lbl κ))) (o : List (Lbl κ)) (k : κ)
    (hk : Lbl.key k ∈ o) (h : ∀ sub ∈ items.map Prod.snd, Lbl.key k ∉ sub) :
    convertInterleaved items (some o) = .error .key := by
  unfold convertInterleaved
  simp only
  rw [mapM_convert]
  · have := convertSubscripts_missing (sortedLabels (items.map Prod.snd)) o k hk
      (fun hm => by obtain ⟨sub, h1, h2⟩ := (mem_sortedLabels _ _).1 hm; exact h sub h1 h2)
    simp only [bind, Except.bind, this]
  · intro sub hsub k hk
    exact (mem_sortedLabels _ _).2 ⟨sub, hsub, hk⟩

theorem symOf_lt (subs : List (List (Lbl κ))) (h26 : (sortedLabels subs).length ≤ 26) (a b : κ)
    (ha : a ∈ sortedLabels subs) (hb : b ∈ sortedLabels subs) (hab : a < b) :
    symOf (sortedLabels subs) a < symOf (sortedLabels subs) b := by
  have hsa : ((sortedLabels subs).idxOf? a).isSome := by simpa using ha
  have hsb : ((sortedLabels subs).idxOf? b).isSome := by simpa using hb
  obtain ⟨i, hi⟩ := Option.isSome_iff_exists.1 hsa
  obtain ⟨j, hj⟩ := Option.isSome_iff_exists.1 hsb
  simp only [symOf, hi, hj, Option.getD_some]
  rw [List.idxOf?_eq_some_iff] at hi hj
  obtain ⟨p1, e1, _⟩ := hi
  obtain ⟨p2, e2, _⟩ := hj
  have hij : i < j := by
    by_contra hn
    have hpw := sortedLabels_pairwise subs
    rcases Nat.lt_or_ge j i with h | h
    · have := List.pairwise_iff_getElem.1 hpw j i p2 p1 h
      rw [e1, e2] at this
      exact absurd hab (not_lt_of_gt this)
    · have : i = j := by omega
      subst this
      rw [e1] at e2
      exact absurd e2 (ne_of_lt hab)
  rw [getSymbol_eq, getSymbol_eq, if_pos (by omega), if_pos (by omega)]
  omega

/-- C36, the order of the implicit output: with at most 26 different labels the symbols are ordered as the
labels are, so the implicit output (which lists symbols in increasing order, C33) follows the labels'
order. Missing: for more labels the code gets the order wrong, see `C36_order_counterexample`. -/
theorem C36_order_partial {α : Type} (items : List (α × List (Lbl κ))) (labels : List κ)
    (hlab : ∀ k, (∃ sub ∈ items.map Prod.snd, Lbl.key k ∈ sub) → k ∈ labels) (h26 : labels.length ≤ 26) :
    ∃ sym : κ → Nat,
      (∀ a b, (∃ sub ∈ items.map Prod.snd, Lbl.key a ∈ sub) → (∃ sub ∈ items.map Prod.snd, Lbl.key b ∈ sub) →
        (a < b ↔ sym a < sym b)) ∧
      convertInterleaved items none = .ok
        (List.intercalate [cComma] ((items.map Prod.snd).map (render sym)), items.map Prod.fst) := by
  have hlen : (sortedLabels (items.map Prod.snd)).length ≤ 26 := by
    have hn : (sortedLabels (items.map Prod.snd)).Nodup := (sortedLabels_pairwise _).imp (fun h => ne_of_lt h)
    have := (hn.subperm (fun k hk => hlab k ((mem_sortedLabels _ _).1 hk))).length_le
    omega
  refine ⟨symOf (sortedLabels (items.map Prod.snd)), ?_, ?_⟩
  · intro a b ha hb
    rw [← mem_sortedLabels] at ha hb
    constructor
    · exact symOf_lt _ hlen a b ha hb
    · intro h
      by_contra hn
      rcases lt_or_eq_of_le (not_lt.1 hn) with h' | h'
      · have := symOf_lt _ hlen b a hb ha h'
        omega
      · subst h'; omega
  · unfold convertInterleaved
    simp only
    rw [mapM_convert]
    · simp [bind, Except.bind, join_eq_intercalate]
    · intro sub hsub k hk
      exact (mem_sortedLabels _ _).2 ⟨sub, hsub, hk⟩

end Interleaved

/-- With 27 labels `0..26` in one operand the 27th label gets the symbol `A`, which sorts before `a`. -/
theorem C36_order_counterexample :
    (convertInterleaved (κ := Nat) [((), (List.range 27).map Lbl.key)] none).map
      (fun r => findOutputStr r.1) = .ok (65 :: (List.range 26).map (· + 97)) := by decide

example : convertInterleaved (κ := Nat) [("x", [.key 7, .ellipsis]), ("y", [.ellipsis, .key 3])] (some [.ellipsis, .key 7])
    = .ok (S "b...,...a->...b", ["x", "y"]) := by decide

/-! ## C37 find_output_shape -/

/-- The dimensions that label `c` has in the operands. -/
def dimsOf (inputs : List Str) (shapes : List Shape) (c : Nat) : List Nat :=
  (inputs.zip shapes).flatMap (fun p => (p.1.zip p.2).filterMap (fun q => if q.1 = c then some q.2 else none))

/-- `d` is the common size of dimensions that broadcast: all are 1 or `d`, and `d` occurs. -/
def IsBroadcastDim (dims : List Nat) (d : Nat) : Prop := d ∈ dims ∧ ∀ x ∈ dims, x = 1 ∨ x = d

theorem mem_dimsOf (inputs : List Str) (shapes : List Shape) (c x : Nat) :
    x ∈ dimsOf inputs shapes c ↔ ∃ p ∈ inputs.zip shapes, (c, x) ∈ p.1.zip p.2 := by
  unfold dimsOf
  rw [List.mem_flatMap]
  apply exists_congr; intro p
  apply and_congr_right; intro _
  rw [List.mem_filterMap]
  constructor
  · rintro ⟨⟨a, b⟩, h1, h2⟩
    simp only at h2
    split at h2
    · simp only [Option.some.injEq] at h2; subst h2; rename_i h; subst h; exact h1
    · cases h2
  · intro h; exact ⟨(c, x), h, by simp⟩

theorem findOutputDim_eq (inputs : List Str) (shapes : List Shape) (c : Nat)
    (hlen : ∀ p ∈ shapes.zip inputs, p.2.length ≤ p.1.length) :
    ∃ dims : List Nat, findOutputDim inputs shapes c = (match dims with | [] => .error .value | d :: ds => .ok (ds.foldl max d)) ∧
      (∀ x, x ∈ dims ↔ ∃ p ∈ shapes.zip inputs, ∃ i, p.2.idxOf? c = some i ∧ p.1[i]? = some x) := by
  have key : ∀ l : List (Shape × Str), (∀ p ∈ l, p.2.length ≤ p.1.length) →
      ∃ dims : List Nat, (l.filterMap (fun p => (find? p.2 c).map (fun loc => p.1[loc]?))).mapM
        optIndex = .ok dims ∧
      (∀ x, x ∈ dims ↔ ∃ p ∈ l, ∃ i, p.2.idxOf? c = some i ∧ p.1[i]? = some x) := by
    intro l
    induction l with
    | nil => intro _; exact ⟨[], rfl, by simp⟩
    | cons p l ih =>
      intro h
      obtain ⟨dims, h1, h2⟩ := ih (fun q hq => h q (by simp [hq]))
      cases hf : p.2.idxOf? c with
      | none =>
        refine ⟨dims, ?_, ?_⟩
        · rw [List.filterMap_cons]
          simp only [find?, hf, Option.map_none]
          exact h1
        · intro x
          rw [h2]
          simp [hf]
      | some i =>
        have hi : i < p.1.length := by
          have := List.idxOf?_eq_some_iff.1 hf
          obtain ⟨p1, _⟩ := this
          have := h p (by simp)
          omega
        refine ⟨p.1[i] :: dims, ?_, ?_⟩
        · rw [List.filterMap_cons]
          simp only [find?, hf, Option.map_some]
          rw [List.mapM_cons, List.getElem?_eq_getElem hi]
          simp only [find?] at h1
          simp only [h1, optIndex, bind, Except.bind, pure, Except.pure]
        · intro x
          simp only [List.mem_cons, h2, exists_eq_or_imp, hf]
          constructor
          · rintro (h | h)
            · left; exact ⟨i, rfl, by rw [List.getElem?_eq_getElem hi, h]⟩
            · right; exact h
          · rintro (⟨j, hj, hx⟩ | h)
            · left
              simp only [Option.some.injEq] at hj; subst hj
              rw [List.getElem?_eq_getElem hi] at hx
              exact (Option.some.inj hx).symm
            · right; exact h
  obtain ⟨dims, h1, h2⟩ := key (shapes.zip inputs) hlen
  refine ⟨dims, ?_, h2⟩
  unfold findOutputDim
  rw [h1]
  cases dims <;> rfl

/-- C37. If every term is as long as its shape, no label has two different dimensions inside one operand, and each
output label has a broadcast dimension that is not "0 next to a 1", then `find_output_shape` returns
those dimensions. Missing: a label with dimensions 0 and 1, for which the code answers 1, see
`C37_counterexample`. -/
theorem C37_find_output_shape_partial (inputs : List Str) (shapes : List Shape) (output : Str) (dim : Nat → Nat)
    (hlen : ∀ p ∈ inputs.zip shapes, p.1.length = p.2.length)
    (hdiag : ∀ p ∈ inputs.zip shapes, ∀ c x y, (c, x) ∈ p.1.zip p.2 → (c, y) ∈ p.1.zip p.2 → x = y)
    (hb : ∀ c ∈ output, IsBroadcastDim (dimsOf inputs shapes c) (dim c))
    (h0 : ∀ c ∈ output, dim c = 0 → 1 ∉ dimsOf inputs shapes c) :
    findOutputShape inputs shapes output = .ok (output.map dim) := by
  have hswap : ∀ p, p ∈ shapes.zip inputs ↔ p.swap ∈ inputs.zip shapes := by
    intro p
    rw [List.mem_iff_getElem?, List.mem_iff_getElem?]
    apply exists_congr; intro i
    simp only [List.getElem?_zip_eq_some, Prod.fst_swap, Prod.snd_swap]
    exact and_comm
  have hone : ∀ c ∈ output, findOutputDim inputs shapes c = .ok (dim c) := by
    intro c hc
    obtain ⟨dims, h1, h2⟩ := findOutputDim_eq inputs shapes c (by
      intro p hp
      have := hlen p.swap ((hswap p).1 hp)
      simp at this; omega)
    obtain ⟨hd, hall⟩ := hb c hc
    -- every dimension of the label is one of those looked at
    have hsame : ∀ x, x ∈ dims ↔ x ∈ dimsOf inputs shapes c := by
      intro x
      rw [h2, mem_dimsOf]
      constructor
      · rintro ⟨p, hp, i, hi, hx⟩
        refine ⟨p.swap, (hswap p).1 hp, ?_⟩
        obtain ⟨hi1, hi2, _⟩ := List.idxOf?_eq_some_iff.1 hi
        rw [List.mem_iff_getElem?]
        refine ⟨i, ?_⟩
        simp only [List.getElem?_zip_eq_some, Prod.fst_swap, Prod.snd_swap]
        exact ⟨by rw [List.getElem?_eq_getElem hi1, hi2], hx⟩
      · rintro ⟨p, hp, hx⟩
        refine ⟨p.swap, (hswap _).2 (by simpa using hp), ?_⟩
        have hcm : c ∈ p.1 := (List.of_mem_zip hx).1
        have hs : (p.1.idxOf? c).isSome := by simpa using hcm
        obtain ⟨i, hi⟩ := Option.isSome_iff_exists.1 hs
        refine ⟨i, hi, ?_⟩
        obtain ⟨hi1, hi2, _⟩ := List.idxOf?_eq_some_iff.1 hi
        have hi3 : i < p.2.length := by have := hlen p hp; omega
        have hz : (c, p.2[i]) ∈ p.1.zip p.2 := by
          rw [List.mem_iff_getElem?]
          refine ⟨i, ?_⟩
          simp only [List.getElem?_zip_eq_some]
          exact ⟨by rw [List.getElem?_eq_getElem hi1, hi2], List.getElem?_eq_getElem hi3⟩
        have := hdiag p hp c x p.2[i] hx hz
        simp only [Prod.fst_swap]
        rw [List.getElem?_eq_getElem hi3, this]
    rw [h1]
    cases dims with
    | nil => have := (hsame (dim c)).2 hd; simp at this
    | cons d ds =>
      simp only [Except.ok.injEq]
      obtain ⟨f1, f2, f3⟩ := foldl_max_spec ds d
      have hmem : ds.foldl max d ∈ d :: ds := by
        rcases f1 with h | h
        · rw [h]; simp
        · simp [h]
      have hge : ∀ x ∈ d :: ds, x ≤ ds.foldl max d := by
        intro x hx
        rcases List.mem_cons.1 hx with rfl | hx
        · exact f2
        · exact f3 x hx
      have g1 := hge _ ((hsame _).2 hd)
      rcases hall _ ((hsame _).1 hmem) with h | h
      · rcases Nat.eq_zero_or_pos (dim c) with h' | h'
        · exfalso
          have := h0 c hc h'
          apply this
          rw [← hsame, ← h]; exact hmem
        · omega
      · exact h
  unfold findOutputShape
  clear hb h0
  induction output with
  | nil => rfl
  | cons c t ih =>
    rw [List.mapM_cons, hone c (by simp), ih (fun c hc => hone c (by simp [hc]))]
    rfl

/-- Full statement of C37, without the exclusion of 0 next to 1. -/
def C37_statement : Prop := ∀ (inputs : List Str) (shapes : List Shape) (output : Str) (dim : Nat → Nat),
  (∀ p ∈ inputs.zip shapes, p.1.length = p.2.length) →
  (∀ p ∈ inputs.zip shapes, ∀ c x y, (c, x) ∈ p.1.zip p.2 → (c, y) ∈ p.1.zip p.2 → x = y) →
  (∀ c ∈ output, IsBroadcastDim (dimsOf inputs shapes c) (dim c)) →
  findOutputShape inputs shapes output = .ok (output.map dim)

/-- `find_output_shape(['a','a'], [(0,),(1,)], 'a')` is `(1,)` although the einsum result has shape `(0,)`. -/
theorem C37_counterexample : ¬ C37_statement := by
  intro h
  have := h [S "a", S "a"] [[0], [1]] (S "a") (fun _ => 0) (by decide)
    (by
      intro p hp c x y hx hy
      simp only [List.zip_cons_cons, List.zip_nil_right, List.mem_cons, List.not_mem_nil, or_false] at hp
      rcases hp with rfl | rfl
      · rw [show (S "a").zip [0] = [(97, 0)] by decide] at hx hy
        simp at hx hy; omega
      · rw [show (S "a").zip [1] = [(97, 1)] by decide] at hx hy
        simp at hx hy; omega)
    (by unfold IsBroadcastDim; decide)
  rw [show findOutputShape [S "a", S "a"] [[0], [1]] (S "a") = .ok [1] by decide] at this
  have h2 : (S "a").map (fun _ => 0) = [0] := by decide
  rw [h2] at this
  cases this

example : findOutputShape [S "ab", S "bc"] [[2, 3], [1, 4]] (S "ab") = .ok [2, 3] := by decide

end OE.Props
