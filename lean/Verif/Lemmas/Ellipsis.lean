import Verif.Lemmas.GenUnused
import Verif.Lemmas.Alpha

/-! Lemmas about the expansion of ellipses. -/

namespace OE.Parser
open OE OE.Py OE.Spec

theorem dots_eq : S "..." = [46, 46, 46] := by decide

theorem countDots_of_free (s : Str) (h : cDot ∉ s) : countDots s = 0 := by
  fun_induction countDots s with
  | case1 => rfl
  | case2 xs ih => simp at h
  | case3 x xs _ ih => simp only [List.mem_cons, not_or] at h; exact ih h.2

theorem replaceDots_of_free (new s : Str) (h : cDot ∉ s) : replaceDots new s = s := by
  fun_induction replaceDots new s with
  | case1 => rfl
  | case2 xs ih => simp at h
  | case3 x xs _ ih => simp only [List.mem_cons, not_or] at h; rw [ih h.2]

theorem replaceDots_append (new a b : Str) (ha : cDot ∉ a) :
    replaceDots new (a ++ 46 :: 46 :: 46 :: b) = a ++ new ++ replaceDots new b := by
  induction a with
  | nil => simp [replaceDots]
  | cons x xs ih =>
    simp only [List.mem_cons, not_or] at ha
    simp only [List.cons_append]
    rw [replaceDots]
    · rw [ih ha.2]
    · intro ys hx; exact absurd hx.symm ha.1

theorem exists_dots_of_count (s : Str) (h : countDots s ≠ 0) : ∃ a b, s = a ++ 46 :: 46 :: 46 :: b := by
  fun_induction countDots s with
  | case1 => simp at h
  | case2 xs ih => exact ⟨[], xs, rfl⟩
  | case3 x xs _ ih =>
    obtain ⟨a, b, hab⟩ := ih h
    exact ⟨x :: a, b, by simp [hab]⟩

/-- The ellipsis check: exactly three dots, contiguous. -/
theorem dots_form (s : Str) (h1 : s.count cDot = 3) (h2 : countDots s = 1) :
    ∃ a b, s = a ++ 46 :: 46 :: 46 :: b ∧ cDot ∉ a ∧ cDot ∉ b := by
  obtain ⟨a, b, rfl⟩ := exists_dots_of_count s (by omega)
  simp only [List.count_append, List.count_cons, beq_self_eq_true, if_true] at h1
  refine ⟨a, b, rfl, ?_, ?_⟩
  · rw [← List.count_eq_zero]; omega
  · rw [← List.count_eq_zero]; omega

theorem dots_form_conv (a b : Str) (ha : cDot ∉ a) (hb : cDot ∉ b) :
    (a ++ 46 :: 46 :: 46 :: b).count cDot = 3 ∧ countDots (a ++ 46 :: 46 :: 46 :: b) = 1 := by
  constructor
  · simp [List.count_append, List.count_eq_zero.2 ha, List.count_eq_zero.2 hb]
  · induction a with
    | nil => simp [countDots, countDots_of_free b hb]
    | cons x xs ih =>
      simp only [List.mem_cons, not_or] at ha
      simp only [List.cons_append]
      rw [countDots]
      · exact ih ha.2
      · intro ys hx; exact absurd hx.symm ha.1

theorem lastN_length {α : Type} (n : Nat) (l : List α) (h : n ≤ l.length) : (lastN n l).length = n := by
  simp [lastN]; omega

theorem lastN_suffix (n : Nat) (l : List Nat) (h : n ≤ l.length) : IsSuffixOfLength n l (lastN n l) :=
  ⟨lastN_length n l h, l.take (l.length - n), by simp [lastN]⟩

theorem suffix_unique {k : Nat} {E s₁ s₂ : List Nat} (h₁ : IsSuffixOfLength k E s₁) (h₂ : IsSuffixOfLength k E s₂) :
    s₁ = s₂ := by
  obtain ⟨l1, p1, e1⟩ := h₁
  obtain ⟨l2, p2, e2⟩ := h₂
  exact (List.append_inj' (e1.symm.trans e2) (by omega)).2

/-- One dotted term, as the code treats it. -/
theorem ellipse_term (E : List Nat) (shape : Shape) (sub : Str) (hE : shape.length ≤ E.length)
    (h1 : sub.count cDot = 3) (h2 : countDots sub = 1) (hec : 0 ≤ ellipseCount shape sub) :
    ExpandTerm E shape.length sub
      (if ellipseCount shape sub = 0 then replaceDots [] sub else replaceDots (lastN (ellipseCount shape sub).toNat E) sub)
      (ellipseCount shape sub).toNat := by
  obtain ⟨a, b, rfl, ha, hb⟩ := dots_form sub h1 h2
  have hlen : ((a ++ 46 :: 46 :: 46 :: b).length : Int) = a.length + b.length + 3 := by simp; omega
  have hdots : a ++ 46 :: 46 :: 46 :: b = a ++ S "..." ++ b := by rw [dots_eq]; simp
  set ec := ellipseCount shape (a ++ 46 :: 46 :: 46 :: b) with hecdef
  have hk : (shape.length = 0 ∧ ec.toNat = 0) ∨ a.length + ec.toNat + b.length = shape.length := by
    unfold ellipseCount at hecdef
    split at hecdef
    · left; rename_i hs; subst hs; simp [hecdef]
    · rename_i hs
      have hpos : 0 < shape.length := List.length_pos_of_ne_nil hs
      rw [hlen] at hecdef
      right
      have : max shape.length 1 = shape.length := by omega
      rw [this] at hecdef
      omega
  have hle : ec.toNat ≤ E.length := by rcases hk with h | h <;> omega
  split
  · rename_i h0
    rw [replaceDots_append _ a b ha, replaceDots_of_free _ b hb, hdots]
    rw [h0]
    rw [h0] at hk
    exact ExpandTerm.dots a b [] 0 ha hb hk ⟨rfl, E, by simp⟩
  · rw [replaceDots_append _ a b ha, replaceDots_of_free _ b hb, hdots]
    exact ExpandTerm.dots a b _ _ ha hb hk (lastN_suffix _ _ hle)

/-- The term loop of the parser. -/
theorem expandTerms_spec (E : List Nat) (shapes : List Shape) (hE : ∀ s ∈ shapes, s.length ≤ E.length)
    (ts : List Str) (i : Nat) (acc : List Str) (longest : Nat) (out : List Str) (L : Nat)
    (h : expandTerms E shapes ((ts.zipIdx i).map Prod.swap) acc longest = .ok (out, L)) :
    ∃ (ts' : List Str) (ks : List Nat), out = acc.reverse ++ ts' ∧ ts'.length = ts.length ∧ ks.length = ts.length ∧
      (∀ j (hj : j < ts.length) (hj' : j < ts'.length) (hjk : j < ks.length),
        (cDot ∉ ts[j] ∧ ts'[j] = ts[j] ∧ ks[j] = 0) ∨
        ∃ shape, shapes[i + j]? = some shape ∧ ExpandTerm E shape.length ts[j] ts'[j] ks[j]) ∧
      L = ks.foldl max longest := by
  induction ts generalizing i acc longest with
  | nil =>
    simp only [List.zipIdx_nil, List.map_nil, expandTerms, Except.ok.injEq, Prod.mk.injEq] at h
    exact ⟨[], [], by simp [h.1], rfl, rfl, by simp, by simp [h.2]⟩
  | cons t ts ih =>
    simp only [List.zipIdx_cons, List.map_cons, Prod.swap_prod_mk] at h
    rw [expandTerms] at h
    split at h
    · split at h
      · cases h
      · rename_i hdot hform
        simp only [not_or, not_not, ne_eq] at hform
        split at h
        · cases h
        · rename_i shape hshape
          have hlen := hE shape (List.mem_of_getElem? hshape)
          simp only at h
          split at h
          · cases h
          · rename_i hneg
            have hterm := ellipse_term E shape t hlen hform.1 hform.2 (by omega)
            set ec := ellipseCount shape t with hec
            have hlong : (if ec > (longest : Int) then ec.toNat else longest) = max longest ec.toNat := by
              split <;> omega
            have key : ∀ new, new = (if ec = 0 then replaceDots [] t else replaceDots (lastN ec.toNat E) t) →
                expandTerms E shapes ((ts.zipIdx (i + 1)).map Prod.swap) (new :: acc)
                  (if ec > (longest : Int) then ec.toNat else longest) = .ok (out, L) →
                ∃ (ts' : List Str) (ks : List Nat), out = acc.reverse ++ ts' ∧ ts'.length = (t :: ts).length ∧ ks.length = (t :: ts).length ∧
                  (∀ j (hj : j < (t :: ts).length) (hj' : j < ts'.length) (hjk : j < ks.length),
                    (cDot ∉ (t :: ts)[j] ∧ ts'[j] = (t :: ts)[j] ∧ ks[j] = 0) ∨
                    ∃ shape, shapes[i + j]? = some shape ∧ ExpandTerm E shape.length (t :: ts)[j] ts'[j] ks[j]) ∧
                  L = ks.foldl max longest := by
              intro new hnew hh
              obtain ⟨ts', ks, h1, h2, h3, h4, h5⟩ := ih (i + 1) _ _ hh
              refine ⟨new :: ts', ec.toNat :: ks, by simp [h1], by simp [h2], by simp [h3], ?_, ?_⟩
              · intro j hj hj' hjk
                cases j with
                | zero =>
                  right
                  refine ⟨shape, by simpa using hshape, ?_⟩
                  simp only [List.getElem_cons_zero]
                  rw [hnew]; exact hterm
                | succ j =>
                  have := h4 j (by simpa using hj) (by simpa using hj') (by simpa using hjk)
                  simp only [List.getElem_cons_succ]
                  rw [show i + (j + 1) = i + 1 + j by omega]
                  exact this
              · simp only [List.foldl_cons]
                rw [h5, hlong]
            split at h
            · rename_i h0
              exact key _ (by rw [if_pos h0]) h
            · rename_i h0
              exact key _ (by rw [if_neg h0]) h
    · rename_i hdot
      obtain ⟨ts', ks, h1, h2, h3, h4, h5⟩ := ih (i + 1) _ _ h
      refine ⟨t :: ts', 0 :: ks, by simp [h1], by simp [h2], by simp [h3], ?_, ?_⟩
      · intro j hj hj' hjk
        cases j with
        | zero => left; exact ⟨hdot, rfl, rfl⟩
        | succ j =>
          have := h4 j (by simpa using hj) (by simpa using hj') (by simpa using hjk)
          simp only [List.getElem_cons_succ]
          rw [show i + (j + 1) = i + 1 + j by omega]
          exact this
      · simp only [List.foldl_cons, Nat.max_zero]
        exact h5

/-- The characters of an expanded term come from the term or from the broadcast labels. -/
theorem expandTerm_mem {E : List Nat} {rank : Nat} {t t' : Str} {k : Nat} (h : ExpandTerm E rank t t' k)
    {c : Nat} (hc : c ∈ t') : (c ∈ t ∧ c ≠ cDot) ∨ c ∈ E := by
  cases h with
  | plain _ h => left; exact ⟨hc, fun e => h (e ▸ hc)⟩
  | dots a b suf k ha hb hk hs =>
    obtain ⟨_, p, rfl⟩ := hs
    simp only [List.mem_append] at hc ⊢
    rcases hc with (hc | hc) | hc
    · left; exact ⟨by simp [hc], fun e => ha (e ▸ hc)⟩
    · right; simp [hc]
    · left; exact ⟨by simp [hc], fun e => hb (e ▸ hc)⟩

theorem expandTerm_le {E : List Nat} {rank : Nat} {t t' : Str} {k : Nat} (h : ExpandTerm E rank t t' k) :
    k ≤ E.length := by
  cases h with
  | plain => omega
  | dots a b suf k ha hb hk hs =>
    obtain ⟨hsl, p, hp⟩ := hs
    rw [hp]; simp; omega

theorem replaceDots_expandOut (eo r : Str) (h : cDot ∉ replaceDots eo r) : ExpandOut eo r (replaceDots eo r) := by
  fun_induction replaceDots eo r with
  | case1 => exact .nil
  | case2 xs ih =>
    simp only [List.mem_append, not_or] at h
    have := ExpandOut.dots _ _ (ih h.2)
    rw [dots_eq] at this
    exact this
  | case3 x xs _ ih =>
    simp only [List.mem_cons, not_or] at h
    exact ExpandOut.char x _ _ (Ne.symm h.1) (ih h.2)

theorem mem_replaceDots (eo r : Str) {c : Nat} (h : c ∈ replaceDots eo r) : c ∈ eo ∨ c ∈ r := by
  fun_induction replaceDots eo r with
  | case1 => simp at h
  | case2 xs ih =>
    simp only [List.mem_append] at h
    rcases h with h | h
    · exact Or.inl h
    · rcases ih h with h | h
      · exact Or.inl h
      · right; simp [h]
  | case3 x xs _ ih =>
    simp only [List.mem_cons] at h
    rcases h with h | h
    · right; simp [h]
    · rcases ih h with h | h
      · exact Or.inl h
      · right; simp [h]

end OE.Parser
