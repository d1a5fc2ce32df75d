import Verif.Props.Parser
import Verif.Lemmas.Ellipsis

/-!
# Properties of the parser utilities: C35 – C37
-/

namespace OE.Props
open OE OE.Py OE.Parser OE.Spec

theorem join_eq_intercalate (sep : Str) (l : List Str) : join sep l = List.intercalate sep l := by
  induction l with
  | nil => rfl
  | cons a t ih =>
    cases t with
    | nil => simp [join, List.intercalate]
    | cons b u =>
      simp only [join, ih]
      simp [List.intercalate]

/-! ## C35 ellipsis expansion -/

theorem foldl_max_spec (ks : List Nat) (m : Nat) :
    (ks.foldl max m = m ∨ ks.foldl max m ∈ ks) ∧ m ≤ ks.foldl max m ∧ ∀ k ∈ ks, k ≤ ks.foldl max m := by
  induction ks generalizing m with
  | nil => simp
  | cons k ks ih =>
    obtain ⟨h1, h2, h3⟩ := ih (max m k)
    simp only [List.foldl_cons]
    refine ⟨?_, by omega, ?_⟩
    · rcases h1 with h1 | h1
      · rw [h1]
        rcases Nat.le_total m k with h | h
        · right; simp [Nat.max_eq_right h]
        · left; exact Nat.max_eq_left h
      · right; simp [h1]
    · intro x hx
      rcases List.mem_cons.1 hx with rfl | hx
      · omega
      · exact h3 x hx

/-- Splitting the equation at its arrow, as the code does it. -/
theorem split_cases (t : Str) (hb : badArrow t = false) :
    (∃ a b, t = a ++ [cDash, cGt] ++ b ∧ splitArrow t = [a, b] ∧ cDash ∉ a ∧ cGt ∉ a ∧ cDash ∉ b ∧ cGt ∉ b) ∨
    (splitArrow t = [t] ∧ cDash ∉ t ∧ cGt ∉ t) := by
  rw [badArrow_false_iff] at hb
  rcases hb with ⟨h1, h2⟩ | ⟨a, b, rfl, h1, h2, h3, h4⟩
  · right; exact ⟨splitArrow_of_free t h2, h1, h2⟩
  · left; exact ⟨a, b, rfl, splitArrow_two a b h1 h4, h1, h2, h3, h4⟩

/-- The core of C35: what `expandEllipses` followed by the final checks produces, given the two
sides of the arrow. -/
theorem ellipsis_core (t : Str) (shapes : List Shape) (m : Nat) (hm : (shapes.map List.length).max? = some m)
    (lhs : Str) (h1 : cDash ∉ lhs) (h2 : cGt ∉ lhs)
    (terms : List Str) (L : Nat)
    (ht : expandTerms (genUnusedSymbols (removeArrow (removeChar cComma (removeChar cDot t))) m) shapes
      ((splitOn cComma lhs).zipIdx.map Prod.swap) [] 0 = .ok (terms, L)) :
    ∃ (E : List Nat) (ks : List Nat),
      E = genUnusedSymbols (removeArrow (removeChar cComma (removeChar cDot t))) m ∧
      E.Nodup ∧ (∀ c ∈ E, c ∉ t ∧ ¬ IsPunct c) ∧
      IsSplit (splitOn cComma lhs) lhs ∧ IsSplit terms (join [cComma] terms) ∧
      (splitOn cComma lhs).length = terms.length ∧ ks.length = terms.length ∧
      (∀ (i : Nat) (term term' : Str) (k : Nat) (shape : Shape), (splitOn cComma lhs)[i]? = some term → terms[i]? = some term' → ks[i]? = some k →
        shapes[i]? = some shape → ExpandTerm E shape.length term term' k) ∧
      (L ∈ ks ∧ ∀ k ∈ ks, k ≤ L) ∧ IsSuffixOfLength L E (if L = 0 then [] else lastN L E) ∧
      (∀ c ∈ join [cComma] terms, c ≠ cDash ∧ c ≠ cGt ∧ c ≠ cDot) := by
  set E := genUnusedSymbols (removeArrow (removeChar cComma (removeChar cDot t))) m with hEdef
  have hElen : E.length = m := genUnused_length _ _
  have hEsym : ∀ c ∈ E, c ∉ t ∧ ¬ IsPunct c := by
    intro c hc
    obtain ⟨hnu, i, rfl⟩ := genUnused_fresh _ _ c hc
    have hp := getSymbol_not_isPunct i
    refine ⟨?_, hp⟩
    intro hct
    apply hnu
    unfold IsPunct at hp
    simp only [not_or] at hp
    rw [mem_removeArrow _ hp.2.2.1 hp.2.2.2, mem_removeChar, mem_removeChar]
    exact ⟨⟨hct, hp.1⟩, hp.2.1⟩
  have hrank : ∀ s ∈ shapes, s.length ≤ E.length := by
    intro s hs
    rw [hElen]
    have := (List.max?_eq_some_iff.1 hm).2
    exact this _ (List.mem_map_of_mem hs)
  obtain ⟨ts', ks, hout, hl1, hl2, hpt, hL⟩ := expandTerms_spec E shapes hrank _ _ _ _ _ _ ht
  simp only [List.reverse_nil, List.nil_append] at hout
  subst hout
  have hne : splitOn cComma lhs ≠ [] := splitOn_ne_nil _ _
  have hne' : terms ≠ [] := by
    intro h; rw [h] at hl1; simp only [List.length_nil] at hl1
    exact hne (List.eq_nil_of_length_eq_zero hl1.symm)
  have hmemterm : ∀ term' ∈ terms, ∀ c ∈ term', c ∈ E ∨ (c ≠ cDot ∧ ∃ u ∈ splitOn cComma lhs, c ∈ u) := by
    intro term' hterm' c hc
    obtain ⟨j, hj, rfl⟩ := List.getElem_of_mem hterm'
    rcases hpt j (by omega) hj (by omega) with ⟨hd, he, _⟩ | ⟨shape, _, hx⟩
    · right
      rw [he] at hc
      exact ⟨fun e => hd (e ▸ hc), _, List.getElem_mem _, hc⟩
    · rcases expandTerm_mem hx hc with h | h
      · right; exact ⟨h.2, _, List.getElem_mem _, h.1⟩
      · left; exact h
  have hlhsmem : ∀ u ∈ splitOn cComma lhs, ∀ c ∈ u, c ∈ lhs := by
    intro u hu c hc
    have := mem_join_of_mem [cComma] (splitOn cComma lhs) c u hu hc
    rwa [join_splitOn] at this
  have hcomma : ∀ term' ∈ terms, cComma ∉ term' := by
    intro term' hterm' hc
    rcases hmemterm term' hterm' _ hc with h | ⟨_, u, hu, hcu⟩
    · exact (hEsym _ h).2 (Or.inr (Or.inl rfl))
    · exact splitOn_mem_free cComma lhs u hu hcu
  have hsplit' : IsSplit terms (join [cComma] terms) :=
    ⟨hne', (join_eq_intercalate _ _).symm, hcomma⟩
  have hLmem : L ∈ ks := by
    have := (foldl_max_spec ks 0).1
    rw [← hL] at this
    rcases this with h | h
    · -- L = 0: then every entry is 0 and ks is non-empty
      have hks : ks ≠ [] := by
        intro hk; rw [hk] at hl2; simp only [List.length_nil] at hl2
        exact hne (List.eq_nil_of_length_eq_zero hl2.symm)
      obtain ⟨k, rest, rfl⟩ := List.exists_cons_of_ne_nil hks
      have hle := (foldl_max_spec (k :: rest) 0).2.2 k (by simp)
      rw [← hL, h] at hle
      simp only [List.mem_cons]
      left; omega
    · exact h
  refine ⟨E, ks, rfl, genUnused_nodup _ _, hEsym,
    ⟨hne, by rw [← join_eq_intercalate, join_splitOn], splitOn_mem_free _ _⟩, hsplit', by omega, by omega, ?_,
    ⟨hLmem, ?_⟩, ?_, ?_⟩
  · intro i term term' k shape g1 g2 g3 g4
    have hi1 := List.getElem?_eq_some_iff.1 g1
    have hi2 := List.getElem?_eq_some_iff.1 g2
    have hi3 := List.getElem?_eq_some_iff.1 g3
    obtain ⟨p1, rfl⟩ := hi1
    obtain ⟨p2, rfl⟩ := hi2
    obtain ⟨p3, rfl⟩ := hi3
    rcases hpt i p1 p2 p3 with ⟨hd, he, hk0⟩ | ⟨shape', hs', hx⟩
    · rw [he, hk0]; exact ExpandTerm.plain _ hd
    · rw [Nat.zero_add, g4] at hs'
      cases hs'
      exact hx
  · intro k hk
    rw [hL]; exact (foldl_max_spec ks 0).2.2 k hk
  · -- the longest ellipsis fits in E
    obtain ⟨j, hj, hjk⟩ := List.getElem_of_mem hLmem
    have hLle : L ≤ E.length := by
      rcases hpt j (by omega) (by omega) hj with ⟨_, _, hk0⟩ | ⟨shape', hs', hx⟩
      · omega
      · rw [hjk] at hx
        exact expandTerm_le hx
    split
    · rename_i h0; subst h0; exact ⟨rfl, E, by simp⟩
    · exact lastN_suffix _ _ hLle
  · intro c hc
    rcases mem_join _ _ _ hc with h | ⟨term', hterm', hct⟩
    · simp only [List.mem_singleton] at h; subst h; omega
    · rcases hmemterm term' hterm' c hct with h | ⟨hd, u, hu, hcu⟩
      · have hp := (hEsym c h).2
        unfold IsPunct at hp
        simp only [not_or] at hp
        exact ⟨hp.2.2.1, hp.2.2.2, hp.1⟩
      · have := hlhsmem u hu c hcu
        exact ⟨fun e => h1 (e ▸ this), fun e => h2 (e ▸ this), hd⟩

/-- C35. Whenever `parse_einsum_input` accepts an equation with ellipses, its result is an expansion as
specified by `EllipsisParse`. -/
theorem C35_ellipsis_expansion (s : Str) (shapes : List Shape) (inp out : Str) (hdot : cDot ∈ s)
    (h : parseEinsum s shapes = .ok (inp, out)) :
    EllipsisParse (s.filter (· ≠ cSpace)) shapes inp out := by
  have hs : s.filter (· ≠ cSpace) = removeChar cSpace s := rfl
  rw [hs]
  set t := removeChar cSpace s with ht
  have hdt : cDot ∈ t := mem_removeChar.2 ⟨hdot, by omega⟩
  have harrow : S "->" = [cDash, cGt] := by decide
  unfold parseEinsum at h
  simp only [← ht] at h
  split at h
  · cases h
  rename_i hb
  have hbf : badArrow t = false := by simpa using hb
  unfold expandEllipses at h
  cases hm : (shapes.map List.length).max? with
  | none => simp only [hm, bind, Except.bind] at h; cases h
  | some m =>
    simp only [hm, bind, Except.bind] at h
    rcases split_cases t hbf with ⟨a, b, hab, hsp, h1, h2, h3, h4⟩ | ⟨hsp, h1, h2⟩
    · rw [hsp] at h
      simp only at h
      cases hterms : expandTerms (genUnusedSymbols (removeArrow (removeChar cComma (removeChar cDot t))) m) shapes
          ((splitOn cComma a).zipIdx.map Prod.swap) [] 0 with
      | error e => rw [hterms] at h; cases h
      | ok r =>
        obtain ⟨terms, L⟩ := r
        rw [hterms] at h
        obtain ⟨E, ks, hE, e1, e2, e3, e4, e5, e6, e7, e8, e9, e10⟩ :=
          ellipsis_core t shapes m hm a h1 h2 terms L hterms
        simp only [← hE, finishParse, bind, Except.bind] at h
        set eo := (if L = 0 then [] else lastN L E) with heo
        have hgt : cGt ∉ replaceDots eo b := by
          intro hc
          rcases mem_replaceDots _ _ hc with hc | hc
          · obtain ⟨_, p, hp⟩ := e9
            exact (e2 cGt (by rw [hp]; simp [hc])).2 (Or.inr (Or.inr (Or.inr rfl)))
          · exact h4 hc
        have hdash : cDash ∉ join [cComma] terms := fun hc => (e10 _ hc).1 rfl
        rw [splitArrow_two _ _ hdash hgt] at h
        simp only at h
        rcases checkOutput_cases (join [cComma] terms) (replaceDots eo b) with hck | hck
        · rw [hck] at h
          simp only at h
          split at h
          · cases h
          · rename_i hn
            simp only [ne_eq, not_not] at hn
            rw [splitOn_join cComma terms e4.1 e4.2.2] at hn
            simp only [Except.ok.injEq, Prod.mk.injEq] at h
            obtain ⟨hinp, hout⟩ := h
            have hck' := (checkOutput_ok_iff _ _).1 hck
            rw [hinp] at e4 hck' e10
            rw [hout] at hck'
            refine ⟨E, a, splitOn cComma a, terms, ks, L, eo, e1, e2, e3, e4, by omega, hn, by omega,
              e7, e8, e9, hck'.1, hck'.2, Or.inl ⟨b, by rw [harrow]; exact hab, ?_⟩, h1, h2⟩
            rw [← hout]
            apply replaceDots_expandOut
            intro hc
            rw [hout] at hc
            exact (e10 _ (hck'.2 _ hc)).2.2 rfl
        · rw [hck] at h; cases h
    · rw [hsp] at h
      simp only at h
      cases hterms : expandTerms (genUnusedSymbols (removeArrow (removeChar cComma (removeChar cDot t))) m) shapes
          ((splitOn cComma t).zipIdx.map Prod.swap) [] 0 with
      | error e => rw [hterms] at h; cases h
      | ok r =>
        obtain ⟨terms, L⟩ := r
        rw [hterms] at h
        obtain ⟨E, ks, hE, e1, e2, e3, e4, e5, e6, e7, e8, e9, e10⟩ :=
          ellipsis_core t shapes m hm t h1 h2 terms L hterms
        simp only [← hE, finishParse, bind, Except.bind] at h
        set eo := (if L = 0 then [] else lastN L E) with heo
        set rest := sortedSet ((findOutputStr (join [cComma] terms)).filter (fun c => decide (c ∉ eo))) with hrest
        have hmemrest : ∀ c, c ∈ rest ↔ c ∉ eo ∧ c ≠ cComma ∧ (join [cComma] terms).count c = 1 := by
          intro c
          rw [hrest, sortedSet_mem, List.mem_filter, mem_findOutputStr]
          simp only [decide_eq_true_eq]
          tauto
        have hgt : cGt ∉ eo ++ rest := by
          intro hc
          rcases List.mem_append.1 hc with hc | hc
          · obtain ⟨_, p, hp⟩ := e9
            exact (e2 cGt (by rw [hp]; simp [hc])).2 (Or.inr (Or.inr (Or.inr rfl)))
          · have := (hmemrest _).1 hc
            exact (e10 _ (List.count_pos_iff.1 (by omega))).2.1 rfl
        have hdash : cDash ∉ join [cComma] terms := fun hc => (e10 _ hc).1 rfl
        rw [splitArrow_two _ _ hdash hgt] at h
        simp only at h
        rcases checkOutput_cases (join [cComma] terms) (eo ++ rest) with hck | hck
        · rw [hck] at h
          simp only at h
          split at h
          · cases h
          · rename_i hn
            simp only [ne_eq, not_not] at hn
            rw [splitOn_join cComma terms e4.1 e4.2.2] at hn
            simp only [Except.ok.injEq, Prod.mk.injEq] at h
            obtain ⟨hinp, hout⟩ := h
            have hck' := (checkOutput_ok_iff _ _).1 hck
            rw [hinp] at e4 hck' e10 hmemrest
            rw [hout] at hck'
            exact ⟨E, t, splitOn cComma t, terms, ks, L, eo, e1, e2, e3, e4, by omega, hn, by omega,
              e7, e8, e9, hck'.1, hck'.2, Or.inr ⟨rfl, rest, hout.symm, sortedSet_strict _, hmemrest⟩, h1, h2⟩
        · rw [hck] at h; cases h

example : parseEinsum (S "...a,...a->...") [[4, 4], [4, 4, 4]] = .ok (S "da,cda", S "cd") := by decide
example : parseEinsum (S "a...,...b") [[4, 4], [4, 4, 4]] = .ok (S "ae,deb", S "deab") := by decide

end OE.Props
