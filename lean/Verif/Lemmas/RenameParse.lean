import Verif.Lemmas.RenamePath
import Verif.Props.Parser2

/-!
# Parsing a renamed equation, with ellipses and implicit outputs
-/

namespace OE.Rename
open OE OE.Py OE.Parser OE.Spec OE.Props

variable {σ : Nat ≃ Nat}

theorem perm_eq_fixed {c : Nat} (hc : σ c = c) (x : Nat) : σ x = c ↔ x = c := by
  constructor
  · intro h; exact σ.injective (h.trans hc.symm)
  · rintro rfl; exact hc

theorem countDots_map (hd : σ cDot = cDot) (s : Str) : countDots (s.map σ) = countDots s := by
  have h46 : ∀ x, σ x = 46 ↔ x = 46 := perm_eq_fixed hd
  fun_induction countDots s with
  | case1 => rfl
  | case2 xs ih =>
    have : σ 46 = 46 := hd
    simp only [List.map_cons, this, countDots, ih]
  | case3 y xs hne ih =>
    rw [List.map_cons, countDots, ih]
    intro ys h1 h2
    rw [h46] at h1
    match xs, h2 with
    | [_], h2 => simp at h2
    | a :: b :: zs, h2 =>
      simp only [List.map_cons, List.cons.injEq, h46] at h2
      exact hne zs h1 (by rw [h2.1, h2.2.1])

theorem replaceDots_map (hd : σ cDot = cDot) (new s : Str) : replaceDots (new.map σ) (s.map σ) = (replaceDots new s).map σ := by
  have h46 : ∀ x, σ x = 46 ↔ x = 46 := perm_eq_fixed hd
  fun_induction replaceDots new s with
  | case1 => rfl
  | case2 xs ih =>
    have : σ 46 = 46 := hd
    simp only [List.map_cons, this, replaceDots, ih, List.map_append]
  | case3 y xs hne ih =>
    rw [List.map_cons, replaceDots, ih, List.map_cons]
    intro ys h1 h2
    rw [h46] at h1
    match xs, h2 with
    | [_], h2 => simp at h2
    | a :: b :: zs, h2 =>
      simp only [List.map_cons, List.cons.injEq, h46] at h2
      exact hne zs h1 (by rw [h2.1, h2.2.1])

theorem lastN_map (n : Nat) (l : Str) : lastN n (l.map σ) = (lastN n l).map σ := by
  unfold lastN
  rw [List.length_map, List.map_drop]

theorem expandTerms_ren (hd : σ cDot = cDot) (E : Str) (shapes : List Shape) (l : List (Nat × Str)) : ∀ (acc : List Str) (longest : Nat),
    expandTerms (E.map σ) shapes (l.map (fun p => (p.1, p.2.map σ))) (acc.map (List.map σ)) longest =
      (expandTerms E shapes l acc longest).map (fun p => (p.1.map (List.map σ), p.2)) := by
  induction l with
  | nil => intro acc longest; simp only [List.map_nil, expandTerms, Except.map, List.map_reverse]
  | cons p l ih =>
    obtain ⟨num, sub⟩ := p
    intro acc longest
    have hc : (sub.map σ).count cDot = sub.count cDot := by
      conv_lhs => rw [← hd]
      exact List.count_map_of_injective _ _ σ.injective _
    have he : ∀ shape, ellipseCount shape (sub.map σ) = ellipseCount shape sub := by
      intro shape; unfold ellipseCount; rw [List.length_map]
    have h0 := replaceDots_map hd [] sub
    rw [List.map_nil] at h0
    have ih' : ∀ (t : Str) (L : Nat), expandTerms (E.map σ) shapes (l.map (fun p => (p.1, p.2.map σ))) (t.map σ :: acc.map (List.map σ)) L =
        (expandTerms E shapes l (t :: acc) L).map (fun p => (p.1.map (List.map σ), p.2)) := fun t L => ih (t :: acc) L
    simp only [List.map_cons, expandTerms, mem_map_fixed hd, hc, countDots_map hd, he, h0, lastN_map, replaceDots_map hd, ih']
    split
    · split
      · rfl
      · cases shapes[num]? with
        | none => rfl
        | some shape =>
          simp only
          split
          · rfl
          · split <;> rfl
    · rfl

theorem finishParse_ren (hσ : Fixes σ) {a b b' : Str} {n : Nat} {inp out : Str} (ha : cDash ∉ a) (hb : cGt ∉ b) (hp : b'.Perm (b.map σ))
    (h : finishParse (a ++ [cDash, cGt] ++ b) n = .ok (inp, out)) :
    ∃ out', finishParse (a.map σ ++ [cDash, cGt] ++ b') n = .ok (inp.map σ, out') ∧ out'.Perm (out.map σ) := by
  unfold finishParse at h ⊢
  rw [splitArrow_two _ _ ha hb] at h
  rw [splitArrow_two _ _ (by rwa [mem_map_fixed hσ.dash]) (by rw [hp.mem_iff]; rwa [mem_map_fixed hσ.gt])]
  simp only [bind, Except.bind] at h ⊢
  rcases checkOutput_cases a b with hck | hck
  · rw [hck] at h
    simp only at h
    split at h
    · cases h
    · rename_i hn
      simp only [Except.ok.injEq, Prod.mk.injEq] at h
      obtain ⟨rfl, rfl⟩ := h
      have hck' : checkOutput (a.map σ) b' = .ok () := by
        rw [checkOutput_ok_iff] at hck ⊢
        refine ⟨hp.nodup_iff.mpr (hck.1.map σ.injective), fun c hc => ?_⟩
        obtain ⟨x, hx, rfl⟩ := List.mem_map.mp (hp.mem_iff.mp hc)
        exact List.mem_map_of_mem (hck.2 x hx)
      rw [hck']
      simp only [splitOn_map hσ.comma, List.length_map]
      rw [if_neg hn]
      exact ⟨b', rfl, hp⟩
  · rw [hck] at h; cases h

/-- The implicit output of a renamed equation is the renamed implicit output, in another order. -/
theorem findOutputStr_ren (hc : σ cComma = cComma) (s : Str) : (findOutputStr (s.map σ)).Perm ((findOutputStr s).map σ) := by
  rw [List.perm_ext_iff_of_nodup ((findOutputStr_strict _).imp (fun h => Nat.ne_of_lt h))
    (List.Nodup.map σ.injective ((findOutputStr_strict _).imp (fun h => Nat.ne_of_lt h)))]
  intro c
  rw [mem_findOutputStr, List.mem_map]
  constructor
  · rintro ⟨h1, h2⟩
    have hm : c ∈ s.map σ := by rw [← List.count_pos_iff]; omega
    obtain ⟨a, ha, rfl⟩ := List.mem_map.mp hm
    refine ⟨a, (mem_findOutputStr _ _).mpr ⟨?_, ?_⟩, rfl⟩
    · rintro rfl; exact h1 hc
    · rwa [List.count_map_of_injective _ _ σ.injective] at h2
  · rintro ⟨a, ha, rfl⟩
    obtain ⟨h1, h2⟩ := (mem_findOutputStr _ _).mp ha
    refine ⟨?_, ?_⟩
    · intro h; apply h1; exact σ.injective (h.trans hc.symm)
    · rwa [List.count_map_of_injective _ _ σ.injective]

/-- The labels that `parse_einsum_input` takes for the dimensions of the ellipses. -/
def freshFor (t : Str) (m : Nat) : Str := genUnusedSymbols (removeArrow (removeChar cComma (removeChar cDot t))) m

theorem freshFor_spec (t : Str) (m : Nat) : (freshFor t m).length = m ∧ (freshFor t m).Nodup ∧ ∀ c ∈ freshFor t m, c ∉ t ∧ ¬ IsPunct c := by
  refine ⟨genUnused_length _ _, genUnused_nodup _ _, fun c hc => ?_⟩
  obtain ⟨hnu, i, rfl⟩ := genUnused_fresh _ _ c hc
  have hp := getSymbol_not_isPunct i
  refine ⟨?_, hp⟩
  intro hct
  apply hnu
  unfold IsPunct at hp
  simp only [not_or] at hp
  rw [mem_removeArrow _ hp.2.2.1 hp.2.2.2, mem_removeChar, mem_removeChar]
  exact ⟨⟨hct, hp.1⟩, hp.2.1⟩

theorem splitArrow_ren (hσ : Fixes σ) {t : Str} (hb : badArrow t = false) : splitArrow (t.map σ) = (splitArrow t).map (List.map σ) := by
  rcases split_cases t hb with ⟨a, b, rfl, hsp, h1, h2, h3, h4⟩ | ⟨hsp, h1, h2⟩
  · rw [hsp, arrow_map hσ, splitArrow_two _ _ (by rwa [mem_map_fixed hσ.dash]) (by rwa [mem_map_fixed hσ.gt])]
    rfl
  · rw [hsp, splitArrow_of_free _ (by rwa [mem_map_fixed hσ.gt])]
    rfl

theorem zipIdx_swap_map (l : List Str) : (l.map (List.map σ)).zipIdx.map Prod.swap = (l.zipIdx.map Prod.swap).map (fun p => (p.1, p.2.map σ)) := by
  rw [List.zipIdx_map, List.map_map, List.map_map]
  rfl

/-- Parsing under a permutation that keeps the punctuation and takes the labels of the ellipses to those of the renamed equation. -/
theorem parse_ren (hσ : Fixes σ) (hd : σ cDot = cDot) {t : Str} (hsp : cSpace ∉ t) (hsp' : cSpace ∉ t.map σ) {shapes : List Shape}
    (hE : ∀ m, (shapes.map List.length).max? = some m → (freshFor t m).map σ = freshFor (t.map σ) m) {inp out : Str}
    (h : parseEinsum t shapes = .ok (inp, out)) :
    ∃ out', parseEinsum (t.map σ) shapes = .ok (inp.map σ, out') ∧ out'.Perm (out.map σ) := by
  unfold parseEinsum at h ⊢
  rw [removeChar_of_not_mem hsp] at h
  rw [removeChar_of_not_mem hsp']
  simp only [badArrow_map hσ, mem_map_fixed hd, bind, Except.bind] at h ⊢
  cases hb : badArrow t with
  | true => rw [hb] at h; cases h
  | false =>
    simp only [hb, Bool.false_eq_true, if_false] at h ⊢
    by_cases hdot : cDot ∈ t
    · simp only [if_pos hdot] at h ⊢
      unfold expandEllipses at h ⊢
      cases hm : (shapes.map List.length).max? with
      | none => rw [hm] at h; cases h
      | some m =>
        simp only [hm, bind, Except.bind] at h ⊢
        have hE' := hE m hm
        unfold freshFor at hE'
        rw [← hE']
        rcases split_cases t hb with ⟨a, b, rfl, hs, h1, h2, h3, h4⟩ | ⟨hs, h1, h2⟩
        · rw [splitArrow_ren hσ hb]
          rw [hs] at h ⊢
          simp only [List.map_cons, List.map_nil, splitOn_map hσ.comma, zipIdx_swap_map] at h ⊢
          have he := expandTerms_ren hd (genUnusedSymbols (removeArrow (removeChar cComma (removeChar cDot (a ++ [cDash, cGt] ++ b)))) m) shapes
            ((splitOn cComma a).zipIdx.map Prod.swap) [] 0
          rw [List.map_nil] at he
          rw [he]
          cases hterms : expandTerms (genUnusedSymbols (removeArrow (removeChar cComma (removeChar cDot (a ++ [cDash, cGt] ++ b)))) m) shapes
              ((splitOn cComma a).zipIdx.map Prod.swap) [] 0 with
          | error e => rw [hterms] at h; cases h
          | ok r =>
            obtain ⟨terms, L⟩ := r
            rw [hterms] at h
            obtain ⟨E, ks, hEdef, e1, e2, e3, e4, e5, e6, e7, e8, e9, e10⟩ := ellipsis_core _ shapes m hm a h1 h2 terms L hterms
            simp only [Except.map, ← hEdef] at h ⊢
            have heo : (if L = 0 then [] else lastN L (E.map σ)) = (if L = 0 then [] else lastN L E).map σ := by
              split
              · rfl
              · rw [lastN_map]
            rw [heo, ← join_map hσ, replaceDots_map hd]
            refine finishParse_ren hσ (fun hc => (e10 _ hc).1 rfl) ?_ (List.Perm.refl _) h
            intro hc
            rcases mem_replaceDots _ _ hc with hc | hc
            · obtain ⟨_, p, hp⟩ := e9
              exact (e2 cGt (by rw [hp]; simp [hc])).2 (Or.inr (Or.inr (Or.inr rfl)))
            · exact h4 hc
        · rw [splitArrow_ren hσ hb]
          rw [hs] at h ⊢
          simp only [List.map_cons, List.map_nil, splitOn_map hσ.comma, zipIdx_swap_map] at h ⊢
          have he := expandTerms_ren hd (genUnusedSymbols (removeArrow (removeChar cComma (removeChar cDot t))) m) shapes
            ((splitOn cComma t).zipIdx.map Prod.swap) [] 0
          rw [List.map_nil] at he
          rw [he]
          cases hterms : expandTerms (genUnusedSymbols (removeArrow (removeChar cComma (removeChar cDot t))) m) shapes
              ((splitOn cComma t).zipIdx.map Prod.swap) [] 0 with
          | error e => rw [hterms] at h; cases h
          | ok r =>
            obtain ⟨terms, L⟩ := r
            rw [hterms] at h
            obtain ⟨E, ks, hEdef, e1, e2, e3, e4, e5, e6, e7, e8, e9, e10⟩ := ellipsis_core _ shapes m hm t h1 h2 terms L hterms
            simp only [Except.map, ← hEdef] at h ⊢
            have heo : (if L = 0 then [] else lastN L (E.map σ)) = (if L = 0 then [] else lastN L E).map σ := by
              split
              · rfl
              · rw [lastN_map]
            rw [heo, ← join_map hσ]
            generalize hq : (if L = 0 then [] else lastN L E) = eo at *
            refine finishParse_ren hσ (fun hc => (e10 _ hc).1 rfl) ?_ ?_ h
            · intro hc
              rcases List.mem_append.mp hc with hc | hc
              · obtain ⟨_, p, hp⟩ := e9
                exact (e2 cGt (by rw [hp]; simp [hc])).2 (Or.inr (Or.inr (Or.inr rfl)))
              · rw [sortedSet_mem, List.mem_filter, mem_findOutputStr] at hc
                have : cGt ∈ join [cComma] terms := by rw [← List.count_pos_iff]; omega
                exact (e10 _ this).2.1 rfl
            · rw [List.map_append]
              apply List.Perm.append_left
              rw [List.perm_ext_iff_of_nodup (sortedSet_nodup _) ((sortedSet_nodup _).map σ.injective)]
              intro c
              rw [sortedSet_mem, List.mem_filter, (findOutputStr_ren hσ.comma _).mem_iff]
              simp only [List.mem_map, sortedSet_mem, List.mem_filter, decide_eq_true_eq, not_exists, not_and]
              constructor
              · rintro ⟨⟨x, hx, rfl⟩, hn⟩
                exact ⟨x, ⟨hx, fun hx' => hn x hx' rfl⟩, rfl⟩
              · rintro ⟨x, ⟨hx, hn⟩, rfl⟩
                refine ⟨⟨x, hx, rfl⟩, fun y hy hyx => ?_⟩
                rw [σ.injective hyx] at hy
                exact hn hy
    · simp only [if_neg hdot] at h ⊢
      rcases split_cases t hb with ⟨a, b, rfl, hs, h1, h2, h3, h4⟩ | ⟨hs, h1, h2⟩
      · rw [arrow_map hσ]
        exact finishParse_ren hσ h1 h4 (List.Perm.refl _) h
      · unfold finishParse at h ⊢
        rw [splitArrow_ren hσ hb]
        rw [hs] at h ⊢
        simp only [List.map_cons, List.map_nil, bind, Except.bind] at h ⊢
        rcases checkOutput_cases t (findOutputStr t) with hck | hck
        · rw [hck] at h
          simp only at h
          split at h
          · cases h
          · rename_i hn
            simp only [Except.ok.injEq, Prod.mk.injEq] at h
            obtain ⟨rfl, rfl⟩ := h
            have hp := findOutputStr_ren hσ.comma t
            have hck' : checkOutput (t.map σ) (findOutputStr (t.map σ)) = .ok () := by
              rw [checkOutput_ok_iff] at hck ⊢
              refine ⟨hp.nodup_iff.mpr (hck.1.map σ.injective), fun c hc => ?_⟩
              obtain ⟨x, hx, rfl⟩ := List.mem_map.mp (hp.mem_iff.mp hc)
              exact List.mem_map_of_mem (hck.2 x hx)
            rw [hck']
            simp only [splitOn_map hσ.comma, List.length_map]
            rw [if_neg hn]
            exact ⟨_, rfl, hp⟩
        · rw [hck] at h; cases h

end OE.Rename
