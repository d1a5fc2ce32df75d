import Verif.Lemmas.Einsum
import Verif.Lemmas.NpEinsum
import Verif.Model.Contract

/-! `_einsum` on a step's string: the renaming of labels to letters does not change the result. -/

namespace OE
open OE.Py OE.Spec OE.Parser OE.Contract
variable {R : Type}

/-- The operands with renamed labels. -/
def renameOps (f : Nat → Nat) (P : List (Str × Tensor R)) : List (Str × Tensor R) := P.map (fun p => (p.1.map f, p.2))

theorem occurs_rename {f : Nat → Nat} {P : List (Str × Tensor R)} {c : Nat} :
    Occurs (renameOps f P) c ↔ ∃ x, Occurs P x ∧ f x = c := by
  unfold Occurs renameOps
  constructor
  · rintro ⟨q, hq, hc⟩
    obtain ⟨p, hp, rfl⟩ := List.mem_map.mp hq
    obtain ⟨x, hx, rfl⟩ := List.mem_map.mp hc
    exact ⟨x, ⟨p, hp, hx⟩, rfl⟩
  · rintro ⟨x, ⟨p, hp, hx⟩, rfl⟩
    exact ⟨_, List.mem_map_of_mem hp, List.mem_map_of_mem hx⟩

theorem mem_zip_map_left {f : Nat → Nat} {t : List Nat} {s : List Nat} {c' d : Nat} :
    (c', d) ∈ (t.map f).zip s ↔ ∃ c, f c = c' ∧ (c, d) ∈ t.zip s := by
  induction t generalizing s with
  | nil => simp
  | cons a t ih =>
    cases s with
    | nil => simp
    | cons b s =>
      simp only [List.map_cons, List.zip_cons_cons, List.mem_cons, Prod.mk.injEq, ih]
      constructor
      · rintro (⟨rfl, rfl⟩ | ⟨c, h1, h2⟩)
        · exact ⟨a, rfl, Or.inl ⟨rfl, rfl⟩⟩
        · exact ⟨c, h1, Or.inr h2⟩
      · rintro ⟨c, rfl, ⟨rfl, rfl⟩ | h⟩
        · exact Or.inl ⟨rfl, rfl⟩
        · exact Or.inr ⟨c, rfl, h⟩

theorem hasDim_rename {f : Nat → Nat} {P : List (Str × Tensor R)} {c d : Nat} :
    HasDim (renameOps f P) c d ↔ ∃ x, HasDim P x d ∧ f x = c := by
  unfold HasDim renameOps
  constructor
  · rintro ⟨q, hq, hc⟩
    obtain ⟨p, hp, rfl⟩ := List.mem_map.mp hq
    obtain ⟨x, rfl, hx⟩ := mem_zip_map_left.mp hc
    exact ⟨x, ⟨p, hp, hx⟩, rfl⟩
  · rintro ⟨x, ⟨p, hp, hx⟩, rfl⟩
    exact ⟨_, List.mem_map_of_mem hp, mem_zip_map_left.mpr ⟨x, rfl, hx⟩⟩

theorem localSize_rename {f : Nat → Nat} {P : List (Str × Tensor R)} (hf : Set.InjOn f {c | Occurs P c})
    (h : Fits (localSize P) P) {c : Nat} (hc : Occurs P c) : localSize (renameOps f P) (f c) = localSize P c := by
  apply bdim_eq
  · intro d hd
    rw [mem_opDims, hasDim_rename] at hd
    obtain ⟨x, hx, he⟩ := hd
    have := hf hx.occurs hc he
    subst this
    exact h.dims x d hx
  · rw [mem_opDims, hasDim_rename]
    exact ⟨c, h.full c hc, rfl⟩

theorem fits_rename {f : Nat → Nat} {P : List (Str × Tensor R)} (hf : Set.InjOn f {c | Occurs P c})
    (h : Fits (localSize P) P) : Fits (localSize (renameOps f P)) (renameOps f P) := by
  refine ⟨?_, ?_, ?_, ?_⟩
  · intro q hq
    obtain ⟨p, hp, rfl⟩ := List.mem_map.mp hq
    simpa using h.rank p hp
  · intro q hq c d d' h1 h2
    obtain ⟨p, hp, rfl⟩ := List.mem_map.mp hq
    obtain ⟨x, rfl, hx⟩ := mem_zip_map_left.mp h1
    obtain ⟨y, hxy, hy⟩ := mem_zip_map_left.mp h2
    have hox : Occurs P x := ⟨p, hp, (List.of_mem_zip hx).1⟩
    have hoy : Occurs P y := ⟨p, hp, (List.of_mem_zip hy).1⟩
    have := hf hoy hox hxy
    subst this
    exact h.diag p hp y d d' hx hy
  · intro c d hd
    obtain ⟨x, hx, rfl⟩ := hasDim_rename.mp hd
    rw [localSize_rename hf h hx.occurs]
    exact h.dims x d hx
  · intro c hc
    obtain ⟨x, hx, rfl⟩ := occurs_rename.mp hc
    rw [localSize_rename hf h hx]
    exact hasDim_rename.mpr ⟨x, h.full x hx, rfl⟩

theorem sumOver_map [AddCommMonoid R] {size size' : Nat → Nat} {f : Nat → Nat} {l : List Nat} {F F' : (Nat → Nat) → R}
    {S : Set Nat} (hf : Set.InjOn f S) (hl : ∀ c ∈ l, c ∈ S) {e e' : Nat → Nat}
    (hs : ∀ c ∈ l, size' (f c) = size c)
    (hF : ∀ e e', (∀ c ∈ S, e' (f c) = e c) → F' e' = F e)
    (he : ∀ c ∈ S, c ∉ l → e' (f c) = e c) :
    sumOver size' (l.map f) F' e' = sumOver size l F e := by
  induction l generalizing e e' with
  | nil => exact hF e e' (fun c hc => he c hc (by simp))
  | cons a t ih =>
    simp only [List.map_cons, sumOver]
    rw [hs a (by simp)]
    apply Finset.sum_congr rfl
    intro i hi
    apply ih (fun c hc => hl c (by simp [hc])) (fun c hc => hs c (by simp [hc]))
    intro c hc hct
    by_cases hca : c = a
    · subst hca; rw [upd_same, upd_same]
    · have : f c ≠ f a := fun h => hca (hf hc (hl a (by simp)) h)
      rw [upd_ne _ _ _ _ hca, upd_ne _ _ _ _ this]
      exact he c hc (by simp [hca, hct])

variable [CommSemiring R]

theorem contraction_of_rename {f : Nat → Nat} {size : Nat → Nat} {P : List (Str × Tensor R)} {r : Str} {T : Tensor R}
    (hf : Set.InjOn f {c | Occurs P c}) (h : Fits (localSize P) P) (hr : ∀ c ∈ r, Occurs P c)
    (hs : ∀ c, Occurs P c → c ∉ r → localSize P c = size c)
    (hT : IsContraction (localSize (renameOps f P)) (renameOps f P) (r.map f) T) : IsContraction size P r T := by
  constructor
  · rw [hT.shape, List.map_map]
    apply List.map_congr_left
    intro c hc
    exact localSize_rename hf h (hr c hc)
  · intro env
    classical
    let g := Function.invFunOn f {c | Occurs P c}
    have hg : ∀ c, Occurs P c → g (f c) = c := fun c hc => hf.leftInvOn_invFunOn hc
    have h1 : r.map env = (r.map f).map (env ∘ g) := by
      rw [List.map_map]
      apply List.map_congr_left
      intro c hc
      simp [hg c (hr c hc)]
    have hmem : ∀ c, c ∈ innerLabels (P.map Prod.fst) r ↔ Occurs P c ∧ c ∉ r := by
      intro c; rw [mem_innerLabels]; simp [Occurs]
    have hmem' : ∀ c, c ∈ innerLabels ((renameOps f P).map Prod.fst) (r.map f) ↔ Occurs (renameOps f P) c ∧ c ∉ r.map f := by
      intro c; rw [mem_innerLabels]; simp [Occurs]
    have hinj : ∀ x ∈ innerLabels (P.map Prod.fst) r, ∀ y ∈ innerLabels (P.map Prod.fst) r, f x = f y → x = y :=
      fun x hx y hy e => hf ((hmem x).mp hx).1 ((hmem y).mp hy).1 e
    have hperm : (innerLabels ((renameOps f P).map Prod.fst) (r.map f)).Perm ((innerLabels (P.map Prod.fst) r).map f) := by
      rw [List.perm_ext_iff_of_nodup (innerLabels_nodup _ _) ((List.nodup_map_iff_inj_on (innerLabels_nodup _ _)).mpr hinj)]
      intro c
      rw [hmem', occurs_rename]
      constructor
      · rintro ⟨⟨x, hx, rfl⟩, hn⟩
        exact List.mem_map_of_mem ((hmem x).mpr ⟨hx, fun hxr => hn (List.mem_map_of_mem hxr)⟩)
      · intro hm0
        obtain ⟨x, hx, rfl⟩ := List.mem_map.mp hm0
        rw [hmem] at hx
        refine ⟨⟨x, hx.1, rfl⟩, ?_⟩
        intro hm
        obtain ⟨y, hy, he⟩ := List.mem_map.mp hm
        have := hf (hr y hy) hx.1 he
        subst this
        exact hx.2 hy
    rw [h1, hT.get, sumOver_perm hperm (innerLabels_nodup _ _)]
    apply sumOver_map (S := {c | Occurs P c}) hf
    · intro c hc; exact ((hmem c).mp hc).1
    · intro c hc
      rw [hmem] at hc
      rw [localSize_rename hf h hc.1, hs c hc.1 hc.2]
    · intro e e' he
      unfold prodVal renameOps
      rw [List.map_map]
      congr 1
      apply List.map_congr_left
      intro p hp
      simp only [Function.comp, List.map_map]
      congr 1
      apply List.map_congr_left
      intro c hc
      exact he c ⟨p, hp, hc⟩
    · intro c hc _
      simp [hg c hc]

theorem join_map (f : Nat → Nat) (sep : Str) (l : List Str) (h : sep.map f = sep) :
    (join sep l).map f = join sep (l.map (List.map f)) := by
  induction l with
  | nil => rfl
  | cons a t ih =>
    cases t with
    | nil => rfl
    | cons b u => simp only [join, List.map_append, List.map_cons, h] at ih ⊢; rw [ih]

/-- `np.einsum` on `",".join(terms) + "->" + r` when no label is punctuation. -/
theorem npEinsum_str {P : List (Str × Tensor R)} {r : Str} (hne : P ≠ []) (hl : ∀ c, Occurs P c → ¬ IsPunct c)
    (hr : ∀ c ∈ r, Occurs P c) (hv : hasValidEinsumCharsOnly (einsumStrOf (P.map Prod.fst) r) = true) :
    npEinsum (einsumStrOf (P.map Prod.fst) r) (P.map Prod.snd) = einsumCore (P.map Prod.fst) r (P.map Prod.snd) := by
  have hfree : ∀ t ∈ P.map Prod.fst, ∀ c ∈ t, ¬ IsPunct c := by
    intro t ht c hc
    obtain ⟨p, hp, rfl⟩ := List.mem_map.mp ht
    exact hl c ⟨p, hp, hc⟩
  have hj : ∀ c, IsPunct c → c ≠ cComma → c ∉ join [cComma] (P.map Prod.fst) := by
    intro c hp hn hm
    rcases mem_join _ _ _ hm with h | ⟨t, ht, hc⟩
    · exact hn (by simpa using h)
    · exact hfree t ht _ hc hp
  have hpr : ∀ c, IsPunct c → c ∉ r := fun c hp hm => hl _ (hr _ hm) hp
  have h1 : splitArrow (einsumStrOf (P.map Prod.fst) r) = [join [cComma] (P.map Prod.fst), r] :=
    splitArrow_two _ _ (hj _ (by simp [IsPunct]) (by decide)) (hpr _ (by simp [IsPunct]))
  rw [npEinsum_two hv h1 (hj _ (by simp [IsPunct]) (by decide)) (hj _ (by simp [IsPunct]) (by decide))
    (hj _ (by simp [IsPunct]) (by decide)) (hpr _ (by simp [IsPunct])), splitOn_join _ _ (by simpa using hne)]
  intro t ht hc
  exact hfree t ht _ hc (by simp [IsPunct])

/-- The call with the equation renamed by `convert_to_valid_einsum_chars`. -/
theorem convertCall_contraction {size : Nat → Nat} {P : List (Str × Tensor R)} {r : Str} (hne : P ≠ [])
    (h : Fits (localSize P) P) (hn : r.Nodup) (hr : ∀ c ∈ r, Occurs P c)
    (hs : ∀ c, Occurs P c → c ∉ r → localSize P c = size c) (hl : ∀ c, Occurs P c → ¬ IsPunct c) :
    (∃ T, npEinsum (convertToValidEinsumChars (einsumStrOf (P.map Prod.fst) r)) (P.map Prod.snd) = .ok T ∧ IsContraction size P r T) ∨
    (npEinsum (convertToValidEinsumChars (einsumStrOf (P.map Prod.fst) r)) (P.map Prod.snd) = .error .value ∧
      ∀ L : List Nat, (∀ c, Occurs P c → c ∈ L) → 52 < L.length) := by
  have hmemS : ∀ c, c ∈ einsumStrOf (P.map Prod.fst) r → IsPunct c ∨ Occurs P c := by
    intro c hc
    simp only [einsumStrOf, List.append_assoc, List.mem_append, List.mem_cons, List.not_mem_nil, or_false] at hc
    rcases hc with hc | (hc | hc) | hc
    · rcases mem_join _ _ _ hc with h | ⟨t, ht, hc⟩
      · left; simp at h; simp [IsPunct, h]
      · right
        obtain ⟨p, hp, rfl⟩ := List.mem_map.mp ht
        exact ⟨p, hp, hc⟩
    · left; simp [IsPunct, hc]
    · left; simp [IsPunct, hc]
    · right; exact hr c hc
  have hocc : ∀ c, Occurs P c → c ∈ einsumStrOf (P.map Prod.fst) r := by
    rintro c ⟨p, hp, hc⟩
    unfold einsumStrOf
    simp only [List.append_assoc, List.mem_append]
    left
    exact mem_join_of_mem _ _ _ p.1 (List.mem_map_of_mem hp) hc
  have hdot : cDot ∉ einsumStrOf (P.map Prod.fst) r := by
    intro hm
    simp only [einsumStrOf, List.append_assoc, List.mem_append, List.mem_cons, List.not_mem_nil, or_false] at hm
    rcases hm with hc | (hc | hc) | hc
    · rcases mem_join _ _ _ hc with h | ⟨t, ht, hc⟩
      · simp at h
      · obtain ⟨p, hp, rfl⟩ := List.mem_map.mp ht
        exact hl _ ⟨p, hp, hc⟩ (by simp [IsPunct])
    · omega
    · omega
    · exact hl _ (hr _ hc) (by simp [IsPunct])
  obtain ⟨⟨f, hf, heq⟩, hvalid⟩ := Props.C32_convert_to_valid_einsum_chars_partial _ hdot
  have hinj : Set.InjOn f {c | Occurs P c} := by
    apply hf.inj.mono
    intro c hc
    exact ⟨hocc c hc, hl c hc⟩
  have hstr : (einsumStrOf (P.map Prod.fst) r).map f = einsumStrOf ((renameOps f P).map Prod.fst) (r.map f) := by
    unfold einsumStrOf renameOps
    simp only [List.map_append, List.map_map]
    rw [join_map f _ _ (by simp [hf.fixes 44 (by simp [IsPunct])])]
    simp [hf.fixes 45 (by simp [IsPunct]), hf.fixes 62 (by simp [IsPunct]), Function.comp_def]
  have hsnd : P.map Prod.snd = (renameOps f P).map Prod.snd := by simp [renameOps, Function.comp_def]
  by_cases hv' : hasValidEinsumCharsOnly (convertToValidEinsumChars (einsumStrOf (P.map Prod.fst) r)) = true
  · left
    rw [heq, hstr] at hv' ⊢
    rw [hsnd, npEinsum_str (by simpa [renameOps] using hne) _ _ hv']
    · obtain ⟨T, hT, hc⟩ := einsumCore_contraction (size := localSize (renameOps f P)) (r := r.map f) (fits_rename hinj h)
        ((List.nodup_map_iff_inj_on hn).mpr (fun x hx y hy e => hinj (hr x hx) (hr y hy) e))
        (by
          intro c hc
          obtain ⟨x, hx, rfl⟩ := List.mem_map.mp hc
          exact occurs_rename.mpr ⟨x, hr x hx, rfl⟩)
        (fun _ _ _ => rfl)
      exact ⟨T, hT, contraction_of_rename hinj h hr hs hc⟩
    · intro c hc
      obtain ⟨x, hx, rfl⟩ := occurs_rename.mp hc
      exact hf.labels x ⟨hocc x hx, hl x hx⟩
    · intro c hc
      obtain ⟨x, hx, rfl⟩ := List.mem_map.mp hc
      exact occurs_rename.mpr ⟨x, hr x hx, rfl⟩
  · right
    refine ⟨?_, ?_⟩
    · unfold npEinsum
      rw [if_pos (by simpa using hv')]
    · intro L hL
      by_contra hlt
      apply hv'
      unfold hasValidEinsumCharsOnly
      rw [List.all_eq_true]
      intro c hc
      have := hvalid L (by
        intro c hc
        rcases hmemS c hc.1 with h | h
        · exact absurd h hc.2
        · exact hL c h) (by omega) c hc
      unfold isValidEinsumChar einsumSymbolsBase
      unfold Props.NumpyChar IsPunct at this
      simp only [List.mem_append, List.mem_map, List.mem_range, Bool.or_eq_true, decide_eq_true_eq, List.mem_cons,
        List.not_mem_nil, or_false]
      rcases this with h | h | h
      · left; left; exact ⟨c - 97, by omega, by omega⟩
      · left; right; exact ⟨c - 65, by omega, by omega⟩
      · right; omega

/-- The outcome of `_einsum` on a step's string. It fails exactly when the labels do not fit into the 52 letters
(never with at most 52 labels), and otherwise contracts. -/
theorem einsumCall_contraction {size : Nat → Nat} {P : List (Str × Tensor R)} {r : Str} (hne : P ≠ [])
    (h : Fits (localSize P) P) (hn : r.Nodup) (hr : ∀ c ∈ r, Occurs P c)
    (hs : ∀ c, Occurs P c → c ∉ r → localSize P c = size c) (hl : ∀ c, Occurs P c → ¬ IsPunct c) :
    (∃ T, einsumCall false (einsumStrOf (P.map Prod.fst) r) (P.map Prod.snd) = .ok T ∧ IsContraction size P r T) ∨
    (einsumCall false (einsumStrOf (P.map Prod.fst) r) (P.map Prod.snd) = .error .value ∧
      ∀ L : List Nat, (∀ c, Occurs P c → c ∈ L) → 52 < L.length) := by
  unfold einsumCall
  simp only [Bool.false_eq_true, if_false]
  by_cases hv : hasValidEinsumCharsOnly (einsumStrOf (P.map Prod.fst) r) = true
  · rw [if_pos hv, npEinsum_str hne hl hr hv]
    left
    exact einsumCore_contraction h hn hr hs
  · rw [if_neg hv]
    have harrow : countArrow (einsumStrOf (P.map Prod.fst) r) ≠ 0 := by
      unfold einsumStrOf
      have h1 : cDash ∉ join [cComma] (P.map Prod.fst) := by
        intro hm
        rcases mem_join _ _ _ hm with h | ⟨t, ht, hc⟩
        · simp at h
        · obtain ⟨p, hp, rfl⟩ := List.mem_map.mp ht
          exact hl _ ⟨p, hp, hc⟩ (by simp [IsPunct])
      have := countArrow_append (join [cComma] (P.map Prod.fst)) r h1
      simp only [List.append_assoc, List.cons_append, List.nil_append] at this ⊢
      omega
    rw [if_neg harrow]
    exact convertCall_contraction hne h hn hr hs hl

end OE
