import Verif.Lemmas.EinsumCall

/-! The `tensordot` + `transpose` step contracts like the einsum step. -/

namespace OE
open OE.Py OE.Spec OE.Parser OE.Contract
variable {R : Type}

theorem range_eq_map_idxOf {t : List Nat} (h : t.Nodup) : List.range t.length = t.map t.idxOf := by
  apply List.ext_getElem
  · simp
  · intro i h1 h2
    simp only [List.length_map] at h2
    simp only [List.getElem_range, List.getElem_map]
    rw [h.idxOf_getElem i h2]

theorem idxOf_map_inj {f : Nat → Nat} {l : List Nat} {c : Nat} (h : ∀ x ∈ l, f x = f c → x = c) :
    (l.map f).idxOf (f c) = l.idxOf c := by
  induction l with
  | nil => rfl
  | cons a t ih =>
    simp only [List.map_cons, List.idxOf_cons]
    by_cases hac : a = c
    · subst hac; simp
    · have : f a ≠ f c := fun e => hac (h a (by simp) e)
      have h1 : (f a == f c) = false := by simpa using this
      have h2 : (a == c) = false := by simpa using hac
      rw [h1, h2]
      simp only [cond_false]
      rw [ih (fun x hx => h x (by simp [hx]))]

theorem idxOf_inj_mem {t : List Nat} {x c : Nat} (hx : x ∈ t) (h : t.idxOf x = t.idxOf c) : x = c := by
  exact (List.idxOf_inj hx).mp h

theorem idxOf_map_idxOf {t L : List Nat} {c : Nat} (h : ∀ x ∈ L, x ∈ t) : (L.map t.idxOf).idxOf (t.idxOf c) = L.idxOf c :=
  idxOf_map_inj (f := t.idxOf) (fun _ hx e => idxOf_inj_mem (h _ hx) e)

theorem getD_map_idxOf {l : List Nat} {g : Nat → Nat} {c : Nat} (hc : c ∈ l) : (l.map g).getD (l.idxOf c) 0 = g c := by
  have := envOf_map (g := g) hc
  exact this

/-- The dimension of label `c` in an operand. -/
def dimOf (t : Str) (T : Tensor R) (c : Nat) : Nat := T.shape.getD (t.idxOf c) 0

theorem shape_eq_map_dimOf {t : Str} {T : Tensor R} (hn : t.Nodup) (hlen : t.length = T.shape.length) :
    T.shape = t.map (dimOf t T) := by
  apply List.ext_getElem
  · simp [hlen]
  · intro i h1 h2
    simp only [List.getElem_map, dimOf]
    rw [hn.idxOf_getElem i (by omega)]
    simp [List.getD_eq_getElem?_getD, h1]

theorem dimOf_mem {t : Str} {T : Tensor R} (hlen : t.length = T.shape.length) {c : Nat} (hc : c ∈ t) :
    (c, dimOf t T c) ∈ t.zip T.shape := by
  have hlt : t.idxOf c < t.length := List.idxOf_lt_length_of_mem hc
  rw [List.mem_iff_getElem?]
  refine ⟨t.idxOf c, ?_⟩
  rw [List.getElem?_zip_eq_some]
  refine ⟨by rw [List.getElem?_eq_getElem hlt]; simp, ?_⟩
  unfold dimOf
  rw [List.getD_eq_getElem?_getD, List.getElem?_eq_getElem (by omega)]
  simp

theorem freeAxes_eq {t : List Nat} (h : t.Nodup) (rm : Finset Nat) :
    freeAxes t.length ((t.filter (fun c => c ∈ rm)).map t.idxOf) = (t.filter (fun c => c ∉ rm)).map t.idxOf := by
  unfold freeAxes
  rw [range_eq_map_idxOf h, List.filter_map]
  congr 1
  apply List.filter_congr
  intro c hc
  simp only [Function.comp, List.mem_map, List.mem_filter, decide_eq_true_eq, decide_eq_decide]
  constructor
  · intro h1 h2; exact h1 ⟨c, ⟨hc, h2⟩, rfl⟩
  · rintro h1 ⟨x, ⟨hx1, hx2⟩, hx3⟩
    rw [idxOf_inj_mem hx1 hx3] at hx2
    exact h1 hx2

theorem tdIndex_eq {t : List Nat} (h : t.Nodup) (rm : Finset Nat) (L : List Nat) (hL : ∀ c, c ∈ L ↔ c ∈ t ∧ c ∈ rm)
    (k coords : List Nat)
    (hfree : freeAxes t.length (L.map t.idxOf) = (t.filter (fun c => c ∉ rm)).map t.idxOf) :
    tdIndex t.length (L.map t.idxOf) k coords =
      t.map (fun c => if c ∈ rm then k.getD (L.idxOf c) 0 else coords.getD ((t.filter (fun c => c ∉ rm)).idxOf c) 0) := by
  unfold tdIndex
  rw [hfree, range_eq_map_idxOf h, List.map_map]
  apply List.map_congr_left
  intro c hc
  simp only [Function.comp]
  have hiff : t.idxOf c ∈ L.map t.idxOf ↔ c ∈ rm := by
    rw [List.mem_map]
    constructor
    · rintro ⟨x, hx, hxc⟩
      rw [← idxOf_inj_mem ((hL x).mp hx).1 hxc]; exact ((hL x).mp hx).2
    · intro h; exact ⟨c, (hL c).mpr ⟨hc, h⟩, rfl⟩
  by_cases hcr : c ∈ rm
  · rw [if_pos (hiff.mpr hcr), if_pos hcr, idxOf_map_idxOf (fun x hx => ((hL x).mp hx).1)]
  · rw [if_neg (fun h => hcr (hiff.mp h)), if_neg hcr, idxOf_map_idxOf (fun x hx => (List.mem_filter.mp hx).1)]

/-- Set several labels at once. -/
def updL (env : Nat → Nat) : List Nat → List Nat → (Nat → Nat)
  | c :: cs, i :: is => updL (upd env c i) cs is
  | _, _ => env

theorem updL_not_mem {env : Nat → Nat} {l k : List Nat} {c : Nat} (h : c ∉ l) : updL env l k c = env c := by
  induction l generalizing env k with
  | nil => rfl
  | cons a t ih =>
    simp only [List.mem_cons, not_or] at h
    cases k with
    | nil => rfl
    | cons i k => simp only [updL]; rw [ih h.2, upd_ne _ _ _ _ h.1]

theorem updL_mem {env : Nat → Nat} {l k : List Nat} {c : Nat} (hn : l.Nodup) (hlen : k.length = l.length) (h : c ∈ l) :
    updL env l k c = k.getD (l.idxOf c) 0 := by
  induction l generalizing env k with
  | nil => simp at h
  | cons a t ih =>
    rw [List.nodup_cons] at hn
    cases k with
    | nil => simp at hlen
    | cons i k =>
      simp only [updL, List.idxOf_cons]
      by_cases hac : a = c
      · subst hac
        rw [updL_not_mem hn.1, upd_same]; simp
      · have h2 : (a == c) = false := by simpa using hac
        rw [h2]
        have hct : c ∈ t := by
          rcases List.mem_cons.mp h with h | h
          · exact absurd h.symm hac
          · exact h
        rw [ih hn.2 (by simpa using hlen) hct]
        simp

theorem sumOver_eq_sumIdx [AddCommMonoid R] (size : Nat → Nat) (l : List Nat) (F : (Nat → Nat) → R) (env : Nat → Nat) :
    sumOver size l F env = sumIdx (l.map size) (fun k => F (updL env l k)) := by
  induction l generalizing env with
  | nil => rfl
  | cons a t ih => simp only [sumOver, List.map_cons, sumIdx, ih, updL]

/-- `k` is an index inside the dimensions. -/
def InRange : List Nat → List Nat → Prop
  | [], [] => True
  | d :: ds, i :: is => i < d ∧ InRange ds is
  | _, _ => False

theorem InRange.length {ds k : List Nat} (h : InRange ds k) : k.length = ds.length := by
  induction ds generalizing k with
  | nil => cases k; rfl; exact h.elim
  | cons d ds ih =>
    cases k with
    | nil => exact h.elim
    | cons i k => simp [ih h.2]

theorem InRange.getD {l : List Nat} {size : Nat → Nat} {k : List Nat} (h : InRange (l.map size) k) {c : Nat} (hc : c ∈ l) :
    k.getD (l.idxOf c) 0 < size c := by
  induction l generalizing k with
  | nil => simp at hc
  | cons a t ih =>
    cases k with
    | nil => exact h.elim
    | cons i k =>
      simp only [List.map_cons] at h
      simp only [List.idxOf_cons]
      by_cases hac : a = c
      · subst hac; simpa using h.1
      · have h2 : (a == c) = false := by simpa using hac
        rw [h2]
        have hct : c ∈ t := by
          rcases List.mem_cons.mp hc with h | h
          · exact absurd h.symm hac
          · exact h
        simpa using ih h.2 hct

theorem sumIdx_congr [AddCommMonoid R] {ds : List Nat} {f g : List Nat → R} (h : ∀ k, InRange ds k → f k = g k) :
    sumIdx ds f = sumIdx ds g := by
  induction ds generalizing f g with
  | nil => exact h [] trivial
  | cons d ds ih =>
    simp only [sumIdx]
    apply Finset.sum_congr rfl
    intro i hi
    apply ih
    intro k hk
    exact h (i :: k) ⟨Finset.mem_range.mp hi, hk⟩

/-- The conditions under which `can_blas` lets a step use `tensordot`. -/
structure BlasOk (left right : Str) (a b : Tensor R) (rm : Finset Nat) (r : Str) : Prop where
  nl : left.Nodup
  nr : right.Nodup
  lena : left.length = a.shape.length
  lenb : right.length = b.shape.length
  rm_iff : ∀ c, c ∈ rm ↔ c ∈ left ∧ c ∈ right
  r_iff : ∀ c, c ∈ r ↔ (c ∈ left ∨ c ∈ right) ∧ c ∉ rm
  dims : ∀ c ∈ rm, dimOf left a c = dimOf right b c

section
variable [CommSemiring R]

omit [CommSemiring R] in
theorem localSize_left {left right : Str} {a b : Tensor R} {rm : Finset Nat} {r : Str} (h : BlasOk left right a b rm r)
    {c : Nat} (hc : c ∈ left) : localSize [(left, a), (right, b)] c = dimOf left a c := by
  have hfun : ∀ d, (c, d) ∈ left.zip a.shape → d = dimOf left a c := by
    intro d hd
    rw [shape_eq_map_dimOf h.nl h.lena, mem_zip_map_right] at hd
    exact hd.2
  have hfun' : ∀ d, (c, d) ∈ right.zip b.shape → d = dimOf right b c := by
    intro d hd
    rw [shape_eq_map_dimOf h.nr h.lenb, mem_zip_map_right] at hd
    exact hd.2
  apply bdim_eq
  · intro d hd
    rw [mem_opDims] at hd
    obtain ⟨p, hp, hd⟩ := hd
    right
    simp only [List.mem_cons, List.not_mem_nil, or_false] at hp
    rcases hp with rfl | rfl
    · exact hfun d hd
    · have hcr := (List.of_mem_zip hd).1
      rw [hfun' d hd, h.dims c ((h.rm_iff c).mpr ⟨hc, hcr⟩)]
  · rw [mem_opDims]
    exact ⟨(left, a), by simp, dimOf_mem h.lena hc⟩

omit [CommSemiring R] in
theorem localSize_right {left right : Str} {a b : Tensor R} {rm : Finset Nat} {r : Str} (h : BlasOk left right a b rm r)
    {c : Nat} (hc : c ∈ right) : localSize [(left, a), (right, b)] c = dimOf right b c := by
  by_cases hcl : c ∈ left
  · rw [localSize_left h hcl, h.dims c ((h.rm_iff c).mpr ⟨hcl, hc⟩)]
  · have hfun' : ∀ d, (c, d) ∈ right.zip b.shape → d = dimOf right b c := by
      intro d hd
      rw [shape_eq_map_dimOf h.nr h.lenb, mem_zip_map_right] at hd
      exact hd.2
    apply bdim_eq
    · intro d hd
      rw [mem_opDims] at hd
      obtain ⟨p, hp, hd⟩ := hd
      right
      simp only [List.mem_cons, List.not_mem_nil, or_false] at hp
      rcases hp with rfl | rfl
      · exact absurd (List.of_mem_zip hd).1 hcl
      · exact hfun' d hd
    · rw [mem_opDims]
      exact ⟨(right, b), by simp, dimOf_mem h.lenb hc⟩

/-- `tensordot` over the removed labels, listed in any order, is the contraction of the two operands. -/
theorem tensordot_contraction_of_order {size : Nat → Nat} {left right : Str} {a b : Tensor R} {rm : Finset Nat} {r : Str}
    (h : BlasOk left right a b rm r)
    (hs : ∀ c ∈ rm, localSize [(left, a), (right, b)] c = size c) (L : List Nat) (hLn : L.Nodup)
    (hL : ∀ c, c ∈ L ↔ c ∈ left ∧ c ∈ rm) :
    ∃ V, npTensordot a b (L.map left.idxOf) (L.map right.idxOf) = .ok V ∧
      IsContraction size [(left, a), (right, b)] ((left ++ right).filter (fun c => c ∉ rm)) V := by
  have hLr : ∀ c, c ∈ L ↔ c ∈ right ∧ c ∈ rm := by
    intro c; rw [hL, h.rm_iff]
    constructor
    · rintro ⟨h1, h2, h3⟩; exact ⟨h3, h1, h3⟩
    · rintro ⟨h1, h2, h3⟩; exact ⟨h2, h2, h1⟩
  let FL := left.filter (fun c => c ∉ rm)
  let FR := right.filter (fun c => c ∉ rm)
  have hfa : freeAxes a.shape.length (L.map left.idxOf) = FL.map left.idxOf := by
    rw [← h.lena]
    rw [← freeAxes_eq h.nl rm]
    unfold freeAxes
    apply List.filter_congr
    intro p _
    simp only [decide_eq_decide, List.mem_map]
    apply not_congr
    apply exists_congr
    intro c
    rw [hL]; simp
  have hfb : freeAxes b.shape.length (L.map right.idxOf) = FR.map right.idxOf := by
    rw [← h.lenb]
    rw [← freeAxes_eq h.nr rm]
    unfold freeAxes
    apply List.filter_congr
    intro p _
    simp only [decide_eq_decide, List.mem_map]
    apply not_congr
    apply exists_congr
    intro c
    rw [hLr]; simp
  have hcond : ¬ ((L.map left.idxOf).length ≠ (L.map right.idxOf).length ∨ ¬ (L.map left.idxOf).Nodup ∨
      ¬ (L.map right.idxOf).Nodup ∨
      ((L.map left.idxOf).any (fun p => decide (a.shape.length ≤ p))) = true ∨
      ((L.map right.idxOf).any (fun p => decide (b.shape.length ≤ p))) = true ∨
      (L.map left.idxOf).map (fun p => a.shape.getD p 0) ≠ (L.map right.idxOf).map (fun p => b.shape.getD p 0)) := by
    simp only [not_or, not_not, List.length_map, List.map_map, List.any_eq_true, List.mem_map, decide_eq_true_eq, not_exists,
      not_and, true_and, ne_eq]
    refine ⟨?_, ?_, ?_, ?_, ?_⟩
    · exact (List.nodup_map_iff_inj_on hLn).mpr (fun x hx y hy e => idxOf_inj_mem ((hL x).mp hx).1 e)
    · exact (List.nodup_map_iff_inj_on hLn).mpr (fun x hx y hy e => idxOf_inj_mem ((hLr x).mp hx).1 e)
    · rintro _ ⟨c, hc, rfl⟩
      have := List.idxOf_lt_length_of_mem ((hL c).mp hc).1
      rw [h.lena] at this; omega
    · rintro _ ⟨c, hc, rfl⟩
      have := List.idxOf_lt_length_of_mem ((hLr c).mp hc).1
      rw [h.lenb] at this; omega
    · apply List.map_congr_left
      intro c hc
      exact h.dims c ((hL c).mp hc).2
  have hTD : npTensordot a b (L.map left.idxOf) (L.map right.idxOf) = .ok
      { shape := (FL.map left.idxOf).map (fun p => a.shape.getD p 0) ++ (FR.map right.idxOf).map (fun p => b.shape.getD p 0),
        val := fun coords => sumIdx ((L.map left.idxOf).map (fun p => a.shape.getD p 0)) (fun k =>
            a.val (tdIndex a.shape.length (L.map left.idxOf) k (coords.take (FL.map left.idxOf).length)) *
            b.val (tdIndex b.shape.length (L.map right.idxOf) k (coords.drop (FL.map left.idxOf).length))) } := by
    unfold npTensordot
    rw [if_neg hcond]
    simp only [hfa, hfb]
  refine ⟨_, hTD, ?_, ?_⟩
  · simp only
    rw [List.filter_append, List.map_append]
    congr 1
    · rw [List.map_map]
      apply List.map_congr_left
      intro c hc
      exact (localSize_left h (List.mem_filter.mp hc).1).symm
    · rw [List.map_map]
      apply List.map_congr_left
      intro c hc
      exact (localSize_right h (List.mem_filter.mp hc).1).symm
  · intro env
    have hperm : (innerLabels ([(left, a), (right, b)].map Prod.fst) ((left ++ right).filter (fun c => c ∉ rm))).Perm L := by
      rw [List.perm_ext_iff_of_nodup (innerLabels_nodup _ _) hLn]
      intro c
      rw [mem_innerLabels, hL]
      have := h.rm_iff c
      simp only [List.map_cons, List.map_nil, List.mem_cons, List.not_mem_nil, or_false, exists_eq_or_imp, exists_eq_left,
        List.mem_filter, List.mem_append, decide_eq_true_eq, not_and, not_not]
      constructor
      · rintro ⟨h1, h2⟩
        have := h2 h1
        exact ⟨((h.rm_iff c).mp this).1, this⟩
      · rintro ⟨h1, h2⟩
        exact ⟨Or.inl h1, fun _ => h2⟩
    rw [sumOver_perm hperm (innerLabels_nodup _ _), sumOver_eq_sumIdx]
    unfold Tensor.get
    simp only [List.map_map]
    have hdims : L.map size = L.map ((fun p => a.shape.getD p 0) ∘ left.idxOf) := by
      apply List.map_congr_left
      intro c hc
      have hc' := (hL c).mp hc
      rw [← hs c hc'.2, localSize_left h hc'.1]
      rfl
    rw [hdims]
    apply sumIdx_congr
    intro k hk
    have hlenk : k.length = L.length := by rw [hk.length]; simp
    have hlt : ∀ c ∈ L, k.getD (L.idxOf c) 0 < dimOf left a c := fun c hc => hk.getD hc
    rw [prodVal_cons, prodVal_cons, prodVal_nil, mul_one]
    -- the coordinates handed to tensordot
    have hco : List.zipWith bc ((FL.map ((fun p => a.shape.getD p 0) ∘ left.idxOf)) ++ FR.map ((fun p => b.shape.getD p 0) ∘ right.idxOf))
        (((left ++ right).filter (fun c => c ∉ rm)).map env) =
        FL.map (fun c => bc (dimOf left a c) (env c)) ++ FR.map (fun c => bc (dimOf right b c) (env c)) := by
      rw [List.filter_append, List.map_append, List.zipWith_append (by simp [FL])]
      congr 1
      · rw [List.zipWith_map, List.zipWith_self]; rfl
      · rw [List.zipWith_map, List.zipWith_self]; rfl
    rw [hco]
    have hlenfa : (FL.map left.idxOf).length = (FL.map (fun c => bc (dimOf left a c) (env c))).length := by simp
    rw [hlenfa, List.take_left, List.drop_left]
    unfold Tensor.get
    congr 2
    · -- left
      rw [← h.lena, tdIndex_eq h.nl rm L hL k _ (by rw [h.lena]; exact hfa)]
      conv_rhs => rw [shape_eq_map_dimOf h.nl h.lena, List.zipWith_map]
      rw [List.zipWith_self]
      apply List.map_congr_left
      intro c hc
      by_cases hcr : c ∈ rm
      · rw [if_pos hcr]
        have hcL := (hL c).mpr ⟨hc, hcr⟩
        rw [updL_mem hLn hlenk hcL]
        have := hlt c hcL
        unfold bc; split
        · omega
        · rfl
      · rw [if_neg hcr]
        have hcL : c ∉ L := fun h => hcr ((hL c).mp h).2
        rw [updL_not_mem hcL]
        exact getD_map_idxOf (l := FL) (by simp [FL, hc, hcr])
    · rw [← h.lenb, tdIndex_eq h.nr rm L hLr k _ (by rw [h.lenb]; exact hfb)]
      conv_rhs => rw [shape_eq_map_dimOf h.nr h.lenb, List.zipWith_map]
      rw [List.zipWith_self]
      apply List.map_congr_left
      intro c hc
      by_cases hcr : c ∈ rm
      · rw [if_pos hcr]
        have hcL := (hLr c).mpr ⟨hc, hcr⟩
        rw [updL_mem hLn hlenk hcL]
        have := hlt c hcL
        rw [h.dims c hcr] at this
        unfold bc; split
        · omega
        · rfl
      · rw [if_neg hcr]
        have hcL : c ∉ L := fun h => hcr ((hL c).mp h).2
        rw [updL_not_mem hcL]
        exact getD_map_idxOf (l := FR) (by simp [FR, hc, hcr])

theorem tensordot_contraction {size : Nat → Nat} {left right : Str} {a b : Tensor R} {rm : Finset Nat} {r : Str}
    (h : BlasOk left right a b rm r)
    (hs : ∀ c ∈ rm, localSize [(left, a), (right, b)] c = size c) :
    ∃ V, npTensordot a b (blasAxes left right rm).1 (blasAxes left right rm).2 = .ok V ∧
      IsContraction size [(left, a), (right, b)] ((left ++ right).filter (fun c => c ∉ rm)) V :=
  tensordot_contraction_of_order h hs (left.filter (fun c => c ∈ rm)) (h.nl.filter _) (by intro c; simp)

theorem transposeAxes_ok {tr r : Str} (h : ∀ c ∈ r, c ∈ tr) : transposeAxes tr r = .ok (r.map tr.idxOf) := by
  unfold transposeAxes
  induction r with
  | nil => rfl
  | cons c t ih =>
    rw [List.mapM_cons, if_pos (h c (by simp)), ih (fun c hc => h c (by simp [hc]))]
    rfl

theorem transpose_contraction {size : Nat → Nat} {P : List (Str × Tensor R)} {tr r : Str} {V : Tensor R}
    (hV : IsContraction size P tr V) (htr : tr.Nodup) (hr : r.Nodup) (hm : ∀ c, c ∈ r ↔ c ∈ tr) :
    ∃ T, npTranspose V (r.map tr.idxOf) = .ok T ∧ IsContraction size P r T := by
  have hperm : r.Perm tr := (List.perm_ext_iff_of_nodup hr htr).mpr hm
  have hlen : V.shape.length = tr.length := by rw [hV.shape]; simp
  have hget : ∀ c ∈ tr, V.shape.getD (tr.idxOf c) 0 = localSize P c := by
    intro c hc
    rw [hV.shape]; exact getD_map_idxOf hc
  have hval : ∀ g : Nat → Nat, (List.range V.shape.length).map
      (fun p => (r.map g).getD ((r.map tr.idxOf).idxOf p) 0) = tr.map g := by
    intro g
    rw [hlen, range_eq_map_idxOf htr, List.map_map]
    apply List.map_congr_left
    intro c hc
    simp only [Function.comp]
    rw [idxOf_map_idxOf (fun x hx => (hm x).mp hx)]
    exact getD_map_idxOf ((hm c).mpr hc)
  have hTR : npTranspose V (r.map tr.idxOf) = .ok
      { shape := (r.map tr.idxOf).map (fun p => V.shape.getD p 0),
        val := fun coords => V.val ((List.range V.shape.length).map (fun p => coords.getD ((r.map tr.idxOf).idxOf p) 0)) } := by
    unfold npTranspose
    rw [if_neg]
    simp only [not_or, not_not, List.length_map, ne_eq, List.any_eq_true, List.mem_map, decide_eq_true_eq, not_exists, not_and]
    refine ⟨by rw [hlen, hperm.length_eq], ?_, ?_⟩
    · exact (List.nodup_map_iff_inj_on hr).mpr (fun x hx y hy e => idxOf_inj_mem ((hm x).mp hx) e)
    · rintro _ ⟨c, hc, rfl⟩
      have := List.idxOf_lt_length_of_mem ((hm c).mp hc)
      omega
  refine ⟨_, hTR, ?_, ?_⟩
  · simp only [List.map_map]
    apply List.map_congr_left
    intro c hc
    exact hget c ((hm c).mp hc)
  · intro env
    have h1 : innerLabels (P.map Prod.fst) r = innerLabels (P.map Prod.fst) tr := by
      unfold innerLabels
      apply List.filter_congr
      intro c _
      simp [hm]
    rw [h1, ← hV.get env]
    unfold Tensor.get
    simp only [List.map_map]
    rw [List.zipWith_map, List.zipWith_self, hval]
    congr 1
    conv_rhs => rw [hV.shape]
    rw [List.zipWith_map, List.zipWith_self]
    apply List.map_congr_left
    intro c hc
    simp only [Function.comp]
    rw [hget c hc]

/-- The BLAS branch of `_core_contract` contracts. -/
theorem blasStep_contraction {size : Nat → Nat} {left right : Str} {a b : Tensor R} {r : Str} {step : Step}
    (h : BlasOk left right a b step.removed r) (hr : r.Nodup)
    (hstr : step.einsumStr = einsumStrOf [left, right] r)
    (hl : ∀ c, c ∈ left ∨ c ∈ right → ¬ IsPunct c)
    (hs : ∀ c ∈ step.removed, localSize [(left, a), (right, b)] c = size c) :
    ∃ T, blasStep step [a, b] = .ok T ∧ IsContraction size [(left, a), (right, b)] r T := by
  have hdash : cDash ∉ left ++ [cComma] ++ right := by
    simp only [List.append_assoc, List.mem_append, List.mem_singleton, not_or]
    exact ⟨fun hm => hl _ (Or.inl hm) (by simp [IsPunct]), by omega, fun hm => hl _ (Or.inr hm) (by simp [IsPunct])⟩
  have hgt : cGt ∉ r := fun hm => hl _ ((h.r_iff _).mp hm).1 (by simp [IsPunct])
  have h1 : splitArrow step.einsumStr = [left ++ [cComma] ++ right, r] := by
    rw [hstr]; exact splitArrow_two _ _ hdash hgt
  have hc1 : cComma ∉ left := fun hm => hl _ (Or.inl hm) (by simp [IsPunct])
  have hc2 : cComma ∉ right := fun hm => hl _ (Or.inr hm) (by simp [IsPunct])
  have h2 : splitOn cComma (left ++ [cComma] ++ right) = [left, right] := by
    rw [List.append_assoc]
    simp only [List.singleton_append]
    rw [splitOn_append _ _ _ hc1, splitOn_of_free _ _ hc2]
  obtain ⟨V, hV1, hV2⟩ := tensordot_contraction h hs
  have hmem : ∀ c, c ∈ r ↔ c ∈ (left ++ right).filter (fun c => c ∉ step.removed) := by
    intro c; rw [h.r_iff, List.mem_filter, List.mem_append]; simp only [decide_eq_true_eq]
  have hntr : ((left ++ right).filter (fun c => c ∉ step.removed)).Nodup := by
    rw [List.filter_append, List.nodup_append]
    refine ⟨h.nl.filter _, h.nr.filter _, ?_⟩
    intro x hx y hy e
    subst e
    simp only [List.mem_filter, decide_eq_true_eq] at hx hy
    exact hx.2 ((h.rm_iff x).mpr ⟨hx.1, hy.1⟩)
  unfold blasStep
  rw [h1]
  simp only [h2]
  rw [hV1]
  simp only [bind, Except.bind]
  by_cases hne : (left ++ right).filter (fun c => c ∉ step.removed) ≠ r
  · rw [if_pos hne, transposeAxes_ok (fun c hc => (hmem c).mp hc)]
    exact transpose_contraction hV2 hntr hr hmem
  · rw [if_neg hne]
    rw [not_not] at hne
    rw [hne] at hV2
    exact ⟨V, rfl, hV2⟩

end
end OE
