import Verif.Lemmas.EinsumCall

/-! `einsum` does not depend on the order of the operands nor on the names of the labels: not only up to the
entries inside the shape, but as the same outcome, errors included. -/

namespace OE
open OE.Py OE.Spec OE.Parser OE.Contract
variable {R : Type}

/-- The condition under which `einsumCore` succeeds. -/
def EinsumOk (P : List (Str × Tensor R)) (r : Str) : Prop :=
  Fits (localSize P) P ∧ r.Nodup ∧ ∀ c ∈ r, Occurs P c

variable [CommSemiring R]

theorem einsumCore_fails {P : List (Str × Tensor R)} {r : Str} (h : ¬ EinsumOk P r) :
    einsumCore (P.map Prod.fst) r (P.map Prod.snd) = .error .value := by
  have hzip : (P.map Prod.fst).zip ((P.map Prod.snd).map Tensor.shape) = P.map (fun p => (p.1, p.2.shape)) := by
    rw [List.map_map, zip_map_map]; rfl
  have hfl : ∀ c, c ∈ (P.map Prod.fst).flatten ↔ Occurs P c := by
    intro c; simp [Occurs]
  unfold einsumCore
  simp only [List.length_map, ne_eq, not_true_eq_false, if_false]
  split
  · rfl
  rename_i h1
  split
  · rfl
  rename_i h2
  split
  · rfl
  rename_i h3
  split
  · rfl
  rename_i h4
  exfalso
  apply h
  rw [hzip] at h1 h2
  simp only [List.any_eq_true, decide_eq_true_eq, not_exists, not_and, not_not, Bool.not_eq_true, Bool.not_eq_false'] at h1 h2 h3
  have hrank : ∀ p ∈ P, p.1.length = p.2.shape.length := fun p hp => h1 _ (List.mem_map_of_mem hp)
  have hdims : ∀ c d, HasDim P c d → d = 1 ∨ d = localSize P c := by
    intro c d hd
    have := h3 c ((hfl c).mpr hd.occurs)
    simp only [List.all_eq_true, Bool.or_eq_true, decide_eq_true_eq] at this
    exact this d ((mem_opDims P c d).mpr hd)
  rw [not_or, not_not] at h4
  refine ⟨⟨hrank, ?_, hdims, ?_⟩, h4.1, ?_⟩
  · intro p hp c d d' hd hd'
    have := h2 _ (List.mem_map_of_mem hp) c (List.of_mem_zip hd).1
    simp only [List.all_eq_true, decide_eq_true_eq] at this
    have hm : ∀ x, (c, x) ∈ p.1.zip p.2.shape → x ∈ labelDims [p.1] [p.2.shape] c := by
      intro x hx
      rw [mem_labelDims]
      exact ⟨(p.1, p.2.shape), by simp, hx⟩
    rw [this d (hm d hd), this d' (hm d' hd')]
  · intro c hc
    rw [← mem_opDims]
    apply bdim_mem (s := localSize P c)
    · intro d hd; exact hdims c d ((mem_opDims P c d).mp hd)
    · obtain ⟨d, hd⟩ := exists_dim_of_occurs hrank hc
      exact List.ne_nil_of_mem ((mem_opDims P c d).mpr hd)
  · intro c hc
    have := h4.2
    simp only [List.any_eq_true, decide_eq_true_eq, not_exists, not_and, not_not] at this
    exact (hfl c).mp (this c hc)

omit [CommSemiring R] in
theorem EinsumOk.perm {P Q : List (Str × Tensor R)} {r : Str} (hp : P.Perm Q) (h : EinsumOk P r) : EinsumOk Q r :=
  ⟨(h.1.perm hp).sub (fun _ hq => hq), h.2.1, fun c hc => (Occurs_perm hp c).mp (h.2.2 c hc)⟩

omit [CommSemiring R] in
theorem localSize_perm {P Q : List (Str × Tensor R)} (hp : P.Perm Q) (h : Fits (localSize P) P) : localSize Q = localSize P := by
  funext c
  by_cases hc : Occurs P c
  · apply localSize_eq (ops := P) h (fun p hm => hp.mem_iff.mpr hm)
    exact (HasDim_perm hp c _).mp (h.full c hc)
  · have h1 : opDims P c = [] := by
      rw [List.eq_nil_iff_forall_not_mem]
      intro x hx
      exact hc ((mem_opDims P c x).mp hx).occurs
    have h2 : opDims Q c = [] := by
      rw [List.eq_nil_iff_forall_not_mem]
      intro x hx
      exact hc ((HasDim_perm hp c x).mpr ((mem_opDims Q c x).mp hx)).occurs
    unfold localSize
    rw [h1, h2]

/-- Permuting the operands together with their terms does not change the outcome of `einsum`. -/
theorem einsumCore_perm {P Q : List (Str × Tensor R)} (hp : P.Perm Q) (r : Str) :
    einsumCore (P.map Prod.fst) r (P.map Prod.snd) = einsumCore (Q.map Prod.fst) r (Q.map Prod.snd) := by
  by_cases h : EinsumOk P r
  · have h' := h.perm hp
    rw [einsumCore_ok h.1 h.2.1 h.2.2, einsumCore_ok h'.1 h'.2.1 h'.2.2, localSize_perm hp h.1]
    congr 2
    funext coords
    have hpp : prodVal P = prodVal Q := funext (fun env => prodVal_perm hp env)
    rw [hpp]
    apply sumOver_perm _ (innerLabels_nodup _ _)
    rw [List.perm_ext_iff_of_nodup (innerLabels_nodup _ _) (innerLabels_nodup _ _)]
    intro c
    simp only [mem_innerLabels, List.mem_map, hp.mem_iff]
  · rw [einsumCore_fails h, einsumCore_fails (fun hq => h (hq.perm hp.symm))]

omit [CommSemiring R] in
theorem EinsumOk.rename {f : Nat → Nat} {P : List (Str × Tensor R)} {r : Str}
    (hf : Set.InjOn f {c | Occurs P c}) (h : EinsumOk P r) : EinsumOk (renameOps f P) (r.map f) := by
  refine ⟨fits_rename hf h.1, ?_, ?_⟩
  · exact (List.nodup_map_iff_inj_on h.2.1).mpr (fun x hx y hy e => hf (h.2.2 x hx) (h.2.2 y hy) e)
  · intro c hc
    obtain ⟨x, hx, rfl⟩ := List.mem_map.mp hc
    exact occurs_rename.mpr ⟨x, h.2.2 x hx, rfl⟩

omit [CommSemiring R] in
theorem renameOps_inv {f g : Nat → Nat} {P : List (Str × Tensor R)} (h : ∀ c, Occurs P c → g (f c) = c) :
    renameOps g (renameOps f P) = P := by
  unfold renameOps
  rw [List.map_map]
  conv_rhs => rw [← List.map_id P]
  apply List.map_congr_left
  intro p hp
  simp only [Function.comp, List.map_map, id]
  ext1
  · simp only
    conv_rhs => rw [← List.map_id p.1]
    apply List.map_congr_left
    intro c hc
    exact h c ⟨p, hp, hc⟩
  · rfl

theorem idxOf_map_injOn {f : Nat → Nat} {S : Set Nat} (hf : Set.InjOn f S) {l : List Nat} (hl : ∀ c ∈ l, c ∈ S) {c : Nat}
    (hc : c ∈ S) : (l.map f).idxOf (f c) = l.idxOf c := by
  induction l with
  | nil => rfl
  | cons a t ih =>
    simp only [List.map_cons, List.idxOf_cons]
    have ha : a ∈ S := hl a (by simp)
    by_cases h : a = c
    · subst h; simp
    · have h' : f a ≠ f c := fun e => h (hf ha hc e)
      have e1 : (f a == f c) = false := by simpa using h'
      have e2 : (a == c) = false := by simpa using h
      rw [e1, e2, ih (fun x hx => hl x (by simp [hx]))]

/-- Renaming the labels injectively does not change the outcome of `einsum`. -/
theorem einsumCore_rename {f : Nat → Nat} {P : List (Str × Tensor R)} {r : Str}
    (hf : Set.InjOn f {c | Occurs P c ∨ c ∈ r}) :
    einsumCore ((renameOps f P).map Prod.fst) (r.map f) ((renameOps f P).map Prod.snd) =
      einsumCore (P.map Prod.fst) r (P.map Prod.snd) := by
  have hf1 : Set.InjOn f {c | Occurs P c} := hf.mono (fun c hc => Or.inl hc)
  by_cases h : EinsumOk P r
  · have h' := h.rename hf1
    rw [einsumCore_ok h.1 h.2.1 h.2.2, einsumCore_ok h'.1 h'.2.1 h'.2.2]
    have hmem : ∀ c, c ∈ innerLabels (P.map Prod.fst) r ↔ Occurs P c ∧ c ∉ r := by
      intro c; rw [mem_innerLabels]; simp [Occurs]
    have hmem' : ∀ c, c ∈ innerLabels ((renameOps f P).map Prod.fst) (r.map f) ↔ Occurs (renameOps f P) c ∧ c ∉ r.map f := by
      intro c; rw [mem_innerLabels]; simp [Occurs]
    have hinj : ∀ x ∈ innerLabels (P.map Prod.fst) r, ∀ y ∈ innerLabels (P.map Prod.fst) r, f x = f y → x = y :=
      fun x hx y hy e => hf1 ((hmem x).mp hx).1 ((hmem y).mp hy).1 e
    have hperm : (innerLabels ((renameOps f P).map Prod.fst) (r.map f)).Perm ((innerLabels (P.map Prod.fst) r).map f) := by
      rw [List.perm_ext_iff_of_nodup (innerLabels_nodup _ _) ((List.nodup_map_iff_inj_on (innerLabels_nodup _ _)).mpr hinj)]
      intro c
      rw [hmem', occurs_rename]
      constructor
      · rintro ⟨⟨x, hx, rfl⟩, hn⟩
        exact List.mem_map_of_mem ((hmem x).mpr ⟨hx, fun hxr => hn (List.mem_map_of_mem hxr)⟩)
      · intro hm0
        obtain ⟨x, hx, rfl⟩ := List.mem_map.mp hm0
        rw [hmem] at hx
        refine ⟨⟨x, hx.1, rfl⟩, ?_⟩
        intro hm
        obtain ⟨y, hy, he⟩ := List.mem_map.mp hm
        have := hf1 (h.2.2 y hy) hx.1 he
        subst this
        exact hx.2 hy
    congr 2
    · rw [List.map_map]
      apply List.map_congr_left
      intro c hc
      exact localSize_rename hf1 h.1 (h.2.2 c hc)
    · funext coords
      rw [sumOver_perm hperm (innerLabels_nodup _ _)]
      apply sumOver_map (S := {c | Occurs P c}) hf1
      · intro c hc; exact ((hmem c).mp hc).1
      · intro c hc
        rw [hmem] at hc
        exact localSize_rename hf1 h.1 hc.1
      · intro e e' he
        unfold prodVal renameOps
        rw [List.map_map]
        congr 1
        apply List.map_congr_left
        intro p hp
        simp only [Function.comp, List.map_map]
        congr 1
        apply List.map_congr_left
        intro c hc
        exact he c ⟨p, hp, hc⟩
      · intro c hc _
        unfold envOf
        rw [idxOf_map_injOn hf1 h.2.2 hc]
  · rw [einsumCore_fails h]
    apply einsumCore_fails
    intro h'
    apply h
    classical
    let g := Function.invFunOn f {c | Occurs P c ∨ c ∈ r}
    have hg : ∀ c, (Occurs P c ∨ c ∈ r) → g (f c) = c := fun c hc => hf.leftInvOn_invFunOn hc
    have hgi : Set.InjOn g {c | Occurs (renameOps f P) c} := by
      intro x hx y hy e
      obtain ⟨a, ha, rfl⟩ := occurs_rename.mp hx
      obtain ⟨b, hb, rfl⟩ := occurs_rename.mp hy
      rw [hg a (Or.inl ha), hg b (Or.inl hb)] at e
      rw [e]
    have := h'.rename hgi
    rw [renameOps_inv (fun c hc => hg c (Or.inl hc))] at this
    have hrr : (r.map f).map g = r := by
      rw [List.map_map]
      conv_rhs => rw [← List.map_id r]
      apply List.map_congr_left
      intro c hc
      exact hg c (Or.inr hc)
    rw [hrr] at this
    exact this

/-- No label is punctuation. -/
def PlainTerms (ins : List Str) (r : Str) : Prop := (∀ t ∈ ins, ∀ c ∈ t, ¬ IsPunct c) ∧ ∀ c ∈ r, ¬ IsPunct c

theorem npEinsum_terms {ins : List Str} {r : Str} (hne : ins ≠ []) (hl : PlainTerms ins r)
    (hv : hasValidEinsumCharsOnly (einsumStrOf ins r) = true) (ops : List (Tensor R)) :
    npEinsum (einsumStrOf ins r) ops = einsumCore ins r ops := by
  have hj : ∀ c, IsPunct c → c ≠ cComma → c ∉ join [cComma] ins := by
    intro c hp hn hm
    rcases mem_join _ _ _ hm with h | ⟨t, ht, hc⟩
    · exact hn (by simpa using h)
    · exact hl.1 t ht _ hc hp
  have hpr : ∀ c, IsPunct c → c ∉ r := fun c hp hm => hl.2 _ hm hp
  have h1 : splitArrow (einsumStrOf ins r) = [join [cComma] ins, r] :=
    splitArrow_two _ _ (hj _ (by simp [IsPunct]) (by decide)) (hpr _ (by simp [IsPunct]))
  rw [npEinsum_two hv h1 (hj _ (by simp [IsPunct]) (by decide)) (hj _ (by simp [IsPunct]) (by decide))
    (hj _ (by simp [IsPunct]) (by decide)) (hpr _ (by simp [IsPunct])), splitOn_join _ _ hne]
  intro t ht hc
  exact hl.1 t ht _ hc (by simp [IsPunct])

theorem mem_einsumStrOf {ins : List Str} {r : Str} {c : Nat} (hc : c ∈ einsumStrOf ins r) :
    IsPunct c ∨ c ∈ ins.flatten ++ r := by
  simp only [einsumStrOf, List.append_assoc, List.mem_append, List.mem_cons, List.not_mem_nil, or_false] at hc
  rcases hc with hc | (hc | hc) | hc
  · rcases mem_join _ _ _ hc with h | ⟨t, ht, hc⟩
    · left; simp at h; simp [IsPunct, h]
    · right; simp only [List.mem_append, List.mem_flatten]; exact Or.inl ⟨t, ht, hc⟩
  · left; simp [IsPunct, hc]
  · left; simp [IsPunct, hc]
  · right; simp [hc]

theorem mem_einsumStrOf_of {ins : List Str} {r : Str} {c : Nat} (hc : c ∈ ins.flatten ++ r) : c ∈ einsumStrOf ins r := by
  simp only [List.mem_append, List.mem_flatten] at hc
  unfold einsumStrOf
  simp only [List.append_assoc, List.mem_append]
  rcases hc with ⟨t, ht, hc⟩ | hc
  · left; exact mem_join_of_mem _ _ _ t ht hc
  · right; right; exact hc

theorem PlainTerms.label {ins : List Str} {r : Str} (hl : PlainTerms ins r) {c : Nat} (hc : c ∈ ins.flatten ++ r) : ¬ IsPunct c := by
  simp only [List.mem_append, List.mem_flatten] at hc
  rcases hc with ⟨t, ht, hc⟩ | hc
  · exact hl.1 t ht c hc
  · exact hl.2 c hc

theorem card_of_valid {l : List Nat} (hp : ∀ c ∈ l, ¬ IsPunct c) (hv : ∀ c ∈ l, isValidEinsumChar c = true) :
    l.toFinset.card ≤ 52 := by
  have hsub : l.toFinset ⊆ einsumSymbolsBase.toFinset := by
    intro c hc
    rw [List.mem_toFinset] at hc ⊢
    have := hv c hc
    have hn := hp c hc
    unfold isValidEinsumChar at this
    unfold IsPunct at hn
    simp only [Bool.or_eq_true, decide_eq_true_eq, List.mem_cons, List.not_mem_nil, or_false] at this
    rcases this with h | h
    · exact h
    · exfalso; apply hn; omega
  refine (Finset.card_le_card hsub).trans ?_
  refine (List.toFinset_card_le _).trans ?_
  simp [einsumSymbolsBase]

/-- `_einsum` on `",".join(ins) + "->" + r`: the Einstein sum when at most 52 labels occur, `ValueError` otherwise. -/
theorem einsumCall_eq {ins : List Str} {r : Str} {ops : List (Tensor R)} (hne : ins ≠ []) (hl : PlainTerms ins r) :
    einsumCall false (einsumStrOf ins r) ops =
      if (ins.flatten ++ r).toFinset.card ≤ 52 then einsumCore ins r ops else .error .value := by
  unfold einsumCall
  simp only [Bool.false_eq_true, if_false]
  by_cases hv : hasValidEinsumCharsOnly (einsumStrOf ins r) = true
  · rw [if_pos hv, npEinsum_terms hne hl hv]
    rw [if_pos]
    apply card_of_valid (fun c hc => hl.label hc)
    unfold hasValidEinsumCharsOnly at hv
    rw [List.all_eq_true] at hv
    exact fun c hc => hv c (mem_einsumStrOf_of hc)
  · rw [if_neg hv]
    have harrow : countArrow (einsumStrOf ins r) ≠ 0 := by
      unfold einsumStrOf
      have h1 : cDash ∉ join [cComma] ins := by
        intro hm
        rcases mem_join _ _ _ hm with h | ⟨t, ht, hc⟩
        · simp at h
        · exact hl.1 t ht _ hc (by simp [IsPunct])
      have := countArrow_append (join [cComma] ins) r h1
      simp only [List.append_assoc, List.cons_append, List.nil_append] at this ⊢
      omega
    rw [if_neg harrow]
    have hdot : cDot ∉ einsumStrOf ins r := by
      intro hm
      simp only [einsumStrOf, List.append_assoc, List.mem_append, List.mem_cons, List.not_mem_nil, or_false] at hm
      rcases hm with hc | (hc | hc) | hc
      · rcases mem_join _ _ _ hc with h | ⟨t, ht, hc⟩
        · simp at h
        · exact hl.1 t ht _ hc (by simp [IsPunct])
      · omega
      · omega
      · exact hl.2 _ hc (by simp [IsPunct])
    obtain ⟨⟨f, hf, heq⟩, hvalid⟩ := Props.C32_convert_to_valid_einsum_chars_partial _ hdot
    have hinj : Set.InjOn f {c | c ∈ ins.flatten ++ r} := by
      apply hf.inj.mono
      intro c hc
      exact ⟨mem_einsumStrOf_of hc, hl.label hc⟩
    have hstr : (einsumStrOf ins r).map f = einsumStrOf (ins.map (List.map f)) (r.map f) := by
      unfold einsumStrOf
      simp only [List.map_append]
      rw [join_map f _ _ (by simp [hf.fixes 44 (by simp [IsPunct])])]
      simp [hf.fixes 45 (by simp [IsPunct]), hf.fixes 62 (by simp [IsPunct])]
    have hl' : PlainTerms (ins.map (List.map f)) (r.map f) := by
      refine ⟨?_, ?_⟩
      · intro t ht c hc
        obtain ⟨t', ht', rfl⟩ := List.mem_map.mp ht
        obtain ⟨x, hx, rfl⟩ := List.mem_map.mp hc
        have hm : x ∈ ins.flatten ++ r := by
          simp only [List.mem_append, List.mem_flatten]; exact Or.inl ⟨t', ht', hx⟩
        exact hf.labels x ⟨mem_einsumStrOf_of hm, hl.label hm⟩
      · intro c hc
        obtain ⟨x, hx, rfl⟩ := List.mem_map.mp hc
        have hm : x ∈ ins.flatten ++ r := by simp [hx]
        exact hf.labels x ⟨mem_einsumStrOf_of hm, hl.label hm⟩
    by_cases hv' : hasValidEinsumCharsOnly (convertToValidEinsumChars (einsumStrOf ins r)) = true
    · rw [if_pos]
      · rw [heq, hstr] at hv' ⊢
        rw [npEinsum_terms (by simpa using hne) hl' hv']
        by_cases hlen : ins.length = ops.length
        swap
        · unfold einsumCore
          simp [hlen]
        have h1 : ins = (ins.zip ops).map Prod.fst := by rw [List.map_fst_zip (by omega)]
        have h2 : ops = (ins.zip ops).map Prod.snd := by rw [List.map_snd_zip (by omega)]
        have h3 : ins.map (List.map f) = (renameOps f (ins.zip ops)).map Prod.fst := by
          conv_lhs => rw [h1]
          simp [renameOps]
        have h4 : ops = (renameOps f (ins.zip ops)).map Prod.snd := by
          conv_lhs => rw [h2]
          simp [renameOps]
        have := einsumCore_rename (f := f) (P := ins.zip ops) (r := r) (by
          apply hinj.mono
          rintro c (⟨p, hp, hc⟩ | hc)
          · simp only [Set.mem_ofPred_eq, List.mem_append, List.mem_flatten]
            exact Or.inl ⟨p.1, (List.of_mem_zip hp).1, hc⟩
          · simp [hc])
        rw [← h3, ← h4, ← h1, ← h2] at this
        exact this
      · have h1 : ((ins.flatten ++ r).map f).toFinset.card = (ins.flatten ++ r).toFinset.card := by
          have : ((ins.flatten ++ r).map f).toFinset = (ins.flatten ++ r).toFinset.image f := by
            ext c; simp only [List.mem_toFinset, Finset.mem_image, List.mem_map]
          rw [this, Finset.card_image_of_injOn]
          intro x hx y hy e
          apply hinj _ _ e
          · simpa using hx
          · simpa using hy
        rw [← h1]
        apply card_of_valid
        · intro c hc
          obtain ⟨x, hx, rfl⟩ := List.mem_map.mp hc
          exact hf.labels x ⟨mem_einsumStrOf_of hx, hl.label hx⟩
        · intro c hc
          obtain ⟨x, hx, rfl⟩ := List.mem_map.mp hc
          unfold hasValidEinsumCharsOnly at hv'
          rw [List.all_eq_true, heq] at hv'
          exact hv' _ (List.mem_map_of_mem (mem_einsumStrOf_of hx))
    · rw [if_neg]
      · unfold npEinsum
        rw [if_pos (by simpa using hv')]
      · intro hcard
        apply hv'
        unfold hasValidEinsumCharsOnly
        rw [List.all_eq_true]
        intro c hc
        have := hvalid (ins.flatten ++ r).toFinset.toList (by
          intro c hc
          rcases mem_einsumStrOf hc.1 with h | h
          · exact absurd h hc.2
          · rw [Finset.mem_toList, List.mem_toFinset]; exact h) (by rw [Finset.length_toList]; exact hcard) c hc
        unfold isValidEinsumChar einsumSymbolsBase
        unfold Props.NumpyChar IsPunct at this
        simp only [List.mem_append, List.mem_map, List.mem_range, Bool.or_eq_true, decide_eq_true_eq, List.mem_cons,
          List.not_mem_nil, or_false]
        rcases this with h | h | h
        · left; left; exact ⟨c - 97, by omega, by omega⟩
        · left; right; exact ⟨c - 65, by omega, by omega⟩
        · right; omega

/-- Two calls whose equations, with the operands permuted, differ by a renaming have the same outcome. -/
theorem einsumCall_renamed {ins ins' : List Str} {r r' : Str} {ops ops' : List (Tensor R)} {f : Nat → Nat}
    (hne : ins ≠ []) (hl : PlainTerms ins r) (hl' : PlainTerms ins' r')
    (hlen : ins.length = ops.length) (hlen' : ins'.length = ops'.length)
    (hf : Set.InjOn f {c | c ∈ ins.flatten ++ r})
    (hp : (renameOps f (ins.zip ops)).Perm (ins'.zip ops')) (hr : r' = r.map f) :
    einsumCall false (einsumStrOf ins r) ops = einsumCall false (einsumStrOf ins' r') ops' := by
  have hlp := hp.length_eq
  have hne' : ins' ≠ [] := by
    rintro rfl
    simp only [renameOps, List.length_map, List.length_zip, List.length_nil] at hlp
    have : ins.length = 0 := by omega
    exact hne (List.length_eq_zero_iff.mp this)
  have h1 : ins = (ins.zip ops).map Prod.fst := by rw [List.map_fst_zip (by omega)]
  have h2 : ops = (ins.zip ops).map Prod.snd := by rw [List.map_snd_zip (by omega)]
  have h1' : ins' = (ins'.zip ops').map Prod.fst := by rw [List.map_fst_zip (by omega)]
  have h2' : ops' = (ins'.zip ops').map Prod.snd := by rw [List.map_snd_zip (by omega)]
  rw [einsumCall_eq hne hl, einsumCall_eq hne' hl']
  have hset : (ins'.flatten ++ r').toFinset = (ins.flatten ++ r).toFinset.image f := by
    ext c
    simp only [List.mem_toFinset, Finset.mem_image, List.mem_append, hr, List.mem_map]
    have hocc : c ∈ ins'.flatten ↔ ∃ x ∈ ins.flatten, f x = c := by
      have e1 : c ∈ ins'.flatten ↔ Occurs (ins'.zip ops') c := by
        conv_lhs => rw [h1']
        simp [Occurs]
      have e2 : ∀ x, x ∈ ins.flatten ↔ Occurs (ins.zip ops) x := by
        intro x
        conv_lhs => rw [h1]
        simp [Occurs]
      rw [e1, ← Occurs_perm hp, occurs_rename]
      simp only [e2]
    rw [hocc]
    constructor
    · rintro (⟨x, hx, rfl⟩ | ⟨x, hx, rfl⟩)
      · exact ⟨x, Or.inl hx, rfl⟩
      · exact ⟨x, Or.inr hx, rfl⟩
    · rintro ⟨x, hx | hx, rfl⟩
      · exact Or.inl ⟨x, hx, rfl⟩
      · exact Or.inr ⟨x, hx, rfl⟩
  have hcard : (ins'.flatten ++ r').toFinset.card = (ins.flatten ++ r).toFinset.card := by
    rw [hset, Finset.card_image_of_injOn]
    intro x hx y hy e
    apply hf _ _ e
    · simpa using hx
    · simpa using hy
  rw [hcard]
  have hcore : einsumCore ins r ops = einsumCore ins' r' ops' := by
    have e1 := einsumCore_rename (f := f) (P := ins.zip ops) (r := r) (by
      apply hf.mono
      rintro c (⟨p, hp, hc⟩ | hc)
      · simp only [Set.mem_ofPred_eq, List.mem_append, List.mem_flatten]
        exact Or.inl ⟨p.1, (List.of_mem_zip hp).1, hc⟩
      · simp [hc])
    have e2 := einsumCore_perm hp (r.map f)
    rw [← h1, ← h2] at e1
    rw [← h1', ← h2', e1, ← hr] at e2
    exact e2
  rw [hcore]

end OE
