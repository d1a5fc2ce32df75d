import Verif.Spec.Slices
import Verif.Props.Laws

/-!
# C90: contracting slice by slice
-/

namespace OE.Props
open OE OE.Py OE.Spec OE.Parser OE.Helpers OE.Contract

theorem zip_drop (c : Nat) {t : Str} {s : List Nat} (h : t.length = s.length) :
    (dropLabel c t).zip (dropAxes c t s) = (t.zip s).filter (fun p => p.1 ≠ c) := by
  unfold dropLabel dropAxes
  induction t generalizing s with
  | nil => rfl
  | cons b t ih =>
    cases s with
    | nil => simp at h
    | cons d s =>
      have hl : t.length = s.length := by simpa using h
      by_cases hb : b = c
      · have := ih hl
        simpa [hb] using this
      · have := ih hl
        simpa [hb] using this

theorem dropAxes_map (c : Nat) (g : Nat × Nat → Nat) {t : Str} {s : List Nat} (h : t.length = s.length) :
    dropAxes c t ((t.zip s).map g) = ((t.zip s).filter (fun p => p.1 ≠ c)).map g := by
  unfold dropAxes
  induction t generalizing s with
  | nil => rfl
  | cons b t ih =>
    cases s with
    | nil => simp at h
    | cons d s =>
      have hl : t.length = s.length := by simpa using h
      by_cases hb : b = c
      · have := ih hl
        simpa [hb] using this
      · have := ih hl
        simpa [hb] using this

theorem mem_dropLabel {c b : Nat} {t : Str} : b ∈ dropLabel c t ↔ b ∈ t ∧ b ≠ c := by simp [dropLabel]

theorem dropAxes_length (c : Nat) {t : Str} {s : List Nat} (h : t.length = s.length) : (dropAxes c t s).length = (dropLabel c t).length := by
  unfold dropLabel dropAxes
  induction t generalizing s with
  | nil => rfl
  | cons b t ih =>
    cases s with
    | nil => simp at h
    | cons d s =>
      have := ih (s := s) (by simpa using h)
      by_cases hb : b = c
      · simpa [hb] using this
      · simpa [hb] using this

section Sums
variable {R : Type} [CommSemiring R]

omit [CommSemiring R] in
/-- An entry of an operand is the entry of its slice. -/
theorem entry_slice {c x : Nat} {t : Str} {A B : Tensor R} (h : IsSlice c x t A B) (hl : t.length = A.shape.length) {env : Nat → Nat} (hc : env c = x)
    (hidx : ∀ (b d : Nat), (b, d) ∈ t.zip A.shape → d ≠ 1 → env b < d) :
    operandEntry t A env = operandEntry (dropLabel c t) B env := by
  unfold operandEntry
  rw [h.shape, zip_drop c hl, ← dropAxes_map c _ hl]
  symm
  apply h.val
  · refine ⟨by simp [hl], ?_⟩
    intro i d y e1 e2
    rw [List.getElem?_map] at e2
    obtain ⟨⟨b, d'⟩, e3, e4⟩ := Option.map_eq_some_iff.mp e2
    rw [List.getElem?_zip_eq_some] at e3
    simp only at e3
    rw [e1] at e3
    obtain ⟨e3, e5⟩ := e3
    cases e5
    simp only at e4
    split at e4
    · omega
    · rename_i hd
      rw [← e4]
      exact hidx b d (mem_zip_get.mpr ⟨i, e3, e1⟩) hd
  · intro i hi
    have hlt : i < A.shape.length := by rw [← hl]; exact (List.getElem?_eq_some_iff.mp hi).1
    rw [List.getElem?_map, List.getElem?_zip_eq_some.mpr (show t[i]? = some (c, A.shape[i]).1 ∧ A.shape[i]? = some (c, A.shape[i]).2 from
      ⟨hi, List.getElem?_eq_getElem hlt⟩), List.getElem?_eq_getElem hlt]
    simp [hc]

omit [CommSemiring R] in
theorem slice_hasDim {c x : Nat} {terms : List Str} {ops ops' : List (Tensor R)}
    (hrank : ∀ p ∈ terms.zip ops, p.1.length = p.2.shape.length) (h : AreSlices c x terms ops ops') (b d : Nat) :
    HasDim ((terms.map (dropLabel c)).zip ops') b d ↔ b ≠ c ∧ HasDim (terms.zip ops) b d := by
  unfold HasDim
  constructor
  · rintro ⟨p, hp, hd⟩
    obtain ⟨i, h1, h2⟩ := mem_zip_get.mp hp
    rw [List.getElem?_map] at h1
    obtain ⟨t, ht, h3⟩ := Option.map_eq_some_iff.mp h1
    have hi : i < ops.length := by rw [← h.1]; exact (List.getElem?_eq_some_iff.mp h2).1
    have ho := List.getElem?_eq_getElem hi
    have hm : (t, ops[i]) ∈ terms.zip ops := mem_zip_get.mpr ⟨i, ht, ho⟩
    have hs := h.2 i t _ _ ht ho h2
    rw [← h3, hs.shape, zip_drop c (hrank _ hm), List.mem_filter] at hd
    exact ⟨by simpa using hd.2, _, hm, hd.1⟩
  · rintro ⟨hb, p, hp, hd⟩
    obtain ⟨i, h1, h2⟩ := mem_zip_get.mp hp
    have hi : i < ops'.length := by rw [h.1]; exact (List.getElem?_eq_some_iff.mp h2).1
    have hs := h.2 i p.1 _ _ h1 h2 (List.getElem?_eq_getElem hi)
    refine ⟨(dropLabel c p.1, ops'[i]), mem_zip_get.mpr ⟨i, by simp [h1], by simp [hi]⟩, ?_⟩
    simp only
    rw [hs.shape, zip_drop c (hrank _ hp), List.mem_filter]
    exact ⟨hd, by simpa using hb⟩

omit [CommSemiring R] in
theorem slice_fit {size : Nat → Nat} {c x : Nat} {terms : List Str} {ops ops' : List (Tensor R)} (hlen : terms.length = ops.length)
    (hfit : Fits size (terms.zip ops)) (hnzo : ∀ b, HasDim (terms.zip ops) b 0 → ¬ HasDim (terms.zip ops) b 1) (h : AreSlices c x terms ops ops') :
    OperandsFit size (terms.map (dropLabel c)) (ops'.map Tensor.shape) := by
  have hd := slice_hasDim hfit.rank h
  have hlen' : (terms.map (dropLabel c)).length = ops'.length := by rw [List.length_map, h.1, hlen]
  have hocc : ∀ b, Occurs ((terms.map (dropLabel c)).zip ops') b → b ≠ c ∧ Occurs (terms.zip ops) b := by
    intro b hb
    obtain ⟨t', ht', hbt⟩ := (occurs_zip hlen').mp hb
    obtain ⟨t, ht, rfl⟩ := List.mem_map.mp ht'
    exact ⟨(mem_dropLabel.mp hbt).2, (occurs_zip hlen).mpr ⟨t, ht, (mem_dropLabel.mp hbt).1⟩⟩
  have hat : ∀ p ∈ (terms.map (dropLabel c)).zip ops', ∃ q ∈ terms.zip ops, p.1 = dropLabel c q.1 ∧ p.2.shape = dropAxes c q.1 q.2.shape := by
    intro p hp
    obtain ⟨i, h1, h2⟩ := mem_zip_get.mp hp
    rw [List.getElem?_map] at h1
    obtain ⟨t, ht, h3⟩ := Option.map_eq_some_iff.mp h1
    have hi : i < ops.length := by rw [← h.1]; exact (List.getElem?_eq_some_iff.mp h2).1
    have ho := List.getElem?_eq_getElem hi
    exact ⟨(t, ops[i]), mem_zip_get.mpr ⟨i, ht, ho⟩, h3.symm, (h.2 i t _ _ ht ho h2).shape⟩
  refine inv_operandsFit hlen' ⟨?_, ?_, ?_, ?_⟩ ?_
  · intro p hp
    obtain ⟨q, hq, e1, e2⟩ := hat p hp
    rw [e1, e2, dropAxes_length c (hfit.rank q hq)]
  · intro p hp b d d' g1 g2
    obtain ⟨q, hq, e1, e2⟩ := hat p hp
    rw [e1, e2, zip_drop c (hfit.rank q hq), List.mem_filter] at g1 g2
    exact hfit.diag q hq b d d' g1.1 g2.1
  · intro b d g
    exact hfit.dims b d ((hd b d).mp g).2
  · intro b hb
    obtain ⟨h1, h2⟩ := hocc b hb
    exact (hd b _).mpr ⟨h1, hfit.full b h2⟩
  · intro b g0 g1
    exact hnzo b ((hd b 0).mp g0).2 ((hd b 1).mp g1).2

/-- The product of the operands is that of the slices. -/
theorem prodVal_slice {size : Nat → Nat} {c x : Nat} {terms : List Str} {ops ops' : List (Tensor R)} (hlen : terms.length = ops.length)
    (hfit : Fits size (terms.zip ops)) (h : AreSlices c x terms ops ops') {env : Nat → Nat} (hc : env c = x)
    (henv : ∀ b, Occurs (terms.zip ops) b → env b < size b) :
    prodVal (terms.zip ops) env = prodVal ((terms.map (dropLabel c)).zip ops') env := by
  rw [prodVal_eq, prodVal_eq]
  congr 1
  apply List.ext_getElem
  · simp [h.1]
  · intro i g1 g2
    simp only [List.length_map, List.length_zip] at g1 g2
    have i1 : i < ops.length := by omega
    have i2 : i < ops'.length := by omega
    have i3 : i < terms.length := by omega
    simp only [List.getElem_map, List.getElem_zip]
    have hm : (terms[i], ops[i]) ∈ terms.zip ops := mem_zip_get.mpr ⟨i, by simp [i3], by simp [i1]⟩
    refine entry_slice (h.2 i _ _ _ (by simp [i3]) (by simp [i1]) (by simp [i2])) (hfit.rank _ hm) hc ?_
    intro b d hbd hd1
    have hD : HasDim (terms.zip ops) b d := ⟨_, hm, hbd⟩
    rcases hfit.dims b d hD with e | e
    · exact absurd e hd1
    · rw [e]; exact henv b hD.occurs

theorem prodVal_agree {L : List (Str × Tensor R)} {e e' : Nat → Nat} (h : ∀ b, Occurs L b → e b = e' b) : prodVal L e = prodVal L e' := by
  unfold prodVal
  congr 1
  apply List.map_congr_left
  intro p hp
  congr 1
  apply List.map_congr_left
  intro b hb
  exact h b ⟨p, hp, hb⟩

theorem envOf_lt {size : Nat → Nat} {out : Str} {coords : List Nat} (hi : IsIndex (out.map size) coords) {b : Nat} (hb : b ∈ out) :
    envOf out coords b < size b := by
  obtain ⟨h1, h2⟩ := isIndex_out hi
  have hlt : out.idxOf b < out.length := List.idxOf_lt_length_of_mem hb
  apply h2 (out.idxOf b) b
  · rw [List.getElem?_eq_getElem hlt, List.getElem_idxOf hlt]
  · simp [envOf, List.getD, List.getElem?_eq_getElem (show out.idxOf b < coords.length by omega)]

/-- A summed label: the Einstein sum is the sum of those of the slices. -/
theorem isEinsum_slices {size : Nat → Nat} {c : Nat} {terms : List Str} {out : Str} {ops : List (Tensor R)} {ops' : Nat → List (Tensor R)}
    (hlen : terms.length = ops.length) (hfit : Fits size (terms.zip ops)) (hc : c ∉ out) (hct : ∃ t ∈ terms, c ∈ t)
    (h : ∀ x < size c, AreSlices c x terms ops (ops' x)) {T : Tensor R} {T' : Nat → Tensor R} (hT : IsEinsum size terms out ops T)
    (hT' : ∀ x < size c, IsEinsum size (terms.map (dropLabel c)) out (ops' x) (T' x)) :
    (∀ x < size c, (T' x).shape = T.shape) ∧ ∀ coords, IsIndex T.shape coords → T.val coords = ∑ x ∈ Finset.range (size c), (T' x).val coords := by
  refine ⟨fun x hx => by rw [(hT' x hx).1, hT.1], fun coords hi => ?_⟩
  rw [hT.1] at hi
  obtain ⟨h1, h2⟩ := isIndex_out hi
  have hmi : ∀ b, b ∈ innerLabels terms out ↔ (∃ t ∈ terms, b ∈ t) ∧ b ∉ out := fun b => mem_innerLabels
  have hmi' : ∀ b, b ∈ innerLabels (terms.map (dropLabel c)) out ↔ ((∃ t ∈ terms, b ∈ t) ∧ b ≠ c) ∧ b ∉ out := by
    intro b
    rw [mem_innerLabels]
    apply and_congr_left'
    constructor
    · rintro ⟨t', ht', hb⟩
      obtain ⟨t, ht, rfl⟩ := List.mem_map.mp ht'
      exact ⟨⟨t, ht, (mem_dropLabel.mp hb).1⟩, (mem_dropLabel.mp hb).2⟩
    · rintro ⟨⟨t, ht, hb⟩, hne⟩
      exact ⟨_, List.mem_map.mpr ⟨t, ht, rfl⟩, mem_dropLabel.mpr ⟨hb, hne⟩⟩
  have hcn : c ∉ innerLabels (terms.map (dropLabel c)) out := fun hm => ((hmi' c).mp hm).1.2 rfl
  have hperm : (innerLabels terms out).Perm (c :: innerLabels (terms.map (dropLabel c)) out) := by
    rw [List.perm_ext_iff_of_nodup (innerLabels_nodup _ _) (List.nodup_cons.mpr ⟨hcn, innerLabels_nodup _ _⟩)]
    intro b
    rw [List.mem_cons, hmi, hmi']
    by_cases hb : b = c
    · subst hb; simp [hct, hc]
    · simp [hb]
  rw [hT.2 coords h1 h2, ← sumOver_spec, sumOver_perm hperm (innerLabels_nodup _ _)]
  simp only [sumOver]
  apply Finset.sum_congr rfl
  intro x hx
  have hx := Finset.mem_range.mp hx
  rw [(hT' x hx).2 coords h1 h2, ← sumOver_spec]
  have hlen' : (terms.map (dropLabel c)).length = (ops' x).length := by rw [List.length_map, (h x hx).1, hlen]
  rw [sumOver_env (e₁ := envOf out coords) (e₂ := upd (envOf out coords) c x) (P := fun b => b ≠ c) (fun e e' he => by
    apply prodVal_agree
    intro b hb
    obtain ⟨t', ht', hbt⟩ := (occurs_zip hlen').mp hb
    obtain ⟨t, ht, rfl⟩ := List.mem_map.mp ht'
    exact he b (mem_dropLabel.mp hbt).2) (fun b hb _ => (upd_ne _ _ _ _ hb).symm)]
  apply sumOver_congr_range
  intro e he1 he2
  refine prodVal_slice hlen hfit (h x hx) (by rw [he2 c hcn, upd_same]) ?_
  intro b hb
  by_cases hbi : b ∈ innerLabels (terms.map (dropLabel c)) out
  · exact he1 b hbi
  · rw [he2 b hbi]
    by_cases hbc : b = c
    · subst hbc; rw [upd_same]; exact hx
    · rw [upd_ne _ _ _ _ hbc]
      have hbo : b ∈ out := by
        by_contra hno
        exact hbi ((hmi' b).mpr ⟨⟨(occurs_zip hlen).mp hb, hbc⟩, hno⟩)
      exact envOf_lt hi hbo

theorem envOf_drop {c b : Nat} {out : Str} {coords : List Nat} (hl : coords.length = out.length) (hb : b ∈ out) (hbc : b ≠ c) :
    envOf (dropLabel c out) (dropAxes c out coords) b = envOf out coords b := by
  unfold envOf dropLabel dropAxes
  induction out generalizing coords with
  | nil => simp at hb
  | cons a out ih =>
    cases coords with
    | nil => simp at hl
    | cons y coords =>
      by_cases hab : a = b
      · subst hab
        simp [hbc]
      · have hb' : b ∈ out := by
          rcases List.mem_cons.mp hb with h | h
          · exact absurd h.symm hab
          · exact h
        have := ih (coords := coords) (by simpa using hl) hb'
        by_cases hac : a = c
        · simpa [hac, List.idxOf_cons_ne _ (fun e => hbc e.symm)] using this
        · simpa [hac, List.idxOf_cons_ne _ hab] using this

theorem map_dropLabel (c : Nat) (size : Nat → Nat) (out : Str) : (dropLabel c out).map size = dropAxes c out (out.map size) := by
  unfold dropLabel dropAxes
  induction out with
  | nil => rfl
  | cons a out ih =>
    by_cases ha : a = c
    · simpa [ha] using ih
    · simpa [ha] using ih

theorem dropAxes_isIndex (c : Nat) {size : Nat → Nat} {out : Str} {coords : List Nat} (hi : IsIndex (out.map size) coords) :
    IsIndex ((dropLabel c out).map size) (dropAxes c out coords) := by
  obtain ⟨h1, h2⟩ := isIndex_out hi
  refine ⟨by rw [List.length_map, dropAxes_length c h1.symm], ?_⟩
  intro i d y e1 e2
  rw [List.getElem?_map] at e1
  obtain ⟨b, hb, rfl⟩ := Option.map_eq_some_iff.mp e1
  have hm : (b, y) ∈ (dropLabel c out).zip (dropAxes c out coords) := mem_zip_get.mpr ⟨i, hb, e2⟩
  rw [zip_drop c h1.symm, List.mem_filter] at hm
  obtain ⟨j, h3, h4⟩ := mem_zip_get.mp hm.1
  exact h2 j b y h3 h4

/-- A label of the output: the Einstein sum of the slices is the slice of the Einstein sum. -/
theorem isEinsum_slice_out {size : Nat → Nat} {c x : Nat} {terms : List Str} {out : Str} {ops ops' : List (Tensor R)}
    (hlen : terms.length = ops.length) (hfit : Fits size (terms.zip ops)) (hc : c ∈ out) (hx : x < size c)
    (h : AreSlices c x terms ops ops') {T T' : Tensor R} (hT : IsEinsum size terms out ops T)
    (hT' : IsEinsum size (terms.map (dropLabel c)) (dropLabel c out) ops' T') : IsSlice c x out T T' := by
  refine ⟨by rw [hT'.1, hT.1, map_dropLabel], fun coords hi hcx => ?_⟩
  rw [hT.1] at hi hcx
  obtain ⟨h1, h2⟩ := isIndex_out hi
  obtain ⟨h1', h2'⟩ := isIndex_out (dropAxes_isIndex c hi)
  have hcn : c ∉ innerLabels (terms.map (dropLabel c)) (dropLabel c out) := by
    rw [mem_innerLabels]
    rintro ⟨⟨t', ht', hb⟩, -⟩
    obtain ⟨t, ht, rfl⟩ := List.mem_map.mp ht'
    exact (mem_dropLabel.mp hb).2 rfl
  have hmi' : ∀ b, b ∈ innerLabels (terms.map (dropLabel c)) (dropLabel c out) ↔ (∃ t ∈ terms, b ∈ t) ∧ b ∉ out := by
    intro b
    rw [mem_innerLabels]
    constructor
    · rintro ⟨⟨t', ht', hb⟩, hno⟩
      obtain ⟨t, ht, rfl⟩ := List.mem_map.mp ht'
      obtain ⟨g1, g2⟩ := mem_dropLabel.mp hb
      exact ⟨⟨t, ht, g1⟩, fun ho => hno (mem_dropLabel.mpr ⟨ho, g2⟩)⟩
    · rintro ⟨⟨t, ht, hb⟩, hno⟩
      have hne : b ≠ c := fun e => hno (e ▸ hc)
      exact ⟨⟨_, List.mem_map.mpr ⟨t, ht, rfl⟩, mem_dropLabel.mpr ⟨hb, hne⟩⟩, fun ho => hno (mem_dropLabel.mp ho).1⟩
  have hperm : (innerLabels terms out).Perm (innerLabels (terms.map (dropLabel c)) (dropLabel c out)) := by
    rw [List.perm_ext_iff_of_nodup (innerLabels_nodup _ _) (innerLabels_nodup _ _)]
    intro b
    rw [hmi', mem_innerLabels]
  have hlen' : (terms.map (dropLabel c)).length = ops'.length := by rw [List.length_map, h.1, hlen]
  have hocc : ∀ b, Occurs ((terms.map (dropLabel c)).zip ops') b → (∃ t ∈ terms, b ∈ t) ∧ b ≠ c := by
    intro b hb
    obtain ⟨t', ht', hbt⟩ := (occurs_zip hlen').mp hb
    obtain ⟨t, ht, rfl⟩ := List.mem_map.mp ht'
    exact ⟨⟨t, ht, (mem_dropLabel.mp hbt).1⟩, (mem_dropLabel.mp hbt).2⟩
  have hec : envOf out coords c = x := by
    have hlt : out.idxOf c < out.length := List.idxOf_lt_length_of_mem hc
    have hg : out[out.idxOf c]? = some c := by rw [List.getElem?_eq_getElem hlt, List.getElem_idxOf hlt]
    have := hcx _ hg
    simp only [envOf, List.getD, this, Option.getD_some, List.getElem?_map, hg, Option.map_some, Option.some.injEq]
    split
    · omega
    · rfl
  rw [hT'.2 _ h1' h2', hT.2 coords h1 h2, ← sumOver_spec, ← sumOver_spec, sumOver_perm hperm (innerLabels_nodup _ _)]
  rw [sumOver_env (e₁ := envOf (dropLabel c out) (dropAxes c out coords)) (e₂ := envOf out coords)
    (P := fun b => Occurs ((terms.map (dropLabel c)).zip ops') b) (fun e e' he => prodVal_agree (fun b hb => he b hb)) (fun b hb hbi => by
      obtain ⟨g1, g2⟩ := hocc b hb
      have hbo : b ∈ out := by
        by_contra hno
        exact hbi ((hmi' b).mpr ⟨g1, hno⟩)
      exact envOf_drop h1 hbo g2)]
  symm
  apply sumOver_congr_range
  intro e he1 he2
  refine prodVal_slice hlen hfit h (by rw [he2 c hcn, hec]) ?_
  intro b hb
  by_cases hbi : b ∈ innerLabels (terms.map (dropLabel c)) (dropLabel c out)
  · exact he1 b hbi
  · rw [he2 b hbi]
    have hbo : b ∈ out := by
      by_contra hno
      exact hbi ((hmi' b).mpr ⟨(occurs_zip hlen).mp hb, hno⟩)
    exact envOf_lt hi hbo

omit [CommSemiring R] in
theorem slice_labels {c : Nat} {terms : List Str} {n : Nat} (h : terms.flatten.toFinset.card ≤ n) :
    (terms.map (dropLabel c)).flatten.toFinset.card ≤ n := by
  refine (Finset.card_le_card ?_).trans h
  intro b hb
  rw [List.mem_toFinset, List.mem_flatten] at hb ⊢
  obtain ⟨t', ht', hbt⟩ := hb
  obtain ⟨t, ht, rfl⟩ := List.mem_map.mp ht'
  exact ⟨t, ht, (mem_dropLabel.mp hbt).1⟩

/-- **C90, a summed label.** Contracting the slices of the operands along a label that is summed over, one call for each position, and adding the
results gives the result of the one call for the whole operands. The calls for the slices return; paths, memory limits, `use_blas` and backends
of the calls are independent of each other. -/
theorem C90_summed (size : Nat → Nat) (eq : Str) (ops : List (Tensor R)) (inp out : Str)
    (hparse : parseEinsum eq (ops.map Tensor.shape) = .ok (inp, out)) (hcomma : cComma ∉ out)
    (hfit : OperandsFit size (splitOn cComma inp) (ops.map Tensor.shape)) (hlab : (splitOn cComma inp).flatten.toFinset.card ≤ 52)
    {c : Nat} (hc : c ∉ out) (hct : ∃ t ∈ splitOn cComma inp, c ∈ t)
    -- the calls for the slices
    {ops' : Nat → List (Tensor R)} (hs : ∀ x < size c, AreSlices c x (splitOn cComma inp) ops (ops' x)) {eq' inp' : Str}
    (hparse' : ∀ x < size c, parseEinsum eq' ((ops' x).map Tensor.shape) = .ok (inp', out))
    (hterms : splitOn cComma inp' = (splitOn cComma inp).map (dropLabel c))
    {opt' : Nat → Optimize} {mem' : Nat → MemLimit} (hmem' : ∀ x < size c, ValidMemory (mem' x))
    (hopt' : ∀ x < size c, ChoosesComplete (opt' x) size (splitOn cComma inp') out) :
    (∀ x < size c, ∀ ub, ∃ T, contract false eq' (ops' x) (opt' x) (mem' x) ub = .ok T) ∧
    ∀ (ub' ne' : Nat → Bool) (T' : Nat → Tensor R), (∀ x < size c, contract (ne' x) eq' (ops' x) (opt' x) (mem' x) (ub' x) = .ok (T' x)) →
      -- the call for all
      ∀ (opt : Optimize) (mem : MemLimit), ValidMemory mem → ChoosesComplete opt size (splitOn cComma inp) out →
      ∀ ub ne T, contract ne eq ops opt mem ub = .ok T →
        (∀ x < size c, (T' x).shape = T.shape) ∧
        ∀ coords, IsIndex T.shape coords → T.val coords = ∑ x ∈ Finset.range (size c), (T' x).val coords := by
  have hw := wellPosed_of_parse hparse hcomma hfit
  have hlen : (splitOn cComma inp).length = ops.length := by simpa using hw.len
  have hinv : Inv size out ((splitOn cComma inp).zip ops) := inv_of_wellPosed hw
  have hfit' : ∀ x < size c, OperandsFit size (splitOn cComma inp') ((ops' x).map Tensor.shape) := by
    intro x hx
    rw [hterms]
    exact slice_fit hlen hinv.fits hinv.nzo (hs x hx)
  constructor
  · intro x hx ub
    obtain ⟨T, h, -⟩ := C01_contract size eq' (ops' x) inp' out (hparse' x hx) hcomma (hfit' x hx) (by rw [hterms]; exact slice_labels hlab)
      (opt' x) (mem' x) (hmem' x hx) (hopt' x hx) ub
    exact ⟨T, h⟩
  intro ub' ne' T' hT' opt mem hmem hopt ub ne T hT
  refine isEinsum_slices hlen hinv.fits hc hct hs (C01_contract_returns size eq ops inp out hparse hfit opt mem hmem hopt ub ne T hT) ?_
  intro x hx
  rw [← hterms]
  exact C01_contract_returns size eq' (ops' x) inp' out (hparse' x hx) (hfit' x hx) (opt' x) (mem' x) (hmem' x hx) (hopt' x hx) (ub' x) (ne' x) (T' x) (hT' x hx)

/-- **C90, a label of the output.** Contracting the slices of the operands along a label of the output gives the slice of the result. -/
theorem C90_output (size : Nat → Nat) (eq : Str) (ops : List (Tensor R)) (inp out : Str)
    (hparse : parseEinsum eq (ops.map Tensor.shape) = .ok (inp, out)) (hcomma : cComma ∉ out)
    (hfit : OperandsFit size (splitOn cComma inp) (ops.map Tensor.shape)) (hlab : (splitOn cComma inp).flatten.toFinset.card ≤ 52)
    {c x : Nat} (hc : c ∈ out) (hx : x < size c)
    -- the call for the slices
    {ops' : List (Tensor R)} (hs : AreSlices c x (splitOn cComma inp) ops ops') {eq' inp' : Str}
    (hparse' : parseEinsum eq' (ops'.map Tensor.shape) = .ok (inp', dropLabel c out))
    (hterms : splitOn cComma inp' = (splitOn cComma inp).map (dropLabel c))
    {opt' : Optimize} {mem' : MemLimit} (hmem' : ValidMemory mem') (hopt' : ChoosesComplete opt' size (splitOn cComma inp') (dropLabel c out)) :
    (∀ ub, ∃ T, contract false eq' ops' opt' mem' ub = .ok T) ∧
    ∀ ub' ne' T', contract ne' eq' ops' opt' mem' ub' = .ok T' →
      -- the call for all
      ∀ (opt : Optimize) (mem : MemLimit), ValidMemory mem → ChoosesComplete opt size (splitOn cComma inp) out →
      ∀ ub ne T, contract ne eq ops opt mem ub = .ok T → IsSlice c x out T T' := by
  have hw := wellPosed_of_parse hparse hcomma hfit
  have hlen : (splitOn cComma inp).length = ops.length := by simpa using hw.len
  have hinv : Inv size out ((splitOn cComma inp).zip ops) := inv_of_wellPosed hw
  have hfit' : OperandsFit size (splitOn cComma inp') (ops'.map Tensor.shape) := by
    rw [hterms]
    exact slice_fit hlen hinv.fits hinv.nzo hs
  constructor
  · intro ub
    obtain ⟨T, h, -⟩ := C01_contract size eq' ops' inp' (dropLabel c out) hparse' (fun hm => hcomma (mem_dropLabel.mp hm).1) hfit'
      (by rw [hterms]; exact slice_labels hlab) opt' mem' hmem' hopt' ub
    exact ⟨T, h⟩
  intro ub' ne' T' hT' opt mem hmem hopt ub ne T hT
  refine isEinsum_slice_out hlen hinv.fits hc hx hs (C01_contract_returns size eq ops inp out hparse hfit opt mem hmem hopt ub ne T hT) ?_
  rw [← hterms]
  exact C01_contract_returns size eq' ops' inp' (dropLabel c out) hparse' hfit' opt' mem' hmem' hopt' ub' ne' T' hT'

end Sums

/-! ## Concrete cases -/

/-- A slice made by numpy's indexing: the first axis of a matrix. -/
theorem slice_first {R : Type} (c b x n m : Nat) (hbc : b ≠ c) (hn : n ≠ 1) (A : Tensor R) (hA : A.shape = [n, m]) :
    IsSlice c x [c, b] A ⟨[m], fun i => A.val (x :: i)⟩ := by
  refine ⟨by simp [dropAxes, hA, hbc], fun coords hi hc => ?_⟩
  have h0 := hc 0 rfl
  have hl := hi.1
  rw [hA] at hl h0
  match coords, hl with
  | [i, j], _ =>
    simp [hn] at h0
    simp [dropAxes, hbc, h0]

/-- The last axis of a matrix. -/
theorem slice_last {R : Type} (c a x n m : Nat) (hac : a ≠ c) (hm : m ≠ 1) (A : Tensor R) (hA : A.shape = [n, m]) :
    IsSlice c x [a, c] A ⟨[n], fun i => A.val (i ++ [x])⟩ := by
  refine ⟨by simp [dropAxes, hA, hac], fun coords hi hc => ?_⟩
  have h0 := hc 1 rfl
  have hl := hi.1
  rw [hA] at hl h0
  match coords, hl with
  | [i, j], _ =>
    simp [hm] at h0
    simp [dropAxes, hac, h0]

-- 'ab,bc->ac' as the sum over b of 'a,c->ac'
example (A B : Tensor ℤ) (hA : A.shape = [2, 3]) (hB : B.shape = [3, 4]) (T : Tensor ℤ) (T' : Nat → Tensor ℤ)
    (h : contract false (S "ab,bc->ac") [A, B] (.path [[0, 1]]) .none true = .ok T)
    (h' : ∀ x < 3, contract false (S "a,c->ac") [⟨[2], fun i => A.val (i ++ [x])⟩, ⟨[4], fun i => B.val (x :: i)⟩] (.path [[0, 1]]) .none false = .ok (T' x)) :
    ∀ coords, IsIndex T.shape coords → T.val coords = (T' 0).val coords + (T' 1).val coords + (T' 2).val coords := by
  have e1 : splitOn cComma (S "ab,bc") = [S "ab", S "bc"] := by decide +kernel
  have key := C90_summed (R := ℤ) lawSizes (S "ab,bc->ac") [A, B] (S "ab,bc") (S "ac")
    (by simp only [List.map_cons, List.map_nil, hA, hB]; decide +kernel) (by decide +kernel)
    (by simp only [List.map_cons, List.map_nil, hA, hB]; apply operandsFit_of_list <;> decide +kernel) (by decide +kernel)
    (c := 98) (by decide +kernel) (by decide +kernel)
    (ops' := fun x => [⟨[2], fun i => A.val (i ++ [x])⟩, ⟨[4], fun i => B.val (x :: i)⟩])
    (fun x hx => ⟨rfl, fun i t P Q h1 h2 h3 => by
      rw [e1] at h1
      match i with
      | 0 => cases h1; cases h2; cases h3; exact slice_last 98 97 x 2 3 (by decide) (by decide) A hA
      | 1 => cases h1; cases h2; cases h3; exact slice_first 98 99 x 3 4 (by decide) (by decide) B hB
      | i + 2 => simp at h2⟩)
    (eq' := S "a,c->ac") (inp' := S "a,c") (fun x _ => by simp only [List.map_cons, List.map_nil]; decide +kernel) (by decide +kernel)
    (opt' := fun _ => .path [[0, 1]]) (mem' := fun _ => .none) (fun _ _ => trivial)
    (fun _ _ => by simp only [ChoosesComplete, CompletePath, ValidStep]; decide +kernel)
  have := (key.2 (fun _ => false) (fun _ => false) T' h' (.path [[0, 1]]) .none trivial
    (by simp only [ChoosesComplete, CompletePath, ValidStep]; decide +kernel) true false T h).2
  intro coords hi
  rw [this coords hi]
  have : lawSizes 98 = 3 := rfl
  rw [this, Finset.sum_range_succ, Finset.sum_range_succ, Finset.sum_range_one]

-- 'ab,bc->ac' for one row of the first matrix
example (A B : Tensor ℤ) (hA : A.shape = [2, 3]) (hB : B.shape = [3, 4]) (T T' : Tensor ℤ)
    (h : contract false (S "ab,bc->ac") [A, B] (.path [[0, 1]]) .none true = .ok T)
    (h' : contract false (S "b,bc->c") [⟨[3], fun i => A.val (1 :: i)⟩, B] (.path [[0, 1]]) .none true = .ok T') : IsSlice 97 1 (S "ac") T T' := by
  have e1 : splitOn cComma (S "ab,bc") = [S "ab", S "bc"] := by decide +kernel
  refine (C90_output (R := ℤ) lawSizes (S "ab,bc->ac") [A, B] (S "ab,bc") (S "ac")
    (by simp only [List.map_cons, List.map_nil, hA, hB]; decide +kernel) (by decide +kernel)
    (by simp only [List.map_cons, List.map_nil, hA, hB]; apply operandsFit_of_list <;> decide +kernel) (by decide +kernel)
    (c := 97) (x := 1) (by decide +kernel) (by decide +kernel)
    (ops' := [⟨[3], fun i => A.val (1 :: i)⟩, B])
    ⟨rfl, fun i t P Q h1 h2 h3 => by
      rw [e1] at h1
      match i with
      | 0 => cases h1; cases h2; cases h3; exact slice_first 97 98 1 2 3 (by decide) (by decide) A hA
      | 1 =>
        cases h1; cases h2; cases h3
        refine ⟨by rw [hB]; decide +kernel, fun coords hi _ => ?_⟩
        have hl := hi.1
        rw [hB] at hl
        match coords, hl with
        | [i, j], _ => rfl
      | i + 2 => simp at h2⟩
    (eq' := S "b,bc->c") (inp' := S "b,bc") (by simp only [List.map_cons, List.map_nil, hB]; decide +kernel) (by decide +kernel)
    (opt' := .path [[0, 1]]) (mem' := .none) trivial
    (by simp only [ChoosesComplete, CompletePath, ValidStep]; decide +kernel)).2 true false T' h' (.path [[0, 1]]) .none trivial
    (by simp only [ChoosesComplete, CompletePath, ValidStep]; decide +kernel) true false T h

end OE.Props
