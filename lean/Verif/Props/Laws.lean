import Verif.Spec.Laws
import Verif.Lemmas.ArrayCongr
import Verif.Props.Contract3

/-!
# C88: the laws of the Einstein sum hold between calls of `contract`
-/

namespace OE.Props
open OE OE.Py OE.Spec OE.Parser OE.Helpers OE.Contract

section Sums
variable {R : Type} [CommSemiring R]

theorem isEinsum_perm {size : Nat → Nat} {terms terms' : List Str} {out : Str} {ops ops' : List (Tensor R)} {T : Tensor R}
    (hlen : terms.length = ops.length) (hlen' : terms'.length = ops'.length) (hp : (terms.zip ops).Perm (terms'.zip ops'))
    (h : IsEinsum size terms out ops T) : IsEinsum size terms' out ops' T := by
  have ht : terms.Perm terms' := by
    have := hp.map Prod.fst
    rwa [List.map_fst_zip (by omega), List.map_fst_zip (by omega)] at this
  have hs : summed terms' out = summed terms out := by
    unfold summed
    congr 1
    ext c
    simp only [List.mem_toFinset, List.mem_flatten]
    exact ⟨fun ⟨t, h1, h2⟩ => ⟨t, ht.mem_iff.mpr h1, h2⟩, fun ⟨t, h1, h2⟩ => ⟨t, ht.mem_iff.mp h1, h2⟩⟩
  refine ⟨h.1, fun coords h1 h2 => ?_⟩
  rw [h.2 coords h1 h2, hs]
  apply Finset.sum_congr rfl
  intro v _
  exact (hp.map _).prod_eq

omit [CommSemiring R] in
theorem inv_operandsFit {size : Nat → Nat} {terms : List Str} {ops : List (Tensor R)} (hlen : terms.length = ops.length)
    (h : Fits size (terms.zip ops)) (hnzo : ∀ c, HasDim (terms.zip ops) c 0 → ¬ HasDim (terms.zip ops) c 1) :
    OperandsFit size terms (ops.map Tensor.shape) := by
  have hat : ∀ (i : Nat) (t : Str) (s : Shape), terms[i]? = some t → (ops.map Tensor.shape)[i]? = some s →
      ∃ A, A.shape = s ∧ (t, A) ∈ terms.zip ops := by
    intro i t s h1 h2
    rw [List.getElem?_map] at h2
    cases ho : ops[i]? with
    | none => rw [ho] at h2; cases h2
    | some A =>
      rw [ho] at h2
      exact ⟨A, Option.some.inj h2, mem_zip_get.mpr ⟨i, h1, ho⟩⟩
  refine ⟨?_, ?_, ?_, ?_⟩
  · intro i t s h1 h2
    obtain ⟨A, rfl, hm⟩ := hat i t s h1 h2
    exact (h.rank _ hm).symm
  · intro t ht c hc
    refine ⟨hasDim_iff.mp (h.full c ((occurs_zip hlen).mpr ⟨t, ht, hc⟩)), fun d hd => h.dims c d (hasDim_iff.mpr hd)⟩
  · intro i j k t s c d d' h1 h2 h3 h4 h5 h6
    obtain ⟨A, rfl, hm⟩ := hat i t s h1 h2
    exact h.diag _ hm c d d' (mem_zip_get.mpr ⟨j, h3, h5⟩) (mem_zip_get.mpr ⟨k, h4, h6⟩)
  · rintro c ⟨h0, h1⟩
    exact hnzo c (hasDim_iff.mpr h0) (hasDim_iff.mpr h1)

/-- Contracting some operands to labels that include those needed keeps the invariant and the sum. -/
theorem nested_step {size : Nat → Nat} {output : Str} {P Q : List (Str × Tensor R)} (h : Inv size output (P ++ Q)) {r : Str}
    (hrP : ∀ c ∈ r, Occurs P c) (hneed : ∀ c, Occurs P c → (c ∈ output ∨ Occurs Q c) → c ∈ r) {T : Tensor R} (hT : IsContraction size P r T) :
    Inv size output (Q ++ [(r, T)]) ∧ ∀ env, totalSum size output (Q ++ [(r, T)]) env = totalSum size output (P ++ Q) env := by
  have hfit := h.fits.sub (P := P) (fun p hp => List.mem_append_left _ hp)
  have hone : ∀ c d, HasDim [(r, T)] c d ↔ c ∈ r ∧ d = localSize P c := by
    intro c d
    simp only [HasDim, List.mem_singleton, exists_eq_left, hT.shape]
    exact mem_zip_map_right
  have hocc1 : ∀ c, Occurs [(r, T)] c ↔ c ∈ r := by intro c; simp [Occurs]
  have hback : ∀ c d, HasDim (Q ++ [(r, T)]) c d → HasDim (P ++ Q) c d := by
    intro c d hd
    rw [HasDim_append, hone] at hd
    rw [HasDim_append]
    rcases hd with hd | ⟨hc, rfl⟩
    · right; exact hd
    · left; exact hfit.full c (hrP c hc)
  have hoback : ∀ c, Occurs (Q ++ [(r, T)]) c → Occurs (P ++ Q) c := by
    intro c hc
    rw [Occurs_append, hocc1] at hc
    rw [Occurs_append]
    exact hc.symm.imp_left (hrP c)
  refine ⟨⟨⟨?_, ?_, ?_, ?_⟩, ?_, ?_, ?_⟩, ?_⟩
  · intro p hp
    rw [List.mem_append, List.mem_singleton] at hp
    rcases hp with hp | rfl
    · exact h.fits.rank p (List.mem_append_right _ hp)
    · rw [hT.shape]; simp
  · intro p hp
    rw [List.mem_append, List.mem_singleton] at hp
    rcases hp with hp | rfl
    · exact h.fits.diag p (List.mem_append_right _ hp)
    · intro c d d' h1 h2
      rw [hT.shape] at h1 h2
      rw [(mem_zip_map_right.mp h1).2, (mem_zip_map_right.mp h2).2]
  · intro c d hd; exact h.fits.dims c d (hback c d hd)
  · intro c hc
    have hf := h.fits.full c (hoback c hc)
    rw [HasDim_append] at hf
    rw [HasDim_append, hone]
    rcases hf with hf | hf
    · right
      rw [Occurs_append, hocc1] at hc
      have hcr : c ∈ r := by
        rcases hc with hc | hc
        · exact hneed c hf.occurs (Or.inr hc)
        · exact hc
      exact ⟨hcr, (localSize_eq h.fits (fun p hp => List.mem_append_left _ hp) hf).symm⟩
    · left; exact hf
  · intro c h0 h1; exact h.nzo c (hback c 0 h0) (hback c 1 h1)
  · intro c hc; exact h.punct c (hoback c hc)
  · intro c hc
    have := h.out c hc
    rw [Occurs_append] at this
    rw [Occurs_append, hocc1]
    rcases this with h1 | h1
    · right; exact hneed c h1 (Or.inl hc)
    · left; exact h1
  intro env
  rw [totalSum_perm (List.perm_append_comm : (P ++ Q).Perm (Q ++ P))]
  unfold totalSum
  have hmi : ∀ c, c ∈ innerLabels ((Q ++ P).map Prod.fst) output ↔ (Occurs Q c ∨ Occurs P c) ∧ c ∉ output := by
    intro c; rw [mem_innerLabels, occurs_iff, Occurs_append]
  have hmi' : ∀ c, c ∈ innerLabels ((Q ++ [(r, T)]).map Prod.fst) output ↔ (Occurs Q c ∨ c ∈ r) ∧ c ∉ output := by
    intro c; rw [mem_innerLabels, occurs_iff, Occurs_append, hocc1]
  have hmr : ∀ c, c ∈ innerLabels (P.map Prod.fst) r ↔ Occurs P c ∧ c ∉ r := by
    intro c; rw [mem_innerLabels, occurs_iff]
  rw [sumOver_contract (P := P) (Q := Q) (inner := innerLabels ((Q ++ P).map Prod.fst) output)
    (inner' := innerLabels ((Q ++ [(r, T)]).map Prod.fst) output) (rm := innerLabels (P.map Prod.fst) r) _ (innerLabels_nodup _ _)]
  · apply sumOver_congr_fun
    intro e
    rw [prodVal_append, prodVal_cons, prodVal_nil, mul_one]
    simp only
    rw [hT.get e]
  · intro c hc hQ
    rw [hmr] at hc
    exact hc.2 (hneed c hc.1 (Or.inr hQ))
  · rw [List.perm_ext_iff_of_nodup (innerLabels_nodup _ _)]
    · intro c
      rw [List.mem_append, hmi, hmi', hmr]
      constructor
      · rintro ⟨hc, ho⟩
        by_cases hr : c ∈ r
        · exact Or.inl ⟨Or.inr hr, ho⟩
        · rcases hc with hc | hc
          · exact Or.inl ⟨Or.inl hc, ho⟩
          · exact Or.inr ⟨hc, hr⟩
      · rintro (⟨hc, ho⟩ | ⟨hP, hno⟩)
        · exact ⟨hc.imp_right (hrP c), ho⟩
        · exact ⟨Or.inr hP, fun ho => hno (hneed c hP (Or.inl ho))⟩
    · rw [List.nodup_append]
      refine ⟨innerLabels_nodup _ _, innerLabels_nodup _ _, ?_⟩
      rintro a ha b hb rfl
      rw [hmi'] at ha
      rw [hmr] at hb
      rcases ha.1 with h1 | h1
      · exact hb.2 (hneed a hb.1 (Or.inr h1))
      · exact hb.2 h1

omit [CommSemiring R] in
theorem zip_pairs (P : List (Str × Tensor R)) : (P.map Prod.fst).zip (P.map Prod.snd) = P := zip_map_fst_snd P

/-- The Einstein sum of the whole from that of a part and that of the rest with it. -/
theorem isEinsum_nested {size : Nat → Nat} {output : Str} {P Q : List (Str × Tensor R)} (h : Inv size output (P ++ Q)) {r : Str} (hn : r.Nodup)
    (hrP : ∀ c ∈ r, Occurs P c) (hneed : ∀ c, Occurs P c → (c ∈ output ∨ Occurs Q c) → c ∈ r) {T₁ : Tensor R}
    (hT₁ : IsEinsum (localSize P) (P.map Prod.fst) r (P.map Prod.snd) T₁) :
    Inv size output (Q ++ [(r, T₁)]) ∧ ∀ T₂, IsEinsum size ((Q ++ [(r, T₁)]).map Prod.fst) output ((Q ++ [(r, T₁)]).map Prod.snd) T₂ →
      IsEinsum size ((P ++ Q).map Prod.fst) output ((P ++ Q).map Prod.snd) T₂ := by
  have hfit := h.fits.sub (P := P) (fun p hp => List.mem_append_left _ hp)
  obtain ⟨T, hcore, hT⟩ := einsumCore_contraction hfit hn hrP (fun c hc hcr =>
    localSize_removed h hc (fun hQ => hcr (hneed c hc (Or.inr hQ))))
  obtain ⟨T', hcore', hT'⟩ := einsumCore_contraction (size := localSize P) hfit hn hrP (fun _ _ _ => rfl)
  have hTT : T' = T := by rw [hcore] at hcore'; exact (Except.ok.inj hcore').symm
  subst hTT
  have hsame : SameArray T₁ T' := by
    refine isEinsum_unique hT₁ (isEinsum_of_total (by simp) hn ?_)
    rw [zip_pairs]
    exact ⟨hT'.shape, hT'.get⟩
  obtain ⟨hinv, htot⟩ := nested_step h hrP hneed hT
  have hinv₁ : Inv size output (Q ++ [(r, T₁)]) := by
    have hd : ∀ c d, HasDim (Q ++ [(r, T₁)]) c d ↔ HasDim (Q ++ [(r, T')]) c d := by
      intro c d
      rw [HasDim_append, HasDim_append]
      simp only [HasDim, List.mem_singleton, exists_eq_left, hsame.1]
    have ho : ∀ c, Occurs (Q ++ [(r, T₁)]) c ↔ Occurs (Q ++ [(r, T')]) c := by
      intro c
      rw [Occurs_append, Occurs_append]
      simp [Occurs]
    refine ⟨⟨?_, ?_, fun c d hd' => hinv.fits.dims c d ((hd c d).mp hd'), fun c hc => (hd _ _).mpr (hinv.fits.full c ((ho c).mp hc))⟩,
      fun c h0 h1 => hinv.nzo c ((hd _ _).mp h0) ((hd _ _).mp h1), fun c hc => hinv.punct c ((ho c).mp hc), fun c hc => (ho c).mpr (hinv.out c hc)⟩
    · intro p hp
      rw [List.mem_append, List.mem_singleton] at hp
      rcases hp with hp | rfl
      · exact h.fits.rank p (List.mem_append_right _ hp)
      · rw [hT₁.1]; simp
    · intro p hp
      rw [List.mem_append, List.mem_singleton] at hp
      rcases hp with hp | rfl
      · exact h.fits.diag p (List.mem_append_right _ hp)
      · have := hinv.fits.diag (r, T') (by simp)
        rw [← hsame.1] at this
        exact this
  refine ⟨hinv₁, fun T₂ h₂ => ?_⟩
  have hfit₂ := inv_operandsFit (terms := (Q ++ [(r, T')]).map Prod.fst) (ops := (Q ++ [(r, T')]).map Prod.snd) (size := size) (by simp)
    (by rw [zip_pairs]; exact hinv.fits) (by rw [zip_pairs]; exact hinv.nzo)
  have h₂' : IsEinsum size ((Q ++ [(r, T')]).map Prod.fst) output ((Q ++ [(r, T')]).map Prod.snd) T₂ := by
    apply isEinsum_congr (as := (Q ++ [(r, T₁)]).map Prod.snd) _ (by simp) hfit₂
    · simpa using h₂
    · rw [List.map_append, List.map_append]
      apply List.rel_append
      · exact List.forall₂_same.mpr (fun x _ => SameArray.refl x)
      · simpa using hsame
  refine ⟨h₂'.1, fun coords h1 h2 => ?_⟩
  rw [h₂'.2 coords h1 h2, ← sumOver_spec, ← sumOver_spec, zip_pairs, zip_pairs]
  exact htot (envOf output coords)

omit [CommSemiring R] in
theorem choosesComplete_size {opt : Optimize} {size size' : Nat → Nat} {inputs : List Str} {output : Str} (h : ∀ t ∈ inputs, ∀ c ∈ t, size c = size' c)
    (ho : ChoosesComplete opt size inputs output) : ChoosesComplete opt size' inputs output := by
  cases opt with
  | off => exact ho
  | path p => exact ho
  | finder f =>
    intro h2 d m hd
    exact ho h2 d m (fun t ht c hc => by rw [h t ht c hc]; exact hd t ht c hc)

/-- **C88, nesting.** Some of the operands of a contraction, `P`, may be contracted first in a call of their own, to an array with any distinct labels of theirs that include those needed
afterwards (labels of the output and of the other operands `Q`): this call returns, and contracting its result with the other operands, in any order, returns what the one
contraction of all operands returns. Paths, memory limits, `use_blas` and backends of the three calls are independent of each other. Axes of length 1 may broadcast in any of the calls. -/
theorem C88_nested (size : Nat → Nat) (eq : Str) (ops : List (Tensor R)) (inp out : Str)
    (hparse : parseEinsum eq (ops.map Tensor.shape) = .ok (inp, out)) (hcomma : cComma ∉ out)
    (hfit : OperandsFit size (splitOn cComma inp) (ops.map Tensor.shape)) (hlab : (splitOn cComma inp).flatten.toFinset.card ≤ 52)
    {P Q : List (Str × Tensor R)} (hperm : ((splitOn cComma inp).zip ops).Perm (P ++ Q))
    -- the call for the part
    (size₁ : Nat → Nat) (hsize₁ : ∀ c s, IsLabelSize (P.map Prod.fst) ((P.map Prod.snd).map Tensor.shape) c s → size₁ c = s)
    {eq₁ inp₁ r : Str} (hparse₁ : parseEinsum eq₁ ((P.map Prod.snd).map Tensor.shape) = .ok (inp₁, r)) (hcomma₁ : cComma ∉ r)
    (hterms₁ : splitOn cComma inp₁ = P.map Prod.fst) (hneed : ∀ p ∈ P, ∀ c ∈ p.1, (c ∈ out ∨ ∃ q ∈ Q, c ∈ q.1) → c ∈ r)
    {opt₁ : Optimize} {mem₁ : MemLimit} (hmem₁ : ValidMemory mem₁) (hopt₁ : ChoosesComplete opt₁ size₁ (P.map Prod.fst) r) :
    (∀ ub₁, ∃ T₁, contract false eq₁ (P.map Prod.snd) opt₁ mem₁ ub₁ = .ok T₁) ∧
    ∀ ub₁ ne₁ T₁, contract ne₁ eq₁ (P.map Prod.snd) opt₁ mem₁ ub₁ = .ok T₁ →
      -- the call for the rest
      ∀ (eq₂ : Str) (ops₂ : List (Tensor R)) (inp₂ : Str), parseEinsum eq₂ (ops₂.map Tensor.shape) = .ok (inp₂, out) →
      ((splitOn cComma inp₂).zip ops₂).Perm (Q ++ [(r, T₁)]) →
      ∀ (opt₂ : Optimize) (mem₂ : MemLimit), ValidMemory mem₂ → ChoosesComplete opt₂ size (splitOn cComma inp₂) out →
      (∀ ub₂, ∃ T₂, contract false eq₂ ops₂ opt₂ mem₂ ub₂ = .ok T₂) ∧
      ∀ ub₂ ne₂ T₂, contract ne₂ eq₂ ops₂ opt₂ mem₂ ub₂ = .ok T₂ →
      -- the call for all
      ∀ (opt : Optimize) (mem : MemLimit), ValidMemory mem → ChoosesComplete opt size (splitOn cComma inp) out →
      ∀ ub ne T, contract ne eq ops opt mem ub = .ok T → SameArray T₂ T := by
  have hw := wellPosed_of_parse hparse hcomma hfit
  have hlen : (splitOn cComma inp).length = ops.length := by simpa using hw.len
  have hinv : Inv size out (P ++ Q) := (inv_of_wellPosed hw).perm hperm
  have hfitP := hinv.fits.sub (P := P) (fun p hp => List.mem_append_left _ hp)
  have hnzoP : ∀ c, HasDim P c 0 → ¬ HasDim P c 1 := fun c h0 h1 =>
    hinv.nzo c ((HasDim_append P Q c 0).mpr (Or.inl h0)) ((HasDim_append P Q c 1).mpr (Or.inl h1))
  have hfit₁ : OperandsFit (localSize P) (P.map Prod.fst) ((P.map Prod.snd).map Tensor.shape) :=
    inv_operandsFit (by simp) (by rw [zip_pairs]; exact hfitP) (by rw [zip_pairs]; exact hnzoP)
  have hopt₁' : ChoosesComplete opt₁ (localSize P) (P.map Prod.fst) r :=
    choosesComplete_size (fun t ht c hc => hsize₁ c _ (hfit₁.size t ht c hc)) hopt₁
  have hw₁ := wellPosed_of_parse hparse₁ hcomma₁ (hterms₁ ▸ hfit₁)
  have hsub : ∀ c, Occurs (P ++ Q) c → c ∈ (splitOn cComma inp).flatten := by
    intro c hc
    rw [← Occurs_perm hperm, occurs_zip hlen] at hc
    exact List.mem_flatten.mpr hc
  have hrP : ∀ c ∈ r, Occurs P c := by
    intro c hc
    obtain ⟨t, ht, hct⟩ := hw₁.sub c hc
    rw [hterms₁] at ht
    exact occurs_iff.mp ⟨t, ht, hct⟩
  have hneed' : ∀ c, Occurs P c → (c ∈ out ∨ Occurs Q c) → c ∈ r := fun c ⟨p, hp, hc⟩ ho => hneed p hp c hc ho
  constructor
  · intro ub₁
    obtain ⟨T₁, h, -⟩ := C01_contract (localSize P) eq₁ (P.map Prod.snd) inp₁ r hparse₁ hcomma₁ (hterms₁ ▸ hfit₁) (by
      refine (Finset.card_le_card ?_).trans hlab
      intro c hc
      rw [List.mem_toFinset, hterms₁, List.mem_flatten, occurs_iff] at hc
      exact List.mem_toFinset.mpr (hsub c ((Occurs_append P Q c).mpr (Or.inl hc)))) opt₁ mem₁ hmem₁ (hterms₁ ▸ hopt₁') ub₁
    exact ⟨T₁, h⟩
  intro ub₁ ne₁ T₁ hT₁ eq₂ ops₂ inp₂ hparse₂ hperm₂ opt₂ mem₂ hmem₂ hopt₂
  have hE₁ := C01_contract_returns (localSize P) eq₁ (P.map Prod.snd) inp₁ r hparse₁ (hterms₁ ▸ hfit₁) opt₁ mem₁ hmem₁ (hterms₁ ▸ hopt₁') ub₁ ne₁ T₁ hT₁
  rw [hterms₁] at hE₁
  obtain ⟨hinv₂, hnest⟩ := isEinsum_nested hinv hw₁.nodup hrP hneed' hE₁
  have hlen₂ : (splitOn cComma inp₂).length = ops₂.length := by simpa using (parse_labels hparse₂).1
  have hinv₂' := hinv₂.perm hperm₂.symm
  have hfit₂ := inv_operandsFit hlen₂ hinv₂'.fits hinv₂'.nzo
  constructor
  · intro ub₂
    obtain ⟨T₂, h, -⟩ := C01_contract size eq₂ ops₂ inp₂ out hparse₂ hcomma hfit₂ (by
      refine (Finset.card_le_card ?_).trans hlab
      intro c hc
      rw [List.mem_toFinset, List.mem_flatten, ← occurs_zip hlen₂, Occurs_perm hperm₂, Occurs_append] at hc
      apply List.mem_toFinset.mpr
      apply hsub
      rw [Occurs_append]
      rcases hc with hc | ⟨p, hp, hc⟩
      · exact Or.inr hc
      · rw [List.mem_singleton.mp hp] at hc
        exact Or.inl (hrP c hc)) opt₂ mem₂ hmem₂ hopt₂ ub₂
    exact ⟨T₂, h⟩
  intro ub₂ ne₂ T₂ hT₂ opt mem hmem hopt ub ne T hT
  have hE₂ := C01_contract_returns size eq₂ ops₂ inp₂ out hparse₂ hfit₂ opt₂ mem₂ hmem₂ hopt₂ ub₂ ne₂ T₂ hT₂
  have hE := C01_contract_returns size eq ops inp out hparse hfit opt mem hmem hopt ub ne T hT
  refine isEinsum_unique (isEinsum_perm (by simp) hlen ?_ (hnest T₂ (isEinsum_perm hlen₂ (by simp) ?_ hE₂))) hE
  · rw [zip_pairs]; exact hperm.symm
  · rw [zip_pairs]; exact hperm₂

/-- **C88, order of the operands.** Two calls whose operands, each with its term, are the same up to order return the same array. -/
theorem C88_operand_order (size : Nat → Nat) (eq eq' : Str) (ops ops' : List (Tensor R)) (inp inp' out : Str)
    (hparse : parseEinsum eq (ops.map Tensor.shape) = .ok (inp, out)) (hparse' : parseEinsum eq' (ops'.map Tensor.shape) = .ok (inp', out)) (hcomma : cComma ∉ out)
    (hfit : OperandsFit size (splitOn cComma inp) (ops.map Tensor.shape)) (hlab : (splitOn cComma inp).flatten.toFinset.card ≤ 52)
    (hperm : ((splitOn cComma inp).zip ops).Perm ((splitOn cComma inp').zip ops'))
    {opt opt' : Optimize} {mem mem' : MemLimit} (hmem : ValidMemory mem) (hmem' : ValidMemory mem')
    (hopt : ChoosesComplete opt size (splitOn cComma inp) out) (hopt' : ChoosesComplete opt' size (splitOn cComma inp') out) :
    (∀ ub ub', ∃ T T', contract false eq ops opt mem ub = .ok T ∧ contract false eq' ops' opt' mem' ub' = .ok T') ∧
    ∀ ub ub' ne ne' T T', contract ne eq ops opt mem ub = .ok T → contract ne' eq' ops' opt' mem' ub' = .ok T' → SameArray T T' := by
  have hw := wellPosed_of_parse hparse hcomma hfit
  have hlen : (splitOn cComma inp).length = ops.length := by simpa using hw.len
  have hlen' : (splitOn cComma inp').length = ops'.length := by simpa using (parse_labels hparse').1
  have hinv' := (inv_of_wellPosed hw).perm hperm
  have hfit' := inv_operandsFit hlen' hinv'.fits hinv'.nzo
  constructor
  · intro ub ub'
    obtain ⟨T, h, -⟩ := C01_contract size eq ops inp out hparse hcomma hfit hlab opt mem hmem hopt ub
    obtain ⟨T', h', -⟩ := C01_contract size eq' ops' inp' out hparse' hcomma hfit' (by
      refine (Finset.card_le_card ?_).trans hlab
      intro c hc
      rw [List.mem_toFinset, List.mem_flatten, ← occurs_zip hlen', ← Occurs_perm hperm, occurs_zip hlen, ← List.mem_flatten] at hc
      exact List.mem_toFinset.mpr hc) opt' mem' hmem' hopt' ub'
    exact ⟨T, T', h, h'⟩
  intro ub ub' ne ne' T T' hT hT'
  have hE := C01_contract_returns size eq ops inp out hparse hfit opt mem hmem hopt ub ne T hT
  have hE' := C01_contract_returns size eq' ops' inp' out hparse' hfit' opt' mem' hmem' hopt' ub' ne' T' hT'
  exact isEinsum_unique (isEinsum_perm hlen hlen' hperm hE) hE'

omit [CommSemiring R] in
/-- The entries read of an operand are inside it. -/
theorem entry_isIndex {size : Nat → Nat} {terms : List Str} {out : Str} {ops : List (Tensor R)}
    (hfit : OperandsFit size terms (ops.map Tensor.shape)) {coords : List Nat} (h1 : coords.length = out.length)
    (h2 : ∀ (i : Nat) (c : Nat) (x : Nat), out[i]? = some c → coords[i]? = some x → x < size c)
    (v : (c : {c // c ∈ summed terms out}) → Fin (size c)) {p : Str × Tensor R} (hp : p ∈ terms.zip ops) :
    IsIndex p.2.shape ((p.1.zip p.2.shape).map (fun q => if q.2 = 1 then 0 else labelValue (summed terms out) size out coords v q.1)) := by
  obtain ⟨i, g1, g2⟩ := mem_zip_get.mp hp
  have hrank : p.2.shape.length = p.1.length := hfit.rank i p.1 p.2.shape g1 (by simp [g2])
  refine ⟨by simp [hrank], ?_⟩
  intro j d x e1 e2
  rw [List.getElem?_map] at e2
  obtain ⟨⟨c, d'⟩, e3, e4⟩ := Option.map_eq_some_iff.mp e2
  rw [List.getElem?_zip_eq_some] at e3
  simp only at e3
  rw [e1] at e3
  obtain ⟨e3, e5⟩ := e3
  cases e5
  simp only at e4
  have hcm : c ∈ p.1 := List.mem_of_getElem? e3
  have htm : p.1 ∈ terms := List.mem_of_getElem? g1
  split at e4
  · omega
  · rename_i hd
    have hsz := (hfit.size p.1 htm c hcm).2 d ⟨i, j, p.1, p.2.shape, g1, by simp [g2], e3, e1⟩
    have hd' : d = size c := by rcases hsz with h | h; exact absurd h hd; exact h
    rw [← e4, hd']
    unfold labelValue
    split
    · exact (v _).2
    · rename_i hc
      have hco : c ∈ out := by
        by_contra hno
        apply hc
        unfold summed
        rw [Finset.mem_sdiff, List.mem_toFinset, List.mem_toFinset, List.mem_flatten]
        exact ⟨⟨_, htm, hcm⟩, hno⟩
      have hlt : out.idxOf c < out.length := List.idxOf_lt_length_of_mem hco
      apply h2 (out.idxOf c) c
      · rw [List.getElem?_eq_getElem hlt, List.getElem_idxOf hlt]
      · simp [List.getD, List.getElem?_eq_getElem (show out.idxOf c < coords.length by omega)]

omit [CommSemiring R] in
theorem isIndex_out {size : Nat → Nat} {out : Str} {coords : List Nat} (h : IsIndex (out.map size) coords) :
    coords.length = out.length ∧ ∀ (i : Nat) (c : Nat) (x : Nat), out[i]? = some c → coords[i]? = some x → x < size c :=
  ⟨by simpa using h.1, fun i c x h1 h2 => h.2 i (size c) x (by simp [h1]) h2⟩

theorem isEinsum_linear {size : Nat → Nat} {terms : List Str} {out : Str} {pre post : List (Tensor R)} {α β : R} {A B X TA TB T : Tensor R}
    (hlen : terms.length = (pre ++ X :: post).length) (hfit : OperandsFit size terms ((pre ++ X :: post).map Tensor.shape)) (hX : IsCombination α β A B X)
    (hA : IsEinsum size terms out (pre ++ A :: post) TA) (hB : IsEinsum size terms out (pre ++ B :: post) TB) (hT : IsEinsum size terms out (pre ++ X :: post) T) :
    IsCombination α β TA TB T := by
  refine ⟨by rw [hA.1, hT.1], by rw [hB.1, hT.1], fun coords hc => ?_⟩
  rw [hT.1] at hc
  obtain ⟨h1, h2⟩ := isIndex_out hc
  rw [hA.2 coords h1 h2, hB.2 coords h1 h2, hT.2 coords h1 h2, Finset.mul_sum, Finset.mul_sum, ← Finset.sum_add_distrib]
  apply Finset.sum_congr rfl
  intro v _
  have hk : pre.length < terms.length := by rw [hlen]; simp
  have hsplit : terms = terms.take pre.length ++ terms[pre.length] :: terms.drop (pre.length + 1) := by
    rw [List.getElem_cons_drop, List.take_append_drop]
  have hmem : (terms[pre.length], X) ∈ terms.zip (pre ++ X :: post) := by
    rw [mem_zip_get]
    exact ⟨pre.length, by simp [hk], by simp⟩
  have hidx := entry_isIndex hfit h1 h2 v hmem
  have hval : operandEntry terms[pre.length] X (labelValue (summed terms out) size out coords v) =
      α * operandEntry terms[pre.length] A (labelValue (summed terms out) size out coords v) +
      β * operandEntry terms[pre.length] B (labelValue (summed terms out) size out coords v) := by
    unfold operandEntry
    rw [hX.2.2 _ hidx, hX.1, hX.2.1]
  have hzip : ∀ Z : Tensor R, terms.zip (pre ++ Z :: post) =
      (terms.take pre.length).zip pre ++ (terms[pre.length], Z) :: (terms.drop (pre.length + 1)).zip post := by
    intro Z
    conv_lhs => rw [hsplit]
    rw [List.zip_append (by simp; omega), List.zip_cons_cons]
  rw [hzip, hzip, hzip]
  generalize labelValue (summed terms out) size out coords v = lv at hval
  simp only [List.map_append, List.map_cons, List.prod_append, List.prod_cons, hval]
  ring

theorem isEinsum_image {R' : Type} [CommSemiring R'] (f : R →+* R') {size : Nat → Nat} {terms : List Str} {out : Str} {ops : List (Tensor R)} {ops' : List (Tensor R')}
    (hlen : terms.length = ops.length) (hfit : OperandsFit size terms (ops.map Tensor.shape)) (hops : List.Forall₂ (IsImage f) ops ops') {T : Tensor R} {T' : Tensor R'}
    (hT : IsEinsum size terms out ops T) (hT' : IsEinsum size terms out ops' T') : IsImage f T T' := by
  refine ⟨by rw [hT.1, hT'.1], fun coords hc => ?_⟩
  rw [hT.1] at hc
  obtain ⟨h1, h2⟩ := isIndex_out hc
  rw [hT.2 coords h1 h2, hT'.2 coords h1 h2, map_sum]
  apply Finset.sum_congr rfl
  intro v _
  rw [map_list_prod, List.map_map]
  congr 1
  have hlen' := hops.length_eq
  apply List.ext_getElem
  · simp [hlen']
  · intro i g1 g2
    simp only [List.length_map, List.length_zip] at g1 g2
    have i1 : i < ops.length := by omega
    have i2 : i < ops'.length := by omega
    have i3 : i < terms.length := by omega
    simp only [List.getElem_map, List.getElem_zip, Function.comp]
    have hs : IsImage f ops[i] ops'[i] := by
      have := (List.forall₂_iff_get.mp hops).2 i i1 i2
      simpa using this
    have hidx := entry_isIndex hfit h1 h2 v (p := (terms[i], ops[i])) (mem_zip_get.mpr ⟨i, by simp [i3], by simp [i1]⟩)
    unfold operandEntry
    rw [hs.1, hs.2 _ hidx]

/-- **C88, linearity.** `contract` is linear in each operand: if one operand is `α * A + β * B`, the result is `α` times that with `A` plus `β` times that with `B`,
however the three calls are done. -/
theorem C88_linear (size : Nat → Nat) (eq : Str) (pre post : List (Tensor R)) {α β : R} {A B X : Tensor R} (hX : IsCombination α β A B X) (inp out : Str)
    (hparse : parseEinsum eq ((pre ++ X :: post).map Tensor.shape) = .ok (inp, out))
    (hfit : OperandsFit size (splitOn cComma inp) ((pre ++ X :: post).map Tensor.shape))
    {optA optB optX : Optimize} {memA memB memX : MemLimit} (hmemA : ValidMemory memA) (hmemB : ValidMemory memB) (hmemX : ValidMemory memX)
    (hoptA : ChoosesComplete optA size (splitOn cComma inp) out) (hoptB : ChoosesComplete optB size (splitOn cComma inp) out)
    (hoptX : ChoosesComplete optX size (splitOn cComma inp) out) {ubA ubB ubX neA neB neX : Bool} {TA TB TX : Tensor R}
    (hA : contract neA eq (pre ++ A :: post) optA memA ubA = .ok TA) (hB : contract neB eq (pre ++ B :: post) optB memB ubB = .ok TB)
    (hT : contract neX eq (pre ++ X :: post) optX memX ubX = .ok TX) : IsCombination α β TA TB TX := by
  have eA : (pre ++ A :: post).map Tensor.shape = (pre ++ X :: post).map Tensor.shape := by simp [hX.1]
  have eB : (pre ++ B :: post).map Tensor.shape = (pre ++ X :: post).map Tensor.shape := by simp [hX.2.1]
  have hlen : (splitOn cComma inp).length = (pre ++ X :: post).length := by simpa using (parse_labels hparse).1
  exact isEinsum_linear hlen hfit hX
    (C01_contract_returns size eq _ inp out (by rw [eA]; exact hparse) (by rw [eA]; exact hfit) optA memA hmemA hoptA ubA neA TA hA)
    (C01_contract_returns size eq _ inp out (by rw [eB]; exact hparse) (by rw [eB]; exact hfit) optB memB hmemB hoptB ubB neB TB hB)
    (C01_contract_returns size eq _ inp out hparse hfit optX memX hmemX hoptX ubX neX TX hT)

/-- **C88, homomorphisms.** A map of the elements that preserves sums, products, 0 and 1 (complex conjugation, for instance, or reading integers as real numbers) may be applied to the operands or
to the result. -/
theorem C88_homomorphism {R' : Type} [CommSemiring R'] (f : R →+* R') (size : Nat → Nat) (eq : Str) {ops : List (Tensor R)} {ops' : List (Tensor R')}
    (hops : List.Forall₂ (IsImage f) ops ops') (inp out : Str) (hparse : parseEinsum eq (ops.map Tensor.shape) = .ok (inp, out))
    (hfit : OperandsFit size (splitOn cComma inp) (ops.map Tensor.shape))
    {opt opt' : Optimize} {mem mem' : MemLimit} (hmem : ValidMemory mem) (hmem' : ValidMemory mem') (hopt : ChoosesComplete opt size (splitOn cComma inp) out)
    (hopt' : ChoosesComplete opt' size (splitOn cComma inp) out) {ub ub' ne ne' : Bool} {T : Tensor R} {T' : Tensor R'}
    (hT : contract ne eq ops opt mem ub = .ok T) (hT' : contract ne' eq ops' opt' mem' ub' = .ok T') : IsImage f T T' := by
  have e : ops'.map Tensor.shape = ops.map Tensor.shape := by
    clear hparse hfit hT hT'
    induction hops with
    | nil => rfl
    | cons h _ ih => rw [List.map_cons, List.map_cons, ih, h.1]
  have hlen : (splitOn cComma inp).length = ops.length := by simpa using (parse_labels hparse).1
  exact isEinsum_image f hlen hfit hops
    (C01_contract_returns size eq _ inp out hparse hfit opt mem hmem hopt ub ne T hT)
    (C01_contract_returns size eq _ inp out (by rw [e]; exact hparse) (by rw [e]; exact hfit) opt' mem' hmem' hopt' ub' ne' T' hT')

end Sums

/-! ## Concrete cases -/

/-- Sizes of labels that do not broadcast. -/
theorem sizes_of_list {size : Nat → Nat} {inputs : List Str} {shapes : List Shape}
    (h : ∀ p ∈ inputs.zip shapes, ∀ q ∈ p.1.zip p.2, size q.1 = q.2) (c s : Nat) (hs : IsLabelSize inputs shapes c s) : size c = s := by
  obtain ⟨⟨i, j, t, sh, g1, g2, g3, g4⟩, -⟩ := hs
  exact h (t, sh) (mem_zip_get.mpr ⟨i, g1, g2⟩) (c, s) (mem_zip_get.mpr ⟨j, g3, g4⟩)

/-- Sizes of the labels a, b, c, d of the examples. -/
def lawSizes (c : Nat) : Nat := c - 95

-- 'ab,bc,cd->ad': contracting 'cd,bc->dbc' first (which keeps c although it could be summed), then 'dbc,ab->ad'
example (A B C : Tensor ℤ) (hA : A.shape = [2, 3]) (hB : B.shape = [3, 4]) (hC : C.shape = [4, 5]) :
    ∃ T₁, contract false (S "cd,bc->dbc") [C, B] (.path [[0, 1]]) .none true = .ok T₁ ∧
    T₁.shape = [5, 3, 4] ∧ ∃ T₂, contract false (S "dbc,ab->ad") [T₁, A] (.path [[0, 1]]) .none false = .ok T₂ ∧
    ∀ T, contract false (S "ab,bc,cd->ad") [A, B, C] (.path [[0, 1], [0, 1]]) .none true = .ok T → SameArray T₂ T := by
  have key := C88_nested (R := ℤ) lawSizes (S "ab,bc,cd->ad") [A, B, C] (S "ab,bc,cd") (S "ad")
    (by simp only [List.map_cons, List.map_nil, hA, hB, hC]; decide +kernel) (by decide +kernel)
    (by simp only [List.map_cons, List.map_nil, hA, hB, hC]; apply operandsFit_of_list <;> decide +kernel) (by decide +kernel)
    (P := [(S "cd", C), (S "bc", B)]) (Q := [(S "ab", A)])
    (by
      have : splitOn cComma (S "ab,bc,cd") = [S "ab", S "bc", S "cd"] := by decide +kernel
      rw [this]
      exact (List.reverse_perm [(S "ab", A), (S "bc", B), (S "cd", C)]).symm)
    lawSizes (by simp only [List.map_cons, List.map_nil, hB, hC]; apply sizes_of_list; decide +kernel)
    (eq₁ := S "cd,bc->dbc") (inp₁ := S "cd,bc") (r := S "dbc")
    (by simp only [List.map_cons, List.map_nil, hB, hC]; decide +kernel) (by decide +kernel) (by simp only [List.map_cons, List.map_nil]; decide +kernel)
    (by
      intro p hp c hc _
      have : ∀ t ∈ [S "cd", S "bc"], ∀ c ∈ t, c ∈ S "dbc" := by decide +kernel
      rcases List.mem_cons.mp hp with rfl | hp
      · exact this _ (by simp) c hc
      · rw [List.mem_singleton.mp hp] at hc
        exact this _ (by simp) c hc)
    (opt₁ := .path [[0, 1]]) (mem₁ := .none) trivial (by simp only [ChoosesComplete, CompletePath, ValidStep, List.map_cons, List.map_nil]; decide +kernel)
  obtain ⟨T₁, hT₁⟩ := key.1 true
  have hsh : T₁.shape = [5, 3, 4] := (C01_contract_returns lawSizes (S "cd,bc->dbc") [C, B] (S "cd,bc") (S "dbc")
    (by simp only [List.map_cons, List.map_nil, hB, hC]; decide +kernel)
    (by simp only [List.map_cons, List.map_nil, hB, hC]; apply operandsFit_of_list <;> decide +kernel) (.path [[0, 1]]) .none trivial
    (by simp only [ChoosesComplete, CompletePath, ValidStep]; decide +kernel) true false T₁ hT₁).1
  refine ⟨T₁, hT₁, hsh, ?_⟩
  have key₂ := key.2 true false T₁ hT₁ (S "dbc,ab->ad") [T₁, A] (S "dbc,ab")
    (by simp only [List.map_cons, List.map_nil, hA, hsh]; decide +kernel)
    (by
      have : splitOn cComma (S "dbc,ab") = [S "dbc", S "ab"] := by decide +kernel
      rw [this]
      exact (List.reverse_perm [(S "dbc", T₁), (S "ab", A)]).symm)
    (.path [[0, 1]]) .none trivial (by simp only [ChoosesComplete, CompletePath, ValidStep]; decide +kernel)
  obtain ⟨T₂, hT₂⟩ := key₂.1 false
  exact ⟨T₂, hT₂, key₂.2 false false T₂ hT₂ (.path [[0, 1], [0, 1]]) .none trivial
    (by simp only [ChoosesComplete, CompletePath, ValidStep]; decide +kernel) true false⟩

-- 'ab,bc->ac' with 2 * A + 3 * B as first operand
example (A B C TA TB TX : Tensor ℤ) (hA : A.shape = [2, 3]) (hB : B.shape = [2, 3]) (hC : C.shape = [3, 4])
    (h1 : contract false (S "ab,bc->ac") [A, C] (.path [[0, 1]]) .none true = .ok TA) (h2 : contract false (S "ab,bc->ac") [B, C] (.path [[0, 1]]) .none true = .ok TB)
    (h3 : contract false (S "ab,bc->ac") [⟨[2, 3], fun i => 2 * A.val i + 3 * B.val i⟩, C] (.path [[0, 1]]) .none true = .ok TX) : IsCombination 2 3 TA TB TX := by
  have hopt : ChoosesComplete (.path [[0, 1]]) lawSizes (splitOn cComma (S "ab,bc")) (S "ac") := by
    simp only [ChoosesComplete, CompletePath, ValidStep]; decide +kernel
  exact C88_linear lawSizes (S "ab,bc->ac") [] [C] (X := ⟨[2, 3], fun i => 2 * A.val i + 3 * B.val i⟩) ⟨hA, hB, fun _ _ => rfl⟩ (S "ab,bc") (S "ac")
    (by simp only [List.map_cons, List.map_nil, List.nil_append, hC]; decide +kernel)
    (by simp only [List.map_cons, List.map_nil, List.nil_append, hC]; apply operandsFit_of_list <;> decide +kernel)
    (memA := .none) (memB := .none) (memX := .none) trivial trivial trivial hopt hopt hopt h1 h2 h3

-- integers read as rational numbers
example (A B T : Tensor ℤ) (T' : Tensor ℚ) (hA : A.shape = [2, 3]) (hB : B.shape = [3, 4])
    (h : contract false (S "ab,bc->ac") [A, B] (.path [[0, 1]]) .none true = .ok T)
    (h' : contract true (S "ab,bc->ac") [⟨A.shape, fun i => (A.val i : ℚ)⟩, ⟨B.shape, fun i => (B.val i : ℚ)⟩] (.path [[1, 0]]) .none true = .ok T') :
    IsImage (Int.castRingHom ℚ) T T' := by
  refine C88_homomorphism (Int.castRingHom ℚ) lawSizes (S "ab,bc->ac") (.cons ⟨rfl, fun _ _ => rfl⟩ (.cons ⟨rfl, fun _ _ => rfl⟩ .nil)) (S "ab,bc") (S "ac")
    (by simp only [List.map_cons, List.map_nil, hA, hB]; decide +kernel)
    (by simp only [List.map_cons, List.map_nil, hA, hB]; apply operandsFit_of_list <;> decide +kernel) (mem := .none) (mem' := .none) trivial trivial ?_ ?_ h h' <;>
  · simp only [ChoosesComplete, CompletePath, ValidStep]; decide +kernel

-- 'ab,bc->ac' and 'bc,ab->ac'
example (A B T T' : Tensor ℤ) (hA : A.shape = [2, 3]) (hB : B.shape = [3, 4])
    (h : contract false (S "ab,bc->ac") [A, B] (.path [[0, 1]]) .none true = .ok T)
    (h' : contract false (S "bc,ab->ac") [B, A] (.path [[0, 1]]) .none false = .ok T') : SameArray T T' := by
  refine (C88_operand_order lawSizes (S "ab,bc->ac") (S "bc,ab->ac") [A, B] [B, A] (S "ab,bc") (S "bc,ab") (S "ac")
    (by simp only [List.map_cons, List.map_nil, hA, hB]; decide +kernel) (by simp only [List.map_cons, List.map_nil, hA, hB]; decide +kernel) (by decide +kernel)
    (by simp only [List.map_cons, List.map_nil, hA, hB]; apply operandsFit_of_list <;> decide +kernel) (by decide +kernel) ?_
    (mem := .none) (mem' := .none) trivial trivial ?_ ?_).2 true false false false T T' h h'
  · have e1 : splitOn cComma (S "ab,bc") = [S "ab", S "bc"] := by decide +kernel
    have e2 : splitOn cComma (S "bc,ab") = [S "bc", S "ab"] := by decide +kernel
    rw [e1, e2]
    exact (List.reverse_perm [(S "ab", A), (S "bc", B)]).symm
  · simp only [ChoosesComplete, CompletePath, ValidStep]; decide +kernel
  · simp only [ChoosesComplete, CompletePath, ValidStep]; decide +kernel

end OE.Props
