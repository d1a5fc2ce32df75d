import Verif.Props.Contract1

/-! One contraction step: planned by `contract_path`, executed by `_core_contract`. -/

namespace OE.Contract
open OE OE.Py OE.Parser OE.Helpers OE.Blas OE.Spec OE.Props
variable {R : Type}

/-- What holds of the operands before every step. -/
structure Inv (size : Nat → Nat) (output : Str) (ops : List (Str × Tensor R)) : Prop where
  fits : Fits size ops
  nzo : ∀ c, HasDim ops c 0 → ¬ HasDim ops c 1
  punct : ∀ c, Occurs ops c → ¬ IsPunct c
  out : ∀ c ∈ output, Occurs ops c

theorem Inv.perm {size : Nat → Nat} {output : Str} {a b : List (Str × Tensor R)} (h : Inv size output a) (hp : a.Perm b) :
    Inv size output b where
  fits := h.fits.perm hp
  nzo := fun c h0 h1 => h.nzo c ((HasDim_perm hp c 0).mpr h0) ((HasDim_perm hp c 1).mpr h1)
  punct := fun c hc => h.punct c ((Occurs_perm hp c).mpr hc)
  out := fun c hc => (Occurs_perm hp c).mp (h.out c hc)

theorem occurs_iff {P : List (Str × Tensor R)} {c : Nat} : (∃ t ∈ P.map Prod.fst, c ∈ t) ↔ Occurs P c := by
  simp [Occurs]

theorem mem_resultTerm {isLast : Bool} {P Q : List (Str × Tensor R)} {output : Str} {c : Nat}
    (hlast : isLast = true → Q = []) (hout : ∀ c ∈ output, Occurs (P ++ Q) c) :
    c ∈ resultTerm isLast (P.map Prod.fst) (Q.map Prod.fst) output ↔ Occurs P c ∧ (c ∈ output ∨ Occurs Q c) := by
  unfold resultTerm
  by_cases hl : isLast = true
  · rw [if_pos hl]
    have hQ := hlast hl
    subst hQ
    simp only [List.append_nil] at hout
    constructor
    · intro h; exact ⟨hout c h, Or.inl h⟩
    · rintro ⟨_, h | h⟩
      · exact h
      · obtain ⟨_, hp, _⟩ := h; simp at hp
  · rw [if_neg hl, mem_tensordotOrder, mem_needed]
    simp only [List.mem_flatten, occurs_iff]
    constructor
    · rintro ⟨_, h⟩; exact h
    · intro h; exact ⟨h.1, h⟩

theorem mem_needed' {P Q : List (Str × Tensor R)} {output : Str} {c : Nat} :
    c ∈ needed (P.map Prod.fst) (Q.map Prod.fst) output ↔ Occurs P c ∧ (c ∈ output ∨ Occurs Q c) := by
  rw [mem_needed]; simp only [occurs_iff]

theorem resultTerm_nodup {isLast : Bool} {tI rI : List Str} {output : Str} (h : output.Nodup) :
    (resultTerm isLast tI rI output).Nodup := by
  unfold resultTerm; split
  · exact h
  · exact tensordotOrder_nodup _ _

/-- The predicted shape of a step. -/
theorem findOutputShape_step {size : Nat → Nat} {output : Str} {ops P : List (Str × Tensor R)} (h : Inv size output ops)
    (hsub : ∀ p ∈ P, p ∈ ops) {r : Str} (hr : ∀ c ∈ r, Occurs P c) :
    findOutputShape (P.map Prod.fst) ((P.map Prod.snd).map Tensor.shape) r = .ok (r.map (localSize P)) := by
  have hfit := h.fits.sub hsub
  have hzip : (P.map Prod.fst).zip ((P.map Prod.snd).map Tensor.shape) = P.map (fun p => (p.1, p.2.shape)) := by
    rw [List.map_map, zip_map_map]; rfl
  have hdims : ∀ c x, x ∈ dimsOf (P.map Prod.fst) ((P.map Prod.snd).map Tensor.shape) c ↔ HasDim P c x := by
    intro c x; exact mem_opDims P c x
  apply C37_find_output_shape_partial
  · rw [hzip]; intro p hp
    obtain ⟨q, hq, rfl⟩ := List.mem_map.mp hp
    exact hfit.rank q hq
  · rw [hzip]; intro p hp
    obtain ⟨q, hq, rfl⟩ := List.mem_map.mp hp
    exact hfit.diag q hq
  · intro c hc
    refine ⟨(hdims c _).mpr (hfit.full c (hr c hc)), ?_⟩
    intro x hx
    exact hfit.dims c x ((hdims c x).mp hx)
  · intro c hc h0 h1
    have hf := hfit.full c (hr c hc)
    rw [h0] at hf
    obtain ⟨p, hp, hf⟩ := hf
    obtain ⟨q, hq, h1⟩ := (hdims c 1).mp h1
    exact h.nzo c ⟨p, hsub p hp, hf⟩ ⟨q, hsub q hq, h1⟩

/-- Labels not kept have their full size among the contracted operands. -/
theorem localSize_removed {size : Nat → Nat} {output : Str} {P Q : List (Str × Tensor R)} (h : Inv size output (P ++ Q))
    {c : Nat} (hc : Occurs P c) (hQ : ¬ Occurs Q c) : localSize P c = size c := by
  apply localSize_eq h.fits (fun p hp => List.mem_append_left _ hp)
  have := h.fits.full c ((Occurs_append P Q c).mpr (Or.inl hc))
  rw [HasDim_append] at this
  rcases this with h | h
  · exact h
  · exact absurd h.occurs hQ

variable [CommSemiring R]

omit [CommSemiring R] in
/-- The BLAS flag is only set for steps that `tensordot` can do. -/
theorem blasOk_of_flag {size : Nat → Nat} {output : Str} {P Q : List (Str × Tensor R)} (h : Inv size output (P ++ Q))
    {isLast : Bool} (hlast : isLast = true → Q = [])
    (hflag : canBlas (P.map Prod.fst) (enum (P.map Prod.fst).flatten (needed (P.map Prod.fst) (Q.map Prod.fst) output))
      ((P.map Prod.fst).flatten.toFinset \ needed (P.map Prod.fst) (Q.map Prod.fst) output)
      (some ((P.map Prod.snd).map Tensor.shape)) ≠ .no) :
    ∃ left right a b, P = [(left, a), (right, b)] ∧
      BlasOk left right a b ((P.map Prod.fst).flatten.toFinset \ needed (P.map Prod.fst) (Q.map Prod.fst) output)
        (resultTerm isLast (P.map Prod.fst) (Q.map Prod.fst) output) := by
  have h2 := C08_two_terms _ _ _ _ hflag
  rw [List.length_map] at h2
  obtain ⟨⟨left, a⟩, ⟨right, b⟩, rfl⟩ := List.length_eq_two.mp h2
  refine ⟨left, right, a, b, rfl, ?_⟩
  set N := needed ([(left, a), (right, b)].map Prod.fst) (Q.map Prod.fst) output with hN
  set rm := ([(left, a), (right, b)].map Prod.fst).flatten.toFinset \ N with hrm
  have hocc : ∀ c, Occurs [(left, a), (right, b)] c ↔ c ∈ left ∨ c ∈ right := by intro c; simp [Occurs]
  have hNmem : ∀ c, c ∈ N ↔ (c ∈ left ∨ c ∈ right) ∧ (c ∈ output ∨ Occurs Q c) := by
    intro c; rw [hN, mem_needed', hocc]
  have hrmem : ∀ c, c ∈ rm ↔ (c ∈ left ∨ c ∈ right) ∧ c ∉ N := by
    intro c; rw [hrm, Finset.mem_sdiff, List.mem_toFinset]
    simp
  have hfit := h.fits.sub (P := [(left, a), (right, b)]) (fun p hp => List.mem_append_left _ hp)
  have hla : left.length = a.shape.length := hfit.rank (left, a) (by simp)
  have hlb : right.length = b.shape.length := hfit.rank (right, b) (by simp)
  -- the label conditions
  have hlab : (left ++ right).any (labelBad left right (enum ([(left, a), (right, b)].map Prod.fst).flatten N)) = false := by
    by_contra hb
    rw [Bool.not_eq_false] at hb
    apply hflag
    simp only [List.map_cons, List.map_nil, canBlas]
    rw [if_pos]
    exact hb
  have hpc := any_labelBad_iff.mp hlab
  have hmemE : ∀ c, c ∈ enum ([(left, a), (right, b)].map Prod.fst).flatten N ↔ c ∈ N := by
    intro c
    rw [mem_enum]
    constructor
    · exact fun h => h.2
    · intro h
      refine ⟨?_, h⟩
      have := ((hNmem c).mp h).1
      simpa using this
  have hrmiff : ∀ c, c ∈ rm ↔ c ∈ left ∧ c ∈ right := by
    intro c
    rw [hrmem]
    constructor
    · rintro ⟨h1, h2⟩
      by_contra hno
      exact h2 ((hmemE c).mp (hpc.unshared c h1 hno))
    · rintro ⟨h1, h2⟩
      exact ⟨Or.inl h1, fun hn => hpc.shared c h1 h2 ((hmemE c).mpr hn)⟩
  have hiff := (C08_can_blas_iff left right (enum ([(left, a), (right, b)].map Prod.fst).flatten N) rm a.shape b.shape hla.symm hlb.symm
    (fun c hc => (hrmiff c).mp hc)).1
  have hsame := (hiff.mp hflag).2
  refine ⟨hpc.nl, hpc.nr, hla, hlb, hrmiff, ?_, ?_⟩
  · intro c
    rw [mem_resultTerm hlast h.out, hocc, hrmem, hNmem]
    constructor
    · rintro ⟨h1, h2⟩; exact ⟨h1, fun ⟨_, h3⟩ => h3 ⟨h1, h2⟩⟩
    · rintro ⟨h1, h2⟩
      refine ⟨h1, ?_⟩
      by_contra h3
      exact h2 ⟨h1, fun h4 => h3 h4.2⟩
  · intro c hc
    have hlr := (hrmiff c).mp hc
    apply hsame c hc
    · have := dimOf_mem hla hlr.1
      rw [List.mem_iff_getElem?] at this
      obtain ⟨i, hi⟩ := this
      rw [List.getElem?_zip_eq_some] at hi
      exact ⟨i, hi⟩
    · have := dimOf_mem hlb hlr.2
      rw [List.mem_iff_getElem?] at this
      obtain ⟨i, hi⟩ := this
      rw [List.getElem?_zip_eq_some] at hi
      exact ⟨i, hi⟩

/-- Execution of a planned step: the contraction, unless the backend lacks `einsum` and the step is not flagged,
or the step has more than 52 labels. -/
theorem stepResult_contraction {size : Nat → Nat} {output : Str} {P Q : List (Str × Tensor R)} (h : Inv size output (P ++ Q))
    (hne : P ≠ []) (hn : output.Nodup) {isLast : Bool} (hlast : isLast = true → Q = []) (useBlas noEinsum : Bool) (p : List Nat) :
    (∃ T, stepResult noEinsum (stepOf useBlas output p isLast (P.map Prod.fst) (Q.map Prod.fst) ((P.map Prod.snd).map Tensor.shape))
        (P.map Prod.snd) = .ok T ∧ IsContraction size P (resultTerm isLast (P.map Prod.fst) (Q.map Prod.fst) output) T) ∨
    (stepResult noEinsum (stepOf useBlas output p isLast (P.map Prod.fst) (Q.map Prod.fst) ((P.map Prod.snd).map Tensor.shape))
        (P.map Prod.snd) = .error .attribute ∧ noEinsum = true ∧
      (stepOf useBlas output p isLast (P.map Prod.fst) (Q.map Prod.fst) ((P.map Prod.snd).map Tensor.shape)).blas = .no) ∨
    (stepResult noEinsum (stepOf useBlas output p isLast (P.map Prod.fst) (Q.map Prod.fst) ((P.map Prod.snd).map Tensor.shape))
        (P.map Prod.snd) = .error .value ∧ noEinsum = false ∧ ∀ L : List Nat, (∀ c, Occurs P c → c ∈ L) → 52 < L.length) := by
  have hfit := h.fits.sub (P := P) (fun p hp => List.mem_append_left _ hp)
  have hrn := resultTerm_nodup (isLast := isLast) (tI := P.map Prod.fst) (rI := Q.map Prod.fst) hn
  have hro : ∀ c ∈ resultTerm isLast (P.map Prod.fst) (Q.map Prod.fst) output, Occurs P c :=
    fun c hc => ((mem_resultTerm hlast h.out).mp hc).1
  have hs : ∀ c, Occurs P c → c ∉ resultTerm isLast (P.map Prod.fst) (Q.map Prod.fst) output → localSize P c = size c := by
    intro c hc hcr
    apply localSize_removed h hc
    intro hQ
    exact hcr ((mem_resultTerm hlast h.out).mpr ⟨hc, Or.inr hQ⟩)
  have hpu : ∀ c, Occurs P c → ¬ IsPunct c := fun c hc => h.punct c ((Occurs_append P Q c).mpr (Or.inl hc))
  unfold stepResult
  by_cases hb : usesBlas noEinsum (stepOf useBlas output p isLast (P.map Prod.fst) (Q.map Prod.fst) ((P.map Prod.snd).map Tensor.shape)).blas = true
  · rw [if_pos hb]
    left
    have hub : useBlas = true := by
      by_contra hu
      simp [stepOf, hu, usesBlas, Flag.truthy] at hb
    have hflag : canBlas (P.map Prod.fst) (enum (P.map Prod.fst).flatten (needed (P.map Prod.fst) (Q.map Prod.fst) output))
      ((P.map Prod.fst).flatten.toFinset \ needed (P.map Prod.fst) (Q.map Prod.fst) output)
      (some ((P.map Prod.snd).map Tensor.shape)) ≠ .no := by
      intro e
      simp only [stepOf, hub, if_true] at hb
      rw [e] at hb
      simp [usesBlas, Flag.truthy] at hb
    obtain ⟨left, right, a, b, rfl, hok⟩ := blasOk_of_flag h hlast hflag
    have hocc : ∀ c, Occurs [(left, a), (right, b)] c ↔ c ∈ left ∨ c ∈ right := by intro c; simp [Occurs]
    apply blasStep_contraction hok hrn rfl
    · intro c hc; exact hpu c ((hocc c).mpr hc)
    · intro c hc
      have hlr := (hok.rm_iff c).mp hc
      apply hs c ((hocc c).mpr (Or.inl hlr.1))
      intro hcr
      exact ((hok.r_iff c).mp hcr).2 hc
  · rw [if_neg hb]
    cases hE : noEinsum with
    | false =>
      rcases einsumCall_contraction hne hfit hrn hro hs hpu with ⟨T, h1, h2⟩ | ⟨h1, h2⟩
      · left; exact ⟨T, h1, h2⟩
      · right; right; exact ⟨h1, rfl, h2⟩
    | true =>
      right; left
      refine ⟨rfl, rfl, ?_⟩
      rw [hE] at hb
      simp only [usesBlas, Bool.or_true, Bool.and_true, Flag.truthy] at hb
      revert hb
      generalize (stepOf useBlas output p isLast (P.map Prod.fst) (Q.map Prod.fst) ((P.map Prod.snd).map Tensor.shape)).blas = f
      cases f <;> simp

omit [CommSemiring R] in
/-- The invariant after a step. -/
theorem Inv.next [CommSemiring R] {size : Nat → Nat} {output : Str} {P Q : List (Str × Tensor R)} (h : Inv size output (P ++ Q))
    (hn : output.Nodup) {isLast : Bool} (hlast : isLast = true → Q = []) {T : Tensor R}
    (hT : IsContraction size P (resultTerm isLast (P.map Prod.fst) (Q.map Prod.fst) output) T) :
    Inv size output (Q ++ [(resultTerm isLast (P.map Prod.fst) (Q.map Prod.fst) output, T)]) := by
  set r := resultTerm isLast (P.map Prod.fst) (Q.map Prod.fst) output with hr
  have hrm : ∀ c, c ∈ r ↔ Occurs P c ∧ (c ∈ output ∨ Occurs Q c) := fun c => mem_resultTerm hlast h.out
  have hrn : r.Nodup := resultTerm_nodup hn
  have hfit := h.fits.sub (P := P) (fun p hp => List.mem_append_left _ hp)
  have hloc : ∀ c, Occurs P c → HasDim P c (localSize P c) := hfit.full
  have hone : ∀ c d, HasDim [(r, T)] c d ↔ c ∈ r ∧ d = localSize P c := by
    intro c d
    simp only [HasDim, List.mem_singleton, exists_eq_left, hT.shape]
    exact mem_zip_map_right
  have hocc1 : ∀ c, Occurs [(r, T)] c ↔ c ∈ r := by intro c; simp [Occurs]
  -- every dimension after the step was there before
  have hback : ∀ c d, HasDim (Q ++ [(r, T)]) c d → HasDim (P ++ Q) c d := by
    intro c d hd
    rw [HasDim_append, hone] at hd
    rw [HasDim_append]
    rcases hd with hd | ⟨hc, rfl⟩
    · right; exact hd
    · left; exact hloc c ((hrm c).mp hc).1
  have hoback : ∀ c, Occurs (Q ++ [(r, T)]) c → Occurs (P ++ Q) c := by
    intro c hc
    rw [Occurs_append, hocc1, hrm] at hc
    rw [Occurs_append]
    rcases hc with h | h
    · exact Or.inr h
    · exact Or.inl h.1
  refine ⟨⟨?_, ?_, ?_, ?_⟩, ?_, ?_, ?_⟩
  · intro p hp
    rw [List.mem_append, List.mem_singleton] at hp
    rcases hp with hp | rfl
    · exact h.fits.rank p (List.mem_append_right _ hp)
    · rw [hT.shape]; simp
  · intro p hp
    rw [List.mem_append, List.mem_singleton] at hp
    rcases hp with hp | rfl
    · exact h.fits.diag p (List.mem_append_right _ hp)
    · intro c d d' h1 h2
      rw [hT.shape] at h1 h2
      rw [(mem_zip_map_right.mp h1).2, (mem_zip_map_right.mp h2).2]
  · intro c d hd; exact h.fits.dims c d (hback c d hd)
  · intro c hc
    have hf := h.fits.full c (hoback c hc)
    rw [HasDim_append] at hf
    rw [HasDim_append, hone]
    rcases hf with hf | hf
    · right
      rw [Occurs_append, hocc1] at hc
      have hcr : c ∈ r := by
        rcases hc with hc | hc
        · exact (hrm c).mpr ⟨hf.occurs, Or.inr hc⟩
        · exact hc
      exact ⟨hcr, (localSize_eq h.fits (fun p hp => List.mem_append_left _ hp) hf).symm⟩
    · left; exact hf
  · intro c h0 h1; exact h.nzo c (hback c 0 h0) (hback c 1 h1)
  · intro c hc; exact h.punct c (hoback c hc)
  · intro c hc
    have := h.out c hc
    rw [Occurs_append] at this
    rw [Occurs_append, hocc1, hrm]
    rcases this with h1 | h1
    · right; exact ⟨h1, Or.inl hc⟩
    · left; exact h1

/-- The value that the contraction of labelled operands has at label values `env`. -/
def totalSum (size : Nat → Nat) (output : Str) (ops : List (Str × Tensor R)) (env : Nat → Nat) : R :=
  sumOver size (innerLabels (ops.map Prod.fst) output) (prodVal ops) env

theorem totalSum_perm {size : Nat → Nat} {output : Str} {a b : List (Str × Tensor R)} (hp : a.Perm b) (env : Nat → Nat) :
    totalSum size output a env = totalSum size output b env := by
  unfold totalSum
  have hpr : prodVal a = prodVal b := funext (fun e => prodVal_perm hp e)
  rw [hpr]
  apply sumOver_perm _ (innerLabels_nodup _ _)
  rw [List.perm_ext_iff_of_nodup (innerLabels_nodup _ _) (innerLabels_nodup _ _)]
  intro c
  rw [mem_innerLabels, mem_innerLabels, occurs_iff, occurs_iff, Occurs_perm hp]

/-- A step does not change the total. -/
theorem totalSum_next {size : Nat → Nat} {output : Str} {P Q : List (Str × Tensor R)} (h : Inv size output (P ++ Q))
    {isLast : Bool} (hlast : isLast = true → Q = []) {T : Tensor R}
    (hT : IsContraction size P (resultTerm isLast (P.map Prod.fst) (Q.map Prod.fst) output) T) (env : Nat → Nat) :
    totalSum size output (Q ++ [(resultTerm isLast (P.map Prod.fst) (Q.map Prod.fst) output, T)]) env =
      totalSum size output (P ++ Q) env := by
  set r := resultTerm isLast (P.map Prod.fst) (Q.map Prod.fst) output with hr
  have hrm : ∀ c, c ∈ r ↔ Occurs P c ∧ (c ∈ output ∨ Occurs Q c) := fun c => mem_resultTerm hlast h.out
  rw [totalSum_perm (List.perm_append_comm : (P ++ Q).Perm (Q ++ P))]
  unfold totalSum
  have hmi : ∀ c, c ∈ innerLabels ((Q ++ P).map Prod.fst) output ↔ (Occurs Q c ∨ Occurs P c) ∧ c ∉ output := by
    intro c; rw [mem_innerLabels, occurs_iff, Occurs_append]
  have hmi' : ∀ c, c ∈ innerLabels ((Q ++ [(r, T)]).map Prod.fst) output ↔ (Occurs Q c ∨ c ∈ r) ∧ c ∉ output := by
    intro c; rw [mem_innerLabels, occurs_iff, Occurs_append]; simp [Occurs]
  have hmr : ∀ c, c ∈ innerLabels (P.map Prod.fst) r ↔ Occurs P c ∧ c ∉ r := by
    intro c; rw [mem_innerLabels, occurs_iff]
  rw [sumOver_contract (P := P) (Q := Q) (inner := innerLabels ((Q ++ P).map Prod.fst) output) (inner' := innerLabels ((Q ++ [(r, T)]).map Prod.fst) output) (rm := innerLabels (P.map Prod.fst) r)
    _ (innerLabels_nodup _ _)]
  · apply sumOver_congr_fun
    intro e
    rw [prodVal_append, prodVal_cons, prodVal_nil, mul_one]
    simp only
    rw [hT.get e]
  · intro c hc hQ
    rw [hmr] at hc
    exact hc.2 ((hrm c).mpr ⟨hc.1, Or.inr hQ⟩)
  · rw [List.perm_ext_iff_of_nodup (innerLabels_nodup _ _)]
    · intro c
      rw [List.mem_append, hmi, hmi', hmr, hrm]
      constructor
      · rintro ⟨hc, ho⟩
        by_cases hP : Occurs P c
        · by_cases hQ : Occurs Q c
          · left; exact ⟨Or.inl hQ, ho⟩
          · right; exact ⟨hP, fun h => by rcases h.2 with h | h; exact ho h; exact hQ h⟩
        · left
          rcases hc with hc | hc
          · exact ⟨Or.inl hc, ho⟩
          · exact absurd hc hP
      · rintro (⟨hc, ho⟩ | ⟨hP, hno⟩)
        · refine ⟨?_, ho⟩
          rcases hc with hc | hc
          · exact Or.inl hc
          · exact Or.inr hc.1
        · exact ⟨Or.inr hP, fun ho => hno ⟨hP, Or.inl ho⟩⟩
    · rw [List.nodup_append]
      refine ⟨innerLabels_nodup _ _, innerLabels_nodup _ _, ?_⟩
      rintro a ha b hb rfl
      rw [hmi'] at ha
      rw [hmr] at hb
      rcases ha.1 with h1 | h1
      · exact hb.2 ((hrm a).mpr ⟨hb.1, Or.inr h1⟩)
      · exact hb.2 h1

end OE.Contract
