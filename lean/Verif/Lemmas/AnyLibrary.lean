import Verif.Spec.AnyLibrary
import Verif.Lemmas.ContractLoop

/-! Contraction steps carried out with any array library. -/

namespace OE.AnyLibrary
open OE OE.Py OE.Parser OE.Helpers OE.Blas OE.Contract OE.Spec OE.Props

variable {R : Type} {A : Type}

theorem letter_of_valid {c : Nat} (h : isValidEinsumChar c = true) (hp : ¬ IsPunct c) : IsLetter c := by
  unfold isValidEinsumChar einsumSymbolsBase at h
  simp only [List.mem_append, List.mem_map, List.mem_range, Bool.or_eq_true, decide_eq_true_eq, List.mem_cons, List.not_mem_nil,
    or_false] at h
  unfold IsPunct at hp
  unfold IsLetter
  rcases h with (⟨x, hx, rfl⟩ | ⟨x, hx, rfl⟩) | h
  · left; omega
  · right; omega
  · exact absurd h (by omega)

/-- The string handed to the library is the step's equation with its labels renamed to letters. -/
theorem handed_rename {P : List (Str × Tensor R)} {r : Str} (hl : ∀ c, Occurs P c → ¬ IsPunct c) (hr : ∀ c ∈ r, Occurs P c)
    (h52 : (P.map Prod.fst).flatten.toFinset.card ≤ 52) :
    ∃ f : Nat → Nat, Set.InjOn f {c | Occurs P c} ∧ (∀ c, Occurs P c → IsLetter (f c)) ∧
      handedString (einsumStrOf (P.map Prod.fst) r) = written ((renameOps f P).map Prod.fst) (r.map f) := by
  have hmemS : ∀ c, c ∈ einsumStrOf (P.map Prod.fst) r → IsPunct c ∨ Occurs P c := by
    intro c hc
    simp only [einsumStrOf, List.append_assoc, List.mem_append, List.mem_cons, List.not_mem_nil, or_false] at hc
    rcases hc with hc | (hc | hc) | hc
    · rcases mem_join _ _ _ hc with h | ⟨t, ht, hc⟩
      · left; simp at h; simp [IsPunct, h]
      · right
        obtain ⟨p, hp, rfl⟩ := List.mem_map.mp ht
        exact ⟨p, hp, hc⟩
    · left; simp [IsPunct, hc]
    · left; simp [IsPunct, hc]
    · right; exact hr c hc
  have hocc : ∀ c, Occurs P c → c ∈ einsumStrOf (P.map Prod.fst) r := by
    rintro c ⟨p, hp, hc⟩
    unfold einsumStrOf
    simp only [List.append_assoc, List.mem_append]
    left
    exact mem_join_of_mem _ _ _ p.1 (List.mem_map_of_mem hp) hc
  by_cases hv : hasValidEinsumCharsOnly (einsumStrOf (P.map Prod.fst) r) = true
  · refine ⟨id, Set.injOn_id _, ?_, ?_⟩
    · intro c hc
      exact letter_of_valid (List.all_eq_true.mp hv c (hocc c hc)) (hl c hc)
    · unfold handedString
      rw [if_pos hv]
      simp [written, einsumStrOf, renameOps]
  · have hdot : cDot ∉ einsumStrOf (P.map Prod.fst) r := by
      intro hm
      simp only [einsumStrOf, List.append_assoc, List.mem_append, List.mem_cons, List.not_mem_nil, or_false] at hm
      rcases hm with hc | (hc | hc) | hc
      · rcases mem_join _ _ _ hc with h | ⟨t, ht, hc⟩
        · simp at h
        · obtain ⟨p, hp, rfl⟩ := List.mem_map.mp ht
          exact hl _ ⟨p, hp, hc⟩ (by simp [IsPunct])
      · omega
      · omega
      · exact hl _ (hr _ hc) (by simp [IsPunct])
    have harrow : countArrow (einsumStrOf (P.map Prod.fst) r) ≠ 0 := by
      unfold einsumStrOf
      have h1 : cDash ∉ join [cComma] (P.map Prod.fst) := by
        intro hm
        rcases mem_join _ _ _ hm with h | ⟨t, ht, hc⟩
        · simp at h
        · obtain ⟨p, hp, rfl⟩ := List.mem_map.mp ht
          exact hl _ ⟨p, hp, hc⟩ (by simp [IsPunct])
      have := countArrow_append (join [cComma] (P.map Prod.fst)) r h1
      simp only [List.append_assoc, List.cons_append, List.nil_append] at this ⊢
      omega
    obtain ⟨⟨f, hf, heq⟩, hvalid⟩ := Props.C32_convert_to_valid_einsum_chars_partial _ hdot
    refine ⟨f, ?_, ?_, ?_⟩
    · apply hf.inj.mono
      intro c hc
      exact ⟨hocc c hc, hl c hc⟩
    · intro c hc
      have h1 := hf.labels c ⟨hocc c hc, hl c hc⟩
      have h2 := hvalid (P.map Prod.fst).flatten.toFinset.toList (by
        intro c hc
        rw [Finset.mem_toList, List.mem_toFinset, List.mem_flatten]
        rcases hmemS c hc.1 with h | h
        · exact absurd h hc.2
        · exact occurs_iff.mpr h) (by rw [Finset.length_toList]; exact h52) (f c) (by
          rw [heq]; exact List.mem_map_of_mem (hocc c hc))
      unfold NumpyChar at h2
      unfold IsLetter
      rcases h2 with h | h | h
      · exact Or.inl h
      · exact Or.inr h
      · exact absurd h h1
    · unfold handedString
      rw [if_neg hv]
      simp only [if_neg harrow]
      rw [heq]
      unfold written einsumStrOf renameOps
      simp only [List.map_append, List.map_map]
      rw [join_map f _ _ (by simp [hf.fixes 44 (by simp [IsPunct])])]
      simp [hf.fixes 45 (by simp [IsPunct]), hf.fixes 62 (by simp [IsPunct]), Function.comp_def]

/-- Operands that fit together, as the specification says it. -/
theorem operandsFit_of_fits {P : List (Str × Tensor R)} {size : Nat → Nat} (h : Fits size P)
    (hz : ∀ c, HasDim P c 0 → ¬ HasDim P c 1) : OperandsFit size (P.map Prod.fst) ((P.map Prod.snd).map Tensor.shape) := by
  have hd : ∀ c d, DimOccurs (P.map Prod.fst) ((P.map Prod.snd).map Tensor.shape) c d ↔ HasDim P c d := by
    intro c d
    constructor
    · rintro ⟨i, j, t, s, h1, h2, h3, h4⟩
      simp only [List.map_map, List.getElem?_map, Option.map_eq_some_iff, Function.comp] at h1 h2
      obtain ⟨p, hp, rfl⟩ := h1
      obtain ⟨q, hq, rfl⟩ := h2
      rw [hp] at hq; cases hq
      exact ⟨p, List.mem_of_getElem? hp, mem_zip_get.mpr ⟨j, h3, h4⟩⟩
    · rintro ⟨p, hp, hc⟩
      obtain ⟨i, hi⟩ := List.getElem?_of_mem hp
      obtain ⟨j, h1, h2⟩ := mem_zip_get.mp hc
      exact ⟨i, j, p.1, p.2.shape, by simp [hi], by simp [hi], h1, h2⟩
  refine ⟨?_, ?_, ?_, ?_⟩
  · intro i t s h1 h2
    simp only [List.map_map, List.getElem?_map, Option.map_eq_some_iff, Function.comp] at h1 h2
    obtain ⟨p, hp, rfl⟩ := h1
    obtain ⟨q, hq, rfl⟩ := h2
    rw [hp] at hq; cases hq
    exact (h.rank p (List.mem_of_getElem? hp)).symm
  · intro t ht c hc
    have ho : Occurs P c := occurs_iff.mp ⟨t, ht, hc⟩
    exact ⟨(hd _ _).mpr (h.full c ho), fun d hdd => h.dims c d ((hd _ _).mp hdd)⟩
  · intro i j k t s c d d' h1 h2 h3 h4 h5 h6
    simp only [List.map_map, List.getElem?_map, Option.map_eq_some_iff, Function.comp] at h1 h2
    obtain ⟨p, hp, rfl⟩ := h1
    obtain ⟨q, hq, rfl⟩ := h2
    rw [hp] at hq; cases hq
    exact h.diag p (List.mem_of_getElem? hp) c d d' (mem_zip_get.mpr ⟨j, h3, h5⟩) (mem_zip_get.mpr ⟨k, h4, h6⟩)
  · rintro c ⟨h0, h1⟩
    exact hz c ((hd _ _).mp h0) ((hd _ _).mp h1)

variable [CommSemiring R]

/-- A step contracted with the library's `einsum`. -/
theorem einsum_step {lib : Library A} {kw : Kw A} {plain : Bool} {Rep : A → Tensor R → Prop} (hlib : Serves lib kw plain Rep)
    {fn : Str → List A → Kw A → Except PyErr A} (hfn : lib.einsum = some fn)
    {size : Nat → Nat} {P : List (Str × Tensor R)} {r : Str} (hne : P ≠ [])
    (h : Fits (localSize P) P) (hz : ∀ c, HasDim P c 0 → ¬ HasDim P c 1) (hn : r.Nodup) (hr : ∀ c ∈ r, Occurs P c)
    (hs : ∀ c, Occurs P c → c ∉ r → localSize P c = size c) (hl : ∀ c, Occurs P c → ¬ IsPunct c)
    (h52 : (P.map Prod.fst).flatten.toFinset.card ≤ 52)
    (hplain : plain = true → (∀ c, Occurs P c → 0 < localSize P c) ∧ ∀ p ∈ P, p.2.shape = p.1.map (localSize P))
    {as : List A} (has : List.Forall₂ Rep as (P.map Prod.snd)) :
    ∃ a T, fn (handedString (einsumStrOf (P.map Prod.fst) r)) as kw = .ok a ∧ Rep a T ∧ IsContraction size P r T := by
  obtain ⟨f, hf, hlet, hstr⟩ := handed_rename hl hr h52
  have hfit := fits_rename hf h
  have hsnd : (renameOps f P).map Prod.snd = P.map Prod.snd := by simp [renameOps, Function.comp_def]
  have hrn : (r.map f).Nodup := (List.nodup_map_iff_inj_on hn).mpr (fun x hx y hy e => hf (hr x hx) (hr y hy) e)
  have hro : ∀ c ∈ r.map f, Occurs (renameOps f P) c := by
    intro c hc
    obtain ⟨x, hx, rfl⟩ := List.mem_map.mp hc
    exact occurs_rename.mpr ⟨x, hr x hx, rfl⟩
  obtain ⟨T0, _, hT0⟩ := einsumCore_contraction (size := localSize (renameOps f P)) hfit hrn hro (fun _ _ _ => rfl)
  have hzr : ∀ c, HasDim (renameOps f P) c 0 → ¬ HasDim (renameOps f P) c 1 := by
    intro c h0 h1
    obtain ⟨x, hx, rfl⟩ := hasDim_rename.mp h0
    obtain ⟨y, hy, he⟩ := hasDim_rename.mp h1
    have := hf hy.occurs hx.occurs he
    subst this
    exact hz _ hx hy
  have hof := operandsFit_of_fits hfit hzr
  rw [hsnd] at hof
  obtain ⟨a, T, h1, h2, h3⟩ := hlib.einsum fn hfn (localSize (renameOps f P)) ((renameOps f P).map Prod.fst) (r.map f) as
    (P.map Prod.snd)
    { nonempty := by simpa [renameOps] using hne
      letters := by
        intro t ht c hc
        obtain ⟨x, hx, rfl⟩ := occurs_rename.mp (occurs_iff.mp ⟨t, ht, hc⟩)
        exact hlet x hx
      nodup := hrn
      sub := fun c hc => occurs_iff.mpr (hro c hc) }
    (by simp [renameOps]) hof
    (by
      intro hp
      obtain ⟨hpos, hsh⟩ := hplain hp
      refine ⟨?_, ?_⟩
      · intro t ht c hc
        obtain ⟨x, hx, rfl⟩ := occurs_rename.mp (occurs_iff.mp ⟨t, ht, hc⟩)
        rw [localSize_rename hf h hx]
        exact hpos x hx
      · simp only [renameOps, List.map_map]
        apply List.map_congr_left
        intro p hp
        simp only [Function.comp_apply, List.map_map]
        rw [hsh p hp]
        apply List.map_congr_left
        intro c hc
        exact (localSize_rename hf h ⟨p, hp, hc⟩).symm)
    has
  refine ⟨a, T0, by rw [hstr]; exact h1, ?_, contraction_of_rename hf h hr hs hT0⟩
  have htot : IsTotal (localSize (renameOps f P)) (r.map f) (((renameOps f P).map Prod.fst).zip (P.map Prod.snd)) T0 := by
    rw [← hsnd, List.zip_map', List.map_id']
    exact ⟨hT0.shape, hT0.get⟩
  exact hlib.ext a T T0 h2 (isEinsum_unique h3 (isEinsum_of_total (by simp [renameOps]) hrn htot))

/-- A step contracted with `tensordot`: the library follows numpy. -/
theorem blasStep_sim {lib : Library A} {kw : Kw A} {plain : Bool} {Rep : A → Tensor R → Prop} (hlib : Serves lib kw plain Rep)
    {step : Step} {as : List A} {Ts : List (Tensor R)} {T : Tensor R} (has : List.Forall₂ Rep as Ts)
    (hrank : ∀ inp ri left right X Y, splitArrow step.einsumStr = [inp, ri] → splitOn cComma inp = [left, right] → Ts = [X, Y] →
      X.shape.length + Y.shape.length ≤ 52 + (blasAxes left right step.removed).1.length)
    (h : Contract.blasStep step Ts = .ok T) : ∃ a, blasStep lib [] step as = .ok a ∧ Rep a T := by
  unfold Contract.blasStep at h
  unfold blasStep
  split at h
  · rename_i inp ri h1
    rw [h1]
    simp only
    split at h
    · rename_i left right h2
      rw [h2]
      simp only
      split at h
      · rename_i X Y
        obtain ⟨x, as', hx, has', rfl⟩ := List.forall₂_cons_right_iff.mp has
        obtain ⟨y, as'', hy, has'', rfl⟩ := List.forall₂_cons_right_iff.mp has'
        cases has''
        simp only [bind, Except.bind] at h ⊢
        rw [if_neg (by simp)]
        split at h
        · cases h
        · rename_i Z hZ
          obtain ⟨z, hz1, hz2⟩ := hlib.tensordot x y X Y _ _ Z hx hy (hrank inp ri left right X Y h1 h2 rfl) hZ
          rw [show lib.tensordot x y (blasAxes left right step.removed) = .ok z from hz1]
          simp only
          split at h
          · rename_i hne
            rw [if_pos hne]
            split at h
            · cases h
            · rename_i perm hp
              exact hlib.transpose z Z perm T hz2 h
          · rename_i hne
            rw [if_neg hne]
            cases h
            exact ⟨z, rfl, hz2⟩
      · cases h
    · cases h
  · cases h

/-- With keyword arguments a step for `tensordot` raises `TypeError`. -/
theorem blasStep_kw {lib : Library A} {kw : Kw A} (hkw : kw ≠ []) {step : Step} {as : List A} {inp ri left right : Str} {a b : A}
    (h1 : splitArrow step.einsumStr = [inp, ri]) (h2 : splitOn cComma inp = [left, right]) (h3 : as = [a, b]) :
    blasStep lib kw step as = .error .type := by
  unfold blasStep
  rw [h1]
  simp only
  rw [h2]
  subst h3
  simp [hkw]

/-- Execution of a planned step with any library. -/
theorem stepResult_any {lib : Library A} {kw : Kw A} {plain : Bool} {Rep : A → Tensor R → Prop} {sharing : Bool}
    (hlib : Serves lib (filterEinsumDefaults (if sharing then [] else (S "out", Val.none) :: kw)) plain Rep)
    {size : Nat → Nat} {output : Str} {P Q : List (Str × Tensor R)} (h : Inv size output (P ++ Q))
    (hne : P ≠ []) (hn : output.Nodup) {isLast : Bool} (hlast : isLast = true → Q = []) (useBlas : Bool) (p : List Nat)
    (h52 : (P.map Prod.fst).flatten.toFinset.card ≤ 52)
    (hplain : plain = true → (∀ c, Occurs P c → 0 < size c) ∧ ∀ p ∈ P, p.2.shape = p.1.map size)
    {as : List A} (has : List.Forall₂ Rep as (P.map Prod.snd)) :
    (∃ a T, stepResult lib sharing kw (stepOf useBlas output p isLast (P.map Prod.fst) (Q.map Prod.fst) ((P.map Prod.snd).map Tensor.shape))
        as = .ok a ∧ Rep a T ∧ IsContraction size P (resultTerm isLast (P.map Prod.fst) (Q.map Prod.fst) output) T) ∨
    (stepResult lib sharing kw (stepOf useBlas output p isLast (P.map Prod.fst) (Q.map Prod.fst) ((P.map Prod.snd).map Tensor.shape))
        as = .error .attribute ∧ lib.einsum = none ∧
      (stepOf useBlas output p isLast (P.map Prod.fst) (Q.map Prod.fst) ((P.map Prod.snd).map Tensor.shape)).blas = .no) ∨
    (stepResult lib sharing kw (stepOf useBlas output p isLast (P.map Prod.fst) (Q.map Prod.fst) ((P.map Prod.snd).map Tensor.shape))
        as = .error .type ∧ kw ≠ [] ∧ useBlas = true ∧
      usesBlas lib.einsum.isNone (stepOf useBlas output p isLast (P.map Prod.fst) (Q.map Prod.fst)
        ((P.map Prod.snd).map Tensor.shape)).blas = true) := by
  have hfit := h.fits.sub (P := P) (fun p hp => List.mem_append_left _ hp)
  have hrn := resultTerm_nodup (isLast := isLast) (tI := P.map Prod.fst) (rI := Q.map Prod.fst) hn
  have hro : ∀ c ∈ resultTerm isLast (P.map Prod.fst) (Q.map Prod.fst) output, Occurs P c :=
    fun c hc => ((mem_resultTerm hlast h.out).mp hc).1
  have hs : ∀ c, Occurs P c → c ∉ resultTerm isLast (P.map Prod.fst) (Q.map Prod.fst) output → localSize P c = size c := by
    intro c hc hcr
    apply localSize_removed h hc
    intro hQ
    exact hcr ((mem_resultTerm hlast h.out).mpr ⟨hc, Or.inr hQ⟩)
  have hpu : ∀ c, Occurs P c → ¬ IsPunct c := fun c hc => h.punct c ((Occurs_append P Q c).mpr (Or.inl hc))
  have hzP : ∀ c, HasDim P c 0 → ¬ HasDim P c 1 := fun c h0 h1 =>
    h.nzo c ((HasDim_append P Q c 0).mpr (Or.inl h0)) ((HasDim_append P Q c 1).mpr (Or.inl h1))
  unfold stepResult
  by_cases hb : usesBlas lib.einsum.isNone
      (stepOf useBlas output p isLast (P.map Prod.fst) (Q.map Prod.fst) ((P.map Prod.snd).map Tensor.shape)).blas = true
  · rw [if_pos hb]
    have hub : useBlas = true := by
      by_contra hu
      simp [stepOf, hu, usesBlas, Flag.truthy] at hb
    have hflag : canBlas (P.map Prod.fst) (enum (P.map Prod.fst).flatten (needed (P.map Prod.fst) (Q.map Prod.fst) output))
      ((P.map Prod.fst).flatten.toFinset \ needed (P.map Prod.fst) (Q.map Prod.fst) output)
      (some ((P.map Prod.snd).map Tensor.shape)) ≠ .no := by
      intro e
      simp only [stepOf, hub, if_true] at hb
      rw [e] at hb
      simp [usesBlas, Flag.truthy] at hb
    obtain ⟨left, right, a, b, rfl, hok⟩ := blasOk_of_flag h hlast hflag
    have hocc : ∀ c, Occurs [(left, a), (right, b)] c ↔ c ∈ left ∨ c ∈ right := by intro c; simp [Occurs]
    have hll : ∀ c, c ∈ left ∨ c ∈ right → ¬ IsPunct c := fun c hc => hpu c ((hocc c).mpr hc)
    have hdash : cDash ∉ left ++ [cComma] ++ right := by
      simp only [List.append_assoc, List.mem_append, List.mem_singleton, not_or]
      exact ⟨fun hm => hll _ (Or.inl hm) (by simp [IsPunct]), by omega, fun hm => hll _ (Or.inr hm) (by simp [IsPunct])⟩
    have hgt : cGt ∉ resultTerm isLast (List.map Prod.fst [(left, a), (right, b)]) (List.map Prod.fst Q) output :=
      fun hm => hll _ ((hok.r_iff _).mp hm).1 (by simp [IsPunct])
    have hsp1 : splitArrow (stepOf useBlas output p isLast (List.map Prod.fst [(left, a), (right, b)]) (Q.map Prod.fst)
        ((List.map Prod.snd [(left, a), (right, b)]).map Tensor.shape)).einsumStr =
        [left ++ [cComma] ++ right, resultTerm isLast (List.map Prod.fst [(left, a), (right, b)]) (List.map Prod.fst Q) output] :=
      splitArrow_two _ _ hdash hgt
    have hsp2 : splitOn cComma (left ++ [cComma] ++ right) = [left, right] := by
      have := splitOn_join cComma [left, right] (by simp) (by
        intro t ht hm
        simp only [List.mem_cons, List.not_mem_nil, or_false] at ht
        rcases ht with rfl | rfl
        · exact hll _ (Or.inl hm) (by simp [IsPunct])
        · exact hll _ (Or.inr hm) (by simp [IsPunct]))
      simpa [join] using this
    by_cases hkw : kw = []
    · left
      obtain ⟨T, hT1, hT2⟩ := blasStep_contraction (size := size) (step := stepOf useBlas output p isLast
          (List.map Prod.fst [(left, a), (right, b)]) (Q.map Prod.fst) ((List.map Prod.snd [(left, a), (right, b)]).map Tensor.shape))
        hok hrn rfl hll (by
          intro c hc
          have hlr := (hok.rm_iff c).mp hc
          apply hs c ((hocc c).mpr (Or.inl hlr.1))
          intro hcr
          exact ((hok.r_iff c).mp hcr).2 hc)
      obtain ⟨x, hx1, hx2⟩ := blasStep_sim hlib has (by
        intro inp ri l' r' X Y g1 g2 g3
        rw [hsp1] at g1
        simp only [List.cons.injEq, and_true] at g1
        obtain ⟨rfl, rfl⟩ := g1
        rw [hsp2] at g2
        simp only [List.cons.injEq, and_true] at g2
        obtain ⟨rfl, rfl⟩ := g2
        simp only [List.map_cons, List.map_nil, List.cons.injEq, and_true] at g3
        obtain ⟨rfl, rfl⟩ := g3
        rw [← hok.lena, ← hok.lenb]
        simp only [blasAxes, List.length_map]
        have e1 : (left ++ right).toFinset.card ≤ 52 := by simpa using h52
        have e2 : (left.filter (fun c => decide (c ∈ (stepOf useBlas output p isLast (List.map Prod.fst [(left, a), (right, b)])
            (Q.map Prod.fst) ((List.map Prod.snd [(left, a), (right, b)]).map Tensor.shape)).removed))).toFinset =
            left.toFinset ∩ right.toFinset := by
          ext c
          rw [List.mem_toFinset, List.mem_filter, decide_eq_true_eq, Finset.mem_inter, List.mem_toFinset, List.mem_toFinset]
          rw [show c ∈ (stepOf useBlas output p isLast (List.map Prod.fst [(left, a), (right, b)])
            (Q.map Prod.fst) ((List.map Prod.snd [(left, a), (right, b)]).map Tensor.shape)).removed ↔ c ∈ left ∧ c ∈ right from hok.rm_iff c]
          tauto
        have e3 := List.toFinset_card_of_nodup (hok.nl.filter (fun c => decide (c ∈ (stepOf useBlas output p isLast
          (List.map Prod.fst [(left, a), (right, b)]) (Q.map Prod.fst)
          ((List.map Prod.snd [(left, a), (right, b)]).map Tensor.shape)).removed)))
        rw [e2] at e3
        rw [← e3]
        have e4 := List.toFinset_card_of_nodup hok.nl
        have e5 := List.toFinset_card_of_nodup hok.nr
        have e6 := Finset.card_union_add_card_inter left.toFinset right.toFinset
        rw [List.toFinset_append] at e1
        omega) hT1
      subst hkw
      exact ⟨x, T, hx1, hx2, hT2⟩
    · right; right
      have hlen := has.length_eq
      simp only [List.map_cons, List.map_nil, List.length_cons, List.length_nil] at hlen
      obtain ⟨x, y, rfl⟩ := List.length_eq_two.mp hlen
      exact ⟨blasStep_kw hkw hsp1 hsp2 rfl, hkw, hub, hb⟩
  · rw [if_neg hb]
    unfold einsumCall
    cases hE : lib.einsum with
    | none =>
      right; left
      refine ⟨rfl, rfl, ?_⟩
      rw [hE] at hb
      simp only [usesBlas, Option.isNone_none, Bool.or_true, Bool.and_true, Flag.truthy] at hb
      revert hb
      generalize (stepOf useBlas output p isLast (P.map Prod.fst) (Q.map Prod.fst) ((P.map Prod.snd).map Tensor.shape)).blas = f
      cases f <;> simp
    | some fn =>
      left
      have hloc : plain = true → ∀ c, Occurs P c → localSize P c = size c := by
        intro hp c hc
        obtain ⟨_, hsh⟩ := hplain hp
        have := hfit.full c hc
        obtain ⟨q, hq, hqc⟩ := this
        rw [hsh q hq] at hqc
        obtain ⟨i, g1, g2⟩ := mem_zip_get.mp hqc
        rw [List.getElem?_map, g1] at g2
        simpa using g2.symm
      apply einsum_step hlib hE hne hfit hzP hrn hro hs hpu h52 _ has
      intro hp
      obtain ⟨hpos, hsh⟩ := hplain hp
      refine ⟨fun c hc => by rw [hloc hp c hc]; exact hpos c hc, ?_⟩
      intro q hq
      rw [hsh q hq]
      apply List.map_congr_left
      intro c hc
      exact (hloc hp c ⟨q, hq, hc⟩).symm

omit [CommSemiring R] in
/-- Related lists are popped alike. -/
theorem popAll_forall2 {α β : Type} {Rel : α → β → Prop} {inds : List Nat} : ∀ {as : List α} {bs : List β} {P Q : List β},
    List.Forall₂ Rel as bs → popAll inds bs = .ok (P, Q) →
    ∃ as' as'', popAll inds as = .ok (as', as'') ∧ List.Forall₂ Rel as' P ∧ List.Forall₂ Rel as'' Q := by
  induction inds with
  | nil =>
    intro as bs P Q h hp
    simp only [popAll, Except.ok.injEq, Prod.mk.injEq] at hp
    obtain ⟨rfl, rfl⟩ := hp
    exact ⟨[], as, rfl, .nil, h⟩
  | cons i inds ih =>
    intro as bs P Q h hp
    simp only [popAll, pop, bind, Except.bind] at hp ⊢
    cases hb : bs[i]? with
    | none => rw [hb] at hp; cases hp
    | some b =>
      rw [hb] at hp
      simp only at hp
      split at hp
      · cases hp
      · rename_i v hv
        simp only [Except.ok.injEq, Prod.mk.injEq] at hp
        obtain ⟨rfl, rfl⟩ := hp
        obtain ⟨hi, hbi⟩ := List.getElem?_eq_some_iff.mp hb
        have hlen := h.length_eq
        have hia : i < as.length := by omega
        have hrel : Rel as[i] b := by
          have := (List.forall₂_iff_get.mp h).2 i hia hi
          rw [← hbi]; simpa using this
        have herase : List.Forall₂ Rel (as.eraseIdx i) (bs.eraseIdx i) := by
          rw [List.eraseIdx_eq_take_drop_succ, List.eraseIdx_eq_take_drop_succ]
          exact List.rel_append (List.forall₂_take i h) (List.forall₂_drop (i + 1) h)
        obtain ⟨as', as'', h1, h2, h3⟩ := ih herase hv
        rw [List.getElem?_eq_getElem hia]
        simp only
        rw [h1]
        exact ⟨as[i] :: as', as'', rfl, .cons hrel h2, h3⟩

/-- The plan and its execution with any library. -/
theorem pathLoop_coreLoop_any {lib : Library A} {kw : Kw A} {plain : Bool} {Rep : A → Tensor R → Prop} {sharing : Bool}
    (hlib : Serves lib (filterEinsumDefaults (if sharing then [] else (S "out", Val.none) :: kw)) plain Rep)
    {size : Nat → Nat} {output : Str} {d : Dict Nat Nat} (hn : output.Nodup) (useBlas : Bool) (path : List (List Nat)) :
    ∀ (ops : List (Str × Tensor R)) (as : List A), Inv size output ops → (ops.map Prod.fst).flatten.toFinset.card ≤ 52 →
    (∀ c, Occurs ops c → (d.get? c).isSome) → CompletePath ops.length path →
    (plain = true → (∀ c, Occurs ops c → 0 < size c) ∧ ∀ p ∈ ops, p.2.shape = p.1.map size) →
    List.Forall₂ Rep as (ops.map Prod.snd) →
    ∃ st outs, pathLoop useBlas output d (stateOf ops) path = .ok (st, outs) ∧
      ((∃ a T, coreLoop lib sharing kw (outs.map StepOut.step) as = .ok [a] ∧ Rep a T ∧ IsTotal size output ops T) ∨
       (coreLoop lib sharing kw (outs.map StepOut.step) as = .error .attribute ∧ lib.einsum = none ∧
          ∃ o ∈ outs, o.step.blas = .no) ∨
       (coreLoop lib sharing kw (outs.map StepOut.step) as = .error .type ∧ kw ≠ [] ∧ useBlas = true ∧
          ∃ o ∈ outs, usesBlas lib.einsum.isNone o.step.blas = true)) := by
  induction path with
  | nil => intro ops as _ _ _ h; exact absurd h (by simp [CompletePath])
  | cons p ps ih =>
    intro ops as hinv h52 hd hpath hplain has
    have hvalid : ValidStep ops.length p := by
      cases ps with
      | nil => exact hpath.1
      | cons q qs => exact hpath.1
    obtain ⟨hpne, hpnd, hplt⟩ := hvalid
    obtain ⟨P, Q, hpop⟩ := popAll_valid hpnd hplt
    have hperm := popAll_perm hpop
    have hlen := popAll_length hpop
    rw [sortedDesc_length] at hlen
    have hPne : P ≠ [] := by
      rintro rfl
      exact hpne (List.length_eq_zero_iff.mp (by simpa using hlen.1.symm))
    have hinv' : Inv size output (P ++ Q) := hinv.perm hperm.symm
    have hlast : ps.isEmpty = true → Q = [] := by
      intro he
      cases ps with
      | nil =>
        have : p.length = ops.length := hpath.2
        apply List.length_eq_zero_iff.mp
        omega
      | cons q qs => simp at he
    set r := resultTerm ps.isEmpty (P.map Prod.fst) (Q.map Prod.fst) output with hr
    have hrm : ∀ c, c ∈ r ↔ Occurs P c ∧ (c ∈ output ∨ Occurs Q c) := fun c => mem_resultTerm hlast hinv'.out
    have hshp := findOutputShape_step hinv' (P := P) (fun p hp => List.mem_append_left _ hp) (r := r) (fun c hc => ((hrm c).mp hc).1)
    have hPocc : ∀ c, Occurs P c → Occurs ops c := fun c hc =>
      (Occurs_perm hperm c).mp ((Occurs_append P Q c).mpr (Or.inl hc))
    have hdP : ∀ c ∈ (P.map Prod.fst).flatten, (d.get? c).isSome := by
      intro c hc
      apply hd
      apply hPocc
      rw [← occurs_iff]
      rwa [List.mem_flatten] at hc
    have hstep := pathStep_eq (useBlas := useBlas) (isLast := ps.isEmpty) (st := stateOf ops) (p := p) rfl
      (popAll_map_ok Prod.fst hpop) (popAll_map_ok Tensor.shape (popAll_map_ok Prod.snd hpop)) hpne hdP hshp
    have hocc : ∀ (T : Tensor R) c, Occurs (Q ++ [(r, T)]) c → Occurs ops c := by
      intro T c hc
      rw [Occurs_append] at hc
      rcases hc with hc | ⟨x, hx, hc⟩
      · exact (Occurs_perm hperm c).mp ((Occurs_append P Q c).mpr (Or.inr hc))
      · rw [List.mem_singleton] at hx
        subst hx
        exact hPocc c ((hrm c).mp hc).1
    have hcard : ∀ X : List (Str × Tensor R), (∀ c, Occurs X c → Occurs ops c) → (X.map Prod.fst).flatten.toFinset.card ≤ 52 := by
      intro X hX
      refine le_trans (Finset.card_le_card ?_) h52
      intro c hc
      rw [List.mem_toFinset, List.mem_flatten, occurs_iff] at hc ⊢
      exact hX c hc
    have hplainP : plain = true → (∀ c, Occurs P c → 0 < size c) ∧ ∀ p ∈ P, p.2.shape = p.1.map size := fun hp =>
      ⟨fun c hc => (hplain hp).1 c (hPocc c hc), fun q hq => (hplain hp).2 q (hperm.mem_iff.mp (List.mem_append_left _ hq))⟩
    obtain ⟨asP, asQ, hpopA, hasP, hasQ⟩ := popAll_forall2 has (popAll_map_ok Prod.snd hpop)
    have hres := stepResult_any hlib hinv' hPne hn hlast useBlas p (hcard P hPocc) hplainP hasP
    cases ps with
    | nil =>
      have hloop : ∃ st, pathLoop useBlas output d (stateOf ops) [p] = .ok (st, [outOf useBlas output d p true P Q]) := by
        simp only [pathLoop]
        rw [hstep]
        exact ⟨_, rfl⟩
      obtain ⟨st, hloop⟩ := hloop
      refine ⟨st, [outOf useBlas output d p true P Q], hloop, ?_⟩
      have hQ : Q = [] := hlast rfl
      subst hQ
      cases hasQ
      simp only [coreLoop, bind, Except.bind, List.map_cons, List.map_nil]
      rw [show popAll (outOf useBlas output d p true P []).step.inds as = .ok (asP, []) from hpopA]
      simp only
      rcases hres with ⟨a, T, h1, h2, h3⟩ | ⟨h1, h2, h3⟩ | ⟨h1, h2, h3, h4⟩
      · left
        refine ⟨a, T, by rw [show stepResult lib sharing kw (outOf useBlas output d p true P []).step asP = .ok a from h1]; rfl, h2, ?_, ?_⟩
        · rw [h3.shape]
          show output.map _ = _
          apply List.map_congr_left
          intro c hc
          apply localSize_removed hinv'
          · have := hinv'.out c hc
            simpa using this
          · rintro ⟨q, hq, _⟩; simp at hq
        · intro env
          have h4 := h3.get env
          rw [← totalSum_perm hperm, List.append_nil]
          exact h4
      · right; left
        exact ⟨by rw [show stepResult lib sharing kw (outOf useBlas output d p true P []).step asP = _ from h1], h2, _,
          List.mem_cons_self, h3⟩
      · right; right
        exact ⟨by rw [show stepResult lib sharing kw (outOf useBlas output d p true P []).step asP = _ from h1], h2, h3, _,
          List.mem_cons_self, h4⟩
    | cons q qs =>
      have hcp : CompletePath (ops.length + 1 - p.length) (q :: qs) := hpath.2
      have hexT : ∃ T : Tensor R, IsContraction size P r T := by
        obtain ⟨T, _, hT⟩ := einsumCore_contraction (size := size) (r := r)
          (hinv'.fits.sub (P := P) (fun p hp => List.mem_append_left _ hp)) (resultTerm_nodup hn)
          (fun c hc => ((hrm c).mp hc).1)
          (fun c hc hcr => localSize_removed hinv' hc (fun hQ => hcr ((hrm c).mpr ⟨hc, Or.inr hQ⟩)))
        exact ⟨T, hT⟩
      have hstate : ∀ T : Tensor R, IsContraction size P r T →
          ({ inputs := Q.map Prod.fst ++ [r], sets := (Q.map Prod.fst).map List.toFinset ++ [needed (P.map Prod.fst) (Q.map Prod.fst) output],
             shapes := (Q.map Prod.snd).map Tensor.shape ++ [r.map (localSize P)] } : PathState) = stateOf (Q ++ [(r, T)]) := by
        intro T hT
        unfold stateOf
        have hset : needed (P.map Prod.fst) (Q.map Prod.fst) output = r.toFinset := by
          ext c
          rw [mem_needed', List.mem_toFinset, hrm]
        simp only [List.map_append, List.map_cons, List.map_nil, hT.shape, hset]
      have hplainN : ∀ T : Tensor R, IsContraction size P r T → plain = true →
          (∀ c, Occurs (Q ++ [(r, T)]) c → 0 < size c) ∧ ∀ x ∈ Q ++ [(r, T)], x.2.shape = x.1.map size := by
        intro T hT hp
        refine ⟨fun c hc => (hplain hp).1 c (hocc T c hc), ?_⟩
        intro x hx
        rcases List.mem_append.mp hx with hx | hx
        · exact (hplain hp).2 x (hperm.mem_iff.mp (List.mem_append_right _ hx))
        · rw [List.mem_singleton] at hx
          subst hx
          rw [hT.shape]
          apply List.map_congr_left
          intro c hc
          have hcP := ((hrm c).mp hc).1
          obtain ⟨y, hy, hyc⟩ := (hinv'.fits.sub (P := P) (fun p hp => List.mem_append_left _ hp)).full c hcP
          rw [(hplainP hp).2 y hy] at hyc
          obtain ⟨i, g1, g2⟩ := mem_zip_get.mp hyc
          rw [List.getElem?_map, g1] at g2
          simpa using g2.symm
      have hnext : ∀ (T : Tensor R) (bs : List A), IsContraction size P r T → List.Forall₂ Rep bs ((Q ++ [(r, T)]).map Prod.snd) → _ :=
        fun T bs hT hbs => ih (Q ++ [(r, T)]) bs (hinv'.next hn hlast hT) (hcard _ (hocc T)) (fun c hc => hd c (hocc T c hc))
          (by
            have : (Q ++ [(r, T)]).length = ops.length + 1 - p.length := by
              rw [List.length_append, List.length_singleton]; omega
            rw [this]; exact hcp) (hplainN T hT) hbs
      obtain ⟨T0, hT0⟩ := hexT
      obtain ⟨st, outs, hl, _⟩ := pathLoop_coreLoop (d := d) hn useBlas false (q :: qs) (Q ++ [(r, T0)]) (hinv'.next hn hlast hT0)
        (fun c hc => hd c (hocc T0 c hc)) (by
          have : (Q ++ [(r, T0)]).length = ops.length + 1 - p.length := by
            rw [List.length_append, List.length_singleton]; omega
          rw [this]; exact hcp)
      rw [← hstate T0 hT0] at hl
      have hloop : pathLoop useBlas output d (stateOf ops) (p :: q :: qs) = .ok (st, outOf useBlas output d p false P Q :: outs) := by
        rw [pathLoop, hstep]
        simp only [bind, Except.bind]
        rw [hl]
        rfl
      refine ⟨st, outOf useBlas output d p false P Q :: outs, hloop, ?_⟩
      simp only [coreLoop, bind, Except.bind, List.map_cons]
      rw [show popAll (outOf useBlas output d p false P Q).step.inds as = .ok (asP, asQ) from hpopA]
      simp only
      rcases hres with ⟨a, T, h1, h2, h3⟩ | ⟨h1, h2, h3⟩ | ⟨h1, h2, h3, h4⟩
      · rw [show stepResult lib sharing kw (outOf useBlas output d p false P Q).step asP = .ok a from h1]
        simp only
        obtain ⟨st', outs', hl', ho⟩ := hnext T (asQ ++ [a]) h3 (by
          rw [List.map_append]
          exact List.rel_append hasQ (.cons h2 .nil))
        rw [← hstate T h3, hl] at hl'
        simp only [Except.ok.injEq, Prod.mk.injEq] at hl'
        obtain ⟨-, rfl⟩ := hl'
        rcases ho with ⟨a', T', g1, g2, g3⟩ | ⟨g1, g2, o, ho, g3⟩ | ⟨g1, g2, g4, o, ho, g3⟩
        · left
          refine ⟨a', T', g1, g2, g3.shape, ?_⟩
          intro env
          rw [g3.get env, totalSum_next hinv' hlast h3, totalSum_perm hperm]
        · right; left; exact ⟨g1, g2, o, by simp [ho], g3⟩
        · right; right; exact ⟨g1, g2, g4, o, by simp [ho], g3⟩
      · right; left
        rw [show stepResult lib sharing kw (outOf useBlas output d p false P Q).step asP = .error .attribute from h1]
        exact ⟨rfl, h2, _, List.mem_cons_self, h3⟩
      · right; right
        rw [show stepResult lib sharing kw (outOf useBlas output d p false P Q).step asP = .error .type from h1]
        exact ⟨rfl, h2, h3, _, List.mem_cons_self, h4⟩

end OE.AnyLibrary
