import Verif.Lemmas.AnyLibrary
import Verif.Lemmas.PlainSteps
import Verif.Lemmas.ArrayCongr
import Verif.Props.Torch
import Verif.Props.Objects

/-!
# C69, C70: `contract` with any array library, and what it hands to it
-/

namespace OE.Props
open OE OE.Py OE.Parser OE.Helpers OE.Blas OE.Contract OE.Spec OE.AnyLibrary

variable {R : Type} [CommSemiring R] {A : Type}

/-! ## Keyword arguments -/

section kwargs
omit [CommSemiring R]

theorem get?_append {κ ν : Type} [DecidableEq κ] (d e : Dict κ ν) (k : κ) :
    Dict.get? (d ++ e) k = (d.get? k).or (e.get? k) := by
  induction d with
  | nil => simp [Dict.get?]
  | cons p d ih =>
    obtain ⟨k', v⟩ := p
    simp only [List.cons_append, Dict.get?]
    split <;> simp_all

theorem get?_keepUnless (kw : Kw A) (key k : Str) (f : Val A → Bool) :
    (keepUnless kw key f).get? k = if k = key then (kw.get? k).filter (fun v => !f v) else none := by
  unfold keepUnless
  by_cases hk : k = key
  · subst hk
    rw [if_pos rfl]
    cases h : kw.get? k with
    | none => simp [Dict.get?]
    | some v =>
      simp only [Option.filter]
      split <;> simp_all [Dict.get?]
  · rw [if_neg hk]
    cases h : kw.get? key with
    | none => simp [Dict.get?]
    | some v =>
      simp only
      split
      · simp [Dict.get?]
      · simp [Dict.get?, Ne.symm hk]

theorem get?_none {κ ν : Type} [DecidableEq κ] {d : Dict κ ν} {k : κ} : d.get? k = none ↔ k ∉ d.map Prod.fst := by
  induction d with
  | nil => simp [Dict.get?]
  | cons p d ih =>
    obtain ⟨k', v⟩ := p
    simp only [Dict.get?, List.map_cons, List.mem_cons, not_or]
    split
    · rename_i h; simp [h]
    · rename_i h; rw [ih]; simp [Ne.symm h]

theorem get?_foldl_set {κ ν : Type} [DecidableEq κ] (rest : Dict κ ν) (hn : (rest.map Prod.fst).Nodup) (d : Dict κ ν) (k : κ) :
    Dict.get? (rest.foldl (fun d p => d.set p.1 p.2) d) k = (rest.get? k).or (d.get? k) := by
  induction rest generalizing d with
  | nil => simp [Dict.get?]
  | cons p rest ih =>
    obtain ⟨k', v⟩ := p
    simp only [List.map_cons, List.nodup_cons] at hn
    rw [List.foldl_cons, ih hn.2, Dict.get?_set]
    simp only [Dict.get?]
    by_cases hk : k' = k
    · subst hk
      have := get?_none.mpr hn.1
      simp [this]
    · simp [hk, Ne.symm hk]

theorem get?_filter {κ ν : Type} [DecidableEq κ] (d : Dict κ ν) (f : κ → Bool) (k : κ) :
    Dict.get? (d.filter (fun p => f p.1)) k = if f k then d.get? k else none := by
  induction d with
  | nil => simp [Dict.get?]
  | cons p d ih =>
    obtain ⟨k', v⟩ := p
    simp only [List.filter_cons]
    by_cases hf : f k'
    · simp only [hf, if_true, Dict.get?]
      split
      · rename_i h; subst h; simp [hf]
      · exact ih
    · simp only [hf, Dict.get?]
      by_cases hk : k' = k
      · subst hk; simp only [hf, if_false, Bool.false_eq_true] at ih ⊢; exact ih
      · simp only [hk, if_false]; exact ih

/-- **C70, what is left out.** Of the keyword arguments exactly those with their default values are dropped, whatever else there is. -/
theorem C70_filter (kw : Kw A) (hn : (kw.map Prod.fst).Nodup) (k : Str) (v : Val A) :
    (filterEinsumDefaults kw).get? k = some v ↔ kw.get? k = some v ∧ ¬ IsDefault k v := by
  have hne : S "order" ≠ S "casting" ∧ S "order" ≠ S "dtype" ∧ S "order" ≠ S "out" ∧ S "casting" ≠ S "dtype" ∧ S "casting" ≠ S "out" ∧
      S "dtype" ≠ S "out" := by decide
  unfold filterEinsumDefaults IsDefault
  simp only
  rw [get?_foldl_set _ ((hn.sublist (List.filter_sublist.map _)))]
  rw [get?_filter kw (fun k => decide (k ∉ [S "order", S "casting", S "dtype", S "out"]))]
  simp only [get?_append, get?_keepUnless]
  generalize S "order" = o at *
  generalize S "casting" = c at *
  generalize S "dtype" = t at *
  generalize S "out" = u at *
  obtain ⟨h1, h2, h3, h4, h5, h6⟩ := hne
  have key : ∀ (f : Val A → Bool) (w : Val A), (∀ v, f v = true ↔ v = w) →
      ((kw.get? k).filter (fun v => !f v) = some v ↔ kw.get? k = some v ∧ v ≠ w) := by
    intro f w hf
    rw [Option.filter_eq_some_iff]
    simp [← hf]
  have htext : ∀ s : Str, ∀ v : Val A, Val.isText s v = true ↔ v = .text s := by
    intro s v; cases v <;> simp [Val.isText]
  have hnone : ∀ v : Val A, Val.isNone v = true ↔ v = .none := by
    intro v; cases v <;> simp [Val.isNone]
  by_cases e1 : k = o
  · subst e1
    simpa [h1, h2, h3] using key _ _ (htext (S "K"))
  · by_cases e2 : k = c
    · subst e2
      simpa [h1.symm, h4, h5] using key _ _ (htext (S "safe"))
    · by_cases e3 : k = t
      · subst e3
        simpa [h2.symm, h4.symm, h6] using key _ _ hnone
      · by_cases e4 : k = u
        · subst e4
          simpa [h3.symm, h5.symm, h6.symm] using key _ _ hnone
        · simp [e1, e2, e3, e4]

/-- `out=None` in front is dropped. -/
theorem filter_out (kw : Kw A) (h : S "out" ∉ kw.map Prod.fst) :
    filterEinsumDefaults ((S "out", Val.none) :: kw) = filterEinsumDefaults kw := by
  have h1 : ∀ (k : Str) (f : Val A → Bool), k ≠ S "out" → keepUnless ((S "out", Val.none) :: kw) k f = keepUnless kw k f := by
    intro k f hk
    unfold keepUnless
    simp [Dict.get?, Ne.symm hk]
  have h2 : keepUnless ((S "out", Val.none) :: kw) (S "out") Val.isNone = keepUnless kw (S "out") Val.isNone := by
    unfold keepUnless
    rw [get?_none.mpr h]
    simp [Dict.get?, Val.isNone]
  unfold filterEinsumDefaults
  rw [h1 _ _ (by decide), h1 _ _ (by decide), h1 _ _ (by decide), h2]
  simp

theorem filter_nil : filterEinsumDefaults ([] : Kw A) = [] := rfl

theorem filter_only_out : filterEinsumDefaults ([(S "out", Val.none)] : Kw A) = [] := by
  rw [filter_out _ (by simp), filter_nil]

end kwargs

/-! ## Libraries that serve -/

/-- numpy's `einsum` evaluates plain equations. -/
theorem npEinsum_plain {size : Nat → Nat} {terms : List Str} {out : Str} {Ts : List (Tensor R)} (hp : PlainEquation terms out)
    (hlen : terms.length = Ts.length) (hfit : OperandsFit size terms (Ts.map Tensor.shape)) :
    (∃ T, npEinsum (written terms out) Ts = .ok T ∧ IsEinsum size terms out Ts T) ∧
    (∃ T, npEinsum (convertToValidEinsumChars (written terms out)) Ts = .ok T ∧ IsEinsum size terms out Ts T) := by
  have hletter : ∀ c, IsLetter c → isValidEinsumChar c = true ∧ ¬ IsPunct c ∧ c ∈ einsumSymbolsBase := by
    intro c hc
    have hall : ∀ c ∈ List.range' 97 26 ++ List.range' 65 26, isValidEinsumChar c = true ∧
        ¬ (c = cComma ∨ c = cDot ∨ c = cDash ∨ c = cGt) ∧ c ∈ einsumSymbolsBase := by decide
    have := hall c (by simp only [List.mem_append, List.mem_range'_1]; rcases hc with h | h <;> omega)
    exact ⟨this.1, fun h => this.2.1 (by simp only [IsPunct] at h; tauto), this.2.2⟩
  have hw : WellPosed size terms out (Ts.map Tensor.shape) :=
    { toOperandsFit := hfit, nonempty := hp.nonempty, len := by simpa using hlen,
      punct := fun t ht c hc => (hletter c (hp.letters t ht c hc)).2.1, nodup := hp.nodup, sub := hp.sub }
  have hinv := inv_of_wellPosed hw
  have hinv' : Inv size out (terms.zip Ts ++ []) := by rw [List.append_nil]; exact hinv
  set P := terms.zip Ts with hP
  have hne : P ≠ [] := by
    intro h
    have := congrArg List.length h
    rw [hP, List.length_zip] at this
    have h0 := List.length_pos_iff.mpr hp.nonempty
    simp only [List.length_nil] at this
    omega
  have hfst : P.map Prod.fst = terms := List.map_fst_zip (by omega)
  have hsnd : P.map Prod.snd = Ts := List.map_snd_zip (by omega)
  have hocc : ∀ c, Occurs P c ↔ ∃ t ∈ terms, c ∈ t := fun c => occurs_zip hlen
  have hf : Fits (localSize P) P := hinv.fits.sub (fun p hp => hp)
  have hsz : ∀ c, Occurs P c → localSize P c = size c := fun c hc => localSize_removed hinv' hc (by simp [Occurs])
  have hr : ∀ c ∈ out, Occurs P c := fun c hc => (hocc c).mpr (hp.sub c hc)
  have hl : ∀ c, Occurs P c → ¬ IsPunct c := by
    intro c hc
    obtain ⟨t, ht, hct⟩ := (hocc c).mp hc
    exact hw.punct t ht c hct
  have hfin : ∀ T, IsContraction size P out T → IsEinsum size terms out Ts T := by
    intro T hT
    apply isEinsum_of_total hlen hp.nodup
    refine ⟨?_, fun env => ?_⟩
    · rw [hT.shape]
      exact List.map_congr_left (fun c hc => hsz c (hr c hc))
    · rw [hT.get env]
      rfl
  have hstr : written terms out = einsumStrOf (P.map Prod.fst) out := by rw [hfst]; rfl
  rw [hstr]
  have hS : ∀ c ∈ einsumStrOf (P.map Prod.fst) out, isValidEinsumChar c = true := by
    intro c hc
    have hlet : ∀ c, Occurs P c → isValidEinsumChar c = true := by
      intro c hc
      obtain ⟨t, ht, hct⟩ := (hocc c).mp hc
      exact (hletter c (hp.letters t ht c hct)).1
    simp only [einsumStrOf, List.append_assoc, List.mem_append, List.mem_cons, List.not_mem_nil, or_false] at hc
    rcases hc with hc | (hc | hc) | hc
    · rcases mem_join _ _ _ hc with h | ⟨t, ht, hc⟩
      · simp only [List.mem_singleton] at h; subst h; decide
      · rw [hfst] at ht; exact hlet c ((hocc c).mpr ⟨t, ht, hc⟩)
    · subst hc; decide
    · subst hc; decide
    · exact hlet c (hr c hc)
  refine ⟨?_, ?_⟩
  · obtain ⟨T, h1, h2⟩ := einsumCore_contraction (size := size) hf hp.nodup hr (fun c hc _ => hsz c hc)
    refine ⟨T, ?_, hfin T h2⟩
    rw [← h1, ← npEinsum_str hne hl hr (List.all_eq_true.mpr hS), hsnd]
  · rcases convertCall_contraction (size := size) hne hf hp.nodup hr (fun c hc _ => hsz c hc) hl with ⟨T, h1, h2⟩ | ⟨_, h⟩
    · refine ⟨T, ?_, hfin T h2⟩
      rw [← h1, hsnd]
    · exfalso
      have := h einsumSymbolsBase (by
        intro c hc
        obtain ⟨t, ht, hct⟩ := (hocc c).mp hc
        exact (hletter c (hp.letters t ht c hct)).2.2)
      revert this
      decide

omit [CommSemiring R] in
theorem shapes_of_same {as Ts : List (Tensor R)} (h : List.Forall₂ SameArray as Ts) : as.map Tensor.shape = Ts.map Tensor.shape := by
  induction h with
  | nil => rfl
  | cons h1 _ ih => rw [List.map_cons, List.map_cons, ih, h1.1]

/-- **C69, numpy** serves, whatever the keyword arguments. -/
theorem C69_numpy_serves (kw : Kw (Tensor R)) : Serves (R := R) numpyLibrary kw false SameArray where
  ext _ _ _ h g := h.trans g
  einsum := by
    intro fn hfn size terms out as Ts hp hlen hfit _ hrep
    cases hfn
    have hsh := shapes_of_same hrep
    obtain ⟨T, h1, h2⟩ := (npEinsum_plain (Ts := as) hp (by rw [hlen, hrep.length_eq]) (by rw [hsh]; exact hfit)).1
    exact ⟨T, T, h1, SameArray.refl T, isEinsum_congr hrep hlen hfit h2⟩
  tensordot := fun _ _ _ _ _ _ _ ha hb _ h => npTensordot_congr ha hb h
  transpose := fun _ _ _ _ ha h => npTranspose_congr ha h

/-- **C69, torch** serves, with the fallback for a missing `tensordot`. -/
theorem C69_torch_serves (kw : Kw (Tensor R)) : Serves (R := R) torchLibrary kw false SameArray where
  ext _ _ _ h g := h.trans g
  einsum := by
    intro fn hfn size terms out as Ts hp hlen hfit _ hrep
    cases hfn
    have hsh := shapes_of_same hrep
    obtain ⟨T, h1, h2⟩ := (npEinsum_plain (Ts := as) hp (by rw [hlen, hrep.length_eq]) (by rw [hsh]; exact hfit)).2
    exact ⟨T, T, h1, SameArray.refl T, isEinsum_congr hrep hlen hfit h2⟩
  tensordot := by
    intro a b X Y la lb Z ha hb hrank h
    obtain ⟨V, hV, hVZ⟩ := npTensordot_congr ha hb h
    have hcond : (∀ p ∈ la, p < a.shape.length) ∧ (∀ p ∈ lb, p < b.shape.length) := by
      unfold npTensordot at hV
      split at hV
      · cases hV
      · rename_i h
        simp only [not_or, not_not, List.any_eq_true, decide_eq_true_eq, not_exists, not_and, ne_eq, not_le] at h
        exact ⟨h.2.2.2.1, h.2.2.2.2.1⟩
    have hden : ∀ (n : Nat) (l : List Nat), (∀ p ∈ l, p < n) →
        List.Forall₂ (DenotesAxis n) (l.map (fun i : Nat => (i : Int))) l := by
      intro n l
      induction l with
      | nil => intro _; exact .nil
      | cons p l ih => intro h; exact .cons ⟨h p (by simp), Or.inl rfl⟩ (ih (fun q hq => h q (by simp [hq])))
    obtain ⟨c, h1, h2⟩ := C46_torch_tensordot a b (.pair (.many (la.map (fun i : Nat => (i : Int)))) (.many (lb.map (fun i : Nat => (i : Int)))))
      la lb ⟨hden _ _ hcond.1, hden _ _ hcond.2⟩ V hV (by rw [ha.1, hb.1]; exact hrank)
    exact ⟨c, h1, h2.trans hVZ⟩
  transpose := fun _ _ _ _ ha h => npTranspose_congr ha h

/-- **C69, arrays of objects** serve where nothing is broadcast and no axis is empty, if `+` and `*` of the objects become those of a
commutative semiring under `φ`, and `np.tensordot` does on the objects what it should. -/
theorem C69_objects_serve {α : Type} [Add α] [Mul α] [Inhabited α] (φ : α → R)
    (hadd : ∀ a b, φ (a + b) = φ a + φ b) (hmul : ∀ a b, φ (a * b) = φ a * φ b)
    (td : Tensor α → Tensor α → List Nat × List Nat → Except PyErr (Tensor α))
    (htd : ∀ a b la lb Z, npTensordot (mapTensor φ a) (mapTensor φ b) la lb = .ok Z →
      ∃ c, td a b (la, lb) = .ok c ∧ SameArray (mapTensor φ c) Z) :
    Serves (R := R) (objectLibrary td) [] true (fun a T => SameArray (mapTensor φ a) T) where
  ext _ _ _ h g := h.trans g
  einsum := by
    intro fn hfn size terms out as Ts hp hlen hfit hplain hrep
    cases hfn
    have hrep' : List.Forall₂ SameArray (as.map (mapTensor φ)) Ts := by rw [List.forall₂_map_left_iff]; exact hrep
    have hsh := shapes_of_same hrep'
    obtain ⟨hpos, hshapes⟩ := hplain rfl
    have hlen' := hrep.length_eq
    have hpunct : ∀ t ∈ terms, ∀ c ∈ t, ¬ IsPunct c := by
      intro t ht c hc h
      have := hp.letters t ht c hc
      unfold IsLetter at this
      simp only [IsPunct] at h
      omega
    obtain ⟨T, h1, h2⟩ := C45_object_einsum_partial φ hadd hmul size terms out as hp.nonempty hpunct
      (by
        refine ⟨by omega, ?_⟩
        intro i t A h1 h2
        have h3 : (Ts.map Tensor.shape)[i]? = some A.shape := by
          rw [← hsh]; simp [h2, mapTensor]
        rw [hshapes] at h3
        simp [h1] at h3
        exact h3.symm) hp.nodup hp.sub
      (by
        intro c hc
        unfold summed at hc
        rw [Finset.mem_sdiff, List.mem_toFinset, List.mem_flatten] at hc
        obtain ⟨⟨t, ht, hct⟩, _⟩ := hc
        exact hpos t ht c hct)
    exact ⟨T, mapTensor φ T, h1, SameArray.refl _, isEinsum_congr hrep' hlen hfit h2⟩
  tensordot := by
    intro a b X Y la lb Z ha hb _ h
    obtain ⟨V, hV, hVZ⟩ := npTensordot_congr ha hb h
    obtain ⟨c, h1, h2⟩ := htd a b la lb V hV
    exact ⟨c, h1, h2.trans hVZ⟩
  transpose := by
    intro a X axes Z ha h
    obtain ⟨V, hV, hVZ⟩ := npTranspose_congr ha h
    have : ∃ c, npTranspose a axes = .ok c ∧ mapTensor φ c = V := by
      unfold npTranspose at hV ⊢
      have hs : (mapTensor φ a).shape = a.shape := rfl
      rw [hs] at hV
      split at hV
      · cases hV
      · rename_i hc
        rw [if_neg hc]
        cases hV
        exact ⟨_, rfl, rfl⟩
    obtain ⟨c, h1, h2⟩ := this
    exact ⟨c, h1, h2 ▸ hVZ⟩

/-! ## The Einstein summation with any library -/

/-- Whatever the keyword arguments: `contract` returns an array standing for the Einstein summation, or the library has no `einsum` and
some step needs it, or there are keyword arguments and some step goes to `tensordot`. -/
theorem contract_any {lib : Library A} {plain : Bool} {Rep : A → Tensor R → Prop} {sharing : Bool} {kw : Kw A}
    (hlib : Serves lib (filterEinsumDefaults (if sharing then [] else (S "out", Val.none) :: kw)) plain Rep)
    (shape : A → Shape) (hshape : ∀ a T, Rep a T → shape a = T.shape) (np : Library A)
    (size : Nat → Nat) (eq : Str) (as : List A) (Ts : List (Tensor R)) (hrep : List.Forall₂ Rep as Ts) (inp out : Str)
    (hparse : parseEinsum eq (Ts.map Tensor.shape) = .ok (inp, out)) (hcomma : cComma ∉ out)
    (hfit : OperandsFit size (splitOn cComma inp) (Ts.map Tensor.shape))
    (hplain : plain = true → PlainShapes size (splitOn cComma inp) (Ts.map Tensor.shape))
    (hlab : (splitOn cComma inp).flatten.toFinset.card ≤ 52)
    (opt : Optimize) (mem : MemLimit) (hmem : ValidMemory mem)
    (hopt : ChoosesComplete opt size (splitOn cComma inp) out) (useBlas : Bool) :
    ∃ info, contractPath (splitOn cComma inp) out (Ts.map Tensor.shape) opt mem useBlas = .ok info ∧
      ((∃ a T, AnyLibrary.contract shape np lib sharing eq as opt mem useBlas kw = .ok a ∧ Rep a T ∧
          IsEinsum size (splitOn cComma inp) out Ts T) ∨
       (AnyLibrary.contract shape np lib sharing eq as opt mem useBlas kw = .error .attribute ∧ lib.einsum = none ∧
          ∃ s ∈ info.contractionList, s.blas = .no) ∨
       (AnyLibrary.contract shape np lib sharing eq as opt mem useBlas kw = .error .type ∧ kw ≠ [] ∧ useBlas = true ∧
          ∃ s ∈ info.contractionList, usesBlas lib.einsum.isNone s.blas = true)) := by
  have h := wellPosed_of_parse hparse hcomma hfit
  have hsh : as.map shape = Ts.map Tensor.shape := by
    clear hparse hfit hplain h
    induction hrep with
    | nil => rfl
    | cons h1 _ ih => rw [List.map_cons, List.map_cons, ih, hshape _ _ h1]
  obtain ⟨d, path, hd, hp, hpp, hinfo⟩ := contractPath_eq h hmem hopt useBlas
  set inputs := splitOn cComma inp with hinputs
  have hlen : inputs.length = Ts.length := by simpa using h.len
  have hinv := inv_of_wellPosed h
  have hzl : (inputs.zip Ts).length = inputs.length := by rw [List.length_zip]; omega
  have hfst : (inputs.zip Ts).map Prod.fst = inputs := List.map_fst_zip (by omega)
  have hsnd : (inputs.zip Ts).map Prod.snd = Ts := List.map_snd_zip (by omega)
  have hst : stateOf (inputs.zip Ts) = { inputs, sets := inputs.map List.toFinset, shapes := Ts.map Tensor.shape } := by
    unfold stateOf
    rw [hfst, hsnd]
  obtain ⟨st, outs, hl, ho⟩ := pathLoop_coreLoop_any (d := d) hlib h.nodup useBlas path (inputs.zip Ts) as hinv (by rw [hfst]; exact hlab)
    (fun c hc => by rw [hd c ((occurs_zip hlen).mp hc)]; rfl) (by rw [hzl]; exact hp)
    (by
      intro hpl
      obtain ⟨g1, g2⟩ := hplain hpl
      refine ⟨fun c hc => ?_, fun q hq => ?_⟩
      · obtain ⟨t, ht, hct⟩ := (occurs_zip hlen).mp hc
        exact g1 t ht c hct
      · obtain ⟨i, h1, h2⟩ := mem_zip_get.mp hq
        have := congrArg (fun l => l[i]?) g2
        simp only [List.getElem?_map, h1, h2, Option.map_some, Option.some.injEq] at this
        exact this)
    (by rw [hsnd]; exact hrep)
  rw [hst] at hl
  refine ⟨_, hinfo st outs hl, ?_⟩
  have hc : AnyLibrary.contract shape np lib sharing eq as opt mem useBlas kw =
      AnyLibrary.coreContract lib sharing kw (outs.map StepOut.step) as := by
    cases opt with
    | off => exact absurd hopt (by simp [ChoosesComplete])
    | path p => simp only [AnyLibrary.contract, bind, Except.bind, hsh]; rw [hparse]; simp only; rw [hinfo st outs hl]
    | finder f => simp only [AnyLibrary.contract, bind, Except.bind, hsh]; rw [hparse]; simp only; rw [hinfo st outs hl]
  rw [hc]
  simp only [AnyLibrary.coreContract, bind, Except.bind]
  rcases ho with ⟨a, T, h1, h2, h3⟩ | ⟨h1, h2, o, ho, h3⟩ | ⟨h1, h2, h4, o, ho, h3⟩
  · left
    exact ⟨a, T, by rw [h1], h2, isEinsum_of_total hlen h.nodup h3⟩
  · right; left
    exact ⟨by rw [h1], h2, o.step, List.mem_map_of_mem ho, h3⟩
  · right; right
    exact ⟨by rw [h1], h2, h4, o.step, List.mem_map_of_mem ho, h3⟩

/-- **C69.** Whatever the array library, if its `tensordot` and `transpose` do what numpy's do and its `einsum` evaluates equations in
letters with an explicit output of distinct labels, `contract` returns an array that stands for the Einstein summation of the operands —
inside and outside `shared_intermediates`, with and without `use_blas`, along any complete path. If no operand is broadcast and no axis is
empty (`plain`), the library's `einsum` need not cope with either. -/
theorem C69_contract_any_library {lib : Library A} {plain : Bool} {Rep : A → Tensor R → Prop} (hlib : Serves lib [] plain Rep)
    (hein : lib.einsum.isSome) (shape : A → Shape) (hshape : ∀ a T, Rep a T → shape a = T.shape) (np : Library A)
    (size : Nat → Nat) (eq : Str) (as : List A) (Ts : List (Tensor R)) (hrep : List.Forall₂ Rep as Ts) (inp out : Str)
    (hparse : parseEinsum eq (Ts.map Tensor.shape) = .ok (inp, out)) (hcomma : cComma ∉ out)
    (hfit : OperandsFit size (splitOn cComma inp) (Ts.map Tensor.shape))
    (hplain : plain = true → PlainShapes size (splitOn cComma inp) (Ts.map Tensor.shape))
    (hlab : (splitOn cComma inp).flatten.toFinset.card ≤ 52)
    (opt : Optimize) (mem : MemLimit) (hmem : ValidMemory mem)
    (hopt : ChoosesComplete opt size (splitOn cComma inp) out) (useBlas sharing : Bool) :
    ∃ a T, AnyLibrary.contract shape np lib sharing eq as opt mem useBlas [] = .ok a ∧ Rep a T ∧
      IsEinsum size (splitOn cComma inp) out Ts T := by
  obtain ⟨_, _, h⟩ := contract_any (sharing := sharing) (kw := []) (by
    cases sharing
    · rw [if_neg (by simp), filter_only_out]; exact hlib
    · rw [if_pos rfl, filter_nil]; exact hlib) shape hshape np size eq as Ts hrep inp out hparse hcomma hfit hplain hlab opt mem hmem hopt
    useBlas
  rcases h with h | ⟨_, h, _⟩ | ⟨_, h, _⟩
  · exact h
  · rw [h] at hein; simp at hein
  · exact absurd rfl h

/-- **C69, libraries without `einsum`.** The same, if every step of the plan can be done with `tensordot`. -/
theorem C69_contract_without_einsum {lib : Library A} {plain : Bool} {Rep : A → Tensor R → Prop} (hlib : Serves lib [] plain Rep)
    (shape : A → Shape) (hshape : ∀ a T, Rep a T → shape a = T.shape) (np : Library A)
    (size : Nat → Nat) (eq : Str) (as : List A) (Ts : List (Tensor R)) (hrep : List.Forall₂ Rep as Ts) (inp out : Str)
    (hparse : parseEinsum eq (Ts.map Tensor.shape) = .ok (inp, out)) (hcomma : cComma ∉ out)
    (hfit : OperandsFit size (splitOn cComma inp) (Ts.map Tensor.shape))
    (hplain : plain = true → PlainShapes size (splitOn cComma inp) (Ts.map Tensor.shape))
    (hlab : (splitOn cComma inp).flatten.toFinset.card ≤ 52)
    (opt : Optimize) (mem : MemLimit) (hmem : ValidMemory mem)
    (hopt : ChoosesComplete opt size (splitOn cComma inp) out) (useBlas sharing : Bool) (info : PathInfo)
    (hinfo : contractPath (splitOn cComma inp) out (Ts.map Tensor.shape) opt mem useBlas = .ok info)
    (hblas : ∀ s ∈ info.contractionList, s.blas ≠ .no) :
    ∃ a T, AnyLibrary.contract shape np lib sharing eq as opt mem useBlas [] = .ok a ∧ Rep a T ∧
      IsEinsum size (splitOn cComma inp) out Ts T := by
  obtain ⟨info', hi, h⟩ := contract_any (sharing := sharing) (kw := []) (by
    cases sharing
    · rw [if_neg (by simp), filter_only_out]; exact hlib
    · rw [if_pos rfl, filter_nil]; exact hlib) shape hshape np size eq as Ts hrep inp out hparse hcomma hfit hplain hlab opt mem hmem hopt
    useBlas
  rw [hinfo] at hi
  cases hi
  rcases h with h | ⟨_, _, s, hs, h⟩ | ⟨_, h, _⟩
  · exact h
  · exact absurd h (hblas s hs)
  · exact absurd rfl h

/-- What one would like of keyword arguments: whatever they are, if the library can take those that are not defaults, `contract`
returns what it should. -/
def C70_statement : Prop :=
  ∀ (R A : Type) [CommSemiring R] (lib : Library A) (Rep : A → Tensor R → Prop) (kw : Kw A), (kw.map Prod.fst).Nodup →
    S "out" ∉ kw.map Prod.fst → Serves lib (filterEinsumDefaults kw) false Rep → lib.einsum.isSome →
    ∀ (shape : A → Shape), (∀ a T, Rep a T → shape a = T.shape) → ∀ (np : Library A)
    (size : Nat → Nat) (eq : Str) (as : List A) (Ts : List (Tensor R)), List.Forall₂ Rep as Ts → ∀ (inp out : Str),
    parseEinsum eq (Ts.map Tensor.shape) = .ok (inp, out) → cComma ∉ out → OperandsFit size (splitOn cComma inp) (Ts.map Tensor.shape) →
    (splitOn cComma inp).flatten.toFinset.card ≤ 52 → ∀ (opt : Optimize) (mem : MemLimit), ValidMemory mem →
    ChoosesComplete opt size (splitOn cComma inp) out → ∀ useBlas sharing : Bool,
    ∃ a T, AnyLibrary.contract shape np lib sharing eq as opt mem useBlas kw = .ok a ∧ Rep a T ∧
      IsEinsum size (splitOn cComma inp) out Ts T

/-- **C70 with `use_blas=False`**, outside `shared_intermediates`: with any keyword arguments, of which the library's `einsum` can take those
that are not defaults, `contract` returns the Einstein summation. Missing: `use_blas=True`, where it is false (`C70_counterexample`), and
sharing, where the keyword arguments do not arrive (`C70_sharing`). -/
theorem C70_keyword_arguments_partial {lib : Library A} {plain : Bool} {Rep : A → Tensor R → Prop} {kw : Kw A}
    (hout : S "out" ∉ kw.map Prod.fst) (hlib : Serves lib (filterEinsumDefaults kw) plain Rep)
    (hein : lib.einsum.isSome) (shape : A → Shape) (hshape : ∀ a T, Rep a T → shape a = T.shape) (np : Library A)
    (size : Nat → Nat) (eq : Str) (as : List A) (Ts : List (Tensor R)) (hrep : List.Forall₂ Rep as Ts) (inp out : Str)
    (hparse : parseEinsum eq (Ts.map Tensor.shape) = .ok (inp, out)) (hcomma : cComma ∉ out)
    (hfit : OperandsFit size (splitOn cComma inp) (Ts.map Tensor.shape))
    (hplain : plain = true → PlainShapes size (splitOn cComma inp) (Ts.map Tensor.shape))
    (hlab : (splitOn cComma inp).flatten.toFinset.card ≤ 52)
    (opt : Optimize) (mem : MemLimit) (hmem : ValidMemory mem)
    (hopt : ChoosesComplete opt size (splitOn cComma inp) out) :
    ∃ a T, AnyLibrary.contract shape np lib false eq as opt mem false kw = .ok a ∧ Rep a T ∧
      IsEinsum size (splitOn cComma inp) out Ts T := by
  obtain ⟨_, _, h⟩ := contract_any (sharing := false) (kw := kw) (by
    rw [if_neg (by simp), filter_out _ hout]; exact hlib) shape hshape np size eq as Ts hrep inp out hparse hcomma hfit hplain hlab opt mem
    hmem hopt false
  rcases h with h | ⟨_, h, _⟩ | ⟨_, _, h, _⟩
  · exact h
  · rw [h] at hein; simp at hein
  · cases h

section
omit [CommSemiring R]

/-- With keyword arguments no step that succeeded was a `tensordot`. -/
theorem coreLoop_ok_blas {lib : Library A} {sharing : Bool} {kw : Kw A} (hkw : kw ≠ []) (steps : List Step) (ops ops' : List A)
    (h : AnyLibrary.coreLoop lib sharing kw steps ops = .ok ops') : ∀ s ∈ steps, usesBlas lib.einsum.isNone s.blas = false := by
  induction steps generalizing ops with
  | nil => simp
  | cons s ss ih =>
    simp only [AnyLibrary.coreLoop, bind, Except.bind] at h
    split at h
    · cases h
    · rename_i tr htr
      split at h
      · cases h
      · rename_i view hview
        intro s' hs'
        rcases List.mem_cons.mp hs' with rfl | hs'
        · by_contra hb
          rw [Bool.not_eq_false] at hb
          unfold AnyLibrary.stepResult at hview
          rw [if_pos hb] at hview
          unfold AnyLibrary.blasStep at hview
          split at hview
          · split at hview
            · split at hview
              · rw [if_pos hkw] at hview; cases hview
              · cases hview
            · cases hview
          · cases hview
        · exact ih _ h s' hs'

/-- Inside `shared_intermediates` the keyword arguments matter to no step done with `einsum`. -/
theorem coreLoop_sharing {lib : Library A} (kw kw' : Kw A) (steps : List Step) (ops : List A)
    (h : ∀ s ∈ steps, usesBlas lib.einsum.isNone s.blas = false) :
    AnyLibrary.coreLoop lib true kw steps ops = AnyLibrary.coreLoop lib true kw' steps ops := by
  induction steps generalizing ops with
  | nil => rfl
  | cons s ss ih =>
    simp only [AnyLibrary.coreLoop]
    have : ∀ tmp, AnyLibrary.stepResult lib true kw s tmp = AnyLibrary.stepResult lib true kw' s tmp := by
      intro tmp
      unfold AnyLibrary.stepResult
      rw [if_neg (by rw [h s (by simp)]; simp), if_neg (by rw [h s (by simp)]; simp)]
      rfl
    simp only [this]
    have ih' := fun ops => ih ops (fun s' hs' => h s' (by simp [hs']))
    simp only [ih']

/-- With `use_blas=False` no step is flagged. -/
theorem pathLoop_noBlas {output : Str} {d : Dict Nat Nat} (path : List (List Nat)) (st st' : PathState) (outs : List StepOut)
    (h : pathLoop false output d st path = .ok (st', outs)) : ∀ o ∈ outs, o.step.blas = .no := by
  induction path generalizing st outs with
  | nil => simp only [pathLoop, Except.ok.injEq, Prod.mk.injEq] at h; simp [← h.2]
  | cons p ps ih =>
    simp only [pathLoop, bind, Except.bind] at h
    split at h
    · cases h
    · rename_i v hv
      split at h
      · cases h
      · rename_i w hw
        cases h
        intro o ho
        rcases List.mem_cons.mp ho with rfl | ho
        · unfold pathStep at hv
          simp only [bind, Except.bind] at hv
          iterate 6
            split at hv
            · cases hv
          cases hv
          rfl
        · exact ih _ _ hw o ho

theorem contractPath_noBlas {inputs : List Str} {output : Str} {shapes : List Shape} {opt : Optimize} {mem : MemLimit} {info : PathInfo}
    (h : contractPath inputs output shapes opt mem false = .ok info) : ∀ s ∈ info.contractionList, s.blas = .no := by
  simp only [contractPath, bind, Except.bind] at h
  split at h
  · cases h
  split at h
  · cases h
  split at h
  · cases h
  split at h
  · cases h
  split at h
  · cases h
  split at h
  · cases h
  rename_i v hv
  cases h
  intro s hs
  simp only [List.mem_map] at hs
  obtain ⟨o, ho, rfl⟩ := hs
  exact pathLoop_noBlas _ _ _ _ hv o ho

end

/-- **C70, exactly.** With a library that has `einsum`: `contract` with keyword arguments raises `TypeError` if some step of the plan
goes to `tensordot`, otherwise it returns the Einstein summation. Outside `shared_intermediates` the library's `einsum` has to take the
arguments that are not defaults, inside it is called without any. -/
theorem C70_exactly {lib : Library A} {plain : Bool} {Rep : A → Tensor R → Prop} {kw : Kw A} (sharing : Bool)
    (hout : S "out" ∉ kw.map Prod.fst) (hlib : Serves lib (filterEinsumDefaults (if sharing then [] else kw)) plain Rep)
    (hein : lib.einsum.isSome) (shape : A → Shape) (hshape : ∀ a T, Rep a T → shape a = T.shape) (np : Library A)
    (size : Nat → Nat) (eq : Str) (as : List A) (Ts : List (Tensor R)) (hrep : List.Forall₂ Rep as Ts) (inp out : Str)
    (hparse : parseEinsum eq (Ts.map Tensor.shape) = .ok (inp, out)) (hcomma : cComma ∉ out)
    (hfit : OperandsFit size (splitOn cComma inp) (Ts.map Tensor.shape))
    (hplain : plain = true → PlainShapes size (splitOn cComma inp) (Ts.map Tensor.shape))
    (hlab : (splitOn cComma inp).flatten.toFinset.card ≤ 52)
    (opt : Optimize) (mem : MemLimit) (hmem : ValidMemory mem)
    (hopt : ChoosesComplete opt size (splitOn cComma inp) out) (useBlas : Bool) :
    ∃ info, contractPath (splitOn cComma inp) out (Ts.map Tensor.shape) opt mem useBlas = .ok info ∧
      (kw ≠ [] ∧ (∃ s ∈ info.contractionList, usesBlas false s.blas = true) →
        AnyLibrary.contract shape np lib sharing eq as opt mem useBlas kw = .error .type) ∧
      (kw = [] ∨ (∀ s ∈ info.contractionList, usesBlas false s.blas = false) →
        ∃ a T, AnyLibrary.contract shape np lib sharing eq as opt mem useBlas kw = .ok a ∧ Rep a T ∧
          IsEinsum size (splitOn cComma inp) out Ts T) := by
  have hno : lib.einsum.isNone = false := by cases h : lib.einsum <;> simp_all
  obtain ⟨info, hi, h⟩ := contract_any (sharing := sharing) (kw := kw) (by
    cases sharing
    · rw [if_neg (by simp), filter_out _ hout]; simpa using hlib
    · simpa using hlib) shape hshape np size eq as Ts hrep inp out hparse hcomma hfit hplain hlab opt mem
    hmem hopt useBlas
  refine ⟨info, hi, ?_, ?_⟩
  · rintro ⟨hkw, s, hs, hb⟩
    rcases h with ⟨a, T, h1, h2⟩ | ⟨_, h, _⟩ | ⟨h, _⟩
    · exfalso
      clear h2
      have hsh : as.map shape = Ts.map Tensor.shape := by
        clear hparse hfit hplain h1 hi
        induction hrep with
        | nil => rfl
        | cons h1 _ ih => rw [List.map_cons, List.map_cons, ih, hshape _ _ h1]
      have hc : AnyLibrary.contract shape np lib sharing eq as opt mem useBlas kw =
          AnyLibrary.coreContract lib sharing kw info.contractionList as := by
        cases opt with
        | off => exact absurd hopt (by simp [ChoosesComplete])
        | path p => simp only [AnyLibrary.contract, bind, Except.bind, hsh]; rw [hparse]; simp only; rw [hi]
        | finder f => simp only [AnyLibrary.contract, bind, Except.bind, hsh]; rw [hparse]; simp only; rw [hi]
      rw [hc] at h1
      simp only [AnyLibrary.coreContract, bind, Except.bind] at h1
      split at h1
      · cases h1
      · rename_i v hv
        have := coreLoop_ok_blas hkw _ _ _ hv s hs
        rw [hno, hb] at this
        cases this
    · rw [h] at hein; simp at hein
    · exact h
  · intro hd
    rcases h with h | ⟨_, h, _⟩ | ⟨_, hkw, _, s, hs, hb⟩
    · exact h
    · rw [h] at hein; simp at hein
    · exfalso
      rcases hd with hd | hd
      · exact hkw hd
      · rw [hno, hd s hs] at hb; cases hb

section
omit [CommSemiring R]

/-- **C70, sharing.** Inside `shared_intermediates` and with `use_blas=False`, the keyword arguments make no difference at all: they never
reach the library. -/
theorem C70_sharing (shape : A → Shape) (np lib : Library A) (eq : Str) (ops : List A) (opt : Optimize) (mem : MemLimit) (kw kw' : Kw A) :
    AnyLibrary.contract shape np lib true eq ops opt mem false kw = AnyLibrary.contract shape np lib true eq ops opt mem false kw' := by
  have key : ∀ (inp out : Str) (info : PathInfo),
      contractPath (splitOn cComma inp) out (ops.map shape) opt mem false = .ok info →
      AnyLibrary.coreContract lib true kw info.contractionList ops = AnyLibrary.coreContract lib true kw' info.contractionList ops := by
    intro inp out info h
    unfold AnyLibrary.coreContract
    rw [coreLoop_sharing kw kw' _ _ (fun s hs => by rw [contractPath_noBlas h s hs]; rfl)]
  cases opt with
  | off => rfl
  | path p =>
    simp only [AnyLibrary.contract, bind, Except.bind]
    split
    · rfl
    · split
      · rfl
      · rename_i info h; exact key _ _ info h
  | finder f =>
    simp only [AnyLibrary.contract, bind, Except.bind]
    split
    · rfl
    · split
      · rfl
      · rename_i info h; exact key _ _ info h

/-- **C70, `optimize=False`.** The library selected by `backend` is not used. -/
theorem C70_optimize_off (shape : A → Shape) (np lib lib' : Library A) (sharing : Bool) (eq : Str) (ops : List A) (mem : MemLimit)
    (useBlas : Bool) (kw : Kw A) :
    AnyLibrary.contract shape np lib sharing eq ops .off mem useBlas kw = AnyLibrary.contract shape np lib' sharing eq ops .off mem useBlas kw :=
  rfl

/-- **C70, arrays of objects.** `object_einsum` takes no keyword arguments: outside `shared_intermediates`, with a keyword argument that
differs from its default, a contraction along a plan with at least one step raises; it is a `TypeError` if the first step goes to `einsum`. -/
theorem C70_objects_reject_keywords {α : Type} [Add α] [Mul α] [Inhabited α]
    (td : Tensor α → Tensor α → List Nat × List Nat → Except PyErr (Tensor α)) (np : Library (Tensor α)) (eq : Str) (ops : List (Tensor α))
    (opt : Optimize) (hopt : opt ≠ .off) (mem : MemLimit) (useBlas : Bool) (kw : Kw (Tensor α))
    (hkw : filterEinsumDefaults ((S "out", .none) :: kw) ≠ []) {inp out : Str} (hparse : parseEinsum eq (ops.map Tensor.shape) = .ok (inp, out))
    {info : PathInfo} (hi : contractPath (splitOn cComma inp) out (ops.map Tensor.shape) opt mem useBlas = .ok info) {s : Step} {ss : List Step}
    (hs : info.contractionList = s :: ss) :
    (∃ e, AnyLibrary.contract Tensor.shape np (objectLibrary td) false eq ops opt mem useBlas kw = .error e) ∧
    (usesBlas false s.blas = false → (∃ r, popAll s.inds ops = .ok r) →
      AnyLibrary.contract Tensor.shape np (objectLibrary td) false eq ops opt mem useBlas kw = .error .type) := by
  have hkw' : kw ≠ [] := by
    rintro rfl
    exact hkw filter_only_out
  have hc : AnyLibrary.contract Tensor.shape np (objectLibrary td) false eq ops opt mem useBlas kw =
      AnyLibrary.coreContract (objectLibrary td) false kw (s :: ss) ops := by
    cases opt with
    | off => exact absurd rfl hopt
    | path p => simp only [AnyLibrary.contract, bind, Except.bind]; rw [hparse]; simp only; rw [hi]; simp only; rw [hs]
    | finder f => simp only [AnyLibrary.contract, bind, Except.bind]; rw [hparse]; simp only; rw [hi]; simp only; rw [hs]
  have hein : usesBlas false s.blas = false → ∀ tmp, AnyLibrary.stepResult (objectLibrary td) false kw s tmp = .error .type := by
    intro hb tmp
    unfold AnyLibrary.stepResult
    rw [if_neg (by rw [show (objectLibrary td).einsum.isNone = false from rfl, hb]; simp)]
    show (if (filterEinsumDefaults ((S "out", .none) :: kw)).isEmpty then _ else Except.error PyErr.type) = _
    rw [if_neg (by simpa [List.isEmpty_iff] using hkw)]
  rw [hc]
  constructor
  · cases hr : AnyLibrary.coreContract (objectLibrary td) false kw (s :: ss) ops with
    | error e => exact ⟨e, rfl⟩
    | ok v =>
      exfalso
      simp only [AnyLibrary.coreContract, bind, Except.bind] at hr
      split at hr
      · cases hr
      · rename_i ops' hv
        have hb := coreLoop_ok_blas hkw' _ _ _ hv s (by simp)
        simp only [AnyLibrary.coreLoop, bind, Except.bind] at hv
        split at hv
        · cases hv
        · rename_i tr _
          rw [hein hb tr.1] at hv
          cases hv
  · rintro hb ⟨r, hr⟩
    simp only [AnyLibrary.coreContract, AnyLibrary.coreLoop, bind, Except.bind]
    rw [hr]
    simp only
    rw [hein hb]

/-- The error of a call, if any. -/
def errorOf {α : Type} : Except PyErr α → Option PyErr
  | .ok _ => none
  | .error e => some e

end

/-- The two by two matrix with entries 1, 2, 3, 4. -/
def mat22 : Tensor Nat := ⟨[2, 2], fun i => 2 * i.getD 0 0 + i.getD 1 0 + 1⟩

theorem fit22 : OperandsFit (fun _ => 2) (splitOn cComma (S "ab,bc")) ([mat22, mat22].map Tensor.shape) :=
  operandsFit_of_list (by decide +kernel) (by decide +kernel) (by decide +kernel) (by decide +kernel) (by decide +kernel)

/-- **C70 is false as stated:** `contract("ab,bc->ac", x, y, order="K")` raises `TypeError`, although `"K"` is the default. -/
theorem C70_counterexample : ¬ C70_statement := by
  intro h
  obtain ⟨a, T, h1, _⟩ := h Nat (Tensor Nat) numpyLibrary SameArray [(S "order", .text (S "K"))] (by simp) (by decide) (C69_numpy_serves _) rfl
    Tensor.shape (fun _ _ h => h.1) numpyLibrary (fun _ => 2) (S "ab,bc->ac") [mat22, mat22] [mat22, mat22]
    (.cons (SameArray.refl _) (.cons (SameArray.refl _) .nil)) (S "ab,bc") (S "ac") (by decide +kernel) (by decide) fit22
    (by decide +kernel) (.path [[0, 1]]) .none trivial (completePath_range (n := 2) (by decide)) true false
  have h2 : errorOf (AnyLibrary.contract Tensor.shape numpyLibrary numpyLibrary false (S "ab,bc->ac") [mat22, mat22] (.path [[0, 1]]) .none true
      [(S "order", .text (S "K"))]) = some .type := by decide +kernel
  rw [h1] at h2
  cases h2

/-! ## Concrete cases -/

/-- The torch library, three operands, one of them broadcast and one with a repeated label, two steps. -/
example : ∃ a T, AnyLibrary.contract Tensor.shape numpyLibrary torchLibrary true (S "abb,bc,ca->ca") [ones [2, 3, 3], ones [3, 4], ones [1, 2]]
      (.path [[1, 2], [0, 1]]) .maxInput true [] = .ok a ∧ SameArray a T ∧
    IsEinsum (fun c => if c = 97 then 2 else if c = 98 then 3 else 4) (splitOn cComma (S "abb,bc,ca")) (S "ca")
      [ones [2, 3, 3], ones [3, 4], ones [1, 2]] T :=
  C69_contract_any_library (C69_torch_serves []) rfl Tensor.shape (fun _ _ h => h.1) numpyLibrary
    (fun c => if c = 97 then 2 else if c = 98 then 3 else 4) (S "abb,bc,ca->ca") _ _
    (.cons (SameArray.refl _) (.cons (SameArray.refl _) (.cons (SameArray.refl _) .nil))) (S "abb,bc,ca") (S "ca") (by decide +kernel) (by decide)
    (operandsFit_of_list (by decide +kernel) (by decide +kernel) (by decide +kernel) (by decide +kernel) (by decide +kernel)) (by simp)
    (by decide +kernel) (.path [[1, 2], [0, 1]]) .maxInput trivial
    (by
      have h : (splitOn cComma (S "abb,bc,ca")).length = 3 := by decide +kernel
      simp only [ChoosesComplete, h]
      simp [CompletePath, ValidStep]) true true

/-- Objects: natural numbers as they are. -/
example : ∃ a T, AnyLibrary.contract Tensor.shape numpyLibrary (objectLibrary (fun a b ax => npTensordot a b ax.1 ax.2)) false (S "ab,bc->ac")
      [mat22, mat22] (.path [[0, 1]]) .none true [] = .ok a ∧ SameArray (mapTensor id a) T ∧
    IsEinsum (fun _ => 2) (splitOn cComma (S "ab,bc")) (S "ac") [mat22, mat22] T :=
  C69_contract_any_library (C69_objects_serve (R := Nat) (α := Nat) id (fun _ _ => rfl) (fun _ _ => rfl) _
      (fun _ _ _ _ Z h => ⟨Z, h, SameArray.refl Z⟩)) rfl Tensor.shape (fun _ _ h => h.1) numpyLibrary (fun _ => 2) (S "ab,bc->ac")
    [mat22, mat22] [mat22, mat22] (.cons (SameArray.refl mat22) (.cons (SameArray.refl mat22) .nil)) (S "ab,bc") (S "ac") (by decide +kernel)
    (by decide) fit22 (fun _ => ⟨by simp, by decide +kernel⟩)
    (by decide +kernel) (.path [[0, 1]]) .none trivial (completePath_range (n := 2) (by decide)) true false

/-- A library without `einsum`. -/
def withoutEinsum : Library (Tensor Nat) := { (numpyLibrary : Library (Tensor Nat)) with einsum := none }

/-- A plan that needs none. -/
example : ∃ a T, AnyLibrary.contract Tensor.shape numpyLibrary withoutEinsum false (S "ab,bc->ca")
      [mat22, mat22] (.path [[0, 1]]) .none true [] = .ok a ∧ SameArray a T ∧
    IsEinsum (fun _ => 2) (splitOn cComma (S "ab,bc")) (S "ca") [mat22, mat22] T := by
  obtain ⟨info, hi⟩ : ∃ info, contractPath (splitOn cComma (S "ab,bc")) (S "ca") ([mat22, mat22].map Tensor.shape) (.path [[0, 1]]) .none true =
      .ok info := by
    cases h : contractPath (splitOn cComma (S "ab,bc")) (S "ca") ([mat22, mat22].map Tensor.shape) (.path [[0, 1]]) .none true with
    | ok info => exact ⟨info, rfl⟩
    | error e =>
      exfalso
      have : errorOf (contractPath (splitOn cComma (S "ab,bc")) (S "ca") ([mat22, mat22].map Tensor.shape) (.path [[0, 1]]) .none true) = none := by
        decide +kernel
      rw [h] at this
      cases this
  have hb : (contractPath (splitOn cComma (S "ab,bc")) (S "ca") ([mat22, mat22].map Tensor.shape) (.path [[0, 1]]) .none true).map
      (fun i => i.contractionList.all (fun s => decide (s.blas ≠ .no))) = .ok true := by decide +kernel
  rw [hi] at hb
  have hs := C69_numpy_serves (R := Nat) []
  exact C69_contract_without_einsum (lib := withoutEinsum) (plain := false) ⟨hs.ext, (by intro fn h; cases h), hs.tensordot, hs.transpose⟩ Tensor.shape (fun _ _ h => h.1) numpyLibrary
    (fun _ => 2) (S "ab,bc->ca") _ _ (.cons (SameArray.refl _) (.cons (SameArray.refl _) .nil)) (S "ab,bc") (S "ca") (by decide +kernel) (by decide)
    fit22 (by simp) (by decide +kernel) (.path [[0, 1]]) .none trivial (completePath_range (n := 2) (by decide)) true false info hi
    (by
      intro s hs
      simp only [Except.map, Except.ok.injEq, List.all_eq_true, decide_eq_true_eq] at hb
      exact hb s hs)

/-- Which keyword arguments are handed on. -/
example : (filterEinsumDefaults ([(S "dtype", .none), (S "order", .text (S "C")), (S "casting", .text (S "safe")), (S "foo", .other 1)] : Kw Nat)).map
    Prod.fst = [S "order", S "foo"] := by decide +kernel

/-- `order="C"` and `use_blas=False`: handed on. -/
example : ∃ a T, AnyLibrary.contract Tensor.shape numpyLibrary numpyLibrary false (S "ab,bc->ac") [mat22, mat22] (.path [[0, 1]]) .none false
      [(S "order", .text (S "C"))] = .ok a ∧ SameArray a T ∧ IsEinsum (fun _ => 2) (splitOn cComma (S "ab,bc")) (S "ac") [mat22, mat22] T :=
  C70_keyword_arguments_partial (by decide) (C69_numpy_serves _) rfl Tensor.shape (fun _ _ h => h.1) numpyLibrary (fun _ => 2) (S "ab,bc->ac") _ _
    (.cons (SameArray.refl _) (.cons (SameArray.refl _) .nil)) (S "ab,bc") (S "ac") (by decide +kernel) (by decide) fit22 (by simp)
    (by decide +kernel) (.path [[0, 1]]) .none trivial (completePath_range (n := 2) (by decide))

/-- Arrays of objects with `order="C"`: `TypeError`, inside `shared_intermediates` the argument is lost. -/
example : errorOf (AnyLibrary.contract Tensor.shape numpyLibrary (objectLibrary (fun a b ax => npTensordot a b ax.1 ax.2)) false (S "ab,bc->ac")
      [mat22, mat22] (.path [[0, 1]]) .none false [(S "order", .text (S "C"))]) = some .type ∧
    errorOf (AnyLibrary.contract Tensor.shape numpyLibrary (objectLibrary (fun a b ax => npTensordot a b ax.1 ax.2)) true (S "ab,bc->ac")
      [mat22, mat22] (.path [[0, 1]]) .none false [(S "order", .text (S "C"))]) = none ∧
    filterEinsumDefaults ([(S "out", .none), (S "order", .text (S "C"))] : Kw (Tensor Nat)) ≠ [] := by
  refine ⟨by decide +kernel, by decide +kernel, ?_⟩
  intro h
  have := congrArg List.length h
  revert this
  decide +kernel

/-- A library whose `einsum` insists on a keyword argument: outside `shared_intermediates` it gets it, inside it does not. -/
def wantsOrder : Library (Tensor Nat) :=
  { (numpyLibrary : Library (Tensor Nat)) with
    einsum := some (fun eq ops kw => if (kw.get? (S "order")).isSome then npEinsum eq ops else .error .value) }

example : errorOf (AnyLibrary.contract Tensor.shape numpyLibrary wantsOrder false (S "ab,bc->ac") [mat22, mat22] (.path [[0, 1]]) .none false
    [(S "order", .text (S "C"))]) = none := by decide +kernel

example : errorOf (AnyLibrary.contract Tensor.shape numpyLibrary wantsOrder true (S "ab,bc->ac") [mat22, mat22] (.path [[0, 1]]) .none false
    [(S "order", .text (S "C"))]) = some .value := by decide +kernel

/-- With `optimize=False` it is not asked. -/
example : errorOf (AnyLibrary.contract Tensor.shape numpyLibrary wantsOrder false (S "ab,bc->ac") [mat22, mat22] .off .none false []) = none := by
  decide +kernel

end OE.Props
