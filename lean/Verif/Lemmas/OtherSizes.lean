import Verif.Props.Choices
import Verif.Spec.OtherSizes
import Verif.Props.Expression

/-! Planning one path for two lists of shapes: which steps are marked for BLAS. -/

namespace OE.Contract
open OE OE.Py OE.Parser OE.Helpers OE.Blas OE.Spec OE.Props
variable {R : Type} [CommSemiring R]

/-- Shapes only decide whether `can_blas` answers `False`. -/
theorem canBlas_shapes {ts : List Str} {res : List Nat} {rm : Finset Nat} {s s' : Option (List Shape)} (h : canBlas ts res rm s ≠ .no)
    (h' : canBlas ts res rm s' ≠ .no) : canBlas ts res rm s = canBlas ts res rm s' := by
  unfold canBlas at *
  match ts, h, h' with
  | [left, right], h, h' =>
    simp only at h h' ⊢
    split at h
    · exact absurd rfl h
    · rename_i h1
      rw [if_neg h1] at h'
      rw [if_neg h1, if_neg h1]
      split at h
      · exact absurd rfl h
      · rename_i h2
        split at h'
        · exact absurd rfl h'
        · rename_i h3
          rw [if_neg h2, if_neg h3]
  | [], h, _ => exact absurd rfl h
  | [_], h, _ => exact absurd rfl h
  | _ :: _ :: _ :: _, h, _ => exact absurd rfl h

/-- A term with the operand a contraction was planned with and the operand it is executed with. -/
abbrev Both (R : Type) := Str × Tensor R × Tensor R

/-- The term with the operand of the planning. -/
def Both.old (x : Both R) : Str × Tensor R := (x.1, x.2.1)
/-- The term with the operand of the execution. -/
def Both.new (x : Both R) : Str × Tensor R := (x.1, x.2.2)

/-- For each label: all its axes have one length, or its axes of length 1 are those of the planning. -/
def Alike (X : List (Both R)) : Prop :=
  ∀ c, (∀ d d', HasDim (X.map Both.new) c d → HasDim (X.map Both.new) c d' → d = d') ∨
    ∀ x ∈ X, ∀ d d', (c, d) ∈ x.1.zip x.2.1.shape → (c, d') ∈ x.1.zip x.2.2.shape → (d = 1 ↔ d' = 1)

omit [CommSemiring R] in
theorem fst_old (X : List (Both R)) : (X.map Both.old).map Prod.fst = X.map Prod.fst := by simp [Both.old]
omit [CommSemiring R] in
theorem fst_new (X : List (Both R)) : (X.map Both.new).map Prod.fst = X.map Prod.fst := by simp [Both.new]

omit [CommSemiring R] in
theorem localSize_one {size : Nat → Nat} {ops P : List (Str × Tensor R)} (h : Fits size ops) (hsub : ∀ p ∈ P, p ∈ ops) {c : Nat}
    (hc : Occurs P c) : localSize P c = 1 ↔ ∀ d, HasDim P c d → d = 1 := by
  obtain ⟨d, hd⟩ := exists_dim_of_occurs (fun p hp => h.rank p (hsub p hp)) hc
  constructor
  · intro h1 d' hd'
    rcases h.dims c d' (by obtain ⟨p, hp, hq⟩ := hd'; exact ⟨p, hsub p hp, hq⟩) with e | e
    · exact e
    · rw [← h1, localSize_eq h hsub (by rw [← e]; exact hd'), e]
  · intro hall
    apply bdim_eq
    · intro d' hd'
      exact Or.inl (hall d' ((mem_opDims P c d').mp hd'))
    · rw [mem_opDims, ← hall d hd]; exact hd

omit [CommSemiring R] in
theorem Alike.sub {X Y : List (Both R)} (h : Alike X) (hs : ∀ y ∈ Y, y ∈ X) : Alike Y := by
  intro c
  have hd : ∀ d, HasDim (Y.map Both.new) c d → HasDim (X.map Both.new) c d := by
    rintro d ⟨p, hp, hq⟩
    obtain ⟨y, hy, rfl⟩ := List.mem_map.mp hp
    exact ⟨_, List.mem_map_of_mem (hs y hy), hq⟩
  rcases h c with h1 | h1
  · exact Or.inl fun d d' h2 h3 => h1 d d' (hd d h2) (hd d' h3)
  · exact Or.inr fun x hx => h1 x (hs x hx)

omit [CommSemiring R] in
/-- A step marked for BLAS at planning is one that BLAS can do at execution. -/
theorem flag_alike {size₀ size : Nat → Nat} {output : Str} {P Q : List (Both R)} (h₀ : Inv size₀ output ((P ++ Q).map Both.old))
    (h : Inv size output ((P ++ Q).map Both.new)) (ha : Alike (P ++ Q)) :
    canBlas (P.map Prod.fst) (enum (P.map Prod.fst).flatten (needed (P.map Prod.fst) (Q.map Prod.fst) output))
        ((P.map Prod.fst).flatten.toFinset \ needed (P.map Prod.fst) (Q.map Prod.fst) output) (some (P.map fun x => x.2.1.shape)) =
      canBlas (P.map Prod.fst) (enum (P.map Prod.fst).flatten (needed (P.map Prod.fst) (Q.map Prod.fst) output))
        ((P.map Prod.fst).flatten.toFinset \ needed (P.map Prod.fst) (Q.map Prod.fst) output) (some (P.map fun x => x.2.2.shape)) ∨
    canBlas (P.map Prod.fst) (enum (P.map Prod.fst).flatten (needed (P.map Prod.fst) (Q.map Prod.fst) output))
        ((P.map Prod.fst).flatten.toFinset \ needed (P.map Prod.fst) (Q.map Prod.fst) output) (some (P.map fun x => x.2.1.shape)) = .no := by
  by_cases hb : canBlas (P.map Prod.fst) (enum (P.map Prod.fst).flatten (needed (P.map Prod.fst) (Q.map Prod.fst) output))
        ((P.map Prod.fst).flatten.toFinset \ needed (P.map Prod.fst) (Q.map Prod.fst) output) (some (P.map fun x => x.2.1.shape)) = .no
  · exact Or.inr hb
  left
  apply canBlas_shapes hb
  have h2 := C08_two_terms _ _ _ _ hb
  rw [List.length_map] at h2
  obtain ⟨⟨left, a₀, a⟩, ⟨right, b₀, b⟩, rfl⟩ := List.length_eq_two.mp h2
  simp only [List.map_cons, List.map_nil] at hb ⊢
  set N := needed [left, right] (Q.map Prod.fst) output with hN
  have hmemN : ∀ c, c ∈ N → c ∈ left ∨ c ∈ right := by
    intro c hc
    obtain ⟨⟨t, ht, hct⟩, _⟩ := mem_needed.mp hc
    simp only [List.mem_cons, List.not_mem_nil, or_false] at ht
    rcases ht with rfl | rfl
    · exact Or.inl hct
    · exact Or.inr hct
  have hrm : ∀ c, c ∈ [left, right].flatten.toFinset \ N ↔ (c ∈ left ∨ c ∈ right) ∧ c ∉ enum [left, right].flatten N := by
    intro c
    rw [Finset.mem_sdiff, List.mem_toFinset, mem_enum]
    simp only [List.flatten_cons, List.flatten_nil, List.append_nil, List.mem_append]
    tauto
  have l1 : left.length = a₀.shape.length := h₀.fits.rank (left, a₀) (by simp [Both.old])
  have l2 : right.length = b₀.shape.length := h₀.fits.rank (right, b₀) (by simp [Both.old])
  have l3 : left.length = a.shape.length := h.fits.rank (left, a) (by simp [Both.new])
  have l4 : right.length = b.shape.length := h.fits.rank (right, b) (by simp [Both.new])
  obtain ⟨hpc, hsame⟩ := (C08_can_blas_step left right _ _ a₀.shape b₀.shape l1.symm l2.symm hrm).mp hb
  refine (C08_can_blas_step left right _ _ a.shape b.shape l3.symm l4.symm hrm).mpr ⟨hpc, ?_⟩
  intro c hc d d' hd hd'
  have hz : ∀ {t : Str} {s : Shape} {e : Nat}, LabelDim t s c e → (c, e) ∈ t.zip s := by
    rintro t s e ⟨i, g1, g2⟩
    exact mem_zip_get.mpr ⟨i, g1, g2⟩
  have m1 : HasDim (((left, a₀, a) :: (right, b₀, b) :: Q).map Both.new) c d := ⟨(left, a), by simp [Both.new], hz hd⟩
  have m2 : HasDim (((left, a₀, a) :: (right, b₀, b) :: Q).map Both.new) c d' := ⟨(right, b), by simp [Both.new], hz hd'⟩
  rcases ha c with hu | hu
  · exact hu d d' m1 m2
  · have hl : c ∈ left := by obtain ⟨i, g, _⟩ := hd; exact List.mem_of_getElem? g
    have hr : c ∈ right := by obtain ⟨i, g, _⟩ := hd'; exact List.mem_of_getElem? g
    obtain ⟨e, he⟩ := exists_labelDim l1.symm hl
    obtain ⟨e', he'⟩ := exists_labelDim l2.symm hr
    have hee := hsame c hc e e' he he'
    have k1 := hu (left, a₀, a) (by simp) e d (hz he) (hz hd)
    have k2 := hu (right, b₀, b) (by simp) e' d' (hz he') (hz hd')
    rcases h.fits.dims c d m1 with r1 | r1 <;> rcases h.fits.dims c d' m2 with r2 | r2
    · rw [r1, r2]
    · rw [r1, k2.mp (by rw [← hee]; exact k1.mpr r1)]
    · rw [r2, k1.mp (by rw [hee]; exact k2.mpr r2)]
    · rw [r1, r2]

/-- Planning one path for two lists of operands that broadcast alike gives the same steps, but for BLAS flags not set at planning. -/
theorem pathLoop_weaker {size₀ size : Nat → Nat} {output : Str} {d₀ d : Dict Nat Nat} (hn : output.Nodup) (useBlas : Bool)
    (path : List (List Nat)) : ∀ (X : List (Both R)), Inv size₀ output (X.map Both.old) → Inv size output (X.map Both.new) → Alike X →
    (∀ c, Occurs (X.map Both.old) c → (d₀.get? c).isSome) → (∀ c, Occurs (X.map Both.new) c → (d.get? c).isSome) →
    CompletePath X.length path →
    ∃ st₀ outs₀ st outs, pathLoop useBlas output d₀ (stateOf (X.map Both.old)) path = .ok (st₀, outs₀) ∧
      pathLoop useBlas output d (stateOf (X.map Both.new)) path = .ok (st, outs) ∧
      List.Forall₂ Weaker (outs₀.map StepOut.step) (outs.map StepOut.step) := by
  induction path with
  | nil => intro X _ _ _ _ _ h; exact absurd h (by simp [CompletePath])
  | cons p ps ih =>
    intro X hinv₀ hinv ha hd₀ hd hpath
    have hvalid : ValidStep X.length p := by
      cases ps with
      | nil => exact hpath.1
      | cons q qs => exact hpath.1
    obtain ⟨hpne, hpnd, hplt⟩ := hvalid
    obtain ⟨P, Q, hpop⟩ := popAll_valid hpnd hplt
    have hperm := popAll_perm hpop
    have hlen := popAll_length hpop
    rw [sortedDesc_length] at hlen
    have hPne : P ≠ [] := by
      rintro rfl
      exact hpne (List.length_eq_zero_iff.mp (by simpa using hlen.1.symm))
    have hlast : ps.isEmpty = true → Q = [] := by
      intro he
      cases ps with
      | nil =>
        have : p.length = X.length := hpath.2
        apply List.length_eq_zero_iff.mp
        omega
      | cons q qs => simp at he
    have ha' : Alike (P ++ Q) := ha.sub fun y hy => hperm.mem_iff.mp hy
    -- one side
    have side : ∀ (f : Both R → Str × Tensor R) (hf : ∀ x, (f x).1 = x.1) (sz : Nat → Nat) (dd : Dict Nat Nat)
        (hi : Inv sz output (X.map f)) (hdd : ∀ c, Occurs (X.map f) c → (dd.get? c).isSome),
        Inv sz output (P.map f ++ Q.map f) ∧
        pathStep useBlas output dd (stateOf (X.map f)) p ps.isEmpty =
          .ok ({ inputs := Q.map Prod.fst ++ [resultTerm ps.isEmpty (P.map Prod.fst) (Q.map Prod.fst) output],
                 sets := (Q.map Prod.fst).map List.toFinset ++ [needed (P.map Prod.fst) (Q.map Prod.fst) output],
                 shapes := ((Q.map f).map Prod.snd).map Tensor.shape ++
                   [(resultTerm ps.isEmpty (P.map Prod.fst) (Q.map Prod.fst) output).map (localSize (P.map f))] },
               outOf useBlas output dd p ps.isEmpty (P.map f) (Q.map f)) ∧
        ∃ T : Tensor R, IsContraction sz (P.map f) (resultTerm ps.isEmpty (P.map Prod.fst) (Q.map Prod.fst) output) T := by
      intro f hf sz dd hi hdd
      have hfst : ∀ Y : List (Both R), (Y.map f).map Prod.fst = Y.map Prod.fst := by
        intro Y; rw [List.map_map]; exact List.map_congr_left fun x _ => hf x
      have hperm' : (P.map f ++ Q.map f).Perm (X.map f) := by rw [← List.map_append]; exact hperm.map f
      have hi' : Inv sz output (P.map f ++ Q.map f) := hi.perm hperm'.symm
      have hlast' : ps.isEmpty = true → Q.map f = [] := fun he => by rw [hlast he]; rfl
      have hpop' := popAll_map_ok f hpop
      have hrm : ∀ c, c ∈ resultTerm ps.isEmpty ((P.map f).map Prod.fst) ((Q.map f).map Prod.fst) output ↔
          Occurs (P.map f) c ∧ (c ∈ output ∨ Occurs (Q.map f) c) := fun c => mem_resultTerm hlast' hi'.out
      have hshp := findOutputShape_step hi' (P := P.map f) (fun p hp => List.mem_append_left _ hp) (fun c hc => ((hrm c).mp hc).1)
      have hdP : ∀ c ∈ ((P.map f).map Prod.fst).flatten, (dd.get? c).isSome := by
        intro c hc
        apply hdd
        rw [← Occurs_perm hperm', Occurs_append]
        left
        rw [← occurs_iff]
        rwa [List.mem_flatten] at hc
      have hstep := pathStep_eq (useBlas := useBlas) (isLast := ps.isEmpty) (st := stateOf (X.map f)) (p := p) rfl
        (popAll_map_ok Prod.fst hpop') (popAll_map_ok Tensor.shape (popAll_map_ok Prod.snd hpop')) hpne hdP hshp
      obtain ⟨T, _, hT⟩ := einsumCore_contraction (size := sz) (hi'.fits.sub (P := P.map f) (fun p hp => List.mem_append_left _ hp))
        (resultTerm_nodup (isLast := ps.isEmpty) (tI := (P.map f).map Prod.fst) (rI := (Q.map f).map Prod.fst) hn)
        (fun c hc => ((hrm c).mp hc).1)
        (fun c hc hcr => localSize_removed hi' hc (fun hQ => hcr ((hrm c).mpr ⟨hc, Or.inr hQ⟩)))
      refine ⟨hi', ?_, T, ?_⟩
      · rw [hstep]; simp only [hfst, outOf]
      · simpa only [hfst] using hT
    obtain ⟨i₀, s₀, T₀, t₀⟩ := side Both.old (fun _ => rfl) size₀ d₀ hinv₀ hd₀
    obtain ⟨i₁, s₁, T₁, t₁⟩ := side Both.new (fun _ => rfl) size d hinv hd
    have hw : Weaker (outOf useBlas output d₀ p ps.isEmpty (P.map Both.old) (Q.map Both.old)).step
        (outOf useBlas output d p ps.isEmpty (P.map Both.new) (Q.map Both.new)).step := by
      have hsh : ((P.map Both.old).map Prod.snd).map Tensor.shape = P.map fun x => x.2.1.shape := by simp [Both.old]
      have hsh' : ((P.map Both.new).map Prod.snd).map Tensor.shape = P.map fun x => x.2.2.shape := by simp [Both.new]
      simp only [outOf, fst_old, fst_new, hsh, hsh', stepOf]
      cases useBlas with
      | false => exact Or.inl rfl
      | true =>
        simp only [if_true]
        rcases flag_alike (by rw [List.map_append]; exact i₀) (by rw [List.map_append]; exact i₁) ha' with e | e
        · left; rw [e]
        · right; rw [e]
    cases ps with
    | nil =>
      have k₀ : ∃ st, pathLoop useBlas output d₀ (stateOf (X.map Both.old)) [p] =
          .ok (st, [outOf useBlas output d₀ p true (P.map Both.old) (Q.map Both.old)]) := by
        simp only [pathLoop]; rw [s₀]; exact ⟨_, rfl⟩
      have k₁ : ∃ st, pathLoop useBlas output d (stateOf (X.map Both.new)) [p] =
          .ok (st, [outOf useBlas output d p true (P.map Both.new) (Q.map Both.new)]) := by
        simp only [pathLoop]; rw [s₁]; exact ⟨_, rfl⟩
      obtain ⟨st₀, k₀⟩ := k₀
      obtain ⟨st, k₁⟩ := k₁
      exact ⟨st₀, _, st, _, k₀, k₁, List.Forall₂.cons hw .nil⟩
    | cons q qs =>
      simp only [List.isEmpty_cons] at s₀ t₀ s₁ t₁ hw hlast
      set r := resultTerm false (P.map Prod.fst) (Q.map Prod.fst) output with hr
      have hset : ∀ f : Both R → Str × Tensor R, (∀ x, (f x).1 = x.1) → ∀ sz, Inv sz output (P.map f ++ Q.map f) → ∀ T,
          IsContraction sz (P.map f) r T → Inv sz output (Q.map f ++ [(r, T)]) ∧
          (∀ c ∈ r, Occurs (P.map f) c) ∧
          ({ inputs := Q.map Prod.fst ++ [r], sets := (Q.map Prod.fst).map List.toFinset ++ [needed (P.map Prod.fst) (Q.map Prod.fst) output],
             shapes := ((Q.map f).map Prod.snd).map Tensor.shape ++ [r.map (localSize (P.map f))] } : PathState) =
            stateOf (Q.map f ++ [(r, T)]) := by
        intro f hf sz hi T hT
        have hfst : ∀ Y : List (Both R), (Y.map f).map Prod.fst = Y.map Prod.fst := by
          intro Y; rw [List.map_map]; exact List.map_congr_left fun x _ => hf x
        have hlast' : false = true → Q.map f = [] := fun he => Bool.noConfusion he
        have hrm : ∀ c, c ∈ r ↔ Occurs (P.map f) c ∧ (c ∈ output ∨ Occurs (Q.map f) c) := by
          intro c
          have := mem_resultTerm (P := P.map f) (Q := Q.map f) (isLast := false) (c := c) hlast' hi.out
          rwa [hfst, hfst] at this
        refine ⟨?_, fun c hc => ((hrm c).mp hc).1, ?_⟩
        · have := hi.next hn (isLast := false) hlast' (T := T) (by simpa only [hfst] using hT)
          simpa only [hfst] using this
        · unfold stateOf
          have hs : needed (P.map Prod.fst) (Q.map Prod.fst) output = r.toFinset := by
            ext c
            rw [List.mem_toFinset, hrm, ← hfst P, ← hfst Q, mem_needed']
          simp only [List.map_append, List.map_cons, List.map_nil, hT.shape, hs, hfst]
      obtain ⟨j₀, o₀, e₀⟩ := hset Both.old (fun _ => rfl) size₀ i₀ T₀ t₀
      obtain ⟨j₁, o₁, e₁⟩ := hset Both.new (fun _ => rfl) size i₁ T₁ t₁
      rw [e₀] at s₀
      rw [e₁] at s₁
      have hX : ∀ (f : Both R → Str × Tensor R) (T : Tensor R), f (r, T₀, T₁) = (r, T) →
          Q.map f ++ [(r, T)] = (Q ++ [(r, T₀, T₁)]).map f := by
        intro f T h; simp [h]
      rw [hX Both.old T₀ rfl] at s₀ j₀
      rw [hX Both.new T₁ rfl] at s₁ j₁
      have hocc : ∀ (f : Both R → Str × Tensor R), (∀ x, (f x).1 = x.1) → (∀ c ∈ r, Occurs (P.map f) c) → ∀ c,
          Occurs ((Q ++ [(r, T₀, T₁)]).map f) c → Occurs (X.map f) c := by
        intro f hf ho c hc
        have hperm' : (P.map f ++ Q.map f).Perm (X.map f) := by rw [← List.map_append]; exact hperm.map f
        rw [← Occurs_perm hperm', Occurs_append]
        rw [List.map_append, Occurs_append] at hc
        rcases hc with hc | ⟨x, hx, hc⟩
        · exact Or.inr hc
        · rw [List.map_singleton, List.mem_singleton] at hx
          subst hx
          rw [hf] at hc
          exact Or.inl (ho c hc)
      have hal : Alike (Q ++ [(r, T₀, T₁)]) := by
        intro c
        have hshape₀ : T₀.shape = r.map (localSize (P.map Both.old)) := t₀.shape
        have hshape₁ : T₁.shape = r.map (localSize (P.map Both.new)) := t₁.shape
        have hsubP : ∀ p ∈ P.map Both.new, p ∈ P.map Both.new ++ Q.map Both.new := fun p hp => List.mem_append_left _ hp
        have hsubP₀ : ∀ p ∈ P.map Both.old, p ∈ P.map Both.old ++ Q.map Both.old := fun p hp => List.mem_append_left _ hp
        have hnewdim : ∀ e, (c, e) ∈ r.zip T₁.shape → HasDim (P.map Both.new ++ Q.map Both.new) c e := by
          intro e he
          rw [hshape₁, mem_zip_map_right] at he
          obtain ⟨hcr, rfl⟩ := he
          by_cases hex : HasDim (P.map Both.new) c (size c)
          · rw [localSize_eq i₁.fits hsubP hex]
            obtain ⟨p, hp, hq⟩ := hex
            exact ⟨p, hsubP p hp, hq⟩
          · have hall : ∀ d', HasDim (P.map Both.new) c d' → d' = 1 := by
              intro d' hd'
              rcases i₁.fits.dims c d' (by obtain ⟨p, hp, hq⟩ := hd'; exact ⟨p, hsubP p hp, hq⟩) with e | e
              · exact e
              · exact absurd (e ▸ hd') hex
            rw [(localSize_one i₁.fits hsubP (o₁ c hcr)).mpr hall]
            obtain ⟨d', p, hp, hq⟩ := exists_dim_of_occurs (fun p hp => i₁.fits.rank p (hsubP p hp)) (o₁ c hcr)
            have := hall d' ⟨p, hp, hq⟩
            exact ⟨p, hsubP p hp, this ▸ hq⟩
        rcases ha' c with hu | hu
        · left
          have hh : ∀ e, HasDim ((Q ++ [(r, T₀, T₁)]).map Both.new) c e → HasDim ((P ++ Q).map Both.new) c e := by
            rintro e ⟨x, hx, he⟩
            rw [List.map_append, List.mem_append, List.map_singleton, List.mem_singleton] at hx
            rw [List.map_append]
            rcases hx with hx | rfl
            · exact ⟨x, List.mem_append_right _ hx, he⟩
            · exact hnewdim e he
          exact fun e e' g1 g2 => hu e e' (hh e g1) (hh e' g2)
        · right
          intro x hx e e' g1 g2
          rw [List.mem_append, List.mem_singleton] at hx
          rcases hx with hx | rfl
          · exact hu x (List.mem_append_right _ hx) e e' g1 g2
          · simp only at g1 g2
            rw [hshape₀, mem_zip_map_right] at g1
            rw [hshape₁, mem_zip_map_right] at g2
            obtain ⟨hcr, rfl⟩ := g1
            obtain ⟨-, rfl⟩ := g2
            rw [localSize_one i₀.fits hsubP₀ (o₀ c hcr), localSize_one i₁.fits hsubP (o₁ c hcr)]
            have hz : ∀ (t : Str) (s : Shape), t.length = s.length → c ∈ t → ∃ v, (c, v) ∈ t.zip s := by
              intro t s hl hc
              obtain ⟨v, i, k1, k2⟩ := exists_labelDim hl.symm hc
              exact ⟨v, mem_zip_get.mpr ⟨i, k1, k2⟩⟩
            constructor
            · rintro hall v ⟨_, hym, hv⟩
              obtain ⟨y, hy, rfl⟩ := List.mem_map.mp hym
              have hyo : y.old ∈ P.map Both.old := List.mem_map_of_mem hy
              obtain ⟨v₀, hv₀⟩ := hz y.1 y.2.1.shape (i₀.fits.rank _ (hsubP₀ _ hyo)) (List.of_mem_zip hv).1
              exact (hu y (List.mem_append_left _ hy) v₀ v hv₀ hv).mp (hall v₀ ⟨_, hyo, hv₀⟩)
            · rintro hall v ⟨_, hym, hv⟩
              obtain ⟨y, hy, rfl⟩ := List.mem_map.mp hym
              have hyn : y.new ∈ P.map Both.new := List.mem_map_of_mem hy
              obtain ⟨v₁, hv₁⟩ := hz y.1 y.2.2.shape (i₁.fits.rank _ (hsubP _ hyn)) (List.of_mem_zip hv).1
              exact (hu y (List.mem_append_left _ hy) v v₁ hv hv₁).mpr (hall v₁ ⟨_, hyn, hv₁⟩)
      obtain ⟨st₀, outs₀, st, outs, l₀, l₁, hf⟩ := ih (Q ++ [(r, T₀, T₁)]) j₀ j₁ hal
        (fun c hc => hd₀ c (hocc Both.old (fun _ => rfl) o₀ c hc)) (fun c hc => hd c (hocc Both.new (fun _ => rfl) o₁ c hc)) (by
          have : (Q ++ [(r, T₀, T₁)]).length = X.length + 1 - p.length := by
            rw [List.length_append, List.length_singleton]; omega
          rw [this]; exact hpath.2)
      refine ⟨st₀, outOf useBlas output d₀ p false (P.map Both.old) (Q.map Both.old) :: outs₀, st,
        outOf useBlas output d p false (P.map Both.new) (Q.map Both.new) :: outs, ?_, ?_, ?_⟩
      · rw [pathLoop, List.isEmpty_cons, s₀]; simp only [bind, Except.bind]; rw [l₀]
      · rw [pathLoop, List.isEmpty_cons, s₁]; simp only [bind, Except.bind]; rw [l₁]
      · exact List.Forall₂.cons hw hf

end OE.Contract
