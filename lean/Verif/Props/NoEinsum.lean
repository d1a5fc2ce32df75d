import Verif.Spec.NoEinsum
import Verif.Props.AnyLibrary
import Verif.Props.Choices

/-!
# C93: which contractions a library without einsum can do
-/

namespace OE.Props
open OE OE.Py OE.Spec OE.Contract OE.Parser OE.Blas OE.AnyLibrary

theorem TwiceEach.perm {ts ts' : List Str} {out : Str} (h : ts.Perm ts') : TwiceEach ts out ↔ TwiceEach ts' out := by
  have key : ∀ {ts ts' : List Str}, ts.Perm ts' → TwiceEach ts out → TwiceEach ts' out := by
    intro ts ts' h ht
    refine ⟨fun c hc => ?_, fun t ht' => ht.nodup t (h.mem_iff.mpr ht')⟩
    have hf : ts.flatten.Perm ts'.flatten := h.flatten
    rw [← ht.twice c (hf.mem_iff.mpr hc), List.count_append, List.count_append, hf.count_eq]
  exact ⟨key h, key h.symm⟩

/-- A pair contraction changes nothing about the rule, and the rule makes it one. -/
theorem twiceEach_step {l r res out : Str} {rest : List Str} (hres : res.Nodup) (hout : out.Nodup)
    (hmem : ∀ c, c ∈ res ↔ (c ∈ l ∨ c ∈ r) ∧ (c ∈ rest.flatten ∨ c ∈ out)) :
    PairContraction l r res ∧ TwiceEach (rest ++ [res]) out ↔ TwiceEach (l :: r :: rest) out := by
  have cnt : ∀ c, ((l :: r :: rest).flatten ++ out).count c = l.count c + r.count c + rest.flatten.count c + out.count c := by
    intro c; simp only [List.flatten_cons, List.count_append]; omega
  have cnt' : ∀ c, ((rest ++ [res]).flatten ++ out).count c = rest.flatten.count c + res.count c + out.count c := by
    intro c; simp only [List.flatten_append, List.flatten_singleton, List.count_append]
  have hr : ∀ c, res.count c = if (0 < l.count c ∨ 0 < r.count c) ∧ (0 < rest.flatten.count c ∨ 0 < out.count c) then 1 else 0 := by
    intro c
    simp only [List.count_pos_iff]
    by_cases hc : c ∈ res
    · rw [if_pos ((hmem c).mp hc), List.count_eq_one_of_mem hres hc]
    · rw [if_neg (fun h => hc ((hmem c).mpr h)), List.count_eq_zero.mpr hc]
  have ho : ∀ c, out.count c ≤ 1 := fun c => List.nodup_iff_count_le_one.mp hout c
  constructor
  · rintro ⟨hp, ht⟩
    constructor
    · intro c hc
      rw [cnt]
      have h1 := hp.shared c
      have h2 := hp.unshared c
      have h3 := ht.twice c
      have h4 := List.nodup_iff_count_le_one.mp hp.nl c
      have h5 := List.nodup_iff_count_le_one.mp hp.nr c
      rw [cnt'] at h3
      have hc' : 0 < (l :: r :: rest).flatten.count c := List.count_pos_iff.mpr hc
      have h6 : 0 < rest.flatten.count c + res.count c → rest.flatten.count c + res.count c + out.count c = 2 := by
        intro h
        apply h3
        rw [← List.count_pos_iff]
        simpa only [List.flatten_append, List.flatten_singleton, List.count_append] using h
      rw [← List.count_pos_iff, ← List.count_pos_iff, ← List.count_pos_iff] at h1 h2
      simp only [List.flatten_cons, List.count_append] at hc'
      rw [hr] at h1 h2 h6
      clear h3
      split at h6
      · rename_i hh
        simp only [hh, and_self, if_true] at h1 h2
        omega
      · rename_i hh
        simp only [hh, if_false] at h1 h2
        omega
    · intro t ht'
      rcases List.mem_cons.mp ht' with rfl | ht'
      · exact hp.nl
      · rcases List.mem_cons.mp ht' with rfl | ht'
        · exact hp.nr
        · exact ht.nodup t (List.mem_append_left _ ht')
  · intro ht
    have h4 := fun c => List.nodup_iff_count_le_one.mp (ht.nodup l (by simp)) c
    have h5 := fun c => List.nodup_iff_count_le_one.mp (ht.nodup r (by simp)) c
    have h3 : ∀ c, 0 < l.count c + r.count c + rest.flatten.count c → l.count c + r.count c + rest.flatten.count c + out.count c = 2 := by
      intro c h
      rw [← cnt]
      apply ht.twice
      rw [← List.count_pos_iff]
      simpa only [List.flatten_cons, List.count_append, Nat.add_assoc] using h
    refine ⟨⟨ht.nodup l (by simp), ht.nodup r (by simp), ?_, ?_⟩, ?_, ?_⟩
    · intro c h1 h2
      rw [← List.count_pos_iff] at h1 h2
      rw [← List.count_eq_zero, hr, if_neg]
      have := h3 c
      omega
    · intro c h1 h2
      rw [← List.count_pos_iff, ← List.count_pos_iff] at h1 h2
      have := h3 c
      have h7 := h4 c
      have h8 := h5 c
      rw [← List.count_pos_iff, hr, if_pos]
      · exact Nat.one_pos
      · omega
    · intro c hc
      rw [cnt']
      rw [← List.count_pos_iff] at hc
      simp only [List.flatten_append, List.flatten_singleton, List.count_append] at hc
      have := h3 c
      have h7 := h4 c
      have h8 := h5 c
      rw [hr] at hc ⊢
      split <;> rename_i hh
      · omega
      · rw [if_neg hh] at hc
        omega
    · intro t ht'
      rcases List.mem_append.mp ht' with h | h
      · exact ht.nodup t (by simp [h])
      · rw [List.mem_singleton.mp h]; exact hres

theorem twiceEach_last {out : Str} (hout : out.Nodup) : TwiceEach [out] out := by
  constructor
  · intro c hc
    simp only [List.flatten_singleton] at hc ⊢
    rw [List.count_append, List.count_eq_one_of_mem hout hc]
  · intro t ht
    rw [List.mem_singleton.mp ht]; exact hout

/-- The dimensions of operands without broadcasting. -/
theorem sameDims_plain {size : Nat → Nat} (l r : Str) (removed : Finset Nat) : SameDims l r (l.map size) (r.map size) removed := by
  rintro c - d d' ⟨i, h1, h2⟩ ⟨j, h3, h4⟩
  rw [List.getElem?_map, h1] at h2
  rw [List.getElem?_map, h3] at h4
  cases h2
  cases h4
  rfl

theorem findOutputShape_plain {size : Nat → Nat} {ts : List Str} {out : Str} (h : ∀ c ∈ out, ∃ t ∈ ts, c ∈ t) :
    findOutputShape ts (ts.map (List.map size)) out = .ok (out.map size) := by
  have hz : ∀ p ∈ ts.zip (ts.map (List.map size)), p.2 = p.1.map size := by
    intro p hp
    obtain ⟨i, hi⟩ := List.mem_iff_getElem?.mp hp
    rw [List.getElem?_zip_eq_some, List.getElem?_map] at hi
    obtain ⟨h1, h2⟩ := hi
    rw [h1] at h2
    exact (Option.some.inj h2).symm
  have hx : ∀ p ∈ ts.zip (ts.map (List.map size)), ∀ c x, (c, x) ∈ p.1.zip p.2 → x = size c := by
    intro p hp c x h
    rw [hz p hp] at h
    obtain ⟨i, hi⟩ := List.mem_iff_getElem?.mp h
    rw [List.getElem?_zip_eq_some, List.getElem?_map] at hi
    obtain ⟨h1, h2⟩ := hi
    simp only at h1 h2
    rw [h1] at h2
    exact (Option.some.inj h2).symm
  apply C37_find_output_shape_partial
  · intro p hp
    rw [hz p hp, List.length_map]
  · intro p hp c x y h1 h2
    rw [hx p hp c x h1, hx p hp c y h2]
  · intro c hc
    obtain ⟨t, ht, hct⟩ := h c hc
    refine ⟨(mem_dimsOf _ _ _ _).mpr ⟨(t, t.map size), ?_, ?_⟩, ?_⟩
    · obtain ⟨i, hi⟩ := List.mem_iff_getElem?.mp ht
      exact List.mem_iff_getElem?.mpr ⟨i, by rw [List.getElem?_zip_eq_some, List.getElem?_map, hi]; exact ⟨rfl, rfl⟩⟩
    · obtain ⟨i, hi⟩ := List.mem_iff_getElem?.mp hct
      exact List.mem_iff_getElem?.mpr ⟨i, by rw [List.getElem?_zip_eq_some, List.getElem?_map, hi]; exact ⟨rfl, rfl⟩⟩
    · intro x hx'
      obtain ⟨p, hp, hx'⟩ := (mem_dimsOf _ _ _ _).mp hx'
      exact Or.inr (hx p hp c x hx')
  · intro c _ h0 h1
    obtain ⟨p, hp, hx'⟩ := (mem_dimsOf _ _ _ _).mp h1
    have := hx p hp c 1 hx'
    omega

theorem loop_rule {size : Nat → Nat} {output : Str} {d : Dict Nat Nat} (hn : output.Nodup) (path : List (List Nat)) :
    ∀ (st st' : PathState) (outs : List StepOut), st.sets = st.inputs.map List.toFinset → st.shapes = st.inputs.map (List.map size) →
      (∀ c ∈ output, c ∈ st.inputs.flatten) → CompletePath st.inputs.length path → pathLoop true output d st path = .ok (st', outs) →
      ((∀ o ∈ outs, o.step.blas ≠ .no) ↔ Pairwise2 path ∧ TwiceEach st.inputs output) := by
  induction path with
  | nil => intro st st' outs _ _ _ hc; exact hc.elim
  | cons p ps ih =>
    intro st st' outs hsets hshapes hsub hc h
    obtain ⟨hne, hnd, hlt⟩ : ValidStep st.inputs.length p := by
      cases ps with
      | nil => exact hc.1
      | cons q qs => exact hc.1
    obtain ⟨tI, rI, h1⟩ := popAll_valid (l := st.inputs) hnd hlt
    have hq : popAll (sortedDesc p) st.shapes = .ok (tI.map (List.map size), rI.map (List.map size)) := by
      rw [hshapes]; exact popAll_map_ok _ h1
    have hperm : (tI ++ rI).Perm st.inputs := popAll_perm h1
    have hlen := popAll_length h1
    rw [sortedDesc_length] at hlen
    rw [pathLoop] at h
    simp only [bind, Except.bind] at h
    have hstep : ∃ r, pathStep true output d st p ps.isEmpty = .ok r := by
      cases hs : pathStep true output d st p ps.isEmpty with
      | error e => rw [hs] at h; cases h
      | ok r => exact ⟨r, rfl⟩
    obtain ⟨⟨st1, o⟩, hstep⟩ := hstep
    have hkeep := hstep
    have hf := findContraction_ok (p := sortedDesc p) (out := output.toFinset) (by rw [sortedDesc_idem]; exact h1)
      (sortedDesc_ne_nil hne)
    rw [← hsets] at hf
    unfold pathStep at hkeep
    simp only [hf, bind, Except.bind, h1, hq] at hkeep
    split at hkeep
    · cases hkeep
    rename_i cost hcost
    have hdd := flopCount_inv hcost
    have hd : ∀ c ∈ tI.flatten, (d.get? c).isSome := fun c hc =>
      hdd c (mem_enum.mpr ⟨hc, List.mem_toFinset.mpr hc⟩)
    have hflat : ∀ c, c ∈ st.inputs.flatten ↔ c ∈ tI.flatten ∨ c ∈ rI.flatten := by
      intro c
      rw [← hperm.flatten.mem_iff, List.flatten_append, List.mem_append]
    -- the term of the result
    have hres : (resultTerm ps.isEmpty tI rI output).Nodup ∧
        ∀ c, c ∈ resultTerm ps.isEmpty tI rI output ↔ c ∈ tI.flatten ∧ (c ∈ rI.flatten ∨ c ∈ output) := by
      cases ps with
      | nil =>
        have hr0 : rI = [] := by
          have := hc.2
          have h3 : rI.length = 0 := by omega
          exact List.length_eq_zero_iff.mp h3
        subst hr0
        refine ⟨hn, fun c => ?_⟩
        simp only [resultTerm, List.isEmpty_nil, if_true, List.flatten_nil, List.not_mem_nil, false_or]
        refine ⟨fun h => ⟨?_, h⟩, fun h => h.2⟩
        have := (hflat c).mp (hsub c h)
        simpa using this
      | cons q qs =>
        refine ⟨tensordotOrder_nodup _ _, fun c => ?_⟩
        simp only [resultTerm, List.isEmpty_cons, Bool.false_eq_true, if_false, mem_tensordotOrder, mem_needed]
        simp only [List.mem_flatten]
        constructor
        · rintro ⟨g1, -, g2⟩
          exact ⟨g1, g2.symm⟩
        · rintro ⟨g1, g2⟩
          exact ⟨g1, g1, g2.symm⟩
    have heq := pathStep_eq (useBlas := true) (isLast := ps.isEmpty) (output := output) hsets h1 hq hne hd
      (findOutputShape_plain (fun c hc => List.mem_flatten.mp ((hres.2 c).mp hc).1))
    rw [heq] at h
    simp only at h
    split at h
    · cases h
    rename_i r hr
    obtain ⟨st2, os⟩ := r
    simp only [Except.ok.injEq, Prod.mk.injEq] at h
    obtain ⟨-, rfl⟩ := h
    -- the steps that follow
    have hrest : (∀ o ∈ os, o.step.blas ≠ .no) ↔ Pairwise2 ps ∧ TwiceEach (rI ++ [resultTerm ps.isEmpty tI rI output]) output := by
      cases ps with
      | nil =>
        have hr0 : rI = [] := by
          have := hc.2
          have h3 : rI.length = 0 := by omega
          exact List.length_eq_zero_iff.mp h3
        subst hr0
        simp only [pathLoop, Except.ok.injEq, Prod.mk.injEq] at hr
        rw [← hr.2]
        refine ⟨fun _ => ⟨(by intro p hp; cases hp), ?_⟩, (fun _ o ho => by cases ho)⟩
        exact twiceEach_last hn
      | cons q qs =>
        have hc' := hc.2
        refine ih _ _ _ ?_ ?_ ?_ ?_ hr
        · simp only
          rw [List.map_append, List.map_singleton]
          congr 2
          ext c
          rw [List.mem_toFinset, hres.2, mem_needed, List.mem_flatten, List.mem_flatten]
          exact and_congr_right (fun _ => or_comm)
        · simp only [List.map_append, List.map_singleton]
        · intro c hco
          simp only [List.flatten_append, List.flatten_singleton, List.mem_append]
          rcases (hflat c).mp (hsub c hco) with g | g
          · exact Or.inr ((hres.2 c).mpr ⟨g, Or.inr hco⟩)
          · exact Or.inl g
        · simp only [List.length_append, List.length_singleton]
          have : rI.length + 1 = st.inputs.length + 1 - p.length := by omega
          rw [this]; exact hc'
    simp only [List.forall_mem_cons]
    rw [hrest]
    -- this step
    have hflag : (stepOf true output p ps.isEmpty tI rI (tI.map (List.map size))).blas =
        canBlas tI (enum tI.flatten (needed tI rI output)) (tI.flatten.toFinset \ needed tI rI output) (some (tI.map (List.map size))) := rfl
    rw [hflag]
    have hpair : Pairwise2 (p :: ps) ↔ p.length = 2 ∧ Pairwise2 ps := by simp [Pairwise2]
    rw [hpair, ← TwiceEach.perm hperm]
    by_cases h2 : p.length = 2
    · obtain ⟨l, r, rfl⟩ : ∃ l r, tI = [l, r] := List.length_eq_two.mp (by omega)
      have hmem : ∀ c, c ∈ resultTerm ps.isEmpty [l, r] rI output ↔ (c ∈ l ∨ c ∈ r) ∧ (c ∈ rI.flatten ∨ c ∈ output) := by
        intro c
        rw [hres.2]
        simp
      rw [show [l, r].map (List.map size) = [l.map size, r.map size] from rfl,
        C08_can_blas_step l r _ _ _ _ (by simp) (by simp) (by
          intro c
          simp only [Finset.mem_sdiff, List.mem_toFinset, mem_enum, List.flatten_cons, List.flatten_nil, List.append_nil, List.mem_append]
          constructor
          · rintro ⟨g1, g2⟩; exact ⟨g1, fun g => g2 g.2⟩
          · rintro ⟨g1, g2⟩; exact ⟨g1, fun g => g2 ⟨g1, g⟩⟩)]
      have hpc : PairContraction l r (enum [l, r].flatten (needed [l, r] rI output)) ↔ PairContraction l r (resultTerm ps.isEmpty [l, r] rI output) := by
        have : ∀ c, c ∈ enum [l, r].flatten (needed [l, r] rI output) ↔ c ∈ resultTerm ps.isEmpty [l, r] rI output := by
          intro c
          rw [mem_enum, hres.2, mem_needed, List.mem_flatten, List.mem_flatten]
          constructor
          · rintro ⟨g1, -, g2⟩; exact ⟨g1, g2.symm⟩
          · rintro ⟨g1, g2⟩; exact ⟨g1, g1, g2.symm⟩
        constructor
        · rintro ⟨g1, g2, g3, g4⟩
          exact ⟨g1, g2, fun c a b => by rw [← this]; exact g3 c a b, fun c a b => by rw [← this]; exact g4 c a b⟩
        · rintro ⟨g1, g2, g3, g4⟩
          exact ⟨g1, g2, fun c a b => by rw [this]; exact g3 c a b, fun c a b => by rw [this]; exact g4 c a b⟩
      rw [hpc, show [l, r] ++ rI = l :: r :: rI from rfl, ← twiceEach_step hres.1 hn hmem]
      have := sameDims_plain (size := size) l r ([l, r].flatten.toFinset \ needed [l, r] rI output)
      tauto
    · constructor
      · rintro ⟨g, -⟩
        have := C08_two_terms _ _ _ _ g
        omega
      · rintro ⟨⟨g, -⟩, -⟩
        exact absurd g h2

/-- The loop of a successful `contract_path`. -/
theorem contractPath_loop {inputs : List Str} {output : Str} {shapes : List Shape} {opt : Optimize} {mem : MemLimit} {ub : Bool}
    {info : PathInfo} (h : contractPath inputs output shapes opt mem ub = .ok info) :
    ∃ st outs, pathLoop ub output info.sizeDict { inputs, sets := inputs.map List.toFinset, shapes } info.path = .ok (st, outs) ∧
      info.contractionList = outs.map StepOut.step := by
  unfold contractPath at h
  simp only [bind, Except.bind] at h
  split at h
  · cases h
  split at h
  · cases h
  split at h
  · cases h
  split at h
  · cases h
  split at h
  · cases h
  split at h
  · cases h
  rename_i r hr
  obtain ⟨st, outs⟩ := r
  simp only [Except.ok.injEq] at h
  subst h
  exact ⟨st, outs, hr, rfl⟩

/-- Without `use_blas` no step is marked, and there are as many steps as the path has. -/
theorem loop_unmarked {output : Str} {d : Dict Nat Nat} (path : List (List Nat)) :
    ∀ (st st' : PathState) (outs : List StepOut), pathLoop false output d st path = .ok (st', outs) →
      outs.length = path.length ∧ ∀ o ∈ outs, o.step.blas = .no := by
  induction path with
  | nil => intro st st' outs h; cases h; simp
  | cons p ps ih =>
    intro st st' outs h
    simp only [pathLoop, bind, Except.bind] at h
    split at h
    · cases h
    rename_i r hr
    obtain ⟨st1, o⟩ := r
    simp only at h
    split at h
    · cases h
    rename_i r2 hr2
    obtain ⟨st2, os⟩ := r2
    simp only [Except.ok.injEq, Prod.mk.injEq] at h
    obtain ⟨rfl, rfl⟩ := h
    obtain ⟨g1, g2⟩ := ih _ _ _ hr2
    refine ⟨by simp [g1], ?_⟩
    intro o' ho'
    rcases List.mem_cons.mp ho' with rfl | ho'
    · unfold pathStep at hr
      simp only [bind, Except.bind] at hr
      iterate 6 (split at hr; · cases hr)
      simp only [Except.ok.injEq, Prod.mk.injEq] at hr
      rw [← hr.2]
      simp
    · exact g2 o' ho'

/-- What a library without `einsum` completes has only marked steps. -/
theorem coreLoop_marked {A : Type} {lib : Library A} (hno : lib.einsum = none) {sharing : Bool} {kw : Kw A} (steps : List Step) :
    ∀ (as bs : List A), AnyLibrary.coreLoop lib sharing kw steps as = .ok bs → ∀ s ∈ steps, s.blas ≠ .no := by
  induction steps with
  | nil => intro _ _ _ s hs; cases hs
  | cons s ss ih =>
    intro as bs h
    simp only [AnyLibrary.coreLoop, bind, Except.bind] at h
    split at h
    · cases h
    rename_i r _
    obtain ⟨tmp, rest⟩ := r
    simp only at h
    split at h
    · cases h
    rename_i v hv
    intro s' hs'
    rcases List.mem_cons.mp hs' with rfl | hs'
    · intro hb
      unfold AnyLibrary.stepResult at hv
      rw [hb] at hv
      simp [usesBlas, Flag.truthy, AnyLibrary.einsumCall, hno] at hv
    · exact ih _ _ h s' hs'

/-- **C93, the plan.** When nothing is broadcast, every step of the plan can be done by `tensordot` exactly when every step takes two
operands and every label of the operands occurs exactly twice in the whole expression, output included, and never twice in one term. It
does not depend on the order in which the pairs are contracted. -/
theorem C93_rule {size : Nat → Nat} {inputs : List Str} {output : Str} (hn : output.Nodup) (hsub : ∀ c ∈ output, ∃ t ∈ inputs, c ∈ t)
    {opt : Optimize} {mem : MemLimit} {info : PathInfo}
    (h : contractPath inputs output (inputs.map (List.map size)) opt mem true = .ok info) (hc : CompletePath inputs.length info.path) :
    (∀ s ∈ info.contractionList, s.blas ≠ .no) ↔ Pairwise2 info.path ∧ TwiceEach inputs output := by
  obtain ⟨st, outs, h1, h2⟩ := contractPath_loop h
  have := loop_rule (size := size) hn info.path { inputs, sets := inputs.map List.toFinset, shapes := inputs.map (List.map size) } st outs
    rfl rfl (fun c hc => List.mem_flatten.mpr (hsub c hc)) hc h1
  rw [← this, h2]
  simp

section
variable {R : Type} [CommSemiring R] {A : Type}

/-- **C93.** A library without `einsum`, whose `tensordot` and `transpose` do what numpy's do, can do a contraction in which nothing is
broadcast and no axis is empty exactly when every step of the path takes two operands and every label of the operands occurs exactly twice
in the whole expression, output included, and never twice in one term. Then `contract` returns an array that stands for the Einstein
summation; otherwise, and always with `use_blas=False`, it raises `AttributeError`. -/
theorem C93_without_einsum {lib : Library A} {Rep : A → Tensor R → Prop} (hlib : Serves lib [] true Rep) (hno : lib.einsum = none)
    (shape : A → Shape) (hshape : ∀ a T, Rep a T → shape a = T.shape) (np : Library A)
    (size : Nat → Nat) (eq : Str) (as : List A) (Ts : List (Tensor R)) (hrep : List.Forall₂ Rep as Ts) (inp out : Str)
    (hparse : parseEinsum eq (Ts.map Tensor.shape) = .ok (inp, out)) (hcomma : cComma ∉ out)
    (hfit : OperandsFit size (splitOn cComma inp) (Ts.map Tensor.shape))
    (hplain : PlainShapes size (splitOn cComma inp) (Ts.map Tensor.shape))
    (hlab : (splitOn cComma inp).flatten.toFinset.card ≤ 52)
    (opt : Optimize) (mem : MemLimit) (hmem : ValidMemory mem)
    (hopt : ChoosesComplete opt size (splitOn cComma inp) out) (sharing : Bool) :
    ∃ info, contractPath (splitOn cComma inp) out (Ts.map Tensor.shape) opt mem true = .ok info ∧
      (Pairwise2 info.path ∧ TwiceEach (splitOn cComma inp) out →
        ∃ a T, AnyLibrary.contract shape np lib sharing eq as opt mem true [] = .ok a ∧ Rep a T ∧
          IsEinsum size (splitOn cComma inp) out Ts T) ∧
      (¬ (Pairwise2 info.path ∧ TwiceEach (splitOn cComma inp) out) →
        AnyLibrary.contract shape np lib sharing eq as opt mem true [] = .error .attribute) ∧
      AnyLibrary.contract shape np lib sharing eq as opt mem false [] = .error .attribute := by
  have hw := wellPosed_of_parse hparse hcomma hfit
  have hsh : as.map shape = Ts.map Tensor.shape := by
    clear hparse hfit hplain hw
    induction hrep with
    | nil => rfl
    | cons h1 _ ih => rw [List.map_cons, List.map_cons, ih, hshape _ _ h1]
  have hserve : Serves lib (filterEinsumDefaults (if sharing then [] else (S "out", Val.none) :: [])) true Rep := by
    cases sharing
    · rw [if_neg (by simp), filter_only_out]; exact hlib
    · rw [if_pos rfl, filter_nil]; exact hlib
  have main : ∀ ub, ∃ info, contractPath (splitOn cComma inp) out (Ts.map Tensor.shape) opt mem ub = .ok info ∧
      CompletePath (splitOn cComma inp).length info.path ∧
      (((∃ a T, AnyLibrary.contract shape np lib sharing eq as opt mem ub [] = .ok a ∧ Rep a T ∧
          IsEinsum size (splitOn cComma inp) out Ts T) ∧ ∀ s ∈ info.contractionList, s.blas ≠ .no) ∨
        (AnyLibrary.contract shape np lib sharing eq as opt mem ub [] = .error .attribute ∧ ∃ s ∈ info.contractionList, s.blas = .no)) := by
    intro ub
    obtain ⟨info, hi, h⟩ := contract_any (sharing := sharing) (kw := []) hserve shape hshape np size eq as Ts hrep inp out hparse hcomma hfit
      (fun _ => hplain) hlab opt mem hmem hopt ub
    obtain ⟨info', hi', hcp, _⟩ := C01_contract_terms size (splitOn cComma inp) out Ts hw opt mem hmem hopt ub true
    rw [hi] at hi'
    cases hi'
    refine ⟨info, hi, hcp, ?_⟩
    rcases h with h | ⟨h1, _, h2⟩ | ⟨_, h, _⟩
    · left
      refine ⟨h, ?_⟩
      obtain ⟨a, T, h1, _⟩ := h
      have hc : AnyLibrary.contract shape np lib sharing eq as opt mem ub [] =
          AnyLibrary.coreContract lib sharing [] info.contractionList as := by
        cases opt with
        | off => exact absurd hopt (by simp [ChoosesComplete])
        | path p => simp only [AnyLibrary.contract, bind, Except.bind, hsh]; rw [hparse]; simp only; rw [hi]
        | finder f => simp only [AnyLibrary.contract, bind, Except.bind, hsh]; rw [hparse]; simp only; rw [hi]
      rw [hc] at h1
      simp only [AnyLibrary.coreContract, bind, Except.bind] at h1
      split at h1
      · cases h1
      rename_i bs hbs
      exact coreLoop_marked hno _ _ _ hbs
    · exact Or.inr ⟨h1, h2⟩
    · exact absurd rfl h
  obtain ⟨info, hi, hcp, h⟩ := main true
  have hi2 := hi
  rw [hplain.2] at hi2
  have hrule := C93_rule hw.nodup hw.sub hi2 hcp
  refine ⟨info, hi, ?_, ?_, ?_⟩
  · intro hr
    rcases h with h | ⟨_, s, hs, h⟩
    · exact h.1
    · exact absurd h (hrule.mpr hr s hs)
  · intro hr
    rcases h with h | h
    · exact absurd (hrule.mp h.2) hr
    · exact h.1
  · obtain ⟨info', hi', hcp', h'⟩ := main false
    rcases h' with ⟨_, h'⟩ | h'
    · exfalso
      obtain ⟨st, outs, g1, g2⟩ := contractPath_loop hi'
      obtain ⟨g3, g4⟩ := loop_unmarked _ _ _ _ g1
      have : outs ≠ [] := by
        rintro rfl
        have : info'.path = [] := List.length_eq_zero_iff.mp (by simpa using g3.symm)
        rw [this] at hcp'
        exact hcp'.elim
      obtain ⟨o, ho⟩ := List.exists_mem_of_ne_nil _ this
      exact h' o.step (by rw [g2]; exact List.mem_map_of_mem ho) (g4 o ho)
    · exact h'.1
end

/-- The rule as documented: it is enough that each label occurs twice in the expression. -/
def C93_statement : Prop :=
  ∀ (size : Nat → Nat) (inputs : List Str) (output : Str) (shapes : List Shape), WellPosed size inputs output shapes →
    (∀ c ∈ inputs.flatten, (inputs.flatten ++ output).count c = 2) →
    ∀ (path : List (List Nat)) (info : PathInfo), CompletePath inputs.length path →
      contractPath inputs output shapes (.path path) .none true = .ok info → ∀ s ∈ info.contractionList, s.blas ≠ .no

/-- **C93, the rule as documented is not enough.** A label twice in one term (`aa,b->b`) is a trace that only `einsum` takes. -/
theorem C93_counterexample : ¬ C93_statement := by
  intro h
  cases hi : contractPath [S "aa", S "b"] (S "b") [[2, 2], [3]] (.path [[0, 1]]) .none true with
  | error e =>
    have : errorOf (contractPath [S "aa", S "b"] (S "b") [[2, 2], [3]] (.path [[0, 1]]) .none true) = none := by decide +kernel
    rw [hi] at this
    cases this
  | ok info =>
    have hb : (contractPath [S "aa", S "b"] (S "b") [[2, 2], [3]] (.path [[0, 1]]) .none true).map
        (fun i => i.contractionList.all (fun s => decide (s.blas ≠ .no))) = .ok false := by decide +kernel
    rw [hi] at hb
    simp only [Except.map, Except.ok.injEq] at hb
    have := h (fun c => if c = 97 then 2 else 3) [S "aa", S "b"] (S "b") [[2, 2], [3]]
      { toOperandsFit := operandsFit_of_list (by decide +kernel) (by decide +kernel) (by decide +kernel) (by decide +kernel) (by decide +kernel)
        nonempty := by simp, len := rfl, nodup := by decide, sub := by decide +kernel
        punct := by
          intro t ht c hc h
          have hl : ∀ t ∈ [S "aa", S "b"], ∀ c ∈ t, 97 ≤ c := by decide +kernel
          have := hl t ht c hc
          simp only [IsPunct] at h
          omega }
      (by decide +kernel) [[0, 1]] info (by simp [CompletePath, ValidStep]) hi
    rw [List.all_eq_false] at hb
    obtain ⟨s, hs, hb⟩ := hb
    exact this s hs (by simpa using hb)

/-! ## Cases -/

/-- What `contract` raises without `einsum`. -/
def raised (eq : Str) (ops : List (Tensor Nat)) (path : List (List Nat)) (useBlas : Bool) : Option PyErr :=
  errorOf (AnyLibrary.contract Tensor.shape numpyLibrary withoutEinsum false eq ops (.path path) .none useBlas [])

/-- Other ways to miss: one operand (`ab->ba`), three operands at once, an axis of size 1 that is stretched, `use_blas=False`. -/
example : raised (S "aa,b->b") [ones [2, 2], ones [3]] [[0, 1]] true = some .attribute ∧
    raised (S "ab->ba") [ones [2, 3]] [[0]] true = some .attribute ∧
    raised (S "ab,bc,cd->ad") [ones [2, 3], ones [3, 4], ones [4, 2]] [[0, 1, 2]] true = some .attribute ∧
    raised (S "ab,bc->ac") [ones [2, 1], ones [5, 4]] [[0, 1]] true = some .attribute ∧
    raised (S "ab,bc->ac") [ones [2, 3], ones [3, 4]] [[0, 1]] false = some .attribute := by
  refine ⟨?_, ?_, ?_, ?_, ?_⟩ <;> decide +kernel

/-- And what works: a chain in either order, an outer product. -/
example : raised (S "ab,bc,cd->ad") [ones [2, 3], ones [3, 4], ones [4, 2]] [[0, 1], [0, 1]] true = none ∧
    raised (S "ab,bc,cd->da") [ones [2, 3], ones [3, 4], ones [4, 2]] [[0, 2], [0, 1]] true = none ∧
    raised (S "a,b->ba") [ones [2], ones [3]] [[0, 1]] true = none := by
  refine ⟨?_, ?_, ?_⟩ <;> decide +kernel

/-- The hypotheses of C93 hold of a chain of matrices. -/
example : ∃ info, contractPath (splitOn cComma (S "ab,bc")) (S "ca") ([mat22, mat22].map Tensor.shape) (.path [[0, 1]]) .none true = .ok info ∧
    (Pairwise2 info.path ∧ TwiceEach (splitOn cComma (S "ab,bc")) (S "ca") →
      ∃ a T, AnyLibrary.contract Tensor.shape numpyLibrary withoutEinsum false (S "ab,bc->ca") [mat22, mat22] (.path [[0, 1]]) .none true [] = .ok a ∧
        SameArray a T ∧ IsEinsum (fun _ => 2) (splitOn cComma (S "ab,bc")) (S "ca") [mat22, mat22] T) := by
  have hs : Serves (R := Nat) withoutEinsum [] true SameArray :=
    { ext := fun _ _ _ h g => h.trans g
      einsum := by intro fn hfn; cases hfn
      tensordot := fun _ _ _ _ _ _ _ ha hb _ h => npTensordot_congr ha hb h
      transpose := fun _ _ _ _ ha h => npTranspose_congr ha h }
  obtain ⟨info, h1, h2, _⟩ := C93_without_einsum hs rfl Tensor.shape (fun _ _ h => h.1) numpyLibrary (fun _ => 2) (S "ab,bc->ca")
    [mat22, mat22] [mat22, mat22] (.cons (SameArray.refl mat22) (.cons (SameArray.refl mat22) .nil)) (S "ab,bc") (S "ca") (by decide +kernel)
    (by decide) fit22 ⟨by simp, by decide +kernel⟩ (by decide +kernel) (.path [[0, 1]]) .none trivial (completePath_range (n := 2) (by decide)) false
  exact ⟨info, h1, h2⟩

/-- The rule holds of it. -/
example : TwiceEach (splitOn cComma (S "ab,bc")) (S "ca") ∧ ¬ TwiceEach (splitOn cComma (S "ab,bc")) (S "abc") ∧
    ¬ TwiceEach (splitOn cComma (S "aa,b")) (S "b") := by
  refine ⟨⟨by decide +kernel, by decide +kernel⟩, fun h => ?_, fun h => ?_⟩
  · have := h.twice
    revert this
    decide +kernel
  · have := h.nodup
    revert this
    decide +kernel

end OE.Props
