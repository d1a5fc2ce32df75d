import Verif.Lemmas.RenamePath
import Verif.Lemmas.SizeKeys
import Verif.Props.Report

/-!
# Reordering the output of an equation
-/

namespace OE.Rename
open OE OE.Py OE.Contract OE.Parser OE.Spec OE.Props OE.Helpers OE.Blas

theorem findOutputShape_mem {tmp : List Str} {tsh : List Shape} {o o' : Str} {s : Shape} (hp : o'.Perm o)
    (h : findOutputShape tmp tsh o = .ok s) : ∃ s', findOutputShape tmp tsh o' = .ok s' := by
  unfold findOutputShape at h ⊢
  have hm := mapM_ok_mem h
  clear h
  have hm' : ∀ x ∈ o', ∃ y, findOutputDim tmp tsh x = .ok y := fun x hx => hm x (hp.mem_iff.mp hx)
  clear hm hp
  induction o' with
  | nil => exact ⟨[], rfl⟩
  | cons c o' ih =>
    obtain ⟨y, hy⟩ := hm' c (by simp)
    obtain ⟨s', hs'⟩ := ih (fun x hx => hm' x (by simp [hx]))
    exact ⟨y :: s', by rw [List.mapM_cons, hy, hs']; rfl⟩

/-- What reordering the output leaves of a step. -/
structure SameStep (o o' : StepOut) : Prop where
  inds : o'.step.inds = o.step.inds
  removed : o'.step.removed = o.step.removed
  blas : o'.step.blas = o.step.blas
  cost : o'.cost = o.cost
  scale : o'.scale = o.scale
  size : o'.size = o.size

theorem pathStep_output {useBlas : Bool} {o o' : Str} {d : Dict Nat Nat} {st : PathState} {positions : List Nat} {isLast : Bool}
    {st1 : PathState} {r : StepOut} (hp : o'.Perm o) (h : pathStep useBlas o d st positions isLast = .ok (st1, r)) :
    ∃ st1' r', pathStep useBlas o' d st positions isLast = .ok (st1', r') ∧ SameStep r r' ∧ (isLast = false → st1' = st1) := by
  have hf : o'.toFinset = o.toFinset := List.toFinset_eq_of_perm _ _ hp
  unfold pathStep at h ⊢
  rw [hf]
  simp only [bind, Except.bind] at h ⊢
  cases h1 : findContraction (sortedDesc positions) st.sets o.toFinset with
  | error e => rw [h1] at h; cases h
  | ok c =>
    rw [h1] at h
    simp only at h ⊢
    cases h2 : popAll (sortedDesc positions) st.inputs with
    | error e => rw [h2] at h; cases h
    | ok p =>
      obtain ⟨tmp, rest⟩ := p
      rw [h2] at h
      simp only at h ⊢
      cases h3 : popAll (sortedDesc positions) st.shapes with
      | error e => rw [h3] at h; cases h
      | ok q =>
        obtain ⟨tsh, rsh⟩ := q
        rw [h3] at h
        simp only at h ⊢
        cases h4 : flopCount (enum tmp.flatten c.idxContract) (decide (c.idxRemoved ≠ ∅)) (sortedDesc positions).length d with
        | error e => rw [h4] at h; cases h
        | ok cost =>
          rw [h4] at h
          simp only at h ⊢
          cases h5 : computeSizeByDict (enum tmp.flatten c.newResult) d with
          | error e => rw [h5] at h; cases h
          | ok size =>
            rw [h5] at h
            simp only at h ⊢
            cases isLast with
            | false =>
              simp only [Bool.false_eq_true, if_false] at h ⊢
              cases h6 : findOutputShape tmp tsh (tensordotOrder tmp.flatten c.newResult) with
              | error e => rw [h6] at h; cases h
              | ok shp =>
                rw [h6] at h
                simp only [Except.ok.injEq, Prod.mk.injEq] at h ⊢
                obtain ⟨rfl, rfl⟩ := h
                exact ⟨_, _, ⟨rfl, rfl⟩, ⟨rfl, rfl, rfl, rfl, rfl, rfl⟩, fun _ => rfl⟩
            | true =>
              simp only [if_true] at h ⊢
              cases h6 : findOutputShape tmp tsh o with
              | error e => rw [h6] at h; cases h
              | ok shp =>
                obtain ⟨shp', h6'⟩ := findOutputShape_mem hp h6
                rw [h6] at h
                rw [h6']
                simp only [Except.ok.injEq, Prod.mk.injEq] at h ⊢
                obtain ⟨rfl, rfl⟩ := h
                exact ⟨_, _, ⟨rfl, rfl⟩, ⟨rfl, rfl, rfl, rfl, rfl, rfl⟩, fun h => by cases h⟩

theorem pathLoop_output {useBlas : Bool} {o o' : Str} {d : Dict Nat Nat} (hp : o'.Perm o) (path : List (List Nat)) : ∀ {st st1 : PathState}
    {outs : List StepOut}, pathLoop useBlas o d st path = .ok (st1, outs) →
    ∃ st1' outs', pathLoop useBlas o' d st path = .ok (st1', outs') ∧ List.Forall₂ SameStep outs outs' := by
  induction path with
  | nil =>
    intro st st1 outs h
    simp only [pathLoop, Except.ok.injEq, Prod.mk.injEq] at h
    obtain ⟨rfl, rfl⟩ := h
    exact ⟨st, [], rfl, .nil⟩
  | cons p ps ih =>
    intro st st1 outs h
    simp only [pathLoop, bind, Except.bind] at h ⊢
    cases h1 : pathStep useBlas o d st p ps.isEmpty with
    | error e => rw [h1] at h; cases h
    | ok r =>
      obtain ⟨st2, r⟩ := r
      rw [h1] at h
      simp only at h
      obtain ⟨st2', r', h1', hr, hst⟩ := pathStep_output hp h1
      cases h2 : pathLoop useBlas o d st2 ps with
      | error e => rw [h2] at h; cases h
      | ok q =>
        obtain ⟨st3, os⟩ := q
        rw [h2] at h
        simp only [Except.ok.injEq, Prod.mk.injEq] at h
        obtain ⟨rfl, rfl⟩ := h
        rw [h1']
        simp only
        cases ps with
        | nil =>
          simp only [pathLoop, Except.ok.injEq, Prod.mk.injEq] at h2
          obtain ⟨rfl, rfl⟩ := h2
          exact ⟨st2', [r'], rfl, .cons hr .nil⟩
        | cons p' ps' =>
          rw [hst rfl]
          obtain ⟨st3', os', h3, hos⟩ := ih h2
          rw [h3]
          exact ⟨st3', r' :: os', rfl, .cons hr hos⟩

theorem forall₂_map {α β : Type} {R : α → α → Prop} {f : α → β} {l l' : List α} (h : List.Forall₂ R l l') (hf : ∀ a b, R a b → f b = f a) :
    l'.map f = l.map f := by
  induction h with
  | nil => rfl
  | cons hr _ ih => rw [List.map_cons, List.map_cons, ih, hf _ _ hr]

theorem computeSize_perm {d : Dict Nat Nat} {o o' : Str} (hp : o'.Perm o) {v : Nat} (h : computeSizeByDict o d = .ok v) :
    computeSizeByDict o' d = .ok v := by
  have hk := computeSize_keys h
  rw [computeSize_ok hk] at h
  rw [computeSize_ok (fun c hc => hk c (hp.mem_iff.mp hc)), (hp.map _).prod_eq]
  exact h

/-- Reordering the output changes nothing but the last einsum string. -/
theorem contractPath_output {inputs : List Str} {o o' : Str} {shapes : List Shape} {opt : Optimize} {mem : MemLimit} {useBlas : Bool}
    {info : PathInfo} (hp : o'.Perm o) (h : contractPath inputs o shapes opt mem useBlas = .ok info) :
    ∃ info', contractPath inputs o' shapes opt mem useBlas = .ok info' ∧ SamePlan info info' ∧ info'.sizeDict = info.sizeDict := by
  obtain ⟨sl, mm, st, outs, h1, h2, h3, h4, h5, h6, h7⟩ := contractPath_parts h
  have hf : o'.toFinset = o.toFinset := List.toFinset_eq_of_perm _ _ hp
  obtain ⟨st', outs', h6', hs⟩ := pathLoop_output hp _ h6
  have h2' : (inputs ++ [o']).mapM (fun t => computeSizeByDict t info.sizeDict) = .ok sl := by
    rw [List.mapM_append] at h2 ⊢
    rw [← h2]
    cases inputs.mapM (fun t => computeSizeByDict t info.sizeDict) with
    | error e => rfl
    | ok l =>
      have : (fun t => computeSizeByDict t info.sizeDict) o' = (fun t => computeSizeByDict t info.sizeDict) o := by
        cases ho : computeSizeByDict o info.sizeDict with
        | ok v => exact (computeSize_perm hp ho).trans ho.symm
        | error e =>
          exfalso
          obtain ⟨y, hy⟩ := mapM_ok_mem (by rw [← List.mapM_append] at h2; exact h2) o (by simp)
          simp only [ho] at hy
          cases hy
      simp only [List.mapM_cons, List.mapM_nil, this]
  refine ⟨{ contractionList := outs'.map StepOut.step, path := info.path, indices := inputs.flatten.toFinset,
            scaleList := outs'.map StepOut.scale, naiveCost := info.naiveCost, optCost := (outs'.map StepOut.cost).sum,
            sizeList := outs'.map StepOut.size, sizeDict := info.sizeDict,
            largestIntermediate := (outs'.map StepOut.size).max?.getD 1 }, ?_, ⟨rfl, ?_, ?_, ?_, rfl, ?_, ?_, ?_⟩, rfl⟩
  · unfold contractPath
    simp only [bind, Except.bind, h1, h2', h3, h4, hf, h5, h6']
  all_goals rw [h7]
  · simp only [List.map_map]; exact forall₂_map hs (fun a b r => r.inds)
  · simp only [List.map_map]; exact forall₂_map hs (fun a b r => r.blas)
  · exact forall₂_map hs (fun a b r => r.scale)
  · simp only; rw [forall₂_map hs (fun a b r => r.cost)]
  · exact forall₂_map hs (fun a b r => r.size)
  · simp only; rw [forall₂_map hs (fun a b r => r.size)]

end OE.Rename
