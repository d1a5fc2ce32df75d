import Verif.Lemmas.RenameDp
import Verif.Lemmas.PathStep
import Verif.Lemmas.Strings
import Verif.Spec.Rename

/-!
# Renaming labels: `contract_path`
-/

namespace OE.Rename
open OE OE.Py OE.Paths OE.Parser OE.Helpers OE.Blas OE.Contract OE.Spec

variable {σ : Nat ≃ Nat}

theorem ren_eq_image (s : Finset Nat) : ren σ s = s.image σ := Finset.map_eq_image _ _

theorem toFinset_map (t : Str) : (t.map σ).toFinset = ren σ t.toFinset := by
  ext c
  simp only [List.mem_toFinset, List.mem_map, mem_ren']
  constructor
  · rintro ⟨a, ha, rfl⟩; simpa using ha
  · intro h; exact ⟨_, h, by simp⟩

theorem pop_map {α β : Type} (g : α → β) (l : List α) (i : Nat) : pop (l.map g) i = (pop l i).map (fun p => (g p.1, p.2.map g)) := by
  unfold pop
  rw [List.getElem?_map]
  cases l[i]? with
  | none => rfl
  | some a => simp only [Option.map_some, Except.map, List.eraseIdx_map]

theorem popAll_map {α β : Type} (g : α → β) (is : List Nat) : ∀ l : List α,
    popAll is (l.map g) = (popAll is l).map (fun p => (p.1.map g, p.2.map g)) := by
  induction is with
  | nil => intro l; rfl
  | cons i is ih =>
    intro l
    simp only [popAll, pop_map, bind, Except.bind]
    cases pop l i with
    | error e => rfl
    | ok p =>
      simp only [Except.map, ih]
      cases popAll is p.2 <;> rfl

theorem foldr_union_ren' (l : List (Finset Nat)) (s : Finset Nat) : (l.map (ren σ)).foldr (· ∪ ·) (ren σ s) = ren σ (l.foldr (· ∪ ·) s) := by
  induction l with
  | nil => rfl
  | cons a l ih => rw [List.map_cons, List.foldr_cons, List.foldr_cons, ih, ren_union]

def renContraction (σ : Nat ≃ Nat) (c : Contraction) : Contraction :=
  { newResult := ren σ c.newResult, remaining := c.remaining.map (ren σ), idxRemoved := ren σ c.idxRemoved, idxContract := ren σ c.idxContract }

theorem findContraction_ren (positions : List Nat) (sets : List (Finset Nat)) (out : Finset Nat) :
    findContraction positions (sets.map (ren σ)) (ren σ out) = (findContraction positions sets out).map (renContraction σ) := by
  unfold findContraction
  rw [popAll_map]
  simp only [bind, Except.bind]
  cases popAll (sortedDesc positions) sets with
  | error e => rfl
  | ok p =>
    obtain ⟨ins, rem⟩ := p
    match ins with
    | [] => rfl
    | a :: as =>
      simp only [Except.map, renContraction, List.map_cons]
      rw [← List.map_cons, foldr_union_ren, foldr_union_ren']
      simp only [ren_inter, ren_sdiff, List.map_append, List.map_cons, List.map_nil]

theorem firstOccs_map (s : Str) : firstOccs (s.map σ) = (firstOccs s).map σ := by
  induction s with
  | nil => rfl
  | cons c s ih =>
    simp only [List.map_cons, firstOccs, ih, List.filter_map]
    congr 2
    apply List.filter_congr
    intro x _
    simp

theorem filter_ren (l : Str) (s : Finset Nat) : (l.map σ).filter (fun c => c ∈ ren σ s) = (l.filter (fun c => c ∈ s)).map σ := by
  rw [List.filter_map]
  congr 1
  apply List.filter_congr
  intro x _
  simp

theorem tensordotOrder_ren (l : Str) (s : Finset Nat) : tensordotOrder (l.map σ) (ren σ s) = (tensordotOrder l s).map σ := by
  unfold tensordotOrder
  rw [firstOccs_map, filter_ren]

theorem enum_ren (l : Str) (s : Finset Nat) : enum (l.map σ) (ren σ s) = (enum l s).map σ := by
  unfold enum
  rw [firstOccs_map, filter_ren]

/-- `size_dict` with new names. -/
def renSizes (σ : Nat ≃ Nat) (d : Dict Nat Nat) : Dict Nat Nat := mapDict σ id d

theorem renSizes_get? (d : Dict Nat Nat) (c : Nat) : (renSizes σ d).get? (σ c) = d.get? c := by
  rw [renSizes, mapDict_get? σ.injective]; simp

theorem renSizes_set (d : Dict Nat Nat) (c v : Nat) : (renSizes σ d).set (σ c) v = renSizes σ (d.set c v) :=
  mapDict_set (g := id) σ.injective d c v

theorem computeSize_ren (l : List Nat) (d : Dict Nat Nat) : computeSizeByDict (l.map σ) (renSizes σ d) = computeSizeByDict l d := by
  unfold computeSizeByDict
  rw [List.foldlM_map]
  congr 1
  funext r c
  unfold Dict.get!
  rw [renSizes_get?]

theorem flopCount_ren (l : List Nat) (inner : Bool) (n : Nat) (d : Dict Nat Nat) :
    flopCount (l.map σ) inner n (renSizes σ d) = flopCount l inner n d := by
  unfold flopCount
  rw [computeSize_ren]

theorem sizeTerm_ren (l : List (Nat × Nat)) : ∀ d : Dict Nat Nat,
    sizeTerm (renSizes σ d) (l.map (fun p => (σ p.1, p.2))) = (sizeTerm d l).map (renSizes σ) := by
  induction l with
  | nil => intro d; rfl
  | cons p l ih =>
    intro d
    obtain ⟨c, dim⟩ := p
    simp only [List.map_cons, sizeTerm, renSizes_get?]
    cases d.get? c with
    | none => simp only [renSizes_set, ih]
    | some old =>
      simp only [renSizes_set, ih]
      split
      · rfl
      · split <;> rfl

theorem sizeLoop_ren (inputs : List Str) : ∀ (shapes : List Shape) (d : Dict Nat Nat),
    sizeLoop (renSizes σ d) (inputs.map (List.map σ)) shapes = (sizeLoop d inputs shapes).map (renSizes σ) := by
  induction inputs with
  | nil => intro shapes d; cases shapes <;> rfl
  | cons t inputs ih =>
    intro shapes d
    cases shapes with
    | nil => rfl
    | cons sh shapes =>
      simp only [List.map_cons, sizeLoop, List.length_map]
      split
      · rfl
      · have hz : (t.map σ).zip sh = (t.zip sh).map (fun p => (σ p.1, p.2)) := by
          rw [List.zip_map_left]; rfl
        rw [hz, sizeTerm_ren]
        cases sizeTerm d (t.zip sh) with
        | error e => rfl
        | ok d => exact ih shapes d

theorem find_map (s : Str) (c : Nat) : find? (s.map σ) (σ c) = find? s c := by
  unfold find?
  induction s with
  | nil => rfl
  | cons a s ih =>
    rw [List.map_cons, List.idxOf?_cons, List.idxOf?_cons, ih]
    simp

theorem findOutputDim_ren (inputs : List Str) (shapes : List Shape) (c : Nat) :
    findOutputDim (inputs.map (List.map σ)) shapes (σ c) = findOutputDim inputs shapes c := by
  unfold findOutputDim
  rw [List.zip_map_right, List.filterMap_map]
  have : ((fun p : Shape × Str => (find? p.2 (σ c)).map (fun loc => p.1[loc]?)) ∘ Prod.map id (List.map σ)) =
      fun p : Shape × Str => (find? p.2 c).map (fun loc => p.1[loc]?) := by
    funext p
    simp only [Function.comp, Prod.map, find_map, id]
  rw [this]

theorem findOutputShape_ren (inputs : List Str) (shapes : List Shape) (output : Str) :
    findOutputShape (inputs.map (List.map σ)) shapes (output.map σ) = findOutputShape inputs shapes output := by
  unfold findOutputShape
  have := mapM_ren σ id (F := findOutputDim inputs shapes) (F' := findOutputDim (inputs.map (List.map σ)) shapes) output
    (fun c _ => by rw [findOutputDim_ren]; cases findOutputDim inputs shapes c <;> rfl)
  rw [this, List.map_id_fun]
  cases output.mapM (findOutputDim inputs shapes) <;> rfl

theorem mem_map_perm {l : List Nat} {c : Nat} : σ c ∈ l.map σ ↔ c ∈ l := by
  rw [List.mem_map]
  constructor
  · rintro ⟨a, ha, h⟩; rwa [← σ.injective h]
  · intro h; exact ⟨c, h, rfl⟩

theorem labelBad_ren (l r : Str) (res : List Nat) (c : Nat) : labelBad (l.map σ) (r.map σ) (res.map σ) (σ c) = labelBad l r res c := by
  unfold labelBad
  simp only [List.count_map_of_injective _ _ σ.injective, mem_map_perm]

theorem dimAt_ren (s : Str) (sh : Shape) (c : Nat) : dimAt (s.map σ) sh (σ c) = dimAt s sh c := by
  unfold dimAt; rw [find_map]

theorem bcastBad_ren (l r : Str) (removed : Finset Nat) (shapes : Option (List Shape)) :
    bcastBad (l.map σ) (r.map σ) (ren σ removed) shapes = bcastBad l r removed shapes := by
  unfold bcastBad
  split
  · rw [decide_eq_decide]
    constructor
    · rintro ⟨c, hc, h⟩
      obtain ⟨x, rfl⟩ : ∃ x, c = σ x := ⟨σ.symm c, by simp⟩
      rw [dimAt_ren, dimAt_ren] at h
      exact ⟨x, mem_ren.mp hc, h⟩
    · rintro ⟨x, hx, h⟩
      exact ⟨σ x, mem_ren.mpr hx, by rwa [dimAt_ren, dimAt_ren]⟩
  · rfl

theorem map_inj {a b : Str} : a.map σ = b.map σ ↔ a = b := (List.map_injective_iff.mpr σ.injective).eq_iff

theorem suffix_map (s : Str) (n : Nat) : suffix (s.map σ) n = (suffix s n).map σ := by
  simp [suffix, lastN, List.map_drop]

theorem canBlas_ren (inputs : List Str) (res : List Nat) (removed : Finset Nat) (shapes : Option (List Shape)) :
    canBlas (inputs.map (List.map σ)) (res.map σ) (ren σ removed) shapes = canBlas inputs res removed shapes := by
  match inputs with
  | [] => rfl
  | [_] => rfl
  | _ :: _ :: _ :: _ => rfl
  | [l, r] =>
    simp only [List.map_cons, List.map_nil, canBlas]
    have hany : (l.map σ ++ r.map σ).any (labelBad (l.map σ) (r.map σ) (res.map σ)) = (l ++ r).any (labelBad l r res) := by
      rw [← List.map_append, List.any_map]
      congr 1
      funext c
      exact labelBad_ren l r res c
    simp only [hany, bcastBad_ren, ren_card, toFinset_map, suffix_map, ← List.map_take, map_inj, ren_inj, ← ren_sdiff, ren_eq_empty]

/-! ## The path loop -/

def renState (σ : Nat ≃ Nat) (st : PathState) : PathState :=
  { st with inputs := st.inputs.map (List.map σ), sets := st.sets.map (ren σ) }

def renOut (σ : Nat ≃ Nat) (o : StepOut) : StepOut := { o with step := renameStep σ o.step }

/-- A renaming that keeps the punctuation. -/
structure Fixes (σ : Nat ≃ Nat) : Prop where
  comma : σ cComma = cComma
  dash : σ cDash = cDash
  gt : σ cGt = cGt

theorem join_map (hσ : Fixes σ) (ts : List Str) : (join [cComma] ts).map σ = join [cComma] (ts.map (List.map σ)) := by
  induction ts with
  | nil => rfl
  | cons t ts ih =>
    match ts with
    | [] => rfl
    | t2 :: ts =>
      simp only [List.map_cons, join] at ih ⊢
      rw [List.map_append, List.map_append, ih]
      simp [hσ.comma]

theorem einsumStr_map (hσ : Fixes σ) (ts : List Str) (r : Str) :
    (einsumStrOf ts r).map σ = einsumStrOf (ts.map (List.map σ)) (r.map σ) := by
  unfold einsumStrOf
  rw [List.map_append, List.map_append, join_map hσ]
  simp [hσ.dash, hσ.gt]

theorem pathStep_ren (hσ : Fixes σ) (useBlas : Bool) (output : Str) (d : Dict Nat Nat) (st : PathState) (positions : List Nat) (isLast : Bool) :
    pathStep useBlas (output.map σ) (renSizes σ d) (renState σ st) positions isLast =
      (pathStep useBlas output d st positions isLast).map (fun p => (renState σ p.1, renOut σ p.2)) := by
  unfold pathStep
  have e1 : (renState σ st).sets = st.sets.map (ren σ) := rfl
  have e2 : (renState σ st).inputs = st.inputs.map (List.map σ) := rfl
  have e3 : (renState σ st).shapes = st.shapes := rfl
  simp only [e1, e2, e3, toFinset_map, findContraction_ren]
  cases findContraction (sortedDesc positions) st.sets output.toFinset with
  | error e => rfl
  | ok c =>
    simp only [Except.map, bind, Except.bind, popAll_map]
    cases popAll (sortedDesc positions) st.inputs with
    | error e => rfl
    | ok p =>
      obtain ⟨tmp, rest⟩ := p
      simp only
      cases popAll (sortedDesc positions) st.shapes with
      | error e => rfl
      | ok q =>
        obtain ⟨tsh, rsh⟩ := q
        have hflat : (tmp.map (List.map σ)).flatten = tmp.flatten.map σ := by
          rw [List.map_flatten]
        have hc1 : (renContraction σ c).idxContract = ren σ c.idxContract := rfl
        have hc2 : (renContraction σ c).idxRemoved = ren σ c.idxRemoved := rfl
        have hc3 : (renContraction σ c).newResult = ren σ c.newResult := rfl
        have hc4 : (renContraction σ c).remaining = c.remaining.map (ren σ) := rfl
        simp only [hflat, hc1, hc2, hc3, hc4, enum_ren, flopCount_ren, computeSize_ren, canBlas_ren, tensordotOrder_ren, ne_eq, ren_eq_empty]
        cases flopCount (enum tmp.flatten c.idxContract) (decide (¬ c.idxRemoved = ∅)) (sortedDesc positions).length d with
        | error e => rfl
        | ok cost =>
          simp only
          cases computeSizeByDict (enum tmp.flatten c.newResult) d with
          | error e => rfl
          | ok size =>
            have hres : (if isLast = true then output.map σ else (tensordotOrder tmp.flatten c.newResult).map σ) =
                (if isLast = true then output else tensordotOrder tmp.flatten c.newResult).map σ := by
              split <;> rfl
            simp only [hres]
            generalize (if isLast = true then output else tensordotOrder tmp.flatten c.newResult) = res
            rw [findOutputShape_ren]
            cases findOutputShape tmp tsh res with
            | error e => rfl
            | ok shp =>
              simp only [renState, renOut, renameStep, List.map_append, List.map_cons, List.map_nil,
                einsumStr_map hσ, ren_eq_image, List.length_append, List.length_map,
                List.length_cons, List.length_nil]
              congr 3
              · congr 1
                split <;> simp
              · exact Finset.card_image_of_injective _ σ.injective

theorem pathLoop_ren (hσ : Fixes σ) (useBlas : Bool) (output : Str) (d : Dict Nat Nat) (path : List (List Nat)) : ∀ st : PathState,
    pathLoop useBlas (output.map σ) (renSizes σ d) (renState σ st) path =
      (pathLoop useBlas output d st path).map (fun p => (renState σ p.1, p.2.map (renOut σ))) := by
  induction path with
  | nil => intro st; rfl
  | cons p ps ih =>
    intro st
    simp only [pathLoop, pathStep_ren hσ useBlas output d st p ps.isEmpty, bind, Except.bind]
    cases pathStep useBlas output d st p ps.isEmpty with
    | error e => rfl
    | ok r =>
      obtain ⟨st', o⟩ := r
      simp only [Except.map, ih st']
      cases pathLoop useBlas output d st' ps <;> rfl

/-- `contract_path` under a renaming, when the choice of the path does not notice it. -/
theorem contractPath_ren (hσ : Fixes σ) (inputs : List Str) (output : Str) (shapes : List Shape) (opt opt' : Optimize) (mem : MemLimit) (useBlas : Bool)
    (hopt : ∀ d m, sizeLoop [] inputs shapes = .ok d →
      choosePath opt' inputs.length ((inputs.map List.toFinset).map (ren σ)) (ren σ output.toFinset) (renSizes σ d) m =
        choosePath opt inputs.length (inputs.map List.toFinset) output.toFinset d m) :
    contractPath (inputs.map (List.map σ)) (output.map σ) shapes opt' mem useBlas =
      (contractPath inputs output shapes opt mem useBlas).map (renameInfo σ) := by
  unfold contractPath
  have hsets : (inputs.map (List.map σ)).map List.toFinset = (inputs.map List.toFinset).map (ren σ) := by
    rw [List.map_map, List.map_map]
    apply List.map_congr_left
    intro t _
    exact toFinset_map t
  have hflat : (inputs.map (List.map σ)).flatten = inputs.flatten.map σ := by rw [List.map_flatten]
  have hnil : ([] : Dict Nat Nat) = renSizes σ [] := rfl
  have hsl := sizeLoop_ren (σ := σ) inputs shapes []
  rw [← hnil] at hsl
  simp only [hsets, hflat, toFinset_map, hsl, bind, Except.bind, List.length_map]
  cases hd : sizeLoop [] inputs shapes with
  | error e => rfl
  | ok d =>
    simp only [Except.map]
    have hm : (inputs.map (List.map σ) ++ [output.map σ]).mapM (fun t => computeSizeByDict t (renSizes σ d)) =
        (inputs ++ [output]).mapM (fun t => computeSizeByDict t d) := by
      have := mapM_ren (List.map σ) id (F := fun t => computeSizeByDict t d) (F' := fun t => computeSizeByDict t (renSizes σ d)) (inputs ++ [output])
        (fun t _ => by rw [computeSize_ren]; cases computeSizeByDict t d <;> rfl)
      rw [List.map_append, List.map_cons, List.map_nil] at this
      rw [this, List.map_id_fun]
      cases (inputs ++ [output]).mapM (fun t => computeSizeByDict t d) <;> rfl
    rw [hm]
    cases (inputs ++ [output]).mapM (fun t => computeSizeByDict t d) with
    | error e => rfl
    | ok sizes =>
      simp only
      cases chooseMemoryArg mem sizes with
      | error e => rfl
      | ok m =>
        have hcard : ((inputs.map List.toFinset).map (ren σ)).map Finset.card = (inputs.map List.toFinset).map Finset.card := by
          rw [List.map_map]
          apply List.map_congr_left
          intro s _
          exact ren_card s
        simp only [hcard, ren_card, enum_ren, flopCount_ren, hopt d m hd]
        cases flopCount (enum inputs.flatten inputs.flatten.toFinset)
            (decide (0 < ((inputs.map List.toFinset).map Finset.card).sum - inputs.flatten.toFinset.card)) inputs.length d with
        | error e => rfl
        | ok naive =>
          simp only
          cases choosePath opt inputs.length (inputs.map List.toFinset) output.toFinset d m with
          | error e => rfl
          | ok path =>
            simp only
            have hst : ({ inputs := inputs.map (List.map σ), sets := (inputs.map List.toFinset).map (ren σ), shapes } : PathState) =
              renState σ { inputs, sets := inputs.map List.toFinset, shapes } := rfl
            rw [hst, pathLoop_ren hσ useBlas output d path]
            cases pathLoop useBlas output d { inputs, sets := inputs.map List.toFinset, shapes } path with
            | error e => rfl
            | ok r =>
              obtain ⟨st, outs⟩ := r
              simp only [Except.map, renameInfo, List.map_map, Function.comp_def, renOut, ren_eq_image]
              rfl

/-! ## Parsing -/

theorem splitOn_map (hc : σ cComma = cComma) (s : Str) : splitOn cComma (s.map σ) = (splitOn cComma s).map (List.map σ) := by
  induction s with
  | nil => rfl
  | cons x s ih =>
    have hx : σ x = cComma ↔ x = cComma := by
      constructor
      · intro h; exact σ.injective (h.trans hc.symm)
      · rintro rfl; exact hc
    simp only [List.map_cons, splitOn, hx, ih]
    split
    · rfl
    · cases splitOn cComma s <;> rfl

theorem mem_map_fixed {c : Nat} (hc : σ c = c) (s : Str) : c ∈ s.map σ ↔ c ∈ s := by
  conv_lhs => rw [← hc]
  exact mem_map_perm

theorem checkOutput_ren (inp out : Str) : checkOutput (inp.map σ) (out.map σ) = checkOutput inp out := by
  unfold checkOutput
  rw [List.all_map]
  have : ((fun c => decide ((out.map σ).count c = 1) && decide (c ∈ inp.map σ)) ∘ σ) =
      fun c => decide (out.count c = 1) && decide (c ∈ inp) := by
    funext c
    simp only [Function.comp, List.count_map_of_injective _ _ σ.injective, mem_map_perm]
  rw [this]

theorem arrow_map (hσ : Fixes σ) (a b : Str) : (a ++ [cDash, cGt] ++ b).map σ = a.map σ ++ [cDash, cGt] ++ b.map σ := by
  simp [hσ.dash, hσ.gt]

theorem badArrow_map (hσ : Fixes σ) (s : Str) : badArrow (s.map σ) = badArrow s := by
  have h : badArrow (s.map σ) = false ↔ badArrow s = false := by
    rw [badArrow_false_iff, badArrow_false_iff, mem_map_fixed hσ.dash, mem_map_fixed hσ.gt]
    apply or_congr Iff.rfl
    constructor
    · rintro ⟨a, b, h, h1, h2, h3, h4⟩
      have he : s = a.map σ.symm ++ [cDash, cGt] ++ b.map σ.symm := by
        have := congrArg (List.map σ.symm) h
        rw [List.map_map] at this
        simp only [Equiv.symm_comp_self, List.map_id] at this
        rw [this]
        have hd : σ.symm cDash = cDash := by rw [Equiv.symm_apply_eq]; exact hσ.dash.symm
        have hg : σ.symm cGt = cGt := by rw [Equiv.symm_apply_eq]; exact hσ.gt.symm
        simp [hd, hg]
      have hback : ∀ (c : Nat) (x : Str), σ c = c → (c ∈ x.map σ.symm ↔ c ∈ x) := by
        intro c x hc
        exact mem_map_fixed (σ := σ.symm) (by rw [Equiv.symm_apply_eq]; exact hc.symm) x
      exact ⟨a.map σ.symm, b.map σ.symm, he, by rwa [hback _ _ hσ.dash], by rwa [hback _ _ hσ.gt], by rwa [hback _ _ hσ.dash],
        by rwa [hback _ _ hσ.gt]⟩
    · rintro ⟨a, b, h, h1, h2, h3, h4⟩
      refine ⟨a.map σ, b.map σ, by rw [h, arrow_map hσ], ?_, ?_, ?_, ?_⟩
      · rwa [mem_map_fixed hσ.dash]
      · rwa [mem_map_fixed hσ.gt]
      · rwa [mem_map_fixed hσ.dash]
      · rwa [mem_map_fixed hσ.gt]
  cases h1 : badArrow (s.map σ) <;> cases h2 : badArrow s <;> simp_all

/-- Parsing an equation with an explicit output, without ellipses and spaces. -/
theorem parseEinsum_ren (hσ : Fixes σ) {s : Str} (hdot : cDot ∉ s) (hdot' : cDot ∉ s.map σ) (hsp : cSpace ∉ s) (hsp' : cSpace ∉ s.map σ)
    (hgt : cGt ∈ s) (shapes : List Shape) :
    parseEinsum (s.map σ) shapes = (parseEinsum s shapes).map (fun p => (p.1.map σ, p.2.map σ)) := by
  have hrm : ∀ x : Str, cSpace ∉ x → removeChar cSpace x = x := by
    intro x hx
    unfold removeChar
    rw [List.filter_eq_self]
    intro c hc
    simp only [ne_eq, decide_not, Bool.not_eq_eq_eq_not, Bool.not_true, decide_eq_false_iff_not]
    rintro rfl
    exact hx hc
  unfold parseEinsum
  rw [hrm s hsp, hrm _ hsp']
  simp only [badArrow_map hσ, if_neg hdot, if_neg hdot', bind, Except.bind]
  cases hb : badArrow s with
  | true => rfl
  | false =>
    simp only [Bool.false_eq_true, if_false]
    rw [badArrow_false_iff] at hb
    rcases hb with ⟨_, h⟩ | ⟨a, b, h, h1, h2, h3, h4⟩
    · exact absurd hgt h
    · subst h
      unfold finishParse
      rw [arrow_map hσ, splitArrow_two _ _ h1 h4,
        splitArrow_two _ _ (by rwa [mem_map_fixed hσ.dash]) (by rwa [mem_map_fixed hσ.gt])]
      simp only [checkOutput_ren, splitOn_map hσ.comma, List.length_map, bind, Except.bind]
      cases checkOutput a b with
      | error e => rfl
      | ok _ =>
        simp only
        split <;> rfl

theorem reported_ren (d : Dict Nat Nat) (ts : List Str) :
    (ts.map (List.map σ)).mapM (fun ks => ks.mapM (sizeAt (renSizes σ d))) = ts.mapM (fun ks => ks.mapM (sizeAt d)) := by
  have h1 : ∀ ks : Str, (ks.map σ).mapM (sizeAt (renSizes σ d)) = ks.mapM (sizeAt d) := by
    intro ks
    have := mapM_ren σ id (F := sizeAt d) (F' := sizeAt (renSizes σ d)) ks (fun c _ => by
      unfold sizeAt
      rw [renSizes_get?]
      cases d.get? c <;> rfl)
    rw [this, List.map_id_fun]
    cases ks.mapM (sizeAt d) <;> rfl
  have := mapM_ren (List.map σ) id (F := fun ks => ks.mapM (sizeAt d)) (F' := fun ks => ks.mapM (sizeAt (renSizes σ d))) ts (fun t _ => by
    rw [h1]; cases t.mapM (sizeAt d) <;> rfl)
  rw [this, List.map_id_fun]
  cases ts.mapM (fun ks => ks.mapM (sizeAt d)) <;> rfl

/-- The whole report. -/
theorem contractPathStr_ren (hσ : Fixes σ) {s : Str} (hdot : cDot ∉ s) (hdot' : cDot ∉ s.map σ) (hsp : cSpace ∉ s) (hsp' : cSpace ∉ s.map σ)
    (hgt : cGt ∈ s) (shapes : List Shape) (opt opt' : Optimize) (mem : MemLimit) (useBlas : Bool)
    (hopt : ∀ (n : Nat) (sets : List (Finset Nat)) (out : Finset Nat) (d : Dict Nat Nat) (m : Option Nat),
      choosePath opt' n (sets.map (ren σ)) (ren σ out) (renSizes σ d) m = choosePath opt n sets out d m) :
    contractPathStr (s.map σ) shapes opt' mem useBlas = (contractPathStr s shapes opt mem useBlas).map (renameReport σ) := by
  unfold contractPathStr
  rw [parseEinsum_ren hσ hdot hdot' hsp hsp' hgt]
  cases parseEinsum s shapes with
  | error e => rfl
  | ok p =>
    obtain ⟨inp, out⟩ := p
    simp only [Except.map, bind, Except.bind, splitOn_map hσ.comma]
    rw [contractPath_ren hσ (splitOn cComma inp) out shapes opt opt' mem useBlas (fun d m _ => hopt _ _ _ d m)]
    cases contractPath (splitOn cComma inp) out shapes opt mem useBlas with
    | error e => rfl
    | ok info =>
      simp only [Except.map]
      have hd : (renameInfo σ info).sizeDict = renSizes σ info.sizeDict := rfl
      rw [hd, reported_ren]
      cases (splitOn cComma inp).mapM (fun ks => ks.mapM (sizeAt info.sizeDict)) with
      | error e => rfl
      | ok sh => simp only [renameReport, arrow_map hσ]

end OE.Rename
