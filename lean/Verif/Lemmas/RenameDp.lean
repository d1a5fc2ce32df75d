import Verif.Lemmas.RenameGreedy
import Verif.Model.Auto

/-!
# Renaming labels: `DynamicProgramming`, `auto`, `random_greedy`
-/

namespace OE.Rename
open OE OE.Py OE.Paths

variable {σ : Nat ≃ Nat} {size size' : Nat → Nat}

theorem foldr_union_ren (l : List (Finset Nat)) : (l.map (ren σ)).foldr (· ∪ ·) ∅ = ren σ (l.foldr (· ∪ ·) ∅) := by
  induction l with
  | nil => simp
  | cons a l ih => rw [List.map_cons, List.foldr_cons, List.foldr_cons, ih, ren_union]

theorem bitmapSelect_ren (s : Nat) (l : List (Finset Nat)) : bitmapSelect s (l.map (ren σ)) = (bitmapSelect s l).map (ren σ) := by
  unfold bitmapSelect
  rw [List.zipIdx_map, List.filter_map, List.map_map, List.map_map]
  rfl

theorem dpCalcLegs_ren (g a s : Nat) (inputs : List (Finset Nat)) (cut union : Finset Nat) :
    dpCalcLegs g a s (inputs.map (ren σ)) (ren σ cut) (ren σ union) = ren σ (dpCalcLegs g a s inputs cut union) := by
  unfold dpCalcLegs
  simp only [bitmapSelect_ren, foldr_union_ren]
  split
  · rw [ren_sdiff, ren_sdiff]
  · rw [ren_sdiff, ren_sdiff, ren_empty]

def renE (σ : Nat ≃ Nat) (e : DPEntry) : DPEntry := { e with legs := ren σ e.legs }

def renT (σ : Nat ≃ Nat) (x : DPTable) : DPTable := mapDict id (renE σ) x

def renCtx (σ : Nat ≃ Nat) (size' : Nat → Nat) (ctx : DPCtx) : DPCtx :=
  { ctx with size := size', output := ren σ ctx.output, inputs := ctx.inputs.map (ren σ) }

theorem renT_set (x : DPTable) (s : Nat) (e : DPEntry) : (renT σ x).set s (renE σ e) = renT σ (x.set s e) :=
  mapDict_set (f := id) Function.injective_id x s e

theorem improves_ren (x : DPTable) (s cost : Nat) : improves (renT σ x) s cost = improves x s cost := by
  unfold improves
  have : (renT σ x).get? s = (x.get? s).map (renE σ) := mapDict_get? (f := id) Function.injective_id x s
  rw [this]
  cases x.get? s <;> rfl

theorem renE_mk (l : Finset Nat) (c : Nat) (t : Tree) : (⟨ren σ l, c, t⟩ : DPEntry) = renE σ ⟨l, c, t⟩ := rfl

section
variable (ctx : DPCtx) (hs : SameSize σ ctx.size size') (cap : WithTop Nat) (s1 s2 : Nat) (e1 e2 : DPEntry) (cut union : Finset Nat) (xn : DPTable)
include hs

theorem dpCompareFlops_ren :
    dpCompareFlops (renCtx σ size' ctx) cap s1 s2 (renE σ e1) (renE σ e2) (ren σ cut) (ren σ union) (renT σ xn) =
      renT σ (dpCompareFlops ctx cap s1 s2 e1 e2 cut union xn) := by
  unfold dpCompareFlops
  simp only [renCtx, dpCalcLegs_ren, sizeOf_ren hs, improves_ren, renE_mk, renT_set]
  simp only [renE, apply_ite (renT σ)]
  congr

theorem dpCompareSize_ren :
    dpCompareSize (renCtx σ size' ctx) cap s1 s2 (renE σ e1) (renE σ e2) (ren σ cut) (ren σ union) (renT σ xn) =
      renT σ (dpCompareSize ctx cap s1 s2 e1 e2 cut union xn) := by
  unfold dpCompareSize
  simp only [renCtx, dpCalcLegs_ren, sizeOf_ren hs, improves_ren, renE_mk, renT_set]
  simp only [renE, apply_ite (renT σ)]
  congr

theorem dpCompareWrite_ren :
    dpCompareWrite (renCtx σ size' ctx) cap s1 s2 (renE σ e1) (renE σ e2) (ren σ cut) (ren σ union) (renT σ xn) =
      renT σ (dpCompareWrite ctx cap s1 s2 e1 e2 cut union xn) := by
  unfold dpCompareWrite
  simp only [renCtx, dpCalcLegs_ren, sizeOf_ren hs, improves_ren, renE_mk, renT_set]
  simp only [renE, apply_ite (renT σ)]
  congr

theorem dpCompareCombo_ren (factor : Nat) (combine : Nat → Nat → Nat) :
    dpCompareCombo factor combine (renCtx σ size' ctx) cap s1 s2 (renE σ e1) (renE σ e2) (ren σ cut) (ren σ union) (renT σ xn) =
      renT σ (dpCompareCombo factor combine ctx cap s1 s2 e1 e2 cut union xn) := by
  unfold dpCompareCombo
  simp only [renCtx, dpCalcLegs_ren, sizeOf_ren hs, improves_ren, renE_mk, renT_set]
  simp only [renE, apply_ite (renT σ)]
  congr

theorem dpCompareCustom_ren (fn : StepFn) :
    dpCompareCustom fn (renCtx σ size' ctx) cap s1 s2 (renE σ e1) (renE σ e2) (ren σ cut) (ren σ union) (renT σ xn) =
      renT σ (dpCompareCustom fn ctx cap s1 s2 e1 e2 cut union xn) := by
  unfold dpCompareCustom
  simp only [renCtx, dpCalcLegs_ren, sizeOf_ren hs, improves_ren, renE_mk, renT_set]
  simp only [renE, apply_ite (renT σ)]
  congr

theorem checkContraction_ren :
    checkContraction (renCtx σ size' ctx) cap s1 s2 (renE σ e1) (renE σ e2) (ren σ cut) (ren σ union) (renT σ xn) =
      renT σ (checkContraction ctx cap s1 s2 e1 e2 cut union xn) := by
  unfold checkContraction
  have hm : (renCtx σ size' ctx).metric = ctx.metric := rfl
  rw [hm]
  cases ctx.metric with
  | flops => exact dpCompareFlops_ren ctx hs ..
  | size => exact dpCompareSize_ren ctx hs ..
  | write => exact dpCompareWrite_ren ctx hs ..
  | combo f => exact dpCompareCombo_ren ctx hs ..
  | limit f => exact dpCompareCombo_ren ctx hs ..
  | custom fn => exact dpCompareCustom_ren ctx hs ..

end

theorem foldl_map_ren {α α' β β' : Type} (f : α → α') (g : β → β') {F : β → α → β} {F' : β' → α' → β'} (l : List α)
    (h : ∀ b, ∀ a ∈ l, F' (g b) (f a) = g (F b a)) : ∀ b, (l.map f).foldl F' (g b) = g (l.foldl F b) := by
  induction l with
  | nil => intro b; rfl
  | cons a l ih =>
    intro b
    rw [List.map_cons, List.foldl_cons, List.foldl_cons, h b a (by simp)]
    exact ih (fun b a ha => h b a (by simp [ha])) _

theorem renT_getD (x : List DPTable) (n : Nat) : (x.map (renT σ)).getD n [] = renT σ (x.getD n []) := by
  rw [List.getD_eq_getElem?_getD, List.getD_eq_getElem?_getD, List.getElem?_map]
  cases x[n]? <;> rfl

theorem renT_last (x : List DPTable) : (x.map (renT σ)).getLastD [] = renT σ (x.getLastD []) := by
  rw [List.getLastD_eq_getLast?, List.getLastD_eq_getLast?, List.getLast?_map]
  cases x.getLast? <;> rfl

theorem renT_nil {x : DPTable} : renT σ x = [] ↔ x = [] := by simp [renT, mapDict]

section
variable (ctx : DPCtx) (hs : SameSize σ ctx.size size')
include hs

theorem tryPair_ren (cap : WithTop Nat) (n m : Nat) (p1 p2 : Nat × DPEntry) (xn : DPTable) :
    tryPair (renCtx σ size' ctx) cap n m (p1.1, renE σ p1.2) (p2.1, renE σ p2.2) (renT σ xn) = renT σ (tryPair ctx cap n m p1 p2 xn) := by
  unfold tryPair
  have hcut : ((renE σ p1.2).legs ∩ (renE σ p2.2).legs) \ (renCtx σ size' ctx).output = ren σ ((p1.2.legs ∩ p2.2.legs) \ ctx.output) := by
    simp only [renE, renCtx, ren_sdiff, ren_inter]
  have hun : (renE σ p1.2).legs ∪ (renE σ p2.2).legs = ren σ (p1.2.legs ∪ p2.2.legs) := by
    simp only [renE, ren_union]
  have ho : (renCtx σ size' ctx).searchOuter = ctx.searchOuter := rfl
  simp only [hcut, hun, ho, ne_eq, ren_eq_empty, checkContraction_ren ctx hs]
  split
  · split <;> rfl
  · rfl

theorem fillTable_ren (cap : WithTop Nat) (x : List DPTable) (n : Nat) :
    fillTable (renCtx σ size' ctx) cap (x.map (renT σ)) n = renT σ (fillTable ctx cap x n) := by
  unfold fillTable
  simp only [renT_getD]
  have := foldl_map_ren id (renT σ)
    (F := fun xn m => (x.getD m []).foldl (fun xn p1 => (x.getD (n - m) []).foldl (fun xn p2 => tryPair ctx cap n m p1 p2 xn) xn) xn)
    (F' := fun xn m => (renT σ (x.getD m [])).foldl (fun xn p1 => (renT σ (x.getD (n - m) [])).foldl
      (fun xn p2 => tryPair (renCtx σ size' ctx) cap n m p1 p2 xn) xn) xn) (List.range' 1 (n / 2)) (by
      intro b m _
      exact foldl_map_ren (fun p : Nat × DPEntry => (id p.1, renE σ p.2)) (renT σ) _ (by
        intro b p1 _
        exact foldl_map_ren (fun p : Nat × DPEntry => (id p.1, renE σ p.2)) (renT σ) _ (by
          intro b p2 _
          exact tryPair_ren ctx hs cap n m p1 p2 b) b) b)
  rw [List.map_id] at this
  exact this _

theorem dpRound_ren (cap : WithTop Nat) (x : List DPTable) : dpRound (renCtx σ size' ctx) cap (x.map (renT σ)) = (dpRound ctx cap x).map (renT σ) := by
  unfold dpRound
  have hl : ((x.map (renT σ)).getD 1 []).length = (x.getD 1 []).length := by
    rw [renT_getD]; simp [renT, mapDict]
  rw [hl]
  have := foldl_map_ren id (List.map (renT σ)) (F := fun x n => x.set n (fillTable ctx cap x n))
    (F' := fun x n => x.set n (fillTable (renCtx σ size' ctx) cap x n)) (List.range' 2 ((x.getD 1 []).length - 1)) (by
      intro b n _
      simp only [id, fillTable_ren ctx hs, List.map_set])
  rw [List.map_id] at this
  exact this x

theorem dpWhile_ren (naive : WithTop Nat) (increment : Nat) : ∀ (fuel : Nat) (cap : WithTop Nat) (x : List DPTable),
    dpWhile (renCtx σ size' ctx) naive increment fuel cap (x.map (renT σ)) =
      (dpWhile ctx naive increment fuel cap x).map (Except.map (List.map (renT σ))) := by
  intro fuel
  induction fuel with
  | zero =>
    intro cap x
    rw [dpWhile, dpWhile]
    simp only [renT_last, ne_eq, renT_nil]
    split <;> rfl
  | succ fuel ih =>
    intro cap x
    rw [dpWhile, dpWhile]
    simp only [renT_last, ne_eq, renT_nil, dpRound_ren ctx hs]
    split
    · rfl
    · split
      · rfl
      · exact ih _ _

end

theorem dpStart_ren (inputs : List (Finset Nat)) (ts : List Tree) (g : List Nat) :
    dpStart (inputs.map (ren σ)) ts g = (dpStart inputs ts g).map (renT σ) := by
  unfold dpStart
  simp only [ren_getD, List.map_cons, List.map_replicate]
  congr 1
  congr 1
  simp only [renT, mapDict, List.map_map]
  rfl

theorem ren_image (hs : SameSize σ size size') (s : Finset Nat) : (ren σ s).image size' = s.image size := by
  unfold ren
  rw [Finset.map_eq_image, Finset.image_image]
  congr 1
  funext c
  exact hs c

theorem dpSubgraph_ren (hs : SameSize σ size size') (cfg : DPCfg) (output : Finset Nat) (limit : Option Nat) (inputs : List (Finset Nat))
    (ts : List Tree) (naive : WithTop Nat) (fuel : Nat) (g : List Nat) :
    dpSubgraph cfg size' (ren σ output) limit (inputs.map (ren σ)) ts naive fuel g =
      (dpSubgraph cfg size output limit inputs ts naive fuel g).map (Except.map (renE σ)) := by
  unfold dpSubgraph
  simp only [List.length_map, bitmapSelect_ren, foldr_union_ren, ← ren_inter, sizeOf_ren hs, ren_card, ren_image hs, dpStart_ren]
  generalize (bitmapSelect ((g.map (fun j => 1 <<< j)).foldl (· ||| ·) 0) inputs).foldr (· ∪ ·) ∅ = inds
  have hctx : (⟨size', ren σ output, limit, cfg.searchOuter, cfg.metric, inputs.map (ren σ), (g.map (fun j => 1 <<< j)).foldl (· ||| ·) 0,
      1 <<< inputs.length - 1⟩ : DPCtx) = renCtx σ size' ⟨size, output, limit, cfg.searchOuter, cfg.metric, inputs,
      (g.map (fun j => 1 <<< j)).foldl (· ||| ·) 0, 1 <<< inputs.length - 1⟩ := rfl
  rw [hctx]
  have hs' : SameSize σ (⟨size, output, limit, cfg.searchOuter, cfg.metric, inputs,
      (g.map (fun j => 1 <<< j)).foldl (· ||| ·) 0, 1 <<< inputs.length - 1⟩ : DPCtx).size size' := hs
  generalize (⟨size, output, limit, cfg.searchOuter, cfg.metric, inputs,
      (g.map (fun j => 1 <<< j)).foldl (· ||| ·) 0, 1 <<< inputs.length - 1⟩ : DPCtx) = ctx at hs'
  rw [dpWhile_ren ctx hs']
  cases dpWhile ctx naive _ fuel _ (dpStart inputs ts g) with
  | none => rfl
  | some r =>
    cases r with
    | error e => rfl
    | ok x =>
      simp only [Option.map_some, Except.map, renT_last]
      cases x.getLastD [] with
      | nil => rfl
      | cons p l => rfl

theorem dpSubgraphs_ren (hs : SameSize σ size size') {solve solve' : List Nat → Option (Except PyErr DPEntry)}
    (h : ∀ g, solve' g = (solve g).map (Except.map (renE σ))) (gs : List (List Nat)) : ∀ acc : List (Tree × Nat),
    dpSubgraphs solve' size' gs acc = dpSubgraphs solve size gs acc := by
  induction gs with
  | nil => intro acc; rfl
  | cons g gs ih =>
    intro acc
    rw [dpSubgraphs, dpSubgraphs, h g]
    cases solve g with
    | none => rfl
    | some r =>
      cases r with
      | error e => rfl
      | ok e =>
        simp only [Option.map_some, Except.map, ih]
        have : Paths.sizeOf size' (renE σ e).legs = Paths.sizeOf size e.legs := sizeOf_ren hs _
        rw [this]
        rfl

theorem indCount_ren (inputs : List (Finset Nat)) (output : Finset Nat) (c : Nat) :
    indCount (inputs.map (ren σ)) (ren σ output) (σ c) = indCount inputs output c := by
  unfold indCount
  simp only [List.map_map, Function.comp_def, mem_ren]

def renP (σ : Nat ≃ Nat) (p : Parsed) : Parsed := { p with inputs := p.inputs.map (ren σ) }

theorem parseSingles_ren {single single' : Nat → Bool} (h : ∀ c, single' (σ c) = single c) (l : List (Finset Nat)) : ∀ j,
    parseSingles single' j (l.map (ren σ)) = renP σ (parseSingles single j l) := by
  induction l with
  | nil => intro j; rfl
  | cons i l ih =>
    intro j
    simp only [List.map_cons, parseSingles, ih]
    have hf : (ren σ i).filter (fun c => single' c = false) = ren σ (i.filter (fun c => single c = false)) :=
      ren_filter i (fun c => single c = false) _ (fun c => by rw [h])
    rw [hf]
    simp only [ren_eq_empty, ren_card, ne_eq, ren_inj]
    split <;> rfl

theorem dpParse_ren (inputs : List (Finset Nat)) (output : Finset Nat) :
    dpParse (inputs.map (ren σ)) (ren σ output) = renP σ (dpParse inputs output) :=
  parseSingles_ren (fun c => by rw [indCount_ren]) inputs 0

theorem subgraphLoop_ren (order : PopOrder) (iSum : Finset Nat) (inputs : List (Finset Nat)) : ∀ (fuel : Nat) (g : Finset Nat) (q : List Nat)
    (unused : Finset Nat), subgraphLoop order (ren σ iSum) (inputs.map (ren σ)) fuel g q unused = subgraphLoop order iSum inputs fuel g q unused := by
  intro fuel
  induction fuel with
  | zero => intro g q unused; cases q <;> simp only [subgraphLoop]
  | succ fuel ih =>
    intro g q unused
    cases q with
    | nil => simp only [subgraphLoop]
    | cons j q => simp only [subgraphLoop, ren_getD, ← ren_inter, ren_card, ih]

theorem subgraphsLoop_ren (order : PopOrder) (iSum : Finset Nat) (inputs : List (Finset Nat)) : ∀ (fuel : Nat) (gs : List (Finset Nat))
    (unused : Finset Nat), subgraphsLoop order (ren σ iSum) (inputs.map (ren σ)) fuel gs unused = subgraphsLoop order iSum inputs fuel gs unused := by
  intro fuel
  induction fuel with
  | zero => intro gs unused; rw [subgraphsLoop, subgraphsLoop]
  | succ fuel ih =>
    intro gs unused
    rw [subgraphsLoop, subgraphsLoop]
    simp only [subgraphLoop_ren, List.length_map, ih]

theorem findDisconnectedSubgraphs_ren (order : PopOrder) (inputs : List (Finset Nat)) (output : Finset Nat) :
    findDisconnectedSubgraphs order (inputs.map (ren σ)) (ren σ output) = findDisconnectedSubgraphs order inputs output := by
  unfold findDisconnectedSubgraphs
  simp only [List.map_eq_nil_iff, foldr_union_ren, ← ren_sdiff, subgraphsLoop_ren, List.length_map]

theorem naiveCost_ren (hs : SameSize σ size size') (m : Metric) (inputs : List (Finset Nat)) (output : Finset Nat) :
    naiveCost m size' (inputs.map (ren σ)) (ren σ output) = naiveCost m size inputs output := by
  unfold naiveCost
  simp only [foldr_union_ren, ← ren_union, sizeOf_ren hs, List.length_map]

/-- `DynamicProgramming` under a renaming. -/
theorem dpCall_ren (hs : SameSize σ size size') (cfg : DPCfg) (order : PopOrder) (limit : Option Nat) (inputs : List (Finset Nat))
    (output : Finset Nat) (fuel : Nat) :
    dpCall cfg order size' limit (inputs.map (ren σ)) (ren σ output) fuel = dpCall cfg order size limit inputs output fuel := by
  unfold dpCall
  simp only [dpParse_ren, naiveCost_ren hs]
  generalize dpParse inputs output = p
  have e1 : (renP σ p).inputs = p.inputs.map (ren σ) := rfl
  have e2 : (renP σ p).contractions = p.contractions := rfl
  have e3 : (renP σ p).done = p.done := rfl
  have hg : dpGroups cfg order (p.inputs.map (ren σ)) (ren σ output) = dpGroups cfg order p.inputs output := by
    unfold dpGroups
    rw [List.length_map, findDisconnectedSubgraphs_ren]
  simp only [e1, e2, e3, List.map_eq_nil_iff, hg]
  split
  · rfl
  · cases dpGroups cfg order p.inputs output with
    | none => rfl
    | some r =>
      cases r with
      | error e => rfl
      | ok gs =>
        simp only
        rw [dpSubgraphs_ren hs (fun g => dpSubgraph_ren hs cfg output limit p.inputs p.contractions _ fuel g)]

theorem trialGreedy_ren (hs : SameSize σ size size') (fuel : Nat) {cost : Nat → CostFn} (hc : ∀ r, Nameless (cost r)) {chooser : Nat → Option Chooser}
    (hch : ∀ r, ∀ ch ∈ chooser r, NamelessChooser ch) (order : GOrder) (inputs : List (Finset Nat)) (output : Finset Nat) (r : Nat) :
    trialGreedy fuel size' cost chooser (renOrder σ order) (inputs.map (ren σ)) (ren σ output) r =
      trialGreedy fuel size cost chooser order inputs output r := by
  unfold trialGreedy
  rw [ssaGreedy_ren hs (hc r) (by
    intro ch hm
    split at hm
    · cases hm
    · exact hch r ch hm)]
  cases ssaGreedy fuel size (cost r) (if r = 0 then none else chooser r) order inputs output with
  | none => rfl
  | some x =>
    cases x with
    | error e => rfl
    | ok p => simp only [ssaPathCost_ren hs]

theorem randomGreedy_ren (hs : SameSize σ size size') (maxRepeats nbranch : Nat) {cost : Nat → CostFn} (hc : ∀ r, Nameless (cost r))
    (pick : Nat → Path → List ℚ → Nat) (order : GOrder) (fuel : Nat) (inputs : List (Finset Nat)) (output : Finset Nat) :
    randomGreedy maxRepeats nbranch cost pick (renOrder σ order) fuel size' (inputs.map (ren σ)) (ren σ output) =
      randomGreedy maxRepeats nbranch cost pick order fuel size inputs output := by
  unfold randomGreedy
  have : trialGreedy fuel size' cost (randomGreedyChooser nbranch pick) (renOrder σ order) (inputs.map (ren σ)) (ren σ output) =
      trialGreedy fuel size cost (randomGreedyChooser nbranch pick) order inputs output := by
    funext r
    exact trialGreedy_ren hs fuel hc (fun r ch hm => by
      unfold randomGreedyChooser at hm
      split at hm
      · cases hm
      · cases hm; exact thermalChooser_nameless nbranch (pick r)) order inputs output r
  rw [this]

theorem greedy_ren (hs : SameSize σ size size') (mem : Option Nat) {cost : CostFn} (hc : Nameless cost) {chooser : Option Chooser}
    (hch : ∀ ch ∈ chooser, NamelessChooser ch) (order : GOrder) (setOrder : SetOrder) (fuel : Nat) (inputs : List (Finset Nat)) (output : Finset Nat) :
    greedy fuel size' mem cost chooser (renOrder σ order) setOrder (inputs.map (ren σ)) (ren σ output) =
      greedy fuel size mem cost chooser order setOrder inputs output := by
  unfold greedy
  cases mem with
  | some m => exact branch_ren hs hc fuel (some m) setOrder inputs output
  | none => simp only [ssaGreedy_ren hs hc hch]

/-- The orders of a process under a renaming: those of sets of positions stay. -/
def renOrders (σ : Nat ≃ Nat) (o : Orders) : Orders := { o with greedy := renOrder σ o.greedy }

theorem auto_ren (hs : SameSize σ size size') (orders : Orders) (fuel : Nat) (mem : Option Nat) (inputs : List (Finset Nat)) (output : Finset Nat) :
    auto (renOrders σ orders) fuel size' mem (inputs.map (ren σ)) (ren σ output) = auto orders fuel size mem inputs output := by
  unfold auto branchN
  simp only [List.length_map, renOrders, optimal_ren hs]
  rw [branch_ren hs costMemoryRemoved_nameless, branch_ren hs costMemoryRemoved_nameless, branch_ren hs costMemoryRemoved_nameless,
    greedy_ren hs mem costMemoryRemoved_nameless (fun _ h => by cases h)]

theorem autoHq_ren (hs : SameSize σ size size') {cost : Nat → CostFn} (hc : ∀ r, Nameless (cost r)) (pick : Nat → Path → List ℚ → Nat)
    (orders : Orders) (fuel : Nat) (mem : Option Nat) (inputs : List (Finset Nat)) (output : Finset Nat) :
    autoHq cost pick (renOrders σ orders) fuel size' mem (inputs.map (ren σ)) (ren σ output) = autoHq cost pick orders fuel size mem inputs output := by
  unfold autoHq
  simp only [List.length_map, renOrders, optimal_ren hs, dpCall_ren hs, randomGreedy_ren hs _ _ hc]

end OE.Rename
