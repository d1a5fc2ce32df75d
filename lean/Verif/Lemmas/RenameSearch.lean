import Verif.Model.Branch
import Verif.Model.Random
import Mathlib.Data.Finset.Image
import Mathlib.Algebra.BigOperators.Group.Finset.Basic

/-!
# Renaming labels: `optimal`, `branch` and the cost of a path

A renaming is a permutation `σ` of all labels; `ren σ` is its effect on sets of labels.
-/

namespace OE.Rename
open OE OE.Py OE.Paths

/-- The set of the new names. -/
def ren (σ : Nat ≃ Nat) (s : Finset Nat) : Finset Nat := s.map σ.toEmbedding

variable {σ : Nat ≃ Nat}

theorem ren_injective (σ : Nat ≃ Nat) : Function.Injective (ren σ) := Finset.map_injective _

@[simp] theorem ren_inj {s t : Finset Nat} : ren σ s = ren σ t ↔ s = t := (ren_injective σ).eq_iff

@[simp] theorem mem_ren {s : Finset Nat} {c : Nat} : σ c ∈ ren σ s ↔ c ∈ s := by
  simp [ren]

theorem mem_ren' {s : Finset Nat} {c : Nat} : c ∈ ren σ s ↔ σ.symm c ∈ s := by
  simp [ren]

@[simp] theorem ren_empty : ren σ ∅ = ∅ := Finset.map_empty _

@[simp] theorem ren_eq_empty {s : Finset Nat} : ren σ s = ∅ ↔ s = ∅ := Finset.map_eq_empty

theorem ren_union (s t : Finset Nat) : ren σ (s ∪ t) = ren σ s ∪ ren σ t := Finset.map_union _ _

theorem ren_inter (s t : Finset Nat) : ren σ (s ∩ t) = ren σ s ∩ ren σ t := Finset.map_inter _ _

theorem ren_sdiff (s t : Finset Nat) : ren σ (s \ t) = ren σ s \ ren σ t := by
  ext c; simp [mem_ren']

theorem ren_card (s : Finset Nat) : (ren σ s).card = s.card := Finset.card_map _

theorem ren_biUnion (s : Finset Nat) (f : Nat → Finset Nat) : ren σ (s.biUnion f) = s.biUnion (fun k => ren σ (f k)) := by
  ext c; simp [mem_ren']

theorem ren_disjoint {s t : Finset Nat} : Disjoint (ren σ s) (ren σ t) ↔ Disjoint s t := Finset.disjoint_map _

theorem ren_getD (l : List (Finset Nat)) (i : Nat) : (l.map (ren σ)).getD i ∅ = ren σ (l.getD i ∅) := by
  rw [List.getD_eq_getElem?_getD, List.getD_eq_getElem?_getD, List.getElem?_map]
  cases l[i]? <;> simp

/-- The new names have the sizes of the old ones. -/
def SameSize (σ : Nat ≃ Nat) (size size' : Nat → Nat) : Prop := ∀ c, size' (σ c) = size c

variable {size size' : Nat → Nat}

theorem sizeOf_ren (h : SameSize σ size size') (s : Finset Nat) : sizeOf size' (ren σ s) = sizeOf size s := by
  unfold Paths.sizeOf ren
  rw [Finset.prod_map]
  exact Finset.prod_congr rfl (fun c _ => h c)

theorem flopsOf_ren (h : SameSize σ size size') (s : Finset Nat) (inner : Bool) (n : Nat) :
    flopsOf size' (ren σ s) inner n = flopsOf size s inner n := by
  unfold flopsOf; rw [sizeOf_ren h]

/-- A result of `calc_k12_flops` under a renaming. -/
def renRes (σ : Nat ≃ Nat) (r : Finset Nat × Nat) : Finset Nat × Nat := (ren σ r.1, r.2)

theorem calcK12_ren (h : SameSize σ size size') (inputs : List (Finset Nat)) (output remaining : Finset Nat) (i j : Nat) :
    calcK12 size' (inputs.map (ren σ)) (ren σ output) remaining i j = renRes σ (calcK12 size inputs output remaining i j) := by
  unfold calcK12 renRes
  simp only [ren_getD]
  rw [← ren_biUnion, ← ren_union, ← ren_union, ← ren_inter, ← ren_inter, ← ren_sdiff, flopsOf_ren h]
  simp only [ne_eq, ren_eq_empty]

theorem oversizeFlops_ren (h : SameSize σ size size') (inputs : List (Finset Nat)) (remaining output : Finset Nat) :
    oversizeFlops size' (inputs.map (ren σ)) remaining (ren σ output) = oversizeFlops size inputs remaining output := by
  unfold oversizeFlops
  simp only [ren_getD]
  rw [← ren_biUnion, ← ren_sdiff, flopsOf_ren h]
  simp only [ne_eq, ren_eq_empty]

/-! ## Dictionaries with renamed keys -/

/-- A dictionary with its keys (injectively) renamed, and its values mapped. -/
def mapDict {κ κ' ν ν' : Type} (f : κ → κ') (g : ν → ν') (d : Dict κ ν) : Dict κ' ν' := d.map (fun p => (f p.1, g p.2))

section
variable {κ κ' ν ν' : Type} [DecidableEq κ] [DecidableEq κ'] {f : κ → κ'} {g : ν → ν'}

theorem mapDict_get? (hf : Function.Injective f) (d : Dict κ ν) (k : κ) : (mapDict f g d).get? (f k) = (d.get? k).map g := by
  induction d with
  | nil => rfl
  | cons p d ih =>
    obtain ⟨k', v⟩ := p
    change (if f k' = f k then some (g v) else (mapDict f g d).get? (f k)) = _
    simp only [hf.eq_iff, Dict.get?]
    split
    · rfl
    · exact ih

theorem mapDict_has (hf : Function.Injective f) (d : Dict κ ν) (k : κ) : (mapDict f g d).has (f k) = d.has k := by
  unfold Dict.has; rw [mapDict_get? hf, Option.isSome_map]

theorem mapDict_get! (hf : Function.Injective f) (d : Dict κ ν) (k : κ) : (mapDict f g d).get! (f k) = (d.get! k).map g := by
  unfold Dict.get!; rw [mapDict_get? hf]
  cases d.get? k <;> rfl

theorem mapDict_set (hf : Function.Injective f) (d : Dict κ ν) (k : κ) (v : ν) :
    (mapDict f g d).set (f k) (g v) = mapDict f g (d.set k v) := by
  induction d with
  | nil => rfl
  | cons p d ih =>
    obtain ⟨k', v'⟩ := p
    change (if f k' = f k then (f k, g v) :: mapDict f g d else (f k', g v') :: (mapDict f g d).set (f k) (g v)) = _
    simp only [hf.eq_iff, Dict.set]
    split
    · rfl
    · rw [ih]; rfl

theorem mapDict_del (hf : Function.Injective f) (d : Dict κ ν) (k : κ) : (mapDict f g d).del (f k) = mapDict f g (d.del k) := by
  unfold Dict.del mapDict
  rw [List.filter_map]
  congr 1
  apply List.filter_congr
  intro p _
  simp [hf.eq_iff]

end

/-! ## `optimal` -/

/-- `result_cache` under a renaming. -/
def renCache (σ : Nat ≃ Nat) (c : ResCache) : ResCache := mapDict (Prod.map (ren σ) (ren σ)) (renRes σ) c

theorem pair_injective (σ : Nat ≃ Nat) : Function.Injective (Prod.map (ren σ) (ren σ)) :=
  (ren_injective σ).prodMap (ren_injective σ)

theorem cached_ren (c : ResCache) (k1 k2 : Finset Nat) (v : Finset Nat × Nat) :
    cached (renCache σ c) (ren σ k1, ren σ k2) (renRes σ v) =
      (renRes σ (cached c (k1, k2) v).1, renCache σ (cached c (k1, k2) v).2) := by
  have hk : (ren σ k1, ren σ k2) = Prod.map (ren σ) (ren σ) (k1, k2) := rfl
  unfold cached
  rw [hk, renCache, mapDict_get? (pair_injective σ)]
  cases c.get? (k1, k2) with
  | some w => rfl
  | none => simp only [Option.map_none, mapDict_set (pair_injective σ)]; rfl

def renOpt (σ : Nat ≃ Nat) (st : OptSt) : OptSt := { st with cache := renCache σ st.cache }

def renNode (σ : Nat ≃ Nat) (nd : SearchNode) : SearchNode := { nd with inputs := nd.inputs.map (ren σ) }

theorem renNode_child (nd : SearchNode) (i j : Nat) (k12 : Finset Nat) (flops : Nat) :
    (renNode σ nd).child i j (ren σ k12) flops = renNode σ (nd.child i j k12 flops) := by
  simp [SearchNode.child, renNode]

theorem foldlM_ren {α β : Type} (r : α → α) {f f' : α → β → Option α} (l : List β)
    (h : ∀ a, ∀ b ∈ l, f' (r a) b = (f a b).map r) : ∀ a, l.foldlM f' (r a) = (l.foldlM f a).map r := by
  induction l with
  | nil => intro a; rfl
  | cons b l ih =>
    intro a
    rw [List.foldlM_cons, List.foldlM_cons, h a b (by simp)]
    cases hb : f a b with
    | none => rfl
    | some x =>
      exact ih (fun a b hb => h a b (by simp [hb])) x

theorem optBody_ren (h : SameSize σ size size') {output : Finset Nat} {mem : Option Nat} {order : SetOrder}
    {recur recur' : SearchNode → OptSt → Option OptSt} (hr : ∀ nd st, recur' (renNode σ nd) (renOpt σ st) = (recur nd st).map (renOpt σ))
    (nd : SearchNode) (st : OptSt) (ij : Nat × Nat) :
    optBody size' (ren σ output) mem order recur' (renNode σ nd) (renOpt σ st) ij =
      (optBody size output mem order recur nd st ij).map (renOpt σ) := by
  unfold optBody
  simp only [renOpt, renNode, ren_getD, calcK12_ren h, cached_ren, oversizeFlops_ren h]
  generalize cached st.cache _ _ = r
  simp only [renRes, sizeOf_ren h]
  have hch : ∀ (a : WithTop Nat) (b : Path) (c : ResCache),
      recur' ((renNode σ nd).child (orient ij).1 (orient ij).2 (ren σ r.1.1) (nd.flops + r.1.2)) ⟨a, b, renCache σ c⟩ =
      (recur (nd.child (orient ij).1 (orient ij).2 r.1.1 (nd.flops + r.1.2)) ⟨a, b, c⟩).map (renOpt σ) := by
    intro a b c
    rw [renNode_child]
    exact hr _ ⟨a, b, c⟩
  split
  · cases mem with
    | none => exact hch _ _ _
    | some m =>
      simp only
      split
      · split <;> rfl
      · exact hch _ _ _
  · rfl

theorem optIter_ren (h : SameSize σ size size') {output : Finset Nat} {mem : Option Nat} {order : SetOrder} :
    ∀ (fuel : Nat) (nd : SearchNode) (st : OptSt),
    optIter size' (ren σ output) mem order fuel (renNode σ nd) (renOpt σ st) = (optIter size output mem order fuel nd st).map (renOpt σ) := by
  intro fuel
  induction fuel with
  | zero =>
    intro nd st
    rw [optIter, optIter]
    change (if nd.remaining.card = 1 then _ else _) = _
    split <;> rfl
  | succ fuel ih =>
    intro nd st
    rw [optIter, optIter]
    change (if nd.remaining.card = 1 then _ else _) = _
    split
    · rfl
    · exact foldlM_ren (renOpt σ) _ (fun a b _ => optBody_ren h (fun nd st => ih nd st) nd a b) st

theorem optimalSsa_ren (h : SameSize σ size size') (fuel : Nat) (mem : Option Nat) (order : SetOrder) (inputs : List (Finset Nat))
    (output : Finset Nat) :
    optimalSsa fuel size' mem order (inputs.map (ren σ)) (ren σ output) = (optimalSsa fuel size mem order inputs output).map (renOpt σ) := by
  have h1 := optIter_ren h (output := output) (mem := mem) (order := order) fuel (rootNode inputs)
    { bestFlops := ⊤, bestPath := [List.range inputs.length], cache := [] }
  unfold optimalSsa
  rw [← h1]
  simp [rootNode, renNode, renOpt, renCache, mapDict]

theorem optimal_ren (h : SameSize σ size size') (fuel : Nat) (mem : Option Nat) (order : SetOrder) (inputs : List (Finset Nat))
    (output : Finset Nat) :
    optimal fuel size' mem order (inputs.map (ren σ)) (ren σ output) = optimal fuel size mem order inputs output := by
  unfold optimal
  rw [optimalSsa_ren h, Option.map_map]
  rfl

/-! ## `branch` -/

/-- A cost function that does not look at names. -/
def Nameless (cost : CostFn) : Prop :=
  ∀ (σ : Nat ≃ Nat) p a b c k12 k1 k2, cost p a b c (ren σ k12) (ren σ k1) (ren σ k2) = cost p a b c k12 k1 k2

theorem costMemoryRemoved_nameless : Nameless costMemoryRemoved := fun _ _ _ _ _ _ _ _ => rfl

def renCand (σ : Nat ≃ Nat) (c : Cand) : Cand := { c with k12 := ren σ c.k12 }

def renBB (σ : Nat ≃ Nat) (st : BBSt) : BBSt := { st with cache := renCache σ st.cache }

theorem assessFit_ren (h : SameSize σ size size') (output : Finset Nat) (mem : Option Nat) (order : SetOrder) (nd : SearchNode)
    (st : BBSt) (c : Cand) :
    assessFit size' (ren σ output) mem order (renNode σ nd) (renBB σ st) (renCand σ c) =
      ((assessFit size output mem order nd st c).1.map (renCand σ), renBB σ (assessFit size output mem order nd st c).2) := by
  unfold assessFit
  simp only [renNode, renBB, renCand, oversizeFlops_ren h, sizeOf_ren h]
  split
  · split <;> rfl
  · rfl

theorem assess_ren (h : SameSize σ size size') {cfg : BBCfg} (hc : Nameless cfg.cost) (output : Finset Nat) (mem : Option Nat)
    (order : SetOrder) (nd : SearchNode) (sz : Nat) (st : BBSt) (ij : Nat × Nat) :
    assess cfg size' (ren σ output) mem order (renNode σ nd) sz (renBB σ st) ij =
      ((assess cfg size output mem order nd sz st ij).1.map (renCand σ), renBB σ (assess cfg size output mem order nd sz st ij).2) := by
  unfold assess
  have e1 : (renNode σ nd).inputs = nd.inputs.map (ren σ) := rfl
  have e2 : (renBB σ st).cache = renCache σ st.cache := rfl
  have e3 : (renNode σ nd).remaining = nd.remaining := rfl
  simp only [e1, e2, e3, ren_getD, calcK12_ren h, cached_ren]
  generalize cached st.cache _ _ = r
  have hc' : ∀ p a b c k12 k1 k2, cfg.cost p a b c (ren σ k12) (ren σ k1) (ren σ k2) = cfg.cost p a b c k12 k1 k2 := hc σ
  simp only [renRes, sizeOf_ren h, hc', List.length_map]
  have e4 : (renNode σ nd).flops = nd.flops := rfl
  have e5 : (renNode σ nd).path = nd.path := rfl
  simp only [e4, e5]
  change (if better cfg.bySize _ _ st.flops st.size = true then _ else _) = _
  split
  · have hp : (renBB σ st).progress = st.progress := rfl
    simp only [hp]
    cases progressStep cfg.cutoff st.progress nd.inputs.length (nd.flops + r.1.2) with
    | none => rfl
    | some p =>
      exact assessFit_ren h output mem order nd { st with progress := p, cache := r.2 }
        { cost := cfg.cost (nd.path ++ [[ij.1, ij.2]]) (Paths.sizeOf size r.1.1) (Paths.sizeOf size (nd.inputs.getD ij.1 ∅))
            (Paths.sizeOf size (nd.inputs.getD ij.2 ∅)) r.1.1 (nd.inputs.getD ij.1 ∅) (nd.inputs.getD ij.2 ∅)
          flops12 := r.1.2, newFlops := nd.flops + r.1.2, newSize := max sz (Paths.sizeOf size r.1.1), i := ij.1, j := ij.2, k12 := r.1.1 }
  · rfl

theorem assessStep_ren (h : SameSize σ size size') {cfg : BBCfg} (hc : Nameless cfg.cost) (output : Finset Nat) (mem : Option Nat)
    (order : SetOrder) (nd : SearchNode) (sz : Nat) (acc : List Cand × BBSt) (ij : Nat × Nat) :
    assessStep cfg size' (ren σ output) mem order (renNode σ nd) sz (acc.1.map (renCand σ), renBB σ acc.2) ij =
      ((assessStep cfg size output mem order nd sz acc ij).1.map (renCand σ), renBB σ (assessStep cfg size output mem order nd sz acc ij).2) := by
  unfold assessStep
  simp only [assess_ren h hc]
  cases (assess cfg size output mem order nd sz acc.2 ij).1 <;> simp

theorem foldl_assess_ren (h : SameSize σ size size') {cfg : BBCfg} (hc : Nameless cfg.cost) (output : Finset Nat) (mem : Option Nat)
    (order : SetOrder) (nd : SearchNode) (sz : Nat) (l : List (Nat × Nat)) : ∀ acc : List Cand × BBSt,
    l.foldl (assessStep cfg size' (ren σ output) mem order (renNode σ nd) sz) (acc.1.map (renCand σ), renBB σ acc.2) =
      ((l.foldl (assessStep cfg size output mem order nd sz) acc).1.map (renCand σ),
        renBB σ (l.foldl (assessStep cfg size output mem order nd sz) acc).2) := by
  induction l with
  | nil => intro acc; rfl
  | cons p l ih =>
    intro acc
    rw [List.foldl_cons, List.foldl_cons, assessStep_ren h hc]
    exact ih _

theorem candidates_ren (h : SameSize σ size size') {cfg : BBCfg} (hc : Nameless cfg.cost) (output : Finset Nat) (mem : Option Nat)
    (order : SetOrder) (nd : SearchNode) (sz : Nat) (st : BBSt) :
    candidates cfg size' (ren σ output) mem order (renNode σ nd) sz (renBB σ st) =
      ((candidates cfg size output mem order nd sz st).1.map (renCand σ), renBB σ (candidates cfg size output mem order nd sz st).2) := by
  unfold candidates
  have e1 : (renNode σ nd).inputs = nd.inputs.map (ren σ) := rfl
  have e2 : (renNode σ nd).path = nd.path := rfl
  have e3 : (renNode σ nd).remaining = nd.remaining := rfl
  have hfold := fun l => foldl_assess_ren h hc output mem order nd sz l ([], st)
  simp only [List.map_nil] at hfold
  simp only [e1, e2, e3, ren_getD, ren_disjoint, hfold, List.map_eq_nil_iff]
  split
  · rw [foldl_assess_ren h hc]
  · rfl

theorem cand_le_ren (a b : Cand) : (renCand σ a).le (renCand σ b) = a.le b := rfl

theorem insertionSort_map {α β : Type} (f : α → β) {r : α → α → Prop} {r' : β → β → Prop} [DecidableRel r] [DecidableRel r']
    (h : ∀ a b, r' (f a) (f b) ↔ r a b) (l : List α) : (l.map f).insertionSort r' = (l.insertionSort r).map f := by
  have hins : ∀ (a : α) (l : List α), List.orderedInsert r' (f a) (l.map f) = (List.orderedInsert r a l).map f := by
    intro a l
    induction l with
    | nil => rfl
    | cons b l ih =>
      simp only [List.map_cons, List.orderedInsert, h]
      split
      · rfl
      · rw [List.map_cons, ih]
  induction l with
  | nil => rfl
  | cons a l ih => rw [List.map_cons, List.insertionSort_cons, List.insertionSort_cons, ih, hins]

theorem visited_ren (nbranch : Option Nat) (l : List Cand) : visited nbranch (l.map (renCand σ)) = (visited nbranch l).map (renCand σ) := by
  unfold visited
  have := insertionSort_map (renCand σ) (r := fun a b => a.le b = true) (r' := fun a b => a.le b = true) (fun a b => by rw [cand_le_ren]) l
  simp only [this]
  cases nbranch with
  | none => rfl
  | some k => simp only [List.map_take]

theorem branchIter_ren (h : SameSize σ size size') {cfg : BBCfg} (hc : Nameless cfg.cost) (output : Finset Nat) (mem : Option Nat)
    (order : SetOrder) : ∀ (fuel : Nat) (nd : SearchNode) (sz : Nat) (st : BBSt),
    branchIter cfg size' (ren σ output) mem order fuel (renNode σ nd) sz (renBB σ st) =
      (branchIter cfg size output mem order fuel nd sz st).map (renBB σ) := by
  intro fuel
  induction fuel with
  | zero =>
    intro nd sz st
    rw [branchIter, branchIter]
    change (if nd.remaining.card = 1 then _ else _) = _
    split <;> rfl
  | succ fuel ih =>
    intro nd sz st
    rw [branchIter, branchIter]
    change (if nd.remaining.card = 1 then _ else _) = _
    split
    · rfl
    · simp only [candidates_ren h hc, visited_ren]
      rw [List.foldlM_map]
      apply foldlM_ren (renBB σ)
      intro st c _
      have := ih (nd.child c.i c.j c.k12 c.newFlops) c.newSize st
      rw [← renNode_child] at this
      exact this

theorem branchCall_ren (h : SameSize σ size size') {cfg : BBCfg} (hc : Nameless cfg.cost) (fuel : Nat) (mem : Option Nat)
    (order : SetOrder) (inputs : List (Finset Nat)) (output : Finset Nat) (st : BBSt) :
    branchCall cfg fuel size' mem order (inputs.map (ren σ)) (ren σ output) (renBB σ st) =
      (branchCall cfg fuel size mem order inputs output st).map (fun r => (r.1, renBB σ r.2)) := by
  have h1 := branchIter_ren h hc output mem order fuel (rootNode inputs) 0 { st with cache := [] }
  have e1 : renNode σ (rootNode inputs) = rootNode (inputs.map (ren σ)) := by simp [renNode, rootNode]
  have e2 : renBB σ { st with cache := [] } = { renBB σ st with cache := [] } := rfl
  rw [e1, e2] at h1
  unfold branchCall
  rw [h1, Option.map_map, Option.map_map]
  rfl

theorem branch_ren (h : SameSize σ size size') {cfg : BBCfg} (hc : Nameless cfg.cost) (fuel : Nat) (mem : Option Nat)
    (order : SetOrder) (inputs : List (Finset Nat)) (output : Finset Nat) :
    branch cfg fuel size' mem order (inputs.map (ren σ)) (ren σ output) = branch cfg fuel size mem order inputs output := by
  unfold branch
  have := branchCall_ren h hc fuel mem order inputs output BBSt.fresh
  rw [show renBB σ BBSt.fresh = BBSt.fresh from rfl] at this
  rw [this]
  split
  · rfl
  · rw [Option.map_map]; rfl

/-! ## `ssa_path_compute_cost` -/

theorem ssaCostLoop_ren (h : SameSize σ size size') (output : Finset Nat) (path : Path) :
    ∀ (inputs : List (Finset Nat)) (remaining : Finset Nat) (cost m : Nat),
    ssaCostLoop size' (ren σ output) (inputs.map (ren σ)) remaining cost m path = ssaCostLoop size output inputs remaining cost m path := by
  induction path with
  | nil => intro inputs remaining cost m; simp only [ssaCostLoop]
  | cons p ps ih =>
    intro inputs remaining cost m
    match p with
    | [] => simp only [ssaCostLoop]
    | [_] => simp only [ssaCostLoop]
    | _ :: _ :: _ :: _ => simp only [ssaCostLoop]
    | [i, j] =>
      simp only [ssaCostLoop, calcK12_ren h, renRes, sizeOf_ren h, List.length_map]
      rw [← ih]
      simp

theorem ssaPathCost_ren (h : SameSize σ size size') (path : Path) (inputs : List (Finset Nat)) (output : Finset Nat) :
    ssaPathCost size' path (inputs.map (ren σ)) (ren σ output) = ssaPathCost size path inputs output := by
  unfold ssaPathCost
  rw [ssaCostLoop_ren h, List.length_map]

end OE.Rename
