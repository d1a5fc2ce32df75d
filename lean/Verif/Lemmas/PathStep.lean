import Verif.Lemmas.Pop
import Verif.Model.Contract
import Mathlib.Algebra.BigOperators.Group.Finset.Basic
import Mathlib.Data.Finset.Dedup

/-! One iteration of the loop of `contract_path`. -/

namespace OE.Contract
open OE OE.Py OE.Parser OE.Helpers OE.Blas

theorem mem_firstOccs {s : Str} {c : Nat} : c ∈ firstOccs s ↔ c ∈ s := by
  induction s with
  | nil => simp [firstOccs]
  | cons a t ih =>
    simp only [firstOccs, List.mem_cons, List.mem_filter, ih, decide_eq_true_eq]
    by_cases h : c = a <;> simp [h]

theorem firstOccs_nodup (s : Str) : (firstOccs s).Nodup := by
  induction s with
  | nil => simp [firstOccs]
  | cons a t ih =>
    simp only [firstOccs, List.nodup_cons, List.mem_filter, decide_eq_true_eq, not_and, not_not]
    exact ⟨fun _ => by simp, ih.filter _⟩

theorem mem_enum {order : Str} {s : Finset Nat} {c : Nat} : c ∈ enum order s ↔ c ∈ order ∧ c ∈ s := by
  simp [enum, mem_firstOccs]

theorem enum_nodup (order : Str) (s : Finset Nat) : (enum order s).Nodup := (firstOccs_nodup order).filter _

theorem mem_tensordotOrder {order : Str} {s : Finset Nat} {c : Nat} : c ∈ tensordotOrder order s ↔ c ∈ order ∧ c ∈ s := by
  simp [tensordotOrder, mem_firstOccs]

theorem tensordotOrder_nodup (order : Str) (s : Finset Nat) : (tensordotOrder order s).Nodup := (firstOccs_nodup order).filter _

/-- The size recorded for a label. -/
def dsize (d : Dict Nat Nat) (c : Nat) : Nat := (d.get? c).getD 0

theorem foldlM_size (d : Dict Nat Nat) (l : List Nat) (acc : Nat) (h : ∀ c ∈ l, (d.get? c).isSome) :
    l.foldlM (fun ret i => do let x ← d.get! i; pure (ret * x)) acc = (.ok (acc * (l.map (dsize d)).prod) : Except PyErr Nat) := by
  induction l generalizing acc with
  | nil => simp [pure, Except.pure]
  | cons c t ih =>
    obtain ⟨v, hv⟩ := Option.isSome_iff_exists.mp (h c (by simp))
    have hg : d.get! c = .ok v := by simp [Dict.get!, hv]
    rw [List.foldlM_cons]
    have := ih (acc * v) (fun c hc => h c (by simp [hc]))
    simp only [hg, bind, Except.bind, pure, Except.pure] at this ⊢
    rw [this]
    simp only [List.map_cons, List.prod_cons, dsize, hv, Option.getD_some, Nat.mul_assoc]

theorem computeSize_ok {d : Dict Nat Nat} {l : List Nat} (h : ∀ c ∈ l, (d.get? c).isSome) :
    computeSizeByDict l d = .ok ((l.map (dsize d)).prod) := by
  have := foldlM_size d l 1 h
  rw [Nat.one_mul] at this
  exact this

theorem computeSize_enum {d : Dict Nat Nat} {order : Str} {s : Finset Nat} (hs : ∀ c ∈ s, c ∈ order)
    (h : ∀ c ∈ s, (d.get? c).isSome) : computeSizeByDict (enum order s) d = .ok (∏ c ∈ s, dsize d c) := by
  rw [computeSize_ok (fun c hc => h c (mem_enum.mp hc).2)]
  congr 1
  have : (enum order s).toFinset = s := by
    ext c; rw [List.mem_toFinset, mem_enum]; exact ⟨fun h => h.2, fun h => ⟨hs c h, h⟩⟩
  conv_rhs => rw [← this]
  rw [List.prod_toFinset _ (enum_nodup _ _)]

/-- The arithmetic factor of `flop_count`. -/
def opFactor (inner : Bool) (n : Nat) : Nat := max 1 (n - 1) + if inner then 1 else 0

theorem flopCount_enum {d : Dict Nat Nat} {order : Str} {s : Finset Nat} {inner : Bool} {n : Nat} (hs : ∀ c ∈ s, c ∈ order)
    (h : ∀ c ∈ s, (d.get? c).isSome) : flopCount (enum order s) inner n d = .ok ((∏ c ∈ s, dsize d c) * opFactor inner n) := by
  unfold flopCount
  rw [computeSize_enum hs h]
  simp only [bind, Except.bind, pure, Except.pure, opFactor]
  cases inner <;> simp

theorem foldr_union_map (l : List Str) (s : Finset Nat) :
    (l.map List.toFinset).foldr (· ∪ ·) s = l.flatten.toFinset ∪ s := by
  induction l with
  | nil => simp
  | cons a t ih => simp [ih, List.toFinset_append, Finset.union_assoc]

/-- `find_contraction` on the label sets of terms. -/
theorem findContraction_ok {p : List Nat} {inputs tI rI : List Str} {out : Finset Nat}
    (h : popAll (sortedDesc p) inputs = .ok (tI, rI)) (hne : p ≠ []) :
    findContraction p (inputs.map List.toFinset) out = .ok
      { newResult := (rI.flatten.toFinset ∪ out) ∩ tI.flatten.toFinset,
        remaining := rI.map List.toFinset ++ [(rI.flatten.toFinset ∪ out) ∩ tI.flatten.toFinset],
        idxRemoved := tI.flatten.toFinset \ ((rI.flatten.toFinset ∪ out) ∩ tI.flatten.toFinset),
        idxContract := tI.flatten.toFinset } := by
  unfold findContraction
  rw [popAll_map_ok _ h]
  simp only [bind, Except.bind]
  have hlen := (popAll_length h).1
  have : tI.map List.toFinset ≠ [] := by
    intro e
    have e' : tI = [] := by simpa using e
    rw [e', sortedDesc_length] at hlen
    exact hne (by simpa using hlen.symm)
  cases htI : tI.map List.toFinset with
  | nil => exact absurd htI this
  | cons a b =>
    simp only
    rw [← htI, foldr_union_map, foldr_union_map]
    simp

/-- The labels a step must keep. -/
def needed (tI rI : List Str) (output : Str) : Finset Nat := (rI.flatten.toFinset ∪ output.toFinset) ∩ tI.flatten.toFinset

theorem mem_needed {tI rI : List Str} {output : Str} {c : Nat} :
    c ∈ needed tI rI output ↔ (∃ t ∈ tI, c ∈ t) ∧ (c ∈ output ∨ ∃ t ∈ rI, c ∈ t) := by
  simp only [needed, Finset.mem_inter, Finset.mem_union, List.mem_toFinset, List.mem_flatten]
  rw [and_comm]
  apply and_congr_right
  intro _
  exact or_comm

/-- The result term of a step. -/
def resultTerm (isLast : Bool) (tI rI : List Str) (output : Str) : Str :=
  if isLast then output else tensordotOrder tI.flatten (needed tI rI output)

/-- The recorded contraction of a step. -/
def stepOf (useBlas : Bool) (output : Str) (p : List Nat) (isLast : Bool) (tI rI : List Str) (tS : List Shape) : Step :=
  { inds := sortedDesc p
    removed := tI.flatten.toFinset \ needed tI rI output
    einsumStr := einsumStrOf tI (resultTerm isLast tI rI output)
    remaining := if (rI ++ [resultTerm isLast tI rI output]).length ≤ 20 then some (rI ++ [resultTerm isLast tI rI output]) else none
    blas := if useBlas then canBlas tI (enum tI.flatten (needed tI rI output)) (tI.flatten.toFinset \ needed tI rI output) (some tS)
            else Flag.no }

theorem pathStep_eq {useBlas : Bool} {output : Str} {d : Dict Nat Nat} {st : PathState} {p : List Nat} {isLast : Bool}
    {tI rI : List Str} {tS rS : List Shape} {shp : Shape}
    (hsets : st.sets = st.inputs.map List.toFinset)
    (h1 : popAll (sortedDesc p) st.inputs = .ok (tI, rI)) (h2 : popAll (sortedDesc p) st.shapes = .ok (tS, rS))
    (hne : p ≠ []) (hd : ∀ c ∈ tI.flatten, (d.get? c).isSome)
    (hshp : findOutputShape tI tS (resultTerm isLast tI rI output) = .ok shp) :
    pathStep useBlas output d st p isLast = .ok
      ({ inputs := rI ++ [resultTerm isLast tI rI output],
         sets := rI.map List.toFinset ++ [needed tI rI output], shapes := rS ++ [shp] },
       { step := stepOf useBlas output p isLast tI rI tS,
         cost := (∏ c ∈ tI.flatten.toFinset, dsize d c) * opFactor (decide (tI.flatten.toFinset \ needed tI rI output ≠ ∅)) p.length,
         scale := tI.flatten.toFinset.card,
         size := ∏ c ∈ needed tI rI output, dsize d c }) := by
  unfold pathStep
  have hf := findContraction_ok (p := sortedDesc p) (out := output.toFinset) (by rw [sortedDesc_idem]; exact h1)
    (sortedDesc_ne_nil hne)
  rw [← hsets] at hf
  have hc1 : ∀ c ∈ tI.flatten.toFinset, c ∈ tI.flatten := fun c hc => List.mem_toFinset.mp hc
  have hc2 : ∀ c ∈ tI.flatten.toFinset, (d.get? c).isSome := fun c hc => hd c (hc1 c hc)
  have hn : ∀ c ∈ needed tI rI output, c ∈ tI.flatten.toFinset := fun c hc => (Finset.mem_inter.mp hc).2
  simp only [hf, bind, Except.bind, h1, h2]
  rw [flopCount_enum hc1 hc2]
  simp only
  rw [computeSize_enum (s := (rI.flatten.toFinset ∪ output.toFinset) ∩ tI.flatten.toFinset)
    (fun c hc => hc1 c (hn c hc)) (fun c hc => hc2 c (hn c hc))]
  simp only
  have hr : (if isLast = true then output else tensordotOrder tI.flatten ((rI.flatten.toFinset ∪ output.toFinset) ∩ tI.flatten.toFinset))
      = resultTerm isLast tI rI output := rfl
  rw [hr, hshp]
  simp only [sortedDesc_length]
  rfl

end OE.Contract
