import Verif.Model.DataType
import Verif.Spec.DataType
import Verif.Lemmas.Pop
import Verif.Props.AnyLibrary
import Verif.Props.Expression
import Mathlib.Data.Multiset.Basic
import Mathlib.Algebra.BigOperators.Group.Multiset.Defs

/-!
# C84: the data type of the result
-/

namespace OE.Props
open OE OE.Py OE.Contract OE.AnyLibrary OE.DataType OE.Spec

variable {A D : Type}

theorem einsumCall_typed (promote : List D → D) (lib : Library A) (sharing : Bool) (s : Str) (ops : List (D × A)) :
    AnyLibrary.einsumCall (typed promote lib) sharing s ops [(S "out", Val.none)] =
      (AnyLibrary.einsumCall lib sharing s (ops.map Prod.snd) [(S "out", Val.none)]).map (fun a => (promote (ops.map Prod.fst), a)) := by
  have h1 : filterEinsumDefaults (if sharing = true then ([] : Kw (D × A)) else [(S "out", Val.none)]) = [] := by
    cases sharing
    · exact filter_only_out
    · rfl
  have h2 : filterEinsumDefaults (if sharing = true then ([] : Kw A) else [(S "out", Val.none)]) = [] := by
    cases sharing
    · exact filter_only_out
    · rfl
  unfold AnyLibrary.einsumCall
  rw [h1, h2]
  cases he : lib.einsum with
  | none => simp [typed, he, Except.map]
  | some fn =>
    simp only [typed, he, Option.map_some, List.map_nil, bind, Except.bind, Except.map]

theorem blasStep_typed {promote : List D → D} (lib : Library A) (step : Step) (tmp : List (D × A)) :
    AnyLibrary.blasStep (typed promote lib) [] step tmp =
      (AnyLibrary.blasStep lib [] step (tmp.map Prod.snd)).map (fun a => (promote (tmp.map Prod.fst), a)) := by
  unfold AnyLibrary.blasStep
  split
  · split
    · rename_i left right _
      match tmp with
      | [] => rfl
      | [_] => rfl
      | _ :: _ :: _ :: _ => rfl
      | [a, b] =>
        simp only [List.map_cons, List.map_nil, ne_eq, not_true_eq_false, if_false, typed, bind, Except.bind, Except.map]
        cases lib.tensordot a.2 b.2 (blasAxes left right step.removed) with
        | error e => rfl
        | ok v =>
          simp only
          split
          · cases transposeAxes _ _ with
            | error e => rfl
            | ok perm => rfl
          · rfl
    · rfl
  · rfl

theorem stepResult_typed (promote : List D → D) (lib : Library A) (sharing : Bool) (step : Step) (tmp : List (D × A)) :
    AnyLibrary.stepResult (typed promote lib) sharing [] step tmp =
      (AnyLibrary.stepResult lib sharing [] step (tmp.map Prod.snd)).map (fun a => (promote (tmp.map Prod.fst), a)) := by
  unfold AnyLibrary.stepResult
  have : (typed promote lib).einsum.isNone = lib.einsum.isNone := by simp [typed]
  rw [this]
  split
  · exact blasStep_typed lib step tmp
  · exact einsumCall_typed promote lib sharing step.einsumStr tmp

/-- Along a complete path one array is left, of the type of all operands together. -/
theorem coreLoop_typed {promote : List D → D} (hp : Promotion promote) (lib : Library A) (sharing : Bool) :
    ∀ (path : List (List Nat)) (steps : List Step) (ops : List (D × A)), steps.map Step.inds = path.map sortedDesc →
      CompletePath ops.length path →
      (∃ e, AnyLibrary.coreLoop lib sharing [] steps (ops.map Prod.snd) = .error e ∧
        AnyLibrary.coreLoop (typed promote lib) sharing [] steps ops = .error e) ∨
      ∃ a, AnyLibrary.coreLoop lib sharing [] steps (ops.map Prod.snd) = .ok [a] ∧
        AnyLibrary.coreLoop (typed promote lib) sharing [] steps ops = .ok [(promote (ops.map Prod.fst), a)]
  | [], _, _, _, hc => absurd hc (by simp [CompletePath])
  | p :: ps, [], _, hi, _ => by simp at hi
  | p :: ps, s :: ss, ops, hi, hc => by
    simp only [List.map_cons, List.cons.injEq] at hi
    have hv : ValidStep ops.length p := by
      cases ps with
      | nil => exact hc.1
      | cons q qs => exact hc.1
    obtain ⟨hne, hnd, hlt⟩ := hv
    obtain ⟨P, Q, hpop⟩ : ∃ P Q, popAll (sortedDesc p) ops = .ok (P, Q) := by
      exact popAll_valid hnd hlt
    have hpop' := popAll_map_ok Prod.snd hpop
    have hperm := popAll_perm hpop
    have hlen := popAll_length hpop
    have hsl : (sortedDesc p).length = p.length := by simp [sortedDesc]
    have hPne : P ≠ [] := by
      intro h0
      have : 0 < p.length := List.length_pos_iff.mpr hne
      rw [h0] at hlen
      simp at hlen
      omega
    simp only [AnyLibrary.coreLoop, bind, Except.bind, hi.1, hpop, hpop']
    rw [stepResult_typed]
    cases hr : AnyLibrary.stepResult lib sharing [] s (P.map Prod.snd) with
    | error e => exact .inl ⟨e, rfl, rfl⟩
    | ok v =>
      simp only [Except.map]
      have hprom : promote ((Q ++ [(promote (P.map Prod.fst), v)]).map Prod.fst) = promote (ops.map Prod.fst) := by
        rw [List.map_append, List.map_cons, List.map_nil]
        rw [hp.perm _ (promote (P.map Prod.fst) :: Q.map Prod.fst) (List.perm_append_singleton _ _),
          hp.nested _ _ (by simpa using hPne), ← List.map_append]
        exact hp.perm _ _ (hperm.map _)
      have hmap : (Q ++ [(promote (P.map Prod.fst), v)]).map Prod.snd = Q.map Prod.snd ++ [v] := by simp
      cases ps with
      | nil =>
        have hss : ss = [] := by simpa using hi.2
        subst hss
        right
        have hQ : Q = [] := by
          have h1 := hperm.length_eq
          rw [List.length_append] at h1
          have h2 : p.length = ops.length := hc.2
          apply List.length_eq_zero_iff.mp
          omega
        subst hQ
        refine ⟨v, rfl, ?_⟩
        simp only [AnyLibrary.coreLoop, List.nil_append] at hprom ⊢
        rw [← hprom]
        simp [hp.single]
      | cons q qs =>
        have hl : (Q ++ [(promote (P.map Prod.fst), v)]).length = ops.length + 1 - p.length := by
          have h1 := hperm.length_eq
          rw [List.length_append] at h1
          rw [List.length_append, List.length_singleton]
          omega
        have := coreLoop_typed hp lib sharing (q :: qs) ss (Q ++ [(promote (P.map Prod.fst), v)]) hi.2 (by rw [hl]; exact hc.2)
        rw [hmap, hprom] at this
        exact this

/-- **C84.** Whatever the library, if its rule for types looks neither at the order of the operands nor at the order in which they are
combined: `contract` on arrays with types computes what it computes without types, and the result has the type of all operands together.
(The path that `contract_path` reports must be complete; with `optimize=False` nothing is required.) -/
theorem C84_data_type {promote : List D → D} (hp : Promotion promote) (shape : A → Shape) (np lib : Library A) (sharing : Bool) (eq : Str)
    (ops : List (D × A)) (opt : Optimize) (mem : MemLimit) (useBlas : Bool)
    (hpath : opt ≠ .off → ∀ inp out info, Parser.parseEinsum eq (ops.map (fun a : D × A => shape a.2)) = .ok (inp, out) →
      contractPath (splitOn cComma inp) out (ops.map (fun a : D × A => shape a.2)) opt mem useBlas = .ok info → CompletePath ops.length info.path) :
    contractTyped promote shape np lib sharing eq ops opt mem useBlas =
      (AnyLibrary.contract shape np lib sharing eq (ops.map Prod.snd) opt mem useBlas []).map (fun a => (promote (ops.map Prod.fst), a)) := by
  have hcore : opt ≠ .off → (do
      let (inp, out) ← Parser.parseEinsum eq (ops.map (fun a : D × A => shape a.2))
      let info ← contractPath (splitOn cComma inp) out (ops.map (fun a : D × A => shape a.2)) opt mem useBlas
      AnyLibrary.coreContract (typed promote lib) sharing [] info.contractionList ops) =
      (do
        let (inp, out) ← Parser.parseEinsum eq (ops.map (fun a : D × A => shape a.2))
        let info ← contractPath (splitOn cComma inp) out (ops.map (fun a : D × A => shape a.2)) opt mem useBlas
        AnyLibrary.coreContract lib sharing [] info.contractionList (ops.map Prod.snd)).map
          (fun a => (promote (ops.map Prod.fst), a)) := by
    intro hoff
    simp only [bind, Except.bind, Except.map]
    cases hparse : Parser.parseEinsum eq (ops.map (fun a : D × A => shape a.2)) with
    | error e => rfl
    | ok io =>
      simp only
      cases hinfo : contractPath (splitOn cComma io.1) io.2 (ops.map (fun a : D × A => shape a.2)) opt mem useBlas with
      | error e => rfl
      | ok info =>
        simp only [AnyLibrary.coreContract, bind, Except.bind]
        rcases coreLoop_typed hp lib sharing info.path info.contractionList ops (contractPath_inds hinfo)
          (hpath hoff io.1 io.2 info hparse hinfo) with ⟨e, h1, h2⟩ | ⟨a, h1, h2⟩
        · rw [h1, h2]
        · rw [h1, h2]
  unfold contractTyped
  cases opt with
  | off => exact einsumCall_typed promote np sharing eq ops
  | path p =>
    simp only [AnyLibrary.contract, List.map_map, Function.comp_def]
    exact hcore (by simp)
  | finder f =>
    simp only [AnyLibrary.contract, List.map_map, Function.comp_def]
    exact hcore (by simp)

/-- **C84, paths.** With such a rule two complete paths give results of the same type. -/
theorem C84_same_type {promote : List D → D} (hp : Promotion promote) (shape : A → Shape) (np lib : Library A) (sharing sharing' : Bool) (eq : Str)
    (ops : List (D × A)) (p q : List (List Nat)) (mem mem' : MemLimit) (useBlas useBlas' : Bool) (hcp : CompletePath ops.length p)
    (hcq : CompletePath ops.length q) (x y : D × A)
    (hx : contractTyped promote shape np lib sharing eq ops (.path p) mem useBlas = .ok x)
    (hy : contractTyped promote shape np lib sharing' eq ops (.path q) mem' useBlas' = .ok y) : x.1 = y.1 := by
  have hpath : ∀ (r : List (List Nat)) (mem : MemLimit) (b : Bool), CompletePath ops.length r → Optimize.path r ≠ .off → ∀ inp out info,
      Parser.parseEinsum eq (ops.map (fun a : D × A => shape a.2)) = .ok (inp, out) →
      contractPath (splitOn cComma inp) out (ops.map (fun a : D × A => shape a.2)) (.path r) mem b = .ok info →
      CompletePath ops.length info.path := by
    intro r mem b hr _ inp out info _ hi
    have : info.path = r := by
      simp only [contractPath, bind, Except.bind, choosePath] at hi
      repeat' (split at hi; · cases hi)
      simp only [Except.ok.injEq] at hi
      rw [← hi]
    rw [this]; exact hr
  rw [C84_data_type hp shape np lib sharing eq ops _ mem useBlas (hpath p mem useBlas hcp)] at hx
  rw [C84_data_type hp shape np lib sharing' eq ops _ mem' useBlas' (hpath q mem' useBlas' hcq)] at hy
  have aux : ∀ (e : Except PyErr A) (z : D × A), e.map (fun a => (promote (ops.map Prod.fst), a)) = .ok z → z.1 = promote (ops.map Prod.fst) := by
    intro e z h
    cases e with
    | error e => cases h
    | ok a => simp only [Except.map, Except.ok.injEq] at h; rw [← h]
  rw [aux _ _ hx, aux _ _ hy]

/-! ## Every operand enters exactly once -/

theorem sum_promotion {ι : Type} : Promotion (fun l : List (Multiset ι) => l.sum) where
  single a := by simp
  perm _ _ h := h.sum_eq
  nested l r _ := by simp

/-- **C84, every operand enters exactly once.** Give every array the bag of operands it was computed from, an operand the bag that holds
only itself: then the result of `contract` comes with the bag of all operands, each of them once. -/
theorem C84_each_operand_once (shape : A → Shape) (np lib : Library A) (sharing : Bool) (eq : Str) (ops : List A) (opt : Optimize)
    (mem : MemLimit) (useBlas : Bool)
    (hpath : opt ≠ .off → ∀ inp out info, Parser.parseEinsum eq (ops.map shape) = .ok (inp, out) →
      contractPath (splitOn cComma inp) out (ops.map shape) opt mem useBlas = .ok info → CompletePath ops.length info.path)
    (x : Multiset Nat × A)
    (hx : contractTyped (fun l => l.sum) shape np lib sharing eq (ops.zipIdx.map (fun p => (({p.2} : Multiset Nat), p.1))) opt mem useBlas = .ok x) :
    x.1 = Multiset.range ops.length ∧ AnyLibrary.contract shape np lib sharing eq ops opt mem useBlas [] = .ok x.2 := by
  have hsnd : (ops.zipIdx.map (fun p => (({p.2} : Multiset Nat), p.1))).map Prod.snd = ops := by
    rw [List.map_map]; simp [Function.comp_def]
  have hshape : (ops.zipIdx.map (fun p => (({p.2} : Multiset Nat), p.1))).map (fun a => shape a.2) = ops.map shape := by
    have : (fun a : Multiset Nat × A => shape a.2) = shape ∘ Prod.snd := rfl
    rw [this, ← List.map_map, hsnd]
  rw [C84_data_type sum_promotion shape np lib sharing eq _ opt mem useBlas (by
    rw [hshape]; simpa using hpath), hsnd] at hx
  cases hc : AnyLibrary.contract shape np lib sharing eq ops opt mem useBlas [] with
  | error e => rw [hc] at hx; cases hx
  | ok a =>
    rw [hc] at hx
    simp only [Except.map, Except.ok.injEq] at hx
    refine ⟨?_, by rw [← hx]⟩
    rw [← hx]
    simp only [List.map_map, Function.comp_def]
    have h2 : ops.zipIdx.map (fun p => ({p.2} : Multiset Nat)) = (List.range ops.length).map (fun i => ({i} : Multiset Nat)) := by
      rw [List.range_eq_range', ← List.zipIdx_map_snd 0 ops, List.map_map]; rfl
    rw [h2]
    have : ∀ l : List Nat, (l.map (fun i => ({i} : Multiset Nat))).sum = (l : Multiset Nat) := by
      intro l
      induction l with
      | nil => rfl
      | cons a l ih => rw [List.map_cons, List.sum_cons, ih]; rfl
    rw [this]; rfl

/-! ## Examples -/

/-- Four types in a chain: each result has the largest type of its operands (`bool`, `int64`, `float64`, `complex128`). -/
def chain (l : List (Fin 4)) : Fin 4 := l.foldr max 0

theorem chain_promotion : Promotion chain where
  single a := by simp [chain]
  perm l l' h := by
    unfold chain
    exact h.foldr_eq 0
  nested l r h := by
    clear h
    unfold chain
    rw [List.foldr_cons, List.foldr_append]
    induction l with
    | nil => simp
    | cons a l ih => rw [List.foldr_cons, List.foldr_cons, ← ih, max_assoc]

/-- Five of numpy's types. -/
inductive NpType
  | int16 | uint16 | int32 | float32 | float64
  deriving DecidableEq

/-- `numpy.promote_types` for them: an integer type and a floating point type give the least floating point type that has all integers. -/
def npPromote : NpType → NpType → NpType
  | .float64, _ => .float64
  | _, .float64 => .float64
  | .float32, .int32 => .float64
  | .int32, .float32 => .float64
  | .float32, _ => .float32
  | _, .float32 => .float32
  | .int16, .int16 => .int16
  | .uint16, .uint16 => .uint16
  | _, _ => .int32

/-- Promotion of several types, one after the other. -/
def npPromoteAll (l : List NpType) : NpType := match l with
  | [] => .float64
  | a :: l => l.foldl npPromote a

/-- A library that computes nothing: an array is its shape, every result is one-dimensional of length 2. -/
def shapesOnly : Library Shape where
  einsum := some (fun _ _ _ => .ok [2])
  tensordot _ _ _ := .ok [2]
  transpose _ _ := .ok [2]

/-- What C84 would say with numpy's rule. -/
def C84_statement : Prop :=
  ∀ (eq : Str) (ops : List (NpType × Shape)) (p q : List (List Nat)) (x y : NpType × Shape), CompletePath ops.length p →
    CompletePath ops.length q → contractTyped npPromoteAll id shapesOnly shapesOnly false eq ops (.path p) .none true = .ok x →
    contractTyped npPromoteAll id shapesOnly shapesOnly false eq ops (.path q) .none true = .ok y → x.1 = y.1

/-- **C84, false with numpy's rule**: `contract("a,a,a->a", x, y, z)` with `x` of type `int16`, `y` of type `uint16` and `z` of type
`float32` has type `float64` along the path `[(0, 1), (0, 1)]` and type `float32` along `[(0, 2), (0, 1)]`. -/
theorem C84_counterexample : ¬ C84_statement := by
  intro h
  have := h (S "a,a,a->a") [(.int16, [2]), (.uint16, [2]), (.float32, [2])] [[0, 1], [0, 1]] [[0, 2], [0, 1]] (.float64, [2]) (.float32, [2])
    (by simp [CompletePath, ValidStep]) (by simp [CompletePath, ValidStep]) (by decide +kernel) (by decide +kernel)
  cases this

/-- The hypotheses can be met: three operands of three types, one of them contracted last. -/
example : contractTyped chain id shapesOnly shapesOnly false (S "a,a,a->a") [(1, [2]), (3, [2]), (2, [2])] (.path [[0, 2], [0, 1]]) .none true =
    .ok (3, [2]) := by decide +kernel

example : (contractTyped (fun l : List (Multiset Nat) => l.sum) id shapesOnly shapesOnly true (S "a,a,a->a")
    ([[2], [2], [2]].zipIdx.map (fun p => (({p.2} : Multiset Nat), p.1))) (.path [[0, 2], [0, 1]]) .none false).toOption.map
      (fun x => decide (x.1 = {0, 1, 2})) = some true := by decide +kernel

end OE.Props
