import Verif.Spec.Quality

/-!
# What greedy is documented to maximise
-/

namespace OE.Spec
open OE OE.Py

/-- The labels of operand `i`. -/
def operand (inputs : List (Finset Nat)) (i : Nat) : Finset Nat := inputs.getD i ∅

/-- The labels that remain when operands `i` and `j` are contracted: those in the output or on other operands. -/
def kept (inputs : List (Finset Nat)) (output : Finset Nat) (i j : Nat) : Finset Nat :=
  (operand inputs i ∪ operand inputs j).filter (fun c => c ∈ output ∨ ∃ k ∈ List.range inputs.length, k ≠ i ∧ k ≠ j ∧ c ∈ operand inputs k)

/-- `reduced_size` (docs/paths/greedy_path.md:16-17): the sizes of the two operands minus the size of the result. -/
def reducedSize (size : Nat → Nat) (inputs : List (Finset Nat)) (output : Finset Nat) (i j : Nat) : ℤ :=
  ((∏ c ∈ operand inputs i, size c : ℕ) : ℤ) + ((∏ c ∈ operand inputs j, size c : ℕ) : ℤ) - ((∏ c ∈ kept inputs output i j, size c : ℕ) : ℤ)

/-- Two different operands have a label in common that is neither in the output nor on all operands. -/
def Meet (inputs : List (Finset Nat)) (output : Finset Nat) (i j : Nat) : Prop :=
  i < inputs.length ∧ j < inputs.length ∧ i ≠ j ∧ ∃ c, c ∈ operand inputs i ∧ c ∈ operand inputs j ∧ c ∉ output ∧ ∃ k ∈ inputs, c ∉ k

/-- No pair that meets has a greater `reduced_size`. -/
def Best (size : Nat → Nat) (inputs : List (Finset Nat)) (output : Finset Nat) (a b : Nat) : Prop :=
  Meet inputs output a b ∧ ∀ i j, Meet inputs output i j → reducedSize size inputs output i j ≤ reducedSize size inputs output a b

/-- The operands after contracting `i` and `j`: the result is put at the end. -/
def contracted (inputs : List (Finset Nat)) (output : Finset Nat) (i j : Nat) : List (Finset Nat) :=
  (inputs.eraseIdx (max i j)).eraseIdx (min i j) ++ [kept inputs output i j]

/-- The documented claim: as long as there are pairs that meet, each step contracts a pair with the greatest `reduced_size`. -/
def EveryStepBest (size : Nat → Nat) (output : Finset Nat) : List (Finset Nat) → List (List Nat) → Prop
  | _, [] => True
  | inputs, step :: rest => ∃ a b, step = [a, b] ∧ ((∃ i j, Meet inputs output i j) → Best size inputs output a b) ∧
      EveryStepBest size output (contracted inputs output a b) rest

/-! ## With SSA ids: an operand is given by its labels and its id -/

/-- The labels that remain when `p` and `q` are contracted. -/
def keptOf (output : Finset Nat) (live : Finset (Finset Nat × Nat)) (p q : Finset Nat × Nat) : Finset Nat :=
  (p.1 ∪ q.1).filter (fun c => c ∈ output ∨ ∃ r ∈ live, r ≠ p ∧ r ≠ q ∧ c ∈ r.1)

/-- `reduced_size` of `p` and `q`. -/
def gainOf (size : Nat → Nat) (output : Finset Nat) (live : Finset (Finset Nat × Nat)) (p q : Finset Nat × Nat) : ℤ :=
  ((∏ c ∈ p.1, size c : ℕ) : ℤ) + ((∏ c ∈ q.1, size c : ℕ) : ℤ) - ((∏ c ∈ keptOf output live p q, size c : ℕ) : ℤ)

/-- Two operands with a common label that is not reserved. -/
def Linked (reserved : Finset Nat) (p q : Finset Nat × Nat) : Prop := p ≠ q ∧ ∃ c, c ∉ reserved ∧ c ∈ p.1 ∧ c ∈ q.1

/-- Each step of the SSA path contracts, of the joined operands that remain, two with the greatest `reduced_size`, until two operands have the same
labels or none are joined. -/
def BestWhileDistinct (size : Nat → Nat) (output reserved : Finset Nat) : Nat → Finset (Finset Nat × Nat) → List (List Nat) → Prop
  | _, _, [] => True
  | next, live, step :: rest =>
    (∃ p ∈ live, ∃ q ∈ live, p ≠ q ∧ p.1 = q.1) ∨ (∀ p ∈ live, ∀ q ∈ live, ¬ Linked reserved p q) ∨
    ∃ p ∈ live, ∃ q ∈ live, step = [p.2, q.2] ∧ Linked reserved p q ∧
      (∀ r ∈ live, ∀ s ∈ live, Linked reserved r s → gainOf size output live r s ≤ gainOf size output live p q) ∧
      BestWhileDistinct size output reserved (next + 1) (insert (keptOf output live p q, next) ((live.erase p).erase q)) rest

/-- The operands at the start. -/
def startLive (inputs : List (Finset Nat)) : Finset (Finset Nat × Nat) := inputs.zipIdx.toFinset

/-- The labels that greedy does not sum before the end: those of the output, and those on all operands. -/
def IsReserved (inputs : List (Finset Nat)) (output reserved : Finset Nat) : Prop := ∀ c, c ∈ reserved ↔ c ∈ output ∨ ∀ s ∈ inputs, c ∈ s

end OE.Spec
