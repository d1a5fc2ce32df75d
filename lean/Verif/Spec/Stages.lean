import Verif.Spec.LocalChoice

/-!
# The three stages of greedy

An operand is given by the set of the inputs it is made of and its SSA id.
-/

namespace OE.Spec
open OE OE.Py

/-- The labels of some inputs. -/
def groupLabels (inputs : List (Finset Nat)) (S : Finset Nat) : Finset Nat := S.biUnion (fun i => inputs.getD i ∅)

/-- Those that are needed later: by the output or by other inputs. -/
def neededLabels (inputs : List (Finset Nat)) (output S : Finset Nat) : Finset Nat :=
  (groupLabels inputs S).filter (fun c => c ∈ output ∨ ∃ j ∈ List.range inputs.length, j ∉ S ∧ c ∈ inputs.getD j ∅)

/-- An SSA path from the operands `live` to the operands `live'`, each step of which contracts two operands that meet `ok`. -/
inductive StageSteps (ok : Finset (Finset Nat × Nat) → Finset Nat × Nat → Finset Nat × Nat → Prop) :
    Nat → Finset (Finset Nat × Nat) → List (List Nat) → Finset (Finset Nat × Nat) → Prop
  | done (next : Nat) (live : Finset (Finset Nat × Nat)) : StageSteps ok next live [] live
  | step {next : Nat} {live live' : Finset (Finset Nat × Nat)} {p q : Finset Nat × Nat} {rest : List (List Nat)} (hp : p ∈ live) (hq : q ∈ live) (hne : p ≠ q)
      (hok : ok live p q) (h : StageSteps ok (next + 1) (insert (p.1 ∪ q.1, next) ((live.erase p).erase q)) rest live') :
      StageSteps ok next live ([p.2, q.2] :: rest) live'

/-- The operands at the start. -/
def inputOperands (n : Nat) : Finset (Finset Nat × Nat) := (Finset.range n).image (fun i => ({i}, i))

/-- The first stage: the two operands have the same labels. -/
def SameLabels (inputs : List (Finset Nat)) : Finset (Finset Nat × Nat) → Finset Nat × Nat → Finset Nat × Nat → Prop :=
  fun _ p q => groupLabels inputs p.1 = groupLabels inputs q.1

/-- Two operands have a label in common that is not reserved. -/
def ShareLabel (inputs : List (Finset Nat)) (reserved : Finset Nat) (p q : Finset Nat × Nat) : Prop :=
  ∃ c, c ∉ reserved ∧ c ∈ groupLabels inputs p.1 ∧ c ∈ groupLabels inputs q.1

/-- The second stage: the two operands have a label in common that is not reserved, or the same labels that are needed later. -/
def MeetOrSame (inputs : List (Finset Nat)) (output reserved : Finset Nat) : Finset (Finset Nat × Nat) → Finset Nat × Nat → Finset Nat × Nat → Prop :=
  fun _ p q => ShareLabel inputs reserved p q ∨ neededLabels inputs output p.1 = neededLabels inputs output q.1

/-- The size of an operand of the third stage: of its labels only the reserved ones are left. -/
def outerSize (size : Nat → Nat) (inputs : List (Finset Nat)) (reserved : Finset Nat) (p : Finset Nat × Nat) : Nat :=
  ∏ c ∈ groupLabels inputs p.1 ∩ reserved, size c

/-- The third stage: no two operands have a smaller sum of sizes. -/
def SmallestSum (size : Nat → Nat) (inputs : List (Finset Nat)) (reserved : Finset Nat) :
    Finset (Finset Nat × Nat) → Finset Nat × Nat → Finset Nat × Nat → Prop :=
  fun live p q => ∀ r ∈ live, ∀ s ∈ live, r ≠ s →
    outerSize size inputs reserved p + outerSize size inputs reserved q ≤ outerSize size inputs reserved r + outerSize size inputs reserved s

/-- The three stages (docs/paths/greedy_path.md:5-13). -/
def ThreeStages (size : Nat → Nat) (inputs : List (Finset Nat)) (output reserved : Finset Nat) (path : List (List Nat)) : Prop :=
  ∃ first second third live1 live2 live3, path = first ++ second ++ third ∧
    StageSteps (SameLabels inputs) inputs.length (inputOperands inputs.length) first live1 ∧
    (∀ p ∈ live1, ∀ q ∈ live1, p ≠ q → groupLabels inputs p.1 ≠ groupLabels inputs q.1) ∧
    StageSteps (MeetOrSame inputs output reserved) (inputs.length + first.length) live1 second live2 ∧
    (∀ p ∈ live2, ∀ q ∈ live2, p ≠ q → ¬ ShareLabel inputs reserved p q) ∧
    StageSteps (SmallestSum size inputs reserved) (inputs.length + first.length + second.length) live2 third live3 ∧ live3.card = 1

end OE.Spec
