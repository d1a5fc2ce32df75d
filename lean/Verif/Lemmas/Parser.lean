import Verif.Model.Parser
import Mathlib.Tactic.IntervalCases
import Mathlib.Data.List.Nodup
import Mathlib.Data.List.NodupEquivFin

/-! Helper lemmas about the parser model. -/

namespace OE.Parser
open OE OE.Py

theorem base_getD (i : Nat) (h : i < 52) :
    einsumSymbolsBase.getD i 0 = if i < 26 then i + 97 else i - 26 + 65 := by
  interval_cases i <;> rfl

theorem getSymbol_eq (i : Nat) :
    getSymbol i = if i < 26 then i + 97 else if i < 52 then i + 39 else
      if i ≥ 55296 then i + 2048 else i + 140 := by
  unfold getSymbol
  by_cases h : i < 52
  · rw [if_pos h, base_getD i h]
    split
    · rfl
    · omega
  · rw [if_neg h]
    have : ¬ i < 26 := by omega
    rw [if_neg this, if_neg h]

theorem getSymbol_injective : Function.Injective getSymbol := by
  intro i j h
  rw [getSymbol_eq, getSymbol_eq] at h
  split at h <;> split at h <;> (try split at h) <;> (try split at h) <;> (try split at h) <;> (try split at h) <;> omega

theorem getSymbol_not_punct (i : Nat) : getSymbol i ∉ [cDot, cComma, cDash, cGt] := by
  rw [getSymbol_eq]
  simp only [List.mem_cons, List.not_mem_nil, or_false, not_or]
  split <;> (try split) <;> (try split) <;> omega

theorem getSymbol_ge (i : Nat) : 65 ≤ getSymbol i := by
  rw [getSymbol_eq]; split <;> (try split) <;> (try split) <;> omega

end OE.Parser
