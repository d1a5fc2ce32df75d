import Verif.Py.Basic

/-! Reading back what was stored in an insertion-ordered dictionary. -/

namespace OE.Py

variable {κ ν : Type} [DecidableEq κ]

theorem Dict.get?_set (d : Dict κ ν) (k k' : κ) (v : ν) : (d.set k v).get? k' = if k' = k then some v else d.get? k' := by
  induction d with
  | nil =>
    simp only [Dict.set, Dict.get?]
    by_cases h : k' = k
    · subst h; simp
    · rw [if_neg h, if_neg (fun e => h e.symm)]
  | cons p d ih =>
    obtain ⟨a, b⟩ := p
    simp only [Dict.set]
    by_cases h : a = k
    · subst h
      rw [if_pos rfl]
      simp only [Dict.get?]
      by_cases h' : a = k'
      · subst h'; simp
      · rw [if_neg h', if_neg (fun e => h' e.symm), if_neg h']
    · rw [if_neg h]
      simp only [Dict.get?, ih]
      by_cases h' : a = k'
      · subst h'
        rw [if_pos rfl, if_neg h, if_pos rfl]
      · rw [if_neg h', if_neg h']

theorem Dict.get?_set_self (d : Dict κ ν) (k : κ) (v : ν) : (d.set k v).get? k = some v := by
  rw [Dict.get?_set, if_pos rfl]

theorem Dict.get?_set_ne {d : Dict κ ν} {k k' : κ} {v : ν} (h : k' ≠ k) : (d.set k v).get? k' = d.get? k' := by
  rw [Dict.get?_set, if_neg h]

end OE.Py
