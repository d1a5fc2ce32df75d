import Verif.Props.Exactly
/-!
# `find_output_shape` with shapes that are too short
-/

namespace OE.Props
open OE OE.Py OE.Spec OE.Parser

theorem mapM_optIndex (l : List (Option Nat)) : l.mapM optIndex = if none ∈ l then Except.error PyErr.index else Except.ok (l.filterMap id) := by
  induction l with
  | nil => rfl
  | cons a l ih =>
    rw [List.mapM_cons]
    cases a with
    | none => simp [optIndex]; rfl
    | some d =>
      rw [ih]
      by_cases h : none ∈ l
      · simp [optIndex, h]; rfl
      · simp [optIndex, h]; rfl

theorem mapM_error {α β : Type} {f : α → Except PyErr β} {e : PyErr} (l : List α) (hf : ∀ a ∈ l, f a = .error e ∨ ∃ b, f a = .ok b) :
    (l.mapM f = .error e ↔ ∃ a ∈ l, f a = .error e) := by
  induction l with
  | nil => simp [pure, Except.pure]
  | cons a l ih =>
    rw [List.mapM_cons]
    rcases hf a (by simp) with h | ⟨b, h⟩
    · rw [h]
      exact ⟨fun _ => ⟨a, by simp, h⟩, fun _ => rfl⟩
    · rw [h]
      have ih := ih (fun x hx => hf x (by simp [hx]))
      constructor
      · intro g
        have : l.mapM f = .error e := by
          cases hl : l.mapM f with
          | error e' => rw [hl] at g; exact g
          | ok r => rw [hl] at g; cases g
        obtain ⟨x, hx, hx'⟩ := ih.mp this
        exact ⟨x, by simp [hx], hx'⟩
      · rintro ⟨x, hx, hx'⟩
        rcases List.mem_cons.mp hx with rfl | hx
        · rw [h] at hx'; cases hx'
        · rw [ih.mpr ⟨x, hx, hx'⟩]; rfl

/-- **C37, shapes that are too short.** If every output label occurs in some term, `find_output_shape` raises `IndexError` if and only if an output
label is first on an axis that the shape of its term does not have. -/
theorem C37_short_shape (inputs : List Str) (shapes : List Shape) (output : Str) (hocc : ∀ c ∈ output, ∃ p ∈ inputs.zip shapes, c ∈ p.1) :
    findOutputShape inputs shapes output = .error .index ↔ ∃ c ∈ output, ∃ p ∈ inputs.zip shapes, c ∈ p.1 ∧ p.2.length ≤ p.1.idxOf c := by
  have hswap : ∀ p, p ∈ shapes.zip inputs ↔ p.swap ∈ inputs.zip shapes := by
    intro p
    rw [List.mem_iff_getElem?, List.mem_iff_getElem?]
    apply exists_congr; intro i
    simp only [List.getElem?_zip_eq_some, Prod.fst_swap, Prod.snd_swap]
    exact and_comm
  have hfind : ∀ (t : Str) c, find? t c = if c ∈ t then some (t.idxOf c) else none := by
    intro t c
    unfold find?
    induction t with
    | nil => rfl
    | cons a t ih =>
      rw [List.idxOf?_cons, ih]
      by_cases h : a = c
      · simp [h]
      · have h' : c ≠ a := fun e => h e.symm
        by_cases hc : c ∈ t <;> simp [h, h', hc, List.idxOf_cons_ne]
  have hdim : ∀ c ∈ output, (findOutputDim inputs shapes c = .error .index ↔ ∃ p ∈ inputs.zip shapes, c ∈ p.1 ∧ p.2.length ≤ p.1.idxOf c) ∧
      (findOutputDim inputs shapes c = .error .index ∨ ∃ d, findOutputDim inputs shapes c = .ok d) := by
    intro c hc
    have hbad : (none ∈ (shapes.zip inputs).filterMap (fun p => (find? p.2 c).map (fun loc => p.1[loc]?))) ↔
        ∃ p ∈ inputs.zip shapes, c ∈ p.1 ∧ p.2.length ≤ p.1.idxOf c := by
      rw [List.mem_filterMap]
      constructor
      · rintro ⟨p, hp, h⟩
        rw [hfind] at h
        split at h
        · rename_i hm
          simp only [Option.map_some, Option.some.injEq, List.getElem?_eq_none_iff] at h
          exact ⟨p.swap, (hswap p).mp hp, hm, h⟩
        · cases h
      · rintro ⟨p, hp, hm, h⟩
        refine ⟨p.swap, (hswap _).mpr (by simpa using hp), ?_⟩
        rw [hfind]
        simp [hm, h]
    unfold findOutputDim
    rw [mapM_optIndex]
    by_cases h : none ∈ (shapes.zip inputs).filterMap (fun p => (find? p.2 c).map (fun loc => p.1[loc]?))
    · rw [if_pos h]
      exact ⟨⟨fun _ => hbad.mp h, fun _ => rfl⟩, Or.inl rfl⟩
    · rw [if_neg h]
      obtain ⟨p, hp, hm⟩ := hocc c hc
      have hmem : (p.2[p.1.idxOf c]?) ∈ (shapes.zip inputs).filterMap (fun p => (find? p.2 c).map (fun loc => p.1[loc]?)) := by
        rw [List.mem_filterMap]
        refine ⟨p.swap, (hswap _).mpr (by simpa using hp), ?_⟩
        rw [hfind]
        simp [hm]
      generalize (shapes.zip inputs).filterMap (fun p => (find? p.2 c).map (fun loc => p.1[loc]?)) = l at *
      obtain ⟨d, hd⟩ : ∃ d, some d ∈ l := by
        cases hx : p.2[p.1.idxOf c]? with
        | none => rw [hx] at hmem; exact absurd hmem h
        | some d => rw [hx] at hmem; exact ⟨d, hmem⟩
      have hd' : d ∈ l.filterMap id := List.mem_filterMap.mpr ⟨some d, hd, rfl⟩
      cases hl : l.filterMap id with
      | nil => rw [hl] at hd'; cases hd'
      | cons x xs =>
        exact ⟨⟨(fun g => nomatch g), fun g => absurd (hbad.mpr g) h⟩, Or.inr ⟨_, rfl⟩⟩
  unfold findOutputShape
  rw [mapM_error output (fun c hc => (hdim c hc).2)]
  constructor
  · rintro ⟨c, hc, h⟩
    exact ⟨c, hc, ((hdim c hc).1).mp h⟩
  · rintro ⟨c, hc, h⟩
    exact ⟨c, hc, ((hdim c hc).1).mpr h⟩

-- the second axis of 'ab' is missing
example : findOutputShape [S "ab", S "a"] [[2], [2]] (S "ab") = .error .index :=
  (C37_short_shape _ _ _ (by decide)).mpr ⟨98, by decide, (S "ab", [2]), by decide, by decide, by decide⟩
-- it does not matter if the label is not in the output
example : findOutputShape [S "ab", S "a"] [[2], [2]] (S "a") = .ok [2] := by decide
end OE.Props
