import Verif.Model.Testing
import Verif.Lemmas.DictLemmas
import Verif.Props.Contract3

/-!
# C56, C57: the generators of `opt_einsum/testing.py`
-/

namespace OE.Testing
open OE OE.Py OE.Parser OE.Spec

/-- Operands whose dimensions are the sizes of their labels fit. -/
theorem operandsFit_sizes {size : Nat → Nat} (inputs : List Str) : OperandsFit size inputs (inputs.map (List.map size)) := by
  have hd : ∀ c d, DimOccurs inputs (inputs.map (List.map size)) c d → d = size c := by
    rintro c d ⟨i, j, t, s, h1, h2, h3, h4⟩
    rw [List.getElem?_map, h1] at h2
    cases h2
    rw [List.getElem?_map, h3] at h4
    cases h4
    rfl
  refine ⟨?_, ?_, ?_, ?_⟩
  · intro i t s h1 h2
    rw [List.getElem?_map, h1] at h2
    cases h2
    simp
  · intro t ht c hc
    refine ⟨?_, fun d h => Or.inr (hd c d h)⟩
    obtain ⟨i, hi, rfl⟩ := List.getElem_of_mem ht
    obtain ⟨j, hj, rfl⟩ := List.getElem_of_mem hc
    exact ⟨i, j, inputs[i], inputs[i].map size, by simp [hi], by simp [hi], by simp [hj], by simp [hj]⟩
  · intro i j k t s c d d' h1 h2 h3 h4 h5 h6
    exact (hd c d ⟨i, j, t, s, h1, h2, h3, h5⟩).trans (hd c d' ⟨i, k, t, s, h1, h2, h4, h6⟩).symm
  · rintro c ⟨h0, h1⟩
    have := (hd c 0 h0).trans (hd c 1 h1).symm
    omega

theorem addTo_length (inputs : List Str) (i ix : Nat) : (addTo inputs i ix).length = inputs.length := by simp [addTo]

theorem addTo_getD (inputs : List Str) (i ix j : Nat) (hi : i < inputs.length) :
    (addTo inputs i ix).getD j [] = if i = j then inputs.getD j [] ++ [ix] else inputs.getD j [] := by
  unfold addTo
  simp only [List.getD_eq_getElem?_getD, List.getElem?_modify]
  by_cases h : i = j
  · subst h
    simp [hi]
  · simp [h]

theorem addTo_flatten (inputs : List Str) (i ix : Nat) (hi : i < inputs.length) : (addTo inputs i ix).flatten.Perm (ix :: inputs.flatten) := by
  induction inputs generalizing i with
  | nil => simp at hi
  | cons a t ih =>
    cases i with
    | zero =>
      simp only [addTo, List.modify_zero_cons, List.flatten_cons]
      rw [List.append_assoc]
      exact (List.perm_middle (a := ix) (l₁ := a) (l₂ := t.flatten))
    | succ i =>
      have := ih i (by simpa using hi)
      simp only [addTo, List.modify_succ_cons, List.flatten_cons] at this ⊢
      exact (this.append_left a).trans List.perm_middle

theorem addTo_nodup {inputs : List Str} {i ix : Nat} (h : ∀ t ∈ inputs, t.Nodup) (hi : i < inputs.length) (hix : ix ∉ inputs.getD i []) :
    ∀ t ∈ addTo inputs i ix, t.Nodup := by
  intro t ht
  obtain ⟨j, hj, rfl⟩ := List.getElem_of_mem ht
  have hj' : j < inputs.length := by simpa [addTo] using hj
  have h1 := addTo_getD inputs i ix j hi
  rw [List.getD_eq_getElem?_getD, List.getElem?_eq_getElem hj, Option.getD_some] at h1
  rw [h1]
  have h2 : (inputs.getD j []).Nodup := by rw [List.getD_eq_getElem?_getD, List.getElem?_eq_getElem hj', Option.getD_some]; exact h _ (List.getElem_mem hj')
  split
  · rename_i e
    subst e
    rw [List.nodup_append]
    refine ⟨h2, by simp, ?_⟩
    intro a ha b hb
    rw [List.mem_singleton] at hb
    rintro rfl
    exact hix (hb ▸ ha)
  · exact h2

theorem findPlace_spec {place : Nat → Nat} {inputs : List Str} {ix fuel k w k' : Nat} (h : findPlace place inputs ix fuel k = some (w, k')) :
    (∃ j, w = place j) ∧ ix ∉ inputs.getD w [] := by
  induction fuel generalizing k with
  | zero => cases h
  | succ f ih =>
    rw [findPlace] at h
    split at h
    · exact ih h
    · rename_i hn
      cases h
      exact ⟨⟨k, rfl⟩, hn⟩

theorem placeAll_spec {n : Nat} {place : Nat → Nat} {fuel : Nat} (hp : n ≠ 0 → ∀ k, place k < n) (L : List Nat) :
    ∀ (i0 k : Nat) (inputs inputs' : List Str), placeAll n place fuel (L.zipIdx i0) inputs k = some (.ok inputs') →
      inputs.length = n → (∀ t ∈ inputs, t.Nodup) → (∀ j, i0 ≤ j → i0 < n → inputs.getD j [] = []) →
      inputs'.length = n ∧ (∀ t ∈ inputs', t.Nodup) ∧ inputs'.flatten.Perm (inputs.flatten ++ L) ∧
        (∀ j < n, inputs.getD j [] ≠ [] ∨ (i0 ≤ j ∧ j < i0 + L.length) → inputs'.getD j [] ≠ []) := by
  induction L with
  | nil =>
    intro i0 k inputs inputs' h hl hn _
    rw [List.zipIdx_nil, placeAll] at h
    cases h
    refine ⟨hl, hn, by simp, ?_⟩
    rintro j _ (h | ⟨h1, h2⟩)
    · exact h
    · simp at h2; omega
  | cons ix L ih =>
    intro i0 k inputs inputs' h hl hn hz
    rw [List.zipIdx_cons, placeAll] at h
    by_cases hi : i0 < n
    · rw [if_pos hi] at h
      have hil : i0 < inputs.length := by omega
      obtain ⟨g1, g2, g3, g4⟩ := ih (i0 + 1) k (addTo inputs i0 ix) inputs' h (by rw [addTo_length]; exact hl)
        (addTo_nodup hn hil (by rw [hz i0 (le_refl _) hi]; simp))
        (by
          intro j hj _
          rw [addTo_getD _ _ _ _ hil, if_neg (by omega)]
          exact hz j (by omega) hi)
      refine ⟨g1, g2, g3.trans ?_, ?_⟩
      · exact ((addTo_flatten inputs i0 ix hil).append_right L).trans List.perm_middle.symm
      · intro j hj hor
        apply g4 j hj
        rw [addTo_getD _ _ _ _ hil]
        simp only [List.length_cons] at hor
        by_cases e : i0 = j
        · left; rw [if_pos e]; simp
        · rw [if_neg e]
          rcases hor with h | h
          · exact Or.inl h
          · right; omega
    · rw [if_neg hi] at h
      by_cases h0 : n = 0
      · rw [if_pos h0] at h; cases h
      · rw [if_neg h0] at h
        cases hf : findPlace place inputs ix fuel k with
        | none => rw [hf] at h; cases h
        | some wk =>
          obtain ⟨w, k'⟩ := wk
          rw [hf] at h
          obtain ⟨⟨jj, hw⟩, hix⟩ := findPlace_spec hf
          have hwl : w < inputs.length := by rw [hl, hw]; exact hp h0 jj
          obtain ⟨g1, g2, g3, g4⟩ := ih (i0 + 1) k' (addTo inputs w ix) inputs' h (by rw [addTo_length]; exact hl)
            (addTo_nodup hn hwl hix) (fun j _ h => by omega)
          refine ⟨g1, g2, g3.trans ?_, ?_⟩
          · exact ((addTo_flatten inputs w ix hwl).append_right L).trans List.perm_middle.symm
          · intro j hj hor
            apply g4 j hj
            rcases hor with h | h
            · left
              rw [addTo_getD _ _ _ _ hwl]
              split
              · simp
              · exact h
            · omega

/-! ### Termination -/

theorem findPlace_mono {place : Nat → Nat} {inputs : List Str} {ix : Nat} {r : Nat × Nat} :
    ∀ {f f' k : Nat}, f ≤ f' → findPlace place inputs ix f k = some r → findPlace place inputs ix f' k = some r := by
  intro f
  induction f with
  | zero => intro f' k _ h; cases h
  | succ f ih =>
    intro f' k hle h
    obtain ⟨m, rfl⟩ : ∃ m, f' = m + 1 := ⟨f' - 1, by omega⟩
    rw [findPlace] at h ⊢
    split
    · rename_i hin
      rw [if_pos hin] at h
      exact ih (by omega) h
    · rename_i hin
      rw [if_neg hin] at h
      exact h

theorem findPlace_ends {place : Nat → Nat} {inputs : List Str} {ix : Nat} (k d : Nat) (h : ix ∉ inputs.getD (place (k + d)) []) :
    ∃ f r, findPlace place inputs ix f k = some r := by
  induction d generalizing k with
  | zero => exact ⟨1, (place k, k + 1), by rw [findPlace, if_neg (by simpa using h)]⟩
  | succ d ih =>
    obtain ⟨f, r, hr⟩ := ih (k + 1) (by rwa [show k + 1 + d = k + (d + 1) by omega])
    by_cases hin : ix ∈ inputs.getD (place k) []
    · exact ⟨f + 1, r, by rw [findPlace, if_pos hin]; exact hr⟩
    · exact ⟨1, (place k, k + 1), by rw [findPlace, if_neg hin]⟩

theorem placeAll_mono {n : Nat} {place : Nat → Nat} {r : Except PyErr (List Str)} {f f' : Nat} (hle : f ≤ f') (L : List (Nat × Nat)) :
    ∀ (inputs : List Str) (k : Nat), placeAll n place f L inputs k = some r → placeAll n place f' L inputs k = some r := by
  induction L with
  | nil => intro inputs k h; exact h
  | cons p L ih =>
    obtain ⟨ix, i⟩ := p
    intro inputs k h
    rw [placeAll] at h ⊢
    split
    · rename_i hi; rw [if_pos hi] at h; exact ih _ _ h
    · rename_i hi
      rw [if_neg hi] at h
      split
      · rename_i h0; rw [if_pos h0] at h; exact h
      · rename_i h0
        rw [if_neg h0] at h
        cases hf : findPlace place inputs ix f k with
        | none => rw [hf] at h; cases h
        | some wk =>
          rw [hf] at h
          rw [findPlace_mono hle hf]
          exact ih _ _ h

/-- A label that occurs at most once is missing from one of the first two inputs. -/
theorem exists_free {inputs : List Str} {ix : Nat} (h2 : 2 ≤ inputs.length) (hc : inputs.flatten.count ix ≤ 1) :
    ∃ w < inputs.length, ix ∉ inputs.getD w [] := by
  rcases inputs with _ | ⟨a, _ | ⟨b, t⟩⟩
  · simp at h2
  · simp at h2
  · by_cases ha : ix ∈ a
    · refine ⟨1, by simp, ?_⟩
      intro hb
      simp only [List.flatten_cons, List.count_append] at hc
      have h1 := List.count_pos_iff.mpr ha
      have h2 := List.count_pos_iff.mpr (show ix ∈ b by simpa using hb)
      omega
    · exact ⟨0, by simp, by simpa using ha⟩

theorem placeAll_ends {n : Nat} {place : Nat → Nat} (hn : 2 ≤ n) (hp : ∀ k, place k < n) (hfair : ∀ w < n, ∀ k, ∃ d, place (k + d) = w) (L : List Nat) :
    ∀ (i0 k : Nat) (inputs : List Str), inputs.length = n → (∀ c, (inputs.flatten ++ L).count c ≤ 2) →
      ∃ fuel inputs', placeAll n place fuel (L.zipIdx i0) inputs k = some (.ok inputs') := by
  induction L with
  | nil => intro i0 k inputs _ _; exact ⟨0, inputs, rfl⟩
  | cons ix L ih =>
    intro i0 k inputs hl hc
    have hc' : ∀ w < inputs.length, ∀ c, ((addTo inputs w ix).flatten ++ L).count c ≤ 2 := by
      intro w hw c
      have := (((addTo_flatten inputs w ix hw).append_right L).trans (List.perm_middle (l₁ := inputs.flatten)).symm).count_eq c
      rw [this]
      exact hc c
    rw [List.zipIdx_cons]
    by_cases hi : i0 < n
    · obtain ⟨fuel, inputs', h⟩ := ih (i0 + 1) k (addTo inputs i0 ix) (by rw [addTo_length]; exact hl) (hc' i0 (by omega))
      exact ⟨fuel, inputs', by rw [placeAll, if_pos hi]; exact h⟩
    · have hcx : inputs.flatten.count ix ≤ 1 := by
        have := hc ix
        rw [List.count_append, List.count_cons] at this
        simp at this
        omega
      obtain ⟨w, hw, hix⟩ := exists_free (by omega) hcx
      obtain ⟨d, hd⟩ := hfair w (by omega) k
      obtain ⟨f1, ⟨w', k'⟩, h1⟩ := findPlace_ends (place := place) k d (by rw [hd]; exact hix)
      obtain ⟨⟨jj, hw'⟩, _⟩ := findPlace_spec h1
      have hwl : w' < inputs.length := by rw [hl, hw']; exact hp jj
      obtain ⟨f2, inputs', h2⟩ := ih (i0 + 1) k' (addTo inputs w' ix) (by rw [addTo_length]; exact hl) (hc' w' hwl)
      refine ⟨max f1 f2, inputs', ?_⟩
      rw [placeAll, if_neg hi, if_neg (by omega), findPlace_mono (le_max_left f1 f2) h1]
      exact placeAll_mono (le_max_right f1 f2) _ _ _ h2

/-! ### The indices -/

theorem genList_count (nOut numInds c : Nat) : (genList nOut numInds).count c =
    if c ∈ (List.range numInds).map getSymbol then (if c ∈ (List.range nOut).map getSymbol then 1 else 2) else 0 := by
  unfold genList
  induction numInds with
  | zero => simp
  | succ m ih =>
    rw [List.range_succ, List.flatMap_append, List.count_append, ih]
    simp only [List.flatMap_cons, List.flatMap_nil, List.append_nil, List.map_append, List.map_cons, List.map_nil, List.mem_append, List.mem_singleton]
    by_cases hc : c = getSymbol m
    · subst hc
      have h1 : getSymbol m ∉ (List.range m).map getSymbol := by
        intro h
        obtain ⟨j, hj, e⟩ := List.mem_map.mp h
        have := getSymbol_injective e
        rw [List.mem_range] at hj
        omega
      have h2 : (getSymbol m ∈ (List.range nOut).map getSymbol) ↔ m < nOut := by
        constructor
        · intro h
          obtain ⟨j, hj, e⟩ := List.mem_map.mp h
          have := getSymbol_injective e
          rw [List.mem_range] at hj
          omega
        · intro h
          exact List.mem_map_of_mem (List.mem_range.mpr h)
      by_cases h3 : m < nOut <;> simp [h1, h2, h3]
    · have h4 : (if m < nOut then [getSymbol m] else [getSymbol m, getSymbol m]).count c = 0 := by
        rw [List.count_eq_zero]
        split <;> simp [hc]
      rw [h4]
      simp [hc]

theorem genList_length (nOut numInds : Nat) (h : nOut ≤ numInds) : (genList nOut numInds).length = nOut + 2 * (numInds - nOut) := by
  unfold genList
  induction numInds with
  | zero => simp; omega
  | succ m ih =>
    rw [List.range_succ, List.flatMap_append, List.length_append]
    by_cases hm : nOut ≤ m
    · rw [ih hm]
      simp only [List.flatMap_cons, List.flatMap_nil, List.append_nil]
      rw [if_neg (by omega)]
      simp; omega
    · have e : nOut = m + 1 := by omega
      subst e
      have : (List.flatMap (fun i => if i < m + 1 then [getSymbol i] else [getSymbol i, getSymbol i]) (List.range m)) = (List.range m).map getSymbol := by
        rw [List.map_eq_flatMap]
        apply List.flatMap_congr
        intro i hi
        rw [List.mem_range] at hi
        rw [if_pos (by omega)]
      rw [this]
      simp

end OE.Testing

namespace OE.Testing
open OE OE.Py OE.Parser OE.Spec

/-- The random numbers are what numpy promises: permutations permute, `randint(a, b)` is in `[a, b)`. -/
structure DrawsOK (D : Draws) (n dMin dMax : Nat) : Prop where
  permute : ∀ l, (D.permute l).Perm l
  permuteOut : ∀ l, (D.permuteOut l).Perm l
  place : n ≠ 0 → ∀ k, D.place k < n
  size : dMin ≤ dMax → ∀ i, dMin ≤ D.size i ∧ D.size i ≤ dMax

/-- What `rand_equation` promises of the equation `inputs -> output`, the shapes and the sizes. -/
structure IsRandEquation (n regularity nOut dMin dMax : Nat) (globalDim : Bool) (inputs : List Str) (output : Str) (eq : Str)
    (shapes : List Shape) (sizes : Dict Nat Nat) : Prop where
  /-- The equation is written with its output. -/
  eq_str : eq = List.intercalate [cComma] inputs ++ S "->" ++ output
  terms : inputs.length = n
  chars : ∀ c ∈ inputs.flatten, ¬ IsPunct c ∧ c ≠ cSpace
  out_sub : n ≠ 0 → ∀ c ∈ output, c ∈ inputs.flatten
  /-- No traces. -/
  nodup : ∀ t ∈ inputs, t.Nodup
  out_nodup : output.Nodup
  out_length : output.length = nOut + (if globalDim then 1 else 0)
  /-- `n * regularity // 2` bonds, each between two operands, besides the output's labels. -/
  labels : n ≠ 0 → inputs.flatten.toFinset.card = n * regularity / 2 + nOut + (if globalDim then 1 else 0)
  bonds : ∀ c ∈ inputs.flatten, c ∉ output → inputs.flatten.count c = 2
  /-- Every label of the output is on one operand, but the global one is on all of them. -/
  outer : ∃ g : List Nat, g.length = (if globalDim then 1 else 0) ∧ (∀ c ∈ g, c ∈ output ∧ ∀ t ∈ inputs, c ∈ t) ∧
    ∀ c ∈ output, c ∉ g → inputs.flatten.count c = 1
  /-- Every operand has a label if there are enough of them. -/
  nonempty : globalDim = true ∨ n ≤ 2 * (n * regularity / 2) + nOut → [] ∉ inputs
  /-- The sizes are in range and the operands have them. -/
  range : ∀ c ∈ inputs.flatten, ∃ s, sizes.get? c = some s ∧ dMin ≤ s ∧ s ≤ dMax
  fit : OperandsFit (fun c => (sizes.get? c).getD 0) inputs shapes
  /-- The parser accepts the equation. -/
  parse : n ≠ 0 → parseEinsum eq shapes = .ok (List.intercalate [cComma] inputs, output)

theorem get?_range (f : Nat → Nat) (m i : Nat) (hi : i < m) :
    Dict.get? ((List.range m).map (fun i => (getSymbol i, f i))) (getSymbol i) = some (f i) := by
  suffices h : ∀ l : List Nat, i ∈ l → Dict.get? (l.map (fun i => (getSymbol i, f i))) (getSymbol i) = some (f i) from
    h _ (List.mem_range.mpr hi)
  intro l hl
  induction l with
  | nil => cases hl
  | cons a t ih =>
    rw [List.map_cons, Dict.get?]
    by_cases e : a = i
    · subst e; simp
    · rw [if_neg (fun h => e (getSymbol_injective h))]
      rcases List.mem_cons.mp hl with h | h
      · exact absurd h.symm e
      · exact ih h

theorem append_global_perm (g : Nat) (l : List Str) : (l.map (· ++ [g])).flatten.Perm (l.flatten ++ List.replicate l.length g) := by
  induction l with
  | nil => simp
  | cons a t ih =>
    simp only [List.map_cons, List.flatten_cons, List.length_cons, List.append_assoc, List.singleton_append, List.replicate_succ]
    refine ((ih.cons g).append_left a).trans ?_
    exact (List.perm_middle.symm).append_left a

end OE.Testing

namespace OE.Props
open OE OE.Py OE.Parser OE.Spec OE.Testing

/-- **C56.** Whatever numbers are drawn, an equation that `rand_equation` returns is as documented: the given number of operands, each bond between
two of them, no traces, the given number of outputs, sizes in range, shapes that fit; the parser accepts it. -/
theorem C56_rand_equation {n regularity nOut dMin dMax : Nat} {globalDim : Bool} {D : Draws} (hD : DrawsOK D n dMin dMax) {fuel : Nat} {eq : Str}
    {shapes : List Shape} {sizes : Dict Nat Nat}
    (h : randEquation n regularity nOut dMin dMax globalDim D fuel = some (.ok (eq, shapes, sizes))) :
    ∃ inputs output, IsRandEquation n regularity nOut dMin dMax globalDim inputs output eq shapes sizes := by
  unfold randEquation at h
  simp only at h
  split at h
  · cases h
  rename_i hdim
  set m := n * regularity / 2 + nOut with hm
  cases hpl : placeAll n D.place fuel (D.permute (genList nOut m)).zipIdx (List.replicate n []) 0 with
  | none => rw [hpl] at h; cases h
  | some r =>
  cases r with
  | error e => rw [hpl] at h; cases h
  | ok inp0 =>
  rw [hpl] at h
  simp only at h
  obtain ⟨g1, g2, g3, g4⟩ := placeAll_spec hD.place _ 0 0 _ _ hpl (by simp) (by simp) (by
    intro j _ _
    by_cases hj : j < n <;> simp [List.getD_eq_getElem?_getD, hj])
  have hfl : inp0.flatten.Perm (genList nOut m) := by
    refine (g3.trans ?_).trans (hD.permute _)
    simp
  have hcnt := fun c => (hfl.count_eq c).trans (genList_count nOut m c)
  set syms := (List.range m).map getSymbol with hsyms
  set outs := (List.range nOut).map getSymbol with houts
  have houtsub : ∀ c ∈ outs, c ∈ syms := by
    intro c hc
    obtain ⟨i, hi, rfl⟩ := List.mem_map.mp hc
    rw [List.mem_range] at hi
    exact List.mem_map_of_mem (List.mem_range.mpr (by omega))
  have hmem0 : ∀ c, c ∈ inp0.flatten ↔ c ∈ syms := by
    intro c
    rw [← List.count_pos_iff, hcnt c]
    by_cases h1 : c ∈ syms
    · by_cases h2 : c ∈ outs <;> simp [h1, h2]
    · simp [h1]
  have houtsnd : outs.Nodup := List.nodup_range.map getSymbol_injective
  have hsymsnd : syms.Nodup := List.nodup_range.map getSymbol_injective
  have hgm : getSymbol m ∉ syms := by
    intro hc
    obtain ⟨i, hi, e⟩ := List.mem_map.mp hc
    have := getSymbol_injective e
    rw [List.mem_range] at hi
    omega
  have hdmin : m ≠ 0 ∨ globalDim = true → dMin ≤ dMax := by
    intro hx
    by_contra hc
    exact hdim ⟨by omega, hx⟩
  have hlen0 : inp0.flatten.length = 2 * (n * regularity / 2) + nOut := by
    rw [hfl.length_eq, genList_length nOut m (by omega)]
    omega
  have hplen : (D.permute (genList nOut m)).length = 2 * (n * regularity / 2) + nOut := by
    rw [(hD.permute _).length_eq, ← hlen0, hfl.length_eq]
  -- what both cases share
  suffices key : ∀ (inputs : List Str) (output0 output : Str) (d : Dict Nat Nat), output.Perm output0 → inputs.length = n → (∀ t ∈ inputs, t.Nodup) →
      output0.Nodup → output0.length = nOut + (if globalDim then 1 else 0) →
      (n ≠ 0 → inputs.flatten.toFinset.card = m + (if globalDim then 1 else 0)) →
      (∀ c ∈ inputs.flatten, c ∉ output0 → inputs.flatten.count c = 2) →
      (∃ g : List Nat, g.length = (if globalDim then 1 else 0) ∧ (∀ c ∈ g, c ∈ output0 ∧ ∀ t ∈ inputs, c ∈ t) ∧
        ∀ c ∈ output0, c ∉ g → inputs.flatten.count c = 1) →
      (globalDim = true ∨ n ≤ 2 * (n * regularity / 2) + nOut → [] ∉ inputs) →
      (∀ c ∈ inputs.flatten, ∃ s, d.get? c = some s ∧ dMin ≤ s ∧ s ≤ dMax) →
      (∀ c ∈ inputs.flatten, ∃ i, c = getSymbol i) → (n ≠ 0 → ∀ c ∈ output0, c ∈ inputs.flatten) →
      (match inputs.mapM (fun op => op.mapM d.get!) with
        | .error e => some (.error e)
        | .ok shapes => some (.ok (join [cComma] inputs ++ [cDash, cGt] ++ output, shapes, d)) :
        Option (Except PyErr (Str × List Shape × Dict Nat Nat))) = some (.ok (eq, shapes, sizes)) →
      ∃ inputs output, IsRandEquation n regularity nOut dMin dMax globalDim inputs output eq shapes sizes by
    cases hg : globalDim with
    | false =>
      rw [hg] at h hdmin
      simp only [Bool.false_eq_true, if_false] at h
      rw [hg] at key
      refine key inp0 outs _ _ (hD.permuteOut _) g1 g2 houtsnd (by simp [houts]) ?_ ?_ ⟨[], by simp, by simp, ?_⟩ ?_ ?_ ?_ ?_ h
      · intro _
        have : inp0.flatten.toFinset = syms.toFinset := by
          ext c; rw [List.mem_toFinset, List.mem_toFinset, hmem0]
        rw [this, List.toFinset_card_of_nodup hsymsnd]
        simp [hsyms]
      · intro c hc ho
        rw [hcnt, if_pos ((hmem0 c).mp hc), if_neg ho]
      · intro c hc _
        rw [hcnt, if_pos (houtsub c hc), if_pos hc]
      · rintro (hx | hx) he
        · cases hx
        · obtain ⟨j, hj, e⟩ := List.getElem_of_mem he
          have := g4 j (by omega) (Or.inr ⟨by omega, by omega⟩)
          apply this
          rw [List.getD_eq_getElem?_getD, List.getElem?_eq_getElem hj, e]
          rfl
      · intro c hc
        obtain ⟨i, hi, rfl⟩ := List.mem_map.mp ((hmem0 c).mp hc)
        rw [List.mem_range] at hi
        exact ⟨_, get?_range D.size m i hi, hD.size (hdmin (Or.inl (by omega))) i⟩
      · intro c hc
        obtain ⟨i, hi, rfl⟩ := List.mem_map.mp ((hmem0 c).mp hc)
        exact ⟨i, rfl⟩
      · intro _ c hc
        exact (hmem0 c).mpr (houtsub c hc)
    | true =>
      rw [hg] at h hdmin
      simp only [if_true] at h
      rw [hg] at key
      have hperm := append_global_perm (getSymbol m) inp0
      have hcnt' : ∀ c, ((inp0.map (· ++ [getSymbol m])).flatten).count c = inp0.flatten.count c + if c = getSymbol m then n else 0 := by
        intro c
        rw [hperm.count_eq, List.count_append, List.count_replicate, g1]
        congr 1
        by_cases e : c = getSymbol m
        · subst e; simp
        · rw [if_neg e, if_neg (by simpa using fun h => e h.symm)]
      have hmem' : ∀ c, c ∈ (inp0.map (· ++ [getSymbol m])).flatten ↔ c ∈ syms ∨ (c = getSymbol m ∧ n ≠ 0) := by
        intro c
        rw [hperm.mem_iff, List.mem_append, hmem0, List.mem_replicate, g1]
        tauto
      have hgo : getSymbol m ∉ outs := fun h => hgm (houtsub _ h)
      have hglast : ∀ c, c ∈ outs ++ [getSymbol m] ↔ c ∈ outs ∨ c = getSymbol m := by simp
      refine key (inp0.map (· ++ [getSymbol m])) (outs ++ [getSymbol m]) _ _ (hD.permuteOut _) (by simp [g1]) ?_ ?_ (by simp [houts]) ?_ ?_
        ⟨[getSymbol m], by simp, ?_, ?_⟩ ?_ ?_ ?_ ?_ h
      · intro t ht
        obtain ⟨t0, ht0, rfl⟩ := List.mem_map.mp ht
        rw [List.nodup_append]
        refine ⟨g2 t0 ht0, by simp, ?_⟩
        intro a ha b hb
        rw [List.mem_singleton] at hb
        rintro rfl
        subst hb
        exact hgm ((hmem0 _).mp (List.mem_flatten.mpr ⟨t0, ht0, ha⟩))
      · rw [List.nodup_append]
        refine ⟨houtsnd, by simp, ?_⟩
        intro a ha b hb
        rw [List.mem_singleton] at hb
        rintro rfl
        subst hb
        exact hgo ha
      · intro h0
        have : (inp0.map (· ++ [getSymbol m])).flatten.toFinset = insert (getSymbol m) syms.toFinset := by
          ext c
          rw [List.mem_toFinset, hmem', Finset.mem_insert, List.mem_toFinset]
          tauto
        rw [this, Finset.card_insert_of_notMem (by rwa [List.mem_toFinset]), List.toFinset_card_of_nodup hsymsnd]
        simp [hsyms]
      · intro c hc ho
        rw [hglast, not_or] at ho
        rw [hcnt', if_neg ho.2, hcnt]
        rcases (hmem' c).mp hc with h | h
        · rw [if_pos h, if_neg ho.1]
        · exact absurd h.1 ho.2
      · intro c hc
        rw [List.mem_singleton] at hc
        subst hc
        refine ⟨by simp, ?_⟩
        intro t ht
        obtain ⟨t0, _, rfl⟩ := List.mem_map.mp ht
        simp
      · intro c hc hn
        rw [List.mem_singleton] at hn
        have hc' := ((hglast c).mp hc).resolve_right hn
        rw [hcnt', if_neg hn, hcnt, if_pos (houtsub c hc'), if_pos hc']
      · intro _ he
        obtain ⟨t0, _, e⟩ := List.mem_map.mp he
        simp at e
      · intro c hc
        rcases (hmem' c).mp hc with h | ⟨rfl, _⟩
        · have hne : c ≠ getSymbol m := fun e => hgm (e ▸ h)
          obtain ⟨i, hi, rfl⟩ := List.mem_map.mp h
          rw [List.mem_range] at hi
          refine ⟨_, ?_, hD.size (hdmin (Or.inr rfl)) i⟩
          rw [OE.Py.Dict.get?_set_ne hne]
          exact get?_range D.size m i hi
        · exact ⟨_, OE.Py.Dict.get?_set_self .., hD.size (hdmin (Or.inr rfl)) m⟩
      · intro c hc
        rcases (hmem' c).mp hc with h | ⟨rfl, _⟩
        · obtain ⟨i, hi, rfl⟩ := List.mem_map.mp h
          exact ⟨i, rfl⟩
        · exact ⟨m, rfl⟩
      · intro h0 c hc
        rw [hmem']
        rcases (hglast c).mp hc with h | h
        · exact Or.inl (houtsub c h)
        · exact Or.inr ⟨h, h0⟩
  clear h
  intro inputs output0 output d hop k1 k2 k3 k4 k5 k6 k7 k8 k9 k10 k11 h
  have harrow : S "->" = [cDash, cGt] := by decide
  have hget : ∀ t ∈ inputs, t.mapM d.get! = .ok (t.map (fun c => (d.get? c).getD 0)) := by
    intro t ht
    apply Contract.mapM_ok
    intro c hc
    obtain ⟨s, hs, _⟩ := k9 c (List.mem_flatten.mpr ⟨t, ht, hc⟩)
    simp [Dict.get!, hs]
  rw [Contract.mapM_ok hget] at h
  simp only [Option.some.injEq, Except.ok.injEq, Prod.mk.injEq] at h
  obtain ⟨rfl, rfl, rfl⟩ := h
  refine ⟨inputs, output, ?_, k1, ?_, fun h0 c hc => k11 h0 c (hop.mem_iff.mp hc), k2, hop.nodup_iff.mpr k3, hop.length_eq.trans k4, k5, ?_, ?_, k8, k9, operandsFit_sizes inputs, ?_⟩
  · rw [join_eq_intercalate, harrow]
  · intro c hc
    obtain ⟨i, rfl⟩ := k10 c hc
    exact ⟨getSymbol_not_isPunct i, by have := getSymbol_ge i; intro e; omega⟩
  · intro c hc ho
    exact k6 c hc (fun h => ho (hop.mem_iff.mpr h))
  · obtain ⟨g, e1, e2, e3⟩ := k7
    exact ⟨g, e1, fun c hc => ⟨hop.mem_iff.mpr (e2 c hc).1, (e2 c hc).2⟩, fun c hc hn => e3 c (hop.mem_iff.mp hc) hn⟩
  · intro h0
    have hne : inputs ≠ [] := by rintro rfl; exact h0 k1.symm
    have hpt : ∀ t ∈ inputs, ∀ c ∈ t, ¬ IsPunct c ∧ c ≠ cSpace := by
      intro t ht c hc
      obtain ⟨i, rfl⟩ := k10 c (List.mem_flatten.mpr ⟨t, ht, hc⟩)
      exact ⟨getSymbol_not_isPunct i, by have := getSymbol_ge i; intro e; omega⟩
    have hpo : ∀ c ∈ output, ¬ IsPunct c ∧ c ≠ cSpace := by
      intro c hc
      obtain ⟨t, ht, h⟩ := List.mem_flatten.mp (k11 h0 c (hop.mem_iff.mp hc))
      exact hpt t ht c h
    have hj : ∀ c ∈ join [cComma] inputs, c = cComma ∨ (¬ IsPunct c ∧ c ≠ cSpace) := by
      intro c hc
      rcases mem_join _ _ _ hc with h | ⟨t, ht, h⟩
      · left; simpa using h
      · right; exact hpt t ht c h
    have hall : ∀ c ∈ join [cComma] inputs ++ [cDash, cGt] ++ output, c = cComma ∨ c = cDash ∨ c = cGt ∨ (¬ IsPunct c ∧ c ≠ cSpace) := by
      intro c hc
      simp only [List.mem_append, List.mem_cons, List.not_mem_nil, or_false] at hc
      rcases hc with (hc | hc | hc) | hc
      · rcases hj c hc with h | h
        · exact Or.inl h
        · exact Or.inr (Or.inr (Or.inr h))
      · exact Or.inr (Or.inl hc)
      · exact Or.inr (Or.inr (Or.inl hc))
      · exact Or.inr (Or.inr (Or.inr (hpo c hc)))
    have hfree : ∀ {x : Nat} {l : Str}, (∀ c ∈ l, c = cComma ∨ (¬ IsPunct c ∧ c ≠ cSpace)) → IsPunct x → x ≠ cComma → x ∉ l := by
      intro x l hl hx hn hm
      rcases hl x hm with h | h
      · exact hn h
      · exact h.1 hx
    have hpo' : ∀ c ∈ output, c = cComma ∨ (¬ IsPunct c ∧ c ≠ cSpace) := fun c hc => Or.inr (hpo c hc)
    rw [C34_parse_einsum_input_iff]
    · have hf : (join [cComma] inputs ++ [cDash, cGt] ++ output).filter (· ≠ cSpace) = join [cComma] inputs ++ [cDash, cGt] ++ output := by
        rw [List.filter_eq_self]
        intro c hc
        simp only [decide_eq_true_eq]
        rcases hall c hc with h | h | h | h
        · omega
        · omega
        · omega
        · exact h.2
      rw [hf, ← join_eq_intercalate, ← harrow]
      refine WellFormed.explicit _ _ (hfree hj (by simp [IsPunct]) (by decide)) (hfree hj (by simp [IsPunct]) (by decide))
        (hfree hpo' (by simp [IsPunct]) (by decide)) (hfree hpo' (by simp [IsPunct]) (by decide)) (hop.nodup_iff.mpr k3) ?_ ?_
      · intro c hc
        obtain ⟨t, ht, h⟩ := List.mem_flatten.mp (k11 h0 c (hop.mem_iff.mp hc))
        exact mem_join_of_mem _ _ _ t ht h
      · rw [← splitOn_length, splitOn_join _ _ hne (fun t ht hc => (hpt t ht _ hc).1 (by simp [IsPunct]))]
        simp
    · intro hc
      rcases hall _ hc with h | h | h | h
      · omega
      · omega
      · omega
      · exact h.1 (by simp [IsPunct])

end OE.Props

namespace OE.Testing
open OE OE.Py OE.Parser OE.Spec

theorem placeAll_no_error {n : Nat} (hn : n ≠ 0) {place : Nat → Nat} {fuel : Nat} (L : List (Nat × Nat)) :
    ∀ (inputs : List Str) (k : Nat) (e : PyErr), placeAll n place fuel L inputs k ≠ some (.error e) := by
  induction L with
  | nil => intro inputs k e h; simp [placeAll] at h
  | cons p L ih =>
    obtain ⟨ix, i⟩ := p
    intro inputs k e h
    rw [placeAll] at h
    simp only [if_neg hn] at h
    split at h
    · exact ih _ _ _ h
    · cases hf : findPlace place inputs ix fuel k with
      | none => rw [hf] at h; cases h
      | some r => rw [hf] at h; exact ih _ _ _ h

end OE.Testing

namespace OE.Props
open OE OE.Py OE.Parser OE.Spec OE.Testing

/-- With at least two operands and draws that keep hitting every operand, `rand_equation` returns. -/
theorem C56_returns {n regularity nOut dMin dMax : Nat} {globalDim : Bool} {D : Draws} (hD : DrawsOK D n dMin dMax) (hn : 2 ≤ n) (hd : dMin ≤ dMax)
    (hfair : ∀ w < n, ∀ k, ∃ d, D.place (k + d) = w) :
    ∃ fuel eq shapes sizes, randEquation n regularity nOut dMin dMax globalDim D fuel = some (.ok (eq, shapes, sizes)) := by
  have hn0 : n ≠ 0 := by omega
  obtain ⟨fuel, inp, hpl⟩ := placeAll_ends hn (hD.place hn0) hfair (D.permute (genList nOut (n * regularity / 2 + nOut))) 0 0 (List.replicate n [])
    (by simp) (by
      intro c
      rw [List.count_append, (hD.permute _).count_eq, genList_count]
      simp only [List.flatten_replicate_nil, List.count_nil]
      split <;> [split; skip] <;> omega)
  obtain ⟨_, _, g3, _⟩ := placeAll_spec hD.place _ 0 0 _ _ hpl (by simp) (by simp) (by
    intro j _ _
    by_cases hj : j < n <;> simp [List.getD_eq_getElem?_getD, hj])
  set m := n * regularity / 2 + nOut with hm
  have hmem : ∀ t ∈ inp, ∀ c ∈ t, c ∈ (List.range m).map getSymbol := by
    intro t ht c hc
    have h1 : c ∈ genList nOut m := ((g3.trans (by simp)).trans (hD.permute _)).mem_iff.mp (List.mem_flatten.mpr ⟨t, ht, hc⟩)
    rw [← List.count_pos_iff, genList_count] at h1
    by_contra h2
    simp [h2] at h1
  refine ⟨fuel, ?_⟩
  unfold randEquation
  simp only [← hm]
  rw [if_neg (by omega), hpl]
  simp only
  cases globalDim with
  | false =>
    simp only [Bool.false_eq_true, if_false]
    rw [Contract.mapM_ok (g := fun t => t.map (fun c => (Dict.get? ((List.range m).map (fun i => (getSymbol i, D.size i))) c).getD 0))]
    · exact ⟨_, _, _, rfl⟩
    · intro t ht
      apply Contract.mapM_ok
      intro c hc
      obtain ⟨i, hi, rfl⟩ := List.mem_map.mp (hmem t ht c hc)
      rw [Dict.get!, get?_range D.size m i (List.mem_range.mp hi)]
      rfl
  | true =>
    simp only [if_true]
    rw [Contract.mapM_ok (g := fun t => t.map (fun c => (Dict.get? (Dict.set ((List.range m).map (fun i => (getSymbol i, D.size i)))
      (getSymbol m) (D.size m)) c).getD 0))]
    · exact ⟨_, _, _, rfl⟩
    · intro t ht
      obtain ⟨t0, ht0, rfl⟩ := List.mem_map.mp ht
      apply Contract.mapM_ok
      intro c hc
      by_cases hcm : c = getSymbol m
      · subst hcm
        rw [Dict.get!, OE.Py.Dict.get?_set_self]
        rfl
      · have hc' : c ∈ t0 := by
          rcases List.mem_append.mp hc with h | h
          · exact h
          · exact absurd (List.mem_singleton.mp h) hcm
        obtain ⟨i, hi, rfl⟩ := List.mem_map.mp (hmem t0 ht0 c hc')
        rw [Dict.get!, OE.Py.Dict.get?_set_ne hcm, get?_range D.size m i (List.mem_range.mp hi)]
        rfl

/-- With a single operand and at least one bond, `rand_equation` draws forever, whatever is drawn. -/
theorem C56_single_operand_never_returns {regularity nOut dMin dMax : Nat} {globalDim : Bool} {D : Draws} (hD : DrawsOK D 1 dMin dMax)
    (hr : 2 ≤ regularity) (hd : dMin ≤ dMax) (fuel : Nat) :
    randEquation 1 regularity nOut dMin dMax globalDim D fuel = none := by
  have hnone : placeAll 1 D.place fuel (D.permute (genList nOut (1 * regularity / 2 + nOut))).zipIdx (List.replicate 1 []) 0 = none := by
    cases hpl : placeAll 1 D.place fuel (D.permute (genList nOut (1 * regularity / 2 + nOut))).zipIdx (List.replicate 1 []) 0 with
    | none => rfl
    | some r =>
      exfalso
      cases r with
      | error e => exact placeAll_no_error (by decide) _ _ _ _ hpl
      | ok inp =>
        obtain ⟨g1, g2, g3, _⟩ := placeAll_spec hD.place _ 0 0 _ _ hpl (by simp) (by simp) (by
          intro j _ _
          by_cases hj : j < 1 <;> simp [List.getD_eq_getElem?_getD, hj])
        obtain ⟨t, rfl⟩ := List.length_eq_one_iff.mp g1
        have hc := ((g3.trans (by simp)).trans (hD.permute (genList nOut (1 * regularity / 2 + nOut)))).count_eq (getSymbol nOut)
        rw [genList_count, if_pos (List.mem_map_of_mem (List.mem_range.mpr (by omega))), if_neg ?_] at hc
        · have := List.nodup_iff_count_le_one.mp (g2 t (by simp)) (getSymbol nOut)
          simp at hc
          omega
        · intro h
          obtain ⟨i, hi, e⟩ := List.mem_map.mp h
          have := getSymbol_injective e
          rw [List.mem_range] at hi
          omega
  unfold randEquation
  simp only
  rw [if_neg (by omega), hnone]

/-- No operands: there is no place for an output label, `randint(0, 0)` is a `ValueError`. -/
theorem C56_no_operands {regularity nOut dMin dMax : Nat} {globalDim : Bool} {D : Draws} (hD : DrawsOK D 0 dMin dMax) (ho : nOut ≠ 0) (fuel : Nat) :
    randEquation 0 regularity nOut dMin dMax globalDim D fuel = some (.error .value) := by
  unfold randEquation
  simp only
  split
  · rfl
  · have hl : (D.permute (genList nOut (0 * regularity / 2 + nOut))).length ≠ 0 := by
      rw [(hD.permute _).length_eq, genList_length _ _ (by omega)]
      omega
    cases hp : D.permute (genList nOut (0 * regularity / 2 + nOut)) with
    | nil => rw [hp] at hl; exact absurd rfl hl
    | cons a t => simp [placeAll, List.zipIdx_cons]

/-- `d_max < d_min` is a `ValueError`, unless there is no label at all. -/
theorem C56_bad_range {n regularity nOut dMin dMax : Nat} {globalDim : Bool} {D : Draws} (hd : dMax < dMin)
    (hl : n * regularity / 2 + nOut ≠ 0 ∨ globalDim = true) (fuel : Nat) :
    randEquation n regularity nOut dMin dMax globalDim D fuel = some (.error .value) := by
  unfold randEquation
  simp only
  rw [if_pos ⟨hd, hl⟩]

/-- What `rand_equation` returns is contracted correctly by `contract`, along every complete path. -/
theorem C56_contract {R : Type} [CommSemiring R] [DecidableEq R] {n regularity nOut dMin dMax : Nat} {globalDim : Bool} {D : Draws} (hD : DrawsOK D n dMin dMax)
    {fuel : Nat} {eq : Str} {shapes : List Shape} {sizes : Dict Nat Nat}
    (h : randEquation n regularity nOut dMin dMax globalDim D fuel = some (.ok (eq, shapes, sizes))) (hn : n ≠ 0)
    (hlab : n * regularity / 2 + nOut + (if globalDim then 1 else 0) ≤ 52) :
    ∃ inputs output, IsRandEquation n regularity nOut dMin dMax globalDim inputs output eq shapes sizes ∧
      ∀ (ops : List (Tensor R)), ops.map Tensor.shape = shapes → ∀ (opt : Contract.Optimize) (mem : Contract.MemLimit), ValidMemory mem →
        ChoosesComplete opt (fun c => (sizes.get? c).getD 0) inputs output → ∀ useBlas,
        ∃ T, Contract.contract false eq ops opt mem useBlas = .ok T ∧ IsEinsum (fun c => (sizes.get? c).getD 0) inputs output ops T := by
  obtain ⟨inputs, output, hI⟩ := C56_rand_equation hD h
  refine ⟨inputs, output, hI, ?_⟩
  intro ops hops opt mem hmem hopt useBlas
  have hne : inputs ≠ [] := by rintro rfl; exact hn hI.terms.symm
  have hsp : splitOn cComma (List.intercalate [cComma] inputs) = inputs := by
    rw [← join_eq_intercalate]
    exact splitOn_join _ _ hne (fun t ht hc => (hI.chars _ (List.mem_flatten.mpr ⟨t, ht, hc⟩)).1 (by simp [IsPunct]))
  have key := C01_contract (fun c => (sizes.get? c).getD 0) eq ops _ output (by rw [hops]; exact hI.parse hn)
    (fun hc => (hI.chars _ (hI.out_sub hn _ hc)).1 (by simp [IsPunct])) (by rw [hsp, hops]; exact hI.fit)
    (by rw [hsp, hI.labels hn]; exact hlab) opt mem hmem (by rw [hsp]; exact hopt) useBlas
  rwa [hsp] at key

end OE.Props

namespace OE.Testing
open OE OE.Py OE.Parser OE.Spec

theorem mapM_get_ok (d : Dict Nat Nat) (l : Str) : ∀ s, l.mapM d.get! = .ok s →
    s = l.map (fun c => (d.get? c).getD 0) ∧ ∀ c ∈ l, (d.get? c).isSome := by
  induction l with
  | nil => intro s h; cases h; simp
  | cons a t ih =>
    intro s h
    rw [List.mapM_cons] at h
    simp only [bind, Except.bind, pure, Except.pure] at h
    cases ha : d.get? a with
    | none => simp [Dict.get!, ha] at h
    | some v =>
      simp only [Dict.get!, ha] at h
      cases ht : t.mapM (Dict.get! d) with
      | error e => rw [ht] at h; cases h
      | ok s' =>
        obtain ⟨h1, h2⟩ := ih s' ht
        rw [ht] at h
        cases h
        refine ⟨by simp [ha, h1], ?_⟩
        intro c hc
        rcases List.mem_cons.mp hc with rfl | hc
        · simp [ha]
        · exact h2 c hc

theorem mapM_mapM_get_ok (d : Dict Nat Nat) (l : List Str) : ∀ s, l.mapM (fun t => t.mapM d.get!) = .ok s →
    s = l.map (List.map (fun c => (d.get? c).getD 0)) ∧ ∀ t ∈ l, ∀ c ∈ t, (d.get? c).isSome := by
  induction l with
  | nil => intro s h; cases h; simp
  | cons a t ih =>
    intro s h
    rw [List.mapM_cons] at h
    simp only [bind, Except.bind, pure, Except.pure] at h
    cases ha : a.mapM d.get! with
    | error e => rw [ha] at h; cases h
    | ok v =>
      rw [ha] at h
      simp only at h
      cases ht : t.mapM (fun t => t.mapM d.get!) with
      | error e => rw [ht] at h; cases h
      | ok s' =>
        rw [ht] at h
        cases h
        obtain ⟨h1, h2⟩ := ih s' ht
        obtain ⟨h3, h4⟩ := mapM_get_ok d a v ha
        refine ⟨by simp [h1, h3], ?_⟩
        intro u hu
        rcases List.mem_cons.mp hu with rfl | hu
        · exact h4
        · exact h2 u hu

theorem mapM_get_error (d : Dict Nat Nat) (l : Str) (c : Nat) (hc : c ∈ l) (h : d.get? c = none) : l.mapM d.get! = .error .key := by
  induction l with
  | nil => cases hc
  | cons a t ih =>
    rw [List.mapM_cons]
    simp only [bind, Except.bind]
    cases ha : d.get? a with
    | none => simp [Dict.get!, ha]
    | some v =>
      rcases List.mem_cons.mp hc with rfl | hc
      · rw [h] at ha; cases ha
      · simp only [Dict.get!, ha]
        rw [ih hc]

theorem mapM_mapM_get_error (d : Dict Nat Nat) (l : List Str) (c : Nat) (hc : ∃ t ∈ l, c ∈ t) (h : d.get? c = none) :
    l.mapM (fun t => t.mapM d.get!) = .error .key := by
  induction l with
  | nil => obtain ⟨t, ht, _⟩ := hc; cases ht
  | cons a t ih =>
    rw [List.mapM_cons]
    simp only [bind, Except.bind]
    cases ha : a.mapM d.get! with
    | error e =>
      by_cases hk : ∃ x ∈ a, d.get? x = none
      · obtain ⟨x, hx, hn⟩ := hk
        rw [mapM_get_error d a x hx hn] at ha
        exact ha.symm ▸ rfl
      · exfalso
        rw [Contract.mapM_ok (g := fun c => (d.get? c).getD 0)] at ha
        · cases ha
        · intro x hx
          cases hv : d.get? x with
          | none => exact absurd ⟨x, hx, hv⟩ hk
          | some v => simp [Dict.get!, hv]
    | ok v =>
      obtain ⟨u, hu, hcu⟩ := hc
      rcases List.mem_cons.mp hu with rfl | hu
      · rw [mapM_get_error d u c hcu h] at ha; cases ha
      · rw [ih ⟨u, hu, hcu⟩]

/-- Replacement goes on independently to the left and right of a character that is no dot. -/
theorem replaceDots_cut (new : Str) {c : Nat} (hc : c ≠ cDot) (a b : Str) : replaceDots new (a ++ c :: b) = replaceDots new a ++ c :: replaceDots new b := by
  fun_induction replaceDots new a with
  | case1 =>
    rw [List.nil_append, List.nil_append, replaceDots]
    intro xs h
    exact absurd h hc
  | case2 xs ih => simp only [List.cons_append, List.append_assoc]; rw [replaceDots, ih]
  | case3 x xs hx ih =>
    rw [List.cons_append, replaceDots, ih]
    · rfl
    · intro ys h1 h2
      subst h1
      match xs, h2 with
      | [], h2 => injection h2 with h2 _; exact hc h2
      | [y], h2 => injection h2 with _ h2; injection h2 with h2 _; exact hc h2
      | y :: z :: zs, h2 =>
        injection h2 with h3 h2
        injection h2 with h4 h2
        subst h3 h4
        exact hx zs rfl rfl

theorem splitOn_replaceDots {new : Str} (hnew : cComma ∉ new) (s : Str) :
    splitOn cComma (replaceDots new s) = (splitOn cComma s).map (replaceDots new) := by
  have hj : ∀ l : List Str, l ≠ [] → replaceDots new (join [cComma] l) = join [cComma] (l.map (replaceDots new)) := by
    intro l
    induction l with
    | nil => intro h; exact absurd rfl h
    | cons a t ih =>
      intro _
      cases t with
      | nil => simp [join]
      | cons b r =>
        have h := ih (by simp)
        simp only [join, List.map_cons, List.append_assoc, List.singleton_append] at h ⊢
        rw [replaceDots_cut new (by decide), h]
  conv_lhs => rw [← join_splitOn cComma s, hj _ (splitOn_ne_nil _ _)]
  rw [splitOn_join _ _ (by simpa using splitOn_ne_nil cComma s)]
  intro t ht hc
  obtain ⟨t0, ht0, rfl⟩ := List.mem_map.mp ht
  rcases mem_replaceDots _ _ hc with h | h
  · exact hnew h
  · exact splitOn_mem_free _ _ _ ht0 h

theorem noCollision_take : noCollisionChars.take 3 = [7000, 7001, 7002] := by decide

/-- The left side of an equation. -/
theorem head_replaceDots {eq lhs : Str} (h1 : cDash ∉ lhs) (h2 : cGt ∉ lhs) (h : (∃ rhs, eq = lhs ++ S "->" ++ rhs) ∨ eq = lhs) :
    (splitArrow (replaceDots (noCollisionChars.take 3) eq)).headD [] = replaceDots (noCollisionChars.take 3) lhs := by
  have hm : ∀ x, x ∉ lhs → x ≠ 7000 → x ≠ 7001 → x ≠ 7002 → x ∉ replaceDots (noCollisionChars.take 3) lhs := by
    intro x hx _ _ _ hc
    rcases mem_replaceDots _ _ hc with h | h
    · rw [noCollision_take] at h; simp at h; omega
    · exact hx h
  have harrow : S "->" = [cDash, cGt] := by decide
  rcases h with ⟨rhs, rfl⟩ | rfl
  · have e : lhs ++ S "->" ++ rhs = lhs ++ cDash :: (cGt :: rhs) := by rw [harrow]; simp
    rw [e, replaceDots_cut _ (by decide), show cGt :: rhs = [] ++ cGt :: rhs from rfl, replaceDots_cut _ (by decide), replaceDots, List.nil_append]
    rw [splitArrow_append _ _ (hm _ h1 (by decide) (by decide) (by decide))]
    rfl
  · rw [splitArrow_of_free _ (hm _ h2 (by decide) (by decide) (by decide))]
    rfl

theorem buildShapes_eq {eq lhs : Str} {dims : Option (Dict Nat Nat)} {r : Bool} (h1 : cDash ∉ lhs) (h2 : cGt ∉ lhs)
    (h : (∃ rhs, eq = lhs ++ S "->" ++ rhs) ∨ eq = lhs) : buildShapes eq dims r =
      if countDots eq ≠ 0 ∧ r = false then .error .value
      else ((splitOn cComma lhs).map (replaceDots [7000, 7001, 7002])).mapM (fun t => t.mapM (dims.getD defaultDimDict).get!) := by
  unfold buildShapes
  simp only
  rw [head_replaceDots h1 h2 h, splitOn_replaceDots (by decide), noCollision_take]

end OE.Testing

namespace OE.Props
open OE OE.Py OE.Parser OE.Spec OE.Testing

/-- An ellipsis without `replace_ellipsis=True` is a `ValueError`. -/
theorem C57_ellipsis_refused (a b : Str) (dims : Option (Dict Nat Nat)) : buildShapes (a ++ S "..." ++ b) dims false = .error .value := by
  unfold buildShapes
  simp only
  rw [if_pos]
  refine ⟨?_, trivial⟩
  have : ∀ a : Str, countDots (a ++ 46 :: 46 :: 46 :: b) ≠ 0 := by
    intro a
    induction a with
    | nil => simp [countDots]
    | cons x a ih =>
      rw [List.cons_append]
      by_cases hx : ∃ ys, x :: (a ++ 46 :: 46 :: 46 :: b) = 46 :: 46 :: 46 :: ys
      · obtain ⟨ys, e⟩ := hx
        rw [e, countDots]
        omega
      · rw [countDots]
        · exact ih
        · intro ys e1 e2
          exact hx ⟨ys, by rw [e1, e2]⟩
  have h := this a
  rwa [show a ++ S "..." ++ b = a ++ 46 :: 46 :: 46 :: b by rw [dots_eq]; simp]

/-- Without ellipses: the shapes are the sizes of the labels of the input terms, and a label without a size is a `KeyError`. -/
theorem C57_build_shapes {eq lhs : Str} (d : Dict Nat Nat) (r : Bool) (h1 : cDash ∉ lhs) (h2 : cGt ∉ lhs) (hdot : cDot ∉ eq)
    (h : (∃ rhs, eq = lhs ++ S "->" ++ rhs) ∨ eq = lhs) (terms : List Str) (hs : IsSplit terms lhs) :
    ((∀ t ∈ terms, ∀ c ∈ t, (d.get? c).isSome) →
      buildShapes eq (some d) r = .ok (terms.map (List.map (fun c => (d.get? c).getD 0)))) ∧
    (∀ t ∈ terms, ∀ c ∈ t, d.get? c = none → buildShapes eq (some d) r = .error .key) := by
  have hsp : splitOn cComma lhs = terms := by
    obtain ⟨hne, rfl, hfree⟩ := hs
    rw [← join_eq_intercalate]
    exact splitOn_join _ _ hne hfree
  have hdl : cDot ∉ lhs := by
    intro hc
    rcases h with ⟨rhs, rfl⟩ | rfl
    · exact hdot (by simp [hc])
    · exact hdot hc
  have hmap : (splitOn cComma lhs).map (replaceDots [7000, 7001, 7002]) = terms := by
    rw [hsp]
    conv_rhs => rw [← List.map_id terms]
    apply List.map_congr_left
    intro t ht
    apply replaceDots_of_free
    intro hc
    obtain ⟨_, rfl, _⟩ := hs
    rw [← join_eq_intercalate] at hdl
    exact hdl (mem_join_of_mem _ _ _ t ht hc)
  rw [buildShapes_eq h1 h2 h, if_neg (by rw [countDots_of_free _ hdot]; simp), hmap]
  constructor
  · intro hk
    apply Contract.mapM_ok
    intro t ht
    apply Contract.mapM_ok
    intro c hc
    have := hk t ht c hc
    cases hv : d.get? c with
    | none => rw [hv] at this; cases this
    | some v => simp [Dict.get!, hv]
  · intro t ht c hc hn
    exact mapM_mapM_get_error d terms c ⟨t, ht, hc⟩ hn

/-- **C57.** Shapes that `build_shapes` builds for an equation fit it: if the parser accepts the equation with them, then every operand has a
dimension for every label of its term, and equal labels have equal dimensions, the ones of the dictionary. An ellipsis stands for three
dimensions, the same in every operand. -/
theorem C57_build_shapes_fit {eq : Str} {dims : Option (Dict Nat Nat)} {r : Bool} {shapes : List Shape} {inp out : Str} (hsp : cSpace ∉ eq)
    (hb : buildShapes eq dims r = .ok shapes) (hp : parseEinsum eq shapes = .ok (inp, out)) :
    ∃ size : Nat → Nat, OperandsFit size (splitOn cComma inp) shapes ∧
      ∀ t ∈ splitOn cComma inp, ∀ c ∈ t, c ∈ eq → (dims.getD defaultDimDict).get? c = some (size c) := by
  have hfilter : eq.filter (· ≠ cSpace) = eq := by
    rw [List.filter_eq_self]
    intro c hc
    simp only [decide_eq_true_eq]
    rintro rfl
    exact hsp hc
  set d := dims.getD defaultDimDict with hd
  by_cases hdot : cDot ∈ eq
  · have hE := C35_ellipsis_expansion eq shapes inp out hdot hp
    rw [hfilter] at hE
    obtain ⟨E, lhs, terms, terms', ks, L, eo, e1, e2, e3, e4, e5, e6, e7, e8, _, _, _, _, e13, e14, e15⟩ := hE
    have hform : (∃ rhs, eq = lhs ++ S "->" ++ rhs) ∨ eq = lhs := by
      rcases e13 with ⟨rhs, h, _⟩ | ⟨h, _⟩
      · exact Or.inl ⟨rhs, h⟩
      · exact Or.inr h
    rw [buildShapes_eq e14 e15 hform] at hb
    split at hb
    · cases hb
    have hsl : splitOn cComma lhs = terms := by
      obtain ⟨hne, rfl, hfree⟩ := e3
      rw [← join_eq_intercalate]
      exact splitOn_join _ _ hne hfree
    have hsi : splitOn cComma inp = terms' := by
      obtain ⟨hne, rfl, hfree⟩ := e4
      rw [← join_eq_intercalate]
      exact splitOn_join _ _ hne hfree
    rw [hsl] at hb
    obtain ⟨hb1, hb2⟩ := mapM_mapM_get_ok d _ _ hb
    have htmem : ∀ t ∈ terms, ∀ c ∈ t, c ∈ eq := by
      intro t ht c hc
      have : c ∈ lhs := by
        obtain ⟨_, rfl, _⟩ := e3
        rw [← join_eq_intercalate]
        exact mem_join_of_mem _ _ _ t ht hc
      rcases hform with ⟨rhs, rfl⟩ | rfl
      · simp [this]
      · exact this
    -- the last three labels of `E`
    set suf := E.drop (E.length - 3) with hsuf
    have hsufE : ∀ c ∈ suf, c ∈ E := fun c hc => List.mem_of_mem_drop hc
    set size : Nat → Nat := fun c => if c ∈ suf then (d.get? (7000 + suf.idxOf c)).getD 0 else (d.get? c).getD 0 with hsize
    have hplain : ∀ s : Str, (∀ c ∈ s, c ∈ eq) → s.map size = s.map (fun c => (d.get? c).getD 0) := by
      intro s hs
      apply List.map_congr_left
      intro c hc
      rw [hsize]
      simp only
      rw [if_neg (fun h => (e2 c (hsufE c h)).1 (hs c hc))]
    have hshape : shapes = terms'.map (List.map size) := by
      apply List.ext_getElem?
      intro i
      by_cases hi : i < shapes.length
      · have hti : i < terms.length := by omega
        have hti' : i < terms'.length := by omega
        have hki : i < ks.length := by omega
        have hsi : shapes[i] = (replaceDots [7000, 7001, 7002] terms[i]).map (fun c => (d.get? c).getD 0) := by
          have : shapes[i]? = some ((replaceDots [7000, 7001, 7002] terms[i]).map (fun c => (d.get? c).getD 0)) := by
            rw [hb1, List.getElem?_map, List.getElem?_map, List.getElem?_eq_getElem hti]
            rfl
          rw [List.getElem?_eq_getElem hi] at this
          exact Option.some.inj this
        have hx := e8 i terms[i] terms'[i] ks[i] shapes[i] (List.getElem?_eq_getElem hti) (List.getElem?_eq_getElem hti')
          (List.getElem?_eq_getElem hki) (List.getElem?_eq_getElem hi)
        rw [List.getElem?_eq_getElem hi, List.getElem?_map, List.getElem?_eq_getElem hti', Option.map_some]
        congr 1
        rw [hsi] at hx ⊢
        have hin := htmem terms[i] (List.getElem_mem hti)
        generalize terms[i] = t at hx hin ⊢
        generalize terms'[i] = t' at hx ⊢
        generalize ks[i] = k at hx
        cases hx with
        | plain _ hf => rw [replaceDots_of_free _ _ hf, hplain _ hin]
        | dots a b s _ ha hb hk hs =>
          rw [dots_eq] at hin hk ⊢
          rw [show a ++ [46, 46, 46] ++ b = a ++ 46 :: 46 :: 46 :: b by simp] at hin hk ⊢
          rw [replaceDots_append _ _ _ ha, replaceDots_of_free _ _ hb] at hk ⊢
          have hk3 : k = 3 := by
            simp only [List.length_map, List.length_append, List.length_cons, List.length_nil] at hk
            omega
          subst hk3
          have hs' : s = suf := by
            obtain ⟨hl, p, rfl⟩ := hs
            rw [hsuf]
            simp [hl]
          subst hs'
          rw [List.map_append, List.map_append, List.map_append, List.map_append,
            hplain a (fun c hc => hin c (by simp [hc])), hplain b (fun c hc => hin c (by simp [hc]))]
          congr 2
          have hnd : suf.Nodup := e1.sublist (List.drop_sublist _ _)
          apply List.ext_getElem
          · simp [hs.1]
          intro j hj1 hj2
          have hj : j < suf.length := by simpa using hj2
          have hv : size suf[j] = (d.get? (7000 + j)).getD 0 := by
            rw [hsize]
            simp only
            rw [if_pos (List.getElem_mem hj), hnd.idxOf_getElem j hj]
          rw [List.getElem_map, List.getElem_map, hv]
          have hj3 : j < 3 := by simpa using hj1
          interval_cases j <;> rfl
      · rw [List.getElem?_eq_none (by omega), List.getElem?_eq_none (by simp; omega)]
    rw [hsi]
    refine ⟨size, by rw [hshape]; exact operandsFit_sizes terms', ?_⟩
    intro t' ht' c hc hceq
    have hcE : c ∉ E := fun h => (e2 c h).1 hceq
    rw [hsize]
    simp only
    rw [if_neg (fun h => hcE (hsufE c h))]
    -- `c` occurs in the term the parser expanded
    obtain ⟨i, hi, rfl⟩ := List.getElem_of_mem ht'
    have hti : i < terms.length := by omega
    have hx := e8 i terms[i] terms'[i] (ks[i]'(by omega)) (shapes[i]'(by omega)) (List.getElem?_eq_getElem _) (List.getElem?_eq_getElem _)
      (List.getElem?_eq_getElem _) (List.getElem?_eq_getElem _)
    have hcm : c ∈ replaceDots [7000, 7001, 7002] terms[i] := by
      revert hx hc
      generalize terms[i] = t
      generalize terms'[i] = t'
      generalize ks[i]'(by omega) = k
      intro hc hx
      cases hx with
      | plain _ hf => rwa [replaceDots_of_free _ _ hf]
      | dots a b s _ ha hb hk hs =>
        rw [dots_eq, show a ++ [46, 46, 46] ++ b = a ++ 46 :: 46 :: 46 :: b by simp, replaceDots_append _ _ _ ha, replaceDots_of_free _ _ hb]
        have : c ∉ s := fun h => hcE (by obtain ⟨_, p, rfl⟩ := hs; simp [h])
        simp only [List.mem_append] at hc ⊢
        tauto
    have hsome := hb2 _ (List.mem_map_of_mem (List.getElem_mem hti)) c hcm
    cases hv : d.get? c with
    | none => rw [hv] at hsome; cases hsome
    | some v => rfl
  · have hW := (C34_parse_einsum_input_iff eq shapes hdot inp out).mp hp
    rw [hfilter] at hW
    have hform : cDash ∉ inp ∧ cGt ∉ inp ∧ ((∃ rhs, eq = inp ++ S "->" ++ rhs) ∨ eq = inp) := by
      cases hW with
      | explicit _ _ h1 h2 => exact ⟨h1, h2, Or.inl ⟨out, rfl⟩⟩
      | implicit _ _ h1 h2 => exact ⟨h1, h2, Or.inr rfl⟩
    obtain ⟨h1, h2, h3⟩ := hform
    have hdi : cDot ∉ inp := by
      intro hc
      rcases h3 with ⟨rhs, rfl⟩ | rfl
      · exact hdot (by simp [hc])
      · exact hdot hc
    rw [buildShapes_eq h1 h2 h3] at hb
    split at hb
    · cases hb
    have hmap : (splitOn cComma inp).map (replaceDots [7000, 7001, 7002]) = splitOn cComma inp := by
      conv_rhs => rw [← List.map_id (splitOn cComma inp)]
      apply List.map_congr_left
      intro t ht
      apply replaceDots_of_free
      intro hc
      apply hdi
      rw [← join_splitOn cComma inp]
      exact mem_join_of_mem _ _ _ t ht hc
    rw [hmap] at hb
    obtain ⟨hb1, hb2⟩ := mapM_mapM_get_ok d _ _ hb
    refine ⟨fun c => (d.get? c).getD 0, by rw [hb1]; exact operandsFit_sizes _, ?_⟩
    intro t ht c hc _
    have := hb2 t ht c hc
    cases hv : d.get? c with
    | none => rw [hv] at this; cases this
    | some v => simp [hv]

/-- The documented draws: no permutation, places in turn, all sizes `3`. -/
def turnDraws (n : Nat) : Draws := ⟨fun _ => 3, id, id, fun k => k % n⟩

theorem turnDraws_ok (n : Nat) : DrawsOK (turnDraws n) n 2 4 :=
  ⟨fun _ => List.Perm.refl _, fun _ => List.Perm.refl _, fun h k => Nat.mod_lt k (by omega), fun _ _ => ⟨Nat.le_succ 2, Nat.le_succ 3⟩⟩

/-- Three operands, regularity 2, one output: three bonds. -/
example : (randEquation 3 2 1 2 4 false (turnDraws 3) 10).map (·.toOption.map (·.1)) = some (some (S "acd,bc,bd->a")) ∧
    (randEquation 3 2 1 2 4 true (turnDraws 3) 10).map (·.toOption.map (·.1)) = some (some (S "acde,bce,bde->ae")) := by decide +kernel

/-- The places in turn are fair, so `C56_returns` applies. -/
example : ∀ w < 3, ∀ k, ∃ d, (turnDraws 3).place (k + d) = w := by
  intro w hw k
  refine ⟨(w + 3 - k % 3), ?_⟩
  show (k + (w + 3 - k % 3)) % 3 = w
  omega

example : randEquation 1 2 0 2 4 false (turnDraws 1) 1000 = none :=
  C56_single_operand_never_returns (turnDraws_ok 1) (by decide) (by decide) 1000

/-- An ellipsis gets three dimensions. -/
example : (buildShapes (S "ab...,...bc->a...c") none true).toOption = some [[2, 3, 10, 2, 4], [10, 2, 4, 3, 4]] ∧
    (parseEinsum (S "ab...,...bc->a...c") [[2, 3, 10, 2, 4], [10, 2, 4, 3, 4]]).toOption = some (S "abfgh,fghbc", S "afghc") := by decide +kernel

example : (buildShapes (S "az->") none false).toOption = none ∧ (buildShapes (S "ab,bc->") none false).toOption = some [[2, 3], [3, 4]] := by
  decide +kernel

end OE.Props
