import Verif.Lemmas.Parser
import Verif.Lemmas.Strings

/-! Lemmas about `gen_unused_symbols` and `convert_to_valid_einsum_chars`. -/

namespace OE.Parser
open OE OE.Py

theorem genUnusedAux_eq (used : Str) (f i n : Nat) :
    genUnusedAux used f i n = (((List.range' i f).map getSymbol).filter (fun c => decide (c ∉ used))).take n := by
  induction f generalizing i n with
  | zero => simp [genUnusedAux]
  | succ f ih =>
    cases n with
    | zero => simp [genUnusedAux]
    | succ n =>
      simp only [genUnusedAux, List.range'_succ, List.map_cons]
      by_cases h : getSymbol i ∈ used
      · rw [if_pos h, ih, List.filter_cons_of_neg (by simpa using h)]
      · rw [if_neg h, ih, List.filter_cons_of_pos (by simpa using h), List.take_succ_cons]

theorem symbols_nodup (i f : Nat) : ((List.range' i f).map getSymbol).Nodup :=
  (List.nodup_range' (step := 1)).map getSymbol_injective

theorem unused_count (used : Str) (m : Nat) (l : List Nat) (hl : l.Nodup) (hm : l.length = used.length + m) :
    m ≤ (l.filter (fun c => decide (c ∉ used))).length := by
  have h1 : (l.filter (fun c => decide (c ∈ used))).length ≤ used.length := by
    have hn : (l.filter (fun c => decide (c ∈ used))).Nodup := hl.filter _
    have hs : (l.filter (fun c => decide (c ∈ used))) ⊆ used := by
      intro a ha
      simpa using (List.mem_filter.1 ha).2
    exact (hn.subperm hs).length_le
  have h2 := List.length_eq_length_filter_add (l := l) (fun c => decide (c ∈ used))
  have h3 : (l.filter (fun c => !decide (c ∈ used))) = l.filter (fun c => decide (c ∉ used)) := by
    apply List.filter_congr; intro a _; simp
  rw [h3] at h2
  omega

theorem genUnused_length (used : Str) (n : Nat) : (genUnusedSymbols used n).length = n := by
  unfold genUnusedSymbols
  rw [genUnusedAux_eq, List.length_take]
  have := unused_count used n ((List.range' 0 (used.length + n)).map getSymbol) (symbols_nodup _ _) (by simp)
  omega

theorem genUnused_nodup (used : Str) (n : Nat) : (genUnusedSymbols used n).Nodup := by
  unfold genUnusedSymbols
  rw [genUnusedAux_eq]
  exact ((symbols_nodup _ _).filter _).sublist (List.take_sublist _ _)

theorem genUnused_fresh (used : Str) (n : Nat) : ∀ c ∈ genUnusedSymbols used n,
    c ∉ used ∧ ∃ i, c = getSymbol i := by
  unfold genUnusedSymbols
  rw [genUnusedAux_eq]
  intro c hc
  have := List.mem_of_mem_take hc
  rw [List.mem_filter] at this
  obtain ⟨h1, h2⟩ := this
  obtain ⟨i, _, hi⟩ := List.mem_map.1 h1
  exact ⟨by simpa using h2, i, hi.symm⟩

/-- Enough fuel is independent of the amount: any larger fuel gives the same symbols. -/
theorem genUnusedAux_fuel (used : Str) (f n : Nat) (h : used.length + n ≤ f) :
    genUnusedAux used f 0 n = genUnusedSymbols used n := by
  unfold genUnusedSymbols
  rw [genUnusedAux_eq, genUnusedAux_eq]
  have : List.range' 0 f = List.range' 0 (used.length + n) ++ List.range' (used.length + n) (f - (used.length + n)) := by
    have := List.range'_append (s := 0) (m := used.length + n) (n := f - (used.length + n)) (step := 1)
    rw [Nat.one_mul, Nat.zero_add] at this
    rw [this]; congr 1; omega
  rw [this, List.map_append, List.filter_append, List.take_append_of_le_length]
  exact unused_count used n _ (symbols_nodup _ _) (by simp)

/-- Minimality: an unused symbol skipped by the generator comes after everything generated. -/
theorem genUnused_earliest (used : Str) (n : Nat) : ∀ i, getSymbol i ∉ used →
    getSymbol i ∈ genUnusedSymbols used n ∨ ∀ j, getSymbol j ∈ genUnusedSymbols used n → j < i := by
  intro i hi
  by_cases hm : getSymbol i ∈ genUnusedSymbols used n
  · exact Or.inl hm
  right
  intro j hj
  rw [← genUnusedAux_fuel used (used.length + n + i + 1) n (by omega), genUnusedAux_eq] at hm hj
  set L := ((List.range' 0 (used.length + n + i + 1)).map getSymbol).filter (fun c => decide (c ∉ used)) with hL
  have hiL : getSymbol i ∈ L := by
    rw [hL, List.mem_filter]
    exact ⟨List.mem_map_of_mem (by rw [List.mem_range'_1]; omega), by simpa using hi⟩
  have hid : getSymbol i ∈ L.drop n := by
    have := List.take_append_drop n L
    rw [← this, List.mem_append] at hiL
    exact hiL.resolve_left hm
  -- the list of indices is strictly increasing
  have hpw : ((List.range' 0 (used.length + n + i + 1)).filter (fun k => decide (getSymbol k ∉ used))).Pairwise (· < ·) :=
    (List.pairwise_lt_range' (s := 0) (n := _) (step := 1)).filter _
  have hmapeq : L = ((List.range' 0 (used.length + n + i + 1)).filter (fun k => decide (getSymbol k ∉ used))).map getSymbol := by
    rw [hL, List.filter_map]; rfl
  set K := (List.range' 0 (used.length + n + i + 1)).filter (fun k => decide (getSymbol k ∉ used)) with hK
  rw [hmapeq, ← List.map_take] at hj
  rw [hmapeq, ← List.map_drop] at hid
  obtain ⟨j', hj', ej⟩ := List.mem_map.1 hj
  obtain ⟨i', hi', ei⟩ := List.mem_map.1 hid
  have := getSymbol_injective ej
  have := getSymbol_injective ei
  subst_vars
  have hpw' := hpw
  rw [← List.take_append_drop n K, List.pairwise_append] at hpw'
  exact hpw'.2.2 _ hj' _ hi'

/-! ### convert_to_valid_einsum_chars -/

/-- The renaming applied by `convert_to_valid_einsum_chars`. -/
def convFun (s : Str) (x : Nat) : Nat :=
  match (sortedSet (s.filter (fun x => x ∉ [cComma, cDash, cGt]))).idxOf? x with
  | some i => getSymbol i
  | none => x

theorem convert_eq (s : Str) : convertToValidEinsumChars s = s.map (convFun s) := rfl

theorem convFun_sep (s : Str) (c : Nat) (h : c = cComma ∨ c = cDash ∨ c = cGt) : convFun s c = c := by
  unfold convFun
  have : c ∉ sortedSet (s.filter (fun x => x ∉ [cComma, cDash, cGt])) := by
    rw [sortedSet_mem, List.mem_filter]
    rintro ⟨_, h'⟩
    simp at h'
    rcases h with rfl | rfl | rfl <;> simp at h'
  rw [List.idxOf?_eq_none_iff.2 this]

theorem convFun_label (s : Str) (c : Nat) (hc : c ∈ s) (h : ¬ (c = cComma ∨ c = cDash ∨ c = cGt)) :
    ∃ i, (sortedSet (s.filter (fun x => x ∉ [cComma, cDash, cGt])))[i]? = some c ∧ convFun s c = getSymbol i := by
  have hm : c ∈ sortedSet (s.filter (fun x => x ∉ [cComma, cDash, cGt])) := by
    rw [sortedSet_mem, List.mem_filter]
    refine ⟨hc, ?_⟩
    simp only [not_or] at h
    simp [h]
  have hs : ((sortedSet (s.filter (fun x => x ∉ [cComma, cDash, cGt]))).idxOf? c).isSome := by simpa using hm
  obtain ⟨i, hi⟩ := Option.isSome_iff_exists.1 hs
  refine ⟨i, ?_, by unfold convFun; rw [hi]⟩
  rw [List.idxOf?_eq_some_iff] at hi
  obtain ⟨hlt, heq, _⟩ := hi
  rw [List.getElem?_eq_getElem hlt, heq]

end OE.Parser
