import Verif.Lemmas.Alpha
import Verif.Lemmas.GenUnused

/-!
# Properties of the parser utilities: C29 – C34

Every theorem is about the model of `opt_einsum/parser.py` in `Verif.Model.Parser`.
-/

namespace OE.Props
open OE OE.Py OE.Parser OE.Spec

/-! ## C29 get_symbol -/

/-- A surrogate code point. -/
def IsSurrogate (c : Nat) : Prop := 55296 ≤ c ∧ c ≤ 57343

/-- Full statement of C29: distinct, never punctuation or space, never a surrogate, a code point in range.
False of the code: see `C29_counterexample`. -/
def C29_statement : Prop :=
  Function.Injective getSymbol ∧
  ∀ i, getSymbol i ∉ S ",->. []" ∧ (i < 1112064 → getSymbol i < 0x110000 ∧ ¬ IsSurrogate (getSymbol i))

/-- `get_symbol(55156)` is `chr(55296)`, a surrogate. -/
theorem C29_counterexample : ¬ C29_statement := by
  intro h
  have := ((h.2 55156).2 (by omega)).2
  exact this (by unfold IsSurrogate; rw [getSymbol_eq]; decide)

/-- C29 without the surrogate clause for `55156 ≤ i < 55296`: symbols are distinct, never punctuation,
space or bracket; `chr` accepts the code point exactly for `i < 1112064`; and the symbol is a surrogate
exactly for the 140 indices `55156 ≤ i < 55296`. Missing: the code does return surrogates there. -/
theorem C29_get_symbol_partial :
    Function.Injective getSymbol ∧
    (∀ i, getSymbol i ∉ S ",->. []") ∧
    (∀ i, getSymbol i < 0x110000 ↔ i < 1112064) ∧
    (∀ i, IsSurrogate (getSymbol i) ↔ 55156 ≤ i ∧ i < 55296) := by
  refine ⟨getSymbol_injective, ?_, ?_, ?_⟩
  · intro i
    have hS : S ",->. []" = [44, 45, 62, 46, 32, 91, 93] := by decide
    rw [hS, getSymbol_eq]
    simp only [List.mem_cons, List.not_mem_nil, or_false, not_or]
    split <;> (try split) <;> (try split) <;> omega
  · intro i; rw [getSymbol_eq]; split <;> (try split) <;> (try split) <;> omega
  · intro i; unfold IsSurrogate; rw [getSymbol_eq]; split <;> (try split) <;> (try split) <;> omega

/-- The first 52 symbols are the letters, in the order `a..z`, `A..Z`; the next is `chr(192)`. -/
theorem C29_first_symbols (i : Nat) :
    (i < 26 → getSymbol i = 97 + i) ∧ (26 ≤ i → i < 52 → getSymbol i = 65 + (i - 26)) ∧
    (52 ≤ i → i < 55296 → getSymbol i = 192 + (i - 52)) ∧ (55296 ≤ i → getSymbol i = 57344 + (i - 55296)) := by
  rw [getSymbol_eq]
  refine ⟨?_, ?_, ?_, ?_⟩ <;> intro h <;> (try intro h') <;>
    (split <;> (try split) <;> (try split) <;> omega)

example : [getSymbol 2, getSymbol 51, getSymbol 200, getSymbol 20000] = S "cZŔ京" := by decide

/-! ## C30 gen_unused_symbols -/

/-- The generator always yields exactly `n` different symbols, none of them used, and any available
symbol it did not yield has a larger index than all those it yielded. The loop needs at most
`len(used) + n` iterations: more fuel changes nothing. -/
theorem C30_gen_unused_symbols (used : Str) (n : Nat) :
    (genUnusedSymbols used n).length = n ∧
    (genUnusedSymbols used n).Nodup ∧
    (∀ c ∈ genUnusedSymbols used n, c ∉ used ∧ ∃ i, c = getSymbol i) ∧
    (∀ i, getSymbol i ∉ used → getSymbol i ∈ genUnusedSymbols used n ∨
      ∀ j, getSymbol j ∈ genUnusedSymbols used n → j < i) ∧
    (∀ f, used.length + n ≤ f → genUnusedAux used f 0 n = genUnusedSymbols used n) :=
  ⟨genUnused_length used n, genUnused_nodup used n, genUnused_fresh used n, genUnused_earliest used n,
    fun f h => genUnusedAux_fuel used f n h⟩

example : genUnusedSymbols (S "abd") 2 = S "ce" := by decide

/-! ## C31 alpha_canonicalize -/

/-- Two equations have the same canonical form iff they are alpha-equivalent. -/
theorem C31_alpha_canonicalize_iff (e₁ e₂ : Str) :
    alphaCanonicalize e₁ = alphaCanonicalize e₂ ↔ AlphaEq e₁ e₂ := by
  constructor
  · exact alphaEq_of_canon_eq
  · rintro ⟨f, hf, rfl⟩
    exact (alphaCanonicalize_of_renaming hf).symm

/-- The canonical form is itself alpha-equivalent to the equation. -/
theorem C31_alpha_canonicalize_renames (e : Str) : AlphaEq e (alphaCanonicalize e) :=
  ⟨canonFun e, canon_renaming e, alphaCanonicalize_eq' e⟩

/-- `alpha_canonicalize` is idempotent. -/
theorem C31_alpha_canonicalize_idempotent (e : Str) :
    alphaCanonicalize (alphaCanonicalize e) = alphaCanonicalize e := by
  have h := C31_alpha_canonicalize_renames e
  exact ((C31_alpha_canonicalize_iff _ _).2 h).symm

example : AlphaEq (S "dc,cb->db") (S "ab,bc->ac") ∧ ¬ AlphaEq (S "dc,cb->db") (S "ab,bc->ca") := by
  rw [← C31_alpha_canonicalize_iff, ← C31_alpha_canonicalize_iff]; decide

/-! ## C32 convert_to_valid_einsum_chars -/

/-- A character that `np.einsum` accepts in its subscripts. -/
def NumpyChar (c : Nat) : Prop :=
  (97 ≤ c ∧ c ≤ 122) ∨ (65 ≤ c ∧ c ≤ 90) ∨ IsPunct c

/-- Full statement of C32 (false of the code because `.` is renamed too, see below). -/
def C32_statement : Prop := ∀ s : Str, ∃ f : Nat → Nat, Renaming f s ∧ convertToValidEinsumChars s = s.map f ∧
  (∀ L : List Nat, (∀ c ∈ labelSet s, c ∈ L) → L.length ≤ 52 → ∀ c ∈ convertToValidEinsumChars s, NumpyChar c)

/-- The ellipsis in `'é...'` becomes letters. -/
theorem C32_counterexample : ¬ C32_statement := by
  intro h
  obtain ⟨f, hf, heq, _⟩ := h [46, 46, 46, 233]
  have : (convertToValidEinsumChars [46, 46, 46, 233]).headD 0 = 97 := by decide
  rw [heq] at this
  simp only [List.map_cons, List.headD_cons] at this
  rw [hf.fixes 46 (Or.inl rfl)] at this
  omega

/-- C32 for strings without `.`: the result is an injective renaming of the labels that keeps the
punctuation, and consists of valid characters when at most 52 different labels occur.
Missing: strings with an ellipsis, which the code breaks. -/
theorem C32_convert_to_valid_einsum_chars_partial (s : Str) (hdot : cDot ∉ s) :
    (∃ f : Nat → Nat, Renaming f s ∧ convertToValidEinsumChars s = s.map f) ∧
    (∀ L : List Nat, (∀ c ∈ labelSet s, c ∈ L) → L.length ≤ 52 →
      ∀ c ∈ convertToValidEinsumChars s, NumpyChar c) := by
  have hlab : ∀ c ∈ labelSet s, ∃ i, (sortedSet (s.filter (fun x => x ∉ [cComma, cDash, cGt])))[i]? = some c ∧
      convFun s c = getSymbol i := by
    intro c hc
    apply convFun_label s c hc.1
    intro h
    apply hc.2
    unfold IsPunct
    tauto
  refine ⟨⟨fun c => if c = cDot then c else convFun s c, ⟨?_, ?_, ?_⟩, ?_⟩, ?_⟩
  · intro c hc
    by_cases hd : c = cDot
    · simp [hd]
    · rw [if_neg hd]
      rcases hc with h | h
      · exact absurd h hd
      · exact convFun_sep s c h
  · intro c hc
    have hd : c ≠ cDot := fun h => hdot (h ▸ hc.1)
    obtain ⟨i, _, hi⟩ := hlab c hc
    simp only [if_neg hd, hi]
    exact getSymbol_not_isPunct i
  · intro a ha b hb hab
    have hda : a ≠ cDot := fun h => hdot (h ▸ ha.1)
    have hdb : b ≠ cDot := fun h => hdot (h ▸ hb.1)
    simp only [if_neg hda, if_neg hdb] at hab
    obtain ⟨i, hi, hi'⟩ := hlab a ha
    obtain ⟨j, hj, hj'⟩ := hlab b hb
    rw [hi', hj'] at hab
    have := getSymbol_injective hab
    subst this
    rw [hi] at hj
    exact Option.some.inj hj
  · rw [convert_eq]
    apply List.map_congr_left
    intro c hc
    have hd : c ≠ cDot := fun h => hdot (h ▸ hc)
    rw [if_neg hd]
  · intro L hL hlen c hc
    rw [convert_eq] at hc
    obtain ⟨x, hx, rfl⟩ := List.mem_map.1 hc
    by_cases hp : IsPunct x
    · have hd : x ≠ cDot := fun h => hdot (h ▸ hx)
      rw [convFun_sep s x (by rcases hp with h | h; exact absurd h hd; exact h)]
      exact Or.inr (Or.inr hp)
    · obtain ⟨i, hi, hi'⟩ := hlab x ⟨hx, hp⟩
      rw [hi']
      have hsub : (sortedSet (s.filter (fun x => x ∉ [cComma, cDash, cGt]))) ⊆ L := by
        intro a ha
        rw [sortedSet_mem, List.mem_filter] at ha
        apply hL
        refine ⟨ha.1, ?_⟩
        have hd : a ≠ cDot := fun h => hdot (h ▸ ha.1)
        have h2 := ha.2
        simp only [List.mem_cons, List.not_mem_nil, or_false, not_or, decide_eq_true_eq] at h2
        unfold IsPunct
        tauto
      have hle := ((sortedSet_nodup _).subperm hsub).length_le
      have hlt : i < 52 := by
        have : i < (sortedSet (s.filter (fun x => x ∉ [cComma, cDash, cGt]))).length := by
          by_contra hh
          rw [List.getElem?_eq_none (by omega)] at hi
          cases hi
        omega
      unfold NumpyChar
      rw [getSymbol_eq]
      split
      · left; omega
      · right; left; omega

example : convertToValidEinsumChars [292, 283, 316, 316, 246] = S "cbdda" := by decide

/-! ## C33 find_output_str -/

/-- `find_output_str` is the strictly increasing list of the labels that occur exactly once. -/
theorem C33_find_output_str (s : Str) :
    StrictInc (findOutputStr s) ∧ ∀ c, c ∈ findOutputStr s ↔ c ≠ cComma ∧ s.count c = 1 :=
  ⟨findOutputStr_strict s, mem_findOutputStr s⟩

/-- It does not depend on the order of the operands (nor of anything else but the multiset of labels). -/
theorem C33_find_output_str_order_independent (s t : Str) (h : (removeChar cComma s).Perm (removeChar cComma t)) :
    findOutputStr s = findOutputStr t := by
  apply strict_ext (findOutputStr_strict s) (findOutputStr_strict t)
  intro c
  rw [mem_findOutputStr, mem_findOutputStr]
  apply and_congr_right
  intro hc
  rw [← count_removeChar hc, ← count_removeChar (s := t) hc, h.count_eq]

example : findOutputStr (S "ab,bc") = S "ac" ∧ findOutputStr (S "bc,ab") = S "ac" := by decide

/-! ## C34 parse_einsum_input, no ellipsis -/

/-- Well-formedness of an equation without ellipsis for `n` operands, together with the input part
and the (explicit or implicit) output it denotes. -/
inductive WellFormed (n : Nat) : Str → Str → Str → Prop
  | explicit (inp out : Str) (hi : cDash ∉ inp) (hi' : cGt ∉ inp) (ho : cDash ∉ out) (ho' : cGt ∉ out)
      (nodup : out.Nodup) (sub : ∀ c ∈ out, c ∈ inp) (hn : inp.count cComma + 1 = n) :
      WellFormed n (inp ++ S "->" ++ out) inp out
  | implicit (inp out : Str) (hi : cDash ∉ inp) (hi' : cGt ∉ inp)
      (inc : StrictInc out) (once : ∀ c, c ∈ out ↔ c ≠ cComma ∧ inp.count c = 1)
      (hn : inp.count cComma + 1 = n) :
      WellFormed n inp inp out

theorem checkOutput_ok_iff (inp out : Str) :
    checkOutput inp out = .ok () ↔ out.Nodup ∧ ∀ c ∈ out, c ∈ inp := by
  unfold checkOutput
  split
  · rename_i h
    simp only [true_iff]
    rw [List.all_eq_true] at h
    simp only [Bool.and_eq_true, decide_eq_true_eq] at h
    refine ⟨?_, fun c hc => (h c hc).2⟩
    rw [List.nodup_iff_count_le_one]
    intro a
    by_cases ha : a ∈ out
    · exact le_of_eq (h a ha).1
    · rw [List.count_eq_zero.2 ha]; omega
  · rename_i h
    simp only [reduceCtorEq, false_iff]
    rintro ⟨h1, h2⟩
    apply h
    rw [List.all_eq_true]
    intro c hc
    simp only [Bool.and_eq_true, decide_eq_true_eq]
    refine ⟨?_, h2 c hc⟩
    exact List.count_eq_one_of_mem h1 hc

theorem checkOutput_cases (inp out : Str) :
    checkOutput inp out = .ok () ∨ checkOutput inp out = .error .value := by
  unfold checkOutput; split <;> simp

/-- Without an ellipsis, `parse_einsum_input` succeeds with `(inp, out)` exactly when the equation with
its spaces removed is well-formed and denotes them. Note that `,` is treated by the code like any
other character of an explicit output. -/
theorem C34_parse_einsum_input_iff (s : Str) (shapes : List Shape) (hdot : cDot ∉ s) (inp out : Str) :
    parseEinsum s shapes = .ok (inp, out) ↔ WellFormed shapes.length (s.filter (· ≠ cSpace)) inp out := by
  have hs : s.filter (· ≠ cSpace) = removeChar cSpace s := rfl
  rw [hs]
  set t := removeChar cSpace s with ht
  have hdt : cDot ∉ t := fun h => hdot (mem_removeChar.1 h).1
  have harrow : S "->" = [cDash, cGt] := by decide
  unfold parseEinsum
  simp only [← ht]
  by_cases hb : badArrow t = true
  · rw [if_pos hb]
    simp only [reduceCtorEq, false_iff]
    intro hw
    have : badArrow t = false := by
      rw [badArrow_false_iff]
      generalize htt : t = t' at hw
      cases hw with
      | explicit i o h1 h2 h3 h4 h5 h6 h7 =>
        right
        exact ⟨inp, out, by rw [harrow], h1, h2, h3, h4⟩
      | implicit i o h1 h2 => left; exact ⟨h1, h2⟩
    rw [this] at hb; cases hb
  · rw [if_neg hb, if_neg hdt]
    have hbf : badArrow t = false := by simpa using hb
    simp only [bind, Except.bind]
    unfold finishParse
    rw [badArrow_false_iff] at hbf
    rcases hbf with ⟨h1, h2⟩ | ⟨a, b, hab, h1, h2, h3, h4⟩
    · -- no arrow
      rw [splitArrow_of_free t h2]
      simp only [bind, Except.bind]
      have hck : checkOutput t (findOutputStr t) = .ok () := by
        rw [checkOutput_ok_iff]
        refine ⟨(findOutputStr_strict t).imp (fun h => ne_of_lt h), ?_⟩
        intro c hc
        have := (mem_findOutputStr t c).1 hc
        exact List.count_pos_iff.1 (by omega)
      rw [hck]
      simp only [splitOn_length]
      constructor
      · intro h
        split at h
        · cases h
        · rename_i hn
          simp only [Except.ok.injEq, Prod.mk.injEq] at h
          obtain ⟨rfl, rfl⟩ := h
          exact WellFormed.implicit _ _ h1 h2 (findOutputStr_strict _) (mem_findOutputStr _) (by simpa using hn)
      · intro hw
        generalize htt : t = t' at hw
        cases hw with
        | explicit i o g1 g2 g3 g4 g5 g6 g7 =>
          exfalso
          rw [htt, harrow] at h1
          apply h1; simp
        | implicit i o g1 g2 g3 g4 g5 =>
          subst htt
          rw [if_neg (by simpa using g5)]
          have : findOutputStr t = out := strict_ext (findOutputStr_strict t) g3
            (fun c => by rw [mem_findOutputStr, g4])
          rw [this]
    · -- one arrow
      have hsp := splitArrow_two a b h1 h4
      rw [hab, hsp]
      simp only [bind, Except.bind]
      constructor
      · intro h
        rcases checkOutput_cases a b with hck | hck
        · rw [hck] at h
          simp only [splitOn_length] at h
          split at h
          · cases h
          · rename_i hn
            simp only [Except.ok.injEq, Prod.mk.injEq] at h
            obtain ⟨rfl, rfl⟩ := h
            have hck' := (checkOutput_ok_iff _ _).1 hck
            have := WellFormed.explicit (n := shapes.length) a b h1 h2 h3 h4 hck'.1 hck'.2 (by simpa using hn)
            rwa [harrow] at this
        · rw [hck] at h; cases h
      · intro hw
        generalize htt : a ++ [cDash, cGt] ++ b = t' at hw
        cases hw with
        | explicit i o g1 g2 g3 g4 g5 g6 g7 =>
          rw [harrow] at htt
          have hsp' := splitArrow_two inp out g1 g4
          rw [← htt, hsp] at hsp'
          simp only [List.cons.injEq, and_true] at hsp'
          obtain ⟨rfl, rfl⟩ := hsp'
          rw [(checkOutput_ok_iff a b).2 ⟨g5, g6⟩]
          simp only [splitOn_length]
          rw [if_neg (by simpa using g7)]
        | implicit i o g1 g2 g3 g4 g5 =>
          exfalso
          rw [← htt] at g1
          apply g1; simp

/-- Every rejection of an equation without ellipsis is a `ValueError`. -/
theorem C34_parse_einsum_input_error (s : Str) (shapes : List Shape) (hdot : cDot ∉ s) (e : PyErr)
    (h : parseEinsum s shapes = .error e) : e = .value := by
  have hdt : cDot ∉ removeChar cSpace s := fun h => hdot (mem_removeChar.1 h).1
  unfold parseEinsum at h
  simp only at h
  split at h
  · cases h; rfl
  · simp only [bind, Except.bind, finishParse] at h
    split at h
    · rename_i hh
      rcases checkOutput_cases _ _ with hc | hc
      · rw [hc] at hh; cases hh
      · rw [hc] at hh; cases hh; cases h; rfl
    · split at h <;> split at h <;> first | (cases h; rfl) | cases h

/-- Spaces are ignored. -/
theorem C34_spaces_ignored (s t : Str) (shapes : List Shape)
    (h : s.filter (· ≠ cSpace) = t.filter (· ≠ cSpace)) : parseEinsum s shapes = parseEinsum t shapes := by
  have : removeChar cSpace s = removeChar cSpace t := h
  unfold parseEinsum
  rw [this]

/-- A finding: the parser accepts `,` as an output "label" when there are exactly two operands. -/
theorem C34_comma_in_output_accepted :
    parseEinsum (S "a,b->a,b") [[2], [3]] = .ok (S "a,b", S "a,b") := by decide

example : parseEinsum (S "ab, bc -> ca") [[2, 3], [3, 4]] = .ok (S "ab,bc", S "ca") ∧
    parseEinsum (S "ab,bc->cd") [[2, 3], [3, 4]] = .error .value ∧
    parseEinsum (S "ab,bc") [[2, 3], [3, 4]] = .ok (S "ab,bc", S "ac") := by decide

end OE.Props
