import Verif.Lemmas.Print
import Verif.Props.Report
import Verif.Props.Parser2

/-!
# C68: what `print(path_info)` shows
-/

namespace OE.Props
open OE OE.Py OE.Parser OE.Contract OE.Blas OE.Print OE.Spec

/-- Integers are printed so that they can be read. -/
theorem C68_integers (n : Nat) : readNat (natStr n) = n ∧ natStr n ≠ [] ∧ ∀ c ∈ natStr n, 48 ≤ c ∧ c < 58 :=
  ⟨readNat_natStr n, natStr_ne_nil n, fun _ => natStr_digit⟩

theorem readE_zero : readE (fmtE3 0) = some 0 := by decide +kernel

/-- A figure that is printed is right to within half a unit of its fourth digit. -/
theorem C68_figures {q : ℚ} (hq : 0 ≤ q) : ∃ v, readE (fmtE3 q) = some v ∧ |v - q| ≤ q / 2000 := by
  rcases hq.eq_or_lt with rfl | h
  · exact ⟨0, readE_zero, by simp⟩
  · refine ⟨_, readE_fmtE3 h, ?_⟩
    have := roundSig_relative h 3
    norm_num at this ⊢
    exact this

/-- Counts of at most four digits are printed exactly. -/
theorem C68_exact {n : Nat} (hn : n < 10000) : readE (fmtE3 n) = some (n : ℚ) := by
  rcases Nat.eq_zero_or_pos n with rfl | h0
  · exact_mod_cast readE_zero
  have hq : (0 : ℚ) < n := by exact_mod_cast h0
  rw [readE_fmtE3 hq]
  congr 1
  have hlog : Int.log 10 (n : ℚ) = (Nat.log 10 n : Int) := Int.log_natCast 10 n
  have hle : Nat.log 10 n ≤ 3 := by
    have : Nat.log 10 n < 4 := Nat.log_lt_of_lt_pow (by omega) (by omega)
    omega
  obtain ⟨j, hj⟩ : ∃ j, Nat.log 10 n + j = 3 := ⟨3 - Nat.log 10 n, by omega⟩
  have he : (Nat.log 10 n : Int) - ((4 : Nat) - 1 : Int) = -(j : Int) := by push_cast; omega
  have hdiv : (n : ℚ) / 10 ^ (-(j : Int)) = ((n * 10 ^ j : Nat) : ℚ) := by
    rw [zpow_neg, zpow_natCast, div_inv_eq_mul]; push_cast; ring
  have hm : roundEven ((n : ℚ) / 10 ^ ((Nat.log 10 n : Int) - ((4 : Nat) - 1 : Int))) = n * 10 ^ j := by
    rw [he, hdiv, roundEven_nat]
  have hlt : n * 10 ^ j < 10 ^ 4 := by
    have h1 : n < 10 ^ (Nat.log 10 n + 1) := Nat.lt_pow_succ_log_self (by norm_num) n
    calc n * 10 ^ j < 10 ^ (Nat.log 10 n + 1) * 10 ^ j := Nat.mul_lt_mul_of_pos_right h1 (by positivity)
      _ = 10 ^ 4 := by rw [← pow_add]; congr 1; omega
  unfold roundSig
  simp only [hlog, hm]
  rw [if_neg (by omega)]
  have he' : (Nat.log 10 n : Int) - 3 = -(j : Int) := by omega
  simp only [he']
  rw [zpow_neg, zpow_natCast]
  push_cast
  field_simp

/-- The speedup that is printed is the quotient of the two counts, to within half a unit of its fourth digit and the 28 digits of the division. -/
theorem C68_speedup (info : PathInfo) :
    ∃ v, readE (fmtE3 (speedup info)) = some v ∧
      |v - (info.naiveCost : ℚ) / (max info.optCost 1 : Nat)| ≤ (info.naiveCost : ℚ) / (max info.optCost 1 : Nat) * (1 / 2000 + 1 / 10 ^ 27) := by
  unfold speedup
  by_cases h0 : info.naiveCost = 0
  · rw [if_pos h0, h0]
    exact ⟨0, readE_zero, by simp⟩
  · rw [if_neg h0]
    have hd : (0 : ℚ) < (max info.optCost 1 : Nat) := by
      have : 0 < max info.optCost 1 := by omega
      exact_mod_cast this
    have hn : (0 : ℚ) < info.naiveCost := by exact_mod_cast Nat.pos_of_ne_zero h0
    set ρ := (info.naiveCost : ℚ) / (max info.optCost 1 : Nat) with hρ
    have hρ0 : 0 < ρ := div_pos hn hd
    have hs := roundSig_relative hρ0 27
    set s := ((roundSig 28 ρ).1 : ℚ) * 10 ^ ((roundSig 28 ρ).2 - 27) with hsdef
    have hs' : |s - ρ| ≤ ρ / (2 * 10 ^ 27) := hs
    have hb := abs_le.mp hs'
    have hpos : 0 ≤ s := by
      exact mul_nonneg (Nat.cast_nonneg _) (zpow_nonneg (by norm_num) _)
    obtain ⟨v, hv, hv'⟩ := C68_figures hpos
    refine ⟨v, hv, ?_⟩
    have hb' := abs_le.mp hv'
    rw [abs_le]
    constructor <;> nlinarith [hb.1, hb.2, hb'.1, hb'.2]

/-! ## The table -/

theorem fmtE3_chars {q : ℚ} {c : Nat} (h : c ∈ fmtE3 q) : (48 ≤ c ∧ c < 58) ∨ c = 46 ∨ c = 101 ∨ c = 43 ∨ c = 45 := by
  unfold fmtE3 at h
  split at h
  · revert h; revert c; decide
  · simp only [List.mem_append] at h
    rcases h with ((((h | h) | h) | h) | h) | h
    · left; exact natStr_digit (List.mem_of_mem_take h)
    · right; left; exact List.mem_singleton.mp h
    · left; exact natStr_digit (List.mem_of_mem_drop h)
    · right; right; left; revert h; have : S "e" = [101] := by decide
      rw [this]; simp
    · split at h
      · have : S "+" = [43] := by decide
        rw [this] at h; simp at h; omega
      · have : S "-" = [45] := by decide
        rw [this] at h; simp at h; omega
    · left; exact natStr_digit h

theorem fmtE3_ne_nil (q : ℚ) : fmtE3 q ≠ [] := by
  unfold fmtE3
  split
  · decide
  · simp

theorem stepLines_eq (output : Str) {ns : List Nat} {ss : List Step} (h : ns.length = ss.length) :
    stepLines output ns ss = .ok ((ns.zip ss).flatMap fun p => 10 :: stepLine output p.1 p.2) := by
  induction ss generalizing ns with
  | nil => cases ns <;> simp_all [stepLines]
  | cons s t ih =>
    cases ns with
    | nil => simp at h
    | cons n ns =>
      simp only [stepLines, ih (by simpa using h), bind, Except.bind]
      simp

theorem lines_flatMap (α : Type) (f : α → Str) (l : List α) (a : Str) (ha : 10 ∉ a) (hf : ∀ x ∈ l, 10 ∉ f x) :
    lines (a ++ l.flatMap fun x => 10 :: f x) = a :: l.map f := by
  induction l generalizing a with
  | nil => simpa [lines] using splitOn_of_free 10 a ha
  | cons x t ih =>
    rw [List.flatMap_cons, List.cons_append]
    show splitOn 10 (a ++ 10 :: (f x ++ t.flatMap fun x => 10 :: f x)) = _
    rw [splitOn_append_sep, splitOn_of_free 10 a ha]
    have := ih (f x) (hf x (by simp)) (fun y hy => hf y (by simp [hy]))
    unfold lines at this
    rw [this]; simp

/-- The terms that `contract_path` prints are made of the labels of the equation. -/
theorem pathLoop_chars {ub : Bool} {output : Str} {d : Dict Nat Nat} {c : Nat} (ho : c ∉ output) (h1 : c ≠ cComma) (h2 : c ≠ cDash) (h3 : c ≠ cGt) :
    ∀ {path : List (List Nat)} {st st' : PathState} {outs : List StepOut}, pathLoop ub output d st path = .ok (st', outs) →
      (∀ t ∈ st.inputs, c ∉ t) → ∀ o ∈ outs, c ∉ o.step.einsumStr ∧ ∀ l, o.step.remaining = some l → ∀ t ∈ l, c ∉ t := by
  intro path
  induction path with
  | nil => intro st st' outs h _ o ho; simp only [pathLoop] at h; cases h; simp at ho
  | cons p ps ih =>
    intro st st' outs h hin o hmem
    simp only [pathLoop, bind, Except.bind] at h
    rcases hs : pathStep ub output d st p ps.isEmpty with e | ⟨s1, o1⟩
    · rw [hs] at h; cases h
    rw [hs] at h; simp only at h
    rcases hl : pathLoop ub output d s1 ps with e | ⟨s2, os⟩
    · rw [hl] at h; cases h
    rw [hl] at h; cases h
    have key : (∀ t ∈ s1.inputs, c ∉ t) ∧ c ∉ o1.step.einsumStr ∧ ∀ l, o1.step.remaining = some l → ∀ t ∈ l, c ∉ t := by
      unfold pathStep at hs
      simp only [bind, Except.bind] at hs
      split at hs
      · cases hs
      split at hs
      · cases hs
      rename_i v hv
      obtain ⟨tmp, rest⟩ := v
      simp only at hs
      split at hs
      · cases hs
      split at hs
      · cases hs
      split at hs
      · cases hs
      split at hs
      · cases hs
      cases hs
      have hperm := popAll_perm hv
      have htmp : ∀ t ∈ tmp, c ∉ t := fun t ht => hin t (hperm.mem_iff.mp (by simp [ht]))
      have hrest : ∀ t ∈ rest, c ∉ t := fun t ht => hin t (hperm.mem_iff.mp (by simp [ht]))
      have hnew : ∀ nr, c ∉ (if ps.isEmpty = true then output else tensordotOrder tmp.flatten nr) := by
        intro nr
        split
        · exact ho
        · intro hc
          unfold tensordotOrder at hc
          have := mem_firstOccs.mp (List.mem_filter.mp hc).1
          obtain ⟨t, ht, hct⟩ := List.mem_flatten.mp this
          exact htmp t ht hct
      refine ⟨?_, ?_, ?_⟩
      · intro t ht
        simp only [List.mem_append, List.mem_singleton] at ht
        rcases ht with ht | rfl
        · exact hrest t ht
        · exact hnew _
      · simp only [einsumStrOf, List.mem_append, not_or]
        refine ⟨⟨?_, by simp [h2, h3]⟩, hnew _⟩
        intro hc
        rcases mem_join _ _ _ hc with h | ⟨t, ht, h⟩
        · simp [h1] at h
        · exact htmp t ht h
      · intro l hl' t ht
        have hl2 := (Option.ite_none_right_eq_some.mp hl').2
        · cases hl2
          simp only [List.mem_append, List.mem_singleton] at ht
          rcases ht with ht | rfl
          · exact hrest t ht
          · exact hnew _
    rcases List.mem_cons.mp hmem with rfl | hm
    · exact key.2
    · exact ih hl key.1 o hm

theorem pathLoop_einsum_ne_nil {ub : Bool} {output : Str} {d : Dict Nat Nat} :
    ∀ {path : List (List Nat)} {st st' : PathState} {outs : List StepOut}, pathLoop ub output d st path = .ok (st', outs) →
      ∀ o ∈ outs, o.step.einsumStr ≠ [] := by
  intro path
  induction path with
  | nil => intro st st' outs h o ho; simp only [pathLoop] at h; cases h; simp at ho
  | cons p ps ih =>
    intro st st' outs h o hmem
    simp only [pathLoop, bind, Except.bind] at h
    rcases hs : pathStep ub output d st p ps.isEmpty with e | ⟨s1, o1⟩
    · rw [hs] at h; cases h
    rw [hs] at h; simp only at h
    rcases hl : pathLoop ub output d s1 ps with e | ⟨s2, os⟩
    · rw [hl] at h; cases h
    rw [hl] at h; cases h
    rcases List.mem_cons.mp hmem with rfl | hm
    · unfold pathStep at hs
      simp only [bind, Except.bind] at hs
      split at hs
      · cases hs
      split at hs
      · cases hs
      split at hs
      · cases hs
      split at hs
      · cases hs
      split at hs
      · cases hs
      split at hs
      · cases hs
      cases hs
      simp [einsumStrOf]
    · exact ih hl o hm

theorem flagStr_words (f : Flag) : flagStr f ≠ [] ∧ 32 ∉ flagStr f ∧ 10 ∉ flagStr f := by
  cases f <;> decide

theorem natStr_free {n c : Nat} (h : c < 48) : c ∉ natStr n := fun hc => by
  have := natStr_digit hc; omega

theorem padLeft_free {n c : Nat} {s : Str} (hc : c ≠ 32) (h : c ∉ s) : c ∉ padLeft n s := by
  unfold padLeft
  simp [h, hc]

theorem remainingStr_free {output : Str} {l : Option (List Str)} {c : Nat} (ho : c ∉ output) (h1 : c ≠ cComma) (h2 : c ≠ cDash) (h3 : c ≠ cGt)
    (h4 : c ≠ cDot) (hl : ∀ x, l = some x → ∀ t ∈ x, c ∉ t) : c ∉ remainingStr output l := by
  cases l with
  | none =>
    have : S "..." = [46, 46, 46] := by decide
    simp only [remainingStr, this]
    have h4' : c ≠ 46 := h4
    simp [h4']
  | some x =>
    simp only [remainingStr, List.mem_append, not_or]
    refine ⟨⟨?_, by simp [h2, h3]⟩, ho⟩
    intro hc
    rcases mem_join _ _ _ hc with h | ⟨t, ht, h⟩
    · simp [h1] at h
    · exact hl x rfl t ht h

theorem remainingStr_ne_nil (output : Str) (l : Option (List Str)) : remainingStr output l ≠ [] := by
  cases l with
  | none => show S "..." ≠ []; decide
  | some x => simp [remainingStr]

theorem words_stepLine {output : Str} {n : Nat} {s : Step} (h1 : s.einsumStr ≠ []) (h2 : 32 ∉ s.einsumStr)
    (h3 : 32 ∉ remainingStr output s.remaining) :
    words (stepLine output n s) = [natStr n, flagStr s.blas, s.einsumStr, remainingStr output s.remaining] := by
  have hf := flagStr_words s.blas
  have : stepLine output n s = padLeft 4 (natStr n) ++ 32 :: (padLeft 14 (flagStr s.blas) ++ 32 :: (padLeft 22 s.einsumStr ++ 32 :: (32 :: 32 :: 32 ::
      padLeft (56 - max 22 s.einsumStr.length) (remainingStr output s.remaining)))) := by
    simp [stepLine]
  rw [this, words_append, words_append, words_append, words_space, words_space, words_space, words_padLeft _ (natStr_ne_nil n) (natStr_free (by norm_num)),
    words_padLeft _ hf.1 hf.2.1, words_padLeft _ h1 h2, words_padLeft _ (remainingStr_ne_nil _ _) h3]
  rfl

theorem flagStr_eq (f : Flag) : flagStr f = kindText f := by cases f <;> decide

theorem remainingStr_eq (output : Str) (l : Option (List Str)) : remainingStr output l = restText output l := by
  have h : S "->" = [cDash, cGt] := by decide
  cases l with
  | none => rfl
  | some x => simp [remainingStr, restText, join_eq_intercalate, h]

theorem words_label {a b : Str} {l : List Str} (hw : words a = l) (h : b ≠ []) (hs : 32 ∉ b) : words (a ++ 32 :: b) = l ++ [b] := by
  rw [words_append, hw, words_word h hs]

/-- Whatever `contract_path` reports is printed without an exception as this table, unless a line break is one of the labels. -/
theorem C68_table {s : Str} {shapes : List Shape} {opt : Optimize} {mem : MemLimit} {ub : Bool} {r : Report}
    (h : contractPathStr s shapes opt mem ub = .ok r) (hnl : 10 ∉ r.inputSubscripts) :
    ∃ text, reprInfo r = .ok text ∧ (lines text).map words = table r := by
  obtain ⟨hp, hc, _, heq⟩ := contractPathStr_parts h
  obtain ⟨sl, mm, st, outs, _, _, _, _, _, hloop, hinfo⟩ := contractPath_parts hc
  obtain ⟨_, _, hout, _⟩ := parse_labels hp
  have hgood := parse_good hp
  have hsp : (32 : Nat) ∉ r.inputSubscripts := by
    intro hc
    rw [← join_splitOn cComma r.inputSubscripts] at hc
    rcases mem_join _ _ _ hc with h | ⟨t, ht, h⟩
    · exact absurd (List.mem_singleton.mp h) (by decide)
    · exact (hgood t ht _ h).2 rfl
  have hospace : (32 : Nat) ∉ r.outputSubscript := fun hc => hsp (hout _ hc)
  have honl : (10 : Nat) ∉ r.outputSubscript := fun hc => hnl (hout _ hc)
  have hfree : ∀ {c : Nat}, c ∉ r.inputSubscripts → ∀ t ∈ splitOn cComma r.inputSubscripts, c ∉ t := fun hc t ht hct => hc (mem_of_splitOn ht hct)
  have hch : ∀ {c : Nat}, c ∉ r.inputSubscripts → c ≠ cComma → c ≠ cDash → c ≠ cGt → c ≠ cDot → ∀ o ∈ outs,
      c ∉ o.step.einsumStr ∧ c ∉ remainingStr r.outputSubscript o.step.remaining := by
    intro c hc c1 c2 c3 c4 o ho
    have hco : c ∉ r.outputSubscript := fun h => hc (hout _ h)
    have := pathLoop_chars hco c1 c2 c3 hloop (hfree hc) o ho
    exact ⟨this.1, remainingStr_free hco c1 c2 c3 c4 this.2⟩
  have hsteps : r.info.contractionList = outs.map StepOut.step := by rw [hinfo]
  have hscales : r.info.scaleList = outs.map StepOut.scale := by rw [hinfo]
  have hzip : r.info.scaleList.zip r.info.contractionList = outs.map fun o => (o.scale, o.step) := by
    rw [hsteps, hscales, List.zip_map, List.zip_eq_zipWith, List.map_zipWith]
    simp [List.zipWith_self]
  have hlen : r.info.scaleList.length = r.info.contractionList.length := by rw [hsteps, hscales]; simp
  have heqw : r.eq ≠ [] ∧ 32 ∉ r.eq ∧ 10 ∉ r.eq := by
    rw [heq]
    refine ⟨by simp, ?_, ?_⟩ <;> simp only [List.mem_append, not_or] <;> refine ⟨⟨by assumption, by decide⟩, by assumption⟩
  have hE : ∀ q : ℚ, fmtE3 q ≠ [] ∧ 32 ∉ fmtE3 q ∧ 10 ∉ fmtE3 q := by
    intro q
    refine ⟨fmtE3_ne_nil q, fun hc => ?_, fun hc => ?_⟩ <;> have := fmtE3_chars hc <;> omega
  have hN : ∀ n : Nat, natStr n ≠ [] ∧ 32 ∉ natStr n ∧ 10 ∉ natStr n := fun n => ⟨natStr_ne_nil n, natStr_free (by norm_num), natStr_free (by norm_num)⟩
  unfold reprInfo
  rw [stepLines_eq _ hlen]
  refine ⟨_, rfl, ?_⟩
  set l1 := S "  Complete contraction:  " ++ r.eq with hl1
  set l2 := S "         Naive scaling:  " ++ natStr r.info.indices.card with hl2
  set l3 := S "     Optimized scaling:  " ++ natStr (r.info.scaleList.max?.getD 0) with hl3
  set l4 := S "      Naive FLOP count:  " ++ fmtE3 r.info.naiveCost with hl4
  set l5 := S "  Optimized FLOP count:  " ++ fmtE3 r.info.optCost with hl5
  set l6 := S "   Theoretical speedup:  " ++ fmtE3 (speedup r.info) with hl6
  set l7 := S "  Largest intermediate:  " ++ fmtE3 r.info.largestIntermediate ++ S " elements" with hl7
  set l8 := List.replicate 80 cDash with hl8
  set l9 := padLeft 6 (S "scaling") ++ [32] ++ padLeft 11 (S "BLAS") ++ [32] ++ padLeft 22 (S "current") ++ [32] ++ padLeft 37 (S "remaining") with hl9
  have e1 : S "  Complete contraction:  " = S "  Complete contraction: " ++ [32] := by decide
  have e2 : S "         Naive scaling:  " = S "         Naive scaling: " ++ [32] := by decide
  have e3 : S "     Optimized scaling:  " = S "     Optimized scaling: " ++ [32] := by decide
  have e4 : S "      Naive FLOP count:  " = S "      Naive FLOP count: " ++ [32] := by decide
  have e5 : S "  Optimized FLOP count:  " = S "  Optimized FLOP count: " ++ [32] := by decide
  have e6 : S "   Theoretical speedup:  " = S "   Theoretical speedup: " ++ [32] := by decide
  have e7 : S "  Largest intermediate:  " = S "  Largest intermediate: " ++ [32] := by decide
  have e7' : S " elements" = 32 :: S "elements" := by decide
  have w1 : words l1 = [S "Complete", S "contraction:", r.eq] := by
    rw [hl1, e1, List.append_assoc]; exact words_label (l := [S "Complete", S "contraction:"]) (by decide) heqw.1 heqw.2.1
  have w2 : words l2 = [S "Naive", S "scaling:", natStr r.info.indices.card] := by
    rw [hl2, e2, List.append_assoc]; exact words_label (l := [S "Naive", S "scaling:"]) (by decide) (hN _).1 (hN _).2.1
  have w3 : words l3 = [S "Optimized", S "scaling:", natStr (r.info.scaleList.max?.getD 0)] := by
    rw [hl3, e3, List.append_assoc]; exact words_label (l := [S "Optimized", S "scaling:"]) (by decide) (hN _).1 (hN _).2.1
  have w4 : words l4 = [S "Naive", S "FLOP", S "count:", fmtE3 r.info.naiveCost] := by
    rw [hl4, e4, List.append_assoc]; exact words_label (l := [S "Naive", S "FLOP", S "count:"]) (by decide) (hE _).1 (hE _).2.1
  have w5 : words l5 = [S "Optimized", S "FLOP", S "count:", fmtE3 r.info.optCost] := by
    rw [hl5, e5, List.append_assoc]; exact words_label (l := [S "Optimized", S "FLOP", S "count:"]) (by decide) (hE _).1 (hE _).2.1
  have w6 : words l6 = [S "Theoretical", S "speedup:", fmtE3 (speedup r.info)] := by
    rw [hl6, e6, List.append_assoc]; exact words_label (l := [S "Theoretical", S "speedup:"]) (by decide) (hE _).1 (hE _).2.1
  have w7 : words l7 = [S "Largest", S "intermediate:", fmtE3 r.info.largestIntermediate, S "elements"] := by
    rw [hl7, e7, e7', List.append_assoc (S "  Largest intermediate: "), words_append]
    rw [show ([32] ++ fmtE3 (r.info.largestIntermediate : ℚ)) = 32 :: fmtE3 (r.info.largestIntermediate : ℚ) from rfl,
      words_label (l := [S "Largest", S "intermediate:"]) (by decide) (hE _).1 (hE _).2.1]
    have : words (S "elements") = [S "elements"] := by decide
    rw [this]; rfl
  have w8 : words l8 = [l8] := by rw [hl8]; decide
  have w9 : words l9 = [S "scaling", S "BLAS", S "current", S "remaining"] := by rw [hl9]; decide
  have hlab : ∀ (a b : Str), 10 ∉ a → 10 ∉ b → 10 ∉ a ++ b := fun a b ha hb => by simp [ha, hb]
  have n1 : 10 ∉ l1 := hlab _ _ (by decide) heqw.2.2
  have n2 : 10 ∉ l2 := hlab _ _ (by decide) (hN _).2.2
  have n3 : 10 ∉ l3 := hlab _ _ (by decide) (hN _).2.2
  have n4 : 10 ∉ l4 := hlab _ _ (by decide) (hE _).2.2
  have n5 : 10 ∉ l5 := hlab _ _ (by decide) (hE _).2.2
  have n6 : 10 ∉ l6 := hlab _ _ (by decide) (hE _).2.2
  have n7 : 10 ∉ l7 := hlab _ _ (hlab _ _ (by decide) (hE _).2.2) (by decide)
  have n8 : 10 ∉ l8 := by rw [hl8]; decide
  have n9 : 10 ∉ l9 := by rw [hl9]; decide
  set rows := r.info.scaleList.zip r.info.contractionList with hrows
  have hrow : ∀ p ∈ rows, 10 ∉ stepLine r.outputSubscript p.1 p.2 ∧ words (stepLine r.outputSubscript p.1 p.2) =
      [natStr p.1, flagStr p.2.blas, p.2.einsumStr, remainingStr r.outputSubscript p.2.remaining] := by
    intro p hp
    rw [hzip] at hp
    obtain ⟨o, ho, rfl⟩ := List.mem_map.mp hp
    have hs := hch hsp (by decide) (by decide) (by decide) (by decide) o ho
    have hn := hch hnl (by decide) (by decide) (by decide) (by decide) o ho
    refine ⟨?_, words_stepLine (pathLoop_einsum_ne_nil hloop o ho) hs.1 hs.2⟩
    unfold stepLine
    have c32 : (10 : Nat) ≠ 32 := by decide
    exact hlab _ _ (hlab _ _ (hlab _ _ (hlab _ _ (hlab _ _ (hlab _ _ (padLeft_free c32 (hN _).2.2) (by decide)) (padLeft_free c32 (flagStr_words _).2.2))
      (by decide)) (padLeft_free c32 hn.1)) (by decide)) (padLeft_free c32 hn.2)
  have htext : ∀ tail : Str, S "  Complete contraction:  " ++ r.eq ++ [10] ++ S "         Naive scaling:  " ++ natStr r.info.indices.card ++ [10] ++
      S "     Optimized scaling:  " ++ natStr (r.info.scaleList.max?.getD 0) ++ [10] ++ S "      Naive FLOP count:  " ++ fmtE3 r.info.naiveCost ++ [10] ++
      S "  Optimized FLOP count:  " ++ fmtE3 r.info.optCost ++ [10] ++ S "   Theoretical speedup:  " ++ fmtE3 (speedup r.info) ++ [10] ++
      S "  Largest intermediate:  " ++ fmtE3 r.info.largestIntermediate ++ S " elements" ++ [10] ++ l8 ++ [10] ++
      padLeft 6 (S "scaling") ++ [32] ++ padLeft 11 (S "BLAS") ++ [32] ++ padLeft 22 (S "current") ++ [32] ++ padLeft 37 (S "remaining") ++ [10] ++ l8 ++ tail =
      l1 ++ 10 :: (l2 ++ 10 :: (l3 ++ 10 :: (l4 ++ 10 :: (l5 ++ 10 :: (l6 ++ 10 :: (l7 ++ 10 :: (l8 ++ 10 :: (l9 ++ 10 :: (l8 ++ tail))))))))) := by
    intro tail
    simp only [hl1, hl2, hl3, hl4, hl5, hl6, hl7, hl9, List.append_assoc, List.cons_append, List.nil_append]
  have hcons : ∀ (a b : Str), 10 ∉ a → lines (a ++ 10 :: b) = a :: lines b := by
    intro a b ha
    unfold lines
    rw [splitOn_append_sep, splitOn_of_free 10 a ha]; rfl
  have htail := lines_flatMap _ (fun p : Nat × Step => stepLine r.outputSubscript p.1 p.2) rows l8 n8 (fun p hp => (hrow p hp).1)
  refine (congrArg (fun t => (lines t).map words) (htext _)).trans ?_
  rw [hcons _ _ n1, hcons _ _ n2, hcons _ _ n3, hcons _ _ n4, hcons _ _ n5, hcons _ _ n6, hcons _ _ n7, hcons _ _ n8, hcons _ _ n9, htail]
  simp only [List.map_cons, w1, w2, w3, w4, w5, w6, w7, w8, w9, List.map_map, table, List.cons_append, List.nil_append]
  rw [← hl8, ← hrows]
  have : rows.map (words ∘ fun p => stepLine r.outputSubscript p.1 p.2) =
      rows.map fun p => [natStr p.1, kindText p.2.blas, p.2.einsumStr, restText r.outputSubscript p.2.remaining] :=
    List.map_congr_left fun p hp => (hrow p hp).2.trans (by rw [flagStr_eq, remainingStr_eq])
  rw [this]

/-- The example of `tests/test_contract.py` (`test_printing`), whose text has 728 characters, and two of its lines. -/
theorem C68_case :
    ((do
      let r ← contractPathStr (S "bbd,bda,fc,db->acf") [[3, 3, 5], [3, 5, 2], [3, 4], [5, 3]] (.path [[0, 3], [0, 2], [0, 1]]) .none true
      let text ← reprInfo r
      .ok (text.length, ((lines text).map words)[3]?.getD [] ++ ((lines text).map words)[11]?.getD []) : Except PyErr (Nat × List Str))) =
    .ok (728, [S "Naive", S "FLOP", S "count:", S "1.440e+3", S "3", S "GEMV/EINSUM", S "db,bda->a", S "fc,a->acf"]) := by
  decide +kernel

/-- A line break is a label that `contract_path` accepts; the text then has more lines than the table. -/
theorem C68_line_break :
    ((do
      let r ← contractPathStr [10, 97, 44, 97] [[2, 3], [3]] .off .none true
      let text ← reprInfo r
      .ok (r.inputSubscripts, (lines text).length, (table r).length) : Except PyErr _)) = .ok ([10, 97, 44, 97], 17, 11) := by
  decide +kernel

/-! ## Expressions -/

theorem numbers_skip {c : Nat} (h : ¬ (48 ≤ c ∧ c < 58)) (s : Str) : numbers (c :: s) = numbers s := by
  unfold numbers
  rw [List.map_cons, if_neg h, words_space]

theorem numbers_skips {a : Str} (h : ∀ c ∈ a, ¬ (48 ≤ c ∧ c < 58)) (s : Str) : numbers (a ++ s) = numbers s := by
  induction a with
  | nil => rfl
  | cons c t ih => rw [List.cons_append, numbers_skip (h c (by simp)), ih fun x hx => h x (by simp [hx])]

theorem numbers_nat {c : Nat} (h : ¬ (48 ≤ c ∧ c < 58)) (n : Nat) (s : Str) : numbers (natStr n ++ c :: s) = n :: numbers s := by
  unfold numbers
  have hm : (natStr n).map (fun c => if 48 ≤ c ∧ c < 58 then c else 32) = natStr n :=
    (List.map_congr_left fun c hc => if_pos (natStr_digit hc)).trans (List.map_id _)
  rw [List.map_append, hm, List.map_cons, if_neg h, words_append, words_word (natStr_ne_nil n) (natStr_free (by norm_num))]
  simp [readNat_natStr]

theorem numbers_list (l : List Nat) (s : Str) (hs : numbers s = []) : numbers (join [44, 32] (l.map natStr) ++ 93 :: s) = l := by
  induction l with
  | nil => simpa [join] using (numbers_skip (by decide) s).trans hs
  | cons n t ih =>
    cases t with
    | nil => simpa [join, hs] using numbers_nat (c := 93) (by decide) n s
    | cons m t =>
      simp only [List.map_cons, join, List.append_assoc, List.cons_append, List.nil_append] at ih ⊢
      rw [numbers_nat (by decide), numbers_skip (by decide), ih]

/-- The `repr` of an expression shows its equation between quotes, and after it the positions of the constants in increasing order. -/
theorem C68_expression {R : Type} (e : Expression.Expr R) (hq : 39 ∉ e.contraction) :
    ∃ rest, splitOn 39 (exprRepr e) = [S "<ContractExpression(", e.contraction, rest] ∧ numbers rest = e.constants.keys.insertionSort (· ≤ ·) := by
  set c : Str := if e.constants = [] then [] else S ", constants=" ++ listStr (e.constants.keys.insertionSort (· ≤ ·)) with hc
  have h1 : S "<ContractExpression('" = S "<ContractExpression(" ++ [39] := by decide
  have h2 : S "'" = [39] := by decide
  have hfree : ∀ l : List Nat, 39 ∉ listStr l := by
    intro l h
    simp only [listStr, List.mem_append, List.mem_singleton] at h
    rcases h with (h | h) | h
    · omega
    · rcases mem_join _ _ _ h with h | ⟨t, ht, h⟩
      · simp at h
      · obtain ⟨n, _, rfl⟩ := List.mem_map.mp ht
        exact natStr_free (by norm_num) h
    · omega
  have hcf : 39 ∉ c ++ S ")>" := by
    rw [hc]
    split
    · decide
    · simp only [List.mem_append, not_or]
      exact ⟨⟨by decide, hfree _⟩, by decide⟩
  refine ⟨c ++ S ")>", ?_, ?_⟩
  · have : exprRepr e = S "<ContractExpression(" ++ 39 :: (e.contraction ++ 39 :: (c ++ S ")>")) := by
      unfold exprRepr
      simp only [h1, h2, ← hc, List.append_assoc, List.cons_append, List.nil_append]
    rw [this, splitOn_append_sep, splitOn_append_sep, splitOn_of_free _ _ hq, splitOn_of_free _ _ hcf, splitOn_of_free _ _ (by decide)]
    rfl
  · rw [hc]
    split
    · rename_i h
      rw [h]
      show numbers (S ")>") = []
      decide
    · rw [List.append_assoc, numbers_skips (by decide)]
      simp only [listStr, List.append_assoc, List.cons_append, List.nil_append]
      rw [numbers_skip (by decide), numbers_list _ _ (by decide)]

/-- `print(expr)`: two lines for each contraction, the arguments for the library being repeated every time. -/
theorem C68_expression_steps {R : Type} (e : Expression.Expr R) (hn : 10 ∉ e.contraction) (hs : ∀ s ∈ e.list, 10 ∉ s.einsumStr) :
    lines (exprStr e) = exprRepr e :: (e.list.zipIdx 1).flatMap fun p =>
      [S "  " ++ natStr p.2 ++ S ".  '" ++ p.1.einsumStr ++ S "'" ++ (if p.1.blas = .no then [] else S " [" ++ kindText p.1.blas ++ S "]"),
       S "einsum_kwargs={}"] := by
  have hr : 10 ∉ exprRepr e := by
    have hfree : ∀ l : List Nat, 10 ∉ listStr l := by
      intro l h
      simp only [listStr, List.mem_append, List.mem_singleton] at h
      rcases h with (h | h) | h
      · omega
      · rcases mem_join _ _ _ h with h | ⟨t, ht, h⟩
        · simp at h
        · obtain ⟨n, _, rfl⟩ := List.mem_map.mp ht
          exact natStr_free (by norm_num) h
      · omega
    unfold exprRepr
    simp only [List.mem_append, not_or]
    refine ⟨⟨⟨⟨by decide, hn⟩, by decide⟩, ?_⟩, by decide⟩
    split
    · decide
    · simp only [List.mem_append, not_or]
      exact ⟨by decide, hfree _⟩
  have hmain : ∀ (l : List Step) (a : Str) (i : Nat), (∀ s ∈ l, 10 ∉ s.einsumStr) → 10 ∉ a → lines (a ++ exprSteps i l) = a ::
      (l.zipIdx (i + 1)).flatMap fun p =>
        [S "  " ++ natStr p.2 ++ S ".  '" ++ p.1.einsumStr ++ S "'" ++ (if p.1.blas = .no then [] else S " [" ++ kindText p.1.blas ++ S "]"),
         S "einsum_kwargs={}"] := by
    intro l
    induction l with
    | nil => intro a i _ ha; simpa [exprSteps, lines] using splitOn_of_free 10 a ha
    | cons s t ih =>
      intro a i hl ha
      have e1 : S "\n  " = 10 :: S "  " := by decide
      have e2 : S "\neinsum_kwargs={}" = 10 :: S "einsum_kwargs={}" := by decide
      have e3 : S ".  '" = S ".  " ++ S "'" := by decide
      set line := S "  " ++ natStr (i + 1) ++ S ".  '" ++ s.einsumStr ++ S "'" ++ (if s.blas = .no then [] else S " [" ++ flagStr s.blas ++ S "]") with hline
      have hlf : 10 ∉ line := by
        rw [hline]
        simp only [List.mem_append, not_or]
        refine ⟨⟨⟨⟨⟨by decide, natStr_free (by norm_num)⟩, by decide⟩, hl s (by simp)⟩, by decide⟩, ?_⟩
        split
        · decide
        · simp only [List.mem_append, not_or]
          exact ⟨⟨by decide, (flagStr_words _).2.2⟩, by decide⟩
      have htext : a ++ exprSteps i (s :: t) = a ++ 10 :: (line ++ 10 :: (S "einsum_kwargs={}" ++ exprSteps (i + 1) t)) := by
        simp only [exprSteps, e1, e2, hline, e3, List.append_assoc, List.cons_append]
      have hcons : ∀ (a b : Str), 10 ∉ a → lines (a ++ 10 :: b) = a :: lines b := by
        intro a b ha
        unfold lines
        rw [splitOn_append_sep, splitOn_of_free 10 a ha]; rfl
      rw [htext, hcons _ _ ha, hcons _ _ hlf, ih _ _ (fun x hx => hl x (by simp [hx])) (by decide)]
      simp [List.zipIdx_cons, hline, flagStr_eq]
  exact hmain e.list (exprRepr e) 0 hs hr

/-- `contract_expression("ab,bc,cd->ad", A, (3, 4), C, constants=[2, 0])`. -/
theorem C68_expression_case :
    (Expression.init (R := ℕ) (S "ab,bc,cd->ad") [⟨[1, 0], {98}, S "bc,ab->ac", some [S "cd", S "ac"], .gemm⟩, ⟨[1, 0], {99}, S "ac,cd->ad", some [S "ad"], .no⟩]
      [(2, ⟨S "numpy", ⟨[4, 5], fun _ => 1⟩⟩), (0, ⟨S "numpy", ⟨[2, 3], fun _ => 1⟩⟩)]).map exprStr =
    .ok (S "<ContractExpression('[ab],bc,[cd]->ad', constants=[0, 2])>\n  1.  'bc,ab->ac' [GEMM]\neinsum_kwargs={}\n  2.  'ac,cd->ad'\neinsum_kwargs={}") := by
  decide +kernel

end OE.Props
