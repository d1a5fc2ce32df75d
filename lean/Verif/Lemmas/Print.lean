import Verif.Spec.Print
import Verif.Lemmas.Strings
import Mathlib.Data.Nat.Digits.Lemmas
import Mathlib.Tactic.Positivity
import Mathlib.Tactic.FieldSimp
import Mathlib.Tactic.Linarith
import Mathlib.Tactic.NormNum

/-! Printed numbers can be read back. -/

namespace OE
open OE.Py OE.Print OE.Spec

theorem readNat_append (a b : Str) : readNat (a ++ b) = b.foldl (fun n c => 10 * n + (c - 48)) (readNat a) := by
  simp [readNat]

theorem readNat_digits (l : List Nat) : readNat (l.reverse.map (· + 48)) = Nat.ofDigits 10 l := by
  induction l with
  | nil => rfl
  | cons d t ih =>
    rw [List.reverse_cons, List.map_append, readNat_append, ih]
    simp [Nat.ofDigits_cons]
    omega

theorem readNat_natStr (n : Nat) : readNat (natStr n) = n := by
  unfold natStr
  split
  · rename_i h; subst h; rfl
  · rw [readNat_digits, Nat.ofDigits_digits]

theorem natStr_digit {n c : Nat} (h : c ∈ natStr n) : 48 ≤ c ∧ c < 58 := by
  unfold natStr at h
  split at h
  · simp only [List.mem_singleton] at h; omega
  · obtain ⟨d, hd, rfl⟩ := List.mem_map.mp h
    have := Nat.digits_lt_base (b := 10) (by norm_num) (List.mem_reverse.mp hd)
    omega

theorem natStr_ne_nil (n : Nat) : natStr n ≠ [] := by
  unfold natStr
  split
  · simp
  · rename_i h
    simp only [ne_eq, List.map_eq_nil_iff, List.reverse_eq_nil_iff]
    exact Nat.digits_ne_nil_iff_ne_zero.mpr h

theorem natStr_length {n k : Nat} (h1 : 10 ^ k ≤ n) (h2 : n < 10 ^ (k + 1)) : (natStr n).length = k + 1 := by
  have hn : n ≠ 0 := by
    have : 0 < 10 ^ k := by positivity
    omega
  unfold natStr
  rw [if_neg hn, List.length_map, List.length_reverse]
  apply le_antisymm
  · exact (Nat.digits_length_le_iff (by norm_num) n).mpr h2
  · by_contra hlt
    have : (Nat.digits 10 n).length ≤ k := by omega
    have := (Nat.digits_length_le_iff (by norm_num) n).mp this
    omega

/-! ## Rounding -/

theorem roundEven_close {q : ℚ} (hq : 0 ≤ q) : |(roundEven q : ℚ) - q| ≤ 1 / 2 := by
  have h1 := Nat.floor_le hq
  have h2 := Nat.lt_floor_add_one q
  unfold roundEven
  simp only
  split
  · rw [abs_le]; constructor <;> linarith
  · rename_i h
    push Not at h
    split
    · rw [abs_le]; push_cast; constructor <;> linarith
    · rename_i h'
      push Not at h'
      split
      · rw [abs_le]; constructor <;> linarith
      · rw [abs_le]; push_cast; constructor <;> linarith

theorem roundEven_ge {q : ℚ} {n : Nat} (hq : (n : ℚ) ≤ q) : n ≤ roundEven q := by
  have h1 : n ≤ ⌊q⌋₊ := Nat.le_floor hq
  unfold roundEven
  simp only
  split
  · exact h1
  · split
    · omega
    · split <;> omega

theorem roundEven_le {q : ℚ} {n : Nat} (h0 : 0 ≤ q) (hq : q < n) : roundEven q ≤ n := by
  have h1 : ⌊q⌋₊ < n := (Nat.floor_lt h0).mpr hq
  unfold roundEven
  simp only
  split
  · omega
  · split
    · omega
    · split <;> omega

/-- Rounding to `k + 1` significant digits: the digits are as many, and the error is at most half a unit of the last one. -/
theorem roundSig_spec {q : ℚ} (hq : 0 < q) (k : Nat) :
    10 ^ k ≤ (roundSig (k + 1) q).1 ∧ (roundSig (k + 1) q).1 < 10 ^ (k + 1) ∧
    |((roundSig (k + 1) q).1 : ℚ) * 10 ^ ((roundSig (k + 1) q).2 - k) - q| ≤ 10 ^ (Int.log 10 q - k) / 2 := by
  have hl : (10 : ℚ) ^ (Int.log 10 q) ≤ q := by
    have := Int.zpow_log_le_self (b := 10) (by norm_num) hq
    exact_mod_cast this
  have hu : q < (10 : ℚ) ^ (Int.log 10 q + 1) := by
    have := Int.lt_zpow_succ_log_self (b := 10) (by norm_num) q
    exact_mod_cast this
  set e := Int.log 10 q with he
  have hk : e - ((k + 1 : Nat) - 1 : Int) = e - k := by push_cast; ring
  have hp : (0 : ℚ) < 10 ^ (e - k) := zpow_pos (by norm_num) _
  have h1 : ((10 ^ k : Nat) : ℚ) ≤ q / 10 ^ (e - k) := by
    rw [le_div_iff₀ hp]
    push_cast
    rw [← zpow_natCast, ← zpow_add₀ (by norm_num)]
    have : (k : Int) + (e - k) = e := by ring
    rw [this]; exact hl
  have h2 : q / 10 ^ (e - k) < ((10 ^ (k + 1) : Nat) : ℚ) := by
    rw [div_lt_iff₀ hp]
    push_cast
    rw [← zpow_natCast, ← zpow_add₀ (by norm_num)]
    have : ((k + 1 : Nat) : Int) + (e - k) = e + 1 := by push_cast; ring
    rw [this]; exact hu
  have h0 : 0 ≤ q / 10 ^ (e - k) := (div_pos hq hp).le
  have m1 := roundEven_ge h1
  have m2 := roundEven_le h0 h2
  have hc := roundEven_close h0
  have herr : |(roundEven (q / 10 ^ (e - k)) : ℚ) * 10 ^ (e - k) - q| ≤ 10 ^ (e - k) / 2 := by
    have : (roundEven (q / 10 ^ (e - k)) : ℚ) * 10 ^ (e - k) - q = ((roundEven (q / 10 ^ (e - k)) : ℚ) - q / 10 ^ (e - k)) * 10 ^ (e - k) := by
      field_simp
    rw [this, abs_mul, abs_of_pos hp]
    calc _ ≤ 1 / 2 * (10 : ℚ) ^ (e - k) := mul_le_mul_of_nonneg_right hc hp.le
      _ = _ := by ring
  unfold roundSig
  simp only [← he, hk]
  split
  · rename_i hm
    rw [hm] at herr
    simp only [Nat.add_sub_cancel]
    refine ⟨le_refl _, Nat.pow_lt_pow_right (by norm_num) (by omega), ?_⟩
    have : ((10 ^ k : Nat) : ℚ) * 10 ^ (e + 1 - k) = ((10 ^ (k + 1) : Nat) : ℚ) * 10 ^ (e - k) := by
      have : e + 1 - k = (e - k) + 1 := by ring
      rw [this, zpow_add₀ (by norm_num)]
      push_cast
      ring
    rw [this]; exact herr
  · rename_i hm
    exact ⟨m1, lt_of_le_of_ne m2 hm, herr⟩

/-- A relative error of at most half a unit of the last of `k + 1` digits. -/
theorem roundSig_relative {q : ℚ} (hq : 0 < q) (k : Nat) :
    |((roundSig (k + 1) q).1 : ℚ) * 10 ^ ((roundSig (k + 1) q).2 - k) - q| ≤ q / (2 * 10 ^ k) := by
  have hl : (10 : ℚ) ^ (Int.log 10 q) ≤ q := by
    have := Int.zpow_log_le_self (b := 10) (by norm_num) hq
    exact_mod_cast this
  refine le_trans (roundSig_spec hq k).2.2 ?_
  rw [zpow_sub₀ (by norm_num), zpow_natCast, div_div, mul_comm ((10 : ℚ) ^ k) 2]
  exact div_le_div_of_nonneg_right hl (by positivity)

/-- Natural numbers of at most four digits are printed exactly. -/
theorem roundEven_nat (n : Nat) : roundEven (n : ℚ) = n := by
  unfold roundEven
  simp

theorem readE_fmtE3 {q : ℚ} (hq : 0 < q) : readE (fmtE3 q) = some (((roundSig 4 q).1 : ℚ) * 10 ^ ((roundSig 4 q).2 - 3)) := by
  obtain ⟨h1, h2, _⟩ := roundSig_spec hq 3
  set r := roundSig (3 + 1) q with hr
  have hr' : roundSig 4 q = r := rfl
  have hlen := natStr_length h1 h2
  have hd : ∀ c ∈ natStr r.1, 48 ≤ c ∧ c < 58 := fun c hc => natStr_digit hc
  unfold fmtE3
  rw [if_neg (ne_of_gt hq)]
  simp only [hr']
  set sg : Str := if 0 ≤ r.2 then S "+" else S "-" with hsg
  have hmant : (101 : Nat) ∉ (natStr r.1).take 1 ++ [46] ++ (natStr r.1).drop 1 := by
    simp only [List.mem_append, List.mem_singleton]
    rintro ((h | h) | h)
    · have := hd _ (List.mem_of_mem_take h); omega
    · omega
    · have := hd _ (List.mem_of_mem_drop h); omega
  have hexp : (101 : Nat) ∉ sg ++ natStr r.2.natAbs := by
    rw [List.mem_append]
    rintro (h | h)
    · rw [hsg] at h; split at h <;> (revert h; decide)
    · have := natStr_digit h; omega
  have hsp : splitOn 101 ((natStr r.1).take 1 ++ [46] ++ (natStr r.1).drop 1 ++ S "e" ++ sg ++ natStr r.2.natAbs) =
      [(natStr r.1).take 1 ++ [46] ++ (natStr r.1).drop 1, sg ++ natStr r.2.natAbs] := by
    have he : S "e" = [101] := by decide
    rw [he]
    have := splitOn_join 101 [(natStr r.1).take 1 ++ [46] ++ (natStr r.1).drop 1, sg ++ natStr r.2.natAbs] (by simp)
      (by intro t ht; simp only [List.mem_cons, List.not_mem_nil, or_false] at ht; rcases ht with rfl | rfl <;> assumption)
    simpa only [join, List.append_assoc] using this
  have hsp2 : splitOn 46 ((natStr r.1).take 1 ++ [46] ++ (natStr r.1).drop 1) = [(natStr r.1).take 1, (natStr r.1).drop 1] := by
    have := splitOn_join 46 [(natStr r.1).take 1, (natStr r.1).drop 1] (by simp) (by
      intro t ht
      simp only [List.mem_cons, List.not_mem_nil, or_false] at ht
      rcases ht with rfl | rfl
      · intro h; have := hd _ (List.mem_of_mem_take h); omega
      · intro h; have := hd _ (List.mem_of_mem_drop h); omega)
    simpa only [join] using this
  unfold readE
  rw [hsp]
  have hfl : ((natStr r.1).drop 1).length = 3 := by rw [List.length_drop, hlen]
  have hread : readNat ((natStr r.1).take 1 ++ (natStr r.1).drop 1) = r.1 := by rw [List.take_append_drop, readNat_natStr]
  by_cases hs : 0 ≤ r.2
  · have : sg = [43] := by rw [hsg, if_pos hs]; decide
    rw [this]
    simp only [List.cons_append, List.nil_append, hsp2, hread, hfl, readNat_natStr, if_true]
    congr 1
    have habs : (r.2.natAbs : Int) = r.2 := Int.natAbs_of_nonneg hs
    rw [zpow_sub₀ (by norm_num), ← habs, zpow_natCast]
    simp only [Int.natAbs_natCast]
    norm_num
    ring
  · have : sg = [45] := by rw [hsg, if_neg hs]; decide
    rw [this]
    simp only [List.cons_append, List.nil_append, hsp2, hread, hfl, readNat_natStr]
    rw [if_neg (by decide), if_pos trivial]
    congr 1
    have habs : r.2 = -(r.2.natAbs : Int) := by omega
    conv_rhs => rw [habs]
    rw [zpow_sub₀ (by norm_num), zpow_neg, zpow_natCast]
    norm_num
    field_simp

/-! ## Lines and words -/

theorem splitOn_append_sep (c : Nat) (a b : Str) : splitOn c (a ++ c :: b) = splitOn c a ++ splitOn c b := by
  induction a with
  | nil => simp [splitOn]
  | cons x t ih =>
    simp only [List.cons_append, splitOn]
    by_cases h : x = c
    · simp [h, ih]
    · simp only [if_neg h, ih]
      rcases hs : splitOn c t with _ | ⟨u, us⟩
      · exact absurd hs (splitOn_ne_nil c t)
      · rfl

theorem words_append (a b : Str) : words (a ++ 32 :: b) = words a ++ words b := by
  unfold words
  rw [splitOn_append_sep, List.filter_append]

theorem words_space (s : Str) : words (32 :: s) = words s := by
  simp [words, splitOn]

theorem words_word {w : Str} (h : w ≠ []) (hs : 32 ∉ w) : words w = [w] := by
  unfold words
  rw [splitOn_of_free _ _ hs]
  simp [h]

theorem words_padLeft {w : Str} (n : Nat) (h : w ≠ []) (hs : 32 ∉ w) : words (padLeft n w) = [w] := by
  unfold padLeft
  induction n - w.length with
  | zero => simpa using words_word h hs
  | succ k ih => rw [List.replicate_succ, List.cons_append, words_space, ih]

end OE
