import Verif.Model.Thermal
import Verif.Spec.Boltzmann
import Verif.Props.ColdGreedy

/-!
# The weights of `thermal_chooser`
-/

namespace OE.Props
open OE OE.Py OE.Paths OE.Spec

/-! ## `random.choices` -/

theorem pickAt_iff (ws : List ℝ) (hw : ∀ w ∈ ws, 0 ≤ w) {x : ℝ} (h0 : 0 ≤ x) (hx : x < ws.sum) (i : Nat) :
    pickAt ws x = i ↔ i < ws.length ∧ (ws.take i).sum ≤ x ∧ x < (ws.take (i + 1)).sum := by
  induction ws generalizing x i with
  | nil => simp at hx; linarith
  | cons w ws ih =>
    cases ws with
    | nil =>
      simp only [List.sum_cons, List.sum_nil, add_zero] at hx
      cases i with
      | zero => simp [pickAt, h0, hx]
      | succ i => simp [pickAt]
    | cons w' ws =>
      have hw' : ∀ v ∈ w' :: ws, 0 ≤ v := fun v hv => hw v (List.mem_cons_of_mem _ hv)
      unfold pickAt
      split
      · rename_i hlt
        cases i with
        | zero => simp [h0, hlt]
        | succ i =>
          have : 0 ≤ ((w' :: ws).take i).sum := List.sum_nonneg (fun v hv => hw' v (List.mem_of_mem_take hv))
          simp only [List.take_succ_cons, List.sum_cons]
          constructor
          · intro h; cases h
          · rintro ⟨_, h, _⟩; linarith
      · rename_i hge
        push Not at hge
        cases i with
        | zero =>
          simp only [List.take_zero, List.sum_nil, zero_add, List.take_succ_cons, List.sum_cons, add_zero]
          constructor
          · intro h; cases h
          · rintro ⟨_, _, h⟩; linarith
        | succ i =>
          rw [Nat.add_right_cancel_iff, ih hw' (by linarith) (by rw [List.sum_cons] at hx; linarith) i]
          simp only [List.length_cons, List.take_succ_cons (i := i) (a := w), List.take_succ_cons (i := i + 1) (a := w), List.sum_cons, Nat.add_lt_add_iff_right]
          refine and_congr_right (fun _ => ?_)
          constructor
          · rintro ⟨a, b⟩; exact ⟨by linarith, by linarith⟩
          · rintro ⟨a, b⟩; exact ⟨by linarith, by linarith⟩

theorem take_sum_le (ws : List ℝ) (hw : ∀ w ∈ ws, 0 ≤ w) (i : Nat) : (ws.take i).sum ≤ ws.sum := by
  have h := List.sum_append (l₁ := ws.take i) (l₂ := ws.drop i)
  rw [List.take_append_drop] at h
  have : 0 ≤ (ws.drop i).sum := List.sum_nonneg (fun v hv => hw v (List.mem_of_mem_drop hv))
  linarith

/-- Each choice has the probability of its weight. -/
theorem randomChoice_chance (ws : List ℝ) (hw : ∀ w ∈ ws, 0 ≤ w) (hs : 0 < ws.sum) {i : Nat} (hi : i < ws.length) :
    Chance (randomChoice ws) i (ws[i] / ws.sum) := by
  refine ⟨(ws.take i).sum / ws.sum, (ws.take (i + 1)).sum / ws.sum, ?_, ?_, ?_, ?_⟩
  · exact div_nonneg (List.sum_nonneg (fun v hv => hw v (List.mem_of_mem_take hv))) hs.le
  · rw [div_le_one hs]; exact take_sum_le ws hw _
  · rw [← sub_div, List.take_succ_eq_append_getElem hi, List.sum_append]
    simp
  · intro u h0 h1
    unfold randomChoice
    rw [pickAt_iff ws hw (mul_nonneg h0 hs.le) (by nlinarith) i, div_le_iff₀ hs, lt_div_iff₀ hs]
    exact and_iff_right hi

theorem randomChoice_lt (ws : List ℝ) (hw : ∀ w ∈ ws, 0 ≤ w) (hs : 0 < ws.sum) {u : ℝ} (h0 : 0 ≤ u) (h1 : u < 1) :
    ∃ h : randomChoice ws u < ws.length, 0 < ws[randomChoice ws u] := by
  obtain ⟨a, b, c⟩ := (pickAt_iff ws hw (x := u * ws.sum) (mul_nonneg h0 hs.le) (by nlinarith) (randomChoice ws u)).mp rfl
  refine ⟨a, ?_⟩
  rw [List.take_succ_eq_append_getElem a, List.sum_append, List.sum_singleton] at c
  linarith

/-! ## The weights -/

section
variable {rel : Bool} {T : ℝ}

theorem stepTemperature_pos (h : 0 < T) (c : ℝ) : 0 < stepTemperature rel T c := by
  unfold stepTemperature
  split
  · exact mul_pos h (lt_of_lt_of_le one_pos (le_max_left _ _))
  · exact h

theorem stepTemperature_zero (c : ℝ) : stepTemperature rel 0 c = 0 := by
  unfold stepTemperature
  split <;> simp

theorem energies_length (costs : List ℚ) : (energies rel T costs).length = costs.length := by
  unfold energies
  cases costs with
  | nil => rfl
  | cons c cs => simp only; split <;> simp

theorem energies_warm (h : 0 < T) (c : ℚ) (cs : List ℚ) :
    energies rel T (c :: cs) = (c :: cs).map (fun x : ℚ => Real.exp (-((x : ℝ) - (c : ℝ)) / stepTemperature rel T c)) := by
  unfold energies
  simp only
  rw [if_neg (stepTemperature_pos h _).ne']

theorem energies_cold (c : ℚ) (cs : List ℚ) : energies rel 0 (c :: cs) = (c :: cs).map (fun x => if x = c then 1 else 0) := by
  unfold energies
  simp only
  rw [if_pos (stepTemperature_zero _)]

theorem energies_nonneg (costs : List ℚ) : ∀ w ∈ energies rel T costs, 0 ≤ w := by
  intro w hw
  cases costs with
  | nil => simp [energies] at hw
  | cons c cs =>
    unfold energies at hw
    simp only at hw
    split at hw
    · obtain ⟨x, _, rfl⟩ := List.mem_map.mp hw
      split <;> norm_num
    · obtain ⟨x, _, rfl⟩ := List.mem_map.mp hw
      exact (Real.exp_pos _).le

/-- The first choice has the weight 1. -/
theorem energies_head (c : ℚ) (cs : List ℚ) : ∃ ws, energies rel T (c :: cs) = 1 :: ws := by
  unfold energies
  simp only
  split <;> simp

theorem energies_sum_pos {costs : List ℚ} (h : costs ≠ []) : 0 < (energies rel T costs).sum := by
  cases costs with
  | nil => exact absurd rfl h
  | cons c cs =>
    obtain ⟨ws, hws⟩ := energies_head (rel := rel) (T := T) c cs
    have hn := energies_nonneg (rel := rel) (T := T) (c :: cs)
    rw [hws] at hn ⊢
    have : 0 ≤ ws.sum := List.sum_nonneg (fun v hv => hn v (List.mem_cons_of_mem _ hv))
    rw [List.sum_cons]
    linarith

/-- **C103, the choice.** The choice is one of those offered, at any temperature. -/
theorem C103_pick {u : Path → ℝ} (hu : ∀ path, 0 ≤ u path ∧ u path < 1) : PickOK (thermalPick rel T u) := by
  intro path costs hne
  obtain ⟨h, _⟩ := randomChoice_lt _ (energies_nonneg (rel := rel) (T := T) costs) (energies_sum_pos hne) (hu path).1 (hu path).2
  rwa [energies_length] at h

/-- **C103, temperature zero.** Only choices with the cost of the first are made. -/
theorem C103_zero {u : Path → ℝ} (hu : ∀ path, 0 ≤ u path ∧ u path < 1) : PickCold (thermalPick rel 0 u) := by
  intro path costs hne
  obtain ⟨h, hp⟩ := randomChoice_lt _ (energies_nonneg (rel := rel) (T := 0) costs) (energies_sum_pos hne) (hu path).1 (hu path).2
  unfold thermalPick
  generalize randomChoice (energies rel 0 costs) (u path) = i at *
  cases costs with
  | nil => exact absurd rfl hne
  | cons c cs =>
    simp only [energies_cold, List.getElem_map] at hp
    rw [energies_length] at h
    split at hp
    · rename_i he
      rw [List.getElem?_eq_getElem h, he]
      rfl
    · exact absurd hp (lt_irrefl _)

/-- **C103, the distribution.** At a positive temperature each of the choices is made with the probability of the Boltzmann distribution
for the costs, at this temperature or, with `rel_temperature`, at this temperature times the least cost if that exceeds 1 in size. -/
theorem C103_boltzmann (hT : 0 < T) (c : ℚ) (cs : List ℚ) {i : Nat} (hi : i < (c :: cs).length) :
    Chance (fun u => thermalPick rel T (fun _ => u) [] (c :: cs)) i (boltzmann (stepTemperature rel T c) (c :: cs) ((c :: cs)[i])) := by
  have h := randomChoice_chance _ (energies_nonneg (rel := rel) (T := T) (c :: cs)) (energies_sum_pos (by simp)) (i := i) (by rwa [energies_length])
  show Chance (randomChoice (energies rel T (c :: cs))) i _
  have hexp : ∀ x : ℚ, Real.exp (-((x : ℝ) - (c : ℝ)) / stepTemperature rel T c) =
      Real.exp (-(x : ℝ) / stepTemperature rel T c) * Real.exp ((c : ℝ) / stepTemperature rel T c) := by
    intro x
    rw [← Real.exp_add]
    congr 1
    ring
  have hsum : (energies rel T (c :: cs)).sum =
      ((c :: cs).map (fun x : ℚ => Real.exp (-(x : ℝ) / stepTemperature rel T c))).sum * Real.exp ((c : ℝ) / stepTemperature rel T c) := by
    rw [energies_warm hT, ← List.sum_map_mul_right]
    congr 1
    exact List.map_congr_left (fun x _ => hexp x)
  have hi' : (energies rel T (c :: cs))[i]'(by rwa [energies_length]) = Real.exp (-(((c :: cs)[i] : ℚ) : ℝ) / stepTemperature rel T c) *
      Real.exp ((c : ℝ) / stepTemperature rel T c) := by
    simp only [energies_warm hT, List.getElem_map]
    exact hexp _
  rw [hsum, hi', mul_div_mul_right _ _ (Real.exp_pos _).ne'] at h
  exact h

end

theorem weights_sum_pos (t : ℝ) (c : ℚ) (cs : List ℚ) : 0 < ((c :: cs).map (fun c : ℚ => Real.exp (-(c : ℝ) / t))).sum :=
  List.sum_pos _ (by
    intro w hw
    obtain ⟨x, _, rfl⟩ := List.mem_map.mp hw
    exact Real.exp_pos _) (by simp)

/-- **C103, all choices are possible.** At a positive temperature each of the choices is made for some random number. -/
theorem C103_possible {rel : Bool} {T : ℝ} (hT : 0 < T) (costs : List ℚ) {i : Nat} (hi : i < costs.length) :
    ∃ u : ℝ, 0 ≤ u ∧ u < 1 ∧ thermalPick rel T (fun _ => u) [] costs = i := by
  cases costs with
  | nil => simp at hi
  | cons c cs =>
    obtain ⟨a, b, h0, h1, hab, h⟩ := C103_boltzmann (rel := rel) hT c cs hi
    have hp : 0 < boltzmann (stepTemperature rel T c) (c :: cs) ((c :: cs)[i]) := div_pos (Real.exp_pos _) (weights_sum_pos _ c cs)
    exact ⟨a, h0, by linarith, (h a h0 (by linarith)).mpr ⟨le_refl _, by linarith⟩⟩

/-- **C103, cheaper choices are likelier**, and equally cheap ones equally likely. -/
theorem C103_cheaper {t : ℝ} (ht : 0 < t) (c : ℚ) (cs : List ℚ) (x y : ℚ) : boltzmann t (c :: cs) y < boltzmann t (c :: cs) x ↔ x < y := by
  unfold boltzmann
  rw [div_lt_div_iff_of_pos_right (weights_sum_pos t c cs), Real.exp_lt_exp, div_lt_div_iff_of_pos_right ht, neg_lt_neg_iff]
  exact Rat.cast_lt

/-- **C103, the larger the temperature, the further from greedy.** The probability of the cheapest choice does not grow with the temperature. -/
theorem C103_temperature {t t' : ℝ} (ht : 0 < t) (htt : t ≤ t') (c : ℚ) (cs : List ℚ) (hmin : ∀ x ∈ cs, c ≤ x) :
    boltzmann t' (c :: cs) c ≤ boltzmann t (c :: cs) c := by
  have hb : ∀ t : ℝ, boltzmann t (c :: cs) c = 1 / ((c :: cs).map (fun x : ℚ => Real.exp (-((x : ℝ) - (c : ℝ)) / t))).sum := by
    intro t
    unfold boltzmann
    have : ((c :: cs).map (fun x : ℚ => Real.exp (-(x : ℝ) / t))).sum =
        Real.exp (-(c : ℝ) / t) * ((c :: cs).map (fun x : ℚ => Real.exp (-((x : ℝ) - (c : ℝ)) / t))).sum := by
      rw [← List.sum_map_mul_left]
      congr 1
      refine List.map_congr_left (fun x _ => ?_)
      rw [← Real.exp_add]
      congr 1
      ring
    rw [this, div_mul_eq_div_div, div_self (Real.exp_pos _).ne']
  rw [hb, hb]
  refine one_div_le_one_div_of_le ?_ ?_
  · refine List.sum_pos _ ?_ (by simp)
    intro w hw
    obtain ⟨x, _, rfl⟩ := List.mem_map.mp hw
    exact Real.exp_pos _
  · refine List.sum_le_sum (fun x hx => ?_)
    rw [Real.exp_le_exp, neg_div, neg_div, neg_le_neg_iff]
    have hx' : (c : ℝ) ≤ (x : ℝ) := by
      rcases List.mem_cons.mp hx with rfl | hx
      · exact le_refl _
      · exact Rat.cast_le.mpr (hmin x hx)
    exact div_le_div_of_nonneg_left (by linarith) ht htt

/-- **C103, `rel_temperature`.** Where the least cost is at least 1 in size, only the ratios of the costs matter. -/
theorem C103_relative {T : ℝ} {s : ℚ} (hs : 0 < s) (c : ℚ) (cs : List ℚ) (h1 : 1 ≤ |c|) (h2 : 1 ≤ |s * c|) :
    energies true T ((c :: cs).map (s * ·)) = energies true T (c :: cs) := by
  have e1 : max 1 |(c : ℝ)| = |(c : ℝ)| := max_eq_right (by exact_mod_cast h1)
  have e2 : max 1 |((s * c : ℚ) : ℝ)| = s * |(c : ℝ)| := by
    rw [max_eq_right (by exact_mod_cast h2)]
    push_cast
    rw [abs_mul, abs_of_pos (by exact_mod_cast hs)]
  have hs' : (s : ℝ) ≠ 0 := by exact_mod_cast hs.ne'
  have ht : stepTemperature true T ((s * c : ℚ) : ℝ) = s * stepTemperature true T (c : ℝ) := by
    unfold stepTemperature
    rw [if_pos rfl, if_pos rfl, e1, e2]
    ring
  unfold energies
  simp only [List.map_cons]
  rw [ht]
  by_cases h : stepTemperature true T (c : ℝ) = 0
  · rw [if_pos (by rw [h, mul_zero]), if_pos h]
    simp [hs.ne', Function.comp_def]
  · rw [if_neg (mul_ne_zero hs' h), if_neg h]
    have : ∀ x : ℚ, -(((s * x : ℚ) : ℝ) - ((s * c : ℚ) : ℝ)) / (s * stepTemperature true T (c : ℝ)) = -((x : ℝ) - (c : ℝ)) / stepTemperature true T (c : ℝ) := by
      intro x
      push_cast
      rw [← mul_sub, ← mul_neg, mul_div_mul_left _ _ hs']
    simp only [this, List.map_map, Function.comp_def]

/-- **C103, greedy at temperature zero.** C100 for the weights of the code: each step of `RandomGreedy(temperature=0)` is the best one. -/
theorem C103_best_at_zero {fuel : Nat} {size : Nat → Nat} (hs : ∀ c, 2 ≤ size c) {nbranch : Nat} (hb : 0 < nbranch) {rel : Bool} {u : Path → ℝ}
    (hu : ∀ path, 0 ≤ u path ∧ u path < 1) {order : GOrder} (ho : GOrderOK order) {inputs : List (Finset Nat)} (hn : inputs.Nodup)
    {output reserved : Finset Nat} (hres : IsReserved inputs output reserved) {path : Path}
    (hrun : ssaGreedy fuel size costMemoryRemoved (some (thermalChooser nbranch (thermalPick rel 0 u))) order inputs output = some (.ok path)) :
    BestWhileDistinct size output reserved inputs.length (startLive inputs) path :=
  C100_temperature_zero hs hb (C103_pick hu) (C103_zero hu) ho hn hres hrun

/-! ## Examples -/

-- three choices of costs -4, -4 and -2; with `rel_temperature` the temperature 1 becomes 4
example : stepTemperature true 1 ((-4 : ℚ) : ℝ) = 4 := by
  unfold stepTemperature
  norm_num

example : Chance (fun u => thermalPick true 1 (fun _ => u) [] [-4, -4, -2]) 2 (boltzmann (stepTemperature true 1 ((-4 : ℚ) : ℝ)) [-4, -4, -2] (-2)) :=
  C103_boltzmann one_pos (-4) [-4, -2] (by decide)

-- the third is the least likely, but possible
example : boltzmann 4 [-4, -4, -2] (-2) < boltzmann 4 [-4, -4, -2] (-4) := (C103_cheaper (by norm_num) _ _ _ _).mpr (by norm_num)

example : ∃ u : ℝ, 0 ≤ u ∧ u < 1 ∧ thermalPick true 1 (fun _ => u) [] [-4, -4, -2] = 2 := C103_possible one_pos _ (by decide)

-- at temperature zero it is not
example (u : ℝ) (h0 : 0 ≤ u) (h1 : u < 1) : thermalPick true 0 (fun _ => u) [] [-4, -4, -2] ≠ 2 := by
  intro h
  have := C103_zero (rel := true) (u := fun _ => u) (fun _ => ⟨h0, h1⟩) [] [-4, -4, -2] (by simp)
  rw [h] at this
  norm_num at this

-- twice the temperature makes the best choice less likely
example : boltzmann 2 [-4, -2] (-4) ≤ boltzmann 1 [-4, -2] (-4) := C103_temperature one_pos (by norm_num) _ _ (by simp; norm_num)

-- costs ten times as high give the same weights
example : energies true 1 [-40, -20] = energies true 1 [-4, -2] := by
  have := C103_relative (T := 1) (s := 10) (by norm_num) (-4) [-2] (by norm_num) (by norm_num)
  norm_num at this
  exact this

-- the operands of `C100_counterexample`
example (u : Path → ℝ) (hu : ∀ path, 0 ≤ u path ∧ u path < 1) {path : Path}
    (hrun : ssaGreedy 20 laterSize costMemoryRemoved (some (thermalChooser 8 (thermalPick true 0 u))) gAscending laterInputs {0, 1, 2} = some (.ok path)) :
    BestWhileDistinct laterSize {0, 1, 2} {0, 1, 2} 5 (startLive laterInputs) path :=
  C103_best_at_zero (by intro c; unfold laterSize; split <;> [decide; (split <;> decide)]) (by decide) hu gAscending_ok (by decide)
    (by
      intro c
      constructor
      · exact Or.inl
      · rintro (h | h)
        · exact h
        · have h1 := h {1} (by decide)
          have h2 := h {3} (by decide)
          simp only [Finset.mem_singleton] at h1 h2
          omega) hrun

end OE.Props
