import Verif.Props.DpExactly
import Mathlib.Data.Nat.Log

/-!
# C105: how many rounds dynamic programming makes with growing cost caps
-/

namespace OE.Props
open OE OE.Py OE.Spec OE.Paths

/-- The part needs at most `rounds` rounds: it is a single input, or in one of the rounds there is a tree within the cap, and in no earlier round was the cap
beyond the bound. -/
def SolvedIn (cfg : DPCfg) (size : Nat → Nat) (limit : Option Nat) (inputs : List (Finset Nat)) (output G : Finset Nat) (rounds : Nat) : Prop :=
  G.card = 1 ∨ ∃ k, k < rounds ∧ (∀ j, j < k → ¬ costBound cfg.metric size inputs output < partCap cfg size inputs output G j) ∧
    Reaches cfg size limit inputs output G (partCap cfg size inputs output G k)

section
variable {cfg : DPCfg} {size : Nat → Nat} {limit : Option Nat} {inputs : List (Finset Nat)} {output : Finset Nat} {orig done : List Nat}

theorem dpSubgraph_rounds {inputs : List (Finset Nat)} {contractions : List Tree} {naive : WithTop Nat} {g : List Nat} {G : Finset Nat} {L : Finset Nat → Finset Nat}
    (hc : CoreOK (ctxOf cfg size output limit inputs g) G L) (hg : g.Nodup) (hgG : g.toFinset = G) (hG : 0 < G.card) (fuel : Nat) :
    (∃ e, dpSubgraph cfg size output limit inputs contractions naive fuel g = some (.ok e)) ↔
      G.card = 1 ∨ ∃ k, k < fuel ∧
        (∀ j, j < k → ¬ naive < capAt (growth size (G.biUnion (fun j => L {j}))) (firstCap cfg.costCap size (G.biUnion (fun j => L {j})) output) j) ∧
        Within (ctxOf cfg size output limit inputs g) G L
          (capAt (growth size (G.biUnion (fun j => L {j}))) (firstCap cfg.costCap size (G.biUnion (fun j => L {j})) output) k) := by
  have hinv := start_inv (ctx := ctxOf cfg size output limit inputs g) hc contractions (firstCap cfg.costCap size (G.biUnion (fun j => L {j})) output) hg hgG hG
  have hlen := hinv.len
  by_cases h1 : G.card = 1
  · obtain ⟨p, hp⟩ := start_done (inputs := inputs) (contractions := contractions) hg hgG h1
    have hl : (dpStart inputs contractions g).getLastD [] = [p] := by
      rw [← hp]
      exact last_eq hlen
    refine ⟨fun _ => Or.inl h1, fun _ => ⟨p.2, ?_⟩⟩
    rw [dpSubgraph_caps hc, dpWhile_done (by rw [hl]; simp)]
    simp only
    rw [hl]
  · have hx : (dpStart inputs contractions g).getD G.card [] = [] := by rw [dpStart_getD, if_neg h1]
    have hiff := dpWhile_ok_iff (naive := naive) hc hG (two_le_growth size (G.biUnion (fun j => L {j}))) fuel _ _ hinv hx
    constructor
    · rintro ⟨e, he⟩
      rw [dpSubgraph_caps hc] at he
      split at he
      · cases he
      · cases he
      · rename_i x' hx'
        exact Or.inr (hiff.mp ⟨x', hx'⟩)
    · rintro (h | hk)
      · exact absurd h h1
      · obtain ⟨x', hx'⟩ := hiff.mpr hk
        cases hr : dpSubgraph cfg size output limit inputs contractions naive fuel g with
        | none =>
          rw [dpSubgraph_caps hc] at hr
          rw [show dpWhile (ctxOf cfg size output limit inputs g) naive (growth size (G.biUnion (fun j => L {j}))) fuel
            (firstCap cfg.costCap size (G.biUnion (fun j => L {j})) output) (dpStart inputs contractions g) = some (.ok x') from hx'] at hr
          simp only at hr
          split at hr <;> cases hr
        | some r =>
          cases r with
          | ok e => exact ⟨e, rfl⟩
          | error e =>
            have := (dpSubgraph_error hr).1
            subst this
            rw [dpSubgraph_caps hc] at hr
            rw [show dpWhile (ctxOf cfg size output limit inputs g) naive (growth size (G.biUnion (fun j => L {j}))) fuel
              (firstCap cfg.costCap size (G.biUnion (fun j => L {j})) output) (dpStart inputs contractions g) = some (.ok x') from hx'] at hr
            simp only at hr
            split at hr <;> cases hr

theorem image_card (h : ParseOK inputs output orig done) {G : Finset Nat} (hG : ∀ p ∈ G, p < orig.length) :
    (G.image (fun p => orig.getD p 0)).card = G.card :=
  Finset.card_image_of_injOn (fun x hx y hy he => h.inj (hG x hx) (hG y hy) he)

theorem group_rounds {order : PopOrder} (ho : PopOK order) (h : ParseOK inputs output orig done) {G : Finset Nat} (hG : Group cfg inputs output orig G) (fuel : Nat) :
    (∃ e, dpSubgraph cfg size output limit (dpParse inputs output).inputs (dpParse inputs output).contractions
      (naiveCost cfg.metric size inputs output) fuel (order.list [] G) = some (.ok e)) ↔
      SolvedIn cfg size limit inputs output (G.image (fun p => orig.getD p 0)) fuel := by
  obtain ⟨hnd, hset⟩ := order_set ho G
  have hcore := core_of_closed h cfg size limit hset hG.lt hG.closed
  rw [dpSubgraph_rounds hcore hnd hset hG.card]
  unfold SolvedIn partCap
  simp only [labels_eq, within_iff h hG.lt, costBound_eq, image_card h hG.lt]

end

/-- **C105.** For any network, settings and memory limit: `DynamicProgramming` returns a path within `rounds` rounds of the search for each part (and at least `2 n` rounds are allowed, which
also bound the loop that writes down the path) exactly if, for each part with two or more inputs, one of these rounds has a tree within its cost cap,
and in no earlier round was the cap beyond the bound. -/
theorem C105_rounds {order : PopOrder} (ho : PopOK order) (cfg : DPCfg) (size : Nat → Nat) (limit : Option Nat) (inputs : List (Finset Nat)) (hne : inputs ≠ [])
    (output : Finset Nat) {rounds : Nat} (hr : 2 * inputs.length ≤ rounds) :
    (∃ path, dpCall cfg order size limit inputs output rounds = some (.ok path)) ↔
      ∀ G, IsPart cfg.searchOuter inputs output G → SolvedIn cfg size limit inputs output G rounds := by
  obtain ⟨orig, done, h⟩ := dpParse_ok inputs output
  by_cases hP : (dpParse inputs output).inputs = []
  · obtain ⟨path, t, ts, bs, hF, -, -⟩ := only_scalars (cfg := cfg) (size := size) (limit := limit) h hne hP
    constructor
    · intro _ A hA
      rcases part_is_group (gs := []) h (fun hn => absurd hP hn) hA with ⟨hn, -⟩ | ⟨i, rfl⟩
      · exact absurd hP hn
      · exact Or.inl (Finset.card_singleton i)
    · intro _
      refine ⟨path, ?_⟩
      unfold dpCall
      simp only
      rw [if_pos hP, hF rounds hr]
  · obtain ⟨gs, hg, hgs, hgr⟩ := groups_are (cfg := cfg) ho h hP
    constructor
    · rintro ⟨path, hcall⟩ A hA
      rcases part_is_group h (fun _ => ⟨hgs, hgr⟩) hA with ⟨-, G, hG, rfl⟩ | ⟨i, rfl⟩
      · unfold dpCall at hcall
        simp only at hcall
        rw [if_neg hP, hg] at hcall
        simp only at hcall
        split at hcall
        · cases hcall
        · cases hcall
        · rename_i l hl
          obtain ⟨es, hes, -⟩ := dpSubgraphs_ok hl
          obtain ⟨e, -, he⟩ := forall₂_mem hes (List.mem_map.mpr ⟨G, hG, rfl⟩)
          exact (group_rounds ho h (hgr G hG) rounds).mp ⟨e, he⟩
      · exact Or.inl (Finset.card_singleton i)
    · intro hall
      have hsol : ∀ G ∈ gs, ∃ e, dpSubgraph cfg size output limit (dpParse inputs output).inputs (dpParse inputs output).contractions
          (naiveCost cfg.metric size inputs output) rounds (order.list [] G) = some (.ok e) := fun G hG =>
        (group_rounds ho h (hgr G hG) rounds).mpr (hall _ (group_isPart h (hgr G hG)))
      unfold dpCall
      simp only
      rw [if_neg hP, hg]
      simp only
      cases hl : dpSubgraphs (dpSubgraph cfg size output limit (dpParse inputs output).inputs (dpParse inputs output).contractions
          (naiveCost cfg.metric size inputs output) rounds) size (gs.map (order.list [])) ((dpParse inputs output).done.map (fun t => (t, 1))) with
      | none =>
        obtain ⟨g, hg', hn⟩ := dpSubgraphs_none hl
        obtain ⟨G, hG, rfl⟩ := List.mem_map.mp hg'
        obtain ⟨e, he⟩ := hsol G hG
        rw [he] at hn
        cases hn
      | some r =>
        cases r with
        | error e =>
          obtain ⟨g, hg', he⟩ := dpSubgraphs_error hl
          obtain ⟨G, hG, rfl⟩ := List.mem_map.mp hg'
          obtain ⟨e', he'⟩ := hsol G hG
          rw [he] at he'
          cases he'
        | ok l =>
          obtain ⟨path, t, ts, bs, h1, -, -⟩ := some_groups h ho hP hgs hl
          exact ⟨path, h1 rounds hr⟩

section
variable {cfg : DPCfg} {size : Nat → Nat} {limit : Option Nat} {inputs : List (Finset Nat)} {output : Finset Nat}

/-- After the logarithm of a number, the cap is as large as the number. -/
theorem le_capAt {g : Nat} (hg : 2 ≤ g) {start : WithTop Nat} (h0 : start ≠ WithTop.some 0) (n : Nat) : WithTop.some n ≤ capAt g start (Nat.clog g n) := by
  cases start with
  | top => exact le_top
  | coe c =>
    have hc : c ≠ 0 := fun h => h0 (by rw [h])
    refine WithTop.coe_le_coe.mpr ((Nat.le_pow_clog (b := g) (by omega) n).trans ?_)
    exact Nat.le_mul_of_pos_right _ (Nat.pos_of_ne_zero hc)

end

/-- **C105, few rounds.** If all sizes are at least 1 and the cost cap is not the number 0, and each part has an allowed tree of cost at most `cost`, then each part is
searched in at most `1 + ⌈log₂ cost⌉` rounds. -/
theorem C105_logarithm {order : PopOrder} (ho : PopOK order) {cfg : DPCfg} {size : Nat → Nat} (hpos : Positive cfg size) {limit : Option Nat}
    {inputs : List (Finset Nat)} (hne : inputs ≠ []) {output : Finset Nat} {cost rounds : Nat}
    (htree : ∀ G, IsPart cfg.searchOuter inputs output G → ∃ b : BTree, b.set = G ∧ Allowed cfg.searchOuter size output (openLabels inputs output) limit b ∧
      btCost cfg.metric size (openLabels inputs output) b ≤ cost)
    (hr : 2 * inputs.length ≤ rounds) (hlog : Nat.clog 2 cost < rounds) :
    ∃ path, dpCall cfg order size limit inputs output rounds = some (.ok path) := by
  classical
  rw [C105_rounds ho cfg size limit inputs hne output hr]
  intro G hG
  obtain ⟨b, hb, hall, hle⟩ := htree G hG
  have hbound := cost_within_bound (cfg := cfg) (size := size) (output := output) (fun c _ => hpos.1 c) hall.1 (by rw [hb]; exact hG.2.1)
  have hreach : Reaches cfg size limit inputs output G (partCap cfg size inputs output G (Nat.clog 2 cost)) := by
    refine ⟨b, hb, hall, le_trans (WithTop.coe_le_coe.mpr hle) ?_⟩
    refine le_trans (le_capAt (two_le_growth size (partLabels inputs output G)) (positive_firstCap (inputs := inputs) (output := output) hpos G) cost) ?_
    exact capAt_mono (two_le_growth _ _) _ (Nat.clog_anti_left (by omega) (two_le_growth _ _))
  have hex : ∃ m, Reaches cfg size limit inputs output G (partCap cfg size inputs output G m) := ⟨_, hreach⟩
  refine Or.inr ⟨Nat.find hex, lt_of_le_of_lt (Nat.find_le hreach) hlog, fun j hj hj' => ?_, Nat.find_spec hex⟩
  exact Nat.find_min hex hj ⟨b, hb, hall, le_of_lt (lt_of_le_of_lt hbound hj')⟩

/-- **C105, the last cap.** The cap of the round after one without a tree within the cap is below the least cost times the factor by which caps grow, which is
the smallest size among the labels of the part or 2. -/
theorem C105_last_cap {cfg : DPCfg} {size : Nat → Nat} {limit : Option Nat} {inputs : List (Finset Nat)} {output G : Finset Nat} {k : Nat}
    (hno : ¬ Reaches cfg size limit inputs output G (partCap cfg size inputs output G k)) {b : BTree} (hb : b.set = G)
    (hall : Allowed cfg.searchOuter size output (openLabels inputs output) limit b) :
    partCap cfg size inputs output G (k + 1) < WithTop.some (growth size (partLabels inputs output G) * btCost cfg.metric size (openLabels inputs output) b) := by
  have hlt : partCap cfg size inputs output G k < WithTop.some (btCost cfg.metric size (openLabels inputs output) b) := by
    by_contra hn
    exact hno ⟨b, hb, hall, not_lt.mp hn⟩
  unfold partCap at hlt ⊢
  cases hf : firstCap cfg.costCap size (partLabels inputs output G) output with
  | top => rw [hf] at hlt; exact absurd hlt (not_lt.mpr le_top)
  | coe c =>
    rw [hf] at hlt
    simp only [capAt] at hlt ⊢
    have hlt := WithTop.coe_lt_coe.mp hlt
    refine WithTop.coe_lt_coe.mpr ?_
    rw [pow_succ, Nat.mul_comm (_ ^ _), Nat.mul_assoc]
    exact Nat.mul_lt_mul_of_pos_left hlt (by have := two_le_growth size (partLabels inputs output G); omega)

/-- **C105, without caps.** With `cost_cap=False` one round suffices: a part is solved in one round exactly if it has an allowed tree. -/
theorem C105_off {cfg : DPCfg} (hc : cfg.costCap = .off) {size : Nat → Nat} {limit : Option Nat} {inputs : List (Finset Nat)} {output G : Finset Nat} (hG : G.card ≠ 1) :
    SolvedIn cfg size limit inputs output G 1 ↔ ∃ b : BTree, b.set = G ∧ Allowed cfg.searchOuter size output (openLabels inputs output) limit b := by
  have hcap : partCap cfg size inputs output G 0 = ⊤ := by
    unfold partCap
    rw [capAt_zero, hc]
    rfl
  constructor
  · rintro (h | ⟨k, -, -, b, hb, hall, -⟩)
    · exact absurd h hG
    · exact ⟨b, hb, hall⟩
  · rintro ⟨b, hb, hall⟩
    exact Or.inr ⟨0, Nat.zero_lt_one, fun j hj => absurd hj (Nat.not_lt_zero j), b, hb, hall, by rw [hcap]; exact le_top⟩

/-- The rounds are needed: 'ab,bc,cd,da->' with axes of size 4 is not solved in 2 rounds by the default cap, which starts at 1 and grows by the factor 4; without caps it is solved
in the `2 n` rounds that the path needs, and so it is by the default. -/
example : dpCall ⟨.flops, .increase, false⟩ ascendingPop (fun _ => 4) none [{0, 1}, {1, 2}, {2, 3}, {3, 0}] ∅ 2 = none ∧
    (dpCall ⟨.flops, .off, false⟩ ascendingPop (fun _ => 4) none [{0, 1}, {1, 2}, {2, 3}, {3, 0}] ∅ 8).isSome = true ∧
    (dpCall ⟨.flops, .increase, false⟩ ascendingPop (fun _ => 4) none [{0, 1}, {1, 2}, {2, 3}, {3, 0}] ∅ 8).isSome = true := by
  decide +kernel

/-- `C105_logarithm` for 'ab,bc,cd->ad' searched with outer products: 6 rounds suffice, as the tree that joins from the left costs 16 with axes of size 2. -/
example {order : PopOrder} (ho : PopOK order) :
    ∃ path, dpCall ⟨.flops, .increase, true⟩ order (fun _ => 2) none [{0, 1}, {1, 2}, {2, 3}] {0, 3} 6 = some (.ok path) := by
  refine C105_logarithm (cost := 16) ho ⟨fun _ => Nat.zero_lt_two, fun n h => by cases h⟩ (by simp) ?_ (by simp) (by decide +kernel)
  rintro G ⟨-, hlt, hG⟩
  have hnl : ∀ i, i < 3 → ¬ Lone [{0, 1}, {1, 2}, {2, 3}] {0, 3} i := by
    unfold Lone
    decide +kernel
  have he : G = {0, 1, 2} := by
    ext i
    constructor
    · intro hi
      have h3 : i < 3 := hlt i hi
      simp only [Finset.mem_insert, Finset.mem_singleton]
      omega
    · intro hi
      have h3 : i < 3 := by
        simp only [Finset.mem_insert, Finset.mem_singleton] at hi
        omega
      exact (hG i h3).mpr (hnl i h3)
  rw [he]
  refine ⟨.node (.node (.leaf 0) (.leaf 1)) (.leaf 2), by decide, ⟨by decide, fun h => (by cases h), ?_⟩, ?_⟩
  · exact ⟨fun m h => (by cases h), ⟨fun m h => (by cases h), trivial, trivial⟩, trivial⟩
  · decide +kernel

end OE.Props
