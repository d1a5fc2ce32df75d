import Verif.Props.Dp2

/-!
# The dynamic-programming search: exactly when the loop over the cost caps ends, and how
-/

namespace OE.Props
open OE OE.Py OE.Spec OE.Paths

/-- The cost cap in round `k` when it starts at `start` and grows by the factor `growth`. -/
def capAt (growth : Nat) (start : WithTop Nat) (k : Nat) : WithTop Nat :=
  match start with
  | ⊤ => ⊤
  | WithTop.some c => WithTop.some (growth ^ k * c)

theorem capAt_zero (growth : Nat) (start : WithTop Nat) : capAt growth start 0 = start := by
  cases start with
  | top => rfl
  | coe c => simp [capAt]

theorem capAt_succ (growth : Nat) (start : WithTop Nat) (k : Nat) : capAt growth start (k + 1) = capAt growth (raiseCap growth start) k := by
  cases start with
  | top => rfl
  | coe c =>
    simp only [capAt, raiseCap]
    rw [pow_succ, Nat.mul_assoc]

theorem capAt_mono {growth : Nat} (hi : 2 ≤ growth) (start : WithTop Nat) {j k : Nat} (h : j ≤ k) : capAt growth start j ≤ capAt growth start k := by
  cases start with
  | top => exact le_refl _
  | coe c =>
    simp only [capAt]
    exact WithTop.coe_le_coe.mpr (Nat.mul_le_mul_right c (Nat.pow_le_pow_right (by omega) h))

/-- A cap that does not start at 0 exceeds every number. -/
theorem capAt_exceeds {growth : Nat} (hi : 2 ≤ growth) {start : WithTop Nat} (h : start ≠ WithTop.some 0) (n : Nat) :
    ∃ k, WithTop.some n < capAt growth start k := by
  cases start with
  | top => exact ⟨0, WithTop.coe_lt_top n⟩
  | coe c =>
    refine ⟨n, WithTop.coe_lt_coe.mpr ?_⟩
    have hc : 0 < c := by
      rcases Nat.eq_zero_or_pos c with rfl | hc
      · exact absurd rfl h
      · exact hc
    have h1 : n < growth ^ n := Nat.lt_pow_self (by omega)
    have h2 : growth ^ n * 1 ≤ growth ^ n * c := Nat.mul_le_mul_left _ hc
    omega

section
variable {ctx : DPCtx} {G : Finset Nat} {L : Finset Nat → Finset Nat} {contractions : List Tree} {cap naive : WithTop Nat} {increment : Nat}

/-- There is a tree of the whole subgraph within the cap. -/
def Within (ctx : DPCtx) (G : Finset Nat) (L : Finset Nat → Finset Nat) (cap : WithTop Nat) : Prop :=
  ∃ b, Candidate ctx G L b ∧ WithTop.some (btCost ctx.metric ctx.size L b) ≤ cap

theorem Within.mono {cap' : WithTop Nat} (h : Within ctx G L cap) (hle : cap ≤ cap') : Within ctx G L cap' :=
  h.elim (fun b hb => ⟨b, hb.1, hb.2.trans hle⟩)

/-- A round finds a tree of the whole subgraph exactly if there is one within the cap. -/
theorem round_finds (hc : CoreOK ctx G L) (hG : 0 < G.card) {x : List DPTable} (h : RoundInv ctx G L contractions cap x) :
    (dpRound ctx cap x).getD G.card [] ≠ [] ↔ Within ctx G L cap := by
  obtain ⟨h1, h2⟩ := dpRound_spec hc hG h
  constructor
  · intro hne
    obtain ⟨p, rest, hp⟩ := List.exists_cons_of_ne_nil hne
    obtain ⟨b, hb⟩ := h1.ok G.card p (by rw [hp]; exact List.mem_cons_self)
    exact ⟨b, ⟨hb.allowed, entry_set hb rfl⟩, hb.cost ▸ hb.le⟩
  · rintro ⟨b, hb, hle⟩ h0
    obtain ⟨s, -, e, hg, -⟩ := h2 b hb.1 (by rw [hb.2]) hb.len hle
    rw [h0] at hg
    simp [Dict.get?] at hg

theorem dpWhile_done {fuel : Nat} {x : List DPTable} (h : x.getLastD [] ≠ []) : dpWhile ctx naive increment fuel cap x = some (.ok x) := by
  rw [dpWhile.eq_def]
  simp only
  rw [if_pos h]

theorem dpWhile_step {fuel : Nat} {x : List DPTable} (h : x.getLastD [] = []) : dpWhile ctx naive increment (fuel + 1) cap x =
    if naive < cap ∧ (dpRound ctx cap x).getLastD [] = [] then some (.error .runtime)
    else dpWhile ctx naive increment fuel (raiseCap increment cap) (dpRound ctx cap x) := by
  rw [dpWhile, if_neg (fun hn => hn h)]

/-- The loop ends without error exactly if a tree comes within the cap before the cap has exceeded the naive cost. -/
theorem dpWhile_ok_iff (hc : CoreOK ctx G L) (hG : 0 < G.card) (hi : 2 ≤ increment) (fuel : Nat) (cap : WithTop Nat) (x : List DPTable)
    (h : RoundInv ctx G L contractions cap x) (hx : x.getD G.card [] = []) :
    (∃ x', dpWhile ctx naive increment fuel cap x = some (.ok x')) ↔
      ∃ k, k < fuel ∧ (∀ j, j < k → ¬ naive < capAt increment cap j) ∧ Within ctx G L (capAt increment cap k) := by
  induction fuel generalizing cap x with
  | zero =>
    rw [dpWhile, last_eq h.len, hx]
    constructor
    · rintro ⟨x', hx'⟩
      simp at hx'
    · rintro ⟨k, hk, -⟩
      omega
  | succ fuel ih =>
    obtain ⟨h1, -⟩ := dpRound_spec hc hG h
    have hf := round_finds hc hG h
    rw [dpWhile_step (by rw [last_eq h.len, hx]), last_eq h1.len]
    by_cases hw : Within ctx G L cap
    · have hne := hf.mpr hw
      rw [if_neg (fun hh => hne hh.2), dpWhile_done (by rw [last_eq h1.len]; exact hne)]
      constructor
      · intro _
        exact ⟨0, by omega, fun j hj => by omega, by rw [capAt_zero]; exact hw⟩
      · intro _
        exact ⟨_, rfl⟩
    · have h0 : (dpRound ctx cap x).getD G.card [] = [] := by
        by_contra hne
        exact hw (hf.mp hne)
      by_cases hs : naive < cap
      · rw [if_pos ⟨hs, h0⟩]
        constructor
        · rintro ⟨x', hx'⟩
          cases hx'
        · rintro ⟨k, hk, hj, hk'⟩
          cases k with
          | zero => rw [capAt_zero] at hk'; exact absurd hk' hw
          | succ k => exact absurd (by rw [capAt_zero]; exact hs) (hj 0 (by omega))
      · rw [if_neg (fun hh => hs hh.1), ih _ _ (roundInv_mono (le_raiseCap hi) h1) h0]
        constructor
        · rintro ⟨k, hk, hj, hk'⟩
          refine ⟨k + 1, by omega, ?_, by rw [capAt_succ]; exact hk'⟩
          intro j hjk
          cases j with
          | zero => rw [capAt_zero]; exact hs
          | succ j => rw [capAt_succ]; exact hj j (by omega)
        · rintro ⟨k, hk, hj, hk'⟩
          cases k with
          | zero => rw [capAt_zero] at hk'; exact absurd hk' hw
          | succ k =>
            refine ⟨k, by omega, fun j hjk => ?_, by rw [← capAt_succ]; exact hk'⟩
            rw [← capAt_succ]
            exact hj (j + 1) (by omega)

/-- The loop ends in an error exactly if the cap exceeds the naive cost in a round with no tree within the cap. -/
theorem dpWhile_error_iff (hc : CoreOK ctx G L) (hG : 0 < G.card) (hi : 2 ≤ increment) (fuel : Nat) (cap : WithTop Nat) (x : List DPTable)
    (h : RoundInv ctx G L contractions cap x) (hx : x.getD G.card [] = []) :
    dpWhile ctx naive increment fuel cap x = some (.error .runtime) ↔
      ∃ k, k < fuel ∧ (∀ j, j < k → ¬ naive < capAt increment cap j) ∧ naive < capAt increment cap k ∧ ¬ Within ctx G L (capAt increment cap k) := by
  induction fuel generalizing cap x with
  | zero =>
    rw [dpWhile, last_eq h.len, hx]
    constructor
    · intro hh
      simp at hh
    · rintro ⟨k, hk, -⟩
      omega
  | succ fuel ih =>
    obtain ⟨h1, -⟩ := dpRound_spec hc hG h
    have hf := round_finds hc hG h
    rw [dpWhile_step (by rw [last_eq h.len, hx]), last_eq h1.len]
    by_cases hw : Within ctx G L cap
    · have hne := hf.mpr hw
      rw [if_neg (fun hh => hne hh.2), dpWhile_done (by rw [last_eq h1.len]; exact hne)]
      constructor
      · intro hh
        cases hh
      · rintro ⟨k, hk, -, -, hn⟩
        refine absurd (hw.mono ?_) hn
        have := capAt_mono hi cap (Nat.zero_le k)
        rwa [capAt_zero] at this
    · have h0 : (dpRound ctx cap x).getD G.card [] = [] := by
        by_contra hne
        exact hw (hf.mp hne)
      by_cases hs : naive < cap
      · rw [if_pos ⟨hs, h0⟩]
        constructor
        · intro _
          exact ⟨0, by omega, fun j hj => by omega, by rw [capAt_zero]; exact hs, by rw [capAt_zero]; exact hw⟩
        · intro _
          rfl
      · rw [if_neg (fun hh => hs hh.1), ih _ _ (roundInv_mono (le_raiseCap hi) h1) h0]
        constructor
        · rintro ⟨k, hk, hj, hk', hk''⟩
          refine ⟨k + 1, by omega, ?_, by rw [capAt_succ]; exact hk', by rw [capAt_succ]; exact hk''⟩
          intro j hjk
          cases j with
          | zero => rw [capAt_zero]; exact hs
          | succ j => rw [capAt_succ]; exact hj j (by omega)
        · rintro ⟨k, hk, hj, hk', hk''⟩
          cases k with
          | zero => rw [capAt_zero] at hk'; exact absurd hk' hs
          | succ k =>
            refine ⟨k, by omega, fun j hjk => ?_, by rw [← capAt_succ]; exact hk', by rw [← capAt_succ]; exact hk''⟩
            rw [← capAt_succ]
            exact hj (j + 1) (by omega)

end

/-! ## One subgraph -/

/-- The cost cap of the first round, where `labels` are those of the subgraph. -/
def firstCap (costCap : CostCap) (size : Nat → Nat) (labels output : Finset Nat) : WithTop Nat :=
  match costCap with
  | .increase => WithTop.some (∏ c ∈ labels ∩ output, size c)
  | .off => ⊤
  | .fixed n => WithTop.some n

/-- The factor by which the cost cap grows. -/
def growth (size : Nat → Nat) (labels : Finset Nat) : Nat := if labels = ∅ then 2 else max ((labels.image size).min.untopD 0) 2

theorem two_le_growth (size : Nat → Nat) (labels : Finset Nat) : 2 ≤ growth size labels := by
  unfold growth
  split <;> omega

section
variable {cfg : DPCfg} {size : Nat → Nat} {output : Finset Nat} {limit : Option Nat} {inputs : List (Finset Nat)} {contractions : List Tree}
  {naive : WithTop Nat} {g : List Nat} {G : Finset Nat} {L : Finset Nat → Finset Nat}

theorem dpSubgraph_caps (hc : CoreOK (ctxOf cfg size output limit inputs g) G L) (fuel : Nat) :
    dpSubgraph cfg size output limit inputs contractions naive fuel g =
      match dpWhile (ctxOf cfg size output limit inputs g) naive (growth size (G.biUnion (fun j => L {j}))) fuel
        (firstCap cfg.costCap size (G.biUnion (fun j => L {j})) output) (dpStart inputs contractions g) with
      | none => none
      | some (.error e) => some (.error e)
      | some (.ok x) =>
        match x.getLastD [] with
        | [] => some (.error .index)
        | p :: _ => some (.ok p.2) := by
  have hlab : (bitmapSelect (ctxOf cfg size output limit inputs g).g inputs).foldr (· ∪ ·) ∅ = G.biUnion (fun j => L {j}) := by
    ext c
    rw [mem_bitmapSelect hc.g, Finset.mem_biUnion]
    constructor
    · rintro ⟨j, hj, hcj⟩
      exact ⟨j, hj, by rw [hc.single j hj]; exact hcj⟩
    · rintro ⟨j, hj, hcj⟩
      exact ⟨j, hj, by rw [hc.single j hj] at hcj; exact hcj⟩
  have hcap : (match cfg.costCap with
      | .increase => WithTop.some (Paths.sizeOf size ((bitmapSelect (ctxOf cfg size output limit inputs g).g inputs).foldr (· ∪ ·) ∅ ∩ output))
      | .off => ⊤
      | .fixed n => WithTop.some n) = firstCap cfg.costCap size (G.biUnion (fun j => L {j})) output := by
    rw [hlab]
    rfl
  have hinc : (if ((bitmapSelect (ctxOf cfg size output limit inputs g).g inputs).foldr (· ∪ ·) ∅).card = 0 then 2 else
      max ((((bitmapSelect (ctxOf cfg size output limit inputs g).g inputs).foldr (· ∪ ·) ∅).image size).min.untopD 0) 2) =
      growth size (G.biUnion (fun j => L {j})) := by
    rw [hlab]
    unfold growth
    simp only [Finset.card_eq_zero]
  rw [← hcap, ← hinc]
  rfl

/-- The search of a subgraph succeeds. -/
def SubSolved (cfg : DPCfg) (size : Nat → Nat) (output : Finset Nat) (limit : Option Nat) (inputs : List (Finset Nat)) (g : List Nat) (naive : WithTop Nat)
    (G : Finset Nat) (L : Finset Nat → Finset Nat) (labels : Finset Nat) : Prop :=
  ∃ k, (∀ j, j < k → ¬ naive < capAt (growth size labels) (firstCap cfg.costCap size labels output) j) ∧
    Within (ctxOf cfg size output limit inputs g) G L (capAt (growth size labels) (firstCap cfg.costCap size labels output) k)

/-- The search of a subgraph fails. -/
def SubRefused (cfg : DPCfg) (size : Nat → Nat) (output : Finset Nat) (limit : Option Nat) (inputs : List (Finset Nat)) (g : List Nat) (naive : WithTop Nat)
    (G : Finset Nat) (L : Finset Nat → Finset Nat) (labels : Finset Nat) : Prop :=
  ∃ k, naive < capAt (growth size labels) (firstCap cfg.costCap size labels output) k ∧
    ¬ Within (ctxOf cfg size output limit inputs g) G L (capAt (growth size labels) (firstCap cfg.costCap size labels output) k)

/-- A single input is found at once. -/
theorem start_done (hg : g.Nodup) (hgG : g.toFinset = G) (h1 : G.card = 1) : ∃ p, (dpStart inputs contractions g).getD G.card [] = [p] := by
  have hlen : g.length = 1 := by rw [← h1, ← hgG, List.toFinset_card_of_nodup hg]
  obtain ⟨j, rfl⟩ := List.length_eq_one_iff.mp hlen
  rw [h1, dpStart_getD, if_pos rfl]
  exact ⟨_, rfl⟩

theorem single_within (h1 : G.card = 1) (cap : WithTop Nat) : Within (ctxOf cfg size output limit inputs g) G L cap := by
  obtain ⟨j, rfl⟩ := Finset.card_eq_one.mp h1
  refine ⟨.leaf j, ⟨⟨by simp [BTree.leaves], fun _ => trivial, trivial⟩, BTree.set_leaf j⟩, ?_⟩
  cases cap with
  | top => exact le_top
  | coe c => exact WithTop.coe_le_coe.mpr (Nat.zero_le c)

theorem dpSubgraph_solved (hc : CoreOK (ctxOf cfg size output limit inputs g) G L) (hg : g.Nodup) (hgG : g.toFinset = G) (hG : 0 < G.card) :
    (SubSolved cfg size output limit inputs g naive G L (G.biUnion (fun j => L {j})) →
      ∃ F, ∀ fuel, F ≤ fuel → ∃ e, dpSubgraph cfg size output limit inputs contractions naive fuel g = some (.ok e)) ∧
    ∀ fuel e, dpSubgraph cfg size output limit inputs contractions naive fuel g = some (.ok e) →
      SubSolved cfg size output limit inputs g naive G L (G.biUnion (fun j => L {j})) := by
  have hinv := start_inv (ctx := ctxOf cfg size output limit inputs g) hc contractions (firstCap cfg.costCap size (G.biUnion (fun j => L {j})) output) hg hgG hG
  have hlen := hinv.len
  by_cases h1 : G.card = 1
  · obtain ⟨p, hp⟩ := start_done (inputs := inputs) (contractions := contractions) hg hgG h1
    have hl : (dpStart inputs contractions g).getLastD [] = [p] := by
      rw [← hp]
      exact last_eq hlen
    constructor
    · intro _
      refine ⟨0, fun fuel _ => ⟨p.2, ?_⟩⟩
      rw [dpSubgraph_caps hc, dpWhile_done (by rw [hl]; simp)]
      simp only
      rw [hl]
    · intro _ _ _
      exact ⟨0, fun j hj => by omega, single_within h1 _⟩
  · have hx : (dpStart inputs contractions g).getD G.card [] = [] := by rw [dpStart_getD, if_neg h1]
    have hiff := fun fuel => dpWhile_ok_iff (naive := naive) hc hG (two_le_growth size (G.biUnion (fun j => L {j}))) fuel _ _ hinv hx
    constructor
    · rintro ⟨k, hk1, hk2⟩
      refine ⟨k + 1, fun fuel hf => ?_⟩
      obtain ⟨x', hx'⟩ := (hiff fuel).mpr ⟨k, by omega, hk1, hk2⟩
      cases hr : dpSubgraph cfg size output limit inputs contractions naive fuel g with
      | none =>
        rw [dpSubgraph_caps hc] at hr
        rw [show dpWhile (ctxOf cfg size output limit inputs g) naive (growth size (G.biUnion (fun j => L {j}))) fuel
          (firstCap cfg.costCap size (G.biUnion (fun j => L {j})) output) (dpStart inputs contractions g) = some (.ok x') from hx'] at hr
        simp only at hr
        split at hr <;> cases hr
      | some r =>
        cases r with
        | ok e => exact ⟨e, rfl⟩
        | error e =>
          have := (dpSubgraph_error hr).1
          subst this
          rw [dpSubgraph_caps hc] at hr
          rw [show dpWhile (ctxOf cfg size output limit inputs g) naive (growth size (G.biUnion (fun j => L {j}))) fuel
            (firstCap cfg.costCap size (G.biUnion (fun j => L {j})) output) (dpStart inputs contractions g) = some (.ok x') from hx'] at hr
          simp only at hr
          split at hr <;> cases hr
    · intro fuel e he
      rw [dpSubgraph_caps hc] at he
      split at he
      · cases he
      · cases he
      · rename_i x' hx'
        obtain ⟨k, -, hk⟩ := (hiff fuel).mp ⟨x', hx'⟩
        exact ⟨k, hk⟩

theorem dpSubgraph_refused (hc : CoreOK (ctxOf cfg size output limit inputs g) G L) (hg : g.Nodup) (hgG : g.toFinset = G) (hG : 0 < G.card) :
    (SubRefused cfg size output limit inputs g naive G L (G.biUnion (fun j => L {j})) →
      ∃ F, ∀ fuel, F ≤ fuel → dpSubgraph cfg size output limit inputs contractions naive fuel g = some (.error .runtime)) ∧
    ∀ fuel e, dpSubgraph cfg size output limit inputs contractions naive fuel g = some (.error e) →
      SubRefused cfg size output limit inputs g naive G L (G.biUnion (fun j => L {j})) := by
  have hinv := start_inv (ctx := ctxOf cfg size output limit inputs g) hc contractions (firstCap cfg.costCap size (G.biUnion (fun j => L {j})) output) hg hgG hG
  have hlen := hinv.len
  by_cases h1 : G.card = 1
  · obtain ⟨p, hp⟩ := start_done (inputs := inputs) (contractions := contractions) hg hgG h1
    have hl : (dpStart inputs contractions g).getLastD [] = [p] := by
      rw [← hp]
      exact last_eq hlen
    constructor
    · rintro ⟨k, -, hk⟩
      exact absurd (single_within h1 _) hk
    · intro fuel e he
      rw [dpSubgraph_caps hc, dpWhile_done (by rw [hl]; simp)] at he
      simp only at he
      rw [hl] at he
      cases he
  · have hx : (dpStart inputs contractions g).getD G.card [] = [] := by rw [dpStart_getD, if_neg h1]
    have hiff := fun fuel => dpWhile_error_iff (naive := naive) hc hG (two_le_growth size (G.biUnion (fun j => L {j}))) fuel _ _ hinv hx
    constructor
    · rintro ⟨k, hk1, hk2⟩
      classical
      have hex : ∃ m, naive < capAt (growth size (G.biUnion (fun j => L {j}))) (firstCap cfg.costCap size (G.biUnion (fun j => L {j})) output) m := ⟨k, hk1⟩
      obtain ⟨m, hm, hmin⟩ : ∃ m, naive < capAt (growth size (G.biUnion (fun j => L {j}))) (firstCap cfg.costCap size (G.biUnion (fun j => L {j})) output) m ∧
          ∀ j, j < m → ¬ naive < capAt (growth size (G.biUnion (fun j => L {j}))) (firstCap cfg.costCap size (G.biUnion (fun j => L {j})) output) j :=
        ⟨Nat.find hex, Nat.find_spec hex, fun j hj => Nat.find_min hex hj⟩
      have hmk : m ≤ k := by
        by_contra hlt
        exact hmin k (by omega) hk1
      refine ⟨m + 1, fun fuel hf => ?_⟩
      have := (hiff fuel).mpr ⟨m, by omega, hmin, hm, fun hw => hk2 (hw.mono (capAt_mono (two_le_growth _ _) _ hmk))⟩
      rw [dpSubgraph_caps hc]
      rw [show dpWhile (ctxOf cfg size output limit inputs g) naive (growth size (G.biUnion (fun j => L {j}))) fuel
        (firstCap cfg.costCap size (G.biUnion (fun j => L {j})) output) (dpStart inputs contractions g) = some (.error .runtime) from this]
    · intro fuel e he
      have he' := (dpSubgraph_error he).1
      subst he'
      rw [dpSubgraph_caps hc] at he
      split at he
      · cases he
      · rename_i e' hx'
        have he' := (dpWhile_cases hx').1
        subst he'
        obtain ⟨k, -, -, hk⟩ := (hiff fuel).mp hx'
        exact ⟨k, hk⟩
      · split at he <;> cases he

end

end OE.Props
