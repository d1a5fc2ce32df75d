import Verif.Lemmas.DpLoop
import Verif.Props.Subgraphs
import Mathlib.Algebra.Order.BigOperators.Ring.Finset

/-!
# The dynamic-programming search: one subgraph, and the removal of lone labels
-/

namespace OE.Props
open OE OE.Py OE.Spec OE.Paths

/-! ## The start of the search -/

theorem dpStart_getD (inputs : List (Finset Nat)) (contractions : List Tree) (g : List Nat) (n : Nat) :
    (dpStart inputs contractions g).getD n [] =
      if n = 1 then g.map (fun j => (1 <<< j, (⟨inputs.getD j ∅, 0, contractions.getD j (.leaf 0)⟩ : DPEntry))) else [] := by
  unfold dpStart
  match n with
  | 0 => simp
  | 1 => simp
  | n + 2 =>
    rw [if_neg (by omega)]
    simp only [List.getD_cons_succ]
    rw [List.getD_eq_getElem?_getD, List.getElem?_replicate]
    split <;> rfl

theorem start_inv {ctx : DPCtx} {G : Finset Nat} {L : Finset Nat → Finset Nat} (hc : CoreOK ctx G L) (contractions : List Tree) (cap : WithTop Nat)
    {g : List Nat} (hg : g.Nodup) (hgG : g.toFinset = G) (hG : 0 < G.card) :
    RoundInv ctx G L contractions cap (dpStart ctx.inputs contractions g) := by
  have hlen : g.length = G.card := by rw [← hgG, List.toFinset_card_of_nodup hg]
  have hmem : ∀ j, j ∈ g ↔ j ∈ G := fun j => by rw [← hgG, List.mem_toFinset]
  have hone : ∀ p ∈ g.map (fun j => (1 <<< j, (⟨ctx.inputs.getD j ∅, 0, contractions.getD j (.leaf 0)⟩ : DPEntry))), p.2.cost = 0 := by
    intro p hp
    obtain ⟨j, -, rfl⟩ := List.mem_map.mp hp
    rfl
  constructor
  · unfold dpStart
    simp only [List.length_cons, List.length_replicate]
    omega
  · rw [dpStart_getD, if_pos rfl, List.length_map, hlen]
  · intro n
    rw [dpStart_getD]
    split
    · rename_i hn
      subst hn
      intro p hp
      obtain ⟨j, hj, rfl⟩ := List.mem_map.mp hp
      have hjG := (hmem j).mp hj
      refine ⟨.leaf j, ⟨by simp [BTree.leaves], fun _ => trivial, trivial⟩, ?_, rfl, ?_, ?_, rfl, rfl, ?_⟩
      · rw [BTree.set_leaf]; simpa using hjG
      · rw [BTree.set_leaf]; exact isBm_shift j
      · rw [BTree.set_leaf, hc.single j hjG]
      · cases cap with
        | top => exact le_top
        | coe c => exact WithTop.coe_le_coe.mpr (Nat.zero_le c)
    · intro p hp
      cases hp
  · intro j hj
    refine ⟨1 <<< j, isBm_shift j, ?_⟩
    rw [dpStart_getD, if_pos rfl]
    have : (1 <<< j) ∈ Dict.keys (g.map (fun j => (1 <<< j, (⟨ctx.inputs.getD j ∅, 0, contractions.getD j (.leaf 0)⟩ : DPEntry)))) := by
      unfold Dict.keys
      rw [List.map_map]
      exact List.mem_map.mpr ⟨j, (hmem j).mpr hj, rfl⟩
    obtain ⟨v, hv⟩ := Dict.mem_keys.mp this
    exact ⟨v, hv, Nat.le_of_eq (hone _ (mem_of_get? hv))⟩

/-! ## One subgraph -/

/-- The cost cap starts above zero. -/
def CapPos (cfg : DPCfg) (size : Nat → Nat) : Prop :=
  match cfg.costCap with
  | .increase => ∀ c, 0 < size c
  | .off => True
  | .fixed n => 0 < n

/-- The context of the search of the subgraph `G`. -/
def ctxOf (cfg : DPCfg) (size : Nat → Nat) (output : Finset Nat) (limit : Option Nat) (inputs : List (Finset Nat)) (g : List Nat) : DPCtx :=
  ⟨size, output, limit, cfg.searchOuter, cfg.metric, inputs, (g.map (fun j => 1 <<< j)).foldl (· ||| ·) 0, (1 <<< inputs.length) - 1⟩

theorem isBm_all (n : Nat) : IsBm ((1 <<< n) - 1) (Finset.range n) := fun j => by
  rw [Nat.one_shiftLeft, Nat.testBit_two_pow_sub_one]
  simp

section
variable {cfg : DPCfg} {size : Nat → Nat} {output : Finset Nat} {limit : Option Nat} {inputs : List (Finset Nat)} {contractions : List Tree}
  {naive : WithTop Nat} {g : List Nat} {G : Finset Nat} {L : Finset Nat → Finset Nat}

theorem dpSubgraph_shape (cfg : DPCfg) (size : Nat → Nat) (output : Finset Nat) (limit : Option Nat) (inputs : List (Finset Nat)) (contractions : List Tree)
    (naive : WithTop Nat) (g : List Nat) :
    ∃ (cap : WithTop Nat) (increment : Nat), 2 ≤ increment ∧ (CapPos cfg size → ∀ c, cap = WithTop.some c → 1 ≤ c) ∧
      ∀ fuel, dpSubgraph cfg size output limit inputs contractions naive fuel g =
        match dpWhile (ctxOf cfg size output limit inputs g) naive increment fuel cap (dpStart inputs contractions g) with
        | none => none
        | some (.error e) => some (.error e)
        | some (.ok x) =>
          match x.getLastD [] with
          | [] => some (.error .index)
          | p :: _ => some (.ok p.2) := by
  refine ⟨_, _, ?_, ?_, fun fuel => rfl⟩
  · split <;> omega
  · intro hpos c hc
    unfold CapPos at hpos
    split at hc
    · rename_i hk
      rw [hk] at hpos
      cases hc
      exact Finset.prod_pos (fun c _ => hpos c)
    · cases hc
    · rename_i hk
      rw [hk] at hpos
      cases hc
      exact hpos

theorem dpSubgraph_ok (hc : CoreOK (ctxOf cfg size output limit inputs g) G L) (hg : g.Nodup) (hgG : g.toFinset = G) (hG : 0 < G.card) {fuel : Nat}
    {e : DPEntry} (h : dpSubgraph cfg size output limit inputs contractions naive fuel g = some (.ok e)) :
    Cheapest (ctxOf cfg size output limit inputs g) G L contractions e := by
  obtain ⟨cap, increment, hi, -, heq⟩ := dpSubgraph_shape cfg size output limit inputs contractions naive g
  rw [heq] at h
  have hinv : RoundInv (ctxOf cfg size output limit inputs g) G L contractions cap (dpStart inputs contractions g) := start_inv hc contractions cap hg hgG hG
  cases hw : dpWhile (ctxOf cfg size output limit inputs g) naive increment fuel cap (dpStart inputs contractions g) with
  | none => rw [hw] at h; cases h
  | some r =>
    cases r with
    | error e => rw [hw] at h; cases h
    | ok x =>
      rw [hw] at h
      simp only at h
      obtain ⟨p, rest, h1, h2⟩ := dpWhile_ok hc hG hi fuel cap _ x hinv (by
        intro hne
        obtain ⟨p, rest, hp⟩ := List.exists_cons_of_ne_nil hne
        refine ⟨p, rest, hp, ?_⟩
        obtain ⟨b, hb⟩ := hinv.ok G.card p (by
          show p ∈ (dpStart inputs contractions g).getD G.card []
          rw [hp]
          exact List.mem_cons_self)
        have h1 : G.card = 1 := by
          by_contra hn
          rw [dpStart_getD, if_neg hn] at hne
          exact hne rfl
        have hset := entry_set hb rfl
        refine ⟨b, ⟨hb.allowed, hset⟩, hb.tree, by rw [hb.legs, hset], ?_⟩
        intro b' _
        have : btCost (ctxOf cfg size output limit inputs g).metric (ctxOf cfg size output limit inputs g).size L b = 0 := by
          have hl := hb.len
          rw [h1] at hl
          match b with
          | .leaf _ => rfl
          | .node c1 c2 =>
            have := BTree.leaves_pos c1
            have := BTree.leaves_pos c2
            rw [BTree.leaves, List.length_append] at hl
            omega
        omega) hw
      rw [h1] at h
      cases h
      exact h2

theorem dpSubgraph_error {fuel : Nat} {e : PyErr} (h : dpSubgraph cfg size output limit inputs contractions naive fuel g = some (.error e)) : e = .runtime ∧ naive ≠ ⊤ := by
  obtain ⟨cap, increment, hi, -, heq⟩ := dpSubgraph_shape cfg size output limit inputs contractions naive g
  have heq' := heq fuel
  rw [heq] at h
  cases hw : dpWhile (ctxOf cfg size output limit inputs g) naive increment fuel cap (dpStart inputs contractions g) with
  | none => rw [hw] at h; cases h
  | some r =>
    cases r with
    | error e' =>
      rw [hw] at h
      cases h
      exact dpWhile_cases hw
    | ok x =>
      rw [hw] at h heq'
      simp only at h heq'
      cases hx : x.getLastD [] with
      | cons p rest => rw [hx] at h; cases h
      | nil =>
        have hlast : ∀ (fuel : Nat) (cap : WithTop Nat) (y : List DPTable),
            dpWhile (ctxOf cfg size output limit inputs g) naive increment fuel cap y = some (.ok x) → x.getLastD [] ≠ [] := by
          intro fuel
          induction fuel with
          | zero =>
            intro cap y hy
            rw [dpWhile] at hy
            split at hy
            · rename_i hne; cases hy; exact hne
            · cases hy
          | succ fuel ih =>
            intro cap y hy
            rw [dpWhile] at hy
            split at hy
            · rename_i hne; cases hy; exact hne
            · simp only at hy
              split at hy
              · cases hy
              · exact ih _ _ hy
        exact absurd hx (hlast _ _ _ hw)

theorem dpSubgraph_terminates (hc : CoreOK (ctxOf cfg size output limit inputs g) G L) (hg : g.Nodup) (hgG : g.toFinset = G) (hG : 0 < G.card)
    (hcap : CapPos cfg size) {b : BTree} (hb : Candidate (ctxOf cfg size output limit inputs g) G L b)
    (hnaive : WithTop.some (btCost cfg.metric size L b) ≤ naive) :
    ∃ F, ∀ fuel, F ≤ fuel → ∃ e, dpSubgraph cfg size output limit inputs contractions naive fuel g = some (.ok e) := by
  obtain ⟨cap, increment, hi, hpos, heq⟩ := dpSubgraph_shape cfg size output limit inputs contractions naive g
  have hinv : RoundInv (ctxOf cfg size output limit inputs g) G L contractions cap (dpStart inputs contractions g) := start_inv hc contractions cap hg hgG hG
  refine ⟨btCost cfg.metric size L b + 1, fun fuel hf => ?_⟩
  obtain ⟨x, hx⟩ := dpWhile_terminates hc hG hi hb hnaive (btCost cfg.metric size L b) cap
    (fun c hcc => ⟨hpos hcap c hcc, Nat.le_add_left _ _⟩) _ hinv fuel hf
  cases hr : dpSubgraph cfg size output limit inputs contractions naive fuel g with
  | none =>
    rw [heq, hx] at hr
    simp only at hr
    split at hr <;> cases hr
  | some r =>
    cases r with
    | ok e => exact ⟨e, rfl⟩
    | error e =>
      have := (dpSubgraph_error hr).1
      subst this
      rw [heq, hx] at hr
      simp only at hr
      split at hr <;> cases hr

theorem dpSubgraph_fails (hc : CoreOK (ctxOf cfg size output limit inputs g) G L) (hg : g.Nodup) (hgG : g.toFinset = G) (hG : 0 < G.card)
    (hcap : CapPos cfg size) (hno : ∀ b, ¬ Candidate (ctxOf cfg size output limit inputs g) G L b) {naive : Nat} :
    ∃ F, ∀ fuel, F ≤ fuel → dpSubgraph cfg size output limit inputs contractions (WithTop.some naive) fuel g = some (.error .runtime) := by
  obtain ⟨cap, increment, hi, hpos, heq⟩ := dpSubgraph_shape cfg size output limit inputs contractions (WithTop.some naive) g
  have hinv : RoundInv (ctxOf cfg size output limit inputs g) G L contractions cap (dpStart inputs contractions g) := start_inv hc contractions cap hg hgG hG
  refine ⟨naive + 1 + 1, fun fuel hf => ?_⟩
  have hx := dpWhile_error (naive := naive) hc hG hi hno (naive + 1) cap (fun c hcc => ⟨hpos hcap c hcc, by omega⟩) _ hinv fuel hf
  rw [heq, hx]

theorem dpSubgraph_diverges (hc : CoreOK (ctxOf cfg size output limit inputs g) G L) (hg : g.Nodup) (hgG : g.toFinset = G) (hG : 0 < G.card)
    (hno : ∀ b, ¬ Candidate (ctxOf cfg size output limit inputs g) G L b) (fuel : Nat) :
    dpSubgraph cfg size output limit inputs contractions ⊤ fuel g = none := by
  obtain ⟨cap, increment, hi, hpos, heq⟩ := dpSubgraph_shape cfg size output limit inputs contractions ⊤ g
  have hinv : RoundInv (ctxOf cfg size output limit inputs g) G L contractions cap (dpStart inputs contractions g) := start_inv hc contractions cap hg hgG hG
  have hx := dpWhile_diverges hc hG hi hno cap _ hinv fuel
  rw [heq, hx]

end

/-! ## Lone labels -/

theorem mem_openLabels {inputs : List (Finset Nat)} {output S : Finset Nat} {c : Nat} :
    c ∈ openLabels inputs output S ↔ (∃ i ∈ S, c ∈ inputs.getD i ∅) ∧ (c ∈ output ∨ ∃ k, k < inputs.length ∧ k ∉ S ∧ c ∈ inputs.getD k ∅) := by
  unfold openLabels
  rw [Finset.mem_filter, Finset.mem_biUnion]
  simp only [Finset.mem_sdiff, Finset.mem_range, and_assoc]

theorem indCount_one {inputs : List (Finset Nat)} {output : Finset Nat} {c i : Nat} (hi : i < inputs.length) (hc : c ∈ inputs.getD i ∅) :
    indCount inputs output c ≠ 1 ↔ (c ∈ output ∨ ∃ k, k < inputs.length ∧ k ≠ i ∧ c ∈ inputs.getD k ∅) := by
  have key : ∀ (l : List (Finset Nat)) (i : Nat), i < l.length → c ∈ l.getD i ∅ →
      1 ≤ (l.map (fun s => if c ∈ s then 1 else 0)).sum ∧
      ((l.map (fun s => if c ∈ s then 1 else 0)).sum ≠ 1 ↔ ∃ k, k < l.length ∧ k ≠ i ∧ c ∈ l.getD k ∅) := by
    have zero : ∀ (l : List (Finset Nat)), (l.map (fun s => if c ∈ s then 1 else 0)).sum ≠ 0 ↔ ∃ k, k < l.length ∧ c ∈ l.getD k ∅ := by
      intro l
      induction l with
      | nil => simp
      | cons s l ih =>
        simp only [List.map_cons, List.sum_cons]
        constructor
        · intro h
          by_cases hs : c ∈ s
          · exact ⟨0, by simp, by simpa using hs⟩
          · rw [if_neg hs, Nat.zero_add, ih] at h
            obtain ⟨k, hk, hck⟩ := h
            exact ⟨k + 1, by simpa using hk, by simpa using hck⟩
        · rintro ⟨k, hk, hck⟩
          cases k with
          | zero =>
            simp only [List.getD_cons_zero] at hck
            rw [if_pos hck]
            omega
          | succ k =>
            have := ih.mpr ⟨k, by simpa using hk, by simpa using hck⟩
            omega
    intro l
    induction l with
    | nil => intro i hi; simp at hi
    | cons s l ih =>
      intro i hi hci
      simp only [List.map_cons, List.sum_cons]
      cases i with
      | zero =>
        simp only [List.getD_cons_zero] at hci
        rw [if_pos hci]
        refine ⟨by omega, ?_⟩
        rw [show (1 + (l.map (fun s => if c ∈ s then 1 else 0)).sum ≠ 1 ↔ (l.map (fun s => if c ∈ s then 1 else 0)).sum ≠ 0) by omega, zero]
        constructor
        · rintro ⟨k, hk, hck⟩
          exact ⟨k + 1, by simpa using hk, by omega, by simpa using hck⟩
        · rintro ⟨k, hk, hk0, hck⟩
          cases k with
          | zero => exact absurd rfl hk0
          | succ k => exact ⟨k, by simpa using hk, by simpa using hck⟩
      | succ i =>
        obtain ⟨h1, h2⟩ := ih i (by simpa using hi) (by simpa using hci)
        refine ⟨by omega, ?_⟩
        by_cases hs : c ∈ s
        · rw [if_pos hs]
          constructor
          · intro _
            exact ⟨0, by simp, by omega, by simpa using hs⟩
          · intro _
            omega
        · rw [if_neg hs, Nat.zero_add, h2]
          constructor
          · rintro ⟨k, hk, hk0, hck⟩
            exact ⟨k + 1, by simpa using hk, by omega, by simpa using hck⟩
          · rintro ⟨k, hk, hk0, hck⟩
            cases k with
            | zero => exact absurd (by simpa using hck) hs
            | succ k => exact ⟨k, by simpa using hk, by omega, by simpa using hck⟩
  obtain ⟨h1, h2⟩ := key inputs i hi hc
  unfold indCount
  by_cases ho : c ∈ output
  · simp only [ho, if_true, true_or, iff_true]
    omega
  · simp only [ho, if_false, false_or, Nat.add_zero]
    exact h2

theorem reduced_eq {inputs : List (Finset Nat)} {output : Finset Nat} {i : Nat} (hi : i < inputs.length) :
    (inputs.getD i ∅).filter (fun c => (indCount inputs output c == 1) = false) = openLabels inputs output {i} := by
  ext c
  rw [Finset.mem_filter, mem_openLabels]
  simp only [Finset.mem_singleton, exists_eq_left, beq_eq_false_iff_ne]
  constructor
  · rintro ⟨h1, h2⟩
    exact ⟨h1, (indCount_one hi h1).mp h2⟩
  · rintro ⟨h1, h2⟩
    exact ⟨h1, (indCount_one hi h1).mpr h2⟩

theorem parseSingles_spec (single : Nat → Bool) (j : Nat) (l : List (Finset Nat)) :
    ∃ orig done : List Nat, (orig ++ done).Perm (List.range' j l.length) ∧
      (parseSingles single j l).inputs = orig.map (fun i => (l.getD (i - j) ∅).filter (fun c => single c = false)) ∧
      (parseSingles single j l).contractions = orig.map (fun i =>
        if (l.getD (i - j) ∅).filter (fun c => single c = false) ≠ l.getD (i - j) ∅ then .node [.leaf i] else .leaf i) ∧
      (parseSingles single j l).done = done.map (fun i => .node [.leaf i]) ∧
      (∀ i ∈ done, (l.getD (i - j) ∅).filter (fun c => single c = false) = ∅ ∧ l.getD (i - j) ∅ ≠ ∅) ∧
      ∀ i ∈ orig, (l.getD (i - j) ∅).filter (fun c => single c = false) = ∅ → l.getD (i - j) ∅ = ∅ := by
  induction l generalizing j with
  | nil => exact ⟨[], [], by simp [parseSingles]⟩
  | cons s l ih =>
    obtain ⟨orig, done, h1, h2, h3, h4, h5, h6⟩ := ih (j + 1)
    have hlt : ∀ i ∈ orig ++ done, j < i := by
      intro i hi
      have := h1.mem_iff.mp hi
      rw [List.mem_range'_1] at this
      omega
    have hget : ∀ i ∈ orig ++ done, (s :: l).getD (i - j) ∅ = l.getD (i - (j + 1)) ∅ := by
      intro i hi
      have := hlt i hi
      rw [show i - j = (i - (j + 1)) + 1 by omega, List.getD_cons_succ]
    have ho : ∀ i ∈ orig, (s :: l).getD (i - j) ∅ = l.getD (i - (j + 1)) ∅ := fun i hi => hget i (List.mem_append_left _ hi)
    have hd : ∀ i ∈ done, (s :: l).getD (i - j) ∅ = l.getD (i - (j + 1)) ∅ := fun i hi => hget i (List.mem_append_right _ hi)
    rw [List.length_cons, List.range'_succ]
    simp only [parseSingles]
    split
    · rename_i hcond
      refine ⟨orig, j :: done, ?_, ?_, ?_, ?_, ?_, ?_⟩
      · exact List.perm_middle.trans (h1.cons j)
      · simp only
        rw [h2]
        exact List.map_congr_left (fun i hi => by rw [ho i hi])
      · simp only
        rw [h3]
        exact List.map_congr_left (fun i hi => by rw [ho i hi])
      · simp only [List.map_cons, h4]
      · intro i hi
        rcases List.mem_cons.mp hi with rfl | hi
        · simp only [Nat.sub_self, List.getD_cons_zero]
          exact ⟨hcond.1, Finset.nonempty_iff_ne_empty.mp (Finset.card_pos.mp hcond.2)⟩
        · rw [hd i hi]
          exact h5 i hi
      · intro i hi
        rw [ho i hi]
        exact h6 i hi
    · rename_i hcond
      refine ⟨j :: orig, done, ?_, ?_, ?_, ?_, ?_, ?_⟩
      · exact h1.cons j
      · simp only [List.map_cons, Nat.sub_self, List.getD_cons_zero, h2]
        congr 1
        exact List.map_congr_left (fun i hi => by rw [ho i hi])
      · simp only [List.map_cons, Nat.sub_self, List.getD_cons_zero, h3]
        congr 1
        exact List.map_congr_left (fun i hi => by rw [ho i hi])
      · exact h4
      · intro i hi
        rw [hd i hi]
        exact h5 i hi
      · intro i hi
        rcases List.mem_cons.mp hi with rfl | hi
        · simp only [Nat.sub_self, List.getD_cons_zero]
          intro he
          by_contra hne
          exact hcond ⟨he, Finset.card_pos.mpr (Finset.nonempty_iff_ne_empty.mpr hne)⟩
        · rw [ho i hi]
          exact h6 i hi

/-- What the removal of lone labels leaves: `orig` are the inputs that stay, `done` those that have become scalars. -/
structure ParseOK (inputs : List (Finset Nat)) (output : Finset Nat) (orig done : List Nat) : Prop where
  perm : (orig ++ done).Perm (List.range inputs.length)
  inputs_eq : (dpParse inputs output).inputs = orig.map (fun i => openLabels inputs output {i})
  contractions_eq : ∃ f : Nat → Tree, (∀ i, i < inputs.length →
    (¬ HasLone inputs output i ∧ f i = .leaf i) ∨ (HasLone inputs output i ∧ f i = .node [.leaf i])) ∧ (dpParse inputs output).contractions = orig.map f
  done_eq : (dpParse inputs output).done = done.map (fun i => .node [.leaf i])
  lone : ∀ i ∈ done, openLabels inputs output {i} = ∅ ∧ inputs.getD i ∅ ≠ ∅
  kept : ∀ i ∈ orig, openLabels inputs output {i} = ∅ → inputs.getD i ∅ = ∅

theorem dpParse_ok (inputs : List (Finset Nat)) (output : Finset Nat) : ∃ orig done, ParseOK inputs output orig done := by
  obtain ⟨orig, done, h1, h2, h3, h4, h5, h6⟩ := parseSingles_spec (fun c => indCount inputs output c == 1) 0 inputs
  rw [← List.range_eq_range'] at h1
  have hlt : ∀ i ∈ orig ++ done, i < inputs.length := fun i hi => List.mem_range.mp (h1.mem_iff.mp hi)
  simp only [Nat.sub_zero] at h2 h3 h5 h6
  refine ⟨orig, done, h1, ?_, ?_, h4, ?_, ?_⟩
  · unfold dpParse
    rw [h2]
    exact List.map_congr_left (fun i hi => reduced_eq (hlt i (List.mem_append_left _ hi)))
  · refine ⟨_, ?_, h3⟩
    intro i hi
    unfold HasLone
    rw [← reduced_eq hi]
    split
    · rename_i hc
      exact Or.inr ⟨hc, rfl⟩
    · rename_i hc
      exact Or.inl ⟨hc, rfl⟩
  · intro i hi
    rw [← reduced_eq (hlt i (List.mem_append_right _ hi))]
    exact h5 i hi
  · intro i hi
    rw [← reduced_eq (hlt i (List.mem_append_left _ hi))]
    exact h6 i hi

end OE.Props
