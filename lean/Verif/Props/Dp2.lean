import Verif.Props.Dp1

/-!
# C17, C21, C22: dynamic programming, the statements
-/

namespace OE.Props
open OE OE.Py OE.Spec OE.Paths

section
variable {cfg : DPCfg} {size : Nat → Nat} {limit : Option Nat} {inputs : List (Finset Nat)} {output : Finset Nat} {orig done : List Nat}

/-- All sizes are positive and a cost cap given as a number is not zero. -/
def Positive (cfg : DPCfg) (size : Nat → Nat) : Prop := (∀ c, 0 < size c) ∧ ∀ n, cfg.costCap = .fixed n → 0 < n

theorem Positive.cap (h : Positive cfg size) : CapPos cfg size := by
  unfold CapPos
  split
  · exact h.1
  · trivial
  · rename_i n hn
    exact h.2 n hn

theorem naive_bound (h : ParseOK inputs output orig done) (hsize : ∀ c, 0 < size c) {b : BTree} (hnd : b.leaves.Nodup)
    (hlt : ∀ p ∈ b.set, p < orig.length) : WithTop.some (btCost cfg.metric size (legsOf inputs output orig) b) ≤ naiveCost cfg.metric size inputs output := by
  have hlen : b.leaves.length ≤ inputs.length := by
    rw [← set_card b hnd]
    have h1 : b.set ⊆ Finset.range orig.length := fun p hp => Finset.mem_range.mpr (hlt p hp)
    have h2 := Finset.card_le_card h1
    have h3 := h.perm.length_eq
    rw [Finset.card_range] at h2
    rw [List.length_append, List.length_range] at h3
    omega
  have hL : ∀ S, legsOf inputs output orig S ⊆ inputs.foldr (· ∪ ·) ∅ ∪ output := by
    intro S c hc
    unfold legsOf at hc
    rw [mem_openLabels] at hc
    obtain ⟨⟨i, -, hi⟩, -⟩ := hc
    apply Finset.mem_union_left
    rw [mem_unionList]
    rw [List.getD_eq_getElem?_getD] at hi
    cases hg : inputs[i]? with
    | none => rw [hg] at hi; simp at hi
    | some s =>
      rw [hg] at hi
      exact ⟨s, List.mem_of_getElem? hg, hi⟩
  have hfin : ∀ m : Metric, (m = .flops ∨ m = .size ∨ m = .write) →
      btCost m size (legsOf inputs output orig) b ≤ inputs.length * Paths.sizeOf size (inputs.foldr (· ∪ ·) ∅ ∪ output) := by
    intro m hm
    refine (cost_le_naive hm hsize hL b).trans ?_
    exact Nat.mul_le_mul_right _ (by omega)
  unfold naiveCost
  cases hm : cfg.metric with
  | flops => exact WithTop.coe_le_coe.mpr (hfin _ (Or.inl rfl))
  | size => exact WithTop.coe_le_coe.mpr (hfin _ (Or.inr (Or.inl rfl)))
  | write => exact WithTop.coe_le_coe.mpr (hfin _ (Or.inr (Or.inr rfl)))
  | combo f => exact le_top
  | limit f => exact le_top
  | custom fn => exact le_top

theorem order_set {order : PopOrder} (ho : PopOK order) (G : Finset Nat) : (order.list [] G).Nodup ∧ (order.list [] G).toFinset = G := by
  refine ⟨(ho.2 [] G).1, ?_⟩
  ext x
  rw [List.mem_toFinset, (ho.2 [] G).2]

/-- A group of inputs (numbered as after the sums over lone labels) that is searched on its own. -/
structure Group (cfg : DPCfg) (inputs : List (Finset Nat)) (output : Finset Nat) (orig : List Nat) (G : Finset Nat) : Prop where
  lt : ∀ p ∈ G, p < orig.length
  card : 0 < G.card
  closed : Closed (dpParse inputs output).inputs output G
  all : cfg.searchOuter = true → G = Finset.range orig.length
  chain : cfg.searchOuter = false → ∀ i ∈ G, ∀ j ∈ G, Chain (dpParse inputs output).inputs output G i j

/-- What holds of each group with enough fuel holds of all groups with enough fuel. -/
theorem groups_fuel {Q : Nat → Finset Nat → Prop} (h : ∀ G, Group cfg inputs output orig G → ∃ F, ∀ fuel, F ≤ fuel → Q fuel G) :
    ∃ F, ∀ fuel, F ≤ fuel → ∀ G, Group cfg inputs output orig G → Q fuel G := by
  have : ∀ A : Finset (Finset Nat), ∃ F, ∀ fuel, F ≤ fuel → ∀ G ∈ A, Group cfg inputs output orig G → Q fuel G := by
    intro A
    induction A using Finset.induction_on with
    | empty => exact ⟨0, fun _ _ G hG => by simp at hG⟩
    | @insert G A _ ih =>
      obtain ⟨F1, hF1⟩ := ih
      by_cases hcond : Group cfg inputs output orig G
      · obtain ⟨F2, hF2⟩ := h G hcond
        refine ⟨max F1 F2, fun fuel hf G' hG' hg => ?_⟩
        rcases Finset.mem_insert.mp hG' with rfl | hG'
        · exact hF2 fuel (by omega)
        · exact hF1 fuel (by omega) G' hG' hg
      · refine ⟨F1, fun fuel hf G' hG' hg => ?_⟩
        rcases Finset.mem_insert.mp hG' with rfl | hG'
        · exact absurd hg hcond
        · exact hF1 fuel hf G' hG' hg
  obtain ⟨F, hF⟩ := this (Finset.range orig.length).powerset
  exact ⟨F, fun fuel hf G hG => hF fuel hf G (Finset.mem_powerset.mpr (fun p hp => Finset.mem_range.mpr (hG.lt p hp))) hG⟩

/-- The group in terms of the original inputs. -/
theorem Group.original {G : Finset Nat} (hG : Group cfg inputs output orig G) (h : ParseOK inputs output orig done) :
    (G.image (fun p => orig.getD p 0)).Nonempty ∧ (∀ i ∈ G.image (fun p => orig.getD p 0), i < inputs.length) ∧
    (∀ i ∈ G.image (fun p => orig.getD p 0), ∀ j, j < inputs.length → j ∉ G.image (fun p => orig.getD p 0) → ¬ Share inputs output i j) ∧
    (cfg.searchOuter = false → ∀ i ∈ G.image (fun p => orig.getD p 0), ∀ j ∈ G.image (fun p => orig.getD p 0),
      Chain inputs output (G.image (fun p => orig.getD p 0)) i j) := by
  refine ⟨(Finset.card_pos.mp hG.card).image _, ?_, group_apart h hG.lt hG.closed, ?_⟩
  · intro i hi
    obtain ⟨p, hp, rfl⟩ := Finset.mem_image.mp hi
    exact h.lt (getD_mem (hG.lt p hp))
  · intro hs i hi j hj
    obtain ⟨p, hp, rfl⟩ := Finset.mem_image.mp hi
    obtain ⟨q, hq, rfl⟩ := Finset.mem_image.mp hj
    exact chain_original h hG.lt (hG.chain hs p hp q hq)

/-- An error of the call is that of a group. -/
theorem dp_error {order : PopOrder} (ho : PopOK order) (hne : inputs ≠ []) {fuel : Nat} {e : PyErr}
    (hcall : dpCall cfg order size limit inputs output fuel = some (.error e)) : e = .runtime ∧ naiveCost cfg.metric size inputs output ≠ ⊤ := by
  obtain ⟨orig, done, h⟩ := dpParse_ok inputs output
  unfold dpCall at hcall
  simp only at hcall
  split at hcall
  · rename_i hP
    obtain ⟨path', t, ts, bs, -, h2, h3⟩ := only_scalars (cfg := cfg) (size := size) (limit := limit) h hne hP
    cases h2 _ _ hcall
  · rename_i hP
    obtain ⟨gs, hg, hgs⟩ := dpGroups_ok ho cfg hP output
    rw [hg] at hcall
    simp only at hcall
    split at hcall
    · cases hcall
    · rename_i e' hl
      cases hcall
      obtain ⟨g, -, he⟩ := dpSubgraphs_error hl
      exact dpSubgraph_error he
    · rename_i l hl
      obtain ⟨path', t, ts, bs, -, h2, h3⟩ := some_groups h ho hP hgs hl
      cases h2 _ _ hcall

/-- The part of the network around an input is one of the groups of the result. -/
theorem group_unique {path : Path} {t : Tree} {ts : List Tree} {bs : List BTree} (h : DpResult cfg size limit inputs output path t ts bs)
    (hs : cfg.searchOuter = false) {G : Finset Nat} (hne : G.Nonempty) (hlt : ∀ i ∈ G, i < inputs.length)
    (hapart : ∀ i ∈ G, ∀ j, j < inputs.length → j ∉ G → ¬ Share inputs output i j) (hlink : ∀ i ∈ G, ∀ j ∈ G, Chain inputs output G i j) :
    ∃ b ∈ bs, b.set = G := by
  obtain ⟨i, hi⟩ := hne
  have hmem : i ∈ bs.flatMap BTree.leaves := h.partition.mem_iff.mpr (List.mem_range.mpr (hlt i hi))
  obtain ⟨b, hb, hib⟩ := List.mem_flatMap.mp hmem
  have hib : i ∈ b.set := List.mem_toFinset.mpr hib
  have hblt : ∀ j ∈ b.set, j < inputs.length := fun j hj =>
    List.mem_range.mp (h.partition.mem_iff.mp (List.mem_flatMap.mpr ⟨b, hb, List.mem_toFinset.mp hj⟩))
  have hgr := h.groups b hb
  have key : ∀ {A B : Finset Nat}, (∀ j ∈ A, j < inputs.length) → (∀ i ∈ B, ∀ j, j < inputs.length → j ∉ B → ¬ Share inputs output i j) →
      ∀ {i j : Nat}, Chain inputs output A i j → i ∈ B → j ∈ B := by
    intro A B hA hB i j hch hiB
    induction hch with
    | refl _ => exact hiB
    | step h1 h2 h3 ih =>
      by_contra hn
      exact hB _ ih _ (hA _ h3) hn h2
  refine ⟨b, hb, Finset.Subset.antisymm ?_ ?_⟩
  · intro j hj
    exact key hblt hapart (hgr.linked hs i hib j hj) hi
  · intro j hj
    exact key hlt hgr.apart (hlink i hi j hj) hib

end

/-- **C17 (partial).** For any inputs, output, sizes (all at least 1), cost model, search option and cost cap (a number must
not be 0), and any set orders: without a memory limit `DynamicProgramming` terminates without error and returns a complete path
(no step at all for one input without lone labels); and whatever the memory limit, every path that it returns is complete. (Missing: sizes of 0
and a cost cap of 0, for which the first part fails, see `C17_counterexample`.) -/
theorem C17_dp_complete_partial {order : PopOrder} (ho : PopOK order) (cfg : DPCfg) (size : Nat → Nat) (inputs : List (Finset Nat)) (hne : inputs ≠ [])
    (output : Finset Nat) :
    (Positive cfg size → ∃ F, ∀ fuel, F ≤ fuel → ∃ path, dpCall cfg order size none inputs output fuel = some (.ok path) ∧ Complete1 inputs.length path) ∧
    ∀ limit fuel path, dpCall cfg order size limit inputs output fuel = some (.ok path) → Complete1 inputs.length path := by
  have hcomp : ∀ limit fuel path, dpCall cfg order size limit inputs output fuel = some (.ok path) → Complete1 inputs.length path := by
    intro limit fuel path hcall
    obtain ⟨t, ts, bs, h⟩ := dp_result ho hne hcall
    exact h.complete
  refine ⟨?_, hcomp⟩
  intro hpos
  obtain ⟨orig, done, h⟩ := dpParse_ok inputs output
  have hend : ∀ G, Group cfg inputs output orig G →
      ∃ F, ∀ fuel, F ≤ fuel → ∃ e, dpSubgraph cfg size output none (dpParse inputs output).inputs (dpParse inputs output).contractions
        (naiveCost cfg.metric size inputs output) fuel (order.list [] G) = some (.ok e) := by
    intro G hG
    obtain ⟨hnd, hset⟩ := order_set ho G
    have hcore := core_of_closed h cfg size none hset hG.lt hG.closed
    obtain ⟨b, hb⟩ := candidate_exists (size := size) (g := order.list [] G) h hG.lt hG.card hG.chain
    exact dpSubgraph_terminates hcore hnd hset hG.card hpos.cap hb (naive_bound h hpos.1 hb.1.1 (by rw [hb.2]; exact hG.lt))
  obtain ⟨F, hF⟩ := dp_total (cfg := cfg) (size := size) (limit := none) ho hne h (fun G h1 h2 h3 h4 h5 => by
    obtain ⟨F, hF⟩ := hend G ⟨h1, h2, h3, h4, h5⟩
    exact ⟨F, fun fuel hf => (hF fuel hf).elim (fun e he => ⟨_, he⟩)⟩)
  obtain ⟨F', hF'⟩ := groups_fuel hend
  refine ⟨max F F', fun fuel hf => ?_⟩
  rcases hF fuel (by omega) with ⟨path, hp⟩ | ⟨G, e, h1, h2, h3, h4, h5, h6, -⟩
  · exact ⟨path, hp, hcomp _ _ _ hp⟩
  · obtain ⟨e', he'⟩ := hF' fuel (by omega) G ⟨h1, h2, h3, h4, h5⟩
    rw [h6] at he'
    cases he'

/-- **C21.** Whatever the inputs, output, sizes, cost model (flops, size, write, combo or limit with any factor), cost cap,
memory limit and set orders: the path that `DynamicProgramming` returns contracts binary trees for groups of the inputs and
then joins their results; the groups share no summed label with each other (and, without `search_outer`, are the connected parts of the
network; with it there is one group besides the inputs that are left with no label after their lone labels are
summed); and each tree has the lowest cost of all binary trees over its group that respect the memory limit (and
without `search_outer`, contain no outer product). -/
theorem C21_dp_cheapest {order : PopOrder} (ho : PopOK order) {cfg : DPCfg} {size : Nat → Nat} {limit : Option Nat} {inputs : List (Finset Nat)} (hne : inputs ≠ [])
    {output : Finset Nat} {fuel : Nat} {path : Path} (hcall : dpCall cfg order size limit inputs output fuel = some (.ok path)) :
    ∃ t ts bs, DpResult cfg size limit inputs output path t ts bs := dp_result ho hne hcall

/-- **C21, connected networks.** If the network is connected, or `search_outer` is set and no input loses all its labels by the sums
over lone labels, the path contracts one binary tree over all inputs, which has the lowest cost of all such trees that
respect the memory limit (and without `search_outer`, contain no outer product). -/
theorem C21_dp_cheapest_connected {order : PopOrder} (ho : PopOK order) {cfg : DPCfg} {size : Nat → Nat} {limit : Option Nat} {inputs : List (Finset Nat)}
    (hne : inputs ≠ []) {output : Finset Nat} {fuel : Nat} {path : Path}
    (hconn : (∀ i, i < inputs.length → ∀ j, j < inputs.length → Chain inputs output (Finset.range inputs.length) i j) ∨
      cfg.searchOuter = true ∧ ∀ i, i < inputs.length → ¬ Lone inputs output i)
    (hcall : dpCall cfg order size limit inputs output fuel = some (.ok path)) :
    ∃ t b, Represents inputs output t b ∧ b.leaves.Perm (List.range inputs.length) ∧
      (∀ (α : Type) (combine : Multiset α → α) (v : Nat → α), linExec combine ((List.range inputs.length).map v) path = [treeValue combine v t]) ∧
      Allowed cfg.searchOuter size output (openLabels inputs output) limit b ∧
      ∀ b' : BTree, b'.leaves.Perm (List.range inputs.length) → Allowed cfg.searchOuter size output (openLabels inputs output) limit b' →
        btCost cfg.metric size (openLabels inputs output) b ≤ btCost cfg.metric size (openLabels inputs output) b' := by
  obtain ⟨t, ts, bs, h⟩ := dp_result ho hne hcall
  obtain ⟨b, bs', rfl⟩ : ∃ b bs', bs = b :: bs' := by
    cases h.trees
    exact ⟨_, _, rfl⟩
  have hblt : ∀ a ∈ b :: bs', ∀ j ∈ a.leaves, j < inputs.length := fun a ha j hj =>
    List.mem_range.mp (h.partition.mem_iff.mp (List.mem_flatMap.mpr ⟨a, ha, hj⟩))
  have hnd : ((b :: bs').flatMap BTree.leaves).Nodup := h.partition.nodup_iff.mpr List.nodup_range
  have hdis : ∀ a ∈ bs', ∀ x ∈ b.leaves, x ∉ a.leaves := by
    intro a ha x hx hxa
    rw [List.flatMap_cons] at hnd
    exact (List.nodup_append.mp hnd).2.2 x hx x (List.mem_flatMap.mpr ⟨a, ha, hxa⟩) rfl
  have hleaf : ∀ a : BTree, ∃ x, x ∈ a.leaves := by
    intro a
    induction a with
    | leaf i => exact ⟨i, by simp [BTree.leaves]⟩
    | node l r ihl _ => exact ihl.elim (fun x hx => ⟨x, by rw [BTree.leaves]; exact List.mem_append_left _ hx⟩)
  have hone : bs' = [] := by
    cases hbs : bs' with
    | nil => rfl
    | cons a rest =>
      exfalso
      subst hbs
      obtain ⟨x, hx⟩ := hleaf b
      obtain ⟨y, hy⟩ := hleaf a
      rcases hconn with hch | ⟨hs, hl⟩
      · have key : ∀ {j : Nat}, Chain inputs output (Finset.range inputs.length) x j → j ∈ b.set := by
          intro j hch
          induction hch with
          | refl _ => exact List.mem_toFinset.mpr hx
          | step h1 h2 h3 ih =>
            by_contra hn
            exact (h.groups b List.mem_cons_self).apart _ ih _ (Finset.mem_range.mp h3) hn h2
        have := key (hch x (hblt b List.mem_cons_self x hx) y (hblt a (by simp) y hy))
        exact hdis a List.mem_cons_self y (List.mem_toFinset.mp this) hy
      · rcases h.together hs b List.mem_cons_self a (by simp) with he | ⟨i, he, hi⟩ | ⟨i, he, hi⟩
        · subst he
          exact hdis b List.mem_cons_self x hx hx
        · exact hl i (hblt b List.mem_cons_self i (by rw [he]; simp [BTree.leaves])) hi
        · exact hl i (hblt a (by simp) i (by rw [he]; simp [BTree.leaves])) hi
  subst hone
  have htr := h.trees
  cases htr with
  | cons hr hnil =>
    cases hnil
    have hp := h.partition
    simp only [List.flatMap_cons, List.flatMap_nil, List.append_nil] at hp
    refine ⟨t, b, hr, hp, h.exec, (h.groups b List.mem_cons_self).allowed, ?_⟩
    intro b' hb' hall
    apply (h.groups b List.mem_cons_self).minimal b' _ hall
    unfold BTree.set
    exact List.toFinset_eq_of_perm _ _ (hb'.trans hp.symm)

/-- **C22 (partial).** Whatever the inputs, output, sizes, memory limit and set orders: when `DynamicProgramming` returns, every
contraction within the groups (see `C21_dp_cheapest`) has at most `memory_limit` elements in its result; and if the cost model
is flops, size or write, all sizes are at least 1 and the cost cap is not the number 0, the call ends: with a path, or
with a `RuntimeError` and then there is a group of inputs, sharing no summed label with the others (and connected, without
`search_outer`), no tree of which respects the limit. (Missing: termination fails for the cost
models combo and limit, see `C22_diverges`, so that the English property is false of the code for these.) -/
theorem C22_dp_memory_partial {order : PopOrder} (ho : PopOK order) (cfg : DPCfg) (size : Nat → Nat) (limit : Option Nat) (inputs : List (Finset Nat)) (hne : inputs ≠ [])
    (output : Finset Nat) :
    (∀ fuel path, dpCall cfg order size limit inputs output fuel = some (.ok path) →
      ∃ t ts bs, DpResult cfg size limit inputs output path t ts bs ∧ ∀ b ∈ bs, Fits size (openLabels inputs output) limit b) ∧
    ((cfg.metric = .flops ∨ cfg.metric = .size ∨ cfg.metric = .write) → Positive cfg size → ∃ F, ∀ fuel, F ≤ fuel →
      (∃ path, dpCall cfg order size limit inputs output fuel = some (.ok path)) ∨
      dpCall cfg order size limit inputs output fuel = some (.error .runtime) ∧
        ∃ G : Finset Nat, G.Nonempty ∧ (∀ i ∈ G, i < inputs.length) ∧ (∀ i ∈ G, ∀ j, j < inputs.length → j ∉ G → ¬ Share inputs output i j) ∧
          (cfg.searchOuter = false → ∀ i ∈ G, ∀ j ∈ G, Chain inputs output G i j) ∧
          ∀ b : BTree, b.set = G → ¬ Allowed cfg.searchOuter size output (openLabels inputs output) limit b) := by
  constructor
  · intro fuel path hcall
    obtain ⟨t, ts, bs, h⟩ := dp_result ho hne hcall
    exact ⟨t, ts, bs, h, fun b hb => (h.groups b hb).allowed.2.2⟩
  · intro hm hpos
    obtain ⟨orig, done, h⟩ := dpParse_ok inputs output
    obtain ⟨naive, hn⟩ : ∃ naive, naiveCost cfg.metric size inputs output = WithTop.some naive := by
      unfold naiveCost
      rcases hm with hm | hm | hm <;> rw [hm] <;> exact ⟨_, rfl⟩
    have hend : ∀ G, Group cfg inputs output orig G → ∃ F, ∀ fuel, F ≤ fuel →
        (∃ e, dpSubgraph cfg size output limit (dpParse inputs output).inputs (dpParse inputs output).contractions
          (naiveCost cfg.metric size inputs output) fuel (order.list [] G) = some (.ok e)) ∨
        (∃ e, dpSubgraph cfg size output limit (dpParse inputs output).inputs (dpParse inputs output).contractions
          (naiveCost cfg.metric size inputs output) fuel (order.list [] G) = some (.error e)) ∧
          ∀ b : BTree, b.set = G.image (fun p => orig.getD p 0) → ¬ Allowed cfg.searchOuter size output (openLabels inputs output) limit b := by
      intro G hG
      obtain ⟨hnd, hset⟩ := order_set ho G
      have hcore := core_of_closed h cfg size limit hset hG.lt hG.closed
      by_cases hex : ∃ b, Candidate (ctxOf cfg size output limit (dpParse inputs output).inputs (order.list [] G)) G (legsOf inputs output orig) b
      · obtain ⟨b, hb⟩ := hex
        obtain ⟨F, hF⟩ := dpSubgraph_terminates (contractions := (dpParse inputs output).contractions) hcore hnd hset hG.card hpos.cap hb
          (naive_bound h hpos.1 hb.1.1 (by rw [hb.2]; exact hG.lt))
        exact ⟨F, fun fuel hf => Or.inl (hF fuel hf)⟩
      · obtain ⟨F, hF⟩ := dpSubgraph_fails (contractions := (dpParse inputs output).contractions) (naive := naive) hcore hnd hset hG.card hpos.cap
          (fun b hb => hex ⟨b, hb⟩)
        refine ⟨F, fun fuel hf => Or.inr ⟨⟨_, by rw [hn]; exact hF fuel hf⟩, ?_⟩⟩
        intro b hb hall
        obtain ⟨b0, h0, -⟩ := allowed_reduced (g := order.list [] G) h hG.lt hb hall
        exact hex ⟨b0, h0⟩
    obtain ⟨F, hF⟩ := dp_total (cfg := cfg) (size := size) (limit := limit) ho hne h (fun G h1 h2 h3 h4 h5 => by
      obtain ⟨F, hF⟩ := hend G ⟨h1, h2, h3, h4, h5⟩
      refine ⟨F, fun fuel hf => ?_⟩
      rcases hF fuel hf with ⟨e, he⟩ | ⟨⟨e, he⟩, -⟩ <;> exact ⟨_, he⟩)
    obtain ⟨F', hF'⟩ := groups_fuel hend
    refine ⟨max F F', fun fuel hf => ?_⟩
    rcases hF fuel (by omega) with hp | ⟨G, e, h1, h2, h3, h4, h5, h6, h7⟩
    · exact Or.inl hp
    · right
      have hG : Group cfg inputs output orig G := ⟨h1, h2, h3, h4, h5⟩
      rw [(dpSubgraph_error h6).1] at h7
      refine ⟨h7, G.image (fun p => orig.getD p 0), (hG.original h).1, (hG.original h).2.1, (hG.original h).2.2.1, (hG.original h).2.2.2, ?_⟩
      rcases hF' fuel (by omega) G hG with ⟨e', he'⟩ | ⟨-, hno⟩
      · rw [h6] at he'
        cases he'
      · exact hno

/-- **C22, the code never ends.** With the cost models combo and limit, a connected part of the network that has no
tree within the memory limit makes `DynamicProgramming` loop forever: no amount of fuel suffices. -/
theorem C22_diverges {order : PopOrder} (ho : PopOK order) {cfg : DPCfg} (hs : cfg.searchOuter = false)
    (hm : (∃ f, cfg.metric = .combo f) ∨ ∃ f, cfg.metric = .limit f) {size : Nat → Nat} {limit : Option Nat} {inputs : List (Finset Nat)} (hne : inputs ≠ [])
    {output G : Finset Nat} (hG : G.Nonempty) (hlt : ∀ i ∈ G, i < inputs.length)
    (hapart : ∀ i ∈ G, ∀ j, j < inputs.length → j ∉ G → ¬ Share inputs output i j) (hlink : ∀ i ∈ G, ∀ j ∈ G, Chain inputs output G i j)
    (hno : ∀ b : BTree, b.set = G → ¬ Allowed cfg.searchOuter size output (openLabels inputs output) limit b) (fuel : Nat) :
    dpCall cfg order size limit inputs output fuel = none := by
  cases hcall : dpCall cfg order size limit inputs output fuel with
  | none => rfl
  | some r =>
    exfalso
    cases r with
    | error e =>
      apply (dp_error ho hne hcall).2
      unfold naiveCost
      rcases hm with ⟨f, hm⟩ | ⟨f, hm⟩ <;> rw [hm]
    | ok path =>
      obtain ⟨t, ts, bs, h⟩ := dp_result ho hne hcall
      obtain ⟨b, hb, hbG⟩ := group_unique h hs hG hlt hapart hlink
      exact hno b hbG (h.groups b hb).allowed

/-! ## Examples and counterexamples -/

/-- Set orders for the examples: `pop` takes the largest element, iteration is in increasing order. -/
def ascendingPop : PopOrder := ⟨fun s => s.sup id, fun _ s => (List.range (s.sup id + 1)).filter (· ∈ s)⟩

theorem ascendingPop_ok : PopOK ascendingPop := by
  refine ⟨?_, ?_⟩
  · intro s hs
    obtain ⟨x, hx, he⟩ := Finset.exists_mem_eq_sup s (Finset.nonempty_iff_ne_empty.mpr hs) id
    show s.sup id ∈ s
    rw [he]
    exact hx
  · intro p s
    refine ⟨List.nodup_range.filter _, fun x => ?_⟩
    show x ∈ (List.range (s.sup id + 1)).filter (· ∈ s) ↔ x ∈ s
    rw [List.mem_filter, List.mem_range]
    constructor
    · intro h
      simpa using h.2
    · intro h
      exact ⟨Nat.lt_succ_of_le (Finset.le_sup (f := id) h), by simpa using h⟩

/-- A triangle with a summed lone label on its first input, all sizes 2, cost model flops: the hypotheses of
`C17_dp_complete_partial`, `C21_dp_cheapest` and `C22_dp_memory_partial` are met and a path with three steps (the sum over the lone label
comes first) is found. -/
example : PopOK ascendingPop ∧ Positive ⟨.flops, .increase, false⟩ (fun _ => 2) ∧
    dpCall ⟨.flops, .increase, false⟩ ascendingPop (fun _ => 2) (some 4) [{0, 1, 3}, {0, 2}, {1, 2}] ∅ 20 = some (.ok [[0], [0, 1], [0, 1]]) :=
  ⟨ascendingPop_ok, ⟨fun _ => Nat.zero_lt_two, fun n h => by cases h⟩, by decide +kernel⟩

/-- `C17_dp_complete_partial` fails for sizes of 0: for `ab,ab,z->z` with the size of `z` 0 and no memory limit the code raises
`RuntimeError("No contraction found for given `memory_limit`")`, as the naive cost, and with it the cost up to which the search goes, is 0. -/
theorem C17_counterexample : dpCall ⟨.flops, .increase, false⟩ ascendingPop (fun c => if c = 2 then 0 else 2) none [{0, 1}, {0, 1}, {2}] {2} 20 = some (.error .runtime) := by
  decide +kernel

/-- `C22_diverges` applies: `ab,ac->bc` with sizes 2, the cost model combo and a memory limit of 1. -/
example : ∀ fuel, dpCall ⟨.combo 64, .increase, false⟩ ascendingPop (fun _ => 2) (some 1) [{0, 1}, {0, 2}] {1, 2} fuel = none := by
  have hsh : Share [{0, 1}, {0, 2}] {1, 2} 0 1 := ⟨0, by decide, by decide, by decide⟩
  apply C22_diverges ascendingPop_ok rfl (Or.inl ⟨64, rfl⟩) (by simp) (G := {0, 1}) ⟨0, by simp⟩ (by simp)
  · intro i hi j hj hn
    exfalso
    apply hn
    have : j < 2 := hj
    have : j = 0 ∨ j = 1 := by omega
    simpa using this
  · have h0 : Chain [{0, 1}, {0, 2}] {1, 2} ({0, 1} : Finset Nat) 0 0 := .refl (by simp)
    have h1 : Chain [{0, 1}, {0, 2}] {1, 2} ({0, 1} : Finset Nat) 0 1 := .step h0 hsh (by simp)
    have h11 : Chain [{0, 1}, {0, 2}] {1, 2} ({0, 1} : Finset Nat) 1 1 := .refl (by simp)
    intro i hi j hj
    simp only [Finset.mem_insert, Finset.mem_singleton] at hi hj
    rcases hi with rfl | rfl <;> rcases hj with rfl | rfl
    · exact h0
    · exact h1
    · exact h1.symm
    · exact h11
  · intro b hb hall
    cases b with
    | leaf i =>
      have := congrArg Finset.card hb
      revert this
      simp [BTree.set, BTree.leaves]
    | node l r =>
      have h1 := hall.2.2.1 1 rfl
      have h2 : l.set ∪ r.set = {0, 1} := by
        rw [← hb]
        unfold BTree.set
        rw [BTree.leaves, List.toFinset_append]
      rw [h2] at h1
      exact absurd h1 (by decide +kernel)

end OE.Props
