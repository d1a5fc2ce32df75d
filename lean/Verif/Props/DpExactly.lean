import Verif.Lemmas.DpOutcome

/-!
# C79: exactly when `DynamicProgramming` returns a path, raises or never ends

The theorems of `Verif.Props.Dp2` need sizes of at least 1 and a positive cost cap, and leave the cost models `combo` and `limit` aside in part.
Here nothing is assumed.
-/

namespace OE.Props
open OE OE.Py OE.Spec OE.Paths

/-- A part of the network that is searched on its own: the inputs connected with each other by labels that are summed; with `search_outer`, all inputs
that have a label left after the sums over lone labels (or had none to begin with). -/
def IsPart (searchOuter : Bool) (inputs : List (Finset Nat)) (output G : Finset Nat) : Prop :=
  G.Nonempty ∧ (∀ i ∈ G, i < inputs.length) ∧
  match searchOuter with
  | true => ∀ i, i < inputs.length → (i ∈ G ↔ ¬ Lone inputs output i)
  | false => (∀ i ∈ G, ∀ j, j < inputs.length → j ∉ G → ¬ Share inputs output i j) ∧ ∀ i ∈ G, ∀ j ∈ G, Chain inputs output G i j

/-- The labels of the inputs in `G` that are not lone. -/
def partLabels (inputs : List (Finset Nat)) (output G : Finset Nat) : Finset Nat := G.biUnion (fun i => openLabels inputs output {i})

/-- The cost beyond which the search gives up: never with `combo`, `limit` and functions of the user. -/
def costBound (metric : Metric) (size : Nat → Nat) (inputs : List (Finset Nat)) (output : Finset Nat) : WithTop Nat :=
  match metric with
  | .combo _ => ⊤
  | .limit _ => ⊤
  | .custom _ => ⊤
  | _ => WithTop.some (inputs.length * ∏ c ∈ inputs.foldr (· ∪ ·) ∅ ∪ output, size c)

/-- The cost cap of round `k` for the part `G`. -/
def partCap (cfg : DPCfg) (size : Nat → Nat) (inputs : List (Finset Nat)) (output G : Finset Nat) (k : Nat) : WithTop Nat :=
  capAt (growth size (partLabels inputs output G)) (firstCap cfg.costCap size (partLabels inputs output G) output) k

/-- Some tree of the kind searched for, over the inputs in `G`, costs at most `cap`. -/
def Reaches (cfg : DPCfg) (size : Nat → Nat) (limit : Option Nat) (inputs : List (Finset Nat)) (output G : Finset Nat) (cap : WithTop Nat) : Prop :=
  ∃ b : BTree, b.set = G ∧ Allowed cfg.searchOuter size output (openLabels inputs output) limit b ∧
    WithTop.some (btCost cfg.metric size (openLabels inputs output) b) ≤ cap

/-- In some round there is a tree within the cost cap, and in no earlier round was the cap beyond the bound. -/
def Solved (cfg : DPCfg) (size : Nat → Nat) (limit : Option Nat) (inputs : List (Finset Nat)) (output G : Finset Nat) : Prop :=
  ∃ k, (∀ j, j < k → ¬ costBound cfg.metric size inputs output < partCap cfg size inputs output G j) ∧
    Reaches cfg size limit inputs output G (partCap cfg size inputs output G k)

/-- In some round the cost cap is beyond the bound and there is no tree within it. -/
def Refused (cfg : DPCfg) (size : Nat → Nat) (limit : Option Nat) (inputs : List (Finset Nat)) (output G : Finset Nat) : Prop :=
  ∃ k, costBound cfg.metric size inputs output < partCap cfg size inputs output G k ∧
    ¬ Reaches cfg size limit inputs output G (partCap cfg size inputs output G k)

section
variable {cfg : DPCfg} {size : Nat → Nat} {limit : Option Nat} {inputs : List (Finset Nat)} {output : Finset Nat} {orig done : List Nat}

theorem costBound_eq : costBound cfg.metric size inputs output = naiveCost cfg.metric size inputs output := by
  unfold costBound naiveCost
  cases cfg.metric <;> rfl

theorem Reaches.mono {G : Finset Nat} {cap cap' : WithTop Nat} (h : Reaches cfg size limit inputs output G cap) (hle : cap ≤ cap') :
    Reaches cfg size limit inputs output G cap' := h.elim (fun b hb => ⟨b, hb.1, hb.2.1, hb.2.2.trans hle⟩)

theorem partCap_mono {G : Finset Nat} {j k : Nat} (h : j ≤ k) : partCap cfg size inputs output G j ≤ partCap cfg size inputs output G k :=
  capAt_mono (two_le_growth _ _) _ h

theorem solved_not_refused {G : Finset Nat} (h : Solved cfg size limit inputs output G) : ¬ Refused cfg size limit inputs output G := by
  obtain ⟨k, h1, h2⟩ := h
  rintro ⟨m, h3, h4⟩
  have hkm : k ≤ m := by
    by_contra hlt
    exact h1 m (by omega) h3
  exact h4 (h2.mono (partCap_mono hkm))

theorem single_reaches (i : Nat) (cap : WithTop Nat) : Reaches cfg size limit inputs output {i} cap := by
  refine ⟨.leaf i, BTree.set_leaf i, ⟨by simp [BTree.leaves], fun _ => trivial, trivial⟩, ?_⟩
  cases cap with
  | top => exact le_top
  | coe c => exact WithTop.coe_le_coe.mpr (Nat.zero_le c)

theorem single_solved (i : Nat) : Solved cfg size limit inputs output {i} := ⟨0, fun j hj => by omega, single_reaches i _⟩

/-! ## From the numbering of the search to that of the inputs -/

theorem within_iff (h : ParseOK inputs output orig done) {g : List Nat} {G : Finset Nat} (hG : ∀ p ∈ G, p < orig.length) (cap : WithTop Nat) :
    Within (ctxOf cfg size output limit (dpParse inputs output).inputs g) G (legsOf inputs output orig) cap ↔
      Reaches cfg size limit inputs output (G.image (fun p => orig.getD p 0)) cap := by
  constructor
  · rintro ⟨b, ⟨⟨hnd, hno, hfit⟩, hset⟩, hle⟩
    have hleaf : ∀ p ∈ b.leaves, p < orig.length := by
      intro p hp
      apply hG
      rw [← hset]
      exact List.mem_toFinset.mpr hp
    refine ⟨BTree.rename (fun p => orig.getD p 0) b, by rw [rename_set, hset], ⟨?_, ?_, ?_⟩, ?_⟩
    · rw [rename_leaves]
      apply hnd.map_on
      intro x hx y hy he
      exact h.inj (hleaf x hx) (hleaf y hy) he
    · intro hs
      rw [rename_noOuter]
      exact hno hs
    · rw [rename_fits]
      exact hfit
    · rw [rename_cost]
      exact hle
  · rintro ⟨b', hset, hall, hle⟩
    obtain ⟨b, hb, hbb⟩ := allowed_reduced (g := g) h hG hset hall
    refine ⟨b, hb, ?_⟩
    rw [← hbb, rename_cost] at hle
    exact hle

theorem labels_eq (G : Finset Nat) : G.biUnion (fun j => legsOf inputs output orig {j}) = partLabels inputs output (G.image (fun p => orig.getD p 0)) := by
  unfold partLabels legsOf
  rw [Finset.image_biUnion]
  simp only [Finset.image_singleton]

theorem subSolved_iff (h : ParseOK inputs output orig done) {g : List Nat} {G : Finset Nat} (hG : ∀ p ∈ G, p < orig.length) :
    SubSolved cfg size output limit (dpParse inputs output).inputs g (naiveCost cfg.metric size inputs output) G (legsOf inputs output orig)
      (G.biUnion (fun j => legsOf inputs output orig {j})) ↔ Solved cfg size limit inputs output (G.image (fun p => orig.getD p 0)) := by
  unfold SubSolved Solved partCap
  simp only [labels_eq, within_iff h hG, costBound_eq]

theorem subRefused_iff (h : ParseOK inputs output orig done) {g : List Nat} {G : Finset Nat} (hG : ∀ p ∈ G, p < orig.length) :
    SubRefused cfg size output limit (dpParse inputs output).inputs g (naiveCost cfg.metric size inputs output) G (legsOf inputs output orig)
      (G.biUnion (fun j => legsOf inputs output orig {j})) ↔ Refused cfg size limit inputs output (G.image (fun p => orig.getD p 0)) := by
  unfold SubRefused Refused partCap
  simp only [labels_eq, within_iff h hG, costBound_eq]

/-! ## The parts are the groups -/

theorem kept_iff (h : ParseOK inputs output orig done) {i : Nat} (hi : i < inputs.length) : i ∈ orig ↔ ¬ Lone inputs output i := by
  have hm : i ∈ orig ++ done := h.perm.mem_iff.mpr (List.mem_range.mpr hi)
  constructor
  · rintro ho ⟨h1, h2⟩
    exact h2 (h.kept i ho h1)
  · intro hn
    rcases List.mem_append.mp hm with ho | hd
    · exact ho
    · exact absurd (h.lone i hd) hn

theorem image_range (orig : List Nat) (x : Nat) : x ∈ (Finset.range orig.length).image (fun p => orig.getD p 0) ↔ x ∈ orig := by
  rw [Finset.mem_image]
  constructor
  · rintro ⟨p, hp, rfl⟩
    exact getD_mem (Finset.mem_range.mp hp)
  · intro hx
    obtain ⟨p, hp, he⟩ := List.mem_iff_getElem.mp hx
    refine ⟨p, Finset.mem_range.mpr hp, ?_⟩
    rw [List.getD_eq_getElem?_getD, List.getElem?_eq_getElem hp]
    exact he

theorem group_isPart (h : ParseOK inputs output orig done) {G : Finset Nat} (hG : Group cfg inputs output orig G) :
    IsPart cfg.searchOuter inputs output (G.image (fun p => orig.getD p 0)) := by
  obtain ⟨h1, h2, h3, h4⟩ := hG.original h
  refine ⟨h1, h2, ?_⟩
  cases hs : cfg.searchOuter with
  | true =>
    intro i hi
    rw [hG.all hs, image_range]
    exact kept_iff h hi
  | false => exact ⟨h3, h4 hs⟩

theorem chain_stays {A B : Finset Nat} (hA : ∀ j ∈ A, j < inputs.length) (hB : ∀ i ∈ B, ∀ j, j < inputs.length → j ∉ B → ¬ Share inputs output i j)
    {i j : Nat} (hch : Chain inputs output A i j) (hi : i ∈ B) : j ∈ B := by
  induction hch with
  | refl _ => exact hi
  | step h1 h2 h3 ih =>
    by_contra hn
    exact hB _ ih _ (hA _ h3) hn h2

/-- The groups, as found by the code, with what is known of them. -/
theorem groups_are {order : PopOrder} (ho : PopOK order) (h : ParseOK inputs output orig done) (hP : (dpParse inputs output).inputs ≠ []) :
    ∃ gs, dpGroups cfg order (dpParse inputs output).inputs output = some (.ok gs) ∧ GroupsOK cfg.searchOuter (dpParse inputs output).inputs output gs ∧
      ∀ G ∈ gs, Group cfg inputs output orig G := by
  obtain ⟨gs, hg, hgs⟩ := dpGroups_ok ho cfg hP output
  refine ⟨gs, hg, hgs, fun G hG => ⟨fun p hp => h.length ▸ hgs.lt G hG p hp, hgs.nonempty G hG, hgs.closed G hG, ?_, fun hs => hgs.chain hs G hG⟩⟩
  intro hs
  unfold dpGroups at hg
  rw [if_pos hs] at hg
  cases hg
  rw [List.mem_singleton] at hG
  rw [hG, h.length]

/-- A part is one of the groups, or a single input that has only lone labels. -/
theorem part_is_group (h : ParseOK inputs output orig done) {gs : List (Finset Nat)} (hgs : (dpParse inputs output).inputs ≠ [] →
      GroupsOK cfg.searchOuter (dpParse inputs output).inputs output gs ∧ ∀ G ∈ gs, Group cfg inputs output orig G)
    {A : Finset Nat} (hA : IsPart cfg.searchOuter inputs output A) :
    ((dpParse inputs output).inputs ≠ [] ∧ ∃ G ∈ gs, G.image (fun p => orig.getD p 0) = A) ∨ ∃ i, A = {i} := by
  obtain ⟨⟨i, hi⟩, hlt, hA'⟩ := hA
  have hcover : ∀ i ∈ orig, (dpParse inputs output).inputs ≠ [] ∧
      ((dpParse inputs output).inputs ≠ [] → ∃ G ∈ gs, i ∈ G.image (fun p => orig.getD p 0)) := by
    intro i hi
    obtain ⟨p, hp, he⟩ := List.mem_iff_getElem.mp hi
    refine ⟨fun h0 => ?_, fun hP => ?_⟩
    · have := h.length
      rw [h0] at this
      rw [List.length_nil] at this
      omega
    · obtain ⟨G, hG, hpG⟩ := (hgs hP).1.cover p (by rw [h.length]; exact hp)
      refine ⟨G, hG, Finset.mem_image.mpr ⟨p, hpG, ?_⟩⟩
      rw [List.getD_eq_getElem?_getD, List.getElem?_eq_getElem hp]
      exact he
  cases hs : cfg.searchOuter with
  | true =>
    rw [hs] at hA'
    have hio : i ∈ orig := (kept_iff h (hlt i hi)).mpr ((hA' i (hlt i hi)).mp hi)
    obtain ⟨hP, hG⟩ := hcover i hio
    obtain ⟨G, hG, hiG⟩ := hG hP
    refine Or.inl ⟨hP, G, hG, ?_⟩
    rw [((hgs hP).2 G hG).all hs]
    ext x
    rw [image_range]
    constructor
    · intro hx
      exact (hA' x (h.lt hx)).mpr ((kept_iff h (h.lt hx)).mp hx)
    · intro hx
      exact (kept_iff h (hlt x hx)).mpr ((hA' x (hlt x hx)).mp hx)
  | false =>
    rw [hs] at hA'
    obtain ⟨hap, hch⟩ := hA'
    have hm : i ∈ orig ++ done := h.perm.mem_iff.mpr (List.mem_range.mpr (hlt i hi))
    rcases List.mem_append.mp hm with hio | hid
    · obtain ⟨hP, hG⟩ := hcover i hio
      obtain ⟨G, hG, hiG⟩ := hG hP
      obtain ⟨-, k2, k3, k4⟩ := ((hgs hP).2 G hG).original h
      refine Or.inl ⟨hP, G, hG, Finset.Subset.antisymm ?_ ?_⟩
      · intro j hj
        exact chain_stays k2 hap (k4 hs i hiG j hj) hi
      · intro j hj
        exact chain_stays hlt k3 (hch i hi j hj) hiG
    · have hl := (lone_result (cfg := cfg) (size := fun _ => 0) (limit := none) h hid).apart
      rw [BTree.set_leaf] at hl
      refine Or.inr ⟨i, Finset.Subset.antisymm ?_ (by simpa using hi)⟩
      intro j hj
      exact chain_stays hlt hl (hch i hi j hj) (Finset.mem_singleton_self i)

/-! ## What the call tells about the parts -/

theorem call_ok {order : PopOrder} (ho : PopOK order) {fuel : Nat} {path : Path}
    (hcall : dpCall cfg order size limit inputs output fuel = some (.ok path)) {A : Finset Nat} (hA : IsPart cfg.searchOuter inputs output A) :
    Solved cfg size limit inputs output A := by
  obtain ⟨orig, done, h⟩ := dpParse_ok inputs output
  by_cases hP : (dpParse inputs output).inputs = []
  · rcases part_is_group (gs := []) h (fun hn => absurd hP hn) hA with ⟨hn, -⟩ | ⟨i, rfl⟩
    · exact absurd hP hn
    · exact single_solved i
  · obtain ⟨gs, hg, hgs, hgr⟩ := groups_are (cfg := cfg) ho h hP
    rcases part_is_group h (fun _ => ⟨hgs, hgr⟩) hA with ⟨-, G, hG, rfl⟩ | ⟨i, rfl⟩
    · unfold dpCall at hcall
      simp only at hcall
      rw [if_neg hP, hg] at hcall
      simp only at hcall
      split at hcall
      · cases hcall
      · cases hcall
      · rename_i l hl
        obtain ⟨es, hes, -⟩ := dpSubgraphs_ok hl
        obtain ⟨e, -, he⟩ := forall₂_mem hes (List.mem_map.mpr ⟨G, hG, rfl⟩)
        have hgG := hgr G hG
        obtain ⟨hnd, hset⟩ := order_set ho G
        have hcore := core_of_closed h cfg size limit hset hgG.lt hgG.closed
        exact (subSolved_iff h hgG.lt).mp ((dpSubgraph_solved hcore hnd hset hgG.card).2 _ _ he)
    · exact single_solved i

theorem call_error {order : PopOrder} (ho : PopOK order) (hne : inputs ≠ []) {fuel : Nat} {e : PyErr}
    (hcall : dpCall cfg order size limit inputs output fuel = some (.error e)) :
    e = .runtime ∧ ∃ A, IsPart cfg.searchOuter inputs output A ∧ Refused cfg size limit inputs output A := by
  refine ⟨(dp_error ho hne hcall).1, ?_⟩
  obtain ⟨orig, done, h⟩ := dpParse_ok inputs output
  unfold dpCall at hcall
  simp only at hcall
  split at hcall
  · rename_i hP
    obtain ⟨path', t, ts, bs, -, h2, h3⟩ := only_scalars (cfg := cfg) (size := size) (limit := limit) h hne hP
    cases h2 _ _ hcall
  · rename_i hP
    obtain ⟨gs, hg, hgs, hgr⟩ := groups_are (cfg := cfg) ho h hP
    rw [hg] at hcall
    simp only at hcall
    split at hcall
    · cases hcall
    · rename_i e' hl
      obtain ⟨g, hgm, he⟩ := dpSubgraphs_error hl
      obtain ⟨G, hG, rfl⟩ := List.mem_map.mp hgm
      have hgG := hgr G hG
      obtain ⟨hnd, hset⟩ := order_set ho G
      have hcore := core_of_closed h cfg size limit hset hgG.lt hgG.closed
      exact ⟨_, group_isPart h hgG, (subRefused_iff h hgG.lt).mp ((dpSubgraph_refused hcore hnd hset hgG.card).2 _ _ he)⟩
    · rename_i l hl
      obtain ⟨path', t, ts, bs, -, h2, h3⟩ := some_groups h ho hP hgs hl
      cases h2 _ _ hcall

/-! ## A part whose output has no elements is solved at once -/

/-- Whatever part of `A` a tree covers, one more input of `A` can be added. -/
theorem part_grows {A : Finset Nat} (hA : IsPart cfg.searchOuter inputs output A) {S : Finset Nat} (hS : S ⊆ A) (hne : S.Nonempty) (hSA : S ≠ A) :
    ∃ k ∈ A, k ∉ S ∧ (cfg.searchOuter = false → ∃ c, c ∈ openLabels inputs output S ∧ c ∈ openLabels inputs output {k} ∧ c ∉ output) := by
  obtain ⟨-, hlt, hA'⟩ := hA
  obtain ⟨k, hk, hkS⟩ := Finset.exists_of_ssubset (Finset.ssubset_iff_subset_ne.mpr ⟨hS, hSA⟩)
  cases hs : cfg.searchOuter with
  | true => exact ⟨k, hk, hkS, fun hh => absurd hh (by simp)⟩
  | false =>
    rw [hs] at hA'
    obtain ⟨i, hi⟩ := hne
    obtain ⟨a, b, ha, hb, hbS, c, hca, hcb, hco⟩ := chain_cross (hA'.2 i (hS hi) k hk) hi hkS
    refine ⟨b, hb, hbS, fun _ => ⟨c, ?_, ?_, hco⟩⟩
    · rw [mem_openLabels]
      exact ⟨⟨a, ha, hca⟩, Or.inr ⟨b, hlt b hb, hbS, hcb⟩⟩
    · rw [mem_openLabels]
      refine ⟨⟨b, Finset.mem_singleton_self b, hcb⟩, Or.inr ⟨a, hlt a (hS ha), ?_, hca⟩⟩
      rw [Finset.mem_singleton]
      rintro rfl
      exact hbS ha

theorem stepCost_zero {metric : Metric} (hm : Named metric) : stepCost metric 0 0 0 0 = 0 := by
  cases metric with
  | custom fn => exact absurd rfl (hm fn)
  | _ => simp [stepCost]

theorem empty_output_tree (hm : Named cfg.metric) {A : Finset Nat} (hA : IsPart cfg.searchOuter inputs output A) {z i : Nat} (hi : i ∈ A) (hz : z ∈ inputs.getD i ∅) (hzo : z ∈ output)
    (hz0 : size z = 0) : Reaches cfg size limit inputs output A (WithTop.some 0) := by
  have hprod : ∀ S : Finset Nat, z ∈ S → ∏ c ∈ S, size c = 0 := fun S hS => Finset.prod_eq_zero hS hz0
  have hopen : ∀ S : Finset Nat, i ∈ S → z ∈ openLabels inputs output S := by
    intro S hS
    rw [mem_openLabels]
    exact ⟨⟨i, hS, hz⟩, Or.inl hzo⟩
  have grow : ∀ k, k + 1 ≤ A.card → ∃ b : BTree, Allowed cfg.searchOuter size output (openLabels inputs output) limit b ∧ b.set ⊆ A ∧ i ∈ b.set ∧
      b.leaves.length = k + 1 ∧ btCost cfg.metric size (openLabels inputs output) b = 0 := by
    intro k
    induction k with
    | zero =>
      intro _
      refine ⟨.leaf i, ⟨by simp [BTree.leaves], fun _ => trivial, trivial⟩, ?_, ?_, rfl, rfl⟩
      · rw [BTree.set_leaf]
        simpa using hi
      · rw [BTree.set_leaf]
        simp
    | succ k ih =>
      intro hk
      obtain ⟨b, h1, h2, h3, h4, h5⟩ := ih (by omega)
      have hcard : b.set.card = k + 1 := by rw [set_card b h1.1, h4]
      obtain ⟨j, hj, hjb, hc⟩ := part_grows hA h2 (BTree.set_nonempty b) (by intro he; rw [he] at hcard; omega)
      refine ⟨.node b (.leaf j), ?_, ?_, ?_, ?_, ?_⟩
      · rw [allowed_node]
        refine ⟨h1, ⟨by simp [BTree.leaves], fun _ => trivial, trivial⟩, ?_, ?_, ?_⟩
        · rw [BTree.set_leaf]
          simpa using hjb
        · rw [BTree.set_leaf]
          exact hc
        · intro m _
          rw [hprod _ (hopen _ (Finset.mem_union_left _ h3))]
          exact Nat.zero_le m
      · rw [BTree.set_node, BTree.set_leaf]
        exact Finset.union_subset h2 (by simpa using hj)
      · rw [BTree.set_node]
        exact Finset.mem_union_left _ h3
      · rw [BTree.leaves, List.length_append, h4]
        rfl
      · rw [btCost, hprod _ (hopen _ (Finset.mem_union_left _ h3)), hprod _ (Finset.mem_union_left _ (hopen _ h3)), h5]
        exact stepCost_zero hm
  have hpos : 0 < A.card := Finset.card_pos.mpr ⟨i, hi⟩
  obtain ⟨b, h1, h2, h3, h4, h5⟩ := grow (A.card - 1) (by omega)
  refine ⟨b, ?_, h1, ?_⟩
  · apply Finset.eq_of_subset_of_card_le h2
    rw [set_card b h1.1, h4]
    omega
  · rw [h5]

theorem firstCap_reached (hm : Named cfg.metric) {A : Finset Nat} (hA : IsPart cfg.searchOuter inputs output A) (hc : cfg.costCap = .increase)
    (h0 : ∏ c ∈ partLabels inputs output A ∩ output, size c = 0) : Solved cfg size limit inputs output A := by
  obtain ⟨z, hz, hz0⟩ := Finset.prod_eq_zero_iff.mp h0
  rw [Finset.mem_inter] at hz
  obtain ⟨i, hi, hzi⟩ := Finset.mem_biUnion.mp hz.1
  rw [mem_openLabels] at hzi
  obtain ⟨⟨i', hi', hzi'⟩, -⟩ := hzi
  rw [Finset.mem_singleton] at hi'
  subst hi'
  refine ⟨0, fun j hj => by omega, ?_⟩
  unfold partCap
  rw [capAt_zero]
  unfold firstCap
  rw [hc]
  simp only
  rw [h0]
  exact empty_output_tree hm hA hi hzi' hz.2 hz0

/-- If some part is refused, the search of every part ends. -/
theorem refused_all_end {A B : Finset Nat} (hA : Refused cfg size limit inputs output A) (hB : IsPart cfg.searchOuter inputs output B) :
    Solved cfg size limit inputs output B ∨ Refused cfg size limit inputs output B := by
  obtain ⟨k, hk, -⟩ := hA
  obtain ⟨n, hn⟩ : ∃ n, costBound cfg.metric size inputs output = WithTop.some n := by
    cases hb : costBound cfg.metric size inputs output with
    | top => rw [hb] at hk; exact absurd hk not_top_lt
    | coe n => exact ⟨n, rfl⟩
  by_cases h0 : firstCap cfg.costCap size (partLabels inputs output B) output = WithTop.some 0
  · cases hc : cfg.costCap with
    | off => rw [hc] at h0; cases h0
    | fixed m =>
      rw [hc] at h0
      unfold firstCap at h0
      cases h0
      unfold partCap at hk
      rw [hc, hn] at hk
      simp only [firstCap, capAt, Nat.mul_zero] at hk
      exact absurd (WithTop.coe_lt_coe.mp hk) (by omega)
    | increase =>
      left
      rw [hc] at h0
      apply firstCap_reached ?_ hB hc
      · unfold firstCap at h0
        exact WithTop.coe_injective h0
      · intro fn hfn
        unfold costBound at hn
        rw [hfn] at hn
        cases hn
  · obtain ⟨m, hm⟩ := capAt_exceeds (two_le_growth size (partLabels inputs output B)) h0 n
    by_cases hr : Reaches cfg size limit inputs output B (partCap cfg size inputs output B m)
    · classical
      have hex : ∃ m, Reaches cfg size limit inputs output B (partCap cfg size inputs output B m) := ⟨m, hr⟩
      by_cases hstop : ∃ j, j < Nat.find hex ∧ costBound cfg.metric size inputs output < partCap cfg size inputs output B j
      · obtain ⟨j, hj, hj'⟩ := hstop
        exact Or.inr ⟨j, hj', Nat.find_min hex hj⟩
      · exact Or.inl ⟨Nat.find hex, fun j hj hj' => hstop ⟨j, hj, hj'⟩, Nat.find_spec hex⟩
    · exact Or.inr ⟨m, by rw [hn]; exact hm, hr⟩

end

/-- **C79.** Whatever the inputs, output, sizes (0 allowed), cost model, `search_outer`, cost cap (0 allowed), memory limit and set orders:
`DynamicProgramming` ends with a path exactly if every part of the network is solved, that is, has a tree of the kind searched for that comes within the
growing cost cap before that cap is beyond `len(inputs)` times the product of all sizes (with `combo`, `limit` and functions of the user that are written like these: at all); it raises a `RuntimeError` exactly if some part
is refused, that is, has no such tree when the cap is beyond that bound; and it never ends otherwise. -/
theorem C79_dp_outcome {order : PopOrder} (ho : PopOK order) (cfg : DPCfg) (size : Nat → Nat) (limit : Option Nat) (inputs : List (Finset Nat)) (hne : inputs ≠ [])
    (output : Finset Nat) :
    ((∀ G, IsPart cfg.searchOuter inputs output G → Solved cfg size limit inputs output G) →
      ∃ F, ∀ fuel, F ≤ fuel → ∃ path, dpCall cfg order size limit inputs output fuel = some (.ok path)) ∧
    ((∃ G, IsPart cfg.searchOuter inputs output G ∧ Refused cfg size limit inputs output G) →
      ∃ F, ∀ fuel, F ≤ fuel → dpCall cfg order size limit inputs output fuel = some (.error .runtime)) ∧
    ((¬ ∀ G, IsPart cfg.searchOuter inputs output G → Solved cfg size limit inputs output G) →
      (¬ ∃ G, IsPart cfg.searchOuter inputs output G ∧ Refused cfg size limit inputs output G) →
      ∀ fuel, dpCall cfg order size limit inputs output fuel = none) := by
  obtain ⟨orig, done, h⟩ := dpParse_ok inputs output
  have hgroup : ∀ G, Group cfg inputs output orig G →
      (Solved cfg size limit inputs output (G.image (fun p => orig.getD p 0)) → ∃ F, ∀ fuel, F ≤ fuel →
        ∃ r, dpSubgraph cfg size output limit (dpParse inputs output).inputs (dpParse inputs output).contractions
          (naiveCost cfg.metric size inputs output) fuel (order.list [] G) = some r) ∧
      (Refused cfg size limit inputs output (G.image (fun p => orig.getD p 0)) → ∃ F, ∀ fuel, F ≤ fuel →
        ∃ r, dpSubgraph cfg size output limit (dpParse inputs output).inputs (dpParse inputs output).contractions
          (naiveCost cfg.metric size inputs output) fuel (order.list [] G) = some r) := by
    intro G hG
    obtain ⟨hnd, hset⟩ := order_set ho G
    have hcore := core_of_closed h cfg size limit hset hG.lt hG.closed
    constructor
    · intro hs
      obtain ⟨F, hF⟩ := (dpSubgraph_solved (contractions := (dpParse inputs output).contractions) hcore hnd hset hG.card).1 ((subSolved_iff h hG.lt).mpr hs)
      exact ⟨F, fun fuel hf => (hF fuel hf).elim (fun e he => ⟨_, he⟩)⟩
    · intro hs
      obtain ⟨F, hF⟩ := (dpSubgraph_refused (contractions := (dpParse inputs output).contractions) hcore hnd hset hG.card).1 ((subRefused_iff h hG.lt).mpr hs)
      exact ⟨F, fun fuel hf => ⟨_, hF fuel hf⟩⟩
  refine ⟨?_, ?_, ?_⟩
  · intro hall
    obtain ⟨F, hF⟩ := dp_total (cfg := cfg) (size := size) (limit := limit) ho hne h (fun G h1 h2 h3 h4 h5 =>
      (hgroup G ⟨h1, h2, h3, h4, h5⟩).1 (hall _ (group_isPart h ⟨h1, h2, h3, h4, h5⟩)))
    refine ⟨F, fun fuel hf => ?_⟩
    rcases hF fuel hf with hp | ⟨G, e, -, -, -, -, -, -, he⟩
    · exact hp
    · obtain ⟨-, A, hA, hR⟩ := call_error ho hne he
      exact absurd hR (solved_not_refused (hall A hA))
  · rintro ⟨A, hA, hR⟩
    obtain ⟨F, hF⟩ := dp_total (cfg := cfg) (size := size) (limit := limit) ho hne h (fun G h1 h2 h3 h4 h5 => by
      rcases refused_all_end hR (group_isPart h (⟨h1, h2, h3, h4, h5⟩ : Group cfg inputs output orig G)) with hs | hs
      · exact (hgroup G ⟨h1, h2, h3, h4, h5⟩).1 hs
      · exact (hgroup G ⟨h1, h2, h3, h4, h5⟩).2 hs)
    refine ⟨F, fun fuel hf => ?_⟩
    rcases hF fuel hf with ⟨path, hp⟩ | ⟨G, e, -, -, -, -, -, -, he⟩
    · exact absurd hR (solved_not_refused (call_ok ho hp hA))
    · rw [he, (call_error ho hne he).1]
  · intro hns hnr fuel
    cases hcall : dpCall cfg order size limit inputs output fuel with
    | none => rfl
    | some r =>
      cases r with
      | ok path => exact absurd (fun G hG => call_ok ho hcall hG) hns
      | error e => exact absurd (call_error ho hne hcall).2 hnr

/-! ## Corollaries -/

section
variable {cfg : DPCfg} {size : Nat → Nat} {limit : Option Nat} {inputs : List (Finset Nat)} {output : Finset Nat}

/-- All labels of the expression. -/
def allLabels (inputs : List (Finset Nat)) (output : Finset Nat) : Finset Nat := inputs.foldr (· ∪ ·) ∅ ∪ output

theorem openLabels_subset (S : Finset Nat) : openLabels inputs output S ⊆ allLabels inputs output := by
  intro c hc
  rw [mem_openLabels] at hc
  obtain ⟨⟨i, -, hi⟩, -⟩ := hc
  apply Finset.mem_union_left
  rw [mem_unionList]
  rw [List.getD_eq_getElem?_getD] at hi
  cases hg : inputs[i]? with
  | none => rw [hg] at hi; simp at hi
  | some s =>
    rw [hg] at hi
    exact ⟨s, List.mem_of_getElem? hg, hi⟩

theorem btCost_congr {metric : Metric} {size size' : Nat → Nat} {L : Finset Nat → Finset Nat} (h : ∀ S, ∀ c ∈ L S, size c = size' c) (b : BTree) :
    btCost metric size L b = btCost metric size' L b := by
  induction b with
  | leaf _ => rfl
  | node l r ihl ihr =>
    rw [btCost, btCost, ihl, ihr]
    congr 1
    · apply Finset.prod_congr rfl
      intro c hc
      rcases Finset.mem_union.mp hc with hc | hc
      · exact h _ c hc
      · exact h _ c hc
    · exact Finset.prod_congr rfl (h _)

/-- No tree costs more than the bound if all sizes are positive. -/
theorem cost_within_bound (hpos : ∀ c ∈ allLabels inputs output, 0 < size c) {b : BTree} (hnd : b.leaves.Nodup) (hlt : ∀ i ∈ b.set, i < inputs.length) :
    WithTop.some (btCost cfg.metric size (openLabels inputs output) b) ≤ costBound cfg.metric size inputs output := by
  have hlen : b.leaves.length ≤ inputs.length := by
    rw [← set_card b hnd]
    have h1 : b.set ⊆ Finset.range inputs.length := fun i hi => Finset.mem_range.mpr (hlt i hi)
    have h2 := Finset.card_le_card h1
    rwa [Finset.card_range] at h2
  have hfin : ∀ m : Metric, (m = .flops ∨ m = .size ∨ m = .write) →
      btCost m size (openLabels inputs output) b ≤ inputs.length * ∏ c ∈ allLabels inputs output, size c := by
    intro m hm
    have hcongr : ∀ c ∈ allLabels inputs output, size c = (fun c => max (size c) 1) c := by
      intro c hc
      have := hpos c hc
      show size c = max (size c) 1
      omega
    rw [btCost_congr (size' := fun c => max (size c) 1) (fun S c hc => hcongr c (openLabels_subset S hc)), Finset.prod_congr rfl hcongr]
    refine (cost_le_naive hm (fun c => ?_) openLabels_subset b).trans (Nat.mul_le_mul_right _ (by omega))
    show 0 < max (size c) 1
    omega
  unfold costBound
  cases cfg.metric with
  | flops => exact WithTop.coe_le_coe.mpr (hfin _ (Or.inl rfl))
  | size => exact WithTop.coe_le_coe.mpr (hfin _ (Or.inr (Or.inl rfl)))
  | write => exact WithTop.coe_le_coe.mpr (hfin _ (Or.inr (Or.inr rfl)))
  | combo f => exact le_top
  | limit f => exact le_top
  | custom fn => exact le_top

/-- A tree within the bound is found, if the cost cap grows. -/
theorem solved_of_tree {A : Finset Nat} (h0 : firstCap cfg.costCap size (partLabels inputs output A) output ≠ WithTop.some 0) {b : BTree} (hb : b.set = A)
    (hall : Allowed cfg.searchOuter size output (openLabels inputs output) limit b)
    (hle : WithTop.some (btCost cfg.metric size (openLabels inputs output) b) ≤ costBound cfg.metric size inputs output) :
    Solved cfg size limit inputs output A := by
  classical
  obtain ⟨m, hm⟩ := capAt_exceeds (two_le_growth size (partLabels inputs output A)) h0 (btCost cfg.metric size (openLabels inputs output) b)
  have hex : ∃ m, Reaches cfg size limit inputs output A (partCap cfg size inputs output A m) := ⟨m, b, hb, hall, le_of_lt hm⟩
  refine ⟨Nat.find hex, fun j hj hj' => ?_, Nat.find_spec hex⟩
  exact Nat.find_min hex hj ⟨b, hb, hall, le_of_lt (lt_of_le_of_lt hle hj')⟩

theorem positive_firstCap (hpos : Positive cfg size) (A : Finset Nat) : firstCap cfg.costCap size (partLabels inputs output A) output ≠ WithTop.some 0 := by
  unfold firstCap
  cases hc : cfg.costCap with
  | increase =>
    intro h
    have := WithTop.coe_injective h
    have h1 : 0 < ∏ c ∈ partLabels inputs output A ∩ output, size c := Finset.prod_pos (fun c _ => hpos.1 c)
    omega
  | off => exact WithTop.top_ne_coe
  | fixed n =>
    intro h
    have := WithTop.coe_injective h
    have := hpos.2 n hc
    omega

end

/-- **C79, positive sizes.** If all sizes are at least 1 and the cost cap is not the number 0: `DynamicProgramming` returns a path exactly if every part of the
network has a tree of the kind searched for that respects the memory limit. Otherwise it raises a `RuntimeError` with the cost models flops, size and write, and
never ends with combo, limit and functions of the user that are written like these. -/
theorem C79_positive {order : PopOrder} (ho : PopOK order) {cfg : DPCfg} {size : Nat → Nat} (hpos : Positive cfg size) (limit : Option Nat)
    (inputs : List (Finset Nat)) (hne : inputs ≠ []) (output : Finset Nat) :
    ((∀ G, IsPart cfg.searchOuter inputs output G → ∃ b : BTree, b.set = G ∧ Allowed cfg.searchOuter size output (openLabels inputs output) limit b) →
      ∃ F, ∀ fuel, F ≤ fuel → ∃ path, dpCall cfg order size limit inputs output fuel = some (.ok path)) ∧
    ((∃ G, IsPart cfg.searchOuter inputs output G ∧ ∀ b : BTree, b.set = G → ¬ Allowed cfg.searchOuter size output (openLabels inputs output) limit b) →
      ((cfg.metric = .flops ∨ cfg.metric = .size ∨ cfg.metric = .write) →
        ∃ F, ∀ fuel, F ≤ fuel → dpCall cfg order size limit inputs output fuel = some (.error .runtime)) ∧
      (((∃ f, cfg.metric = .combo f) ∨ (∃ f, cfg.metric = .limit f) ∨ ∃ fn, cfg.metric = .custom fn) → ∀ fuel, dpCall cfg order size limit inputs output fuel = none)) := by
  obtain ⟨h1, h2, h3⟩ := C79_dp_outcome ho cfg size limit inputs hne output
  constructor
  · intro hall
    apply h1
    intro G hG
    obtain ⟨b, hb, hb'⟩ := hall G hG
    exact solved_of_tree (positive_firstCap hpos G) hb hb' (cost_within_bound (fun c _ => hpos.1 c) hb'.1 (by rw [hb]; exact hG.2.1))
  · rintro ⟨G, hG, hno⟩
    have hnr : ∀ cap, ¬ Reaches cfg size limit inputs output G cap := by
      rintro cap ⟨b, hb, hb', -⟩
      exact hno b hb hb'
    constructor
    · intro hm
      apply h2
      obtain ⟨n, hn⟩ : ∃ n, costBound cfg.metric size inputs output = WithTop.some n := by
        unfold costBound
        rcases hm with hm | hm | hm <;> rw [hm] <;> exact ⟨_, rfl⟩
      obtain ⟨k, hk⟩ := capAt_exceeds (two_le_growth size (partLabels inputs output G)) (positive_firstCap hpos G) n
      exact ⟨G, hG, k, by rw [hn]; exact hk, hnr _⟩
    · intro hm
      have htop : costBound cfg.metric size inputs output = ⊤ := by
        unfold costBound
        rcases hm with ⟨f, hm⟩ | ⟨f, hm⟩ | ⟨f, hm⟩ <;> rw [hm]
      apply h3
      · intro hall
        obtain ⟨k, -, hk⟩ := hall G hG
        exact hnr _ hk
      · rintro ⟨A, -, k, hk, -⟩
        rw [htop] at hk
        exact not_top_lt hk

/-- **C79, no memory limit.** Without memory limit and with the default cost cap, whatever the sizes (0 allowed): `DynamicProgramming` always ends. It raises a `RuntimeError` exactly if the
cost model is flops, size or write, some label has size 0, and some part of the network has no tree that costs at most as much as
the part's output has elements; otherwise it returns a path. -/
theorem C79_no_limit {order : PopOrder} (ho : PopOK order) {cfg : DPCfg} (hmet : Named cfg.metric) (hc : cfg.costCap = .increase) (size : Nat → Nat) (inputs : List (Finset Nat)) (hne : inputs ≠ [])
    (output : Finset Nat) :
    let fails := (cfg.metric = .flops ∨ cfg.metric = .size ∨ cfg.metric = .write) ∧ (∃ c ∈ allLabels inputs output, size c = 0) ∧
      ∃ G, IsPart cfg.searchOuter inputs output G ∧ ∀ b : BTree, b.set = G → Allowed cfg.searchOuter size output (openLabels inputs output) none b →
        ∏ c ∈ partLabels inputs output G ∩ output, size c < btCost cfg.metric size (openLabels inputs output) b
    (¬ fails → ∃ F, ∀ fuel, F ≤ fuel → ∃ path, dpCall cfg order size none inputs output fuel = some (.ok path)) ∧
    (fails → ∃ F, ∀ fuel, F ≤ fuel → dpCall cfg order size none inputs output fuel = some (.error .runtime)) := by
  obtain ⟨h1, h2, -⟩ := C79_dp_outcome ho cfg size none inputs hne output
  have hcap : ∀ G, partCap cfg size inputs output G 0 = WithTop.some (∏ c ∈ partLabels inputs output G ∩ output, size c) := by
    intro G
    unfold partCap
    rw [capAt_zero, hc]
    rfl
  intro fails
  constructor
  · intro hn
    apply h1
    intro G hG
    by_cases h0 : ∏ c ∈ partLabels inputs output G ∩ output, size c = 0
    · exact firstCap_reached hmet hG hc h0
    · have h0' : firstCap cfg.costCap size (partLabels inputs output G) output ≠ WithTop.some 0 := by
        rw [hc]
        intro he
        exact h0 (WithTop.coe_injective he)
      by_cases hr : Reaches cfg size none inputs output G (WithTop.some (∏ c ∈ partLabels inputs output G ∩ output, size c))
      · exact ⟨0, fun j hj => by omega, by rw [hcap]; exact hr⟩
      · obtain ⟨b, hb, hb'⟩ : ∃ b : BTree, b.set = G ∧ Allowed cfg.searchOuter size output (openLabels inputs output) none b := by
          obtain ⟨b, k1, k2, k3⟩ := grow_tree (searchOuter := cfg.searchOuter) (size := size) (output := output) (G := G) (L := openLabels inputs output)
            (fun S hS hSne hSG => part_grows hG hS hSne hSG) (G.card - 1) (by have := Finset.card_pos.mpr hG.1; omega)
          refine ⟨b, ?_, k1⟩
          apply Finset.eq_of_subset_of_card_le k2
          rw [set_card b k1.1, k3]
          omega
        by_cases hpos : ∀ c ∈ allLabels inputs output, 0 < size c
        · exact solved_of_tree h0' hb hb' (cost_within_bound hpos hb'.1 (by rw [hb]; exact hG.2.1))
        · by_cases hm : cfg.metric = .flops ∨ cfg.metric = .size ∨ cfg.metric = .write
          · exfalso
            apply hn
            refine ⟨hm, ?_, G, hG, ?_⟩
            · push Not at hpos
              obtain ⟨c, hc1, hc2⟩ := hpos
              exact ⟨c, hc1, by omega⟩
            · intro b' hb1 hb2
              by_contra hlt
              exact hr ⟨b', hb1, hb2, WithTop.coe_le_coe.mpr (by omega)⟩
          · apply solved_of_tree h0' hb hb'
            have htop : costBound cfg.metric size inputs output = ⊤ := by
              unfold costBound
              cases hmm : cfg.metric with
              | flops => exact absurd (Or.inl hmm) hm
              | size => exact absurd (Or.inr (Or.inl hmm)) hm
              | write => exact absurd (Or.inr (Or.inr hmm)) hm
              | combo f => rfl
              | limit f => rfl
              | custom fn => rfl
            rw [htop]
            exact le_top
  · rintro ⟨hm, ⟨c, hc1, hc2⟩, G, hG, hno⟩
    apply h2
    have hnr : ¬ Reaches cfg size none inputs output G (partCap cfg size inputs output G 0) := by
      rw [hcap]
      rintro ⟨b, hb, hb', hle⟩
      have := hno b hb hb'
      have := WithTop.coe_le_coe.mp hle
      omega
    refine ⟨G, hG, 0, ?_, hnr⟩
    have hb : costBound cfg.metric size inputs output = WithTop.some 0 := by
      have hp : ∏ c ∈ inputs.foldr (· ∪ ·) ∅ ∪ output, size c = 0 := Finset.prod_eq_zero hc1 hc2
      unfold costBound
      rcases hm with hm | hm | hm <;> rw [hm] <;> simp only <;> rw [hp, Nat.mul_zero]
    rw [hb, hcap]
    apply WithTop.coe_lt_coe.mpr
    rcases Nat.eq_zero_or_pos (∏ c ∈ partLabels inputs output G ∩ output, size c) with h0 | h0
    · exfalso
      obtain ⟨k, hk1, hk2⟩ := firstCap_reached (limit := none) hmet hG hc h0
      apply hnr
      have hz : ∀ k, partCap cfg size inputs output G k = partCap cfg size inputs output G 0 := by
        intro k
        unfold partCap
        rw [hc]
        simp only [firstCap, capAt]
        rw [h0, Nat.mul_zero, Nat.mul_zero]
      rw [hz k] at hk2
      exact hk2
    · exact h0

theorem stepCost_pos {metric : Metric} (hn : Named metric) {f mem c1 c2 : Nat} (hf : 0 < f) (hm : 0 < mem) : 0 < stepCost metric f mem c1 c2 := by
  cases metric with
  | custom fn => exact absurd rfl (hn fn)
  | _ => simp only [stepCost]; omega

/-- **C79, a cost cap of 0.** With `cost_cap=0` and positive sizes, `DynamicProgramming` never ends on a network in which some part has two inputs: the cap is
multiplied by a factor in each round and stays 0. -/
theorem C79_cap_zero {order : PopOrder} (ho : PopOK order) {cfg : DPCfg} (hm : Named cfg.metric) (hc : cfg.costCap = .fixed 0) {size : Nat → Nat} (hpos : ∀ c, 0 < size c) (limit : Option Nat)
    {inputs : List (Finset Nat)} (hne : inputs ≠ []) {output G : Finset Nat} (hG : IsPart cfg.searchOuter inputs output G) (h2 : 2 ≤ G.card) (fuel : Nat) :
    dpCall cfg order size limit inputs output fuel = none := by
  have hcap : ∀ A k, partCap cfg size inputs output A k = WithTop.some 0 := by
    intro A k
    unfold partCap
    rw [hc]
    simp only [firstCap, capAt, Nat.mul_zero]
  apply (C79_dp_outcome ho cfg size limit inputs hne output).2.2
  · intro hall
    obtain ⟨k, -, b, hb, hb', hle⟩ := hall G hG
    rw [hcap] at hle
    have hle := WithTop.coe_le_coe.mp hle
    cases b with
    | leaf i =>
      rw [BTree.set_leaf] at hb
      rw [← hb, Finset.card_singleton] at h2
      omega
    | node l r =>
      rw [btCost] at hle
      have := stepCost_pos hm (c1 := btCost cfg.metric size (openLabels inputs output) l)
        (c2 := btCost cfg.metric size (openLabels inputs output) r)
        (Finset.prod_pos (fun c _ => hpos c) : 0 < ∏ c ∈ openLabels inputs output l.set ∪ openLabels inputs output r.set, size c)
        (Finset.prod_pos (fun c _ => hpos c) : 0 < ∏ c ∈ openLabels inputs output (l.set ∪ r.set), size c)
      omega
  · rintro ⟨A, -, k, hk, -⟩
    rw [hcap] at hk
    cases hb : costBound cfg.metric size inputs output with
    | top => rw [hb] at hk; exact not_top_lt hk
    | coe n =>
      rw [hb] at hk
      have := WithTop.coe_lt_coe.mp hk
      omega

/-! ## Examples -/

/-- For `ab,ab,z->z` the first two inputs are a part. -/
theorem example_part : IsPart false [{0, 1}, {0, 1}, {2}] {2} {0, 1} := by
  have hsh : Share [{0, 1}, {0, 1}, {2}] {2} 0 1 := ⟨0, by decide, by decide, by decide⟩
  refine ⟨⟨0, by simp⟩, by decide, ?_, ?_⟩
  · rintro i hi j hj hn ⟨c, h1, h2, h3⟩
    have hj : j < 3 := hj
    have h2' : j = 2 := by
      have : j ≠ 0 ∧ j ≠ 1 := by simpa using hn
      omega
    subst h2'
    have : c = 2 := by simpa using h2
    subst this
    simp at h3
  · have h0 : Chain [{0, 1}, {0, 1}, {2}] {2} ({0, 1} : Finset Nat) 0 0 := .refl (by simp)
    have h1 : Chain [{0, 1}, {0, 1}, {2}] {2} ({0, 1} : Finset Nat) 0 1 := .step h0 hsh (by simp)
    have h11 : Chain [{0, 1}, {0, 1}, {2}] {2} ({0, 1} : Finset Nat) 1 1 := .refl (by simp)
    intro i hi j hj
    simp only [Finset.mem_insert, Finset.mem_singleton] at hi hj
    rcases hi with rfl | rfl <;> rcases hj with rfl | rfl
    · exact h0
    · exact h1
    · exact .step h11 hsh.symm (by simp)
    · exact h11

/-- `C79_cap_zero` applies to `ab,ab,z->z`. -/
example (fuel : Nat) : dpCall ⟨.flops, .fixed 0, false⟩ ascendingPop (fun _ => 2) none [{0, 1}, {0, 1}, {2}] {2} fuel = none :=
  C79_cap_zero ascendingPop_ok (by intro fn h; cases h) rfl (fun _ => Nat.zero_lt_two) none (by simp) (G := {0, 1}) example_part (by decide) fuel

/-- Both halves of `C79_no_limit` occur: with the size of `z` 0, `ab,ab,z->z` fails and `az,ab,b->z` does not. -/
example : dpCall ⟨.flops, .increase, false⟩ ascendingPop (fun c => if c = 2 then 0 else 2) none [{0, 1}, {0, 1}, {2}] {2} 20 = some (.error .runtime) ∧
    dpCall ⟨.flops, .increase, false⟩ ascendingPop (fun c => if c = 2 then 0 else 2) none [{0, 2}, {0, 1}, {1}] {2} 20 = some (.ok [[0, 1], [0, 1]]) := by
  decide +kernel

/-- With the cost model size, sizes of 0 and an output of 4 elements, the first round suffices and `C79_no_limit` gives a path. -/
example : dpCall ⟨.size, .increase, false⟩ ascendingPop (fun c => if c = 2 then 0 else 2) none [{0, 1}, {0, 3}, {2}] {1, 3} 20 =
    some (.ok [[2], [0, 1], [0, 1]]) := by
  decide +kernel

end OE.Props
