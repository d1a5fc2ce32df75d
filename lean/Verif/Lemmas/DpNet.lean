import Verif.Lemmas.DpSub

/-!
# The dynamic-programming search: from the reduced inputs back to the original ones
-/

namespace OE.Props
open OE OE.Py OE.Spec OE.Paths

section
variable {inputs : List (Finset Nat)} {output : Finset Nat} {orig done : List Nat}

theorem ParseOK.length (h : ParseOK inputs output orig done) : (dpParse inputs output).inputs.length = orig.length := by
  rw [h.inputs_eq, List.length_map]

theorem ParseOK.nodup (h : ParseOK inputs output orig done) : orig.Nodup ∧ done.Nodup ∧ ∀ x ∈ orig, x ∉ done := by
  have := h.perm.nodup_iff.mpr List.nodup_range
  rw [List.nodup_append'] at this
  exact ⟨this.1, this.2.1, fun x h1 h2 => this.2.2 h1 h2⟩

theorem getD_mem {p : Nat} (hp : p < orig.length) : orig.getD p 0 ∈ orig := by
  rw [List.getD_eq_getElem?_getD, List.getElem?_eq_getElem hp]
  exact List.getElem_mem hp

theorem ParseOK.lt (h : ParseOK inputs output orig done) {i : Nat} (hi : i ∈ orig) : i < inputs.length :=
  List.mem_range.mp (h.perm.mem_iff.mp (List.mem_append_left _ hi))

theorem ParseOK.inj (h : ParseOK inputs output orig done) {p q : Nat} (hp : p < orig.length) (hq : q < orig.length)
    (he : orig.getD p 0 = orig.getD q 0) : p = q := by
  rw [List.getD_eq_getElem?_getD, List.getD_eq_getElem?_getD, List.getElem?_eq_getElem hp, List.getElem?_eq_getElem hq] at he
  exact (List.Nodup.getElem_inj_iff h.nodup.1).mp he

theorem ParseOK.getD (h : ParseOK inputs output orig done) {p : Nat} (hp : p < orig.length) :
    (dpParse inputs output).inputs.getD p ∅ = openLabels inputs output {orig.getD p 0} := by
  rw [h.inputs_eq, List.getD_eq_getElem?_getD, List.getElem?_map, List.getD_eq_getElem?_getD, List.getElem?_eq_getElem hp]
  rfl

theorem ParseOK.cover (h : ParseOK inputs output orig done) {i : Nat} (hi : i < inputs.length) (hne : openLabels inputs output {i} ≠ ∅) :
    ∃ p, p < orig.length ∧ orig.getD p 0 = i := by
  have : i ∈ orig ++ done := h.perm.mem_iff.mpr (List.mem_range.mpr hi)
  rcases List.mem_append.mp this with hi | hi
  · obtain ⟨p, hp, he⟩ := List.mem_iff_getElem.mp hi
    refine ⟨p, hp, ?_⟩
    rw [List.getD_eq_getElem?_getD, List.getElem?_eq_getElem hp]
    exact he
  · exact absurd (h.lone i hi).1 hne

/-- The labels of the tensor made of a set of reduced inputs. -/
def legsOf (inputs : List (Finset Nat)) (output : Finset Nat) (orig : List Nat) (S : Finset Nat) : Finset Nat :=
  openLabels inputs output (S.image (fun p => orig.getD p 0))

/-- Closed under sharing a summed label. -/
def Closed (P : List (Finset Nat)) (output G : Finset Nat) : Prop := ∀ q ∈ G, ∀ p, p < P.length → Share P output q p → p ∈ G

/-- A summed label of an input of `G` that is also on another input leads to another member of `G`. -/
theorem closed_partner (h : ParseOK inputs output orig done) {G : Finset Nat} (hG : ∀ p ∈ G, p < orig.length)
    (hcl : Closed (dpParse inputs output).inputs output G) {q k c : Nat} (hq : q ∈ G) (hc : c ∉ output) (hcq : c ∈ inputs.getD (orig.getD q 0) ∅)
    (hk : k < inputs.length) (hkq : k ≠ orig.getD q 0) (hck : c ∈ inputs.getD k ∅) :
    ∃ p ∈ G, orig.getD p 0 = k ∧ c ∈ (dpParse inputs output).inputs.getD p ∅ := by
  have hqlt := h.lt (getD_mem (hG q hq))
  have h1 : c ∈ openLabels inputs output {k} := by
    rw [mem_openLabels]
    exact ⟨⟨k, by simp, hck⟩, Or.inr ⟨orig.getD q 0, hqlt, by simpa using hkq.symm, hcq⟩⟩
  have h2 : c ∈ openLabels inputs output {orig.getD q 0} := by
    rw [mem_openLabels]
    exact ⟨⟨orig.getD q 0, by simp, hcq⟩, Or.inr ⟨k, hk, by simpa using hkq, hck⟩⟩
  obtain ⟨p, hp, hpk⟩ := h.cover hk (Finset.ne_empty_of_mem h1)
  have h3 : c ∈ (dpParse inputs output).inputs.getD p ∅ := by rw [h.getD hp, hpk]; exact h1
  refine ⟨p, ?_, hpk, h3⟩
  apply hcl q hq p (by rw [h.length]; exact hp)
  exact ⟨c, by rw [h.getD (hG q hq)]; exact h2, h3, hc⟩

theorem core_of_closed (h : ParseOK inputs output orig done) (cfg : DPCfg) (size : Nat → Nat) (limit : Option Nat) {g : List Nat} {G : Finset Nat}
    (hgG : g.toFinset = G) (hG : ∀ p ∈ G, p < orig.length) (hcl : Closed (dpParse inputs output).inputs output G) :
    CoreOK (ctxOf cfg size output limit (dpParse inputs output).inputs g) G (legsOf inputs output orig) := by
  refine ⟨?_, ?_, ?_, ?_, ?_⟩
  · intro j hj
    show j < (dpParse inputs output).inputs.length
    rw [h.length]
    exact hG j hj
  · have := isBm_foldl g 0 ∅ isBm_zero
    rw [Finset.empty_union, hgG] at this
    exact this
  · exact isBm_all _
  · intro j hj
    show legsOf inputs output orig {j} = (dpParse inputs output).inputs.getD j ∅
    rw [h.getD (hG j hj)]
    unfold legsOf
    rw [Finset.image_singleton]
  · intro S1 S2 h1 h2 hd
    show legsOf inputs output orig (S1 ∪ S2) = (legsOf inputs output orig S1 ∪ legsOf inputs output orig S2).filter
      (fun c => ¬ (c ∈ legsOf inputs output orig S1 ∧ c ∈ legsOf inputs output orig S2 ∧ c ∉ output ∧
        ∀ j ∈ G, j ∉ S1 ∪ S2 → c ∉ (dpParse inputs output).inputs.getD j ∅))
    have himg : ∀ S ⊆ G, ∀ p ∈ G, orig.getD p 0 ∈ S.image (fun p => orig.getD p 0) → p ∈ S := by
      intro S hS p hp hm
      obtain ⟨q, hq, he⟩ := Finset.mem_image.mp hm
      rw [← h.inj (hG q (hS hq)) (hG p hp) he]
      exact hq
    have hself : ∀ S : Finset Nat, ∀ p ∈ S, orig.getD p 0 ∈ S.image (fun p => orig.getD p 0) := fun S p hp =>
      Finset.mem_image.mpr ⟨p, hp, rfl⟩
    unfold legsOf
    ext c
    rw [Finset.mem_filter, Finset.mem_union]
    constructor
    · intro hc
      rw [mem_openLabels] at hc
      obtain ⟨⟨i, hi, hci⟩, hrest⟩ := hc
      refine ⟨?_, ?_⟩
      · obtain ⟨q, hq, rfl⟩ := Finset.mem_image.mp hi
        have side : ∀ S ⊆ S1 ∪ S2, q ∈ S → c ∈ openLabels inputs output (S.image (fun p => orig.getD p 0)) := by
          intro S hS hqS
          rw [mem_openLabels]
          refine ⟨⟨_, hself S q hqS, hci⟩, ?_⟩
          rcases hrest with ho | ⟨k, hk, hkS, hck⟩
          · exact Or.inl ho
          · exact Or.inr ⟨k, hk, fun hh => hkS (Finset.image_subset_image hS hh), hck⟩
        rcases Finset.mem_union.mp hq with hq | hq
        · exact Or.inl (side S1 Finset.subset_union_left hq)
        · exact Or.inr (side S2 Finset.subset_union_right hq)
      · rintro ⟨hc1, hc2, ho, hnone⟩
        rcases hrest with hout | ⟨k, hk, hkS, hck⟩
        · exact ho hout
        · obtain ⟨q, hq, rfl⟩ := Finset.mem_image.mp hi
          have hqG : q ∈ G := (Finset.union_subset h1 h2) hq
          have hkq : k ≠ orig.getD q 0 := by
            rintro rfl
            exact hkS (hself _ q hq)
          obtain ⟨p, hp, hpk, hcp⟩ := closed_partner h hG hcl hqG ho hci hk hkq hck
          refine hnone p hp ?_ hcp
          intro hpS
          rw [← hpk] at hkS
          exact hkS (hself _ p hpS)
    · rintro ⟨hor, hn⟩
      -- one of the two sides, by symmetry
      have side : ∀ S S' : Finset Nat, S ⊆ G → S' ⊆ G → Disjoint S S' → S ∪ S' = S1 ∪ S2 →
          c ∈ openLabels inputs output (S.image (fun p => orig.getD p 0)) →
          ¬ (c ∈ openLabels inputs output (S.image (fun p => orig.getD p 0)) ∧ c ∈ openLabels inputs output (S'.image (fun p => orig.getD p 0)) ∧
            c ∉ output ∧ ∀ j ∈ G, j ∉ S1 ∪ S2 → c ∉ (dpParse inputs output).inputs.getD j ∅) →
          c ∈ openLabels inputs output ((S1 ∪ S2).image (fun p => orig.getD p 0)) := by
        intro S S' hS hS' hdd hSS hc hno
        have hc' := hc
        rw [mem_openLabels] at hc
        obtain ⟨⟨i, hi, hci⟩, hrest⟩ := hc
        rw [mem_openLabels]
        refine ⟨⟨i, Finset.image_subset_image (by rw [← hSS]; exact Finset.subset_union_left) hi, hci⟩, ?_⟩
        by_cases ho : c ∈ output
        · exact Or.inl ho
        · right
          by_contra hnone
          push Not at hnone
          obtain ⟨q, hq, rfl⟩ := Finset.mem_image.mp hi
          apply hno
          refine ⟨hc', ?_, ho, ?_⟩
          · rcases hrest with hout | ⟨k, hk, hkS, hck⟩
            · exact absurd hout ho
            · have hkU : k ∈ (S1 ∪ S2).image (fun p => orig.getD p 0) := by
                by_contra hh
                exact hnone k hk hh hck
              rw [mem_openLabels]
              have hkS' : k ∈ S'.image (fun p => orig.getD p 0) := by
                rw [← hSS, Finset.image_union] at hkU
                rcases Finset.mem_union.mp hkU with hkU | hkU
                · exact absurd hkU hkS
                · exact hkU
              refine ⟨⟨k, hkS', hck⟩, Or.inr ⟨orig.getD q 0, h.lt (getD_mem (hG q (hS hq))), ?_, hci⟩⟩
              intro hm
              exact Finset.disjoint_left.mp hdd hq (himg S' hS' q (hS hq) hm)
          · intro j hj hjS hcj
            rw [h.getD (hG j hj)] at hcj
            rw [mem_openLabels] at hcj
            obtain ⟨⟨i', hi', hci'⟩, -⟩ := hcj
            rw [Finset.mem_singleton] at hi'
            subst hi'
            refine hnone _ (h.lt (getD_mem (hG j hj))) ?_ hci'
            intro hm
            exact hjS (himg _ (Finset.union_subset h1 h2) j hj hm)
      rcases hor with hor | hor
      · exact side S1 S2 h1 h2 hd rfl hor hn
      · exact side S2 S1 h2 h1 hd.symm (Finset.union_comm _ _) hor (fun hh => hn ⟨hh.2.1, hh.1, hh.2.2⟩)

/-! ## There is a tree -/

theorem grow_tree {searchOuter : Bool} {size : Nat → Nat} {G : Finset Nat} {L : Finset Nat → Finset Nat}
    (hgrow : ∀ S ⊆ G, S.Nonempty → S ≠ G → ∃ k ∈ G, k ∉ S ∧ (searchOuter = false → ∃ c, c ∈ L S ∧ c ∈ L {k} ∧ c ∉ output)) (k : Nat) (hk : k + 1 ≤ G.card) :
    ∃ b : BTree, Allowed searchOuter size output L none b ∧ b.set ⊆ G ∧ b.leaves.length = k + 1 := by
  induction k with
  | zero =>
    obtain ⟨j, hj⟩ := Finset.card_pos.mp (show 0 < G.card by omega)
    refine ⟨.leaf j, ⟨by simp [BTree.leaves], fun _ => trivial, trivial⟩, ?_, rfl⟩
    rw [BTree.set_leaf]
    simpa using hj
  | succ k ih =>
    obtain ⟨b, h1, h2, h3⟩ := ih (by omega)
    have hcard : b.set.card = k + 1 := by
      unfold BTree.set
      rw [List.toFinset_card_of_nodup h1.1, h3]
    obtain ⟨j, hj, hjb, hc⟩ := hgrow b.set h2 (BTree.set_nonempty b) (by intro he; rw [he] at hcard; omega)
    refine ⟨.node b (.leaf j), ?_, ?_, ?_⟩
    · rw [allowed_node]
      refine ⟨h1, ⟨by simp [BTree.leaves], fun _ => trivial, trivial⟩, ?_, ?_, ?_⟩
      · rw [BTree.set_leaf]
        simpa using hjb
      · rw [BTree.set_leaf]
        exact hc
      · intro m hm
        cases hm
    · rw [BTree.set_node, BTree.set_leaf]
      exact Finset.union_subset h2 (by simpa using hj)
    · rw [BTree.leaves, List.length_append, h3]
      rfl

theorem chain_cross {P : List (Finset Nat)} {G S : Finset Nat} {i j : Nat} (h : Chain P output G i j) (hi : i ∈ S) (hj : j ∉ S) :
    ∃ a b, a ∈ S ∧ b ∈ G ∧ b ∉ S ∧ Share P output a b := by
  induction h with
  | refl _ => exact absurd hi hj
  | @step y z _ h2 h3 ih =>
    by_cases hx : y ∈ S
    · exact ⟨_, _, hx, h3, hj, h2⟩
    · exact ih hx

theorem candidate_exists (h : ParseOK inputs output orig done) {cfg : DPCfg} {size : Nat → Nat} {g : List Nat} {G : Finset Nat}
    (hG : ∀ p ∈ G, p < orig.length) (hne : 0 < G.card)
    (hconn : cfg.searchOuter = false → ∀ i ∈ G, ∀ j ∈ G, Chain (dpParse inputs output).inputs output G i j) :
    ∃ b, Candidate (ctxOf cfg size output none (dpParse inputs output).inputs g) G (legsOf inputs output orig) b := by
  obtain ⟨b, h1, h2, h3⟩ := grow_tree (searchOuter := cfg.searchOuter) (size := size) (output := output) (G := G) (L := legsOf inputs output orig) (by
    intro S hS hSne hSG
    obtain ⟨k, hk, hkS⟩ := Finset.exists_of_ssubset (Finset.ssubset_iff_subset_ne.mpr ⟨hS, hSG⟩)
    cases hs : cfg.searchOuter with
    | true => exact ⟨k, hk, hkS, fun hh => absurd hh (by simp)⟩
    | false =>
      obtain ⟨i, hi⟩ := hSne
      obtain ⟨a, b, ha, hb, hbS, c, hca, hcb, hco⟩ := chain_cross (hconn hs i (hS hi) k hk) hi hkS
      refine ⟨b, hb, hbS, fun _ => ⟨c, ?_, ?_, hco⟩⟩
      · rw [h.getD (hG a (hS ha)), mem_openLabels] at hca
        rw [h.getD (hG b hb), mem_openLabels] at hcb
        obtain ⟨⟨x, hx, hcx⟩, -⟩ := hca
        obtain ⟨⟨y, hy, hcy⟩, -⟩ := hcb
        rw [Finset.mem_singleton] at hx hy
        subst hx
        subst hy
        unfold legsOf
        rw [mem_openLabels]
        refine ⟨⟨_, Finset.mem_image.mpr ⟨a, ha, rfl⟩, hcx⟩, Or.inr ⟨_, h.lt (getD_mem (hG b hb)), ?_, hcy⟩⟩
        intro hm
        obtain ⟨q, hq, he⟩ := Finset.mem_image.mp hm
        rw [h.inj (hG q (hS hq)) (hG b hb) he] at hq
        exact hbS hq
      · unfold legsOf
        rw [Finset.image_singleton, ← h.getD (hG b hb)]
        exact hcb) (G.card - 1) (by omega)
  refine ⟨b, h1, ?_⟩
  apply Finset.eq_of_subset_of_card_le h2
  unfold BTree.set
  rw [List.toFinset_card_of_nodup h1.1, h3]
  omega

/-! ## The naive cost bounds every tree -/

theorem prod_le_of_subset {size : Nat → Nat} (hsize : ∀ c, 0 < size c) {s t : Finset Nat} (h : s ⊆ t) : ∏ c ∈ s, size c ≤ ∏ c ∈ t, size c :=
  Finset.prod_le_prod_of_subset_of_one_le' h (fun c _ _ => hsize c)

theorem cost_le_naive {metric : Metric} (hm : metric = .flops ∨ metric = .size ∨ metric = .write) {size : Nat → Nat} (hsize : ∀ c, 0 < size c)
    {L : Finset Nat → Finset Nat} {U : Finset Nat} (hL : ∀ S, L S ⊆ U) (b : BTree) :
    btCost metric size L b ≤ (b.leaves.length - 1) * ∏ c ∈ U, size c := by
  induction b with
  | leaf _ => simp [btCost]
  | node l r ihl ihr =>
    have pl := BTree.leaves_pos l
    have pr := BTree.leaves_pos r
    rw [btCost, BTree.leaves, List.length_append]
    have hf := prod_le_of_subset hsize (Finset.union_subset (hL l.set) (hL r.set))
    have hmem := prod_le_of_subset hsize (hL (l.set ∪ r.set))
    generalize ∏ c ∈ U, size c = u at *
    generalize ∏ c ∈ L l.set ∪ L r.set, size c = f at *
    generalize ∏ c ∈ L (l.set ∪ r.set), size c = m at *
    obtain ⟨a, ha⟩ : ∃ a, l.leaves.length = a + 1 := ⟨l.leaves.length - 1, by omega⟩
    obtain ⟨b, hb⟩ : ∃ b, r.leaves.length = b + 1 := ⟨r.leaves.length - 1, by omega⟩
    rw [ha] at ihl ⊢
    rw [hb] at ihr ⊢
    rw [show a + 1 + (b + 1) - 1 = a + b + 1 by omega]
    rw [show (a + b + 1) * u = a * u + b * u + u by ring]
    rw [show a + 1 - 1 = a by omega] at ihl
    rw [show b + 1 - 1 = b by omega] at ihr
    rcases hm with rfl | rfl | rfl <;> simp only [stepCost]
    · omega
    · omega
    · omega

/-! ## Renaming the leaves -/

/-- The tree with its inputs renamed. -/
def BTree.rename (f : Nat → Nat) : BTree → BTree
  | .leaf i => .leaf (f i)
  | .node l r => .node (BTree.rename f l) (BTree.rename f r)

theorem rename_leaves (f : Nat → Nat) (b : BTree) : (BTree.rename f b).leaves = b.leaves.map f := by
  induction b with
  | leaf i => rfl
  | node l r ihl ihr => rw [BTree.rename, BTree.leaves, BTree.leaves, List.map_append, ihl, ihr]

theorem rename_set (f : Nat → Nat) (b : BTree) : (BTree.rename f b).set = b.set.image f := by
  unfold BTree.set
  rw [rename_leaves]
  ext x
  simp

theorem rename_cost (f : Nat → Nat) (metric : Metric) (size : Nat → Nat) (O : Finset Nat → Finset Nat) (b : BTree) :
    btCost metric size O (BTree.rename f b) = btCost metric size (fun S => O (S.image f)) b := by
  induction b with
  | leaf _ => rfl
  | node l r ihl ihr => rw [BTree.rename, btCost, btCost, ihl, ihr, rename_set, rename_set, Finset.image_union]

theorem rename_noOuter (f : Nat → Nat) (O : Finset Nat → Finset Nat) (b : BTree) :
    NoOuter output O (BTree.rename f b) ↔ NoOuter output (fun S => O (S.image f)) b := by
  induction b with
  | leaf _ => exact Iff.rfl
  | node l r ihl ihr => rw [BTree.rename, NoOuter, NoOuter, ihl, ihr, rename_set, rename_set]

theorem rename_fits (f : Nat → Nat) (size : Nat → Nat) (limit : Option Nat) (O : Finset Nat → Finset Nat) (b : BTree) :
    Fits size O limit (BTree.rename f b) ↔ Fits size (fun S => O (S.image f)) limit b := by
  induction b with
  | leaf _ => exact Iff.rfl
  | node l r ihl ihr => rw [BTree.rename, Fits, Fits, ihl, ihr, rename_set, rename_set, Finset.image_union]

theorem rename_rename {f g : Nat → Nat} {b : BTree} (h : ∀ i ∈ b.leaves, f (g i) = i) : BTree.rename f (BTree.rename g b) = b := by
  induction b with
  | leaf i =>
    rw [BTree.rename, BTree.rename, h i (by simp [BTree.leaves])]
  | node l r ihl ihr =>
    rw [BTree.leaves] at h
    rw [BTree.rename, BTree.rename, ihl (fun i hi => h i (List.mem_append_left _ hi)), ihr (fun i hi => h i (List.mem_append_right _ hi))]

theorem represents_toTree {contractions : List Tree} {f : Nat → Nat} {b : BTree}
    (h : ∀ p ∈ b.leaves, (¬ HasLone inputs output (f p) ∧ contractions.getD p (.leaf 0) = .leaf (f p)) ∨
      (HasLone inputs output (f p) ∧ contractions.getD p (.leaf 0) = .node [.leaf (f p)])) :
    Represents inputs output (toTree contractions b) (BTree.rename f b) := by
  induction b with
  | leaf p =>
    rw [toTree, BTree.rename]
    rcases h p (by simp [BTree.leaves]) with ⟨h0, h⟩ | ⟨h0, h⟩ <;> rw [h]
    · exact .leaf _ h0
    · exact .wrapped _ h0
  | node l r ihl ihr =>
    rw [BTree.leaves] at h
    exact .node (ihl (fun i hi => h i (List.mem_append_left _ hi))) (ihr (fun i hi => h i (List.mem_append_right _ hi)))

/-- A tree for the original inputs is one for the reduced inputs. -/
theorem allowed_reduced (h : ParseOK inputs output orig done) {cfg : DPCfg} {size : Nat → Nat} {limit : Option Nat} {g : List Nat} {G : Finset Nat}
    (hG : ∀ p ∈ G, p < orig.length) {b' : BTree} (hb' : b'.set = G.image (fun p => orig.getD p 0))
    (hall : Allowed cfg.searchOuter size output (openLabels inputs output) limit b') :
    ∃ b : BTree, Candidate (ctxOf cfg size output limit (dpParse inputs output).inputs g) G (legsOf inputs output orig) b ∧ BTree.rename (fun p => orig.getD p 0) b = b' := by
  have hmem : ∀ i ∈ b'.leaves, i ∈ orig := by
    intro i hi
    have : i ∈ b'.set := List.mem_toFinset.mpr hi
    rw [hb'] at this
    obtain ⟨p, hp, rfl⟩ := Finset.mem_image.mp this
    exact getD_mem (hG p hp)
  have hinv : ∀ i ∈ orig, orig.getD (orig.idxOf i) 0 = i := by
    intro i hi
    rw [List.getD_eq_getElem?_getD, List.getElem?_eq_getElem (List.idxOf_lt_length_iff.mpr hi)]
    simp
  have hback : BTree.rename (fun p => orig.getD p 0) (BTree.rename (fun i => orig.idxOf i) b') = b' :=
    rename_rename (fun i hi => hinv i (hmem i hi))
  obtain ⟨hnd', hno', hfit'⟩ := hall
  refine ⟨BTree.rename (fun i => orig.idxOf i) b', ⟨⟨?_, ?_, ?_⟩, ?_⟩, hback⟩
  · rw [rename_leaves]
    apply hnd'.map_on
    intro x hx y hy he
    rw [← hinv x (hmem x hx), ← hinv y (hmem y hy), he]
  · intro hs
    have := hno' hs
    rw [← hback, rename_noOuter] at this
    exact this
  · rw [← hback, rename_fits] at hfit'
    exact hfit'
  · rw [rename_set, hb', Finset.image_image]
    ext p
    simp only [Finset.mem_image, Function.comp]
    constructor
    · rintro ⟨q, hq, rfl⟩
      have hm := getD_mem (hG q hq)
      have := h.inj (List.idxOf_lt_length_iff.mpr hm) (hG q hq) (hinv _ hm)
      rw [this]
      exact hq
    · intro hp
      refine ⟨p, hp, ?_⟩
      have hm := getD_mem (hG p hp)
      exact h.inj (List.idxOf_lt_length_iff.mpr hm) (hG p hp) (hinv _ hm)

/-- A result for the reduced inputs is a result for the original ones. -/
theorem cheapest_original (h : ParseOK inputs output orig done) {cfg : DPCfg} {size : Nat → Nat} {limit : Option Nat} {g : List Nat} {G : Finset Nat}
    (hG : ∀ p ∈ G, p < orig.length) {e : DPEntry}
    (hch : Cheapest (ctxOf cfg size output limit (dpParse inputs output).inputs g) G (legsOf inputs output orig) (dpParse inputs output).contractions e) :
    ∃ b : BTree, Represents inputs output e.tree b ∧ b.set = G.image (fun p => orig.getD p 0) ∧ Allowed cfg.searchOuter size output (openLabels inputs output) limit b ∧
      ∀ b' : BTree, b'.set = b.set → Allowed cfg.searchOuter size output (openLabels inputs output) limit b' →
        btCost cfg.metric size (openLabels inputs output) b ≤ btCost cfg.metric size (openLabels inputs output) b' := by
  obtain ⟨b, ⟨⟨hnd, hno, hfit⟩, hset⟩, htree, hlegs, hmin⟩ := hch
  have hleaf : ∀ p ∈ b.leaves, p < orig.length := by
    intro p hp
    apply hG
    rw [← hset]
    unfold BTree.set
    exact List.mem_toFinset.mpr hp
  refine ⟨BTree.rename (fun p => orig.getD p 0) b, ?_, ?_, ?_, ?_⟩
  · rw [htree]
    apply represents_toTree
    intro p hp
    obtain ⟨f, hf, hcon⟩ := h.contractions_eq
    have hlt := hleaf p hp
    have hg : orig.getD p 0 = orig[p] := by rw [List.getD_eq_getElem?_getD, List.getElem?_eq_getElem hlt]; rfl
    have hm : (orig.map f).getD p (.leaf 0) = f orig[p] := by rw [List.getD_eq_getElem?_getD, List.getElem?_map, List.getElem?_eq_getElem hlt]; rfl
    rw [hcon, hg, hm]
    exact hf _ (h.lt (List.getElem_mem hlt))
  · rw [rename_set, hset]
  · refine ⟨?_, ?_, ?_⟩
    · rw [rename_leaves]
      apply hnd.map_on
      intro x hx y hy he
      exact h.inj (hleaf x hx) (hleaf y hy) he
    · intro hs
      rw [rename_noOuter]
      exact hno hs
    · rw [rename_fits]
      exact hfit
  · intro b' hb' hall
    rw [rename_set, hset] at hb'
    obtain ⟨b0, hc0, rfl⟩ := allowed_reduced (g := g) h hG hb' hall
    rw [rename_cost, rename_cost]
    exact hmin b0 hc0

end

end OE.Props
