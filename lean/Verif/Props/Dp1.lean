import Verif.Lemmas.DpNet
import Verif.Props.Paths2

/-!
# C17, C21, C22: dynamic programming
-/

namespace OE.Props
open OE OE.Py OE.Spec OE.Paths

/-! ## The groups -/

/-- What `dpGroups` returns. -/
structure GroupsOK (searchOuter : Bool) (P : List (Finset Nat)) (output : Finset Nat) (gs : List (Finset Nat)) : Prop where
  nonempty : ∀ G ∈ gs, 0 < G.card
  lt : ∀ G ∈ gs, ∀ p ∈ G, p < P.length
  disjoint : gs.Pairwise Disjoint
  cover : ∀ p, p < P.length → ∃ G ∈ gs, p ∈ G
  closed : ∀ G ∈ gs, Closed P output G
  chain : searchOuter = false → ∀ G ∈ gs, ∀ i ∈ G, ∀ j ∈ G, Chain P output G i j
  single : searchOuter = true → gs.length = 1

theorem dpGroups_ok {order : PopOrder} (ho : PopOK order) (cfg : DPCfg) {P : List (Finset Nat)} (hP : P ≠ []) (output : Finset Nat) :
    ∃ gs, dpGroups cfg order P output = some (.ok gs) ∧ GroupsOK cfg.searchOuter P output gs := by
  unfold dpGroups
  cases hs : cfg.searchOuter with
  | true =>
    rw [if_pos rfl]
    refine ⟨_, rfl, ?_, ?_, ?_, ?_, ?_, ?_, ?_⟩
    · intro G hG
      rw [List.mem_singleton] at hG
      subst hG
      rw [Finset.card_range]
      exact List.length_pos_iff.mpr hP
    · intro G hG p hp
      rw [List.mem_singleton] at hG
      subst hG
      exact Finset.mem_range.mp hp
    · simp
    · intro p hp
      exact ⟨_, List.mem_singleton_self _, Finset.mem_range.mpr hp⟩
    · intro G hG q hq p hp _
      rw [List.mem_singleton] at hG
      subst hG
      exact Finset.mem_range.mpr hp
    · intro h
      cases h
    · intro _
      rfl
  | false =>
    rw [if_neg (by simp)]
    obtain ⟨gs, h1, h2, h3, h4, h5, h6⟩ := C26_disconnected_subgraphs ho P hP output
    refine ⟨gs, h1, ?_, ?_, h3, ?_, ?_, fun _ => h6, ?_⟩
    · intro G hG
      exact Finset.card_pos.mpr (h2 G hG)
    · intro G hG p hp
      exact (h4 p).mpr ⟨G, hG, hp⟩
    · intro p hp
      exact (h4 p).mp hp
    · intro G hG q hq p hp hsh
      obtain ⟨G', hG', hp'⟩ := (h4 p).mp hp
      have hsym : ∀ {a b : Finset Nat}, (∀ i ∈ a, ∀ j ∈ b, ¬ Share P output i j) → ∀ i ∈ b, ∀ j ∈ a, ¬ Share P output i j :=
        fun h i hi j hj hh => h j hj i hi hh.symm
      by_cases he : G = G'
      · rw [he]; exact hp'
      · haveI : Std.Symm (fun g g' : Finset Nat => ∀ i ∈ g, ∀ j ∈ g', ¬ Share P output i j) := ⟨fun _ _ h => hsym h⟩
        have := h5.forall hG hG' he
        exact absurd hsh (this q hq p hp')
    · intro h
      cases h

/-! ## The loop over the groups -/

theorem dpSubgraphs_ok {solve : List Nat → Option (Except PyErr DPEntry)} {size : Nat → Nat} {gs : List (List Nat)} {acc l : List (Tree × Nat)}
    (h : dpSubgraphs solve size gs acc = some (.ok l)) :
    ∃ es, List.Forall₂ (fun g e => solve g = some (.ok e)) gs es ∧ l = acc ++ es.map (fun e => (e.tree, Paths.sizeOf size e.legs)) := by
  induction gs generalizing acc with
  | nil =>
    cases h
    exact ⟨[], .nil, by simp⟩
  | cons g gs ih =>
    rw [dpSubgraphs] at h
    split at h
    · cases h
    · cases h
    · rename_i e hs
      obtain ⟨es, h1, h2⟩ := ih h
      refine ⟨e :: es, .cons hs h1, ?_⟩
      rw [h2]
      simp

theorem dpSubgraphs_error {solve : List Nat → Option (Except PyErr DPEntry)} {size : Nat → Nat} {gs : List (List Nat)} {acc : List (Tree × Nat)} {e : PyErr}
    (h : dpSubgraphs solve size gs acc = some (.error e)) : ∃ g ∈ gs, solve g = some (.error e) := by
  induction gs generalizing acc with
  | nil => cases h
  | cons g gs ih =>
    rw [dpSubgraphs] at h
    split at h
    · cases h
    · rename_i e' hs
      cases h
      exact ⟨g, List.mem_cons_self, hs⟩
    · obtain ⟨g', h1, h2⟩ := ih h
      exact ⟨g', List.mem_cons_of_mem _ h1, h2⟩

theorem dpSubgraphs_none {solve : List Nat → Option (Except PyErr DPEntry)} {size : Nat → Nat} {gs : List (List Nat)} {acc : List (Tree × Nat)}
    (h : dpSubgraphs solve size gs acc = none) : ∃ g ∈ gs, solve g = none := by
  induction gs generalizing acc with
  | nil => cases h
  | cons g gs ih =>
    rw [dpSubgraphs] at h
    split at h
    · rename_i hs
      exact ⟨g, List.mem_cons_self, hs⟩
    · cases h
    · obtain ⟨g', h1, h2⟩ := ih h
      exact ⟨g', List.mem_cons_of_mem _ h1, h2⟩

/-! ## The final tree -/

theorem represents_leaves {inputs : List (Finset Nat)} {output : Finset Nat} {t : Tree} {b : BTree} (h : Represents inputs output t b) : treeLeaves t = b.leaves := by
  induction h with
  | leaf i _ => rfl
  | wrapped i _ => simp [treeLeaves, forestLeaves, BTree.leaves]
  | node _ _ ih1 ih2 => simp [treeLeaves, forestLeaves, BTree.leaves, ih1, ih2]

theorem represents_proper {inputs : List (Finset Nat)} {output : Finset Nat} {t : Tree} {b : BTree} (h : Represents inputs output t b) : TreeProper t := by
  induction h with
  | leaf i _ => trivial
  | wrapped i _ => simp [TreeProper, ForestProper]
  | node _ _ ih1 ih2 => simp [TreeProper, ForestProper, ih1, ih2]

theorem nest_spec (ts : List Tree) (t : Tree) (ht : TreeProper t) (hts : ∀ u ∈ ts, TreeProper u) :
    treeLeaves (ts.foldl (fun x y => .node [x, y]) t) = treeLeaves t ++ ts.flatMap treeLeaves ∧ TreeProper (ts.foldl (fun x y => .node [x, y]) t) ∧
    ∀ (α : Type) (combine : Multiset α → α) (v : Nat → α), treeValue combine v (ts.foldl (fun x y => .node [x, y]) t) =
      ts.foldl (fun x u => combine {x, treeValue combine v u}) (treeValue combine v t) := by
  induction ts generalizing t with
  | nil => exact ⟨by simp, ht, fun _ _ _ => rfl⟩
  | cons u ts ih =>
    have hu := hts u List.mem_cons_self
    obtain ⟨h1, h2, h3⟩ := ih (.node [t, u]) (by simp [TreeProper, ForestProper, ht, hu]) (fun w hw => hts w (List.mem_cons_of_mem _ hw))
    refine ⟨?_, h2, ?_⟩
    · rw [List.foldl_cons, h1]
      simp [treeLeaves, forestLeaves]
    · intro α combine v
      rw [List.foldl_cons, h3, List.foldl_cons]
      rfl

theorem represents_nodes {inputs : List (Finset Nat)} {output : Finset Nat} {t : Tree} {b : BTree} (h : Represents inputs output t b) : treeNodes t + 1 ≤ 2 * b.leaves.length := by
  induction h with
  | leaf i _ => simp [treeNodes, BTree.leaves]
  | wrapped i _ => simp [treeNodes, forestNodes, BTree.leaves]
  | node _ _ ih1 ih2 =>
    simp only [treeNodes, forestNodes, BTree.leaves, List.length_append]
    omega

theorem nest_nodes (ts : List Tree) (t : Tree) : treeNodes (ts.foldl (fun x y => .node [x, y]) t) = treeNodes t + (ts.map treeNodes).sum + ts.length := by
  induction ts generalizing t with
  | nil => simp
  | cons u ts ih =>
    rw [List.foldl_cons, ih]
    simp only [treeNodes, forestNodes, List.map_cons, List.sum_cons, List.length_cons]
    omega

theorem forest_nodes {inputs : List (Finset Nat)} {output : Finset Nat} {l : List Tree} {bs : List BTree}
    (h : List.Forall₂ (Represents inputs output) l bs) :
    (l.map treeNodes).sum + l.length ≤ 2 * (bs.flatMap BTree.leaves).length ∧ l.length ≤ (bs.flatMap BTree.leaves).length := by
  induction h with
  | nil => simp
  | @cons t b l bs h1 _ ih =>
    have := represents_nodes h1
    have := BTree.leaves_pos b
    simp only [List.map_cons, List.sum_cons, List.length_cons, List.flatMap_cons, List.length_append]
    omega

theorem treeLoop_mono {fuel : Nat} {c : List (List Tree)} {t : List Nat} {s p : Path} (h : treeLoop fuel c t s = some p) (k : Nat) :
    treeLoop (fuel + k) c t s = some p := by
  induction fuel generalizing c t s with
  | zero =>
    cases c with
    | nil =>
      rw [treeLoop] at h ⊢
      exact h
    | cons j c => cases h
  | succ fuel ih =>
    cases c with
    | nil =>
      rw [treeLoop] at h ⊢
      exact h
    | cons j c =>
      rw [show fuel + 1 + k = fuel + k + 1 by omega]
      rw [treeLoop] at h ⊢
      exact ih h

theorem treeToSequence_mono {fuel : Nat} {t : Tree} {p : Path} (h : treeToSequence fuel t = some p) (k : Nat) : treeToSequence (fuel + k) t = some p := by
  cases t with
  | leaf i => exact h
  | node cs => exact treeLoop_mono h k

/-- A complete path; one input alone may also be left as it is. -/
def Complete1 (n : Nat) (path : Path) : Prop := CompletePath n path ∨ (n = 1 ∧ path = [])

theorem sequence_spec {n : Nat} {t : Tree} (hl : (treeLeaves t).Perm (List.range n)) (hp : TreeProper t) :
    ∃ path, (∀ fuel, treeNodes t ≤ fuel → treeToSequence fuel t = some path) ∧ Complete1 n path ∧
      ∀ (α : Type) (combine : Multiset α → α) (v : Nat → α), linExec combine ((List.range n).map v) path = [treeValue combine v t] := by
  cases t with
  | leaf i =>
    rw [treeLeaves] at hl
    have hn : n = 1 := by simpa using hl.length_eq.symm
    subst hn
    have hi : i = 0 := by simpa using hl
    subst hi
    exact ⟨[], fun _ _ => rfl, Or.inr ⟨rfl, rfl⟩, fun _ _ _ => rfl⟩
  | node cs =>
    obtain ⟨path, h1, h2, h3⟩ := C13_tree_to_sequence hl hp (Nat.le_refl _)
    refine ⟨path, ?_, Or.inl h2, h3⟩
    intro fuel hf
    rw [show fuel = treeNodes (.node cs) + (fuel - treeNodes (.node cs)) by omega]
    exact treeToSequence_mono h1 _

/-! ## The whole call -/

/-- An input that the summation of its lone labels turns into a scalar. -/
def Lone (inputs : List (Finset Nat)) (output : Finset Nat) (i : Nat) : Prop := openLabels inputs output {i} = ∅ ∧ inputs.getD i ∅ ≠ ∅

/-- What the optimizer has to deliver for a group of inputs: a tree of the kind searched for that is cheapest for its inputs,
which share no summed label with the other inputs. -/
structure GroupResult (cfg : DPCfg) (size : Nat → Nat) (limit : Option Nat) (inputs : List (Finset Nat)) (output : Finset Nat) (b : BTree) : Prop where
  allowed : Allowed cfg.searchOuter size output (openLabels inputs output) limit b
  minimal : ∀ b' : BTree, b'.set = b.set → Allowed cfg.searchOuter size output (openLabels inputs output) limit b' →
    btCost cfg.metric size (openLabels inputs output) b ≤ btCost cfg.metric size (openLabels inputs output) b'
  apart : ∀ i ∈ b.set, ∀ j, j < inputs.length → j ∉ b.set → ¬ Share inputs output i j
  linked : cfg.searchOuter = false → ∀ i ∈ b.set, ∀ j ∈ b.set, Chain inputs output b.set i j

/-- What the optimizer has to deliver: trees for groups of the inputs, whose results are contracted with each other one after the other, the
smallest first. -/
structure DpResult (cfg : DPCfg) (size : Nat → Nat) (limit : Option Nat) (inputs : List (Finset Nat)) (output : Finset Nat) (path : Path)
    (t : Tree) (ts : List Tree) (bs : List BTree) : Prop where
  complete : Complete1 inputs.length path
  trees : List.Forall₂ (Represents inputs output) (t :: ts) bs
  partition : (bs.flatMap BTree.leaves).Perm (List.range inputs.length)
  exec : ∀ (α : Type) (combine : Multiset α → α) (v : Nat → α), linExec combine ((List.range inputs.length).map v) path =
    [ts.foldl (fun x u => combine {x, treeValue combine v u}) (treeValue combine v t)]
  groups : ∀ b ∈ bs, GroupResult cfg size limit inputs output b
  ascending : (bs.map (fun b => ∏ c ∈ openLabels inputs output b.set, size c)).Pairwise (· ≤ ·)
  together : cfg.searchOuter = true → ∀ b ∈ bs, ∀ b' ∈ bs, b = b' ∨ (∃ i, b = .leaf i ∧ Lone inputs output i) ∨ ∃ i, b' = .leaf i ∧ Lone inputs output i

section
variable {cfg : DPCfg} {size : Nat → Nat} {limit : Option Nat} {inputs : List (Finset Nat)} {output : Finset Nat} {orig done : List Nat}

theorem ParseOK.hasLone (h : ParseOK inputs output orig done) {i : Nat} (hi : i ∈ done) : HasLone inputs output i := by
  unfold HasLone
  rw [(h.lone i hi).1]
  exact (h.lone i hi).2.symm

theorem lone_result (h : ParseOK inputs output orig done) {i : Nat} (hi : i ∈ done) : GroupResult cfg size limit inputs output (.leaf i) := by
  have hlt : i < inputs.length := List.mem_range.mp (h.perm.mem_iff.mp (List.mem_append_right _ hi))
  refine ⟨⟨by simp [BTree.leaves], fun _ => trivial, trivial⟩, fun _ _ _ => Nat.zero_le _, ?_, ?_⟩
  · intro a ha j hj hjs ⟨c, hc1, hc2, hc3⟩
    rw [BTree.set_leaf, Finset.mem_singleton] at ha hjs
    subst ha
    have : c ∈ openLabels inputs output {a} := by
      rw [mem_openLabels]
      exact ⟨⟨a, by simp, hc1⟩, Or.inr ⟨j, hj, by simpa using hjs, hc2⟩⟩
    rw [(h.lone a hi).1] at this
    simp at this
  · intro _ a ha b hb
    rw [BTree.set_leaf] at ha hb
    rw [BTree.set_leaf]
    rw [Finset.mem_singleton] at ha hb
    subst ha
    subst hb
    exact .refl (by simp)

theorem share_original (h : ParseOK inputs output orig done) {p q : Nat} (hp : p < orig.length) (hq : q < orig.length)
    (hsh : Share (dpParse inputs output).inputs output p q) : Share inputs output (orig.getD p 0) (orig.getD q 0) := by
  obtain ⟨c, h1, h2, h3⟩ := hsh
  rw [h.getD hp, mem_openLabels] at h1
  rw [h.getD hq, mem_openLabels] at h2
  obtain ⟨⟨x, hx, hcx⟩, -⟩ := h1
  obtain ⟨⟨y, hy, hcy⟩, -⟩ := h2
  rw [Finset.mem_singleton] at hx hy
  subst hx
  subst hy
  exact ⟨c, hcx, hcy, h3⟩

theorem chain_original (h : ParseOK inputs output orig done) {G : Finset Nat} (hG : ∀ p ∈ G, p < orig.length) {p q : Nat}
    (hch : Chain (dpParse inputs output).inputs output G p q) :
    Chain inputs output (G.image (fun p => orig.getD p 0)) (orig.getD p 0) (orig.getD q 0) := by
  induction hch with
  | refl hi => exact .refl (Finset.mem_image.mpr ⟨_, hi, rfl⟩)
  | step h1 h2 h3 ih => exact .step ih (share_original h (hG _ h1.mem.2) (hG _ h3) h2) (Finset.mem_image.mpr ⟨_, h3, rfl⟩)

theorem group_apart (h : ParseOK inputs output orig done) {G : Finset Nat} (hG : ∀ p ∈ G, p < orig.length)
    (hcl : Closed (dpParse inputs output).inputs output G) : ∀ i ∈ G.image (fun p => orig.getD p 0), ∀ j, j < inputs.length →
      j ∉ G.image (fun p => orig.getD p 0) → ¬ Share inputs output i j := by
  intro i hi j hj hjG ⟨c, hc1, hc2, hc3⟩
  obtain ⟨q, hq, rfl⟩ := Finset.mem_image.mp hi
  have hne : j ≠ orig.getD q 0 := by
    rintro rfl
    exact hjG hi
  obtain ⟨p, hp, hpj, -⟩ := closed_partner h hG hcl hq hc3 hc1 hj hne hc2
  exact hjG (Finset.mem_image.mpr ⟨p, hp, hpj⟩)

theorem group_result (h : ParseOK inputs output orig done) {gs : List (Finset Nat)} (hgs : GroupsOK cfg.searchOuter (dpParse inputs output).inputs output gs)
    {G : Finset Nat} (hG : G ∈ gs) {g : List Nat} (hg : g.Nodup) (hgG : g.toFinset = G) {naive : WithTop Nat} {fuel : Nat} {e : DPEntry}
    (hs : dpSubgraph cfg size output limit (dpParse inputs output).inputs (dpParse inputs output).contractions naive fuel g = some (.ok e)) :
    ∃ b, Represents inputs output e.tree b ∧ b.set = G.image (fun p => orig.getD p 0) ∧ GroupResult cfg size limit inputs output b ∧
      e.legs = openLabels inputs output b.set := by
  have hlt : ∀ p ∈ G, p < orig.length := fun p hp => h.length ▸ hgs.lt G hG p hp
  have hcore := core_of_closed h cfg size limit hgG hlt (hgs.closed G hG)
  have hch := dpSubgraph_ok hcore hg hgG (hgs.nonempty G hG) hs
  obtain ⟨b, h1, h2, h3, h4⟩ := cheapest_original h hlt hch
  refine ⟨b, h1, h2, ⟨h3, h4, ?_, ?_⟩, by rw [hch.choose_spec.2.2.1, h2]; rfl⟩
  · rw [h2]
    exact group_apart h hlt (hgs.closed G hG)
  · intro hso
    rw [h2]
    intro i hi j hj
    obtain ⟨p, hp, rfl⟩ := Finset.mem_image.mp hi
    obtain ⟨q, hq, rfl⟩ := Finset.mem_image.mp hj
    exact chain_original h hlt (hgs.chain hso G hG p hp q hq)

theorem set_card (b : BTree) (h : b.leaves.Nodup) : b.set.card = b.leaves.length := by
  unfold BTree.set
  rw [List.toFinset_card_of_nodup h]

/-- Trees for the groups of a partition of the inputs. -/
theorem partition_leaves {n : Nat} {bs : List BTree} (hnd : ∀ b ∈ bs, b.leaves.Nodup) (hdis : bs.Pairwise (fun a b => Disjoint a.set b.set))
    (hcov : ∀ i, i < n ↔ ∃ b ∈ bs, i ∈ b.set) : (bs.flatMap BTree.leaves).Perm (List.range n) := by
  apply (List.perm_ext_iff_of_nodup _ List.nodup_range).mpr
  · intro i
    rw [List.mem_range, hcov, List.mem_flatMap]
    unfold BTree.set
    simp only [List.mem_toFinset]
  · rw [List.nodup_flatMap]
    refine ⟨hnd, ?_⟩
    apply hdis.imp
    intro a b hab x hx hx'
    exact Finset.disjoint_left.mp hab (List.mem_toFinset.mpr hx) (List.mem_toFinset.mpr hx')

theorem sortBySize_perm (l : List (Tree × Nat)) : (sortBySize l).Perm (l.map (·.1)) := by
  unfold sortBySize
  exact (List.perm_insertionSort _ l).map _

theorem forall₂_mem {α β : Type} {R : α → β → Prop} {l : List α} {r : List β} (h : List.Forall₂ R l r) {a : α} (ha : a ∈ l) : ∃ b ∈ r, R a b := by
  induction h with
  | nil => cases ha
  | cons h1 _ ih =>
    rcases List.mem_cons.mp ha with rfl | ha
    · exact ⟨_, List.mem_cons_self, h1⟩
    · obtain ⟨b, hb1, hb2⟩ := ih ha
      exact ⟨b, List.mem_cons_of_mem _ hb1, hb2⟩

/-- A tree as the optimizer keeps it, with the size of its result. -/
def Sized (size : Nat → Nat) (inputs : List (Finset Nat)) (output : Finset Nat) (p : Tree × Nat) (b : BTree) : Prop :=
  Represents inputs output p.1 b ∧ p.2 = ∏ c ∈ openLabels inputs output b.set, size c

theorem assemble {l : List (Tree × Nat)} {bs : List BTree} (hl : List.Forall₂ (Sized size inputs output) l bs)
    (hpart : (bs.flatMap BTree.leaves).Perm (List.range inputs.length)) (hgr : ∀ b ∈ bs, GroupResult cfg size limit inputs output b)
    (htog : cfg.searchOuter = true → ∀ b ∈ bs, ∀ b' ∈ bs, b = b' ∨ (∃ i, b = .leaf i ∧ Lone inputs output i) ∨ ∃ i, b' = .leaf i ∧ Lone inputs output i)
    {l' : List (Tree × Nat)} (hp : l'.Perm l) (hsort : (l'.map (·.2)).Pairwise (· ≤ ·)) (hne : l' ≠ []) :
    ∃ path t ts bs', (∀ fuel, 2 * inputs.length ≤ fuel → sequenceOf fuel (simpleTreeTuple (l'.map (·.1))) = some (.ok path)) ∧
      (∀ fuel r, sequenceOf fuel (simpleTreeTuple (l'.map (·.1))) = some r → r = .ok path) ∧ DpResult cfg size limit inputs output path t ts bs' := by
  obtain ⟨bs', hrep', hperm⟩ := List.perm_comp_forall₂ hp hl
  have hrep : List.Forall₂ (Represents inputs output) (l'.map (·.1)) bs' := List.forall₂_map_left_iff.mpr (hrep'.imp (fun _ _ h => h.1))
  have hasc : (bs'.map (fun b => ∏ c ∈ openLabels inputs output b.set, size c)).Pairwise (· ≤ ·) := by
    have : l'.map (·.2) = bs'.map (fun b => ∏ c ∈ openLabels inputs output b.set, size c) := by
      clear hrep hsort hperm hne hp
      induction hrep' with
      | nil => rfl
      | cons h1 _ ih => rw [List.map_cons, List.map_cons, h1.2, ih]
    rw [← this]
    exact hsort
  have hne : l'.map (·.1) ≠ [] := by rw [ne_eq, List.map_eq_nil_iff]; exact hne
  clear hp hsort hrep'
  generalize l'.map (·.1) = l' at hrep hne ⊢
  match l', hne with
  | t :: ts, _ =>
    have hmem : ∀ u ∈ t :: ts, ∃ b, Represents inputs output u b := by
      intro u hu
      obtain ⟨b, -, hb⟩ := forall₂_mem hrep hu
      exact ⟨b, hb⟩
    have hprop : ∀ u ∈ t :: ts, TreeProper u := fun u hu => (hmem u hu).elim (fun b hb => represents_proper hb)
    obtain ⟨h1, h2, h3⟩ := nest_spec ts t (hprop t List.mem_cons_self) (fun u hu => hprop u (List.mem_cons_of_mem _ hu))
    have hleaves : ∀ {l : List Tree} {bs : List BTree}, List.Forall₂ (Represents inputs output) l bs → l.flatMap treeLeaves = bs.flatMap BTree.leaves := by
      intro l bs h
      induction h with
      | nil => rfl
      | cons h1 _ ih => rw [List.flatMap_cons, List.flatMap_cons, represents_leaves h1, ih]
    have hpart' : (bs'.flatMap BTree.leaves).Perm (List.range inputs.length) := (hperm.flatMap_right _).trans hpart
    obtain ⟨path, k1, k2, k3⟩ := sequence_spec (n := inputs.length) (t := ts.foldl (fun x y => .node [x, y]) t) (by
      rw [h1, ← List.flatMap_cons, hleaves hrep]
      exact hpart') h2
    refine ⟨path, t, ts, bs', ?_, ?_, ?_⟩
    · intro fuel hf
      have hn : treeNodes (ts.foldl (fun x y => .node [x, y]) t) ≤ fuel := by
        have h4 := forest_nodes hrep
        have h5 := hpart'.length_eq
        rw [List.length_range] at h5
        simp only [List.map_cons, List.sum_cons, List.length_cons] at h4
        rw [nest_nodes]
        omega
      simp only [simpleTreeTuple, sequenceOf, k1 fuel hn, Option.map_some]
    · intro fuel r hr
      simp only [simpleTreeTuple, sequenceOf] at hr
      cases hseq : treeToSequence fuel (ts.foldl (fun x y => .node [x, y]) t) with
      | none => rw [hseq] at hr; cases hr
      | some p =>
        rw [hseq] at hr
        cases hr
        have e1 := treeToSequence_mono hseq (treeNodes (ts.foldl (fun x y => .node [x, y]) t))
        rw [k1 _ (Nat.le_add_left _ _)] at e1
        cases e1
        rfl
    · refine ⟨k2, hrep, hpart', ?_, ?_, hasc, ?_⟩
      · intro α combine v
        rw [k3, h3]
      · intro b hb
        exact hgr b (hperm.mem_iff.mp hb)
      · intro hs b hb b' hb'
        exact htog hs b (hperm.mem_iff.mp hb) b' (hperm.mem_iff.mp hb')

theorem group_list (h : ParseOK inputs output orig done) {order : PopOrder} (ho : PopOK order) {naive : WithTop Nat} {fuel : Nat} {gs : List (Finset Nat)}
    (all : List (Finset Nat)) (hgs : GroupsOK cfg.searchOuter (dpParse inputs output).inputs output all) (hsub : ∀ G ∈ gs, G ∈ all) {es : List DPEntry}
    (hes : List.Forall₂ (fun g e => dpSubgraph cfg size output limit (dpParse inputs output).inputs (dpParse inputs output).contractions naive fuel g = some (.ok e))
      (gs.map (order.list [])) es) :
    ∃ bs, List.Forall₂ (fun e b => Represents inputs output e.tree b ∧ e.legs = openLabels inputs output b.set) es bs ∧ bs.map BTree.set = gs.map (fun G => G.image (fun p => orig.getD p 0)) ∧
      ∀ b ∈ bs, GroupResult cfg size limit inputs output b := by
  induction gs generalizing es with
  | nil =>
    cases hes
    exact ⟨[], .nil, rfl, by simp⟩
  | cons G gs ih =>
    rw [List.map_cons] at hes
    cases hes with
    | cons hh ht =>
      obtain ⟨bs, i1, i2, i3⟩ := ih (fun G' hG' => hsub G' (List.mem_cons_of_mem _ hG')) ht
      have hset : (order.list [] G).toFinset = G := by
        ext x
        rw [List.mem_toFinset, (ho.2 [] G).2]
      obtain ⟨b, j1, j2, j3, j4⟩ := group_result h hgs (hsub G List.mem_cons_self) (ho.2 [] G).1 hset hh
      refine ⟨b :: bs, .cons ⟨j1, j4⟩ i1, by simp [j2, i2], ?_⟩
      intro b' hb'
      rcases List.mem_cons.mp hb' with rfl | hb'
      · exact j3
      · exact i3 b' hb'

theorem sized_lone (h : ParseOK inputs output orig done) {i : Nat} (hi : i ∈ done) : Sized size inputs output (.node [.leaf i], 1) (.leaf i) := by
  refine ⟨.wrapped i (h.hasLone hi), ?_⟩
  rw [BTree.set_leaf, (h.lone i hi).1, Finset.prod_empty]

/-- What the trees found for the groups, and the scalars, amount to. -/
theorem all_groups (h : ParseOK inputs output orig done) {order : PopOrder} (ho : PopOK order) {naive : WithTop Nat} {fuel : Nat} {gs : List (Finset Nat)}
    (hgs : GroupsOK cfg.searchOuter (dpParse inputs output).inputs output gs) {es : List DPEntry}
    (hes : List.Forall₂ (fun g e => dpSubgraph cfg size output limit (dpParse inputs output).inputs (dpParse inputs output).contractions naive fuel g = some (.ok e))
      (gs.map (order.list [])) es) :
    ∃ bs, List.Forall₂ (Sized size inputs output) (done.map (fun i => (.node [.leaf i], 1)) ++ es.map (fun e => (e.tree, Paths.sizeOf size e.legs))) bs ∧
      (bs.flatMap BTree.leaves).Perm (List.range inputs.length) ∧ (∀ b ∈ bs, GroupResult cfg size limit inputs output b) ∧
      (cfg.searchOuter = true → ∀ b ∈ bs, ∀ b' ∈ bs, b = b' ∨ (∃ i, b = .leaf i ∧ Lone inputs output i) ∨ ∃ i, b' = .leaf i ∧ Lone inputs output i) := by
  obtain ⟨bs, h1, h2, h3⟩ := group_list h ho gs hgs (fun _ hG => hG) hes
  have hmem : ∀ b ∈ bs, ∃ G ∈ gs, b.set = G.image (fun p => orig.getD p 0) := by
    intro b hb
    have : b.set ∈ bs.map BTree.set := List.mem_map.mpr ⟨b, hb, rfl⟩
    rw [h2] at this
    obtain ⟨G, hG, he⟩ := List.mem_map.mp this
    exact ⟨G, hG, he.symm⟩
  have hmem' : ∀ G ∈ gs, ∃ b ∈ bs, b.set = G.image (fun p => orig.getD p 0) := by
    intro G hG
    have : G.image (fun p => orig.getD p 0) ∈ gs.map (fun G => G.image (fun p => orig.getD p 0)) := List.mem_map.mpr ⟨G, hG, rfl⟩
    rw [← h2] at this
    obtain ⟨b, hb, he⟩ := List.mem_map.mp this
    exact ⟨b, hb, he⟩
  have hlt : ∀ G ∈ gs, ∀ p ∈ G, p < orig.length := fun G hG p hp => h.length ▸ hgs.lt G hG p hp
  refine ⟨done.map BTree.leaf ++ bs, ?_, ?_, ?_, ?_⟩
  · apply List.rel_append
    · exact List.forall₂_map_left_iff.mpr (List.forall₂_map_right_iff.mpr (List.forall₂_same.mpr (fun i hi => sized_lone h hi)))
    · exact List.forall₂_map_left_iff.mpr (h1.imp (fun e b he => ⟨he.1, by rw [← he.2]; rfl⟩))
  · apply partition_leaves
    · intro b hb
      rcases List.mem_append.mp hb with hb | hb
      · obtain ⟨i, -, rfl⟩ := List.mem_map.mp hb
        simp [BTree.leaves]
      · exact (h3 b hb).allowed.1
    · rw [List.pairwise_append]
      refine ⟨?_, ?_, ?_⟩
      · rw [List.pairwise_map]
        apply h.nodup.2.1.imp
        intro a b hab
        rw [BTree.set_leaf, BTree.set_leaf]
        simpa using hab
      · have : (bs.map BTree.set).Pairwise Disjoint := by
          rw [h2, List.pairwise_map]
          apply List.Pairwise.imp_of_mem _ hgs.disjoint
          intro a b ha hb hab
          rw [Finset.disjoint_left]
          intro x hx hx'
          obtain ⟨p, hp, rfl⟩ := Finset.mem_image.mp hx
          obtain ⟨q, hq, he⟩ := Finset.mem_image.mp hx'
          have := h.inj (hlt b hb q hq) (hlt a ha p hp) he
          subst this
          exact Finset.disjoint_left.mp hab hp hq
        rw [List.pairwise_map] at this
        exact this
      · intro a ha b hb
        obtain ⟨i, hi, rfl⟩ := List.mem_map.mp ha
        obtain ⟨G, hG, he⟩ := hmem b hb
        rw [BTree.set_leaf, he, Finset.disjoint_singleton_left]
        intro hx
        obtain ⟨p, hp, rfl⟩ := Finset.mem_image.mp hx
        exact h.nodup.2.2 _ (getD_mem (hlt G hG p hp)) hi
    · intro i
      rw [← List.mem_range, ← h.perm.mem_iff, List.mem_append]
      constructor
      · rintro (hi | hi)
        · obtain ⟨p, hp, he⟩ := List.mem_iff_getElem.mp hi
          obtain ⟨G, hG, hpG⟩ := hgs.cover p (by rw [h.length]; exact hp)
          obtain ⟨b, hb, hbs⟩ := hmem' G hG
          refine ⟨b, List.mem_append_right _ hb, ?_⟩
          rw [hbs]
          refine Finset.mem_image.mpr ⟨p, hpG, ?_⟩
          rw [List.getD_eq_getElem?_getD, List.getElem?_eq_getElem hp]
          exact he
        · exact ⟨.leaf i, List.mem_append_left _ (List.mem_map.mpr ⟨i, hi, rfl⟩), by rw [BTree.set_leaf]; simp⟩
      · rintro ⟨b, hb, hi⟩
        rcases List.mem_append.mp hb with hb | hb
        · obtain ⟨j, hj, rfl⟩ := List.mem_map.mp hb
          rw [BTree.set_leaf, Finset.mem_singleton] at hi
          subst hi
          exact Or.inr hj
        · obtain ⟨G, hG, he⟩ := hmem b hb
          rw [he] at hi
          obtain ⟨p, hp, rfl⟩ := Finset.mem_image.mp hi
          exact Or.inl (getD_mem (hlt G hG p hp))
  · intro b hb
    rcases List.mem_append.mp hb with hb | hb
    · obtain ⟨i, hi, rfl⟩ := List.mem_map.mp hb
      exact lone_result h hi
    · exact h3 b hb
  · intro hs b hb b' hb'
    rcases List.mem_append.mp hb with hb | hb
    · obtain ⟨i, hi, rfl⟩ := List.mem_map.mp hb
      exact Or.inr (Or.inl ⟨i, rfl, h.lone i hi⟩)
    · rcases List.mem_append.mp hb' with hb' | hb'
      · obtain ⟨i, hi, rfl⟩ := List.mem_map.mp hb'
        exact Or.inr (Or.inr ⟨i, rfl, h.lone i hi⟩)
      · left
        have hlen : bs.length = 1 := by
          have := congrArg List.length h2
          rw [List.length_map, List.length_map, hgs.single hs] at this
          exact this
        obtain ⟨b0, rfl⟩ := List.length_eq_one_iff.mp hlen
        rw [List.mem_singleton] at hb hb'
        rw [hb, hb']

/-- If all inputs become scalars. -/
theorem only_scalars (h : ParseOK inputs output orig done) (hne : inputs ≠ []) (hP : (dpParse inputs output).inputs = []) :
    ∃ path t ts bs, (∀ fuel, 2 * inputs.length ≤ fuel → sequenceOf fuel (simpleTreeTuple (dpParse inputs output).done) = some (.ok path)) ∧
      (∀ fuel r, sequenceOf fuel (simpleTreeTuple (dpParse inputs output).done) = some r → r = .ok path) ∧
      DpResult cfg size limit inputs output path t ts bs := by
  have horig : orig = [] := by
    have := h.length
    rw [hP] at this
    exact List.length_eq_zero_iff.mp this.symm
  have hd : done ≠ [] := by
    rintro rfl
    have := h.perm.length_eq
    rw [horig] at this
    simp only [List.append_nil, List.length_nil, List.length_range] at this
    exact hne (List.length_eq_zero_iff.mp this.symm)
  have hperm := h.perm
  rw [horig, List.nil_append] at hperm
  rw [h.done_eq]
  have hm : done.map (fun i => Tree.node [.leaf i]) = (done.map (fun i => (Tree.node [.leaf i], 1))).map (·.1) := by rw [List.map_map]; rfl
  rw [hm]
  apply assemble (l := done.map (fun i => (Tree.node [.leaf i], 1))) (bs := done.map BTree.leaf) _ _ _ _ (List.Perm.refl _)
  · rw [List.map_map]
    apply List.pairwise_of_forall_mem_list
    intro a ha b hb
    obtain ⟨i, -, rfl⟩ := List.mem_map.mp ha
    obtain ⟨j, -, rfl⟩ := List.mem_map.mp hb
    exact le_refl _
  · rw [ne_eq, List.map_eq_nil_iff]
    exact hd
  · exact List.forall₂_map_left_iff.mpr (List.forall₂_map_right_iff.mpr (List.forall₂_same.mpr (fun i hi => sized_lone h hi)))
  · rw [List.flatMap_map]
    simp only [BTree.leaves]
    rw [List.flatMap_singleton']
    exact hperm
  · intro b hb
    obtain ⟨i, hi, rfl⟩ := List.mem_map.mp hb
    exact lone_result h hi
  · intro _ b hb b' _
    obtain ⟨i, hi, rfl⟩ := List.mem_map.mp hb
    exact Or.inr (Or.inl ⟨i, rfl, h.lone i hi⟩)

/-- If not all inputs become scalars: the result from the results for the groups. -/
theorem some_groups (h : ParseOK inputs output orig done) {order : PopOrder} (ho : PopOK order) {naive : WithTop Nat} {fuel : Nat} {gs : List (Finset Nat)}
    (hP : (dpParse inputs output).inputs ≠ []) (hgs : GroupsOK cfg.searchOuter (dpParse inputs output).inputs output gs) {l : List (Tree × Nat)}
    (hl : dpSubgraphs (dpSubgraph cfg size output limit (dpParse inputs output).inputs (dpParse inputs output).contractions naive fuel) size
      (gs.map (order.list [])) ((dpParse inputs output).done.map (fun t => (t, 1))) = some (.ok l)) :
    ∃ path t ts bs, (∀ fuel, 2 * inputs.length ≤ fuel → sequenceOf fuel (simpleTreeTuple (sortBySize l)) = some (.ok path)) ∧
      (∀ fuel r, sequenceOf fuel (simpleTreeTuple (sortBySize l)) = some r → r = .ok path) ∧ DpResult cfg size limit inputs output path t ts bs := by
  obtain ⟨es, h1, h2⟩ := dpSubgraphs_ok hl
  obtain ⟨bs, k1, k2, k3, k4⟩ := all_groups h ho hgs h1
  have hl' : l = done.map (fun i => (.node [.leaf i], 1)) ++ es.map (fun e => (e.tree, Paths.sizeOf size e.legs)) := by
    rw [h2, h.done_eq, List.map_map]
    rfl
  unfold sortBySize
  apply assemble k1 k2 k3 k4
  · rw [← hl']
    exact List.perm_insertionSort _ l
  · rw [List.pairwise_map]
    exact List.pairwise_insertionSort (fun a b : Tree × Nat => a.2 ≤ b.2) l
  · intro h0
    have hlen := (List.perm_insertionSort (fun a b : Tree × Nat => a.2 ≤ b.2) l).length_eq
    rw [h0, hl', List.length_append, List.length_map, List.length_map, List.length_nil] at hlen
    have hes : es.length = gs.length := by
      have := h1.length_eq
      rw [List.length_map] at this
      exact this.symm
    obtain ⟨G, hG, -⟩ := hgs.cover 0 (List.length_pos_iff.mpr hP)
    have := List.length_pos_of_mem hG
    omega

/-- Whenever the optimizer returns a path, it is one that the specification allows. -/
theorem dp_result {order : PopOrder} (ho : PopOK order) (hne : inputs ≠ []) {fuel : Nat} {path : Path}
    (hcall : dpCall cfg order size limit inputs output fuel = some (.ok path)) : ∃ t ts bs, DpResult cfg size limit inputs output path t ts bs := by
  obtain ⟨orig, done, h⟩ := dpParse_ok inputs output
  unfold dpCall at hcall
  simp only at hcall
  split at hcall
  · rename_i hP
    obtain ⟨path', t, ts, bs, -, h2, h3⟩ := only_scalars (cfg := cfg) (size := size) (limit := limit) h hne hP
    have := h2 _ _ hcall
    cases this
    exact ⟨t, ts, bs, h3⟩
  · rename_i hP
    obtain ⟨gs, hg, hgs⟩ := dpGroups_ok ho cfg hP output
    rw [hg] at hcall
    simp only at hcall
    split at hcall
    · cases hcall
    · cases hcall
    · rename_i l hl
      obtain ⟨path', t, ts, bs, -, h2, h3⟩ := some_groups h ho hP hgs hl
      have := h2 _ _ hcall
      cases this
      exact ⟨t, ts, bs, h3⟩

/-- If the search of every group ends, the call ends: with a path, or with the error of one of the groups. -/
theorem dp_total {order : PopOrder} (ho : PopOK order) (hne : inputs ≠ []) (h : ParseOK inputs output orig done)
    (hend : ∀ G, (∀ p ∈ G, p < orig.length) → 0 < G.card → Closed (dpParse inputs output).inputs output G →
      (cfg.searchOuter = true → G = Finset.range orig.length) →
      (cfg.searchOuter = false → ∀ i ∈ G, ∀ j ∈ G, Chain (dpParse inputs output).inputs output G i j) →
      ∃ F, ∀ fuel, F ≤ fuel → ∃ r, dpSubgraph cfg size output limit (dpParse inputs output).inputs (dpParse inputs output).contractions
        (naiveCost cfg.metric size inputs output) fuel (order.list [] G) = some r) :
    ∃ F, ∀ fuel, F ≤ fuel → (∃ path, dpCall cfg order size limit inputs output fuel = some (.ok path)) ∨
      ∃ G e, (∀ p ∈ G, p < orig.length) ∧ 0 < G.card ∧ Closed (dpParse inputs output).inputs output G ∧
        (cfg.searchOuter = true → G = Finset.range orig.length) ∧
        (cfg.searchOuter = false → ∀ i ∈ G, ∀ j ∈ G, Chain (dpParse inputs output).inputs output G i j) ∧
        dpSubgraph cfg size output limit (dpParse inputs output).inputs (dpParse inputs output).contractions
          (naiveCost cfg.metric size inputs output) fuel (order.list [] G) = some (.error e) ∧
        dpCall cfg order size limit inputs output fuel = some (.error e) := by
  by_cases hP : (dpParse inputs output).inputs = []
  · obtain ⟨path, t, ts, bs, hF, -, -⟩ := only_scalars (cfg := cfg) (size := size) (limit := limit) h hne hP
    refine ⟨2 * inputs.length, fun fuel hf => Or.inl ⟨path, ?_⟩⟩
    unfold dpCall
    simp only
    rw [if_pos hP, hF fuel hf]
  · obtain ⟨gs, hg, hgs⟩ := dpGroups_ok ho cfg hP output
    have hout : cfg.searchOuter = true → ∀ G ∈ gs, G = Finset.range orig.length := by
      intro hs G hG
      unfold dpGroups at hg
      rw [if_pos hs] at hg
      cases hg
      rw [List.mem_singleton] at hG
      rw [hG, h.length]
    have hlt : ∀ G ∈ gs, ∀ p ∈ G, p < orig.length := fun G hG p hp => h.length ▸ hgs.lt G hG p hp
    -- fuel for all groups
    have hall : ∀ l : List (Finset Nat), (∀ G ∈ l, G ∈ gs) → ∃ F, ∀ fuel, F ≤ fuel → ∀ G ∈ l, ∃ r,
        dpSubgraph cfg size output limit (dpParse inputs output).inputs (dpParse inputs output).contractions
          (naiveCost cfg.metric size inputs output) fuel (order.list [] G) = some r := by
      intro l
      induction l with
      | nil => intro _; exact ⟨0, fun _ _ G hG => by cases hG⟩
      | cons G l ih =>
        intro hl
        obtain ⟨F, hF⟩ := ih (fun G' hG' => hl G' (List.mem_cons_of_mem _ hG'))
        have hG := hl G List.mem_cons_self
        obtain ⟨F', hF'⟩ := hend G (hlt G hG) (hgs.nonempty G hG) (hgs.closed G hG) (fun hs => hout hs G hG) (fun hs => hgs.chain hs G hG)
        refine ⟨max F F', fun fuel hf G' hG' => ?_⟩
        rcases List.mem_cons.mp hG' with rfl | hG'
        · exact hF' fuel (by omega)
        · exact hF fuel (by omega) G' hG'
    obtain ⟨F, hF⟩ := hall gs (fun _ hG => hG)
    refine ⟨max F (2 * inputs.length), fun fuel hf => ?_⟩
    unfold dpCall
    simp only
    rw [if_neg hP, hg]
    simp only
    cases hl : dpSubgraphs (dpSubgraph cfg size output limit (dpParse inputs output).inputs (dpParse inputs output).contractions
        (naiveCost cfg.metric size inputs output) fuel) size (gs.map (order.list [])) ((dpParse inputs output).done.map (fun t => (t, 1))) with
    | none =>
      obtain ⟨g, hg', hn⟩ := dpSubgraphs_none hl
      obtain ⟨G, hG, rfl⟩ := List.mem_map.mp hg'
      obtain ⟨r, hr⟩ := hF fuel (by omega) G hG
      rw [hr] at hn
      cases hn
    | some r =>
      cases r with
      | error e =>
        right
        obtain ⟨g, hg', he⟩ := dpSubgraphs_error hl
        obtain ⟨G, hG, rfl⟩ := List.mem_map.mp hg'
        exact ⟨G, e, hlt G hG, hgs.nonempty G hG, hgs.closed G hG, fun hs => hout hs G hG, fun hs => hgs.chain hs G hG, he, rfl⟩
      | ok l =>
        left
        obtain ⟨path, t, ts, bs, h1, -, -⟩ := some_groups h ho hP hgs hl
        exact ⟨path, h1 fuel (by omega)⟩

end

end OE.Props
