import Verif.Spec.Dp
import Verif.Lemmas.DictLemmas
import Mathlib.Data.Nat.Bitwise

/-!
# The dynamic-programming search of one subgraph
-/

namespace OE.Props
open OE OE.Py OE.Spec OE.Paths

/-! ## Bitmaps -/

/-- The number `s` is the bitmap of the set `S`. -/
def IsBm (s : Nat) (S : Finset Nat) : Prop := ∀ j, s.testBit j = decide (j ∈ S)

theorem IsBm.inj {s s' : Nat} {S : Finset Nat} (h : IsBm s S) (h' : IsBm s' S) : s = s' :=
  Nat.eq_of_testBit_eq (fun j => by rw [h j, h' j])

theorem IsBm.set_inj {s : Nat} {S S' : Finset Nat} (h : IsBm s S) (h' : IsBm s S') : S = S' := by
  ext j
  have := (h j).symm.trans (h' j)
  simpa using this

theorem isBm_zero : IsBm 0 ∅ := fun j => by simp

theorem isBm_shift (j : Nat) : IsBm (1 <<< j) {j} := fun k => by
  rw [Nat.one_shiftLeft, Nat.testBit_two_pow]
  simp [eq_comm]

theorem IsBm.or {s s' : Nat} {S S' : Finset Nat} (h : IsBm s S) (h' : IsBm s' S') : IsBm (s ||| s') (S ∪ S') := fun j => by
  rw [Nat.testBit_or, h j, h' j]
  simp

theorem IsBm.and_eq_zero {s s' : Nat} {S S' : Finset Nat} (h : IsBm s S) (h' : IsBm s' S') : s &&& s' = 0 ↔ Disjoint S S' := by
  rw [Finset.disjoint_left]
  constructor
  · intro h0 j hj hj'
    have : (s &&& s').testBit j = true := by rw [Nat.testBit_and, h j, h' j]; simp [hj, hj']
    rw [h0] at this
    simp at this
  · intro hd
    apply Nat.eq_of_testBit_eq
    intro j
    rw [Nat.testBit_and, h j, h' j, Nat.zero_testBit]
    simp only [Bool.and_eq_false_iff, decide_eq_false_iff_not]
    by_cases hj : j ∈ S
    · exact Or.inr (hd hj)
    · exact Or.inl hj

theorem isBm_foldl (l : List Nat) (s : Nat) (S : Finset Nat) (h : IsBm s S) :
    IsBm ((l.map (fun j => 1 <<< j)).foldl (· ||| ·) s) (S ∪ l.toFinset) := by
  induction l generalizing s S with
  | nil => simpa using h
  | cons a l ih =>
    have := ih (s ||| 1 <<< a) (S ∪ {a}) (h.or (isBm_shift a))
    simp only [List.map_cons, List.foldl_cons, List.toFinset_cons]
    rw [show S ∪ insert a l.toFinset = S ∪ {a} ∪ l.toFinset by ext; simp]
    exact this

theorem mem_unionList {l : List (Finset Nat)} {c : Nat} : c ∈ l.foldr (· ∪ ·) ∅ ↔ ∃ s ∈ l, c ∈ s := by
  induction l with
  | nil => simp
  | cons x xs ih => simp [ih]

theorem mem_bitmapSelect {s : Nat} {S : Finset Nat} (h : IsBm s S) (seq : List (Finset Nat)) {c : Nat} :
    c ∈ (bitmapSelect s seq).foldr (· ∪ ·) ∅ ↔ ∃ j ∈ S, c ∈ seq.getD j ∅ := by
  rw [mem_unionList]
  unfold bitmapSelect
  constructor
  · rintro ⟨t, ht, hc⟩
    simp only [List.mem_map, List.mem_filter, Prod.exists, exists_and_right, exists_eq_right] at ht
    obtain ⟨j, hj, hb⟩ := ht
    rw [h j] at hb
    refine ⟨j, by simpa using hb, ?_⟩
    rw [List.mem_zipIdx_iff_getElem?] at hj
    simp only at hj
    rw [List.getD_eq_getElem?_getD, hj]
    exact hc
  · rintro ⟨j, hj, hc⟩
    rw [List.getD_eq_getElem?_getD] at hc
    cases hg : seq[j]? with
    | none => rw [hg] at hc; simp at hc
    | some t =>
      rw [hg] at hc
      refine ⟨t, ?_, hc⟩
      simp only [List.mem_map, List.mem_filter, Prod.exists, exists_and_right, exists_eq_right]
      refine ⟨j, ?_, by rw [h j]; simpa using hj⟩
      rw [List.mem_zipIdx_iff_getElem?]
      exact hg

/-! ## Trees -/

theorem BTree.set_node (l r : BTree) : (BTree.node l r).set = l.set ∪ r.set := by
  unfold BTree.set
  rw [BTree.leaves, List.toFinset_append]

theorem BTree.set_leaf (i : Nat) : (BTree.leaf i).set = {i} := by
  unfold BTree.set
  rw [BTree.leaves]
  rfl

theorem BTree.set_nonempty (b : BTree) : b.set.Nonempty := by
  induction b with
  | leaf i => rw [BTree.set_leaf]; simp
  | node l r ihl _ =>
    rw [BTree.set_node]
    exact ihl.mono Finset.subset_union_left

theorem BTree.leaves_pos (b : BTree) : 0 < b.leaves.length := by
  cases hb : b.leaves with
  | nil =>
    obtain ⟨x, hx⟩ := BTree.set_nonempty b
    unfold BTree.set at hx
    rw [hb] at hx
    simp at hx
  | cons => simp

theorem BTree.nodup_node {l r : BTree} : (BTree.node l r).leaves.Nodup ↔ l.leaves.Nodup ∧ r.leaves.Nodup ∧ Disjoint l.set r.set := by
  rw [BTree.leaves, List.nodup_append']
  unfold BTree.set
  rw [Finset.disjoint_left]
  simp only [List.mem_toFinset]
  rfl

theorem stepCost_mono {metric : Metric} {f mem c1 c2 d1 d2 : Nat} (h1 : c1 ≤ d1) (h2 : c2 ≤ d2) :
    stepCost metric f mem c1 c2 ≤ stepCost metric f mem d1 d2 := by
  cases metric with
  | custom fn =>
    simp only [stepCost]
    refine (fn.mono f mem c1 d1 c2 h1).trans ?_
    rw [fn.comm f mem d1 c2, fn.comm f mem d1 d2]
    exact fn.mono f mem c2 d2 d1 h2
  | _ => simp only [stepCost]; omega

theorem stepCost_le {metric : Metric} {f mem c1 c2 : Nat} : c1 ≤ stepCost metric f mem c1 c2 ∧ c2 ≤ stepCost metric f mem c1 c2 := by
  cases metric with
  | custom fn =>
    simp only [stepCost]
    exact ⟨fn.le f mem c1 c2, by rw [fn.comm]; exact fn.le f mem c2 c1⟩
  | _ => simp only [stepCost]; omega

theorem stepCost_comm {metric : Metric} {f mem c1 c2 : Nat} : stepCost metric f mem c1 c2 = stepCost metric f mem c2 c1 := by
  cases metric with
  | custom fn => exact fn.comm f mem c1 c2
  | _ => simp only [stepCost]; omega

theorem btCost_swap (metric : Metric) (size : Nat → Nat) (L : Finset Nat → Finset Nat) (l r : BTree) :
    btCost metric size L (.node l r) = btCost metric size L (.node r l) := by
  rw [btCost, btCost, stepCost_comm, Finset.union_comm (L l.set), Finset.union_comm l.set]

theorem allowed_swap {searchOuter : Bool} {size : Nat → Nat} {output : Finset Nat} {L : Finset Nat → Finset Nat} {limit : Option Nat} {l r : BTree}
    (h : Allowed searchOuter size output L limit (.node l r)) : Allowed searchOuter size output L limit (.node r l) := by
  obtain ⟨h1, h2, h3⟩ := h
  rw [BTree.nodup_node] at h1
  refine ⟨BTree.nodup_node.mpr ⟨h1.2.1, h1.1, h1.2.2.symm⟩, ?_, ?_⟩
  · intro hs
    obtain ⟨⟨c, hc1, hc2, hc3⟩, hl, hr⟩ := h2 hs
    exact ⟨⟨c, hc2, hc1, hc3⟩, hr, hl⟩
  · obtain ⟨hm, hl, hr⟩ := h3
    exact ⟨fun m hm' => by rw [Finset.union_comm]; exact hm m hm', hr, hl⟩

theorem allowed_node {searchOuter : Bool} {size : Nat → Nat} {output : Finset Nat} {L : Finset Nat → Finset Nat} {limit : Option Nat} {l r : BTree} :
    Allowed searchOuter size output L limit (.node l r) ↔
      Allowed searchOuter size output L limit l ∧ Allowed searchOuter size output L limit r ∧ Disjoint l.set r.set ∧
      (searchOuter = false → ∃ c, c ∈ L l.set ∧ c ∈ L r.set ∧ c ∉ output) ∧
      ∀ m, limit = some m → ∏ c ∈ L (l.set ∪ r.set), size c ≤ m := by
  unfold Allowed
  rw [BTree.nodup_node, NoOuter, Fits]
  tauto

/-! ## The comparison functions -/

theorem nested_if {α : Type} (a b c : Prop) [Decidable a] [Decidable b] [Decidable c] (x y : α) :
    (if a then if b then if c then x else y else y else y) = if a ∧ b ∧ c then x else y := by
  by_cases ha : a
  · by_cases hb : b
    · by_cases hc : c
      · rw [if_pos ha, if_pos hb, if_pos hc, if_pos ⟨ha, hb, hc⟩]
      · rw [if_pos ha, if_pos hb, if_neg hc, if_neg (fun h => hc h.2.2)]
    · rw [if_pos ha, if_neg hb, if_neg (fun h => hb h.2.1)]
  · rw [if_neg ha, if_neg (fun h => ha h.1)]

theorem checkContraction_eq (ctx : DPCtx) (cap : WithTop Nat) (s1 s2 : Nat) (e1 e2 : DPEntry) (cut union : Finset Nat) (xn : DPTable) :
    checkContraction ctx cap s1 s2 e1 e2 cut union xn =
      let i := dpCalcLegs ctx.g ctx.allTensors (s1 ||| s2) ctx.inputs cut union
      let cost := stepCost ctx.metric (sizeOf ctx.size union) (sizeOf ctx.size i) e1.cost e2.cost
      if WithTop.some cost ≤ cap ∧ improves xn (s1 ||| s2) cost = true ∧ memOk ctx.memoryLimit (sizeOf ctx.size i) = true then
        xn.set (s1 ||| s2) ⟨i, cost, .node [e1.tree, e2.tree]⟩
      else xn := by
  unfold checkContraction
  cases ctx.metric <;> simp only [dpCompareFlops, dpCompareSize, dpCompareWrite, dpCompareCombo, dpCompareCustom, stepCost] <;> exact nested_if ..

/-- `xn'` has everything that `xn` has, at no higher cost. -/
def Better (xn xn' : DPTable) : Prop := ∀ s e, xn.get? s = some e → ∃ e', xn'.get? s = some e' ∧ e'.cost ≤ e.cost

theorem Better.refl (xn : DPTable) : Better xn xn := fun _ e h => ⟨e, h, Nat.le_refl _⟩

theorem Better.trans {a b c : DPTable} (h : Better a b) (h' : Better b c) : Better a c := by
  intro s e he
  obtain ⟨e1, h1, h2⟩ := h s e he
  obtain ⟨e2, h3, h4⟩ := h' s e1 h1
  exact ⟨e2, h3, h4.trans h2⟩

theorem better_check (ctx : DPCtx) (cap : WithTop Nat) (s1 s2 : Nat) (e1 e2 : DPEntry) (cut union : Finset Nat) (xn : DPTable) :
    Better xn (checkContraction ctx cap s1 s2 e1 e2 cut union xn) := by
  rw [checkContraction_eq]
  simp only
  split
  · rename_i h
    intro s e he
    rw [Dict.get?_set]
    by_cases hs : s = s1 ||| s2
    · rw [if_pos hs]
      subst hs
      refine ⟨_, rfl, ?_⟩
      have := h.2.1
      unfold improves at this
      rw [he] at this
      simp only [decide_eq_true_eq] at this
      exact Nat.le_of_lt this
    · rw [if_neg hs]
      exact ⟨e, he, Nat.le_refl _⟩
  · exact .refl _

theorem better_tryPair (ctx : DPCtx) (cap : WithTop Nat) (n m : Nat) (p1 p2 : Nat × DPEntry) (xn : DPTable) : Better xn (tryPair ctx cap n m p1 p2 xn) := by
  unfold tryPair
  split
  · simp only
    split
    · exact better_check _ _ _ _ _ _ _ _ _
    · exact .refl _
  · exact .refl _

theorem better_foldl {α : Type} {f : DPTable → α → DPTable} (l : List α) (hf : ∀ t a, Better t (f t a)) (t : DPTable) : Better t (l.foldl f t) := by
  induction l generalizing t with
  | nil => exact .refl _
  | cons a l ih => exact (hf t a).trans (ih _)

/-- The table has an entry for `s` that costs at most `c`. -/
def HasLe (xn : DPTable) (s c : Nat) : Prop := ∃ e, xn.get? s = some e ∧ e.cost ≤ c

theorem HasLe.better {xn xn' : DPTable} {s c : Nat} (h : HasLe xn s c) (hb : Better xn xn') : HasLe xn' s c := by
  obtain ⟨e, h1, h2⟩ := h
  obtain ⟨e', h3, h4⟩ := hb s e h1
  exact ⟨e', h3, h4.trans h2⟩

theorem hasLe_foldl {α : Type} {f : DPTable → α → DPTable} {l : List α} (hf : ∀ t a, Better t (f t a)) {a : α} (ha : a ∈ l) {s c : Nat}
    (hit : ∀ t, HasLe (f t a) s c) (t : DPTable) : HasLe (l.foldl f t) s c := by
  induction l generalizing t with
  | nil => cases ha
  | cons b l ih =>
    rcases List.mem_cons.mp ha with rfl | ha
    · exact (hit t).better (better_foldl l hf _)
    · exact ih ha _

theorem mem_set {κ ν : Type} [DecidableEq κ] {d : Dict κ ν} {k : κ} {v : ν} {p : κ × ν} (h : p ∈ d.set k v) : p ∈ d ∨ p = (k, v) := by
  induction d with
  | nil => exact Or.inr (by simpa [Dict.set] using h)
  | cons q d ih =>
    obtain ⟨a, b⟩ := q
    rw [Dict.set] at h
    split at h
    · rcases List.mem_cons.mp h with h | h
      · exact Or.inr h
      · exact Or.inl (List.mem_cons_of_mem _ h)
    · rcases List.mem_cons.mp h with h | h
      · exact Or.inl (h ▸ List.mem_cons_self)
      · rcases ih h with h | h
        · exact Or.inl (List.mem_cons_of_mem _ h)
        · exact Or.inr h

theorem mem_of_get? {κ ν : Type} [DecidableEq κ] {d : Dict κ ν} {k : κ} {v : ν} (h : d.get? k = some v) : (k, v) ∈ d := by
  induction d with
  | nil => simp [Dict.get?] at h
  | cons q d ih =>
    obtain ⟨a, b⟩ := q
    rw [Dict.get?] at h
    split at h
    · rename_i hk
      cases h
      subst hk
      exact List.mem_cons_self
    · exact List.mem_cons_of_mem _ (ih h)

/-! ## What a table contains -/

/-- What the search of one subgraph needs to know: `G` is the subgraph, `L` gives the labels of the tensor made of a set of
inputs. -/
structure CoreOK (ctx : DPCtx) (G : Finset Nat) (L : Finset Nat → Finset Nat) : Prop where
  sub : ∀ j ∈ G, j < ctx.inputs.length
  g : IsBm ctx.g G
  all : IsBm ctx.allTensors (Finset.range ctx.inputs.length)
  single : ∀ j ∈ G, L {j} = ctx.inputs.getD j ∅
  merge : ∀ S1 S2, S1 ⊆ G → S2 ⊆ G → Disjoint S1 S2 →
    L (S1 ∪ S2) = (L S1 ∪ L S2).filter (fun c => ¬ (c ∈ L S1 ∧ c ∈ L S2 ∧ c ∉ ctx.output ∧ ∀ j ∈ G, j ∉ S1 ∪ S2 → c ∉ ctx.inputs.getD j ∅))

/-- The nested tuple built for a tree; the inputs are named by `contractions`. -/
def toTree (contractions : List Tree) : BTree → Tree
  | .leaf j => contractions.getD j (.leaf 0)
  | .node l r => .node [toTree contractions l, toTree contractions r]

/-- The entry `e` at key `s` describes the tree `b`. -/
structure DPEntryOK (ctx : DPCtx) (G : Finset Nat) (L : Finset Nat → Finset Nat) (contractions : List Tree) (cap : WithTop Nat) (n s : Nat) (e : DPEntry)
    (b : BTree) : Prop where
  allowed : Allowed ctx.searchOuter ctx.size ctx.output L ctx.memoryLimit b
  sub : b.set ⊆ G
  len : b.leaves.length = n
  key : IsBm s b.set
  legs : e.legs = L b.set
  cost : e.cost = btCost ctx.metric ctx.size L b
  tree : e.tree = toTree contractions b
  le : WithTop.some e.cost ≤ cap

section
variable {ctx : DPCtx} {G : Finset Nat} {L : Finset Nat → Finset Nat} {contractions : List Tree} {cap : WithTop Nat}

/-- Every entry of the table for `n` inputs describes a tree. -/
def TableOK (ctx : DPCtx) (G : Finset Nat) (L : Finset Nat → Finset Nat) (contractions : List Tree) (cap : WithTop Nat) (n : Nat) (t : DPTable) : Prop :=
  ∀ p ∈ t, ∃ b, DPEntryOK ctx G L contractions cap n p.1 p.2 b

theorem calcLegs_eq (hc : CoreOK ctx G L) {s1 s2 : Nat} {S1 S2 : Finset Nat} (h1 : IsBm s1 S1) (h2 : IsBm s2 S2) (hS1 : S1 ⊆ G) (hS2 : S2 ⊆ G)
    (hd : Disjoint S1 S2) :
    dpCalcLegs ctx.g ctx.allTensors (s1 ||| s2) ctx.inputs ((L S1 ∩ L S2) \ ctx.output) (L S1 ∪ L S2) = L (S1 ∪ S2) := by
  have hr : IsBm (ctx.g &&& (ctx.allTensors ^^^ (s1 ||| s2))) (G \ (S1 ∪ S2)) := by
    intro j
    rw [Nat.testBit_and, Nat.testBit_xor, hc.g j, hc.all j, (h1.or h2) j]
    by_cases hj : j ∈ G
    · have := hc.sub j hj
      simp [hj, this]
    · simp [hj]
  rw [hc.merge S1 S2 hS1 hS2 hd]
  unfold dpCalcLegs
  have hiR : (if ctx.g &&& (ctx.allTensors ^^^ (s1 ||| s2)) ≠ 0 then
      (bitmapSelect (ctx.g &&& (ctx.allTensors ^^^ (s1 ||| s2))) ctx.inputs).foldr (· ∪ ·) ∅ else ∅) =
      (bitmapSelect (ctx.g &&& (ctx.allTensors ^^^ (s1 ||| s2))) ctx.inputs).foldr (· ∪ ·) ∅ := by
    split
    · rfl
    · rename_i h0
      rw [not_not] at h0
      rw [h0] at hr ⊢
      ext c
      rw [mem_bitmapSelect isBm_zero]
      simp
  simp only [hiR]
  ext c
  rw [Finset.mem_sdiff, Finset.mem_sdiff, mem_bitmapSelect hr, Finset.mem_filter, Finset.mem_sdiff, Finset.mem_inter]
  simp only [Finset.mem_sdiff]
  constructor
  · rintro ⟨hu, hn⟩
    refine ⟨hu, ?_⟩
    rintro ⟨a, b, o, hh⟩
    apply hn
    refine ⟨⟨⟨a, b⟩, o⟩, ?_⟩
    rintro ⟨j, ⟨hj, hj'⟩, hcj⟩
    exact hh j hj hj' hcj
  · rintro ⟨hu, hn⟩
    refine ⟨hu, ?_⟩
    rintro ⟨⟨⟨a, b⟩, o⟩, hh⟩
    exact hn ⟨a, b, o, fun j hj hj' hcj => hh ⟨j, ⟨hj, hj'⟩, hcj⟩⟩

theorem tableOK_tryPair (hc : CoreOK ctx G L) {n m : Nat} {p1 p2 : Nat × DPEntry} {b1 b2 : BTree} {n1 n2 : Nat} (hn : n1 + n2 = n)
    (h1 : DPEntryOK ctx G L contractions cap n1 p1.1 p1.2 b1) (h2 : DPEntryOK ctx G L contractions cap n2 p2.1 p2.2 b2)
    {xn : DPTable} (hx : TableOK ctx G L contractions cap n xn) : TableOK ctx G L contractions cap n (tryPair ctx cap n m p1 p2 xn) := by
  unfold tryPair
  split
  · rename_i hcond
    have hd := (h1.key.and_eq_zero h2.key).mp hcond.1
    simp only
    split
    · rename_i hout
      rw [checkContraction_eq]
      rw [h1.legs, h2.legs, calcLegs_eq hc h1.key h2.key h1.sub h2.sub hd]
      simp only
      split
      · rename_i hyes
        intro p hp
        rcases mem_set hp with hp | hp
        · exact hx p hp
        · subst hp
          refine ⟨.node b1 b2, ?_, ?_, ?_, ?_, ?_, ?_, ?_, ?_⟩
          · rw [allowed_node]
            refine ⟨h1.allowed, h2.allowed, hd, ?_, ?_⟩
            · intro hs
              rw [hs, h1.legs, h2.legs] at hout
              rcases hout with hout | hout
              · cases hout
              · obtain ⟨c, hcc⟩ := Finset.nonempty_iff_ne_empty.mpr hout
                rw [Finset.mem_sdiff, Finset.mem_inter] at hcc
                exact ⟨c, hcc.1.1, hcc.1.2, hcc.2⟩
            · intro lim hlim
              have := hyes.2.2
              rw [hlim] at this
              exact of_decide_eq_true this
          · rw [BTree.set_node]
            exact Finset.union_subset h1.sub h2.sub
          · rw [BTree.leaves, List.length_append, h1.len, h2.len, hn]
          · rw [BTree.set_node]
            exact h1.key.or h2.key
          · rw [BTree.set_node]
          · rw [btCost, h1.cost, h2.cost]
            rfl
          · rw [toTree, h1.tree, h2.tree]
          · exact hyes.1
      · exact hx
    · exact hx
  · exact hx

theorem hasLe_tryPair (hc : CoreOK ctx G L) {n m : Nat} {p1 p2 : Nat × DPEntry} {b1 b2 c1 c2 : BTree} {n1 n2 : Nat} {cap' : WithTop Nat}
    (h1 : DPEntryOK ctx G L contractions cap' n1 p1.1 p1.2 b1) (h2 : DPEntryOK ctx G L contractions cap' n2 p2.1 p2.2 b2)
    (hs1 : b1.set = c1.set) (hs2 : b2.set = c2.set) (hle1 : p1.2.cost ≤ btCost ctx.metric ctx.size L c1) (hle2 : p2.2.cost ≤ btCost ctx.metric ctx.size L c2)
    (ha : Allowed ctx.searchOuter ctx.size ctx.output L ctx.memoryLimit (.node c1 c2)) (hcap : WithTop.some (btCost ctx.metric ctx.size L (.node c1 c2)) ≤ cap)
    (hm : m ≠ n - m ∨ p1.1 < p2.1) (xn : DPTable) :
    HasLe (tryPair ctx cap n m p1 p2 xn) (p1.1 ||| p2.1) (btCost ctx.metric ctx.size L (.node c1 c2)) := by
  rw [allowed_node] at ha
  obtain ⟨-, -, hd, hno, hfit⟩ := ha
  rw [← hs1, ← hs2] at hd hno hfit
  have hand := (h1.key.and_eq_zero h2.key).mpr hd
  unfold tryPair
  rw [if_pos ⟨hand, hm⟩]
  simp only
  rw [if_pos]
  · rw [checkContraction_eq, h1.legs, h2.legs, calcLegs_eq hc h1.key h2.key h1.sub h2.sub hd]
    simp only
    have hcost : stepCost ctx.metric (sizeOf ctx.size (L b1.set ∪ L b2.set)) (sizeOf ctx.size (L (b1.set ∪ b2.set))) p1.2.cost p2.2.cost ≤
        btCost ctx.metric ctx.size L (.node c1 c2) := by
      rw [btCost, hs1, hs2]
      exact stepCost_mono hle1 hle2
    generalize hv : stepCost ctx.metric (sizeOf ctx.size (L b1.set ∪ L b2.set)) (sizeOf ctx.size (L (b1.set ∪ b2.set))) p1.2.cost p2.2.cost = v at *
    by_cases himp : improves xn (p1.1 ||| p2.1) v = true
    · rw [if_pos]
      · exact ⟨_, Dict.get?_set_self .., hcost⟩
      · refine ⟨(WithTop.coe_le_coe.mpr hcost).trans hcap, himp, ?_⟩
        unfold memOk
        split
        · rfl
        · rename_i lim hlim
          exact decide_eq_true (hfit lim hlim)
    · rw [if_neg (fun h => himp h.2.1)]
      unfold improves at himp
      cases hg : xn.get? (p1.1 ||| p2.1) with
      | none => rw [hg] at himp; simp at himp
      | some e =>
        rw [hg] at himp
        simp only [decide_eq_true_eq, Nat.not_lt] at himp
        exact ⟨e, hg, himp.trans hcost⟩
  · cases hs : ctx.searchOuter with
    | true => exact Or.inl rfl
    | false =>
      right
      obtain ⟨c, hc1, hc2, hc3⟩ := hno hs
      rw [h1.legs, h2.legs]
      apply Finset.nonempty_iff_ne_empty.mp
      exact ⟨c, by rw [Finset.mem_sdiff, Finset.mem_inter]; exact ⟨⟨hc1, hc2⟩, hc3⟩⟩

end

end OE.Props
