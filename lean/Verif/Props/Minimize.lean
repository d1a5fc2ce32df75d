import Verif.Lemmas.DpWith
import Verif.Props.Dp2

/-!
# The argument `minimize` of `DynamicProgramming`
-/

namespace OE.Props
open OE OE.Py OE.Spec OE.Paths OE.Minimize

/-! ## Strings -/

theorem ofDigits_shift (vs : List Nat) (d acc : Nat) :
    Nat.ofDigits 10 ((d :: vs).reverse ++ [acc]) = Nat.ofDigits 10 (vs.reverse ++ [10 * acc + d]) := by
  rw [List.reverse_cons, List.append_assoc, Nat.ofDigits_append, Nat.ofDigits_append (l2 := [10 * acc + d])]
  congr 2
  simp [Nat.ofDigits_cons]
  omega

theorem digitsValue_iff (digit : Nat → Option Nat) (ds : Str) (acc f : Nat) :
    digitsValue digit ds acc = some f ↔ ∃ vs : List Nat, ds.map digit = vs.map some ∧ f = Nat.ofDigits 10 (vs.reverse ++ [acc]) := by
  induction ds generalizing acc with
  | nil =>
    rw [digitsValue]
    constructor
    · intro h
      cases h
      exact ⟨[], rfl, by simp⟩
    · rintro ⟨vs, h, rfl⟩
      cases vs with
      | nil => simp
      | cons => simp at h
  | cons c cs ih =>
    rw [digitsValue]
    cases hd : digit c with
    | none =>
      simp only [reduceCtorEq, false_iff]
      rintro ⟨vs, h, -⟩
      cases vs with
      | nil => simp at h
      | cons v vs => simp [hd] at h
    | some d =>
      simp only
      rw [ih]
      constructor
      · rintro ⟨vs, h, rfl⟩
        refine ⟨d :: vs, by simp [hd, h], ?_⟩
        rw [ofDigits_shift]
      · rintro ⟨vs, h, rfl⟩
        cases vs with
        | nil => simp at h
        | cons v vs =>
          simp only [List.map_cons, List.cons.injEq, hd, Option.some.injEq] at h
          obtain ⟨rfl, h⟩ := h
          refine ⟨vs, h, ?_⟩
          rw [ofDigits_shift]

theorem dropWhile_dashes (s : Str) : ∃ k, s = List.replicate k 45 ++ s.dropWhile (· == 45) ∧ ∀ c rest, s.dropWhile (· == 45) = c :: rest → c ≠ 45 := by
  induction s with
  | nil => exact ⟨0, rfl, by simp⟩
  | cons a s ih =>
    rw [List.dropWhile_cons]
    by_cases ha : a = 45
    · subst ha
      obtain ⟨k, h1, h2⟩ := ih
      refine ⟨k + 1, ?_, by simpa using h2⟩
      rw [if_pos (by rfl), List.replicate_succ, List.cons_append, ← h1]
    · refine ⟨0, ?_, ?_⟩
      · rw [if_neg (by simpa using ha)]; rfl
      · rw [if_neg (by simpa using ha)]
        intro c rest h
        cases h
        exact ha

theorem dropWhile_replicate {k : Nat} {ds : Str} (h : ∀ c rest, ds = c :: rest → c ≠ 45) : (List.replicate k 45 ++ ds).dropWhile (· == 45) = ds := by
  induction k with
  | zero =>
    cases ds with
    | nil => rfl
    | cons c rest =>
      simp only [List.replicate_zero, List.nil_append]
      rw [List.dropWhile_cons, if_neg (by simpa using h c rest rfl)]
  | succ k ih => rw [List.replicate_succ, List.cons_append, List.dropWhile_cons, if_pos (by rfl)]; exact ih

theorem parseFactor_iff {digit : Nat → Option Nat} (hdash : digit 45 = none) (s : Str) (f : Nat) :
    parseFactor digit s = some f ↔ ∃ k ds, s = List.replicate k 45 ++ ds ∧ Factor digit ds f := by
  have main : parseFactor digit s = some f ↔ Factor digit (s.dropWhile (· == 45)) f := by
    unfold parseFactor Factor
    cases hd : s.dropWhile (· == 45) with
    | nil =>
      simp only [Option.some.injEq, List.map_nil, if_true]
      constructor
      · rintro rfl
        exact ⟨[], rfl, rfl⟩
      · rintro ⟨vs, -, rfl⟩
        rfl
    | cons c rest =>
      simp only
      rw [digitsValue_iff]
      simp only [reduceCtorEq, if_false]
      constructor <;> rintro ⟨vs, h, rfl⟩ <;> refine ⟨vs, h, ?_⟩ <;> simp [Nat.ofDigits_append]
  rw [main]
  constructor
  · intro h
    obtain ⟨k, h1, -⟩ := dropWhile_dashes s
    exact ⟨k, _, h1, h⟩
  · rintro ⟨k, ds, rfl, h⟩
    rw [dropWhile_replicate]
    · exact h
    · rintro c rest rfl rfl
      obtain ⟨vs, h, -⟩ := h
      cases vs with
      | nil => simp at h
      | cons => simp [hdash] at h

theorem dropPrefix_iff (p s rest : Str) : dropPrefix p s = some rest ↔ s = p ++ rest := by
  induction p generalizing s with
  | nil => simp [dropPrefix, eq_comm]
  | cons a p ih =>
    cases s with
    | nil => simp [dropPrefix]
    | cons c s =>
      rw [dropPrefix]
      split
      · rename_i h
        subst h
        rw [ih]
        simp
      · rename_i h
        simp only [reduceCtorEq, List.cons_append, List.cons.injEq, false_iff, not_and]
        intro h'
        exact absurd h'.symm h

/-- A string is accepted exactly if it names a cost model, which is then the one used: `flops`, `size`, `write`, or `combo` or `limit`, any number of
hyphens and a factor in decimal digits, which may be missing and is 64 then. Every other string, `flops-3` and `combo-1.5` for example, makes the call
raise `ValueError`, whatever the contraction. -/
theorem C81_minimize_strings {σ : Type} {digit : Nat → Option Nat} (hdash : digit 45 = none) (s : Str) (opts : Opts) (order : PopOrder) (size : Nat → Nat)
    (limit : Option Nat) (inputs : List (Finset Nat)) (output : Finset Nat) (fuel : Nat) :
    (∀ m, Names digit s m → dpMinimize digit (.str s : Arg σ) opts order size limit inputs output fuel =
      dpCall ⟨m, opts.costCap, opts.searchOuter⟩ order size limit inputs output fuel) ∧
    ((∀ m, ¬ Names digit s m) → dpMinimize digit (.str s : Arg σ) opts order size limit inputs output fuel = some (.error .value)) ∧
    ∀ m m', Names digit s m → Names digit s m' → m = m' := by
  have key : ∀ m, parseMinimize digit s = .ok m ↔ Names digit s m := by
    intro m
    have hS : ∀ rest, (S "combo" ++ rest ≠ S "flops" ∧ S "combo" ++ rest ≠ S "size" ∧ S "combo" ++ rest ≠ S "write") ∧
        (S "limit" ++ rest ≠ S "flops" ∧ S "limit" ++ rest ≠ S "size" ∧ S "limit" ++ rest ≠ S "write") := by
      intro rest
      refine ⟨⟨?_, ?_, ?_⟩, ?_, ?_, ?_⟩ <;> intro h <;> have := congrArg List.head? h <;> revert this <;> simp [S]
    have hCL : ∀ r1 r2, S "combo" ++ r1 ≠ S "limit" ++ r2 := by
      intro r1 r2 h
      have := congrArg List.head? h
      revert this
      simp [S]
    unfold parseMinimize Names
    by_cases h1 : s = S "flops"
    · subst h1
      rw [if_pos rfl]
      constructor
      · intro h; cases h; exact Or.inl ⟨rfl, rfl⟩
      · rintro (⟨-, rfl⟩ | ⟨h, -⟩ | ⟨h, -⟩ | ⟨k, ds, f, h, -⟩ | ⟨k, ds, f, h, -⟩)
        · rfl
        · exact absurd h (by decide)
        · exact absurd h (by decide)
        · exact absurd h.symm (hS _).1.1
        · exact absurd h.symm (hS _).2.1
    rw [if_neg h1]
    by_cases h2 : s = S "size"
    · subst h2
      rw [if_pos rfl]
      constructor
      · intro h; cases h; exact Or.inr (Or.inl ⟨rfl, rfl⟩)
      · rintro (⟨h, -⟩ | ⟨-, rfl⟩ | ⟨h, -⟩ | ⟨k, ds, f, h, -⟩ | ⟨k, ds, f, h, -⟩)
        · exact absurd h h1
        · rfl
        · exact absurd h (by decide)
        · exact absurd h.symm (hS _).1.2.1
        · exact absurd h.symm (hS _).2.2.1
    rw [if_neg h2]
    by_cases h3 : s = S "write"
    · subst h3
      rw [if_pos rfl]
      constructor
      · intro h; cases h; exact Or.inr (Or.inr (Or.inl ⟨rfl, rfl⟩))
      · rintro (⟨h, -⟩ | ⟨h, -⟩ | ⟨-, rfl⟩ | ⟨k, ds, f, h, -⟩ | ⟨k, ds, f, h, -⟩)
        · exact absurd h h1
        · exact absurd h h2
        · rfl
        · exact absurd h.symm (hS _).1.2.2
        · exact absurd h.symm (hS _).2.2.2
    rw [if_neg h3]
    cases hc : dropPrefix (S "combo") s with
    | some rest =>
      have hs := (dropPrefix_iff _ _ _).mp hc
      subst hs
      simp only
      constructor
      · intro h
        cases hf : parseFactor digit rest with
        | none => rw [hf] at h; cases h
        | some f =>
          rw [hf] at h
          cases h
          obtain ⟨k, ds, rfl, h⟩ := (parseFactor_iff hdash _ _).mp hf
          exact Or.inr (Or.inr (Or.inr (Or.inl ⟨k, ds, f, rfl, h, rfl⟩)))
      · rintro (⟨h, -⟩ | ⟨h, -⟩ | ⟨h, -⟩ | ⟨k, ds, f, h, hf, rfl⟩ | ⟨k, ds, f, h, -⟩)
        · exact absurd h h1
        · exact absurd h h2
        · exact absurd h h3
        · rw [(parseFactor_iff hdash _ _).mpr ⟨k, ds, List.append_cancel_left h, hf⟩]
        · exact absurd h (hCL _ _)
    | none =>
      have hn : ∀ rest, s ≠ S "combo" ++ rest := by
        intro rest h
        rw [(dropPrefix_iff _ _ _).mpr h] at hc
        cases hc
      simp only
      cases hl : dropPrefix (S "limit") s with
      | some rest =>
        have hs := (dropPrefix_iff _ _ _).mp hl
        subst hs
        simp only
        constructor
        · intro h
          cases hf : parseFactor digit rest with
          | none => rw [hf] at h; cases h
          | some f =>
            rw [hf] at h
            cases h
            obtain ⟨k, ds, rfl, h⟩ := (parseFactor_iff hdash _ _).mp hf
            exact Or.inr (Or.inr (Or.inr (Or.inr ⟨k, ds, f, rfl, h, rfl⟩)))
        · rintro (⟨h, -⟩ | ⟨h, -⟩ | ⟨h, -⟩ | ⟨k, ds, f, h, -⟩ | ⟨k, ds, f, h, hf, rfl⟩)
          · exact absurd h h1
          · exact absurd h h2
          · exact absurd h h3
          · exact absurd h (hn _)
          · rw [(parseFactor_iff hdash _ _).mpr ⟨k, ds, List.append_cancel_left h, hf⟩]
      | none =>
        simp only [reduceCtorEq, false_iff]
        rintro (⟨h, -⟩ | ⟨h, -⟩ | ⟨h, -⟩ | ⟨k, ds, f, h, -⟩ | ⟨k, ds, f, h, -⟩)
        · exact h1 h
        · exact h2 h
        · exact h3 h
        · exact hn _ h
        · rw [(dropPrefix_iff _ _ _).mpr h] at hl
          cases hl
  have herr : ∀ e, parseMinimize digit s = .error e → e = .value := by
    intro e h
    unfold parseMinimize at h
    repeat' split at h
    all_goals cases h
    all_goals rfl
  refine ⟨?_, ?_, ?_⟩
  · intro m hm
    unfold dpMinimize
    simp only [(key m).mpr hm]
  · intro hno
    unfold dpMinimize
    cases h : parseMinimize digit s with
    | ok m => exact absurd ((key m).mp h) (hno m)
    | error e =>
      have he := herr e h
      subst he
      simp only [h]
  · intro m m' h h'
    have := ((key m).mpr h).symm.trans ((key m').mpr h')
    cases this
    rfl

/-! ## Functions -/

theorem dpSubgraphsWith_ok {σ : Type} {solve : List Nat → σ → Option (Except PyErr (DPEntry × σ))} {size : Nat → Nat} {gs : List (List Nat)}
    {acc l : List (Tree × Nat)} {st : σ} (h : dpSubgraphsWith solve size gs acc st = some (.ok l)) :
    ∃ es : List DPEntry, List.Forall₂ (fun g e => ∃ st st', solve g st = some (.ok (e, st'))) gs es ∧
      l = acc ++ es.map (fun e => (e.tree, Paths.sizeOf size e.legs)) := by
  induction gs generalizing acc st with
  | nil =>
    cases h
    exact ⟨[], .nil, by simp⟩
  | cons g gs ih =>
    rw [dpSubgraphsWith] at h
    split at h
    · cases h
    · cases h
    · rename_i e st' hs
      obtain ⟨es, h1, h2⟩ := ih h
      exact ⟨e :: es, .cons ⟨st, st', hs⟩ h1, by rw [h2]; simp⟩

theorem dpSubgraphsWith_error {σ : Type} {solve : List Nat → σ → Option (Except PyErr (DPEntry × σ))} {size : Nat → Nat} {gs : List (List Nat)}
    {acc : List (Tree × Nat)} {st : σ} {e : PyErr} (h : dpSubgraphsWith solve size gs acc st = some (.error e)) :
    ∃ g ∈ gs, ∃ st, solve g st = some (.error e) := by
  induction gs generalizing acc st with
  | nil => cases h
  | cons g gs ih =>
    rw [dpSubgraphsWith] at h
    split at h
    · cases h
    · rename_i e' hs
      cases h
      exact ⟨g, List.mem_cons_self, st, hs⟩
    · obtain ⟨g', hg', h'⟩ := ih h
      exact ⟨g', List.mem_cons_of_mem _ hg', h'⟩

theorem dpSubgraphsWith_none {σ : Type} {solve : List Nat → σ → Option (Except PyErr (DPEntry × σ))} {size : Nat → Nat} {gs : List (List Nat)}
    {acc : List (Tree × Nat)} {st : σ} (h : dpSubgraphsWith solve size gs acc st = none) : ∃ g ∈ gs, ∃ st, solve g st = none := by
  induction gs generalizing acc st with
  | nil => cases h
  | cons g gs ih =>
    rw [dpSubgraphsWith] at h
    split at h
    · rename_i hs
      exact ⟨g, List.mem_cons_self, st, hs⟩
    · cases h
    · obtain ⟨g', hg', h'⟩ := ih h
      exact ⟨g', List.mem_cons_of_mem _ hg', h'⟩

section
variable {σ : Type} {check : Check σ} {cfg : DPCfg} {size : Nat → Nat} {limit : Option Nat} {inputs : List (Finset Nat)} {output : Finset Nat}
  {orig done : List Nat} {order : PopOrder}

/-- A forest for a partition of the inputs is made into a complete path. -/
theorem forest_path {l : List Tree} {bs : List BTree} (hl : List.Forall₂ (Represents inputs output) l bs)
    (hpart : (bs.flatMap BTree.leaves).Perm (List.range inputs.length)) {l' : List Tree} (hp : l'.Perm l) (hne : l' ≠ []) :
    ∃ path, (∀ fuel, 2 * inputs.length ≤ fuel → sequenceOf fuel (simpleTreeTuple l') = some (.ok path)) ∧
      (∀ fuel r, sequenceOf fuel (simpleTreeTuple l') = some r → r = .ok path) ∧ Complete1 inputs.length path := by
  obtain ⟨bs', hrep, hperm⟩ := List.perm_comp_forall₂ hp hl
  match l', hne with
  | t :: ts, _ =>
    have hprop : ∀ u ∈ t :: ts, TreeProper u := by
      intro u hu
      obtain ⟨b, -, hb⟩ := forall₂_mem hrep hu
      exact represents_proper hb
    obtain ⟨h1, h2, -⟩ := nest_spec ts t (hprop t List.mem_cons_self) (fun u hu => hprop u (List.mem_cons_of_mem _ hu))
    have hleaves : ∀ {l : List Tree} {bs : List BTree}, List.Forall₂ (Represents inputs output) l bs → l.flatMap treeLeaves = bs.flatMap BTree.leaves := by
      intro l bs h
      induction h with
      | nil => rfl
      | cons h1 _ ih => rw [List.flatMap_cons, List.flatMap_cons, represents_leaves h1, ih]
    have hpart' : (bs'.flatMap BTree.leaves).Perm (List.range inputs.length) := (hperm.flatMap_right _).trans hpart
    obtain ⟨path, k1, k2, -⟩ := sequence_spec (n := inputs.length) (t := ts.foldl (fun x y => .node [x, y]) t) (by
      rw [h1, ← List.flatMap_cons, hleaves hrep]
      exact hpart') h2
    refine ⟨path, ?_, ?_, k2⟩
    · intro fuel hf
      have hn : treeNodes (ts.foldl (fun x y => .node [x, y]) t) ≤ fuel := by
        have h4 := forest_nodes hrep
        have h5 := hpart'.length_eq
        rw [List.length_range] at h5
        simp only [List.map_cons, List.sum_cons, List.length_cons] at h4
        rw [nest_nodes]
        omega
      simp only [simpleTreeTuple, sequenceOf, k1 fuel hn, Option.map_some]
    · intro fuel r hr
      simp only [simpleTreeTuple, sequenceOf] at hr
      cases hseq : treeToSequence fuel (ts.foldl (fun x y => .node [x, y]) t) with
      | none => rw [hseq] at hr; cases hr
      | some p =>
        rw [hseq] at hr
        cases hr
        have e1 := treeToSequence_mono hseq (treeNodes (ts.foldl (fun x y => .node [x, y]) t))
        rw [k1 _ (Nat.le_add_left _ _)] at e1
        cases e1
        rfl

/-- Trees for the groups, in terms of the original inputs. -/
theorem groups_original (h : ParseOK inputs output orig done) {gs : List (Finset Nat)} (hlt : ∀ G ∈ gs, ∀ p ∈ G, p < orig.length) {es : List DPEntry}
    (hes : List.Forall₂ (fun (G : Finset Nat) (e : DPEntry) => ∃ b : BTree, b.leaves.Nodup ∧ b.set = G ∧ e.tree = toTree (dpParse inputs output).contractions b) gs es) :
    ∃ bs, List.Forall₂ (Represents inputs output) (es.map (·.tree)) bs ∧ bs.map BTree.set = gs.map (fun G => G.image (fun p => orig.getD p 0)) ∧
      ∀ b ∈ bs, b.leaves.Nodup := by
  induction hes with
  | nil => exact ⟨[], .nil, rfl, by simp⟩
  | @cons G e gs es h0 _ ih =>
    obtain ⟨bs, i1, i2, i3⟩ := ih (fun G' hG' => hlt G' (List.mem_cons_of_mem _ hG'))
    obtain ⟨b, hnd, hset, htree⟩ := h0
    have hleaf : ∀ p ∈ b.leaves, p < orig.length := by
      intro p hp
      apply hlt G List.mem_cons_self
      rw [← hset]
      unfold BTree.set
      exact List.mem_toFinset.mpr hp
    refine ⟨BTree.rename (fun p => orig.getD p 0) b :: bs, .cons ?_ i1, ?_, ?_⟩
    · show Represents inputs output e.tree _
      rw [htree]
      apply represents_toTree
      intro p hp
      obtain ⟨f, hf, hcon⟩ := h.contractions_eq
      have hlt := hleaf p hp
      have hg : orig.getD p 0 = orig[p] := by rw [List.getD_eq_getElem?_getD, List.getElem?_eq_getElem hlt]; rfl
      have hm : (orig.map f).getD p (.leaf 0) = f orig[p] := by rw [List.getD_eq_getElem?_getD, List.getElem?_map, List.getElem?_eq_getElem hlt]; rfl
      rw [hcon, hg, hm]
      exact hf _ (h.lt (List.getElem_mem hlt))
    · simp [rename_set, hset, i2]
    · intro b' hb'
      rcases List.mem_cons.mp hb' with rfl | hb'
      · rw [rename_leaves]
        apply hnd.map_on
        intro x hx y hy he
        exact h.inj (hleaf x hx) (hleaf y hy) he
      · exact i3 b' hb'

/-- Trees for the groups and the scalars make a forest for all inputs. -/
theorem groups_forest (h : ParseOK inputs output orig done) {gs : List (Finset Nat)} (hgs : GroupsOK cfg.searchOuter (dpParse inputs output).inputs output gs)
    {es : List DPEntry}
    (hes : List.Forall₂ (fun (G : Finset Nat) (e : DPEntry) => ∃ b : BTree, b.leaves.Nodup ∧ b.set = G ∧ e.tree = toTree (dpParse inputs output).contractions b) gs es) :
    ∃ bs, List.Forall₂ (Represents inputs output) (done.map (fun i => .node [.leaf i]) ++ es.map (·.tree)) bs ∧
      (bs.flatMap BTree.leaves).Perm (List.range inputs.length) := by
  have hlt : ∀ G ∈ gs, ∀ p ∈ G, p < orig.length := fun G hG p hp => h.length ▸ hgs.lt G hG p hp
  obtain ⟨bs, h1, h2, h3⟩ := groups_original h hlt hes
  have hmem : ∀ b ∈ bs, ∃ G ∈ gs, b.set = G.image (fun p => orig.getD p 0) := by
    intro b hb
    have : b.set ∈ bs.map BTree.set := List.mem_map.mpr ⟨b, hb, rfl⟩
    rw [h2] at this
    obtain ⟨G, hG, he⟩ := List.mem_map.mp this
    exact ⟨G, hG, he.symm⟩
  have hmem' : ∀ G ∈ gs, ∃ b ∈ bs, b.set = G.image (fun p => orig.getD p 0) := by
    intro G hG
    have : G.image (fun p => orig.getD p 0) ∈ gs.map (fun G => G.image (fun p => orig.getD p 0)) := List.mem_map.mpr ⟨G, hG, rfl⟩
    rw [← h2] at this
    obtain ⟨b, hb, he⟩ := List.mem_map.mp this
    exact ⟨b, hb, he⟩
  refine ⟨done.map BTree.leaf ++ bs, ?_, ?_⟩
  · apply List.rel_append
    · exact List.forall₂_map_left_iff.mpr (List.forall₂_map_right_iff.mpr (List.forall₂_same.mpr (fun i hi => .wrapped i (h.hasLone hi))))
    · exact h1
  · apply partition_leaves
    · intro b hb
      rcases List.mem_append.mp hb with hb | hb
      · obtain ⟨i, -, rfl⟩ := List.mem_map.mp hb
        simp [BTree.leaves]
      · exact h3 b hb
    · rw [List.pairwise_append]
      refine ⟨?_, ?_, ?_⟩
      · rw [List.pairwise_map]
        apply h.nodup.2.1.imp
        intro a b hab
        rw [BTree.set_leaf, BTree.set_leaf]
        simpa using hab
      · have : (bs.map BTree.set).Pairwise Disjoint := by
          rw [h2, List.pairwise_map]
          apply List.Pairwise.imp_of_mem _ hgs.disjoint
          intro a b ha hb hab
          rw [Finset.disjoint_left]
          intro x hx hx'
          obtain ⟨p, hp, rfl⟩ := Finset.mem_image.mp hx
          obtain ⟨q, hq, he⟩ := Finset.mem_image.mp hx'
          have := h.inj (hlt b hb q hq) (hlt a ha p hp) he
          subst this
          exact Finset.disjoint_left.mp hab hp hq
        rw [List.pairwise_map] at this
        exact this
      · intro a ha b hb
        obtain ⟨i, hi, rfl⟩ := List.mem_map.mp ha
        obtain ⟨G, hG, he⟩ := hmem b hb
        rw [BTree.set_leaf, he, Finset.disjoint_singleton_left]
        intro hx
        obtain ⟨p, hp, rfl⟩ := Finset.mem_image.mp hx
        exact h.nodup.2.2 _ (getD_mem (hlt G hG p hp)) hi
    · intro i
      rw [← List.mem_range, ← h.perm.mem_iff, List.mem_append]
      constructor
      · rintro (hi | hi)
        · obtain ⟨p, hp, he⟩ := List.mem_iff_getElem.mp hi
          obtain ⟨G, hG, hpG⟩ := hgs.cover p (by rw [h.length]; exact hp)
          obtain ⟨b, hb, hbs⟩ := hmem' G hG
          refine ⟨b, List.mem_append_right _ hb, ?_⟩
          rw [hbs]
          refine Finset.mem_image.mpr ⟨p, hpG, ?_⟩
          rw [List.getD_eq_getElem?_getD, List.getElem?_eq_getElem hp]
          exact he
        · exact ⟨.leaf i, List.mem_append_left _ (List.mem_map.mpr ⟨i, hi, rfl⟩), by rw [BTree.set_leaf]; simp⟩
      · rintro ⟨b, hb, hi⟩
        rcases List.mem_append.mp hb with hb | hb
        · obtain ⟨j, hj, rfl⟩ := List.mem_map.mp hb
          rw [BTree.set_leaf, Finset.mem_singleton] at hi
          subst hi
          exact Or.inr hj
        · obtain ⟨G, hG, he⟩ := hmem b hb
          rw [he] at hi
          obtain ⟨p, hp, rfl⟩ := Finset.mem_image.mp hi
          exact Or.inl (getD_mem (hlt G hG p hp))

theorem orderList (ho : PopOK order) (G : Finset Nat) : (order.list [] G).Nodup ∧ (order.list [] G).toFinset = G := by
  refine ⟨(ho.2 [] G).1, ?_⟩
  ext x
  rw [List.mem_toFinset, (ho.2 [] G).2]

/-- The result from the results for the groups. -/
theorem groups_path (hh : Honest check) (h : ParseOK inputs output orig done) (ho : PopOK order) {naive : WithTop Nat} {fuel : Nat} {st : σ}
    {gs : List (Finset Nat)} (hP : (dpParse inputs output).inputs ≠ []) (hgs : GroupsOK cfg.searchOuter (dpParse inputs output).inputs output gs)
    {l : List (Tree × Nat)}
    (hl : dpSubgraphsWith (dpSubgraphWith check cfg size output limit (dpParse inputs output).inputs (dpParse inputs output).contractions naive fuel) size
      (gs.map (order.list [])) ((dpParse inputs output).done.map (fun t => (t, 1))) st = some (.ok l)) :
    ∃ path, (∀ fuel, 2 * inputs.length ≤ fuel → sequenceOf fuel (simpleTreeTuple (sortBySize l)) = some (.ok path)) ∧
      (∀ fuel r, sequenceOf fuel (simpleTreeTuple (sortBySize l)) = some r → r = .ok path) ∧ Complete1 inputs.length path := by
  obtain ⟨es, h1, h2⟩ := dpSubgraphsWith_ok hl
  rw [List.forall₂_map_left_iff] at h1
  have hes : List.Forall₂ (fun (G : Finset Nat) (e : DPEntry) => ∃ b : BTree, b.leaves.Nodup ∧ b.set = G ∧
      e.tree = toTree (dpParse inputs output).contractions b) gs es := by
    have hmem : ∀ {l : List (Finset Nat)} {es : List DPEntry}, (∀ G ∈ l, G ∈ gs) → List.Forall₂ (fun G e => ∃ st st', dpSubgraphWith check cfg size output limit
        (dpParse inputs output).inputs (dpParse inputs output).contractions naive fuel (order.list [] G) st = some (.ok (e, st'))) l es →
        List.Forall₂ (fun (G : Finset Nat) (e : DPEntry) => G ∈ gs ∧ ∃ st st', dpSubgraphWith check cfg size output limit
          (dpParse inputs output).inputs (dpParse inputs output).contractions naive fuel (order.list [] G) st = some (.ok (e, st'))) l es := by
      intro l es hsub hf
      induction hf with
      | nil => exact .nil
      | cons h0 _ ih => exact .cons ⟨hsub _ List.mem_cons_self, h0⟩ (ih (fun G hG => hsub G (List.mem_cons_of_mem _ hG)))
    refine (hmem (fun _ h => h) h1).imp ?_
    rintro G e ⟨hG, st, st', hs⟩
    obtain ⟨k1, k2⟩ := orderList ho G
    exact dpSubgraphWith_ok hh k1 k2 (hgs.nonempty G hG) hs
  obtain ⟨bs, k1, k2⟩ := groups_forest h hgs hes
  have hmap : l.map (·.1) = done.map (fun i => .node [.leaf i]) ++ es.map (·.tree) := by
    rw [h2, List.map_append, List.map_map, List.map_map, h.done_eq, List.map_map]
    rfl
  apply forest_path k1 k2
  · rw [← hmap]
    exact sortBySize_perm l
  · intro h0
    have hlen := (sortBySize_perm l).length_eq
    rw [h0, hmap, List.length_append, List.length_map, List.length_map, List.length_nil] at hlen
    have hes := h1.length_eq
    obtain ⟨G, hG, -⟩ := hgs.cover 0 (List.length_pos_iff.mpr hP)
    have := List.length_pos_of_mem hG
    omega

/-- Whatever the function does to costs and labels, whatever state it keeps and whenever it raises: as long as it stores no other entries than those it
was asked about, a path that the optimizer returns is complete, and an exception is one that the function raised. -/
theorem C81_custom_complete {digit : Nat → Option Nat} (hh : Honest check) (ho : PopOK order) (hne : inputs ≠ []) (opts : Opts) (st : σ) (fuel : Nat) :
    (∀ path, dpMinimize digit (.function check st) opts order size limit inputs output fuel = some (.ok path) → Complete1 inputs.length path) ∧
    ∀ e, dpMinimize digit (.function check st) opts order size limit inputs output fuel = some (.error e) → Raises check e := by
  obtain ⟨orig, done, h⟩ := dpParse_ok inputs output
  unfold dpMinimize
  simp only
  unfold dpCallWith
  simp only
  by_cases hP : (dpParse inputs output).inputs = []
  · rw [if_pos hP]
    obtain ⟨path', t, ts, bs, -, h2, h3⟩ := only_scalars (cfg := ⟨.flops, opts.costCap, opts.searchOuter⟩) (size := size) (limit := limit) h hne hP
    constructor
    · intro path hcall
      have := h2 _ _ hcall
      cases this
      exact h3.complete
    · intro e hcall
      have := h2 _ _ hcall
      cases this
  · rw [if_neg hP]
    obtain ⟨gs, hg, hgs⟩ := dpGroups_ok ho ⟨.flops, opts.costCap, opts.searchOuter⟩ hP output
    rw [hg]
    simp only
    constructor
    · intro path hcall
      split at hcall
      · cases hcall
      · cases hcall
      · rename_i l hl
        obtain ⟨path', -, k2, k3⟩ := groups_path hh h ho hP hgs hl
        have := k2 _ _ hcall
        cases this
        exact k3
    · intro e hcall
      split at hcall
      · cases hcall
      · rename_i e' he
        cases hcall
        obtain ⟨g, hg', st', hs⟩ := dpSubgraphsWith_error he
        obtain ⟨G, hG, rfl⟩ := List.mem_map.mp hg'
        obtain ⟨k1, k2⟩ := orderList ho G
        exact dpSubgraphWith_error hh k1 k2 (hgs.nonempty G hG) hs
      · rename_i l hl
        obtain ⟨path', -, k2, k3⟩ := groups_path hh h ho hP hgs hl
        have := k2 _ _ hcall
        cases this

/-- With `cost_cap=False` and a function that accepts everything and gets the labels right, the search ends with a complete path, for all inputs. -/
theorem C81_custom_ends {digit : Nat → Option Nat} (hh : Honest check) (ha : Accepts check) (ho : PopOK order) (hne : inputs ≠ []) (outer : Bool) (st : σ) :
    ∃ F, ∀ fuel, F ≤ fuel → ∃ path, dpMinimize digit (.function check st) ⟨.off, outer⟩ order size limit inputs output fuel = some (.ok path) ∧
      Complete1 inputs.length path := by
  obtain ⟨orig, done, h⟩ := dpParse_ok inputs output
  refine ⟨2 * inputs.length + 1, fun fuel hf => ?_⟩
  have hc := C81_custom_complete (digit := digit) (size := size) (limit := limit) (output := output) hh ho hne ⟨.off, outer⟩ st fuel
  have hsome : ∃ r, dpMinimize digit (.function check st) ⟨.off, outer⟩ order size limit inputs output fuel = some r := by
    unfold dpMinimize
    simp only
    unfold dpCallWith
    simp only
    by_cases hP : (dpParse inputs output).inputs = []
    · rw [if_pos hP]
      obtain ⟨path', t, ts, bs, h1, -⟩ := only_scalars (cfg := ⟨.flops, .off, outer⟩) (size := size) (limit := limit) h hne hP
      exact ⟨_, h1 fuel (by omega)⟩
    · rw [if_neg hP]
      obtain ⟨gs, hg, hgs⟩ := dpGroups_ok ho ⟨.flops, .off, outer⟩ hP output
      rw [hg]
      simp only
      split
      · rename_i hn
        exfalso
        obtain ⟨g, hg', st', hs⟩ := dpSubgraphsWith_none hn
        obtain ⟨G, hG, rfl⟩ := List.mem_map.mp hg'
        obtain ⟨k1, k2⟩ := orderList ho G
        have hlt : ∀ p ∈ G, p < orig.length := fun p hp => h.length ▸ hgs.lt G hG p hp
        obtain ⟨b, hb⟩ := candidate_exists h (cfg := ⟨.flops, .off, outer⟩) (size := size) (g := order.list [] G) hlt (hgs.nonempty G hG)
          (fun hs => hgs.chain hs G hG)
        have hcore := core_of_closed h ⟨.flops, .off, outer⟩ size limit k2 hlt (hgs.closed G hG)
        obtain ⟨cap, increment, hcap, heq⟩ := dpSubgraphWith_shape check ⟨.flops, .off, outer⟩ size output limit (dpParse inputs output).inputs
          (dpParse inputs output).contractions ⊤ (order.list [] G)
        rw [heq, hcap rfl] at hs
        obtain ⟨⟨x, st2⟩, ha'⟩ := dpWhileWith_accepts hcore (hgs.nonempty G hG) hh ha (increment := increment)
          (startW (right := True) (fun _ => hcore.single) (dpParse inputs output).contractions k1 k2 (hgs.nonempty G hG)) st' hb.1.1 hb.1.2.1 hb.2
          (show 1 ≤ fuel by omega)
        have hs' : (match dpWhileWith check (ctxOf ⟨.flops, .off, outer⟩ size output limit (dpParse inputs output).inputs (order.list [] G)) ⊤ increment fuel ⊤
            (dpStart (dpParse inputs output).inputs (dpParse inputs output).contractions (order.list [] G)) st' with
          | none => (none : Option (Except PyErr (DPEntry × σ)))
          | some (.error e) => some (.error e)
          | some (.ok (x, st)) =>
            match x.getLastD [] with
            | [] => some (.error .index)
            | p :: _ => some (.ok (p.2, st))) = none := hs
        rw [show dpWhileWith check (ctxOf ⟨.flops, .off, outer⟩ size output limit (dpParse inputs output).inputs (order.list [] G)) ⊤ increment fuel ⊤
            (dpStart (dpParse inputs output).inputs (dpParse inputs output).contractions (order.list [] G)) st' = some (.ok (x, st2)) from ha'] at hs'
        simp only at hs'
        split at hs' <;> cases hs'
      · exact ⟨_, rfl⟩
      · rename_i l hl
        obtain ⟨path', k1, -, -⟩ := groups_path hh h ho hP hgs hl
        exact ⟨_, k1 fuel (by omega)⟩
  obtain ⟨r, hr⟩ := hsome
  cases r with
  | ok path => exact ⟨path, hr, hc.1 path hr⟩
  | error e =>
    obtain ⟨ctx, st, cap, s1, s2, e1, e2, cut, union, xn, he⟩ := hc.2 e hr
    obtain ⟨xn', st', h1, -⟩ := ha ctx st cap s1 s2 e1 e2 cut union xn
    rw [h1] at he
    cases he

/-- A function that never stores anything makes the search run for ever as soon as two inputs share a summed label, whatever the cost cap: there is no
bound at which the search gives up. -/
theorem C81_custom_never {digit : Nat → Option Nat} (hr : Refuses check) (ho : PopOK order) {i j c : Nat} (hi : i < inputs.length) (hj : j < inputs.length)
    (hij : i ≠ j) (hci : c ∈ inputs.getD i ∅) (hcj : c ∈ inputs.getD j ∅) (hco : c ∉ output) (opts : Opts) (st : σ) (fuel : Nat) :
    dpMinimize digit (.function check st) opts order size limit inputs output fuel = none := by
  have hh : Honest check := by
    intro ctx st cap s1 s2 e1 e2 cut union xn xn' st' he
    obtain ⟨st'', h⟩ := hr ctx st cap s1 s2 e1 e2 cut union xn
    rw [h] at he
    cases he
    exact Or.inl rfl
  obtain ⟨orig, done, h⟩ := dpParse_ok inputs output
  have hopen : ∀ k, k < inputs.length → c ∈ inputs.getD k ∅ → k ∈ orig := by
    intro k hk hck
    have hmem : k ∈ orig ++ done := h.perm.mem_iff.mpr (List.mem_range.mpr hk)
    rcases List.mem_append.mp hmem with hm | hm
    · exact hm
    · exfalso
      have h0 := (h.lone k hm).1
      have : c ∈ openLabels inputs output {k} := by
        rw [mem_openLabels]
        refine ⟨⟨k, by simp, hck⟩, Or.inr ?_⟩
        by_cases hki : k = i
        · exact ⟨j, hj, by simpa [hki] using hij.symm, hcj⟩
        · exact ⟨i, hi, by simpa using Ne.symm hki, hci⟩
      rw [h0] at this
      simp at this
  have hP : (dpParse inputs output).inputs ≠ [] := by
    intro h0
    have := h.length
    rw [h0] at this
    have h1 := hopen i hi hci
    rw [List.length_eq_zero_iff.mp this.symm] at h1
    cases h1
  unfold dpMinimize
  simp only
  unfold dpCallWith
  simp only
  rw [if_neg hP]
  obtain ⟨gs, hg, hgs⟩ := dpGroups_ok ho ⟨.flops, opts.costCap, opts.searchOuter⟩ hP output
  rw [hg]
  simp only
  have hlt : ∀ G ∈ gs, ∀ p ∈ G, p < orig.length := fun G hG p hp => h.length ▸ hgs.lt G hG p hp
  obtain ⟨q, hq, hqi⟩ := List.mem_iff_getElem.mp (hopen i hi hci)
  have hqi' : orig.getD q 0 = i := by rw [List.getD_eq_getElem?_getD, List.getElem?_eq_getElem hq]; exact hqi
  obtain ⟨G, hG, hqG⟩ := hgs.cover q (by rw [h.length]; exact hq)
  obtain ⟨p, hpG, hpj, -⟩ := closed_partner h (hlt G hG) (hgs.closed G hG) hqG hco (by rw [hqi']; exact hci) hj (by rw [hqi']; exact hij.symm) hcj
  have hpq : p ≠ q := by
    rintro rfl
    exact hij (hqi'.symm.trans hpj)
  have hcard : 1 < G.card := Finset.one_lt_card.mpr ⟨p, hpG, q, hqG, hpq⟩
  have hnone : ∀ st, dpSubgraphWith check ⟨.flops, opts.costCap, opts.searchOuter⟩ size output limit (dpParse inputs output).inputs
      (dpParse inputs output).contractions ⊤ fuel (order.list [] G) st = none := by
    intro st
    obtain ⟨k1, k2⟩ := orderList ho G
    obtain ⟨cap, increment, -, heq⟩ := dpSubgraphWith_shape check ⟨.flops, opts.costCap, opts.searchOuter⟩ size output limit (dpParse inputs output).inputs
      (dpParse inputs output).contractions ⊤ (order.list [] G)
    rw [heq, refuses_while hr]
    have hlen : (dpStart (dpParse inputs output).inputs (dpParse inputs output).contractions (order.list [] G)).length = G.card + 1 := by
      have : (order.list [] G).length = G.card := by rw [← List.toFinset_card_of_nodup k1, k2]
      unfold dpStart
      simp only [List.length_cons, List.length_replicate]
      omega
    rw [last_eq hlen, dpStart_getD, if_neg (by omega)]
  have hloop : ∀ (l : List (Finset Nat)) (acc : List (Tree × Nat)) (st : σ), (∀ G' ∈ l, G' ∈ gs) → G ∈ l →
      dpSubgraphsWith (dpSubgraphWith check ⟨.flops, opts.costCap, opts.searchOuter⟩ size output limit (dpParse inputs output).inputs
        (dpParse inputs output).contractions ⊤ fuel) size (l.map (order.list [])) acc st = none := by
    intro l
    induction l with
    | nil => intro _ _ _ hm; cases hm
    | cons G' l ih =>
      intro acc st hsub hm
      rw [List.map_cons, dpSubgraphsWith]
      split
      · rfl
      · rename_i e he
        exfalso
        obtain ⟨k1, k2⟩ := orderList ho G'
        obtain ⟨ctx, st, cap, s1, s2, e1, e2, cut, union, xn, he'⟩ := dpSubgraphWith_error hh k1 k2 (hgs.nonempty G' (hsub G' List.mem_cons_self)) he
        obtain ⟨st', h'⟩ := hr ctx st cap s1 s2 e1 e2 cut union xn
        rw [h'] at he'
        cases he'
      · rename_i e st' he
        rcases List.mem_cons.mp hm with rfl | hm
        · rw [hnone st] at he
          cases he
        · exact ih _ _ (fun G'' h => hsub G'' (List.mem_cons_of_mem _ h)) hm
  rw [hloop gs _ st (fun _ h => h) hG]

end

/-- Anything that is neither a string nor a function: `TypeError`. -/
theorem C81_minimize_other {σ : Type} (digit : Nat → Option Nat) (opts : Opts) (order : PopOrder) (size : Nat → Nat) (limit : Option Nat)
    (inputs : List (Finset Nat)) (output : Finset Nat) (fuel : Nat) :
    dpMinimize digit (.other : Arg σ) opts order size limit inputs output fuel = some (.error .type) := rfl

/-! ## The built-in cost models as functions -/

theorem foldlM_pure {α β γ : Type} {f : β × γ → α → Except PyErr (β × γ)} {g : β → α → β} {l : List α} (h : ∀ t a, f t a = .ok (g t.1 a, t.2)) (t : β × γ) :
    l.foldlM f t = .ok (l.foldl g t.1, t.2) := by
  induction l generalizing t with
  | nil => rfl
  | cons a l ih =>
    rw [List.foldlM_cons, h]
    exact ih (g t.1 a, t.2)

/-- A built-in cost model as a function. -/
def builtin : Check Unit := fun ctx st cap s1 s2 e1 e2 cut union xn => .ok (checkContraction ctx cap s1 s2 e1 e2 cut union xn, st)

theorem dpWhileWith_builtin (ctx : DPCtx) (naive : WithTop Nat) (increment fuel : Nat) (cap : WithTop Nat) (x : List DPTable) :
    dpWhileWith builtin ctx naive increment fuel cap x () = (dpWhile ctx naive increment fuel cap x).map (fun r => r.map (fun y => (y, ()))) := by
  have htry : ∀ (cap : WithTop Nat) (n m : Nat) (p1 : Nat × DPEntry) (a : DPTable × Unit) (p2 : Nat × DPEntry),
      tryPairWith builtin ctx cap n m p1 p2 a = .ok (tryPair ctx cap n m p1 p2 a.1, a.2) := by
    intro cap n m p1 a p2
    unfold tryPairWith tryPair builtin
    split
    · simp only
      split <;> rfl
    · rfl
  have hfill : ∀ (cap : WithTop Nat) (x : List DPTable) (n : Nat) (st : Unit), fillTableWith builtin ctx cap x n st = .ok (fillTable ctx cap x n, st) := by
    intro cap x n st
    unfold fillTableWith fillTable
    exact foldlM_pure (fun t m => foldlM_pure (fun t p1 => foldlM_pure (fun t p2 => htry cap n m p1 t p2) t) t) (x.getD n [], st)
  have hround : ∀ (cap : WithTop Nat) (x : List DPTable), dpRoundWith builtin ctx cap x () = .ok (dpRound ctx cap x, ()) := by
    intro cap x
    unfold dpRoundWith dpRound
    apply foldlM_pure (t := (x, ()))
    intro t n
    rw [hfill]
  induction fuel generalizing cap x with
  | zero =>
    unfold dpWhileWith dpWhile
    split <;> rfl
  | succ fuel ih =>
    unfold dpWhileWith dpWhile
    split
    · rfl
    · simp only [hround]
      split
      · rfl
      · exact ih _ _

/-- A built-in cost model, called as a function with the bound that belongs to it, gives what the string gives. -/
theorem C81_builtin_function (cfg : DPCfg) (order : PopOrder) (size : Nat → Nat) (limit : Option Nat) (inputs : List (Finset Nat)) (output : Finset Nat)
    (fuel : Nat) :
    dpCallWith builtin (naiveCost cfg.metric size inputs output) cfg order size limit inputs output fuel () = dpCall cfg order size limit inputs output fuel := by
  have hsub : ∀ (ins : List (Finset Nat)) (contractions : List Tree) (naive : WithTop Nat) (g : List Nat),
      dpSubgraphWith builtin cfg size output limit ins contractions naive fuel g () =
        (dpSubgraph cfg size output limit ins contractions naive fuel g).map (fun r => r.map (fun e => (e, ()))) := by
    intro ins contractions naive g
    unfold dpSubgraphWith dpSubgraph
    simp only [dpWhileWith_builtin]
    cases cfg.costCap <;> simp only <;> generalize dpWhile _ _ _ _ _ _ = r <;>
      (match r with
      | none => rfl
      | some (.error e) => rfl
      | some (.ok x) =>
        simp only [Option.map_some, Except.map]
        cases x.getLastD [] <;> rfl)
  have hloop : ∀ (ins : List (Finset Nat)) (contractions : List Tree) (naive : WithTop Nat) (gs : List (List Nat)) (acc : List (Tree × Nat)),
      dpSubgraphsWith (dpSubgraphWith builtin cfg size output limit ins contractions naive fuel) size gs acc () =
        dpSubgraphs (dpSubgraph cfg size output limit ins contractions naive fuel) size gs acc := by
    intro ins contractions naive gs
    induction gs with
    | nil => intro acc; rfl
    | cons g gs ih =>
      intro acc
      rw [dpSubgraphsWith, dpSubgraphs, hsub]
      cases dpSubgraph cfg size output limit ins contractions naive fuel g with
      | none => rfl
      | some r =>
        cases r with
        | error e => rfl
        | ok e => exact ih _
  unfold dpCallWith dpCall
  simp only [hloop]
  rfl

/-! ## Examples -/

/-- The decimal digits of ASCII. -/
def asciiDigit (c : Nat) : Option Nat := if 48 ≤ c ∧ c ≤ 57 then some (c - 48) else none

/-- `combo--256` is the cost model combo with the factor 256, `limit` the cost model limit with the factor 64. -/
example : asciiDigit 45 = none ∧ Names asciiDigit (S "combo--256") (.combo 256) ∧ Names asciiDigit (S "limit") (.limit 64) :=
  ⟨by decide, Or.inr (Or.inr (Or.inr (Or.inl ⟨2, S "256", 256, by decide, ⟨[2, 5, 6], by decide, by decide⟩, rfl⟩))),
    Or.inr (Or.inr (Or.inr (Or.inr ⟨0, [], 64, by decide, ⟨[], rfl, by decide⟩, rfl⟩)))⟩

/-- `flops-3` names nothing: `ValueError`. -/
example (opts : Opts) : dpMinimize asciiDigit (.str (S "flops-3") : Arg Unit) opts ascendingPop (fun _ => 2) none [{0, 1}, {1, 2}] {0, 2} 9 = some (.error .value) := by
  have h : parseMinimize asciiDigit (S "flops-3") = .error .value := rfl
  unfold dpMinimize
  simp only [h]

/-- `combo-1.5` names nothing, as the factor must be an integer: `ValueError`. -/
example : parseMinimize asciiDigit (S "combo-1.5") = .error .value ∧ parseMinimize asciiDigit (S "combo-15") = .ok (.combo 15) := ⟨rfl, rfl⟩

/-- A function that stores everything at cost 0, in the other order, and counts its calls. -/
def storeAll : Check Nat := fun ctx st _ s1 s2 e1 e2 cut union xn =>
  .ok (xn.set (s1 ||| s2) ⟨union.filter (fun c => ¬ (c ∈ cut ∧ ∀ j, j < ctx.inputs.length → ctx.g.testBit j = true → (s1 ||| s2).testBit j = false →
    c ∉ ctx.inputs.getD j ∅)), 0, .node [e2.tree, e1.tree]⟩, st + 1)

theorem storeAll_ok : Honest storeAll ∧ Accepts storeAll := by
  constructor
  · intro ctx st cap s1 s2 e1 e2 cut union xn xn' st' h
    cases h
    exact Or.inr ⟨_, _, Finset.filter_subset _ _, Or.inr rfl⟩
  · intro ctx st cap s1 s2 e1 e2 cut union xn
    exact ⟨_, _, rfl, fun _ => ⟨_, Dict.get?_set_self ..⟩, Or.inr ⟨_, _, rfl⟩⟩

/-- A function that raises when called for the second time. -/
def raiseSecond : Check Nat := fun ctx st cap s1 s2 e1 e2 cut union xn => if st = 1 then .error .key else storeAll ctx st cap s1 s2 e1 e2 cut union xn

theorem raiseSecond_ok : Honest raiseSecond := by
  intro ctx st cap s1 s2 e1 e2 cut union xn xn' st' h
  unfold raiseSecond at h
  split at h
  · cases h
  · exact storeAll_ok.1 _ _ _ _ _ _ _ _ _ _ _ _ h

/-- The theorems apply to `ab,bc,cd->ad`: a path from the first function, the exception of the second, and no end with one that stores nothing. -/
example : dpMinimize asciiDigit (.function storeAll 0) ⟨.increase, false⟩ ascendingPop (fun _ => 2) none [{0, 1}, {1, 2}, {2, 3}] {0, 3} 20 =
    some (.ok [[0, 1], [0, 1]]) ∧
    dpMinimize asciiDigit (.function raiseSecond 0) ⟨.increase, false⟩ ascendingPop (fun _ => 2) none [{0, 1}, {1, 2}, {2, 3}] {0, 3} 20 = some (.error .key) ∧
    ∀ fuel, dpMinimize asciiDigit (.function (fun _ st _ _ _ _ _ _ _ xn => .ok (xn, st)) ()) ⟨.off, true⟩ ascendingPop (fun _ => 2) none
      [{0, 1}, {1, 2}, {2, 3}] {0, 3} fuel = none := by
  refine ⟨by decide +kernel, by decide +kernel, fun fuel => ?_⟩
  exact C81_custom_never (fun _ st _ _ _ _ _ _ _ xn => ⟨st, rfl⟩) ascendingPop_ok (i := 0) (j := 1) (c := 1) (by decide) (by decide) (by decide) (by decide)
    (by decide) (by decide) _ _ fuel

/-- The subgraphs are searched in turn, each from the state in which the search of the one before left the function. -/
inductive InTurn {σ : Type} (solve : List Nat → σ → Option (Except PyErr (DPEntry × σ))) : σ → List (List Nat) → List DPEntry → σ → Prop
  | nil (st : σ) : InTurn solve st [] [] st
  | cons {st st' st'' : σ} {g : List Nat} {gs : List (List Nat)} {e : DPEntry} {es : List DPEntry} :
      solve g st = some (.ok (e, st')) → InTurn solve st' gs es st'' → InTurn solve st (g :: gs) (e :: es) st''

/-- **C81, the state of the function.** A function with a state (a closure, an instance) is called for the subgraphs in turn and keeps its state from one to the next:
the results are exactly those of the searches done in turn, and an exception is exactly one that the search of a subgraph raises from the state left by those before. -/
theorem C81_state {σ : Type} (solve : List Nat → σ → Option (Except PyErr (DPEntry × σ))) (size : Nat → Nat) (gs : List (List Nat)) (acc : List (Tree × Nat)) (st : σ) :
    (∀ l, dpSubgraphsWith solve size gs acc st = some (.ok l) ↔
      ∃ es st', InTurn solve st gs es st' ∧ l = acc ++ es.map (fun e => (e.tree, Paths.sizeOf size e.legs))) ∧
    ∀ err, dpSubgraphsWith solve size gs acc st = some (.error err) ↔
      ∃ before g after es st', gs = before ++ g :: after ∧ InTurn solve st before es st' ∧ solve g st' = some (.error err) := by
  induction gs generalizing acc st with
  | nil =>
    refine ⟨fun l => ⟨?_, ?_⟩, fun err => ⟨?_, ?_⟩⟩
    · intro h
      cases h
      exact ⟨[], st, .nil st, by simp⟩
    · rintro ⟨es, st', h, rfl⟩
      cases h
      simp [dpSubgraphsWith]
    · intro h
      cases h
    · rintro ⟨before, g, after, es, st', h, -⟩
      simp at h
  | cons g gs ih =>
    rw [dpSubgraphsWith]
    cases hs : solve g st with
    | none =>
      refine ⟨fun l => ⟨fun h => (by cases h), ?_⟩, fun err => ⟨fun h => (by cases h), ?_⟩⟩
      · rintro ⟨es, st', h, -⟩
        cases h with
        | cons h1 _ => cases hs.symm.trans h1
      · rintro ⟨before, g', after, es, st', he, h, h'⟩
        cases h with
        | nil =>
          simp only [List.nil_append, List.cons.injEq] at he
          rw [← he.1] at h'
          cases hs.symm.trans h'
        | cons h1 _ =>
          simp only [List.cons_append, List.cons.injEq] at he
          rw [← he.1] at h1
          cases hs.symm.trans h1
    | some r =>
      cases r with
      | error e =>
        simp only
        refine ⟨fun l => ⟨fun h => (by cases h), ?_⟩, fun err => ⟨?_, ?_⟩⟩
        · rintro ⟨es, st', h, -⟩
          cases h with
          | cons h1 _ => cases hs.symm.trans h1
        · intro h
          cases h
          exact ⟨[], g, gs, [], st, rfl, .nil st, hs⟩
        · rintro ⟨before, g', after, es, st', he, h, h'⟩
          cases h with
          | nil =>
            simp only [List.nil_append, List.cons.injEq] at he
            rw [← he.1] at h'
            cases hs.symm.trans h'
            rfl
          | cons h1 _ =>
            simp only [List.cons_append, List.cons.injEq] at he
            rw [← he.1] at h1
            cases hs.symm.trans h1
      | ok p =>
        obtain ⟨e, st1⟩ := p
        simp only
        obtain ⟨i1, i2⟩ := ih (acc ++ [(e.tree, Paths.sizeOf size e.legs)]) st1
        refine ⟨fun l => (i1 l).trans ⟨?_, ?_⟩, fun err => (i2 err).trans ⟨?_, ?_⟩⟩
        · rintro ⟨es, st', h, rfl⟩
          exact ⟨e :: es, st', .cons hs h, by simp⟩
        · rintro ⟨es, st', h, rfl⟩
          cases h with
          | cons h1 h2 =>
            cases hs.symm.trans h1
            exact ⟨_, _, h2, by simp⟩
        · rintro ⟨before, g', after, es, st', rfl, h, h'⟩
          exact ⟨g :: before, g', after, e :: es, st', rfl, .cons hs h, h'⟩
        · rintro ⟨before, g', after, es, st', he, h, h'⟩
          cases h with
          | nil =>
            simp only [List.nil_append, List.cons.injEq] at he
            rw [← he.1] at h'
            cases hs.symm.trans h'
          | cons h1 h2 =>
            simp only [List.cons_append, List.cons.injEq] at he
            rw [← he.1] at h1
            cases hs.symm.trans h1
            exact ⟨_, g', after, _, st', he.2, h2, h'⟩

/-- The function keeps its state from subgraph to subgraph (`ab,bc,de,ef->acdf`: the second call is for the second subgraph) and from round to round
(a function that stores from its third call on). -/
example : dpMinimize asciiDigit (.function raiseSecond 0) ⟨.off, false⟩ ascendingPop (fun _ => 2) none [{0, 1}, {1, 2}, {3, 4}, {4, 5}] {0, 2, 3, 5} 20 =
      some (.error .key) ∧
    dpMinimize asciiDigit (.function (fun ctx st cap s1 s2 e1 e2 cut union xn => if st < 2 then .ok (xn, st + 1) else storeAll ctx st cap s1 s2 e1 e2 cut union xn) 0)
      ⟨.off, false⟩ ascendingPop (fun _ => 2) none [{0, 1}, {1, 2}] {0, 2} 20 = some (.ok [[0, 1]]) := by
  decide +kernel

/-- The hypothesis that the function is honest is needed: with one that stores the contraction of the first operand alone the optimizer returns a path
that contracts nothing. -/
theorem C81_counterexample_dishonest : dpMinimize asciiDigit
    (.function (fun _ st _ s1 s2 e1 _ _ union xn => .ok (xn.set (s1 ||| s2) ⟨union, 0, e1.tree⟩, st)) ())
    ⟨.increase, false⟩ ascendingPop (fun _ => 2) none [{0, 1}, {1, 2}, {2, 3}] {0, 3} 20 = some (.ok []) := by
  decide +kernel

end OE.Props
