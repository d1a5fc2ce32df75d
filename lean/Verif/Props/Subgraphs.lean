import Verif.Model.Subgraphs
import Verif.Lemmas.SearchNode
import Verif.Lemmas.DictLemmas
import Verif.Lemmas.GreedyInv

/-!
# C26: disconnected subgraphs; C28: the registry of path functions
-/

namespace OE.Props
open OE OE.Py OE.Spec OE.Paths

/-! ## C26 -/

/-- `pop` takes an element out of the set; sets are listed in any order. -/
def PopOK (order : PopOrder) : Prop := (∀ s : Finset Nat, s ≠ ∅ → order.pop s ∈ s) ∧ OrderOK order.list

/-- Two inputs share a label that is not in the output. -/
def Share (inputs : List (Finset Nat)) (output : Finset Nat) (i j : Nat) : Prop :=
  ∃ c, c ∈ inputs.getD i ∅ ∧ c ∈ inputs.getD j ∅ ∧ c ∉ output

theorem Share.symm {inputs : List (Finset Nat)} {output : Finset Nat} {i j : Nat} (h : Share inputs output i j) : Share inputs output j i := by
  obtain ⟨c, h1, h2, h3⟩ := h
  exact ⟨c, h2, h1, h3⟩

/-- There is a chain of inputs of the group from `i` to `j`, neighbours sharing a summed label. -/
inductive Chain (inputs : List (Finset Nat)) (output g : Finset Nat) : Nat → Nat → Prop
  | refl {i : Nat} : i ∈ g → Chain inputs output g i i
  | step {i j k : Nat} : Chain inputs output g i j → Share inputs output j k → k ∈ g → Chain inputs output g i k

section
variable {inputs : List (Finset Nat)} {output : Finset Nat}

theorem Chain.mono {g g' : Finset Nat} (hs : g ⊆ g') {i j : Nat} (h : Chain inputs output g i j) : Chain inputs output g' i j := by
  induction h with
  | refl hi => exact .refl (hs hi)
  | step _ h2 h3 ih => exact .step ih h2 (hs h3)

theorem Chain.mem {g : Finset Nat} {i j : Nat} (h : Chain inputs output g i j) : i ∈ g ∧ j ∈ g := by
  induction h with
  | refl hi => exact ⟨hi, hi⟩
  | step _ _ h3 ih => exact ⟨ih.1, h3⟩

theorem Chain.trans {g : Finset Nat} {i j k : Nat} (h : Chain inputs output g i j) (h' : Chain inputs output g j k) : Chain inputs output g i k := by
  induction h' with
  | refl _ => exact h
  | step _ h2 h3 ih => exact .step ih h2 h3

theorem Chain.symm {g : Finset Nat} {i j : Nat} (h : Chain inputs output g i j) : Chain inputs output g j i := by
  induction h with
  | refl hi => exact .refl hi
  | step h1 h2 h3 ih => exact (Chain.step (.refl h3) h2.symm h1.mem.2).trans ih

theorem mem_union_inputs {c : Nat} : c ∈ inputs.foldr (· ∪ ·) ∅ ↔ ∃ s ∈ inputs, c ∈ s := by
  induction inputs with
  | nil => simp
  | cons x xs ih => simp [ih]

theorem share_iff {j k : Nat} :
    0 < ((inputs.foldr (· ∪ ·) ∅ \ output) ∩ inputs.getD j ∅ ∩ inputs.getD k ∅).card ↔ Share inputs output j k := by
  rw [Finset.card_pos]
  constructor
  · rintro ⟨c, hc⟩
    simp only [Finset.mem_inter, Finset.mem_sdiff] at hc
    exact ⟨c, hc.1.2, hc.2, hc.1.1.2⟩
  · rintro ⟨c, h1, h2, h3⟩
    refine ⟨c, ?_⟩
    simp only [Finset.mem_inter, Finset.mem_sdiff]
    refine ⟨⟨⟨?_, h3⟩, h1⟩, h2⟩
    rw [mem_union_inputs]
    rw [List.getD_eq_getElem?_getD] at h1
    cases hg : inputs[j]? with
    | none => rw [hg] at h1; simp at h1
    | some s =>
      rw [hg] at h1
      exact ⟨s, List.mem_of_getElem? hg, h1⟩

theorem subgraphLoop_spec {order : PopOrder} (ho : PopOK order) (i : Nat) (fuel : Nat) (g : Finset Nat) (q : List Nat) (unused : Finset Nat)
    (hf : q.length + unused.card ≤ fuel) (hq : q.Nodup) (hgq : ∀ x ∈ q, x ∉ g ∧ x ∉ unused) (hgu : Disjoint g unused)
    (hconn : ∀ x ∈ g ∪ q.toFinset, Chain inputs output (g ∪ q.toFinset) i x)
    (hclosed : ∀ j ∈ g, ∀ k ∈ unused, ¬ Share inputs output j k) :
    ∃ g' unused', subgraphLoop order (inputs.foldr (· ∪ ·) ∅ \ output) inputs fuel g q unused = some (g', unused') ∧
      g ∪ q.toFinset ⊆ g' ∧ g' ∪ unused' = g ∪ q.toFinset ∪ unused ∧ Disjoint g' unused' ∧
      (∀ x ∈ g', Chain inputs output g' i x) ∧ ∀ j ∈ g', ∀ k ∈ unused', ¬ Share inputs output j k := by
  induction fuel generalizing g q unused with
  | zero =>
    have hq0 : q = [] := List.length_eq_zero_iff.mp (by omega)
    subst hq0
    refine ⟨g, unused, by rw [subgraphLoop], by simp, by simp, hgu, ?_, hclosed⟩
    simpa using hconn
  | succ fuel ih =>
    match q with
    | [] =>
      refine ⟨g, unused, by rw [subgraphLoop], by simp, by simp, hgu, ?_, hclosed⟩
      simpa using hconn
    | j :: q =>
      simp only [subgraphLoop]
      generalize hn : unused.filter (fun k => 0 < ((inputs.foldr (· ∪ ·) ∅ \ output) ∩ inputs.getD j ∅ ∩ inputs.getD k ∅).card) = n
      have hnm : ∀ k, k ∈ n ↔ k ∈ unused ∧ Share inputs output j k := by
        intro k
        rw [← hn, Finset.mem_filter, share_iff]
      have hns : n ⊆ unused := fun k hk => ((hnm k).mp hk).1
      obtain ⟨hln, hlm⟩ := ho.2 [] n
      have hlset : (order.list [] n).toFinset = n := by ext x; rw [List.mem_toFinset, hlm]
      have hllen : (order.list [] n).length = n.card := by
        rw [← List.toFinset_card_of_nodup hln, hlset]
      rw [List.nodup_cons] at hq
      have hset : insert j g ∪ ((order.list [] n).reverse ++ q).toFinset = g ∪ (j :: q).toFinset ∪ n := by
        ext x
        simp only [Finset.mem_union, Finset.mem_insert, List.mem_toFinset, List.mem_append, List.mem_reverse, List.mem_cons, hlm]
        tauto
      obtain ⟨g', u', e1, e2, e3, e4, e5, e6⟩ := ih (insert j g) ((order.list [] n).reverse ++ q) (unused \ n)
        (by
          rw [Finset.card_sdiff_of_subset hns, List.length_append, List.length_reverse, hllen]
          have := Finset.card_le_card hns
          simp only [List.length_cons] at hf
          omega)
        (by
          rw [List.nodup_append']
          refine ⟨List.nodup_reverse.mpr hln, hq.2, ?_⟩
          intro x hx hx'
          rw [List.mem_reverse, hlm] at hx
          exact (hgq x (by simp [hx'])).2 (hns hx))
        (by
          intro x hx
          rw [Finset.mem_insert, Finset.mem_sdiff]
          rcases List.mem_append.mp hx with hx | hx
          · rw [List.mem_reverse, hlm] at hx
            have hxu := hns hx
            refine ⟨?_, fun h => h.2 hx⟩
            rintro (rfl | h)
            · exact (hgq x (by simp)).2 hxu
            · exact Finset.disjoint_left.mp hgu h hxu
          · refine ⟨?_, fun h => (hgq x (by simp [hx])).2 h.1⟩
            rintro (rfl | h)
            · exact hq.1 hx
            · exact (hgq x (by simp [hx])).1 h)
        (by
          rw [Finset.disjoint_left]
          intro x hx hx'
          rw [Finset.mem_sdiff] at hx'
          rcases Finset.mem_insert.mp hx with rfl | hx
          · exact (hgq x (by simp)).2 hx'.1
          · exact Finset.disjoint_left.mp hgu hx hx'.1)
        (by
          intro x hx
          rw [hset] at hx ⊢
          have hsub : g ∪ (j :: q).toFinset ⊆ g ∪ (j :: q).toFinset ∪ n := Finset.subset_union_left
          rcases Finset.mem_union.mp hx with h1 | h1
          · exact (hconn x h1).mono hsub
          · have hj := (hconn j (by simp)).mono hsub
            exact .step hj ((hnm x).mp h1).2 hx)
        (by
          intro a ha k hk hsh
          rw [Finset.mem_sdiff] at hk
          rcases Finset.mem_insert.mp ha with rfl | ha
          · exact hk.2 ((hnm k).mpr ⟨hk.1, hsh⟩)
          · exact hclosed a ha k hk.1 hsh)
      refine ⟨g', u', ?_, ?_, ?_, e4, e5, e6⟩
      · simpa [Finset.inter_assoc] using e1
      · rw [hset] at e2
        exact Finset.subset_union_left.trans e2
      · rw [e3, hset]
        ext x
        have := @hns x
        simp only [Finset.mem_union, Finset.mem_sdiff]
        tauto

/-- What the result has to be: groups that partition the inputs, that share no summed label, and that are connected. -/
structure Components (inputs : List (Finset Nat)) (output : Finset Nat) (gs : List (Finset Nat)) (unused : Finset Nat) : Prop where
  disjoint : gs.Pairwise Disjoint
  apart : ∀ g ∈ gs, Disjoint g unused
  cover : ∀ i, i < inputs.length ↔ i ∈ unused ∨ ∃ g ∈ gs, i ∈ g
  nonempty : ∀ g ∈ gs, g.Nonempty
  unshared : gs.Pairwise (fun g g' => ∀ i ∈ g, ∀ j ∈ g', ¬ Share inputs output i j)
  closed : ∀ g ∈ gs, ∀ i ∈ g, ∀ j ∈ unused, ¬ Share inputs output i j
  chain : ∀ g ∈ gs, ∀ i ∈ g, ∀ j ∈ g, Chain inputs output g i j

theorem subgraphsLoop_spec {order : PopOrder} (ho : PopOK order) (fuel : Nat) (gs : List (Finset Nat)) (unused : Finset Nat)
    (hf : unused.card ≤ fuel) (h : Components inputs output gs unused) :
    ∃ gs', subgraphsLoop order (inputs.foldr (· ∪ ·) ∅ \ output) inputs fuel gs unused = some gs' ∧ Components inputs output gs' ∅ := by
  induction fuel generalizing gs unused with
  | zero =>
    have h0 : unused = ∅ := Finset.card_eq_zero.mp (by omega)
    subst h0
    exact ⟨gs, by rw [subgraphsLoop, if_pos rfl], h⟩
  | succ fuel ih =>
    by_cases h0 : unused = ∅
    · subst h0
      exact ⟨gs, by rw [subgraphsLoop, if_pos rfl], h⟩
    · have hi := ho.1 unused h0
      generalize hii : order.pop unused = i at *
      have hle : unused.card ≤ inputs.length := by
        have hsub : unused ⊆ Finset.range inputs.length := by
          intro x hx
          rw [Finset.mem_range, h.cover]
          exact Or.inl hx
        simpa using Finset.card_le_card hsub
      have hcard := Finset.card_erase_of_mem hi
      have hpos : 0 < unused.card := Finset.card_pos.mpr ⟨i, hi⟩
      obtain ⟨g, u, e1, e2, e3, e4, e5, e6⟩ := subgraphLoop_spec (inputs := inputs) (output := output) ho i inputs.length ∅ [i] (unused.erase i)
        (by simp only [List.length_singleton]; omega) (by simp) (by simp) (by simp)
        (by
          intro x hx
          simp only [List.toFinset_cons, List.toFinset_nil, Finset.empty_union, insert_empty_eq, Finset.mem_singleton] at hx ⊢
          subst hx
          exact .refl (by simp))
        (by simp)
      have hmem : ∀ x, (x ∈ g ∨ x ∈ u) ↔ x ∈ unused := by
        intro x
        rw [← Finset.mem_union, e3]
        simp only [List.toFinset_cons, List.toFinset_nil, Finset.empty_union, insert_empty_eq, Finset.mem_union, Finset.mem_singleton, Finset.mem_erase]
        by_cases hx : x = i
        · subst hx; simp [hi]
        · simp [hx]
      have hig : i ∈ g := e2 (by simp)
      have hcu : u.card ≤ fuel := by
        have : u ⊂ unused := by
          rw [Finset.ssubset_iff_of_subset (fun x hx => (hmem x).mp (Or.inr hx))]
          exact ⟨i, hi, fun hx => Finset.disjoint_left.mp e4 hig hx⟩
        have := Finset.card_lt_card this
        omega
      rw [subgraphsLoop, if_neg h0]
      simp only [hii, e1]
      apply ih _ _ hcu
      constructor
      · rw [List.pairwise_append]
        refine ⟨h.disjoint, by simp, ?_⟩
        intro a ha b hb
        rw [List.mem_singleton] at hb
        subst hb
        exact (h.apart a ha).mono_right (fun x hx => (hmem x).mp (Or.inl hx))
      · intro a ha
        rcases List.mem_append.mp ha with ha | ha
        · exact (h.apart a ha).mono_right (fun x hx => (hmem x).mp (Or.inr hx))
        · rw [List.mem_singleton] at ha
          subst ha
          exact e4
      · intro x
        rw [h.cover, ← hmem]
        simp only [List.mem_append, List.mem_singleton]
        constructor
        · rintro ((h1 | h1) | ⟨a, ha, hx⟩)
          · exact Or.inr ⟨g, Or.inr rfl, h1⟩
          · exact Or.inl h1
          · exact Or.inr ⟨a, Or.inl ha, hx⟩
        · rintro (h1 | ⟨a, ha | rfl, hx⟩)
          · exact Or.inl (Or.inr h1)
          · exact Or.inr ⟨a, ha, hx⟩
          · exact Or.inl (Or.inl hx)
      · intro a ha
        rcases List.mem_append.mp ha with ha | ha
        · exact h.nonempty a ha
        · rw [List.mem_singleton] at ha
          subst ha
          exact ⟨i, hig⟩
      · rw [List.pairwise_append]
        refine ⟨h.unshared, by simp, ?_⟩
        intro a ha b hb x hx y hy
        rw [List.mem_singleton] at hb
        subst hb
        exact h.closed a ha x hx y ((hmem y).mp (Or.inl hy))
      · intro a ha x hx y hy
        rcases List.mem_append.mp ha with ha | ha
        · exact h.closed a ha x hx y ((hmem y).mp (Or.inr hy))
        · rw [List.mem_singleton] at ha
          subst ha
          exact e6 x hx y hy
      · intro a ha x hx y hy
        rcases List.mem_append.mp ha with ha | ha
        · exact h.chain a ha x hx y hy
        · rw [List.mem_singleton] at ha
          subst ha
          exact (e5 x hx).symm.trans (e5 y hy)

end

/-- **C26.** For any non-empty list of inputs, any output and any set orders, `_find_disconnected_subgraphs` terminates without
raising; its groups are non-empty, pairwise disjoint and cover exactly the inputs; no summed label is shared between two
groups; and any two inputs of a group are linked by a chain inside the group. -/
theorem C26_disconnected_subgraphs {order : PopOrder} (ho : PopOK order) (inputs : List (Finset Nat)) (hne : inputs ≠ []) (output : Finset Nat) :
    ∃ gs, findDisconnectedSubgraphs order inputs output = some (.ok gs) ∧ (∀ g ∈ gs, g.Nonempty) ∧ gs.Pairwise Disjoint ∧
      (∀ i, i < inputs.length ↔ ∃ g ∈ gs, i ∈ g) ∧ (gs.Pairwise (fun g g' => ∀ i ∈ g, ∀ j ∈ g', ¬ Share inputs output i j)) ∧
      ∀ g ∈ gs, ∀ i ∈ g, ∀ j ∈ g, Chain inputs output g i j := by
  obtain ⟨gs, e1, e2⟩ := subgraphsLoop_spec (inputs := inputs) (output := output) ho inputs.length [] (Finset.range inputs.length) (by simp)
    ⟨by simp, by simp, by simp, by simp, by simp, by simp, by simp⟩
  refine ⟨gs, ?_, e2.nonempty, e2.disjoint, by simpa using e2.cover, e2.unshared, e2.chain⟩
  unfold findDisconnectedSubgraphs
  rw [if_neg hne]
  simp only [e1, Option.map_some]

-- C26: the examples of the documentation, 'ab,c,ad->bd' and 'ab,c,ad->abd'
example : findDisconnectedSubgraphs ⟨fun s => s.sup id, fun _ s => (List.range 5).filter (fun x => x ∈ s)⟩ [{0, 1}, {2}, {0, 3}] {1, 3} =
    some (.ok [{0, 2}, {1}]) := by decide +kernel
example : findDisconnectedSubgraphs ⟨fun s => s.sup id, fun _ s => (List.range 5).filter (fun x => x ∈ s)⟩ [{0, 1}, {2}, {0, 3}] {0, 1, 3} =
    some (.ok [{2}, {1}, {0}]) := by decide +kernel

/-! ## C28 -/

/-- **C28 (partial).** Lookups do not depend on case; a successful registration makes the function available under every
spelling of the name and leaves every other name alone; and if the name is in lower case, an existing optimizer is never
replaced: the attempt is refused. (Missing: for a name that is not in lower case the refusal fails, see `C28_counterexample`.) -/
theorem C28_registry_partial {φ : Type} (lower : Str → Str) (options : Dict Str φ) (name : Str) (fn : φ) :
    (∀ a b, lower a = lower b → getPathFn lower options a = getPathFn lower options b) ∧
    (∀ options', registerPathFn lower options name fn = .ok options' →
      (∀ x, lower x = lower name → getPathFn lower options' x = .ok fn) ∧
      ∀ x, lower x ≠ lower name → getPathFn lower options' x = getPathFn lower options x) ∧
    (lower name = name → (∃ f, getPathFn lower options name = .ok f) → registerPathFn lower options name fn = .error .key) ∧
    (lower name = name → getPathFn lower options name = .error .key → ∃ options', registerPathFn lower options name fn = .ok options') := by
  have hget : ∀ (o : Dict Str φ) x, getPathFn lower o x = match o.get? (lower x) with | some f => .ok f | none => .error .key := by
    intro o x
    unfold getPathFn
    rw [Dict.has]
    cases h : o.get? (lower x) with
    | none => simp
    | some f => simp [Dict.get!, h]
  refine ⟨?_, ?_, ?_, ?_⟩
  · intro a b hab
    unfold getPathFn
    rw [hab]
  · intro options' h
    unfold registerPathFn at h
    split at h
    · cases h
    · cases h
      constructor
      · intro x hx
        rw [hget, hx, Dict.get?_set_self]
      · intro x hx
        rw [hget, hget, Dict.get?_set_ne hx]
  · rintro hl ⟨f, hf⟩
    rw [hget, hl] at hf
    unfold registerPathFn
    rw [if_pos]
    rw [Dict.has]
    cases h : options.get? name with
    | none => rw [h] at hf; cases hf
    | some _ => rfl
  · intro hl he
    rw [hget, hl] at he
    unfold registerPathFn
    rw [if_neg]
    · exact ⟨_, rfl⟩
    · rw [Dict.has]
      cases h : options.get? name with
      | none => simp
      | some _ => rw [h] at he; cases he

/-- `str.lower` on ASCII letters, for the concrete cases. -/
def asciiLower (s : Str) : Str := s.map (fun c => if 65 ≤ c ∧ c ≤ 90 then c + 32 else c)

/-- **C28, counterexample.** Registering "Greedy" is not refused and replaces "greedy". -/
theorem C28_counterexample :
    ∃ options', registerPathFn asciiLower [(S "greedy", 1), (S "optimal", 2)] (S "Greedy") 3 = .ok options' ∧
      getPathFn asciiLower [(S "greedy", 1), (S "optimal", 2)] (S "greedy") = .ok 1 ∧ getPathFn asciiLower options' (S "greedy") = .ok 3 :=
  ⟨[(S "greedy", 3), (S "optimal", 2)], by decide +kernel⟩

-- C28: a new name, looked up in another spelling
example : ((registerPathFn asciiLower [(S "greedy", 1), (S "optimal", 2)] (S "Mine") 3).map (fun o => getPathFn asciiLower o (S "MINE"))) = .ok (.ok 3) := by
  decide +kernel

end OE.Props
