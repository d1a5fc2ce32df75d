import Verif.Model.Search
import Verif.Lemmas.Legs
import Verif.Lemmas.Fold
import Verif.Props.Paths1

/-! Nodes of the depth-first searches `optimal` and `branch`. -/

namespace OE.Paths
open OE OE.Py OE.Spec OE.Props

/-- The oracle lists the set it is given, in any order. -/
def OrderOK (order : SetOrder) : Prop := ∀ path s, (order path s).Nodup ∧ ∀ x, x ∈ order path s ↔ x ∈ s

theorem mem_combinations2 {l : List Nat} (hl : l.Nodup) {a b : Nat} (h : (a, b) ∈ combinations2 l) : a ∈ l ∧ b ∈ l ∧ a ≠ b := by
  induction l with
  | nil => simp [combinations2] at h
  | cons x xs ih =>
    rw [List.nodup_cons] at hl
    simp only [combinations2, List.mem_append, List.mem_map, Prod.mk.injEq] at h
    rcases h with ⟨y, hy, rfl, rfl⟩ | h
    · exact ⟨by simp, by simp [hy], fun e => hl.1 (e ▸ hy)⟩
    · obtain ⟨h1, h2, h3⟩ := ih hl.2 h
      exact ⟨by simp [h1], by simp [h2], h3⟩

theorem combinations2_complete {l : List Nat} {a b : Nat} (ha : a ∈ l) (hb : b ∈ l) (hne : a ≠ b) :
    (a, b) ∈ combinations2 l ∨ (b, a) ∈ combinations2 l := by
  induction l with
  | nil => simp at ha
  | cons x xs ih =>
    simp only [combinations2, List.mem_append, List.mem_map, Prod.mk.injEq]
    rcases List.mem_cons.mp ha with ha' | ha' <;> rcases List.mem_cons.mp hb with hb' | hb'
    · exact absurd (ha'.trans hb'.symm) hne
    · exact Or.inl (Or.inl ⟨b, hb', ha'.symm, rfl⟩)
    · exact Or.inr (Or.inl ⟨a, ha', hb'.symm, rfl⟩)
    · rcases ih ha' hb' with h | h
      · exact Or.inl (Or.inr h)
      · exact Or.inr (Or.inr h)

theorem orient_mem {s : Finset Nat} {x : Nat × Nat} (h : x.1 ∈ s ∧ x.2 ∈ s ∧ x.1 ≠ x.2) :
    (orient x).1 ∈ s ∧ (orient x).2 ∈ s ∧ (orient x).1 ≠ (orient x).2 := by
  unfold orient
  split
  · exact ⟨h.2.1, h.1, h.2.2.symm⟩
  · exact h

theorem pair_of_order {order : SetOrder} (ho : OrderOK order) {path : Path} {s : Finset Nat} {x : Nat × Nat}
    (h : x ∈ combinations2 (order path s)) : (orient x).1 ∈ s ∧ (orient x).2 ∈ s ∧ (orient x).1 ≠ (orient x).2 := by
  apply orient_mem
  obtain ⟨h1, h2, h3⟩ := mem_combinations2 (ho path s).1 h
  exact ⟨((ho path s).2 _).mp h1, ((ho path s).2 _).mp h2, h3⟩

/-- What a node knows about its path: legal so far, `remaining` are the live ids. -/
structure GoodPath (n : Nat) (nd : SearchNode) : Prop where
  lt : ∀ i ∈ nd.remaining, i < nd.inputs.length
  valid : ∀ rest, SsaValid nd.remaining nd.inputs.length rest → SsaValid (Finset.range n) n (nd.path ++ rest)
  count : (nd.path.map List.length).sum + nd.remaining.card = n + nd.path.length

theorem goodPath_root (inputs : List (Finset Nat)) : GoodPath inputs.length (rootNode inputs) := by
  constructor
  · intro i hi; simpa [rootNode] using hi
  · intro rest h; simpa [rootNode] using h
  · simp [rootNode]

theorem child_remaining_card {n : Nat} {nd : SearchNode} (h : GoodPath n nd) {i j : Nat} (hi : i ∈ nd.remaining) (hj : j ∈ nd.remaining)
    (hij : i ≠ j) (k : Finset Nat) (f : Nat) : (nd.child i j k f).remaining.card + 1 = nd.remaining.card := by
  simp only [SearchNode.child]
  rw [Finset.card_insert_of_notMem]
  · rw [Finset.card_sdiff_of_subset (by intro x hx; simp only [Finset.mem_insert, Finset.mem_singleton] at hx; rcases hx with rfl | rfl <;> assumption),
      Finset.card_pair hij]
    have : 2 ≤ nd.remaining.card := by
      rw [← Finset.card_pair hij]
      apply Finset.card_le_card
      intro x hx; simp only [Finset.mem_insert, Finset.mem_singleton] at hx; rcases hx with rfl | rfl <;> assumption
    omega
  · intro hm
    have := h.lt _ (Finset.mem_sdiff.mp hm).1
    omega

theorem pair_toFinset (i j : Nat) : [i, j].toFinset = {i, j} := by simp

theorem goodPath_child {n : Nat} {nd : SearchNode} (h : GoodPath n nd) {i j : Nat} (hi : i ∈ nd.remaining) (hj : j ∈ nd.remaining)
    (hij : i ≠ j) (k : Finset Nat) (f : Nat) : GoodPath n (nd.child i j k f) := by
  have hc := child_remaining_card h hi hj hij k f
  constructor
  · intro x hx
    simp only [SearchNode.child, Finset.mem_insert, Finset.mem_sdiff, List.length_append, List.length_singleton] at hx ⊢
    rcases hx with rfl | hx
    · omega
    · have := h.lt x hx.1; omega
  · intro rest hr
    simp only [SearchNode.child, List.length_append, List.length_singleton] at hr ⊢
    rw [List.append_assoc, List.singleton_append]
    apply h.valid
    refine ⟨by simp, by simpa using hij, ?_, ?_⟩
    · intro x hx
      simp only [List.mem_cons, List.not_mem_nil, or_false] at hx
      rcases hx with rfl | rfl <;> assumption
    · rw [pair_toFinset]; exact hr
  · have := h.count
    simp only [SearchNode.child, List.map_append, List.sum_append, List.map_cons, List.map_nil, List.sum_cons, List.sum_nil,
      List.length_append, List.length_cons, List.length_nil] at hc ⊢
    omega

/-- A node with one tensor left is a complete path. -/
theorem GoodPath.complete {n : Nat} {nd : SearchNode} (h : GoodPath n nd) (hc : nd.remaining.card = 1) : SsaComplete n nd.path := by
  refine ⟨by simpa using h.valid [] trivial, ?_⟩
  have := h.count
  omega

/-- Contracting all remaining tensors at once completes the path. -/
theorem GoodPath.complete_all {n : Nat} {nd : SearchNode} (h : GoodPath n nd) (hc : nd.remaining ≠ ∅) {l : List Nat} (hl : l.Nodup)
    (hm : ∀ x, x ∈ l ↔ x ∈ nd.remaining) : SsaComplete n (nd.path ++ [l]) := by
  have hlen : l.length = nd.remaining.card := by
    rw [← List.toFinset_card_of_nodup hl]
    congr 1
    ext x; simp [hm]
  refine ⟨h.valid [l] ⟨?_, hl, fun x hx => (hm x).mp hx, trivial⟩, ?_⟩
  · intro h0
    subst h0
    apply hc
    ext x; simpa using (hm x).symm
  · have := h.count
    simp only [List.map_append, List.sum_append, List.map_cons, List.map_nil, List.sum_cons, List.sum_nil,
      List.length_append, List.length_cons, List.length_nil]
    omega

theorem ssaComplete_ne_nil {n : Nat} {path : Path} (h : SsaComplete n path) (hn : 2 ≤ n) : path ≠ [] := by
  intro h0
  subst h0
  have := h.2
  simp at this
  omega

theorem ssaComplete_range {n : Nat} (hn : 0 < n) : SsaComplete n [List.range n] := by
  refine ⟨⟨?_, List.nodup_range, fun x hx => by simpa using hx, trivial⟩, by simp⟩
  intro h0
  have := congrArg List.length h0
  simp at this
  omega

end OE.Paths
