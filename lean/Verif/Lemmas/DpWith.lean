import Verif.Spec.Minimize
import Verif.Props.Dp1

/-!
# The dynamic-programming search with a function of the user
-/

namespace OE.Props
open OE OE.Py OE.Spec OE.Paths OE.Minimize

/-! ## Loops that may raise -/

theorem foldlM_ok {α β : Type} {f : β → α → Except PyErr β} {P : β → Prop} {l : List α} (hf : ∀ t, P t → ∀ a ∈ l, ∀ t', f t a = .ok t' → P t')
    {t t' : β} (h : P t) (hr : l.foldlM f t = .ok t') : P t' := by
  induction l generalizing t with
  | nil => cases hr; exact h
  | cons a l ih =>
    rw [List.foldlM_cons] at hr
    cases h1 : f t a with
    | error e => rw [h1] at hr; cases hr
    | ok u =>
      rw [h1] at hr
      exact ih (fun t ht b hb => hf t ht b (List.mem_cons_of_mem _ hb)) (hf t h a List.mem_cons_self u h1) hr

theorem foldlM_error {α β : Type} {f : β → α → Except PyErr β} {l : List α} {t : β} {e : PyErr} (hr : l.foldlM f t = .error e) :
    ∃ u, ∃ a ∈ l, f u a = .error e := by
  induction l generalizing t with
  | nil => cases hr
  | cons a l ih =>
    rw [List.foldlM_cons] at hr
    cases h1 : f t a with
    | error e' => rw [h1] at hr; cases hr; exact ⟨t, a, List.mem_cons_self, h1⟩
    | ok u =>
      rw [h1] at hr
      obtain ⟨u', b, hb, hu⟩ := ih hr
      exact ⟨u', b, List.mem_cons_of_mem _ hb, hu⟩

theorem foldlM_total {α β : Type} {f : β → α → Except PyErr β} {l : List α} (hf : ∀ t, ∀ a ∈ l, ∃ t', f t a = .ok t') (t : β) :
    ∃ t', l.foldlM f t = .ok t' := by
  cases h : l.foldlM f t with
  | ok t' => exact ⟨t', rfl⟩
  | error e =>
    obtain ⟨u, a, ha, hu⟩ := foldlM_error h
    obtain ⟨t', ht'⟩ := hf u a ha
    rw [ht'] at hu
    cases hu

theorem foldlM_hit {α β : Type} {f : β → α → Except PyErr β} {Q : β → Prop} {l : List α} (hk : ∀ t, ∀ a ∈ l, ∀ t', f t a = .ok t' → Q t → Q t')
    {a : α} (ha : a ∈ l) (hit : ∀ t t', f t a = .ok t' → Q t') {t t' : β} (hr : l.foldlM f t = .ok t') : Q t' := by
  induction l generalizing t with
  | nil => cases ha
  | cons b l ih =>
    rw [List.foldlM_cons] at hr
    cases h1 : f t b with
    | error e => rw [h1] at hr; cases hr
    | ok u =>
      rw [h1] at hr
      rcases List.mem_cons.mp ha with rfl | ha
      · exact foldlM_ok (fun t ht c hc t' h => hk t c (List.mem_cons_of_mem _ hc) t' h ht) (hit _ _ h1) hr
      · exact ih (fun t c hc => hk t c (List.mem_cons_of_mem _ hc)) ha hr

/-! ## What the tables contain -/

/-- The entry `e` at key `s` describes the tree `b`; if `right`, its labels are those of the tree. -/
structure EntryW (right : Prop) (G : Finset Nat) (L : Finset Nat → Finset Nat) (contractions : List Tree) (n s : Nat) (e : DPEntry) (b : BTree) : Prop where
  nodup : b.leaves.Nodup
  sub : b.set ⊆ G
  len : b.leaves.length = n
  key : IsBm s b.set
  tree : e.tree = toTree contractions b
  legs : right → e.legs = L b.set

/-- Every entry of the table for `n` inputs describes a tree. -/
def TableW (right : Prop) (G : Finset Nat) (L : Finset Nat → Finset Nat) (contractions : List Tree) (n : Nat) (t : DPTable) : Prop :=
  ∀ p ∈ t, ∃ b, EntryW right G L contractions n p.1 p.2 b

section
variable {σ : Type} {check : Check σ} {ctx : DPCtx} {right : Prop} {G : Finset Nat} {L : Finset Nat → Finset Nat} {contractions : List Tree} {cap : WithTop Nat}

theorem legs_filter (hc : CoreOK ctx G L) {s1 s2 : Nat} {S1 S2 : Finset Nat} (h1 : IsBm s1 S1) (h2 : IsBm s2 S2) (hS1 : S1 ⊆ G) (hS2 : S2 ⊆ G)
    (hd : Disjoint S1 S2) :
    (L S1 ∪ L S2).filter (fun c => ¬ (c ∈ (L S1 ∩ L S2) \ ctx.output ∧
      ∀ j, j < ctx.inputs.length → ctx.g.testBit j = true → (s1 ||| s2).testBit j = false → c ∉ ctx.inputs.getD j ∅)) = L (S1 ∪ S2) := by
  rw [hc.merge S1 S2 hS1 hS2 hd]
  apply Finset.filter_congr
  intro c _
  rw [not_iff_not, Finset.mem_sdiff, Finset.mem_inter]
  have hbm := h1.or h2
  constructor
  · rintro ⟨⟨⟨a, b⟩, o⟩, hh⟩
    refine ⟨a, b, o, fun j hj hjS => hh j (hc.sub j hj) ?_ ?_⟩
    · rw [hc.g j]; simpa using hj
    · rw [hbm j]; simpa using hjS
  · rintro ⟨a, b, o, hh⟩
    refine ⟨⟨⟨a, b⟩, o⟩, fun j _ hg hs => hh j ?_ ?_⟩
    · rw [hc.g j] at hg; simpa using hg
    · rw [hbm j] at hs; simpa using hs

theorem tryPairWith_ok (hh : Honest check) (hr : right → CoreOK ctx G L ∧ Accepts check) {n m : Nat} {p1 p2 : Nat × DPEntry} {b1 b2 : BTree} {n1 n2 : Nat}
    (hn : n1 + n2 = n) (h1 : EntryW right G L contractions n1 p1.1 p1.2 b1) (h2 : EntryW right G L contractions n2 p2.1 p2.2 b2) {a a' : DPTable × σ}
    (hx : TableW right G L contractions n a.1) (he : tryPairWith check ctx cap n m p1 p2 a = .ok a') : TableW right G L contractions n a'.1 := by
  unfold tryPairWith at he
  split at he
  · rename_i hcond
    have hd := (h1.key.and_eq_zero h2.key).mp hcond.1
    simp only at he
    split at he
    · obtain ⟨xn', st'⟩ := a'
      have hlegs : right → xn' = a.1 ∨ ∃ cost t, xn' = a.1.set (p1.1 ||| p2.1) ⟨L (b1.set ∪ b2.set), cost, t⟩ := by
        intro hR
        obtain ⟨hc, hacc⟩ := hr hR
        obtain ⟨y, st'', k1, -, k3⟩ := hacc ctx a.2 cap p1.1 p2.1 p1.2 p2.2 ((p1.2.legs ∩ p2.2.legs) \ ctx.output) (p1.2.legs ∪ p2.2.legs) a.1
        rw [he] at k1
        cases k1
        rw [h1.legs hR, h2.legs hR] at k3
        rw [legs_filter hc h1.key h2.key h1.sub h2.sub hd] at k3
        exact k3
      rcases hh _ _ _ _ _ _ _ _ _ _ _ _ he with heq | ⟨legs, cost, -, heq⟩
      · rw [heq]
        exact hx
      · have hset : ∀ t' : Tree, xn' = a.1.set (p1.1 ||| p2.1) ⟨legs, cost, t'⟩ → (right → legs = L (b1.set ∪ b2.set)) ∨ TableW right G L contractions n xn' := by
          intro t' ht'
          by_cases hR : right
          · rcases hlegs hR with h0 | ⟨cost', t'', h0⟩
            · exact Or.inr (by rw [h0]; exact hx)
            · left
              intro _
              rw [ht'] at h0
              have := congrArg (fun d => Dict.get? d (p1.1 ||| p2.1)) h0
              simp only [Dict.get?_set_self, Option.some.injEq, DPEntry.mk.injEq] at this
              exact this.1
          · exact Or.inl (fun h => absurd h hR)
        rcases heq with heq | heq
        · rcases hset _ heq with hl | hT
          · intro p hp
            simp only at hp
            rw [heq] at hp
            rcases mem_set hp with hp | hp
            · exact hx p hp
            · subst hp
              refine ⟨.node b1 b2, BTree.nodup_node.mpr ⟨h1.nodup, h2.nodup, hd⟩, ?_, ?_, ?_, ?_, ?_⟩
              · rw [BTree.set_node]; exact Finset.union_subset h1.sub h2.sub
              · rw [BTree.leaves, List.length_append, h1.len, h2.len, hn]
              · rw [BTree.set_node]; exact h1.key.or h2.key
              · rw [toTree, h1.tree, h2.tree]
              · intro hR; rw [BTree.set_node]; exact hl hR
          · exact hT
        · rcases hset _ heq with hl | hT
          · intro p hp
            simp only at hp
            rw [heq] at hp
            rcases mem_set hp with hp | hp
            · exact hx p hp
            · subst hp
              refine ⟨.node b2 b1, BTree.nodup_node.mpr ⟨h2.nodup, h1.nodup, hd.symm⟩, ?_, ?_, ?_, ?_, ?_⟩
              · rw [BTree.set_node]; exact Finset.union_subset h2.sub h1.sub
              · rw [BTree.leaves, List.length_append, h1.len, h2.len, ← hn, Nat.add_comm]
              · rw [BTree.set_node, Finset.union_comm]; exact h1.key.or h2.key
              · rw [toTree, h1.tree, h2.tree]
              · intro hR; rw [BTree.set_node, Finset.union_comm]; exact hl hR
          · exact hT
    · cases he; exact hx
  · cases he; exact hx

theorem fillTableWith_ok (hh : Honest check) (hr : right → CoreOK ctx G L ∧ Accepts check) {x : List DPTable} {n : Nat} {st : σ} {a : DPTable × σ}
    (hx : ∀ k, TableW right G L contractions k (x.getD k [])) (he : fillTableWith check ctx cap x n st = .ok a) : TableW right G L contractions n a.1 := by
  unfold fillTableWith at he
  refine foldlM_ok (P := fun a => TableW right G L contractions n a.1) ?_ (hx n) he
  intro t ht m hm t' ht'
  rw [List.mem_range'_1] at hm
  refine foldlM_ok (P := fun a => TableW right G L contractions n a.1) ?_ ht ht'
  intro t ht p1 hp1 t' ht'
  refine foldlM_ok (P := fun a => TableW right G L contractions n a.1) ?_ ht ht'
  intro t ht p2 hp2 t' ht'
  obtain ⟨b1, h1⟩ := hx m p1 hp1
  obtain ⟨b2, h2⟩ := hx (n - m) p2 hp2
  exact tryPairWith_ok hh hr (by omega) h1 h2 ht ht'

/-- What holds between the rounds. -/
structure RoundW (right : Prop) (G : Finset Nat) (L : Finset Nat → Finset Nat) (contractions : List Tree) (x : List DPTable) : Prop where
  len : x.length = G.card + 1
  len1 : (x.getD 1 []).length = G.card
  ok : ∀ n, TableW right G L contractions n (x.getD n [])
  one : ∀ j ∈ G, ∃ s e, IsBm s {j} ∧ (x.getD 1 []).get? s = some e

theorem dpRoundWith_ok (hh : Honest check) (hr : right → CoreOK ctx G L ∧ Accepts check) {x : List DPTable} {st : σ} {a : List DPTable × σ}
    (hx : RoundW right G L contractions x) (he : dpRoundWith check ctx cap x st = .ok a) : RoundW right G L contractions a.1 := by
  unfold dpRoundWith at he
  rw [hx.len1] at he
  refine foldlM_ok (P := fun a => RoundW right G L contractions a.1) ?_ hx he
  intro t ht n hn t' ht'
  rw [List.mem_range'_1] at hn
  split at ht'
  · cases ht'
  · rename_i u hu
    cases ht'
    have hlt : n < t.1.length := by rw [ht.len]; omega
    have hok := fillTableWith_ok hh hr ht.ok hu
    refine ⟨?_, ?_, ?_, ?_⟩
    · rw [List.length_set, ht.len]
    · rw [getD_set hlt, if_neg (by omega), ht.len1]
    · intro k
      rw [getD_set hlt]
      split
      · rename_i hk
        subst hk
        exact hok
      · exact ht.ok k
    · rw [getD_set hlt, if_neg (by omega)]
      exact ht.one

theorem dpWhileWith_ok (hh : Honest check) (hr : right → CoreOK ctx G L ∧ Accepts check) {naive : WithTop Nat} {increment : Nat} (fuel : Nat) :
    ∀ (cap : WithTop Nat) (x : List DPTable) (st : σ) (a : List DPTable × σ), RoundW right G L contractions x →
      dpWhileWith check ctx naive increment fuel cap x st = some (.ok a) → RoundW right G L contractions a.1 ∧ a.1.getLastD [] ≠ [] := by
  induction fuel with
  | zero =>
    intro cap x st a hx he
    unfold dpWhileWith at he
    split at he
    · rename_i hne
      cases he
      exact ⟨hx, hne⟩
    · cases he
  | succ fuel ih =>
    intro cap x st a hx he
    unfold dpWhileWith at he
    split at he
    · rename_i hne
      cases he
      exact ⟨hx, hne⟩
    · simp only at he
      split at he
      · cases he
      · rename_i y st' hy
        have hy' := dpRoundWith_ok hh hr hx hy
        split at he
        · cases he
        · exact ih _ _ _ _ hy' he

theorem dpWhileWith_error {increment : Nat} (fuel : Nat) :
    ∀ (cap : WithTop Nat) (x : List DPTable) (st : σ) (e : PyErr), dpWhileWith check ctx ⊤ increment fuel cap x st = some (.error e) → Raises check e := by
  induction fuel with
  | zero =>
    intro cap x st a he
    unfold dpWhileWith at he
    split at he <;> cases he
  | succ fuel ih =>
    intro cap x st a he
    unfold dpWhileWith at he
    split at he
    · cases he
    · simp only at he
      split at he
      · rename_i e' hy
        cases he
        unfold dpRoundWith at hy
        obtain ⟨u, n, -, hu⟩ := foldlM_error hy
        split at hu
        · rename_i e1 h1
          cases hu
          unfold fillTableWith at h1
          obtain ⟨u1, m, -, h2⟩ := foldlM_error h1
          obtain ⟨u2, p1, -, h3⟩ := foldlM_error h2
          obtain ⟨u3, p2, -, h4⟩ := foldlM_error h3
          unfold tryPairWith at h4
          split at h4
          · simp only at h4
            split at h4
            · exact ⟨_, _, _, _, _, _, _, _, _, _, h4⟩
            · cases h4
          · cases h4
        · cases hu
      · split at he
        · rename_i hcond
          exact absurd hcond.1 not_top_lt
        · exact ih _ _ _ _ he

theorem startW (hsingle : right → ∀ j ∈ G, L {j} = ctx.inputs.getD j ∅) (contractions : List Tree) {g : List Nat} (hg : g.Nodup) (hgG : g.toFinset = G)
    (hG : 0 < G.card) : RoundW right G L contractions (dpStart ctx.inputs contractions g) := by
  have hlen : g.length = G.card := by rw [← hgG, List.toFinset_card_of_nodup hg]
  have hmem : ∀ j, j ∈ g ↔ j ∈ G := fun j => by rw [← hgG, List.mem_toFinset]
  constructor
  · unfold dpStart
    simp only [List.length_cons, List.length_replicate]
    omega
  · rw [dpStart_getD, if_pos rfl, List.length_map, hlen]
  · intro n
    rw [dpStart_getD]
    split
    · rename_i hn
      subst hn
      intro p hp
      obtain ⟨j, hj, rfl⟩ := List.mem_map.mp hp
      have hjG := (hmem j).mp hj
      refine ⟨.leaf j, by simp [BTree.leaves], ?_, rfl, ?_, rfl, ?_⟩
      · rw [BTree.set_leaf]; simpa using hjG
      · rw [BTree.set_leaf]; exact isBm_shift j
      · intro hR; rw [BTree.set_leaf, hsingle hR j hjG]
    · intro p hp
      cases hp
  · intro j hj
    rw [dpStart_getD, if_pos rfl]
    have : (1 <<< j) ∈ Dict.keys (g.map (fun j => (1 <<< j, (⟨ctx.inputs.getD j ∅, 0, contractions.getD j (.leaf 0)⟩ : DPEntry)))) := by
      unfold Dict.keys
      rw [List.map_map]
      exact List.mem_map.mpr ⟨j, (hmem j).mpr hj, rfl⟩
    obtain ⟨v, hv⟩ := Dict.mem_keys.mp this
    exact ⟨1 <<< j, v, isBm_shift j, hv⟩

/-! ## A function that accepts everything -/

/-- `t'` has every key of `t`. -/
def KeepsKeys (t t' : DPTable) : Prop := ∀ s e, t.get? s = some e → ∃ e', t'.get? s = some e'

theorem KeepsKeys.refl (t : DPTable) : KeepsKeys t t := fun _ e h => ⟨e, h⟩

theorem honest_keeps (hh : Honest check) {n m : Nat} {p1 p2 : Nat × DPEntry} {a a' : DPTable × σ} (he : tryPairWith check ctx cap n m p1 p2 a = .ok a') :
    KeepsKeys a.1 a'.1 := by
  unfold tryPairWith at he
  split at he
  · simp only at he
    split at he
    · obtain ⟨xn', st'⟩ := a'
      have hset : ∀ v : DPEntry, KeepsKeys a.1 (a.1.set (p1.1 ||| p2.1) v) := by
        intro v s e hs
        rw [Dict.get?_set]
        split
        · exact ⟨_, rfl⟩
        · exact ⟨_, hs⟩
      rcases hh _ _ _ _ _ _ _ _ _ _ _ _ he with heq | ⟨legs, cost, -, heq | heq⟩
      · rw [heq]; exact .refl _
      · simp only
        rw [heq]; exact hset _
      · simp only
        rw [heq]; exact hset _
    · cases he; exact .refl _
  · cases he; exact .refl _

theorem accepts_total (ha : Accepts check) {n m : Nat} {p1 p2 : Nat × DPEntry} (a : DPTable × σ) : ∃ a', tryPairWith check ctx cap n m p1 p2 a = .ok a' := by
  unfold tryPairWith
  split
  · simp only
    split
    · obtain ⟨xn', st', h, -⟩ := ha ctx a.2 cap p1.1 p2.1 p1.2 p2.2 ((p1.2.legs ∩ p2.2.legs) \ ctx.output) (p1.2.legs ∪ p2.2.legs) a.1
      exact ⟨_, h⟩
    · exact ⟨_, rfl⟩
  · exact ⟨_, rfl⟩

theorem fillTableWith_total (ha : Accepts check) (x : List DPTable) (n : Nat) (st : σ) : ∃ a, fillTableWith check ctx cap x n st = .ok a := by
  unfold fillTableWith
  exact foldlM_total (fun t m _ => foldlM_total (fun t p1 _ => foldlM_total (fun t p2 _ => accepts_total ha t) t) t) _

/-- The table for `n` inputs has an entry for every tree. -/
def TableAll (ctx : DPCtx) (G : Finset Nat) (L : Finset Nat → Finset Nat) (n : Nat) (t : DPTable) : Prop :=
  ∀ b : BTree, b.leaves.Nodup → (ctx.searchOuter = false → NoOuter ctx.output L b) → b.set ⊆ G → b.leaves.length = n →
    ∃ s e, IsBm s b.set ∧ t.get? s = some e

theorem fillWith_hit (hh : Honest check) (ha : Accepts check) {x : List DPTable} {n m : Nat} (hm1 : 1 ≤ m) (hm2 : m ≤ n / 2)
    (hx : ∀ k, TableW True G L contractions k (x.getD k [])) {c1 c2 : BTree} {s1 s2 : Nat} {e1 e2 : DPEntry} (hs1 : IsBm s1 c1.set) (hs2 : IsBm s2 c2.set)
    (g1 : (x.getD m []).get? s1 = some e1) (g2 : (x.getD (n - m) []).get? s2 = some e2) (hd : Disjoint c1.set c2.set)
    (hout : ctx.searchOuter = false → ∃ c, c ∈ L c1.set ∧ c ∈ L c2.set ∧ c ∉ ctx.output) (hm : m ≠ n - m ∨ s1 < s2) {st : σ} {a : DPTable × σ}
    (he : fillTableWith check ctx ⊤ x n st = .ok a) : ∃ e, a.1.get? (s1 ||| s2) = some e := by
  have m1 := mem_of_get? g1
  have m2 := mem_of_get? g2
  obtain ⟨b1, h1⟩ := hx m _ m1
  obtain ⟨b2, h2⟩ := hx (n - m) _ m2
  have q1 : b1.set = c1.set := h1.key.set_inj hs1
  have q2 : b2.set = c2.set := h2.key.set_inj hs2
  unfold fillTableWith at he
  have keep3 : ∀ (m : Nat) (p1 : Nat × DPEntry) (t : DPTable × σ) (p2 : Nat × DPEntry) (t' : DPTable × σ), tryPairWith check ctx ⊤ n m p1 p2 t = .ok t' →
      (∃ e, t.1.get? (s1 ||| s2) = some e) → ∃ e, t'.1.get? (s1 ||| s2) = some e := by
    rintro m p1 t p2 t' h ⟨e, h0⟩
    exact honest_keeps hh h _ _ h0
  have keep2 : ∀ (m : Nat) (t : DPTable × σ) (p1 : Nat × DPEntry) (t' : DPTable × σ),
      (x.getD (n - m) []).foldlM (fun a p2 => tryPairWith check ctx ⊤ n m p1 p2 a) t = .ok t' →
      (∃ e, t.1.get? (s1 ||| s2) = some e) → ∃ e, t'.1.get? (s1 ||| s2) = some e := by
    intro m t p1 t' h h0
    exact foldlM_ok (P := fun t : DPTable × σ => ∃ e, t.1.get? (s1 ||| s2) = some e) (fun t ht p2 _ t' h => keep3 m p1 t p2 t' h ht) h0 h
  refine foldlM_hit (Q := fun t : DPTable × σ => ∃ e, t.1.get? (s1 ||| s2) = some e) ?_ (a := m) ?_ ?_ he
  · intro t m _ t' h h0
    exact foldlM_ok (P := fun t : DPTable × σ => ∃ e, t.1.get? (s1 ||| s2) = some e) (fun t ht p1 _ t' h => keep2 m t p1 t' h ht) h0 h
  · rw [List.mem_range'_1]; omega
  · intro t t' h
    refine foldlM_hit (Q := fun t : DPTable × σ => ∃ e, t.1.get? (s1 ||| s2) = some e) (fun t p1 _ t' h h0 => keep2 m t p1 t' h h0) m1 ?_ h
    intro t t' h
    refine foldlM_hit (Q := fun t : DPTable × σ => ∃ e, t.1.get? (s1 ||| s2) = some e) (fun t p2 _ t' h h0 => keep3 m _ t p2 t' h h0) m2 ?_ h
    intro t t' h
    unfold tryPairWith at h
    rw [if_pos ⟨(h1.key.and_eq_zero h2.key).mpr (by rw [q1, q2]; exact hd), hm⟩] at h
    simp only at h
    rw [if_pos] at h
    · obtain ⟨xn', st', k1, k2, -⟩ := ha ctx t.2 ⊤ s1 s2 e1 e2 ((e1.legs ∩ e2.legs) \ ctx.output) (e1.legs ∪ e2.legs) t.1
      rw [k1] at h
      cases h
      exact k2 rfl
    · cases hs : ctx.searchOuter with
      | true => exact Or.inl rfl
      | false =>
        right
        obtain ⟨c, hc1, hc2, hc3⟩ := hout hs
        rw [← Finset.nonempty_iff_ne_empty]
        refine ⟨c, ?_⟩
        have l1 := h1.legs trivial
        have l2 := h2.legs trivial
        simp only at l1 l2
        rw [Finset.mem_sdiff, Finset.mem_inter, l1, l2, q1, q2]
        exact ⟨⟨hc1, hc2⟩, hc3⟩

theorem fillTableWith_all (hh : Honest check) (ha : Accepts check) {x : List DPTable} {n : Nat} (hn : 2 ≤ n)
    (hx : ∀ k, TableW True G L contractions k (x.getD k [])) (hall : ∀ k, 1 ≤ k → k < n → TableAll ctx G L k (x.getD k [])) {st : σ} {a : DPTable × σ}
    (he : fillTableWith check ctx ⊤ x n st = .ok a) : TableAll ctx G L n a.1 := by
  intro b hnd hno hsub hlen
  match b with
  | .leaf i => simp only [BTree.leaves, List.length_singleton] at hlen; omega
  | .node c1 c2 =>
    have p1 := BTree.leaves_pos c1
    have p2 := BTree.leaves_pos c2
    rw [BTree.leaves, List.length_append] at hlen
    rw [BTree.set_node] at hsub
    obtain ⟨hn1, hn2, hd⟩ := BTree.nodup_node.mp hnd
    obtain ⟨s1, e1, k1, l1⟩ := hall c1.leaves.length p1 (by omega) c1 hn1 (fun hs => (hno hs).2.1) (Finset.union_subset_left hsub) rfl
    obtain ⟨s2, e2, k2, l2⟩ := hall c2.leaves.length p2 (by omega) c2 hn2 (fun hs => (hno hs).2.2) (Finset.union_subset_right hsub) rfl
    have hne : s1 ≠ s2 := by
      rintro rfl
      have := k1.set_inj k2
      rw [this, Finset.disjoint_self_iff_empty] at hd
      exact (BTree.set_nonempty c2).ne_empty hd
    by_cases hcase : c1.leaves.length < c2.leaves.length ∨ (c1.leaves.length = c2.leaves.length ∧ s1 < s2)
    · obtain ⟨e, h⟩ := fillWith_hit hh ha p1 (by omega) hx k1 k2 l1 (by rwa [show n - c1.leaves.length = c2.leaves.length by omega]) hd
        (fun hs => (hno hs).1) (by omega) he
      exact ⟨s1 ||| s2, e, by rw [BTree.set_node]; exact k1.or k2, h⟩
    · obtain ⟨e, h⟩ := fillWith_hit hh ha (n := n) p2 (by omega) hx k2 k1 l2 (by rwa [show n - c2.leaves.length = c1.leaves.length by omega]) hd.symm
        (fun hs => (hno hs).1.imp (fun c hc => ⟨hc.2.1, hc.1, hc.2.2⟩)) (by omega) he
      exact ⟨s2 ||| s1, e, by rw [BTree.set_node, Finset.union_comm]; exact k2.or k1, h⟩

theorem roundWith_all (hc : CoreOK ctx G L) (hh : Honest check) (ha : Accepts check) {x : List DPTable} (hx : RoundW True G L contractions x) (st : σ)
    (k : Nat) (hk : k ≤ G.card - 1) :
    ∃ a, (List.range' 2 k).foldlM (fun (a : List DPTable × σ) n =>
      match fillTableWith check ctx ⊤ a.1 n a.2 with
      | .error e => (.error e : Except PyErr (List DPTable × σ))
      | .ok t => .ok (a.1.set n t.1, t.2)) (x, st) = .ok a ∧ RoundW True G L contractions a.1 ∧
      ∀ n, 1 ≤ n → n < k + 2 → TableAll ctx G L n (a.1.getD n []) := by
  induction k with
  | zero =>
    refine ⟨(x, st), rfl, hx, ?_⟩
    intro n hn hn'
    have : n = 1 := by omega
    subst this
    intro b hnd hno hsub hlen
    match b with
    | .leaf i =>
      rw [BTree.set_leaf] at hsub ⊢
      exact hx.one i (by simpa using hsub)
    | .node c1 c2 =>
      have p1 := BTree.leaves_pos c1
      have p2 := BTree.leaves_pos c2
      rw [BTree.leaves, List.length_append] at hlen
      omega
  | succ k ih =>
    obtain ⟨y, ih0, ih1, ih2⟩ := ih (by omega)
    obtain ⟨t, ht⟩ := fillTableWith_total (ctx := ctx) (cap := ⊤) ha y.1 (2 + k) y.2
    refine ⟨(y.1.set (2 + k) t.1, t.2), ?_, ?_, ?_⟩
    · rw [List.range'_1_concat, List.foldlM_append, ih0]
      simp only [List.foldlM_cons, List.foldlM_nil, bind, Except.bind, ht]
      rfl
    · have hlt : 2 + k < y.1.length := by rw [ih1.len]; omega
      have hok := fillTableWith_ok hh (fun _ => ⟨hc, ha⟩) ih1.ok ht
      refine ⟨?_, ?_, ?_, ?_⟩
      · rw [List.length_set, ih1.len]
      · rw [getD_set hlt, if_neg (by omega), ih1.len1]
      · intro n
        rw [getD_set hlt]
        split
        · rename_i hn
          subst hn
          exact hok
        · exact ih1.ok n
      · rw [getD_set hlt, if_neg (by omega)]
        exact ih1.one
    · intro n h1 h2
      have hlt : 2 + k < y.1.length := by rw [ih1.len]; omega
      simp only
      rw [getD_set hlt]
      split
      · rename_i hn
        subst hn
        exact fillTableWith_all hh ha (by omega) ih1.ok (fun j h1 h2 => ih2 j h1 (by omega)) ht
      · exact ih2 n h1 (by omega)

theorem dpWhileWith_accepts (hc : CoreOK ctx G L) (hG : 0 < G.card) (hh : Honest check) (ha : Accepts check) {increment : Nat} {x : List DPTable}
    (hx : RoundW True G L contractions x) (st : σ) {b : BTree} (hnd : b.leaves.Nodup) (hno : ctx.searchOuter = false → NoOuter ctx.output L b)
    (hset : b.set = G) {fuel : Nat} (hf : 1 ≤ fuel) : ∃ a, dpWhileWith check ctx ⊤ increment fuel ⊤ x st = some (.ok a) := by
  obtain ⟨fuel, rfl⟩ := Nat.exists_eq_add_of_le' hf
  unfold dpWhileWith
  split
  · exact ⟨_, rfl⟩
  · obtain ⟨a, h1, h2, h3⟩ := roundWith_all hc hh ha hx st (G.card - 1) (Nat.le_refl _)
    have hround : dpRoundWith check ctx ⊤ x st = .ok a := by
      unfold dpRoundWith
      rw [hx.len1]
      exact h1
    obtain ⟨y, st'⟩ := a
    simp only [hround]
    have hne : y.getLastD [] ≠ [] := by
      rw [last_eq h2.len]
      obtain ⟨s, e, -, hs⟩ := h3 G.card hG (by omega) b hnd hno (by rw [hset]) (by rw [← set_card b hnd, hset])
      intro h0
      simp only at hs
      rw [h0] at hs
      cases hs
    rw [if_neg (fun h => hne h.2)]
    cases fuel with
    | zero =>
      unfold dpWhileWith
      rw [if_pos hne]
      exact ⟨_, rfl⟩
    | succ fuel =>
      unfold dpWhileWith
      rw [if_pos hne]
      exact ⟨_, rfl⟩

/-! ## A function that refuses everything -/

theorem refuses_tryPair (hr : Refuses check) {n m : Nat} {p1 p2 : Nat × DPEntry} (a : DPTable × σ) :
    ∃ st', tryPairWith check ctx cap n m p1 p2 a = .ok (a.1, st') := by
  unfold tryPairWith
  split
  · simp only
    split
    · exact hr ..
    · exact ⟨a.2, rfl⟩
  · exact ⟨a.2, rfl⟩

theorem foldlM_same {α β γ : Type} {f : β × γ → α → Except PyErr (β × γ)} {l : List α} (hf : ∀ t, ∀ a ∈ l, ∃ c, f t a = .ok (t.1, c)) (t : β × γ) :
    ∃ c, l.foldlM f t = .ok (t.1, c) := by
  induction l generalizing t with
  | nil => exact ⟨t.2, rfl⟩
  | cons a l ih =>
    obtain ⟨c, hc⟩ := hf t a List.mem_cons_self
    rw [List.foldlM_cons, hc]
    exact ih (fun t b hb => hf t b (List.mem_cons_of_mem _ hb)) (t.1, c)

theorem refuses_round (hr : Refuses check) (x : List DPTable) (st : σ) : ∃ st', dpRoundWith check ctx cap x st = .ok (x, st') := by
  unfold dpRoundWith
  apply foldlM_same (t := (x, st))
  intro t n _
  obtain ⟨c, hc⟩ : ∃ c, fillTableWith check ctx cap t.1 n t.2 = .ok (t.1.getD n [], c) := by
    unfold fillTableWith
    exact foldlM_same (fun t m _ => foldlM_same (fun t p1 _ => foldlM_same (fun t p2 _ => refuses_tryPair hr t) t) t) (t.1.getD n [], t.2)
  rw [hc]
  refine ⟨c, ?_⟩
  simp only
  congr 2
  by_cases hn : n < t.1.length
  · apply List.ext_getElem?
    intro k
    rw [List.getElem?_set]
    split
    · rename_i hk
      subst hk
      rw [List.getD_eq_getElem?_getD, List.getElem?_eq_getElem hn]
      rfl
    · rfl
  · rw [List.set_eq_of_length_le (by omega)]

theorem refuses_while (hr : Refuses check) {increment : Nat} {x : List DPTable} (hx : x.getLastD [] = []) (fuel : Nat) :
    ∀ (cap : WithTop Nat) (st : σ), dpWhileWith check ctx ⊤ increment fuel cap x st = none := by
  induction fuel with
  | zero =>
    intro cap st
    unfold dpWhileWith
    rw [if_neg (by simpa using hx)]
  | succ fuel ih =>
    intro cap st
    unfold dpWhileWith
    rw [if_neg (by simpa using hx)]
    obtain ⟨st', h⟩ := refuses_round (ctx := ctx) (cap := cap) hr x st
    simp only [h]
    rw [if_neg (fun h => not_top_lt h.1)]
    exact ih _ _

theorem entryW_set {n s : Nat} {e : DPEntry} {b : BTree} (h : EntryW right G L contractions n s e b) (hn : n = G.card) : b.set = G := by
  apply Finset.eq_of_subset_of_card_le h.sub
  unfold BTree.set
  rw [List.toFinset_card_of_nodup h.nodup, h.len, hn]

end

/-! ## One subgraph -/

section
variable {σ : Type} {check : Check σ} {cfg : DPCfg} {size : Nat → Nat} {output : Finset Nat} {limit : Option Nat} {inputs : List (Finset Nat)}
  {contractions : List Tree} {naive : WithTop Nat} {g : List Nat} {G : Finset Nat} {L : Finset Nat → Finset Nat}

theorem dpSubgraphWith_shape (check : Check σ) (cfg : DPCfg) (size : Nat → Nat) (output : Finset Nat) (limit : Option Nat) (inputs : List (Finset Nat))
    (contractions : List Tree) (naive : WithTop Nat) (g : List Nat) :
    ∃ (cap : WithTop Nat) (increment : Nat), (cfg.costCap = .off → cap = ⊤) ∧
      ∀ fuel st, dpSubgraphWith check cfg size output limit inputs contractions naive fuel g st =
        match dpWhileWith check (ctxOf cfg size output limit inputs g) naive increment fuel cap (dpStart inputs contractions g) st with
        | none => none
        | some (.error e) => some (.error e)
        | some (.ok (x, st)) =>
          match x.getLastD [] with
          | [] => some (.error .index)
          | p :: _ => some (.ok (p.2, st)) := by
  refine ⟨_, _, ?_, fun fuel st => rfl⟩
  intro h
  rw [h]

/-- The entry found for a subgraph describes a tree of its inputs. -/
theorem dpSubgraphWith_ok (hh : Honest check) (hg : g.Nodup) (hgG : g.toFinset = G) (hG : 0 < G.card) {fuel : Nat} {st : σ} {r : DPEntry × σ}
    (h : dpSubgraphWith check cfg size output limit inputs contractions naive fuel g st = some (.ok r)) :
    ∃ b : BTree, b.leaves.Nodup ∧ b.set = G ∧ r.1.tree = toTree contractions b := by
  obtain ⟨cap, increment, -, heq⟩ := dpSubgraphWith_shape check cfg size output limit inputs contractions naive g
  rw [heq] at h
  have hst : RoundW False G (fun _ => ∅) contractions (dpStart inputs contractions g) :=
    startW (ctx := ctxOf cfg size output limit inputs g) (fun h => h.elim) contractions hg hgG hG
  split at h
  · cases h
  · cases h
  · rename_i x st' hw
    obtain ⟨k1, k2⟩ := dpWhileWith_ok (right := False) hh (fun h => h.elim) fuel _ _ _ _ hst hw
    split at h
    · cases h
    · rename_i p rest hp
      cases h
      simp only at k1
      rw [last_eq k1.len] at hp
      obtain ⟨b, hb⟩ := k1.ok G.card p (by rw [hp]; exact List.mem_cons_self)
      exact ⟨b, hb.nodup, entryW_set hb rfl, hb.tree⟩

theorem dpSubgraphWith_error (hh : Honest check) {fuel : Nat} {st : σ} {e : PyErr} (hg : g.Nodup) (hgG : g.toFinset = G) (hG : 0 < G.card)
    (h : dpSubgraphWith check cfg size output limit inputs contractions ⊤ fuel g st = some (.error e)) : Raises check e := by
  obtain ⟨cap, increment, -, heq⟩ := dpSubgraphWith_shape check cfg size output limit inputs contractions ⊤ g
  rw [heq] at h
  have hst : RoundW False G (fun _ => ∅) contractions (dpStart inputs contractions g) :=
    startW (ctx := ctxOf cfg size output limit inputs g) (fun h => h.elim) contractions hg hgG hG
  split at h
  · cases h
  · rename_i e' hw
    cases h
    exact dpWhileWith_error fuel _ _ _ _ hw
  · rename_i x st' hw
    obtain ⟨k1, k2⟩ := dpWhileWith_ok (right := False) hh (fun h => h.elim) fuel _ _ _ _ hst hw
    split at h
    · rename_i hl
      exact absurd hl k2
    · cases h

end

end OE.Props
