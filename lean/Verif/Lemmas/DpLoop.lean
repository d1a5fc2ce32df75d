import Verif.Lemmas.DpCore

/-!
# The rounds of the dynamic-programming search
-/

namespace OE.Props
open OE OE.Py OE.Spec OE.Paths

section
variable {ctx : DPCtx} {G : Finset Nat} {L : Finset Nat → Finset Nat} {contractions : List Tree} {cap : WithTop Nat}

/-- The table for `n` inputs has, for every tree that costs at most `cap`, an entry that is no more expensive. -/
def TableFull (ctx : DPCtx) (G : Finset Nat) (L : Finset Nat → Finset Nat) (cap : WithTop Nat) (n : Nat) (t : DPTable) : Prop :=
  ∀ b : BTree, Allowed ctx.searchOuter ctx.size ctx.output L ctx.memoryLimit b → b.set ⊆ G → b.leaves.length = n →
    WithTop.some (btCost ctx.metric ctx.size L b) ≤ cap → ∃ s, IsBm s b.set ∧ HasLe t s (btCost ctx.metric ctx.size L b)

theorem foldl_inv {α β : Type} {f : β → α → β} {l : List α} {P : β → Prop} (hf : ∀ t, P t → ∀ a ∈ l, P (f t a)) {t : β} (h : P t) : P (l.foldl f t) := by
  induction l generalizing t with
  | nil => exact h
  | cons a l ih => exact ih (fun t ht b hb => hf t ht b (List.mem_cons_of_mem _ hb)) (hf t h a List.mem_cons_self)

theorem fillTable_ok (hc : CoreOK ctx G L) {x : List DPTable} (n : Nat) (hx : ∀ k, TableOK ctx G L contractions cap k (x.getD k [])) :
    TableOK ctx G L contractions cap n (fillTable ctx cap x n) := by
  unfold fillTable
  apply foldl_inv _ (hx n)
  intro t ht m hm
  rw [List.mem_range'_1] at hm
  apply foldl_inv _ ht
  intro t ht p1 hp1
  apply foldl_inv _ ht
  intro t ht p2 hp2
  obtain ⟨b1, h1⟩ := hx m p1 hp1
  obtain ⟨b2, h2⟩ := hx (n - m) p2 hp2
  exact tableOK_tryPair hc (by omega) h1 h2 ht

theorem fill_hit (hc : CoreOK ctx G L) {x : List DPTable} {n m : Nat} (hm1 : 1 ≤ m) (hm2 : m ≤ n / 2)
    (hx : ∀ k, TableOK ctx G L contractions cap k (x.getD k [])) {c1 c2 : BTree} {s1 s2 : Nat} (hs1 : IsBm s1 c1.set) (hs2 : IsBm s2 c2.set)
    (hl1 : HasLe (x.getD m []) s1 (btCost ctx.metric ctx.size L c1)) (hl2 : HasLe (x.getD (n - m) []) s2 (btCost ctx.metric ctx.size L c2))
    (ha : Allowed ctx.searchOuter ctx.size ctx.output L ctx.memoryLimit (.node c1 c2)) (hcap : WithTop.some (btCost ctx.metric ctx.size L (.node c1 c2)) ≤ cap)
    (hm : m ≠ n - m ∨ s1 < s2) : HasLe (fillTable ctx cap x n) (s1 ||| s2) (btCost ctx.metric ctx.size L (.node c1 c2)) := by
  obtain ⟨e1, g1, l1⟩ := hl1
  obtain ⟨e2, g2, l2⟩ := hl2
  have m1 := mem_of_get? g1
  have m2 := mem_of_get? g2
  obtain ⟨b1, h1⟩ := hx m _ m1
  obtain ⟨b2, h2⟩ := hx (n - m) _ m2
  unfold fillTable
  have hb : ∀ (m : Nat) (t : DPTable) (p1 : Nat × DPEntry), Better t ((x.getD (n - m) []).foldl (fun xn p2 => tryPair ctx cap n m p1 p2 xn) t) :=
    fun m t p1 => better_foldl _ (fun t p2 => better_tryPair ctx cap n m p1 p2 t) t
  apply hasLe_foldl (fun t m => better_foldl _ (fun t p1 => hb m t p1) t) (a := m)
  · rw [List.mem_range'_1]
    omega
  · intro t
    apply hasLe_foldl (fun t p1 => hb m t p1) m1
    intro t
    apply hasLe_foldl (fun t p2 => better_tryPair ctx cap n m _ p2 t) m2
    intro t
    exact hasLe_tryPair hc h1 h2 (h1.key.set_inj hs1) (h2.key.set_inj hs2) l1 l2 ha hcap hm t

theorem fillTable_full (hc : CoreOK ctx G L) {x : List DPTable} {n : Nat} (hn : 2 ≤ n) (hx : ∀ k, TableOK ctx G L contractions cap k (x.getD k []))
    (hfull : ∀ k, 1 ≤ k → k < n → TableFull ctx G L cap k (x.getD k [])) : TableFull ctx G L cap n (fillTable ctx cap x n) := by
  intro b ha hsub hlen hcap
  match b with
  | .leaf i => simp only [BTree.leaves, List.length_singleton] at hlen; omega
  | .node c1 c2 =>
    have p1 := BTree.leaves_pos c1
    have p2 := BTree.leaves_pos c2
    rw [BTree.leaves, List.length_append] at hlen
    rw [BTree.set_node] at hsub
    have ha' := allowed_node.mp ha
    have hst := @stepCost_le ctx.metric (∏ c ∈ L c1.set ∪ L c2.set, ctx.size c) (∏ c ∈ L (c1.set ∪ c2.set), ctx.size c) (btCost ctx.metric ctx.size L c1)
      (btCost ctx.metric ctx.size L c2)
    have hcap' := hcap
    rw [btCost] at hcap'
    obtain ⟨s1, k1, l1⟩ := hfull c1.leaves.length p1 (by omega) c1 ha'.1 (Finset.union_subset_left hsub) rfl ((WithTop.coe_le_coe.mpr hst.1).trans hcap')
    obtain ⟨s2, k2, l2⟩ := hfull c2.leaves.length p2 (by omega) c2 ha'.2.1 (Finset.union_subset_right hsub) rfl ((WithTop.coe_le_coe.mpr hst.2).trans hcap')
    have hne : s1 ≠ s2 := by
      rintro rfl
      have := k1.set_inj k2
      have hd := ha'.2.2.1
      rw [this, Finset.disjoint_self_iff_empty] at hd
      exact (BTree.set_nonempty c2).ne_empty hd
    refine ⟨s1 ||| s2, by rw [BTree.set_node]; exact k1.or k2, ?_⟩
    by_cases hcase : c1.leaves.length < c2.leaves.length ∨ (c1.leaves.length = c2.leaves.length ∧ s1 < s2)
    · apply fill_hit hc p1 (by omega) hx k1 k2 l1 _ ha hcap (by omega)
      rwa [show n - c1.leaves.length = c2.leaves.length by omega]
    · have := fill_hit hc (c1 := c2) (c2 := c1) (n := n) p2 (by omega) hx k2 k1 l2 (by rwa [show n - c2.leaves.length = c1.leaves.length by omega])
        (allowed_swap ha) (by rw [btCost_swap]; exact hcap) (by omega)
      rwa [btCost_swap, Nat.or_comm] at this

/-- What holds between the rounds. -/
structure RoundInv (ctx : DPCtx) (G : Finset Nat) (L : Finset Nat → Finset Nat) (contractions : List Tree) (cap : WithTop Nat) (x : List DPTable) : Prop where
  len : x.length = G.card + 1
  len1 : (x.getD 1 []).length = G.card
  ok : ∀ n, TableOK ctx G L contractions cap n (x.getD n [])
  one : ∀ j ∈ G, ∃ s, IsBm s {j} ∧ HasLe (x.getD 1 []) s 0

theorem getD_set {x : List DPTable} {n k : Nat} {t : DPTable} (hn : n < x.length) : (x.set n t).getD k [] = if k = n then t else x.getD k [] := by
  rw [List.getD_eq_getElem?_getD, List.getD_eq_getElem?_getD, List.getElem?_set]
  by_cases h : n = k
  · subst h
    simp [hn]
  · rw [if_neg h, if_neg (fun e => h e.symm)]

theorem round_spec (hc : CoreOK ctx G L) {x : List DPTable} (h : RoundInv ctx G L contractions cap x) (k : Nat) (hk : k ≤ G.card - 1) :
    RoundInv ctx G L contractions cap ((List.range' 2 k).foldl (fun x n => x.set n (fillTable ctx cap x n)) x) ∧
    ∀ n, 1 ≤ n → n < k + 2 → TableFull ctx G L cap n (((List.range' 2 k).foldl (fun x n => x.set n (fillTable ctx cap x n)) x).getD n []) := by
  induction k with
  | zero =>
    refine ⟨h, ?_⟩
    intro n hn hn'
    have : n = 1 := by omega
    subst this
    intro b ha hsub hlen hcap
    match b with
    | .leaf i =>
      rw [BTree.set_leaf] at hsub ⊢
      obtain ⟨s, hs, hle⟩ := h.one i (by simpa using hsub)
      exact ⟨s, hs, hle⟩
    | .node c1 c2 =>
      have p1 := BTree.leaves_pos c1
      have p2 := BTree.leaves_pos c2
      rw [BTree.leaves, List.length_append] at hlen
      omega
  | succ k ih =>
    obtain ⟨ih1, ih2⟩ := ih (by omega)
    rw [List.range'_1_concat, List.foldl_append]
    generalize (List.range' 2 k).foldl (fun x n => x.set n (fillTable ctx cap x n)) x = y at *
    simp only [List.foldl_cons, List.foldl_nil]
    have hlt : 2 + k < y.length := by rw [ih1.len]; omega
    have hfull := fillTable_full hc (n := 2 + k) (by omega) ih1.ok (fun j h1 h2 => ih2 j h1 (by omega))
    have hok := fillTable_ok hc (2 + k) ih1.ok
    refine ⟨⟨?_, ?_, ?_, ?_⟩, ?_⟩
    · rw [List.length_set, ih1.len]
    · rw [getD_set hlt, if_neg (by omega), ih1.len1]
    · intro n
      rw [getD_set hlt]
      split
      · rename_i hn
        subst hn
        exact hok
      · exact ih1.ok n
    · rw [getD_set hlt, if_neg (by omega)]
      exact ih1.one
    · intro n h1 h2
      rw [getD_set hlt]
      split
      · rename_i hn
        subst hn
        exact hfull
      · exact ih2 n h1 (by omega)

theorem dpRound_spec (hc : CoreOK ctx G L) (hG : 0 < G.card) {x : List DPTable} (h : RoundInv ctx G L contractions cap x) :
    RoundInv ctx G L contractions cap (dpRound ctx cap x) ∧ TableFull ctx G L cap G.card ((dpRound ctx cap x).getD G.card []) := by
  unfold dpRound
  rw [h.len1]
  obtain ⟨h1, h2⟩ := round_spec hc h (G.card - 1) (Nat.le_refl _)
  exact ⟨h1, h2 G.card hG (by omega)⟩

theorem tableOK_mono {cap' : WithTop Nat} (hcap : cap ≤ cap') {n : Nat} {t : DPTable} (h : TableOK ctx G L contractions cap n t) :
    TableOK ctx G L contractions cap' n t := by
  intro p hp
  obtain ⟨b, hb⟩ := h p hp
  exact ⟨b, { hb with le := hb.le.trans hcap }⟩

theorem roundInv_mono {cap' : WithTop Nat} (hcap : cap ≤ cap') {x : List DPTable} (h : RoundInv ctx G L contractions cap x) :
    RoundInv ctx G L contractions cap' x := { h with ok := fun n => tableOK_mono hcap (h.ok n) }

theorem last_eq {x : List DPTable} (h : x.length = G.card + 1) : x.getLastD [] = x.getD G.card [] := by
  rw [List.getLastD_eq_getLast?, List.getLast?_eq_getElem?, List.getD_eq_getElem?_getD, h]
  rfl

theorem le_raiseCap {increment : Nat} (hi : 2 ≤ increment) : cap ≤ raiseCap increment cap := by
  cases cap with
  | top => exact le_refl _
  | coe c =>
    simp only [raiseCap]
    apply WithTop.coe_le_coe.mpr
    exact Nat.le_mul_of_pos_left c (by omega)

/-- The trees of the whole subgraph among which the search chooses. -/
def Candidate (ctx : DPCtx) (G : Finset Nat) (L : Finset Nat → Finset Nat) (b : BTree) : Prop :=
  Allowed ctx.searchOuter ctx.size ctx.output L ctx.memoryLimit b ∧ b.set = G

theorem Candidate.len {b : BTree} (h : Candidate ctx G L b) : b.leaves.length = G.card := by
  rw [← h.2]
  unfold BTree.set
  rw [List.toFinset_card_of_nodup h.1.1]

/-- The entry `e` describes a cheapest tree. -/
def Cheapest (ctx : DPCtx) (G : Finset Nat) (L : Finset Nat → Finset Nat) (contractions : List Tree) (e : DPEntry) : Prop :=
  ∃ b, Candidate ctx G L b ∧ e.tree = toTree contractions b ∧ e.legs = L G ∧ ∀ b', Candidate ctx G L b' → btCost ctx.metric ctx.size L b ≤ btCost ctx.metric ctx.size L b'

theorem entry_set {n s : Nat} {e : DPEntry} {b : BTree} (h : DPEntryOK ctx G L contractions cap n s e b) (hn : n = G.card) : b.set = G := by
  apply Finset.eq_of_subset_of_card_le h.sub
  unfold BTree.set
  rw [List.toFinset_card_of_nodup h.allowed.1, h.len, hn]

/-- The result of a round that finds something is a cheapest tree. -/
theorem cheapest_of_round {x : List DPTable} (h : RoundInv ctx G L contractions cap x) (hfull : TableFull ctx G L cap G.card (x.getD G.card []))
    {p : Nat × DPEntry} {rest : DPTable} (hp : x.getD G.card [] = p :: rest) : Cheapest ctx G L contractions p.2 := by
  obtain ⟨b, hb⟩ := h.ok G.card p (by rw [hp]; exact List.mem_cons_self)
  have hset := entry_set hb rfl
  refine ⟨b, ⟨hb.allowed, hset⟩, hb.tree, by rw [hb.legs, hset], ?_⟩
  intro b' hb'
  by_cases hle : WithTop.some (btCost ctx.metric ctx.size L b') ≤ cap
  · obtain ⟨s, hs, e, hg, he⟩ := hfull b' hb'.1 (by rw [hb'.2]) hb'.len hle
    have hsp : p.1 = s := by
      have h1 := hb.key
      rw [hset] at h1
      rw [hb'.2] at hs
      exact h1.inj hs
    rw [hp] at hg
    obtain ⟨a, v⟩ := p
    simp only at hsp hb
    subst hsp
    rw [Dict.get?, if_pos rfl] at hg
    cases hg
    rw [← hb.cost]
    exact he
  · have h1 := hb.le
    rw [hb.cost] at h1
    have h2 := lt_of_le_of_lt h1 (not_le.mp hle)
    exact Nat.le_of_lt (WithTop.coe_lt_coe.mp h2)

theorem not_mem_empty_last {x : List DPTable} (h : RoundInv ctx G L contractions cap x) (hno : ∀ b, ¬ Candidate ctx G L b) : x.getD G.card [] = [] := by
  cases hx : x.getD G.card [] with
  | nil => rfl
  | cons p rest =>
    obtain ⟨b, hb⟩ := h.ok G.card p (by rw [hx]; exact List.mem_cons_self)
    exact absurd ⟨hb.allowed, entry_set hb rfl⟩ (hno b)

/-- Whenever the loop ends without error, the last table starts with a cheapest tree. -/
theorem dpWhile_ok (hc : CoreOK ctx G L) (hG : 0 < G.card) {naive : WithTop Nat} {increment : Nat} (hi : 2 ≤ increment) (fuel : Nat) (cap : WithTop Nat)
    (x x' : List DPTable) (h : RoundInv ctx G L contractions cap x)
    (hlast : x.getD G.card [] ≠ [] → ∃ p rest, x.getD G.card [] = p :: rest ∧ Cheapest ctx G L contractions p.2)
    (he : dpWhile ctx naive increment fuel cap x = some (.ok x')) :
    ∃ p rest, x'.getLastD [] = p :: rest ∧ Cheapest ctx G L contractions p.2 := by
  induction fuel generalizing cap x with
  | zero =>
    rw [dpWhile, last_eq h.len] at he
    split at he
    · rename_i hne
      cases he
      rw [last_eq h.len]
      exact hlast hne
    · cases he
  | succ fuel ih =>
    rw [dpWhile, last_eq h.len] at he
    split at he
    · rename_i hne
      cases he
      rw [last_eq h.len]
      exact hlast hne
    · obtain ⟨h1, h2⟩ := dpRound_spec hc hG h
      simp only at he
      rw [last_eq h1.len] at he
      split at he
      · cases he
      · apply ih _ _ (roundInv_mono (le_raiseCap hi) h1) _ he
        intro hne
        obtain ⟨p, rest, hp⟩ := List.exists_cons_of_ne_nil hne
        exact ⟨p, rest, hp, cheapest_of_round h1 h2 hp⟩

/-- The loop ends without error if there is a tree to be found and the naive cost does not forbid it. -/
theorem dpWhile_terminates (hc : CoreOK ctx G L) (hG : 0 < G.card) {naive : WithTop Nat} {increment : Nat} (hi : 2 ≤ increment) {b : BTree}
    (hb : Candidate ctx G L b) (hnaive : WithTop.some (btCost ctx.metric ctx.size L b) ≤ naive) (d : Nat) (cap : WithTop Nat)
    (hd : ∀ c, cap = WithTop.some c → 1 ≤ c ∧ btCost ctx.metric ctx.size L b ≤ c + d) (x : List DPTable) (h : RoundInv ctx G L contractions cap x)
    (fuel : Nat) (hf : d + 1 ≤ fuel) : ∃ x', dpWhile ctx naive increment fuel cap x = some (.ok x') := by
  have hfound : ∀ {cap : WithTop Nat} {x : List DPTable}, RoundInv ctx G L contractions cap x → WithTop.some (btCost ctx.metric ctx.size L b) ≤ cap →
      (dpRound ctx cap x).getD G.card [] ≠ [] := by
    intro cap x h hle h0
    obtain ⟨h1, h2⟩ := dpRound_spec hc hG h
    obtain ⟨s, -, e, hg, -⟩ := h2 b hb.1 (by rw [hb.2]) hb.len hle
    rw [h0] at hg
    simp [Dict.get?] at hg
  induction d generalizing cap x fuel with
  | zero =>
    obtain ⟨fuel, rfl⟩ : ∃ f, fuel = f + 1 := ⟨fuel - 1, by omega⟩
    rw [dpWhile]
    split
    · exact ⟨_, rfl⟩
    · obtain ⟨h1, h2⟩ := dpRound_spec hc hG h
      have hne := hfound h (by
        cases cap with
        | top => exact le_top
        | coe c => exact WithTop.coe_le_coe.mpr (hd c rfl).2)
      simp only
      rw [last_eq h1.len, if_neg (fun hh => hne hh.2)]
      rw [dpWhile.eq_def]
      simp only
      rw [last_eq h1.len, if_pos hne]
      exact ⟨_, rfl⟩
  | succ d ih =>
    obtain ⟨fuel, rfl⟩ : ∃ f, fuel = f + 1 := ⟨fuel - 1, by omega⟩
    rw [dpWhile]
    split
    · exact ⟨_, rfl⟩
    · obtain ⟨h1, h2⟩ := dpRound_spec hc hG h
      simp only
      rw [if_neg]
      · apply ih (raiseCap increment cap) _ _ (roundInv_mono (le_raiseCap hi) h1) fuel (by omega)
        cases cap with
        | top => intro c hc; cases hc
        | coe c =>
          intro c' hc'
          simp only [raiseCap] at hc'
          cases hc'
          have := hd c rfl
          have : 2 * c ≤ increment * c := Nat.mul_le_mul_right c hi
          omega
      · rw [last_eq h1.len]
        rintro ⟨h3, h4⟩
        exact hfound h (hnaive.trans (le_of_lt h3)) h4

/-- If there is no tree to be found and the naive cost is finite, the loop ends in a `RuntimeError`. -/
theorem dpWhile_error (hc : CoreOK ctx G L) (hG : 0 < G.card) {naive : Nat} {increment : Nat} (hi : 2 ≤ increment) (hno : ∀ b, ¬ Candidate ctx G L b)
    (d : Nat) (cap : WithTop Nat) (hd : ∀ c, cap = WithTop.some c → 1 ≤ c ∧ naive < c + d) (x : List DPTable)
    (h : RoundInv ctx G L contractions cap x) (fuel : Nat) (hf : d + 1 ≤ fuel) : dpWhile ctx (WithTop.some naive) increment fuel cap x = some (.error .runtime) := by
  induction d generalizing cap x fuel with
  | zero =>
    obtain ⟨fuel, rfl⟩ : ∃ f, fuel = f + 1 := ⟨fuel - 1, by omega⟩
    obtain ⟨h1, h2⟩ := dpRound_spec hc hG h
    rw [dpWhile, last_eq h.len, not_mem_empty_last h hno]
    simp only [ne_eq, not_true_eq_false, if_false]
    rw [last_eq h1.len, not_mem_empty_last h1 hno, if_pos]
    refine ⟨?_, rfl⟩
    cases cap with
    | top => exact WithTop.coe_lt_top _
    | coe c => exact WithTop.coe_lt_coe.mpr (hd c rfl).2
  | succ d ih =>
    obtain ⟨fuel, rfl⟩ : ∃ f, fuel = f + 1 := ⟨fuel - 1, by omega⟩
    obtain ⟨h1, h2⟩ := dpRound_spec hc hG h
    rw [dpWhile, last_eq h.len, not_mem_empty_last h hno]
    simp only [ne_eq, not_true_eq_false, if_false]
    rw [last_eq h1.len, not_mem_empty_last h1 hno]
    split
    · rfl
    · apply ih (raiseCap increment cap) _ _ (roundInv_mono (le_raiseCap hi) h1) fuel (by omega)
      cases cap with
      | top => intro c hc; cases hc
      | coe c =>
        intro c' hc'
        simp only [raiseCap] at hc'
        cases hc'
        have := hd c rfl
        have : 2 * c ≤ increment * c := Nat.mul_le_mul_right c hi
        omega

/-- If there is no tree to be found and the naive cost is infinite, the loop never ends. -/
theorem dpWhile_diverges (hc : CoreOK ctx G L) (hG : 0 < G.card) {increment : Nat} (hi : 2 ≤ increment) (hno : ∀ b, ¬ Candidate ctx G L b)
    (cap : WithTop Nat) (x : List DPTable) (h : RoundInv ctx G L contractions cap x) (fuel : Nat) : dpWhile ctx ⊤ increment fuel cap x = none := by
  induction fuel generalizing cap x with
  | zero =>
    rw [dpWhile, last_eq h.len, not_mem_empty_last h hno]
    simp
  | succ fuel ih =>
    obtain ⟨h1, h2⟩ := dpRound_spec hc hG h
    rw [dpWhile, last_eq h.len, not_mem_empty_last h hno]
    simp only [ne_eq, not_true_eq_false, if_false, not_top_lt, false_and]
    exact ih _ _ (roundInv_mono (le_raiseCap hi) h1)

theorem dpWhile_cases {naive : WithTop Nat} {increment fuel : Nat} {x : List DPTable} {e : PyErr} (h : dpWhile ctx naive increment fuel cap x = some (.error e)) :
    e = .runtime ∧ naive ≠ ⊤ := by
  induction fuel generalizing cap x with
  | zero =>
    rw [dpWhile] at h
    split at h <;> cases h
  | succ fuel ih =>
    rw [dpWhile] at h
    split at h
    · cases h
    · simp only at h
      split at h
      · rename_i hlt
        cases h
        exact ⟨rfl, fun ht => absurd hlt.1 (by rw [ht]; exact not_top_lt)⟩
      · exact ih h

end

end OE.Props
