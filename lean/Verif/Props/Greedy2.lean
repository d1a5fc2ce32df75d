import Verif.Props.Greedy1

/-!
# C23: the default greedy search does not depend on the iteration order of sets
-/

namespace OE.Props
open OE OE.Py OE.Spec OE.Paths

/-! ## Heaps again -/

theorem popMin_le {α : Type} {le : α → α → Bool} (htot : ∀ a b, le a b = true ∨ le b a = true)
    (htr : ∀ a b c, le a b = true → le b c = true → le a c = true) {l : List α} {a : α} {r : List α}
    (h : popMin le l = some (a, r)) : ∀ x ∈ l, le a x = true := by
  have hrefl : ∀ a, le a a = true := fun a => (htot a a).elim id id
  induction l generalizing a r with
  | nil => simp [popMin] at h
  | cons y l ih =>
    simp only [popMin] at h
    cases hp : popMin le l with
    | none =>
      rw [hp] at h
      simp only at h
      cases h
      have : l = [] := by
        by_contra hne
        obtain ⟨b, r, hb⟩ := popMin_ne_none (le := le) hne
        rw [hp] at hb; cases hb
      subst this
      intro x hx
      rw [List.mem_singleton] at hx
      subst hx
      exact hrefl _
    | some br =>
      obtain ⟨b, r'⟩ := br
      rw [hp] at h
      simp only at h
      have hb := ih hp
      split at h
      · rename_i hle
        cases h
        intro x hx
        rcases List.mem_cons.mp hx with rfl | hx
        · exact hrefl _
        · exact htr _ _ _ hle (hb x hx)
      · rename_i hle
        cases h
        intro x hx
        rcases List.mem_cons.mp hx with rfl | hx
        · rcases htot x a with h1 | h1
          · exact absurd h1 hle
          · exact h1
        · exact hb x hx

/-- If the comparison only ties equal elements, the smallest element does not depend on how the bag is listed. -/
theorem popMin_perm_eq {α : Type} {le : α → α → Bool} (htot : ∀ a b, le a b = true ∨ le b a = true)
    (htr : ∀ a b c, le a b = true → le b c = true → le a c = true) {l l' : List α} (hp : l.Perm l')
    (htie : ∀ a ∈ l, ∀ b ∈ l, le a b = true → le b a = true → a = b) {a : α} {r : List α} (h : popMin le l = some (a, r)) :
    ∃ r', popMin le l' = some (a, r') ∧ r.Perm r' := by
  have h1 := popMin_perm h
  have hne : l' ≠ [] := by
    rintro rfl
    have := (hp.symm.trans h1).length_eq
    simp at this
  obtain ⟨b, r', hb⟩ := popMin_ne_none (le := le) hne
  have h2 := popMin_perm hb
  have hbl : b ∈ l := hp.mem_iff.mpr (h2.mem_iff.mpr (by simp))
  have hal : a ∈ l := h1.mem_iff.mpr (by simp)
  have : a = b := htie a hal b hbl (popMin_le htot htr h b hbl) (popMin_le htot htr hb a (hp.mem_iff.mp hal))
  subst this
  exact ⟨r', hb, List.Perm.cons_inv (h1.symm.trans (hp.trans h2))⟩

theorem gcand_le_iff (a b : GCand) :
    GCand.le a b = true ↔ a.cost < b.cost ∨ a.cost = b.cost ∧ (a.id2 < b.id2 ∨ a.id2 = b.id2 ∧ a.id1 ≤ b.id1) := by
  unfold GCand.le
  split
  · rename_i h
    rw [decide_eq_true_eq]
    exact ⟨Or.inl, fun h' => h'.resolve_right (fun e => h e.1)⟩
  · rename_i h
    rw [ne_eq, not_not] at h
    split
    · rename_i h2
      rw [decide_eq_true_eq]
      constructor
      · intro h3; exact Or.inr ⟨h, Or.inl h3⟩
      · rintro (h3 | ⟨_, h3 | h3⟩)
        · rw [h] at h3; exact absurd h3 (lt_irrefl _)
        · exact h3
        · exact absurd h3.1 h2
    · rename_i h2
      rw [ne_eq, not_not] at h2
      rw [decide_eq_true_eq]
      constructor
      · intro h3; exact Or.inr ⟨h, Or.inr ⟨h2, h3⟩⟩
      · rintro (h3 | ⟨_, h3 | h3⟩)
        · rw [h] at h3; exact absurd h3 (lt_irrefl _)
        · omega
        · exact h3.2

theorem gcand_le_total (a b : GCand) : GCand.le a b = true ∨ GCand.le b a = true := by
  rw [gcand_le_iff, gcand_le_iff]
  rcases lt_trichotomy a.cost b.cost with h | h | h
  · exact Or.inl (Or.inl h)
  · rcases lt_trichotomy a.id2 b.id2 with h2 | h2 | h2
    · exact Or.inl (Or.inr ⟨h, Or.inl h2⟩)
    · rcases le_total a.id1 b.id1 with h3 | h3
      · exact Or.inl (Or.inr ⟨h, Or.inr ⟨h2, h3⟩⟩)
      · exact Or.inr (Or.inr ⟨h.symm, Or.inr ⟨h2.symm, h3⟩⟩)
    · exact Or.inr (Or.inr ⟨h.symm, Or.inl h2⟩)
  · exact Or.inr (Or.inl h)

theorem gcand_le_trans (a b c : GCand) (h1 : GCand.le a b = true) (h2 : GCand.le b c = true) : GCand.le a c = true := by
  rw [gcand_le_iff] at *
  rcases h1 with h1 | ⟨e1, h1⟩ <;> rcases h2 with h2 | ⟨e2, h2⟩
  · exact Or.inl (lt_trans h1 h2)
  · exact Or.inl (e2 ▸ h1)
  · exact Or.inl (e1 ▸ h2)
  · refine Or.inr ⟨e1.trans e2, ?_⟩
    rcases h1 with h1 | h1 <;> rcases h2 with h2 | h2
    · exact Or.inl (by omega)
    · exact Or.inl (by omega)
    · exact Or.inl (by omega)
    · exact Or.inr ⟨by omega, by omega⟩

theorem gcand_le_tie {a b : GCand} (h1 : GCand.le a b = true) (h2 : GCand.le b a = true) :
    a.cost = b.cost ∧ a.id2 = b.id2 ∧ a.id1 = b.id1 := by
  rw [gcand_le_iff] at *
  rcases h1 with h1 | ⟨e1, h1⟩ <;> rcases h2 with h2 | ⟨e2, h2⟩
  · exact absurd (lt_trans h1 h2) (lt_irrefl _)
  · rw [e2] at h1; exact absurd h1 (lt_irrefl _)
  · rw [e1] at h2; exact absurd h2 (lt_irrefl _)
  · exact ⟨e1, by omega, by omega⟩

/-- Candidates with equal cost and ids are equal. -/
def Ties (q : List GCand) : Prop := ∀ a ∈ q, ∀ b ∈ q, a.cost = b.cost → a.id2 = b.id2 → a.id1 = b.id1 → a = b

theorem Ties.mono {q q' : List GCand} (h : Ties q) (hs : ∀ c ∈ q', c ∈ q) : Ties q' :=
  fun a ha b hb => h a (hs a ha) b (hs b hb)

theorem popMin_cand {q q' : List GCand} (hp : q.Perm q') (ht : Ties q) {c : GCand} {r : List GCand} (h : popMin GCand.le q = some (c, r)) :
    ∃ r', popMin GCand.le q' = some (c, r') ∧ r.Perm r' :=
  popMin_perm_eq gcand_le_total gcand_le_trans hp
    (fun a ha b hb h1 h2 => by obtain ⟨e1, e2, e3⟩ := gcand_le_tie h1 h2; exact ht a ha b hb e1 e2 e3) h

/-! ## Candidates of a deterministic cost function -/

section
variable {cfg : GCfg} {n : Nat}

/-- The cost function does not depend on the history (no jitter). -/
def Deterministic (cost : CostFn) : Prop := ∀ seed seed', cost seed = cost seed'

theorem candOf_seed (hd : Deterministic cfg.cost) (st : GSt) (seed : Path) (k1 k2 : Finset Nat) :
    candOf cfg st seed k1 k2 = candOf cfg st [] k1 k2 := by
  unfold candOf
  rw [hd seed []]

theorem candsOf_det (hd : Deterministic cfg.cost) (st : GSt) (k1 : Finset Nat) (k2s : List (Finset Nat)) :
    candsOf cfg st k1 k2s = k2s.map (candOf cfg st [] k1) := by
  unfold candsOf
  have : (fun p : Finset Nat × Nat => candOf cfg st (st.path ++ [[st.queue.length, p.2]]) k1 p.1) =
      (candOf cfg st [] k1) ∘ Prod.fst := by
    funext p; exact candOf_seed hd st _ k1 p.1
  rw [this, ← List.map_map, List.zipIdx_map_fst]

theorem candOf_queue (st : GSt) (q : List GCand) (seed : Path) (k1 k2 : Finset Nat) :
    candOf cfg { st with queue := q } seed k1 k2 = candOf cfg st seed k1 k2 := rfl

theorem idOf_inj {st : GSt} (h : GInv cfg n st) {k k' : Finset Nat} (hk : k ∈ st.remaining.keys) (hk' : k' ∈ st.remaining.keys)
    (he : idOf st.remaining k = idOf st.remaining k') : k = k' := by
  obtain ⟨a, ha⟩ := Dict.mem_keys.mp hk
  obtain ⟨b, hb⟩ := Dict.mem_keys.mp hk'
  rw [idOf, idOf, ha, hb] at he
  simp only [Option.getD_some] at he
  subst he
  by_contra hne
  have hp := Dict.perm_del h.keys ha
  have hb' : (Dict.del st.remaining k).get? k' = some a := by rw [Dict.get?_del_ne (fun e => hne e.symm), hb]
  have hp2 := Dict.perm_del (Dict.keys_del_nodup h.keys k) hb'
  have hnd := ((hp.trans (hp2.cons _)).map Prod.snd).nodup_iff.mp h.pre.nodup
  simp at hnd

/-- The ids of a candidate determine the rest, apart from the cost. -/
theorem candOf_ids {st : GSt} (h : GInv cfg n st) {s s' : Path} {k1 k2 l1 l2 : Finset Nat} (hk1 : k1 ∈ st.remaining.keys)
    (hk2 : k2 ∈ st.remaining.keys) (hl1 : l1 ∈ st.remaining.keys) (hl2 : l2 ∈ st.remaining.keys)
    (e0 : (candOf cfg st s k1 k2).cost = (candOf cfg st s' l1 l2).cost)
    (e1 : (candOf cfg st s k1 k2).id2 = (candOf cfg st s' l1 l2).id2)
    (e2 : (candOf cfg st s k1 k2).id1 = (candOf cfg st s' l1 l2).id1) : candOf cfg st s k1 k2 = candOf cfg st s' l1 l2 := by
  unfold candOf at e0 e1 e2 ⊢
  simp only at e0 e1 e2 ⊢
  split at e1 <;> split at e1
  all_goals simp only at e1
  · rename_i h1 h2
    rw [if_pos h1, if_pos h2] at e2 e0 ⊢
    simp only at e2 e0
    have := idOf_inj h hk1 hl1 e1
    have := idOf_inj h hk2 hl2 e2
    subst_vars
    simp only [GCand.mk.injEq, and_true] at *
    exact e0
  · rename_i h1 h2
    rw [if_pos h1, if_neg h2] at e2 e0 ⊢
    simp only at e2 e0
    have := idOf_inj h hk1 hl2 e1
    have := idOf_inj h hk2 hl1 e2
    subst_vars
    simp only [GCand.mk.injEq, true_and] at *
    refine ⟨e0, ?_⟩
    rw [Finset.union_comm l2 l1, Finset.inter_comm l2 l1]
  · rename_i h1 h2
    rw [if_neg h1, if_pos h2] at e2 e0 ⊢
    simp only at e2 e0
    have := idOf_inj h hk2 hl1 e1
    have := idOf_inj h hk1 hl2 e2
    subst_vars
    simp only [GCand.mk.injEq, true_and] at *
    refine ⟨e0, ?_⟩
    rw [Finset.union_comm l2 l1, Finset.inter_comm l2 l1]
  · rename_i h1 h2
    rw [if_neg h1, if_neg h2] at e2 e0 ⊢
    simp only at e2 e0
    have := idOf_inj h hk2 hl2 e1
    have := idOf_inj h hk1 hl1 e2
    subst_vars
    simp only [GCand.mk.injEq, and_true] at *
    exact e0

theorem pushCandidate_det (hd : Deterministic cfg.cost) (hpa : cfg.pushAll = false) (st : GSt) {k1 : Finset Nat} {k2s : List (Finset Nat)}
    (h1 : k1 ∈ st.remaining.keys) (h2 : ∀ k ∈ k2s, k ∈ st.remaining.keys) {c : GCand} {r : List GCand}
    (hc : popMin GCand.le (k2s.map (candOf cfg st [] k1)) = some (c, r)) :
    pushCandidate cfg st k1 k2s = .ok { st with queue := st.queue ++ [c] } := by
  unfold pushCandidate
  rw [mapM_ok_map (g := fun p => candOf cfg st (st.path ++ [[st.queue.length, p.2]]) k1 p.1)]
  · simp only [bind, Except.bind]
    rw [← candsOf, candsOf_det hd, hpa, hc]
    rfl
  · intro p hp
    exact getCandidate_eq cfg st _ h1 (h2 _ ((List.mem_zipIdx' hp).2 ▸ List.getElem_mem _))

/-! ## The initial queue -/

/-- The candidates that `initPush` adds. -/
def pushList (cfg : GCfg) (st : GSt) : List (Finset Nat) → List GCand
  | [] => []
  | [_] => []
  | k1 :: k2 :: ks => ((popMin GCand.le ((k2 :: ks).map (candOf cfg st [] k1))).map Prod.fst).toList ++ pushList cfg st (k2 :: ks)

theorem pushList_queue (st : GSt) (q : List GCand) (l : List (Finset Nat)) : pushList cfg { st with queue := q } l = pushList cfg st l := by
  induction l with
  | nil => rfl
  | cons k1 ks ih =>
    cases ks with
    | nil => rfl
    | cons k2 ks => simp only [pushList, ih]; rfl

theorem mem_pushList {st : GSt} {l : List (Finset Nat)} {c : GCand} (h : c ∈ pushList cfg st l) :
    ∃ k1 ∈ l, ∃ k2 ∈ l, c = candOf cfg st [] k1 k2 := by
  induction l with
  | nil => simp [pushList] at h
  | cons k1 ks ih =>
    cases ks with
    | nil => simp [pushList] at h
    | cons k2 ks =>
      rw [pushList, List.mem_append] at h
      rcases h with h | h
      · cases hp : popMin GCand.le ((k2 :: ks).map (candOf cfg st [] k1)) with
        | none => rw [hp] at h; simp at h
        | some cr =>
          obtain ⟨c', r⟩ := cr
          rw [hp] at h
          simp only [Option.map_some, Option.toList_some, List.mem_singleton] at h
          subst h
          have := (popMin_perm hp).mem_iff.mpr (List.mem_cons_self)
          obtain ⟨k, hk, rfl⟩ := List.mem_map.mp this
          exact ⟨k1, by simp, k, List.mem_cons_of_mem _ hk, rfl⟩
      · obtain ⟨a, ha, b, hb, hc⟩ := ih h
        exact ⟨a, List.mem_cons_of_mem _ ha, b, List.mem_cons_of_mem _ hb, hc⟩

theorem initPush_det (hd : Deterministic cfg.cost) (hpa : cfg.pushAll = false) (l : List (Finset Nat)) (st : GSt)
    (hm : ∀ k ∈ l, k ∈ st.remaining.keys) : initPush cfg l st = .ok { st with queue := st.queue ++ pushList cfg st l } := by
  induction l generalizing st with
  | nil => simp [initPush, pushList]
  | cons k1 ks ih =>
    cases ks with
    | nil => simp [initPush, pushList]
    | cons k2 ks =>
      obtain ⟨c, r, hc⟩ := popMin_ne_none (le := GCand.le) (l := (k2 :: ks).map (candOf cfg st [] k1)) (by simp)
      rw [initPush, pushCandidate_det hd hpa st (hm _ (by simp)) (fun k hk => hm k (List.mem_cons_of_mem _ hk)) hc]
      simp only [bind, Except.bind]
      rw [ih { st with queue := st.queue ++ [c] } (fun k hk => hm k (List.mem_cons_of_mem _ hk)), pushList_queue]
      simp only [pushList, hc, Option.map_some, Option.toList_some, List.append_assoc]

theorem initQueue_det (hd : Deterministic cfg.cost) (hpa : cfg.pushAll = false) (ds : List Nat) (st : GSt) :
    initQueue cfg ds st = .ok { st with queue := st.queue ++ ds.flatMap (fun d => pushList cfg st (sortedKeys st.remaining (st.dimKeys d))) } := by
  induction ds generalizing st with
  | nil => simp [initQueue]
  | cons d ds ih =>
    have hm : ∀ k ∈ sortedKeys st.remaining (st.dimKeys d), k ∈ st.remaining.keys := fun k hk =>
      (List.mem_filter.mp ((sortedKeys_perm st.remaining (st.dimKeys d)).mem_iff.mp hk)).1
    rw [initQueue, initPush_det hd hpa _ st hm]
    simp only [bind, Except.bind]
    rw [ih]
    simp only [List.flatMap_cons, List.append_assoc, pushList_queue]

/-! ## The main loop -/

/-- The invariant that makes the order irrelevant. -/
structure TInv (cfg : GCfg) (n : Nat) (st : GSt) : Prop extends GInv cfg n st where
  ties : Ties st.queue
  old : ∀ c ∈ st.queue, c.id2 < st.next

theorem contractKeys_queue (st : GSt) (q : List GCand) (k1 k2 k12 : Finset Nat) {st' : GSt} (h : contractKeys cfg st k1 k2 k12 = .ok st') :
    contractKeys cfg { st with queue := q } k1 k2 k12 = .ok { st' with queue := q } := by
  unfold contractKeys at h ⊢
  simp only [bind, Except.bind] at h ⊢
  cases h1 : popKey st.remaining k1 with
  | error e => rw [h1] at h; cases h
  | ok r1 =>
    rw [h1] at h
    simp only at h ⊢
    cases h2 : popKey r1.2 k2 with
    | error e => rw [h2] at h; cases h
    | ok r2 =>
      rw [h2] at h
      simp only at h ⊢
      cases h3 : removeKey st.dimKeys cfg.output k1 with
      | error e => rw [h3] at h; cases h
      | ok d1 =>
        rw [h3] at h
        simp only at h ⊢
        cases h4 : removeKey d1 cfg.output k2 with
        | error e => rw [h4] at h; cases h
        | ok d2 =>
          rw [h4] at h
          simp only at h ⊢
          cases h5 : r2.2.get? k12 with
          | none => rw [h5] at h; cases h; rfl
          | some id => rw [h5] at h; cases h; rfl

/-- The new term gets a new id, the largest one. -/
theorem contractKeys_id {st : GSt} {k1 k2 k12 : Finset Nat} {st' : GSt} (h : contractKeys cfg st k1 k2 k12 = .ok st') :
    idOf st'.remaining k12 + 1 = st'.next ∧ st.next < st'.next := by
  unfold contractKeys at h
  simp only [bind, Except.bind] at h
  cases h1 : popKey st.remaining k1 with
  | error e => rw [h1] at h; cases h
  | ok r1 =>
    rw [h1] at h
    simp only at h
    cases h2 : popKey r1.2 k2 with
    | error e => rw [h2] at h; cases h
    | ok r2 =>
      rw [h2] at h
      simp only at h
      cases h3 : removeKey st.dimKeys cfg.output k1 with
      | error e => rw [h3] at h; cases h
      | ok d1 =>
        rw [h3] at h
        simp only at h
        cases h4 : removeKey d1 cfg.output k2 with
        | error e => rw [h4] at h; cases h
        | ok d2 =>
          rw [h4] at h
          simp only at h
          cases h5 : r2.2.get? k12 with
          | none =>
            rw [h5] at h
            cases h
            simp [idOf, Dict.get?_set_self]
          | some id =>
            rw [h5] at h
            cases h
            simp only [idOf, Dict.get?_set_self, Option.getD_some]
            exact ⟨trivial, by omega⟩

theorem pushNew_det (hd : Deterministic cfg.cost) (hpa : cfg.pushAll = false) {o1 o2 : GOrder} (h1 : GOrderOK o1) (h2 : GOrderOK o2)
    {st : GSt} (h : GInv cfg n st) {k : Finset Nat} (hk : k ∈ st.remaining.keys) (q : List GCand) :
    ∃ cs, pushNew cfg o1 { st with queue := q } k = .ok { st with queue := q ++ cs } ∧
      pushNew cfg o2 st k = .ok { st with queue := st.queue ++ cs } ∧
      cs.length ≤ 1 ∧ ∀ c ∈ cs, ∃ k2 ∈ st.remaining.keys, c = candOf cfg st [] k k2 := by
  unfold pushNew
  simp only
  split
  · exact ⟨[], by simp⟩
  · rename_i hne
    generalize hK : (k.biUnion st.dimKeys).erase k = K at *
    have hK' : ∀ x ∈ K, x ∈ st.remaining.keys := by
      intro x hx
      rw [← hK, Finset.mem_erase, Finset.mem_biUnion] at hx
      obtain ⟨_, d, _, hdk⟩ := hx
      exact ((h.dims d x).mp hdk).2.2
    have hm1 : ∀ x ∈ o1.keys st.path K, x ∈ st.remaining.keys := fun x hx => hK' x (((h1.2 _ _).2 x).mp hx)
    have hm2 : ∀ x ∈ o2.keys st.path K, x ∈ st.remaining.keys := fun x hx => hK' x (((h2.2 _ _).2 x).mp hx)
    have hperm : (o2.keys st.path K).Perm (o1.keys st.path K) := by
      rw [List.perm_ext_iff_of_nodup (h2.2 _ _).1 (h1.2 _ _).1]
      intro x
      rw [(h1.2 _ _).2, (h2.2 _ _).2]
    obtain ⟨c, r, hc⟩ := popMin_ne_none (le := GCand.le) (l := (o2.keys st.path K).map (candOf cfg st [] k)) (by
      intro h0
      rw [List.map_eq_nil_iff] at h0
      apply hne
      ext x
      have := (h2.2 st.path K).2 x
      rw [h0] at this
      simpa using this.symm)
    have hties : Ties ((o2.keys st.path K).map (candOf cfg st [] k)) := by
      intro a ha b hb e0 e1 e2
      obtain ⟨x, hx, rfl⟩ := List.mem_map.mp ha
      obtain ⟨y, hy, rfl⟩ := List.mem_map.mp hb
      exact candOf_ids h hk (hm2 x hx) hk (hm2 y hy) e0 e1 e2
    obtain ⟨r', hc', _⟩ := popMin_cand (hperm.map _) hties hc
    refine ⟨[c], ?_, pushCandidate_det hd hpa st hk hm2 hc, by simp, ?_⟩
    · exact pushCandidate_det hd hpa { st with queue := q } hk hm1 hc'
    · intro x hx
      rw [List.mem_singleton] at hx
      subst hx
      have := (popMin_perm hc).mem_iff.mpr (List.mem_cons_self)
      obtain ⟨k2, hk2, rfl⟩ := List.mem_map.mp this
      exact ⟨k2, hm2 k2 hk2, rfl⟩

theorem idOf_lt {st : GSt} (h : GInv cfg n st) {k : Finset Nat} (hk : k ∈ st.remaining.keys) : idOf st.remaining k < st.next := by
  obtain ⟨a, ha⟩ := Dict.mem_keys.mp hk
  rw [idOf, ha]
  exact h.pre.lt a (((Dict.perm_del h.keys ha).map Prod.snd).mem_iff.mpr (by simp))

theorem greedyStep_det (hd : Deterministic cfg.cost) (hpa : cfg.pushAll = false) {o1 o2 : GOrder} (h1 : GOrderOK o1) (h2 : GOrderOK o2)
    {st : GSt} (h : TInv cfg n st) (hq : st.queue ≠ []) {q : List GCand} (hp : q.Perm st.queue) :
    ∃ st' q', greedyStep cfg simpleChooser o2 st = .ok st' ∧ greedyStep cfg simpleChooser o1 { st with queue := q } = .ok { st' with queue := q' } ∧
      q'.Perm st'.queue ∧ TInv cfg n st' := by
  obtain ⟨c, r, hc⟩ := popMin_ne_none (le := GCand.le) hq
  obtain ⟨r', hc', hr⟩ := popMin_cand hp.symm h.ties hc
  have hperm := popMin_perm hc
  have hsub : ∀ x ∈ r, x ∈ st.queue := fun x hx => hperm.mem_iff.mpr (by simp [hx])
  have hinv0 : GInv cfg n { st with queue := r } := h.toGInv.setQueue (fun x hx => h.queue x (hsub x hx))
  unfold greedyStep simpleChooser
  simp only [hc, hc']
  by_cases hh : st.remaining.has c.k1 = true ∧ st.remaining.has c.k2 = true
  · simp only [if_pos hh]
    obtain ⟨st1, e1, e2, e3, e4, e5⟩ := contractKeys_inv hinv0 c.k12 (h.queue c (hperm.mem_iff.mpr (by simp)))
      (Dict.has_iff.mp hh.1) (Dict.has_iff.mp hh.2)
    have e6 := contractKeys_queue { st with queue := r } r' c.k1 c.k2 c.k12 e1
    obtain ⟨g1, g2⟩ := contractKeys_id e1
    obtain ⟨cs, p1, p2, p3, p4⟩ := pushNew_det hd hpa h1 h2 e2 e3 r'
    simp only at e5 g2
    simp only [bind, Except.bind, e1]
    simp only at e6
    rw [e6]
    simp only
    rw [p1, p2]
    have hcs : ∀ x ∈ cs, x.id2 + 1 = st1.next := by
      intro x hx
      obtain ⟨k2, hk2, rfl⟩ := p4 x hx
      have hlt := idOf_lt e2 hk2
      unfold candOf
      simp only
      split
      · exact g1
      · simp only; omega
    refine ⟨_, _, rfl, rfl, ?_, ⟨?_, ?_, ?_⟩⟩
    · simp only
      rw [e5]
      exact hr.symm.append_right _
    · obtain ⟨q2, f1, f2⟩ := pushNew_inv h2 e2 e3
      rw [p2] at f1
      cases f1
      exact f2
    · simp only
      rw [e5]
      intro a ha b hb e0' e1' e2'
      rcases List.mem_append.mp ha with ha | ha <;> rcases List.mem_append.mp hb with hb | hb
      · exact h.ties a (hsub a ha) b (hsub b hb) e0' e1' e2'
      · have := h.old a (hsub a ha)
        have := hcs b hb
        omega
      · have := h.old b (hsub b hb)
        have := hcs a ha
        omega
      · match cs, p3, ha, hb with
        | [x], _, ha, hb =>
          rw [List.mem_singleton] at ha hb
          rw [ha, hb]
    · simp only
      rw [e5]
      intro a ha
      rcases List.mem_append.mp ha with ha | ha
      · have := h.old a (hsub a ha)
        omega
      · have := hcs a ha
        omega
  · simp only [if_neg hh]
    exact ⟨_, _, rfl, rfl, hr.symm, ⟨hinv0, h.ties.mono hsub, fun x hx => h.old x (hsub x hx)⟩⟩

theorem greedyLoop_det (hd : Deterministic cfg.cost) (hpa : cfg.pushAll = false) {o1 o2 : GOrder} (h1 : GOrderOK o1) (h2 : GOrderOK o2)
    (fuel : Nat) {st : GSt} (h : TInv cfg n st) {q : List GCand} (hp : q.Perm st.queue) :
    (greedyLoop cfg simpleChooser o1 fuel { st with queue := q } = none ∧ greedyLoop cfg simpleChooser o2 fuel st = none) ∨
    ∃ st' q', greedyLoop cfg simpleChooser o1 fuel { st with queue := q } = some (.ok { st' with queue := q' }) ∧
      greedyLoop cfg simpleChooser o2 fuel st = some (.ok st') := by
  induction fuel generalizing st q with
  | zero =>
    rw [greedyLoop, greedyLoop]
    by_cases h0 : st.queue = []
    · have h0' : q = [] := by rw [h0] at hp; exact List.perm_nil.mp hp
      rw [if_pos h0, if_pos h0']
      exact Or.inr ⟨st, q, rfl, rfl⟩
    · have h0' : ¬ q = [] := by rintro rfl; exact h0 (List.nil_perm.mp hp)
      rw [if_neg h0, if_neg h0']
      exact Or.inl ⟨rfl, rfl⟩
  | succ fuel ih =>
    rw [greedyLoop, greedyLoop]
    by_cases h0 : st.queue = []
    · have h0' : q = [] := by rw [h0] at hp; exact List.perm_nil.mp hp
      rw [if_pos h0, if_pos h0']
      exact Or.inr ⟨st, q, rfl, rfl⟩
    · have h0' : ¬ q = [] := by rintro rfl; exact h0 (List.nil_perm.mp hp)
      rw [if_neg h0, if_neg h0']
      obtain ⟨st', q', g1, g2, g3, g4⟩ := greedyStep_det hd hpa h1 h2 h h0 hp
      rw [g1, g2]
      exact ih g4 g3

end

/-- **C23.** With the default chooser and a cost function that is a function of sizes and label sets (no random jitter), the
path of `ssa_greedy_optimize` is the same for any two iteration orders of the sets involved. -/
theorem C23_ssa_greedy_order (size : Nat → Nat) {cost : CostFn} (hd : Deterministic cost) {o1 o2 : GOrder} (h1 : GOrderOK o1)
    (h2 : GOrderOK o2) (inputs : List (Finset Nat)) (output : Finset Nat) (fuel : Nat) :
    ssaGreedy fuel size cost none o1 inputs output = ssaGreedy fuel size cost none o2 inputs output := by
  match inputs with
  | [] => rfl
  | [_] => rfl
  | k :: k' :: ks =>
    simp only [ssaGreedy]
    generalize hout : output ∪ (k' :: ks).foldl (· ∩ ·) k = out
    generalize hcfg : ({ size, cost, output := out, pushAll := (none : Option Chooser).isSome } : GCfg) = cfg
    have hd' : Deterministic cfg.cost := by rw [← hcfg]; exact hd
    have hpa : cfg.pushAll = false := by rw [← hcfg]; rfl
    have h0 := greedyStart_inv (cfg := cfg) out (k :: k' :: ks) (by simp) (by rw [← hcfg])
    generalize hst : greedyStart out (k :: k' :: ks) = st at *
    generalize hds : st.remaining.keys.foldl (fun s key => s ∪ key \ out) ∅ = ds
    obtain ⟨q2, hq2, hinv2⟩ := initQueue_inv (o2.dims ds) h0
    have e2 := hq2
    rw [initQueue_det hd' hpa] at e2
    rw [initQueue_det hd' hpa, hq2]
    simp only
    have hq : q2 = st.queue ++ (o2.dims ds).flatMap (fun d => pushList cfg st (sortedKeys st.remaining (st.dimKeys d))) := by
      have := congrArg (fun r => match r with | Except.ok s => s.queue | .error _ => []) e2
      exact this.symm
    have hsq : st.queue = [] := by
      rw [← hst]
      unfold greedyStart
      simp only
      have hh := (dedup_inv (n := (k :: k' :: ks).length) (k :: k' :: ks) 0
        { remaining := [], dimKeys := fun _ => ∅, ref2 := ∅, ref3 := ∅, queue := [], path := [], next := (k :: k' :: ks).length }
        (by simp [Dict.keys]) (by
          simp only [Dict.vals, List.map_nil, List.nil_append]
          rw [← List.range_eq_range']
          exact prefix_nil _)).2.2.1
      exact hh
    rw [hsq, List.nil_append] at hq ⊢
    have hmem : ∀ c ∈ q2, ∃ k1 ∈ st.remaining.keys, ∃ k2 ∈ st.remaining.keys, c = candOf cfg st [] k1 k2 := by
      intro c hc
      rw [hq, List.mem_flatMap] at hc
      obtain ⟨d, _, hc⟩ := hc
      have hm : ∀ k ∈ sortedKeys st.remaining (st.dimKeys d), k ∈ st.remaining.keys := fun k hk =>
        (List.mem_filter.mp ((sortedKeys_perm st.remaining (st.dimKeys d)).mem_iff.mp hk)).1
      obtain ⟨k1, hk1, k2, hk2, rfl⟩ := mem_pushList hc
      exact ⟨k1, hm k1 hk1, k2, hm k2 hk2, rfl⟩
    have hT : TInv cfg (k :: k' :: ks).length { st with queue := q2 } := by
      refine ⟨hinv2, ?_, ?_⟩
      · intro a ha b hb x0 x1 x2
        obtain ⟨a1, ha1, a2, ha2, rfl⟩ := hmem a ha
        obtain ⟨b1, hb1, b2, hb2, rfl⟩ := hmem b hb
        exact candOf_ids h0 ha1 ha2 hb1 hb2 x0 x1 x2
      · intro c hc
        obtain ⟨a1, ha1, a2, ha2, rfl⟩ := hmem c hc
        unfold candOf
        simp only
        split
        · exact idOf_lt h0 ha1
        · exact idOf_lt h0 ha2
    have hperm : ((o1.dims ds).flatMap (fun d => pushList cfg st (sortedKeys st.remaining (st.dimKeys d)))).Perm q2 := by
      rw [hq]
      apply List.Perm.flatMap_right
      rw [List.perm_ext_iff_of_nodup (h1.1 _).1 (h2.1 _).1]
      intro x
      rw [(h1.1 _).2, (h2.1 _).2]
    rcases greedyLoop_det hd' hpa h1 h2 fuel hT hperm with ⟨g1, g2⟩ | ⟨st', q', g1, g2⟩
    · simp only [Option.getD_none]
      rw [g1, g2]
    · simp only [Option.getD_none]
      rw [g1, g2]
      rfl

/-- **C23, `greedy`** without a memory limit. -/
theorem C23_greedy_order (size : Nat → Nat) {cost : CostFn} (hd : Deterministic cost) {o1 o2 : GOrder} (h1 : GOrderOK o1)
    (h2 : GOrderOK o2) (s1 s2 : SetOrder) (inputs : List (Finset Nat)) (output : Finset Nat) (fuel : Nat) :
    greedy fuel size none cost none o1 s1 inputs output = greedy fuel size none cost none o2 s2 inputs output := by
  simp only [greedy]
  rw [C23_ssa_greedy_order size hd h1 h2]

/-- The default cost function is deterministic. -/
theorem costMemoryRemoved_deterministic : Deterministic costMemoryRemoved := fun _ _ => rfl

/-- The opposite iteration orders. -/
def gDescending : GOrder where
  dims s := (gAscending.dims s).reverse
  keys p s := (gAscending.keys p s).reverse

theorem gDescending_ok : GOrderOK gDescending :=
  ⟨fun s => ⟨List.nodup_reverse.mpr (gAscending_ok.1 s).1, fun x => by rw [gDescending, List.mem_reverse]; exact (gAscending_ok.1 s).2 x⟩,
   fun p s => ⟨List.nodup_reverse.mpr (gAscending_ok.2 p s).1, fun x => by rw [gDescending, List.mem_reverse]; exact (gAscending_ok.2 p s).2 x⟩⟩

-- C23: opposite orders on a ring 'ab,bc,cd,da->' of equal sizes, where every cost is the same
example : greedy 20 (fun _ => 2) none costMemoryRemoved none gAscending ascending [{0, 1}, {1, 2}, {2, 3}, {3, 0}] ∅ =
    greedy 20 (fun _ => 2) none costMemoryRemoved none gDescending ascending [{0, 1}, {1, 2}, {2, 3}, {3, 0}] ∅ :=
  C23_greedy_order _ costMemoryRemoved_deterministic gAscending_ok gDescending_ok _ _ _ _ _

end OE.Props
