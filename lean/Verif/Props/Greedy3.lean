import Verif.Lemmas.GreedyTags
import Verif.Props.Auto

/-!
# C59: the greedy search contracts tensors with a common summed label first
-/

namespace OE.Props
open OE OE.Py OE.Spec OE.Paths

section
variable {cfg : GCfg} {ins : List (Finset Nat)} {out : Finset Nat}

/-! ## Keys and tensors -/

/-- The key of a tensor has its labels, and only labels of its inputs. (It may keep labels that are no longer needed.) -/
def Approx (ins : List (Finset Nat)) (out k : Finset Nat) (t : Tag) : Prop := termOf ins out t ⊆ k ∧ k ⊆ labels ins t.1

/-- Different terms with a common label outside the output. -/
def Adj (out' a b : Finset Nat) : Prop := a ≠ b ∧ ∃ d, d ∉ out' ∧ d ∈ a ∧ d ∈ b

theorem Adj.symm {out' a b : Finset Nat} (h : Adj out' a b) : Adj out' b a := by
  obtain ⟨h1, d, h2, h3, h4⟩ := h
  exact ⟨h1.symm, d, h2, h4, h3⟩

/-- Neighbours among the remaining terms. -/
def Link (out' : Finset Nat) (keys : List (Finset Nat)) (a b : Finset Nat) : Prop := a ∈ keys ∧ b ∈ keys ∧ Adj out' a b

/-- The result `k12` of a candidate keeps the labels of the output, and those that other remaining terms need. -/
structure ResultOK (out' : Finset Nat) (dimKeys : Nat → Finset (Finset Nat)) (k1 k2 k12 : Finset Nat) : Prop where
  adj : Adj out' k1 k2
  sub : k12 ⊆ k1 ∪ k2
  outp : ∀ d ∈ k1 ∪ k2, d ∈ out' → d ∈ k12
  two : ∀ d, d ∉ out' → d ∈ k1 → d ∈ k2 → 3 ≤ (dimKeys d).card → d ∈ k12
  one : ∀ d, d ∉ out' → d ∈ k1 ∪ k2 → ¬ (d ∈ k1 ∧ d ∈ k2) → 2 ≤ (dimKeys d).card → d ∈ k12

theorem ResultOK.symm {out' : Finset Nat} {dimKeys : Nat → Finset (Finset Nat)} {k1 k2 k12 : Finset Nat} (h : ResultOK out' dimKeys k1 k2 k12) :
    ResultOK out' dimKeys k2 k1 k12 :=
  ⟨h.adj.symm, by rw [Finset.union_comm]; exact h.sub, by rw [Finset.union_comm]; exact h.outp, fun d a b c => h.two d a c b,
    fun d a b c => h.one d a (by rw [Finset.union_comm]; exact b) (fun e => c ⟨e.2, e.1⟩)⟩

theorem ResultOK.mono {out' : Finset Nat} {dk dk' : Nat → Finset (Finset Nat)} {k1 k2 k12 : Finset Nat} (h : ResultOK out' dk k1 k2 k12)
    (hm : ∀ d, (dk' d).card ≤ (dk d).card) : ResultOK out' dk' k1 k2 k12 :=
  ⟨h.adj, h.sub, h.outp, fun d a b c e => h.two d a b c (e.trans (hm d)), fun d a b c e => h.one d a b c (e.trans (hm d))⟩

/-- `ref_counts` are exact outside the output. -/
structure RefsOK (out' : Finset Nat) (st : GSt) : Prop where
  two : ∀ d, d ∉ out' → (d ∈ st.ref2 ↔ 2 ≤ (st.dimKeys d).card)
  three : ∀ d, d ∉ out' → (d ∈ st.ref3 ↔ 3 ≤ (st.dimKeys d).card)

theorem candOf_ok {st : GSt} (h : RefsOK cfg.output st) {seed : Path} {k1 k2 : Finset Nat} (hadj : Adj cfg.output k1 k2) :
    ResultOK cfg.output st.dimKeys (candOf cfg st seed k1 k2).k1 (candOf cfg st seed k1 k2).k2 (candOf cfg st seed k1 k2).k12 := by
  have key : ResultOK cfg.output st.dimKeys k1 k2
      (((k1 ∪ k2) ∩ cfg.output) ∪ ((k1 ∩ k2) ∩ st.ref3) ∪ (((k1 ∪ k2) \ (k1 ∩ k2)) ∩ st.ref2)) := by
    refine ⟨hadj, ?_, ?_, ?_, ?_⟩
    · intro d hd
      simp only [Finset.mem_union, Finset.mem_inter, Finset.mem_sdiff] at hd ⊢
      tauto
    · intro d hd hd'
      simp only [Finset.mem_union, Finset.mem_inter, Finset.mem_sdiff] at hd ⊢
      tauto
    · intro d hd h1 h2 h3
      have := (h.three d hd).mpr h3
      simp only [Finset.mem_union, Finset.mem_inter, Finset.mem_sdiff]
      tauto
    · intro d hd h1 h2 h3
      have := (h.two d hd).mpr h3
      simp only [Finset.mem_union, Finset.mem_inter, Finset.mem_sdiff] at h1 ⊢
      tauto
  unfold candOf
  simp only
  split
  · exact key.symm
  · exact key

theorem candOf_mem (st : GSt) (seed : Path) (k1 k2 : Finset Nat) :
    ((candOf cfg st seed k1 k2).k1 = k1 ∧ (candOf cfg st seed k1 k2).k2 = k2) ∨
    ((candOf cfg st seed k1 k2).k1 = k2 ∧ (candOf cfg st seed k1 k2).k2 = k1) := by
  unfold candOf
  simp only
  split
  · exact Or.inr ⟨rfl, rfl⟩
  · exact Or.inl ⟨rfl, rfl⟩

/-- `_push_candidate` pushes a candidate for `k1` and one of `k2s`. -/
theorem pushCandidate_some (cfg : GCfg) (st : GSt) {k1 : Finset Nat} {k2s : List (Finset Nat)} (h1 : k1 ∈ st.remaining.keys)
    (h2 : ∀ k ∈ k2s, k ∈ st.remaining.keys) (hne : k2s ≠ []) :
    ∃ q, pushCandidate cfg st k1 k2s = .ok { st with queue := st.queue ++ q } ∧ q ≠ [] ∧ ∀ c ∈ q, c ∈ candsOf cfg st k1 k2s := by
  obtain ⟨q, g1, g2⟩ := pushCandidate_ok cfg st h1 h2 hne
  refine ⟨q, g1, ?_, g2⟩
  rintro rfl
  unfold pushCandidate at g1
  have hmap : k2s.zipIdx.mapM (fun p => getCandidate cfg st (st.path ++ [[st.queue.length, p.2]]) k1 p.1) =
      .ok (k2s.zipIdx.map (fun p => candOf cfg st (st.path ++ [[st.queue.length, p.2]]) k1 p.1)) :=
    mapM_ok_map (fun p hp => getCandidate_eq cfg st _ h1 (h2 _ ((List.mem_zipIdx' hp).2 ▸ List.getElem_mem _)))
  rw [hmap] at g1
  simp only [bind, Except.bind] at g1
  rw [← candsOf] at g1
  have hlen : (candsOf cfg st k1 k2s).length = k2s.length := by simp [candsOf]
  have hpos : 0 < k2s.length := List.length_pos_iff.mpr hne
  split at g1
  · have := congrArg (fun e : Except PyErr GSt => match e with | .ok s => s.queue.length | .error _ => 0) g1
    simp only [pure, Except.pure, List.length_append, List.append_nil] at this
    omega
  · split at g1
    · cases g1
    · have := congrArg (fun e : Except PyErr GSt => match e with | .ok s => s.queue.length | .error _ => 0) g1
      simp [pure, Except.pure] at this

/-! ## The invariant -/

/-- Some candidate both of whose terms remain can be reached from `x`. -/
def Covered (out' : Finset Nat) (keys : List (Finset Nat)) (queue : List GCand) (x : Finset Nat) : Prop :=
  ∃ c ∈ queue, c.k1 ∈ keys ∧ c.k2 ∈ keys ∧ Relation.ReflTransGen (Link out' keys) x c.k1

structure GInv2 (cfg : GCfg) (ins : List (Finset Nat)) (out : Finset Nat) (st : GSt) : Prop where
  base : GInv cfg ins.length st
  tpre : TPre ins out cfg.output (Dict.vals st.remaining) st.next st.path
  approx : ∀ e ∈ st.remaining, Approx ins out e.1 (tagAt ins.length st.path e.2)
  refs : RefsOK cfg.output st
  cand : ∀ c ∈ st.queue, ResultOK cfg.output st.dimKeys c.k1 c.k2 c.k12

/-- Every term with a neighbour is covered. -/
def Cover (cfg : GCfg) (st : GSt) : Prop :=
  ∀ x ∈ st.remaining.keys, (∃ y ∈ st.remaining.keys, Adj cfg.output x y) → Covered cfg.output st.remaining.keys st.queue x

theorem GInv2.setQueue {st : GSt} (h : GInv2 cfg ins out st) {q : List GCand} (hq : ∀ c ∈ q, ResultOK cfg.output st.dimKeys c.k1 c.k2 c.k12) :
    GInv2 cfg ins out { st with queue := q } :=
  ⟨h.base.setQueue (fun c hc => (hq c hc).adj.1), h.tpre, h.approx, ⟨h.refs.two, h.refs.three⟩, hq⟩

theorem GInv2.push {st : GSt} (h : GInv2 cfg ins out st) {k1 : Finset Nat} {k2s : List (Finset Nat)} (h1 : k1 ∈ st.remaining.keys)
    (h2 : ∀ k ∈ k2s, k ∈ st.remaining.keys ∧ Adj cfg.output k1 k) (hne : k2s ≠ []) :
    ∃ q, pushCandidate cfg st k1 k2s = .ok { st with queue := st.queue ++ q } ∧ GInv2 cfg ins out { st with queue := st.queue ++ q } ∧ q ≠ [] ∧
      ∀ c ∈ q, ∃ k2 ∈ k2s, (c.k1 = k1 ∧ c.k2 = k2) ∨ (c.k1 = k2 ∧ c.k2 = k1) := by
  obtain ⟨q, g1, g0, g2⟩ := pushCandidate_some cfg st h1 (fun k hk => (h2 k hk).1) hne
  refine ⟨q, g1, h.setQueue ?_, g0, ?_⟩
  · intro c hc
    rcases List.mem_append.mp hc with hc | hc
    · exact h.cand c hc
    · obtain ⟨seed, k2, hk2, rfl⟩ := mem_candsOf (g2 c hc)
      exact candOf_ok h.refs (h2 k2 hk2).2
  · intro c hc
    obtain ⟨seed, k2, hk2, rfl⟩ := mem_candsOf (g2 c hc)
    exact ⟨k2, hk2, candOf_mem st seed k1 k2⟩

/-! ## The initial candidates -/

theorem initPush_cover (l : List (Finset Nat)) (hl : l.Nodup) {st : GSt} (h : GInv2 cfg ins out st) {d : Nat} (hd : d ∉ cfg.output)
    (hm : ∀ k ∈ l, k ∈ st.remaining.keys ∧ d ∈ k) :
    ∃ q, initPush cfg l st = .ok { st with queue := st.queue ++ q } ∧ GInv2 cfg ins out { st with queue := st.queue ++ q } ∧
      (2 ≤ l.length → q ≠ []) ∧ ∀ c ∈ q, c.k1 ∈ l ∧ c.k2 ∈ l := by
  induction l generalizing st with
  | nil => exact ⟨[], by simp [initPush], by simpa using h, by simp, by simp⟩
  | cons k1 ks ih =>
    cases ks with
    | nil => exact ⟨[], by simp [initPush], by simpa using h, by simp, by simp⟩
    | cons k2 ks =>
      rw [List.nodup_cons] at hl
      obtain ⟨q, g1, g2, g3, g4⟩ := h.push (k1 := k1) (k2s := k2 :: ks) (hm _ (by simp)).1
        (fun k hk => ⟨(hm k (List.mem_cons_of_mem _ hk)).1, fun e => hl.1 (e ▸ hk), d, hd, (hm k1 (by simp)).2,
          (hm k (List.mem_cons_of_mem _ hk)).2⟩) (by simp)
      obtain ⟨q', f1, f2, _, f4⟩ := ih hl.2 g2 (fun k hk => hm k (List.mem_cons_of_mem _ hk))
      refine ⟨q ++ q', ?_, ?_, ?_, ?_⟩
      · rw [initPush, g1]
        simp only [bind, Except.bind]
        rw [f1]
        simp
      · simpa using f2
      · intro _ h0
        exact g3 (List.append_eq_nil_iff.mp h0).1
      · intro c hc
        rcases List.mem_append.mp hc with hc | hc
        · obtain ⟨k, hk, hh | hh⟩ := g4 c hc
          · rw [hh.1, hh.2]; exact ⟨by simp, List.mem_cons_of_mem _ hk⟩
          · rw [hh.1, hh.2]; exact ⟨List.mem_cons_of_mem _ hk, by simp⟩
        · obtain ⟨a, b⟩ := f4 c hc
          exact ⟨List.mem_cons_of_mem _ a, List.mem_cons_of_mem _ b⟩

theorem initQueue_cover (ds : List Nat) {st : GSt} (h : GInv2 cfg ins out st) (hds : ∀ d ∈ ds, d ∉ cfg.output) :
    ∃ q, initQueue cfg ds st = .ok { st with queue := st.queue ++ q } ∧ GInv2 cfg ins out { st with queue := st.queue ++ q } ∧
      ∀ d ∈ ds, ∀ x ∈ st.remaining.keys, ∀ y ∈ st.remaining.keys, x ≠ y → d ∈ x → d ∈ y →
        ∃ c ∈ q, c.k1 ∈ st.remaining.keys ∧ c.k2 ∈ st.remaining.keys ∧ d ∈ c.k1 := by
  induction ds generalizing st with
  | nil => exact ⟨[], by simp [initQueue], by simpa using h, by simp⟩
  | cons d ds ih =>
    have hp := sortedKeys_perm st.remaining (st.dimKeys d)
    have hmem : ∀ k, k ∈ sortedKeys st.remaining (st.dimKeys d) ↔ k ∈ st.remaining.keys ∧ d ∈ k := by
      intro k
      rw [hp.mem_iff, List.mem_filter, decide_eq_true_eq, h.base.dims d k]
      have := hds d (by simp)
      tauto
    have hnd : (sortedKeys st.remaining (st.dimKeys d)).Nodup := hp.nodup_iff.mpr (h.base.keys.filter _)
    obtain ⟨q, g1, g2, g3, g4⟩ := initPush_cover (sortedKeys st.remaining (st.dimKeys d)) hnd h (hds d (by simp)) (fun k hk => (hmem k).mp hk)
    obtain ⟨q', f1, f2, f3⟩ := ih g2 (fun d' hd' => hds d' (by simp [hd']))
    refine ⟨q ++ q', ?_, by simpa using f2, ?_⟩
    · rw [initQueue, g1]
      simp only [bind, Except.bind]
      rw [f1]
      simp
    · intro d' hd' x hx y hy hxy hdx hdy
      rcases List.mem_cons.mp hd' with rfl | hd'
      · have hlen : 2 ≤ (sortedKeys st.remaining (st.dimKeys d')).length := by
          have h1 := (hmem x).mpr ⟨hx, hdx⟩
          have h2 := (hmem y).mpr ⟨hy, hdy⟩
          have : List.Subperm [x, y] (sortedKeys st.remaining (st.dimKeys d')) := by
            apply List.subperm_of_subset
            · simpa using hxy
            · intro a ha
              rcases List.mem_cons.mp ha with rfl | ha
              · exact h1
              · rw [List.mem_singleton] at ha; subst ha; exact h2
          simpa using this.length_le
        obtain ⟨c, hc⟩ := List.exists_mem_of_ne_nil q (g3 hlen)
        obtain ⟨a, b⟩ := g4 c hc
        exact ⟨c, by simp [hc], ((hmem _).mp a).1, ((hmem _).mp b).1, ((hmem _).mp a).2⟩
      · obtain ⟨c, hc, hh⟩ := f3 d' hd' x hx y hy hxy hdx hdy
        exact ⟨c, by simp [hc], hh⟩

/-- After the initial candidates every term with a neighbour is covered. -/
theorem cover_init {ds : List Nat} {st : GSt} (h : GInv2 cfg ins out st) (hds : ∀ d ∈ ds, d ∉ cfg.output)
    (hall : ∀ d k, d ∉ cfg.output → k ∈ st.remaining.keys → d ∈ k → d ∈ ds) :
    ∃ q, initQueue cfg ds st = .ok { st with queue := q } ∧ GInv2 cfg ins out { st with queue := q } ∧ Cover cfg { st with queue := q } := by
  obtain ⟨q, g1, g2, g3⟩ := initQueue_cover ds h hds
  refine ⟨_, g1, g2, ?_⟩
  rintro x hx ⟨y, hy, hxy, d, hd, hdx, hdy⟩
  obtain ⟨c, hc, c1, c2, c3⟩ := g3 d (hall d x hd hx hdx) x hx y hy hxy hdx hdy
  refine ⟨c, by simp [hc], c1, c2, ?_⟩
  by_cases e : x = c.k1
  · rw [e]
  · exact Relation.ReflTransGen.single ⟨hx, c1, e, d, hd, hdx, c3⟩

/-! ## Contracting -/

/-- What `contractKeys` does. -/
theorem contractKeys_form {st : GSt} (h : GInv cfg ins.length st) {k1 k2 k12 : Finset Nat} (hne : k1 ≠ k2)
    (h1 : k1 ∈ st.remaining.keys) (h2 : k2 ∈ st.remaining.keys) :
    ∃ st' a b, contractKeys cfg st k1 k2 k12 = .ok st' ∧ GInv cfg ins.length st' ∧ st'.queue = st.queue ∧
      st'.remaining.length < st.remaining.length ∧
      st.remaining.Perm ((k1, a) :: (k2, b) :: (st.remaining.del k1).del k2) ∧
      st'.ref2 = (updateRefs st'.dimKeys st.ref2 st.ref3 (k1 ∪ (k2 \ cfg.output))).1 ∧
      st'.ref3 = (updateRefs st'.dimKeys st.ref2 st.ref3 (k1 ∪ (k2 \ cfg.output))).2 ∧
      ((k12 ∉ ((st.remaining.del k1).del k2).keys ∧ st'.path = st.path ++ [[a, b]] ∧ st'.next = st.next + 1 ∧
          st'.remaining.Perm ((k12, st.next) :: (st.remaining.del k1).del k2)) ∨
        ∃ id, ((st.remaining.del k1).del k2).Perm ((k12, id) :: ((st.remaining.del k1).del k2).del k12) ∧
          st'.path = st.path ++ [[a, b]] ++ [[id, st.next]] ∧ st'.next = st.next + 2 ∧
          st'.remaining.Perm ((k12, st.next + 1) :: ((st.remaining.del k1).del k2).del k12)) := by
  obtain ⟨st', he, hinv, hk12, hlen, hq⟩ := contractKeys_inv h k12 hne h1 h2
  obtain ⟨a, ha, hpa⟩ := popKey_ok h1
  have hk1 := Dict.keys_del_nodup h.keys k1
  have h2' : k2 ∈ (st.remaining.del k1).keys := Dict.mem_keys_del.mpr ⟨h2, hne.symm⟩
  obtain ⟨b, hb, hpb⟩ := popKey_ok h2'
  have hk2 := Dict.keys_del_nodup hk1 k2
  obtain ⟨dk1, hd1, hok1⟩ := dimsOK_remove h.dims h1 (keys' := (st.remaining.del k1).keys) (fun k => Dict.mem_keys_del)
  obtain ⟨dk2, hd2, hok2⟩ := dimsOK_remove hok1 h2' (keys' := ((st.remaining.del k1).del k2).keys) (fun k => Dict.mem_keys_del)
  have hperm : st.remaining.Perm ((k1, a) :: (k2, b) :: (st.remaining.del k1).del k2) :=
    (Dict.perm_del h.keys ha).trans ((Dict.perm_del hk1 hb).cons _)
  refine ⟨st', a, b, he, hinv, hq, hlen, hperm, ?_⟩
  generalize hr : (st.remaining.del k1).del k2 = R at *
  unfold contractKeys at he
  rw [hpa] at he
  simp only [bind, Except.bind] at he
  rw [hpb] at he
  rw [hd1] at he
  simp only at he
  rw [hd2] at he
  simp only at he
  cases hg : R.get? k12 with
  | none =>
    have hn : k12 ∉ R.keys := Dict.get?_eq_none.mp hg
    rw [hg] at he
    cases he
    refine ⟨rfl, rfl, Or.inl ⟨hn, rfl, rfl, ?_⟩⟩
    have := Dict.perm_set hk2 k12 st.next
    rwa [Dict.del_of_notMem hn] at this
  | some id =>
    rw [hg] at he
    cases he
    exact ⟨rfl, rfl, Or.inr ⟨id, Dict.perm_del hk2 hg, rfl, rfl, Dict.perm_set hk2 k12 (st.next + 1)⟩⟩

theorem mem_keys_of_mem {d : Dict (Finset Nat) Nat} {e : Finset Nat × Nat} (h : e ∈ d) : e.1 ∈ d.keys := List.mem_map_of_mem h

/-- The remaining terms after a contraction. -/
theorem contract_keys {st st' : GSt} {a b : Nat} {k1 k2 k12 : Finset Nat}
    (hform : (k12 ∉ ((st.remaining.del k1).del k2).keys ∧ st'.path = st.path ++ [[a, b]] ∧ st'.next = st.next + 1 ∧
          st'.remaining.Perm ((k12, st.next) :: (st.remaining.del k1).del k2)) ∨
        ∃ id, ((st.remaining.del k1).del k2).Perm ((k12, id) :: ((st.remaining.del k1).del k2).del k12) ∧
          st'.path = st.path ++ [[a, b]] ++ [[id, st.next]] ∧ st'.next = st.next + 2 ∧
          st'.remaining.Perm ((k12, st.next + 1) :: ((st.remaining.del k1).del k2).del k12)) (k : Finset Nat) :
    k ∈ st'.remaining.keys ↔ k = k12 ∨ (k ∈ st.remaining.keys ∧ k ≠ k1 ∧ k ≠ k2) := by
  have hR : ∀ k, k ∈ ((st.remaining.del k1).del k2).keys ↔ k ∈ st.remaining.keys ∧ k ≠ k1 ∧ k ≠ k2 := by
    intro k
    rw [Dict.mem_keys_del, Dict.mem_keys_del]
    tauto
  have hcons : ∀ {d d' : Dict (Finset Nat) Nat} {v : Nat}, d.Perm ((k12, v) :: d') → (k ∈ d.keys ↔ k = k12 ∨ k ∈ d'.keys) := by
    intro d d' v hp
    have := (hp.map Prod.fst).mem_iff (a := k)
    simpa [Dict.keys] using this
  rcases hform with ⟨_, _, _, hp⟩ | ⟨id, _, _, _, hp⟩
  · rw [hcons hp, hR]
  · rw [hcons hp, Dict.mem_keys_del, hR]
    by_cases e : k = k12 <;> simp [e]

/-- Contracting does not raise the number of terms with a label. -/
theorem contract_card {st st' : GSt} {k1 k2 k12 : Finset Nat} (h : DimsOK cfg.output st.dimKeys st.remaining.keys)
    (h' : DimsOK cfg.output st'.dimKeys st'.remaining.keys) (h1 : k1 ∈ st.remaining.keys) (h2 : k2 ∈ st.remaining.keys) (hsub : k12 ⊆ k1 ∪ k2)
    (hk : ∀ k, k ∈ st'.remaining.keys ↔ k = k12 ∨ (k ∈ st.remaining.keys ∧ k ≠ k1 ∧ k ≠ k2)) (d : Nat) :
    (st'.dimKeys d).card ≤ (st.dimKeys d).card := by
  by_cases hd : d ∈ cfg.output ∨ d ∉ k12
  · apply Finset.card_le_card
    intro k hkm
    obtain ⟨a1, a2, a3⟩ := (h' d k).mp hkm
    rcases (hk k).mp a3 with rfl | ⟨a4, _, _⟩
    · rcases hd with hd | hd
      · exact absurd hd a1
      · exact absurd a2 hd
    · exact (h d k).mpr ⟨a1, a2, a4⟩
  · push Not at hd
    obtain ⟨hd1, hd2⟩ := hd
    obtain ⟨k0, hk0, hk0m, hdk0⟩ : ∃ k0, (k0 = k1 ∨ k0 = k2) ∧ k0 ∈ st.remaining.keys ∧ d ∈ k0 := by
      rcases Finset.mem_union.mp (hsub hd2) with hh | hh
      · exact ⟨k1, Or.inl rfl, h1, hh⟩
      · exact ⟨k2, Or.inr rfl, h2, hh⟩
    have hm0 : k0 ∈ st.dimKeys d := (h d k0).mpr ⟨hd1, hdk0, hk0m⟩
    have hsub' : st'.dimKeys d ⊆ insert k12 ((st.dimKeys d).erase k0) := by
      intro k hkm
      obtain ⟨a1, a2, a3⟩ := (h' d k).mp hkm
      rw [Finset.mem_insert, Finset.mem_erase]
      rcases (hk k).mp a3 with rfl | ⟨a4, a5, a6⟩
      · exact Or.inl rfl
      · refine Or.inr ⟨?_, (h d k).mpr ⟨a1, a2, a4⟩⟩
        rcases hk0 with rfl | rfl
        · exact a5
        · exact a6
    have c1 := Finset.card_le_card hsub'
    have c2 := Finset.card_insert_le k12 ((st.dimKeys d).erase k0)
    have c3 := Finset.card_erase_of_mem hm0
    have c4 : 0 < (st.dimKeys d).card := Finset.card_pos.mpr ⟨_, hm0⟩
    omega

theorem contract_refs {st st' : GSt} {k1 k2 k12 : Finset Nat} (h : DimsOK cfg.output st.dimKeys st.remaining.keys)
    (h' : DimsOK cfg.output st'.dimKeys st'.remaining.keys) (hsub : k12 ⊆ k1 ∪ k2)
    (hk : ∀ k, k ∈ st'.remaining.keys ↔ k = k12 ∨ (k ∈ st.remaining.keys ∧ k ≠ k1 ∧ k ≠ k2)) (hr : RefsOK cfg.output st)
    (e2 : st'.ref2 = (updateRefs st'.dimKeys st.ref2 st.ref3 (k1 ∪ (k2 \ cfg.output))).1)
    (e3 : st'.ref3 = (updateRefs st'.dimKeys st.ref2 st.ref3 (k1 ∪ (k2 \ cfg.output))).2) : RefsOK cfg.output st' := by
  have hsame : ∀ d, d ∉ k1 ∪ (k2 \ cfg.output) → d ∉ cfg.output → st'.dimKeys d = st.dimKeys d := by
    intro d hd hdo
    have hd1 : d ∉ k1 := fun hh => hd (by simp [hh])
    have hd2 : d ∉ k2 := fun hh => hd (by simp [hh, hdo])
    ext k
    rw [h' d k, h d k, hk]
    constructor
    · rintro ⟨a1, a2, rfl | a3⟩
      · exfalso
        rcases Finset.mem_union.mp (hsub a2) with hh | hh
        · exact hd1 hh
        · exact hd2 hh
      · exact ⟨a1, a2, a3.1⟩
    · rintro ⟨a1, a2, a3⟩
      refine ⟨a1, a2, Or.inr ⟨a3, ?_, ?_⟩⟩
      · rintro rfl; exact hd1 a2
      · rintro rfl; exact hd2 a2
  constructor
  · intro d hdo
    rw [e2, updateRefs]
    simp only [Finset.mem_union (s := st.ref2 \ _), Finset.mem_sdiff (s := st.ref2), Finset.mem_filter]
    by_cases hd : d ∈ k1 ∪ (k2 \ cfg.output)
    · simp [hd]
    · rw [hsame d hd hdo, ← hr.two d hdo]
      simp [hd]
  · intro d hdo
    rw [e3, updateRefs]
    simp only [Finset.mem_union (s := st.ref3 \ _), Finset.mem_sdiff (s := st.ref3), Finset.mem_filter]
    by_cases hd : d ∈ k1 ∪ (k2 \ cfg.output)
    · simp [hd]
    · rw [hsame d hd hdo, ← hr.three d hdo]
      simp [hd]

/-- Multiplying two tensors with the same key. -/
theorem merge_equal {out' : Finset Nat} {a b : Nat} {ids : List Nat} {next : Nat} {path : Path} {k : Finset Nat} (h : TPre ins out out' (a :: b :: ids) next path)
    (hA : Approx ins out k (tagAt ins.length path a)) (hB : Approx ins out k (tagAt ins.length path b)) :
    TPre ins out out' (next :: ids) (next + 1) (path ++ [[a, b]]) ∧ Approx ins out k (tagAt ins.length (path ++ [[a, b]]) next) := by
  have hpart := h.part
  simp only [List.map_cons] at hpart
  refine ⟨h.step (Or.inl ⟨_, _, rfl, Or.inl ?_⟩), ?_⟩
  · ext c
    constructor
    · intro hc
      exact (shared_term (out := out) hpart (termOf_subset_labels _ hc) (hB.2 (hA.1 hc))).2
    · intro hc
      exact (shared_term (out := out) hpart (hA.2 (hB.1 hc)) (termOf_subset_labels _ hc)).1
  · rw [h.new]
    constructor
    · intro c hc
      rcases (term_combine hpart hc).1 with hh | hh
      · exact hA.1 hh
      · exact hB.1 hh
    · rw [labels_combine]
      exact hA.2.trans Finset.subset_union_left

theorem contract_inv2 {st : GSt} (hsub : out ⊆ cfg.output) (h : GInv2 cfg ins out st) {k1 k2 k12 : Finset Nat}
    (hres : ResultOK cfg.output st.dimKeys k1 k2 k12) (h1 : k1 ∈ st.remaining.keys) (h2 : k2 ∈ st.remaining.keys) :
    ∃ st', contractKeys cfg st k1 k2 k12 = .ok st' ∧ GInv2 cfg ins out st' ∧ st'.queue = st.queue ∧
      st'.remaining.length < st.remaining.length ∧
      ∀ k, k ∈ st'.remaining.keys ↔ k = k12 ∨ (k ∈ st.remaining.keys ∧ k ≠ k1 ∧ k ≠ k2) := by
  obtain ⟨st', a, b, he, hinv, hq, hlen, hperm, e2, e3, hform⟩ := contractKeys_form (k12 := k12) h.base hres.adj.1 h1 h2
  have hk := contract_keys hform
  have hcard := contract_card h.base.dims hinv.dims h1 h2 hres.sub hk
  refine ⟨st', he, ?_, hq, hlen, hk⟩
  suffices hmain : TPre ins out cfg.output (Dict.vals st'.remaining) st'.next st'.path ∧
      ∀ e ∈ st'.remaining, Approx ins out e.1 (tagAt ins.length st'.path e.2) from
    ⟨hinv, hmain.1, hmain.2, contract_refs h.base.dims hinv.dims hres.sub hk h.refs e2 e3,
      fun c hc => (h.cand c (by rw [← hq]; exact hc)).mono hcard⟩
  -- the tensors before the step
  have hR : ∀ e ∈ (st.remaining.del k1).del k2, e ∈ st.remaining ∧ e.1 ≠ k1 ∧ e.1 ≠ k2 := by
    intro e hm
    have := mem_keys_of_mem hm
    rw [Dict.mem_keys_del, Dict.mem_keys_del] at this
    exact ⟨hperm.mem_iff.mpr (by simp [hm]), this.1.2, this.2⟩
  have hvals : (Dict.vals st.remaining).Perm (a :: b :: Dict.vals ((st.remaining.del k1).del k2)) := hperm.map Prod.snd
  have hpre := h.tpre.perm hvals
  have hA : Approx ins out k1 (tagAt ins.length st.path a) := h.approx (k1, a) (hperm.mem_iff.mpr (by simp))
  have hB : Approx ins out k2 (tagAt ins.length st.path b) := h.approx (k2, b) (hperm.mem_iff.mpr (by simp))
  generalize hRd : (st.remaining.del k1).del k2 = R at *
  have hpart := hpre.part
  simp only [List.map_cons] at hpart
  -- the step
  have hstep : TPre ins out cfg.output (st.next :: Dict.vals R) (st.next + 1) (st.path ++ [[a, b]]) := by
    apply hpre.step
    left
    refine ⟨_, _, rfl, Or.inr ?_⟩
    obtain ⟨_, d, hd, hd1, hd2⟩ := hres.adj
    have := shared_term (out := out) hpart (hA.2 hd1) (hB.2 hd2)
    exact ⟨d, hd, this.1, this.2⟩
  have hnew : tagAt ins.length (st.path ++ [[a, b]]) st.next = combineTag {tagAt ins.length st.path a, tagAt ins.length st.path b} := hpre.new
  have hnewA : Approx ins out k12 (tagAt ins.length (st.path ++ [[a, b]]) st.next) := by
    rw [hnew]
    constructor
    · intro c hc
      obtain ⟨hc1, hc2⟩ := term_combine hpart hc
      have hcu : c ∈ k1 ∪ k2 := by
        rw [Finset.mem_union]
        rcases hc1 with hc1 | hc1
        · exact Or.inl (hA.1 hc1)
        · exact Or.inr (hB.1 hc1)
      by_cases hco : c ∈ cfg.output
      · exact hres.outp c hcu hco
      rcases hc2 with hc2 | ⟨Z, hZ, hcZ⟩
      · exact absurd (hsub hc2) hco
      obtain ⟨i, hi, rfl⟩ := List.mem_map.mp hZ
      obtain ⟨e, hem, rfl⟩ := List.mem_map.mp hi
      obtain ⟨r1, r2, r3⟩ := hR e hem
      have hce : c ∈ e.1 := (h.approx e r1).1 hcZ
      have hme : e.1 ∈ st.dimKeys c := (h.base.dims c e.1).mpr ⟨hco, hce, mem_keys_of_mem r1⟩
      have hm1 : c ∈ k1 → k1 ∈ st.dimKeys c := fun hh => (h.base.dims c k1).mpr ⟨hco, hh, h1⟩
      have hm2 : c ∈ k2 → k2 ∈ st.dimKeys c := fun hh => (h.base.dims c k2).mpr ⟨hco, hh, h2⟩
      by_cases hboth : c ∈ k1 ∧ c ∈ k2
      · apply hres.two c hco hboth.1 hboth.2
        have : ({k1, k2, e.1} : Finset (Finset Nat)) ⊆ st.dimKeys c := by
          intro z hz
          simp only [Finset.mem_insert, Finset.mem_singleton] at hz
          rcases hz with rfl | rfl | rfl
          · exact hm1 hboth.1
          · exact hm2 hboth.2
          · exact hme
        have hc3 : ({k1, k2, e.1} : Finset (Finset Nat)).card = 3 :=
          Finset.card_eq_three.mpr ⟨k1, k2, e.1, hres.adj.1, fun h => r2 h.symm, fun h => r3 h.symm, rfl⟩
        have := Finset.card_le_card this
        omega
      · apply hres.one c hco hcu hboth
        obtain ⟨k0, hk0, hk0m⟩ : ∃ k0, (k0 = k1 ∨ k0 = k2) ∧ k0 ∈ st.dimKeys c := by
          rcases Finset.mem_union.mp hcu with hh | hh
          · exact ⟨k1, Or.inl rfl, hm1 hh⟩
          · exact ⟨k2, Or.inr rfl, hm2 hh⟩
        have hne0 : k0 ≠ e.1 := by
          rcases hk0 with rfl | rfl
          · exact fun h => r2 h.symm
          · exact fun h => r3 h.symm
        exact Finset.one_lt_card.mpr ⟨k0, hk0m, e.1, hme, hne0⟩
    · rw [labels_combine]
      exact hres.sub.trans (Finset.union_subset_union hA.2 hB.2)
  have hoth : ∀ e ∈ R, Approx ins out e.1 (tagAt ins.length (st.path ++ [[a, b]]) e.2) := by
    intro e hem
    rw [hpre.old (hpre.lt e.2 (by simp [Dict.vals]; exact Or.inr (Or.inr ⟨e.1, hem⟩)))]
    exact h.approx e (hR e hem).1
  rcases hform with ⟨_, ep, en, hp⟩ | ⟨id, hpid, ep, en, hp⟩
  · rw [ep, en]
    refine ⟨hstep.perm (hp.map Prod.snd).symm, ?_⟩
    intro e hem
    rcases List.mem_cons.mp (hp.mem_iff.mp hem) with rfl | hem
    · exact hnewA
    · exact hoth e hem
  · rw [ep, en]
    have hpre2 : TPre ins out cfg.output (id :: st.next :: Dict.vals (R.del k12)) (st.next + 1) (st.path ++ [[a, b]]) := by
      refine hstep.perm ?_
      exact ((hpid.map Prod.snd).cons _).trans (List.Perm.swap _ _ _)
    have hI : Approx ins out k12 (tagAt ins.length (st.path ++ [[a, b]]) id) := hoth (k12, id) (hpid.mem_iff.mpr (by simp))
    obtain ⟨hstep2, hap2⟩ := merge_equal hpre2 hI hnewA
    refine ⟨hstep2.perm (hp.map Prod.snd).symm, ?_⟩
    intro e hem
    rcases List.mem_cons.mp (hp.mem_iff.mp hem) with rfl | hem
    · exact hap2
    · rw [hpre2.old (hpre2.lt e.2 (by simp [Dict.vals]; exact Or.inr (Or.inr ⟨e.1, hem⟩)))]
      exact hoth e (hpid.mem_iff.mpr (by simp [hem]))

/-! ## The main loop -/

/-- A chooser that forgets only what it chooses and what can no longer be contracted. -/
def ChooserFair (ch : Chooser) : Prop :=
  ChooserOK ch ∧ ∀ path queue remaining, queue ≠ [] → ∀ c ∈ queue, c.k1 ∈ Dict.keys remaining → c.k2 ∈ Dict.keys remaining →
    c ∈ (ch path queue remaining).2 ∨ (ch path queue remaining).1 = some c

theorem simpleChooser_fair : ChooserFair simpleChooser := by
  refine ⟨simpleChooser_ok, ?_⟩
  intro path queue remaining hq c hc h1 h2
  obtain ⟨c0, r, hc0⟩ := popMin_ne_none (le := GCand.le) hq
  have hp := popMin_perm hc0
  unfold simpleChooser
  rw [hc0]
  simp only
  rcases List.mem_cons.mp (hp.mem_iff.mp hc) with rfl | hm
  · rw [if_pos ⟨Dict.has_iff.mpr h1, Dict.has_iff.mpr h2⟩]
    exact Or.inr rfl
  · split
    · exact Or.inl hm
    · exact Or.inl hm

theorem thermal_fair (nbranch : Nat) (hb : 0 < nbranch) {pick : Path → List ℚ → Nat} (hpick : PickOK pick) :
    ChooserFair (thermalChooser nbranch pick) := by
  refine ⟨thermal_ok nbranch hb hpick, ?_⟩
  intro path queue remaining hq c hc h1 h2
  obtain ⟨g1, g2, _⟩ := C49_thermal_chooser nbranch hb hpick path queue remaining
  cases hr : (thermalChooser nbranch pick path queue remaining).1 with
  | none => exact absurd ⟨h1, h2⟩ (g2 hr c hc)
  | some c0 =>
    obtain ⟨_, _, _, hp, _⟩ := g1 c0 hr
    have hm : c ∈ queue.filter (fun x => decide (x.k1 ∈ remaining.keys ∧ x.k2 ∈ remaining.keys)) :=
      List.mem_filter.mpr ⟨hc, by simpa using ⟨h1, h2⟩⟩
    rcases List.mem_cons.mp (hp.mem_iff.mp hm) with rfl | hm
    · exact Or.inr rfl
    · exact Or.inl (List.mem_filter.mp hm).1

theorem pushNew_cover {order : GOrder} (ho : GOrderOK order) {st : GSt} (h : GInv2 cfg ins out st) {k1 : Finset Nat} (h1 : k1 ∈ st.remaining.keys) :
    ∃ q, pushNew cfg order st k1 = .ok { st with queue := st.queue ++ q } ∧ GInv2 cfg ins out { st with queue := st.queue ++ q } ∧
      ((∃ y ∈ st.remaining.keys, Adj cfg.output k1 y) → ∃ c ∈ q, c.k1 ∈ st.remaining.keys ∧ c.k2 ∈ st.remaining.keys ∧
        Relation.ReflTransGen (Link cfg.output st.remaining.keys) k1 c.k1) := by
  have hmem : ∀ k, k ∈ (k1.biUnion st.dimKeys).erase k1 ↔ k ∈ st.remaining.keys ∧ Adj cfg.output k1 k := by
    intro k
    rw [Finset.mem_erase, Finset.mem_biUnion]
    constructor
    · rintro ⟨hne, d, hd, hk⟩
      obtain ⟨a1, a2, a3⟩ := (h.base.dims d k).mp hk
      exact ⟨a3, fun e => hne e.symm, d, a1, hd, a2⟩
    · rintro ⟨a3, hne, d, a1, hd, a2⟩
      exact ⟨fun e => hne e.symm, d, hd, (h.base.dims d k).mpr ⟨a1, a2, a3⟩⟩
  unfold pushNew
  simp only
  split
  · rename_i hk
    refine ⟨[], by simp, by simpa using h, ?_⟩
    rintro ⟨y, hy, hadj⟩
    have := (hmem y).mpr ⟨hy, hadj⟩
    rw [hk] at this
    simp at this
  · rename_i hk
    obtain ⟨q, g1, g2, g3, g4⟩ := h.push (k1 := k1) (k2s := order.keys st.path ((k1.biUnion st.dimKeys).erase k1)) h1
      (fun k hk' => (hmem k).mp (((ho.2 _ _).2 k).mp hk'))
      (by
        intro h0
        apply hk
        ext x
        have := (ho.2 st.path ((k1.biUnion st.dimKeys).erase k1)).2 x
        rw [h0] at this
        simpa using this)
    refine ⟨q, g1, g2, fun _ => ?_⟩
    obtain ⟨c, hc⟩ := List.exists_mem_of_ne_nil q g3
    obtain ⟨k2, hk2, hh⟩ := g4 c hc
    obtain ⟨m1, m2⟩ := (hmem k2).mp (((ho.2 _ _).2 k2).mp hk2)
    refine ⟨c, hc, ?_⟩
    rcases hh with ⟨e1, e2⟩ | ⟨e1, e2⟩
    · rw [e1, e2]; exact ⟨h1, m1, Relation.ReflTransGen.refl⟩
    · rw [e1, e2]; exact ⟨m1, h1, Relation.ReflTransGen.single ⟨h1, m1, m2⟩⟩

/-- Neighbours stay neighbours of the product. -/
theorem link_contract {st : GSt} {keys' : List (Finset Nat)} (hd : DimsOK cfg.output st.dimKeys st.remaining.keys) {k1 k2 k12 : Finset Nat}
    (hres : ResultOK cfg.output st.dimKeys k1 k2 k12) (h1 : k1 ∈ st.remaining.keys) (h2 : k2 ∈ st.remaining.keys)
    (hk : ∀ k, k ∈ keys' ↔ k = k12 ∨ (k ∈ st.remaining.keys ∧ k ≠ k1 ∧ k ≠ k2)) {a b : Finset Nat} (hab : Link cfg.output st.remaining.keys a b) :
    Relation.ReflTransGen (Link cfg.output keys') (if a = k1 ∨ a = k2 then k12 else a) (if b = k1 ∨ b = k2 then k12 else b) := by
  -- a label that a third term shares is kept
  have key : ∀ a b d, (a = k1 ∨ a = k2) → ¬ (b = k1 ∨ b = k2) → b ∈ st.remaining.keys → d ∉ cfg.output → d ∈ a → d ∈ b → d ∈ k12 := by
    intro a b d ha hb hbm hdo hda hdb
    have hbk : b ∈ st.dimKeys d := (hd d b).mpr ⟨hdo, hdb, hbm⟩
    have hm1 : d ∈ k1 → k1 ∈ st.dimKeys d := fun hh => (hd d k1).mpr ⟨hdo, hh, h1⟩
    have hm2 : d ∈ k2 → k2 ∈ st.dimKeys d := fun hh => (hd d k2).mpr ⟨hdo, hh, h2⟩
    by_cases hboth : d ∈ k1 ∧ d ∈ k2
    · apply hres.two d hdo hboth.1 hboth.2
      have : ({k1, k2, b} : Finset (Finset Nat)) ⊆ st.dimKeys d := by
        intro z hz
        simp only [Finset.mem_insert, Finset.mem_singleton] at hz
        rcases hz with rfl | rfl | rfl
        · exact hm1 hboth.1
        · exact hm2 hboth.2
        · exact hbk
      have hc3 : ({k1, k2, b} : Finset (Finset Nat)).card = 3 :=
        Finset.card_eq_three.mpr ⟨k1, k2, b, hres.adj.1, fun h => hb (Or.inl h.symm), fun h => hb (Or.inr h.symm), rfl⟩
      have := Finset.card_le_card this
      omega
    · refine hres.one d hdo ?_ hboth ?_
      · rw [Finset.mem_union]
        rcases ha with rfl | rfl
        · exact Or.inl hda
        · exact Or.inr hda
      · refine Finset.one_lt_card.mpr ⟨a, ?_, b, hbk, fun e => hb (e ▸ ha)⟩
        rcases ha with rfl | rfl
        · exact hm1 hda
        · exact hm2 hda
  have hin : ∀ x, x ∈ st.remaining.keys → ¬ (x = k1 ∨ x = k2) → x ∈ keys' := by
    intro x hx hn
    rw [not_or] at hn
    exact (hk x).mpr (Or.inr ⟨hx, hn.1, hn.2⟩)
  have h12 : k12 ∈ keys' := (hk k12).mpr (Or.inl rfl)
  obtain ⟨ham, hbm, hne, d, hdo, hda, hdb⟩ := hab
  by_cases ha : a = k1 ∨ a = k2
  · rw [if_pos ha]
    by_cases hb : b = k1 ∨ b = k2
    · rw [if_pos hb]
    · rw [if_neg hb]
      by_cases e : k12 = b
      · rw [e]
      · exact Relation.ReflTransGen.single ⟨h12, hin b hbm hb, e, d, hdo, key a b d ha hb hbm hdo hda hdb, hdb⟩
  · rw [if_neg ha]
    by_cases hb : b = k1 ∨ b = k2
    · rw [if_pos hb]
      by_cases e : a = k12
      · rw [e]
      · exact Relation.ReflTransGen.single ⟨hin a ham ha, h12, e, d, hdo, hda, key b a d hb ha ham hdo hdb hda⟩
    · rw [if_neg hb]
      exact Relation.ReflTransGen.single ⟨hin a ham ha, hin b hbm hb, hne, d, hdo, hda, hdb⟩

theorem greedyStep_cover {chooser : Chooser} {order : GOrder} (hc : ChooserFair chooser) (ho : GOrderOK order) (hsub : out ⊆ cfg.output)
    {st : GSt} (h : GInv2 cfg ins out st) (hcov : Cover cfg st) (hq : st.queue ≠ []) :
    ∃ st', greedyStep cfg chooser order st = .ok st' ∧ GInv2 cfg ins out st' ∧ Cover cfg st' := by
  obtain ⟨_, c2, c3⟩ := hc.1 st.path st.queue st.remaining hq
  have c4 := hc.2 st.path st.queue st.remaining hq
  unfold greedyStep
  generalize chooser st.path st.queue st.remaining = r at *
  obtain ⟨r, q⟩ := r
  have hq' : ∀ c ∈ q, ResultOK cfg.output st.dimKeys c.k1 c.k2 c.k12 := fun c hc => h.cand c (c2 c hc)
  cases r with
  | none =>
    refine ⟨_, rfl, h.setQueue hq', ?_⟩
    intro x hx hy
    obtain ⟨c, m1, m2, m3, m4⟩ := hcov x hx hy
    rcases c4 c m1 m2 m3 with h' | h'
    · exact ⟨c, h', m2, m3, m4⟩
    · cases h'
  | some c =>
    obtain ⟨d1, d2, d3⟩ := c3 c rfl
    have hres := h.cand c d1
    obtain ⟨st1, e1, e2, e3, _, hk⟩ := contract_inv2 hsub (h.setQueue hq') hres d2 d3
    have h12 : c.k12 ∈ st1.remaining.keys := (hk _).mpr (Or.inl rfl)
    obtain ⟨q2, f1, f2, f3⟩ := pushNew_cover ho e2 h12
    refine ⟨_, by simp only [e1, bind, Except.bind]; exact f1, f2, ?_⟩
    simp only at hk
    have hf : ∀ {x y}, Relation.ReflTransGen (Link cfg.output st.remaining.keys) x y →
        Relation.ReflTransGen (Link cfg.output st1.remaining.keys) (if x = c.k1 ∨ x = c.k2 then c.k12 else x)
          (if y = c.k1 ∨ y = c.k2 then c.k12 else y) := by
      intro x y hxy
      induction hxy with
      | refl => exact Relation.ReflTransGen.refl
      | tail _ hl ih => exact ih.trans (link_contract h.base.dims hres d2 d3 hk hl)
    -- whatever reaches the product is covered
    have hreach : ∀ x, Relation.ReflTransGen (Link cfg.output st1.remaining.keys) x c.k12 →
        (∃ y ∈ st1.remaining.keys, Adj cfg.output c.k12 y) → Covered cfg.output st1.remaining.keys (st1.queue ++ q2) x := by
      intro x hx hy
      obtain ⟨c', m1, m2, m3, m4⟩ := f3 hy
      exact ⟨c', by simp [m1], m2, m3, hx.trans m4⟩
    rintro x hx ⟨y, hy, hxy⟩
    simp only at hx hy ⊢
    rcases (hk x).mp hx with rfl | ⟨hx1, hx2, hx3⟩
    · exact hreach _ Relation.ReflTransGen.refl ⟨y, hy, hxy⟩
    · have hnb : ∃ y ∈ st.remaining.keys, Adj cfg.output x y := by
        rcases (hk y).mp hy with rfl | ⟨hy1, _, _⟩
        · obtain ⟨_, d, hd, hdx, hdy⟩ := hxy
          rcases Finset.mem_union.mp (hres.sub hdy) with hh | hh
          · exact ⟨c.k1, d2, hx2, d, hd, hdx, hh⟩
          · exact ⟨c.k2, d3, hx3, d, hd, hdx, hh⟩
        · exact ⟨y, hy1, hxy⟩
      obtain ⟨c0, m1, m2, m3, m4⟩ := hcov x hx1 hnb
      have hx' := hf m4
      rw [if_neg (by rw [not_or]; exact ⟨hx2, hx3⟩)] at hx'
      by_cases hc1 : c0.k1 = c.k1 ∨ c0.k1 = c.k2
      · rw [if_pos hc1] at hx'
        apply hreach x hx'
        by_cases e : x = c.k12
        · rw [← e]; exact ⟨y, hy, hxy⟩
        · rcases Relation.ReflTransGen.cases_tail hx' with e' | ⟨z, _, hz⟩
          · exact absurd e'.symm e
          · exact ⟨z, hz.1, hz.2.2.symm⟩
      · by_cases hc2 : c0.k2 = c.k1 ∨ c0.k2 = c.k2
        · have hx2' := hx'.trans (link_contract h.base.dims hres d2 d3 hk (a := c0.k1) (b := c0.k2) ⟨m2, m3, (h.cand c0 m1).adj⟩)
          rw [if_pos hc2] at hx2'
          apply hreach x hx2'
          by_cases e : x = c.k12
          · rw [← e]; exact ⟨y, hy, hxy⟩
          · rcases Relation.ReflTransGen.cases_tail hx2' with e' | ⟨z, _, hz⟩
            · exact absurd e'.symm e
            · exact ⟨z, hz.1, hz.2.2.symm⟩
        · rw [if_neg hc1] at hx'
          rw [not_or] at hc1 hc2
          refine ⟨c0, ?_, (hk _).mpr (Or.inr ⟨m2, hc1⟩), (hk _).mpr (Or.inr ⟨m3, hc2⟩), hx'⟩
          rcases c4 c0 m1 m2 m3 with h' | h'
          · rw [e3]; exact List.mem_append_left _ h'
          · cases h'
            exact absurd rfl hc1.1

theorem greedyLoop_cover {chooser : Chooser} {order : GOrder} (hc : ChooserFair chooser) (ho : GOrderOK order) (hsub : out ⊆ cfg.output)
    (fuel : Nat) {st st' : GSt} (h : GInv2 cfg ins out st) (hcov : Cover cfg st) (hrun : greedyLoop cfg chooser order fuel st = some (.ok st')) :
    GInv2 cfg ins out st' ∧ Cover cfg st' ∧ st'.queue = [] := by
  induction fuel generalizing st with
  | zero =>
    rw [greedyLoop.eq_def] at hrun
    simp only at hrun
    split at hrun
    · rename_i h0
      cases hrun
      exact ⟨h, hcov, h0⟩
    · cases hrun
  | succ fuel ih =>
    rw [greedyLoop.eq_def] at hrun
    simp only at hrun
    split at hrun
    · rename_i h0
      cases hrun
      exact ⟨h, hcov, h0⟩
    · rename_i h0
      obtain ⟨st1, g1, g2, g3⟩ := greedyStep_cover hc ho hsub h hcov h0
      rw [g1] at hrun
      exact ih g2 g3 hrun

/-! ## The outer products -/

theorem noShare_of_cover {st : GSt} (h : GInv2 cfg ins out st) (hcov : Cover cfg st) (hq : st.queue = []) :
    NoShare ins cfg.output ((Dict.vals st.remaining).map (tagAt ins.length st.path)) := by
  have hpart := h.tpre.part
  have hkeys : st.remaining.Pairwise (fun a b => a.1 ≠ b.1) := by
    have := h.base.keys
    unfold Dict.keys List.Nodup at this
    rwa [List.pairwise_map] at this
  have hdisj : st.remaining.Pairwise (fun a b => Disjoint (tagAt ins.length st.path a.2).1 (tagAt ins.length st.path b.2).1) := by
    have := hpart.disj
    unfold Dict.vals at this
    rwa [List.map_map, List.map_map, List.pairwise_map] at this
  unfold NoShare Dict.vals
  rw [List.map_map, List.pairwise_map]
  refine (hkeys.and hdisj).imp_of_mem ?_
  rintro a b ha hb ⟨hne, hd⟩ c hc h1 h2
  obtain ⟨i, hi, hci⟩ := mem_labels.mp h1
  obtain ⟨j, hj, hcj⟩ := mem_labels.mp h2
  have hmemA : tagAt ins.length st.path a.2 ∈ (Dict.vals st.remaining).map (tagAt ins.length st.path) :=
    List.mem_map_of_mem (List.mem_map_of_mem ha)
  have hmemB : tagAt ins.length st.path b.2 ∈ (Dict.vals st.remaining).map (tagAt ins.length st.path) :=
    List.mem_map_of_mem (List.mem_map_of_mem hb)
  have t1 : c ∈ a.1 := (h.approx a ha).1 (mem_termOf ⟨i, hi, hci⟩
    (Or.inr ⟨j, hpart.mem_lt hmemB hj, fun hj' => Finset.disjoint_left.mp hd hj' hj, hcj⟩))
  have t2 : c ∈ b.1 := (h.approx b hb).1 (mem_termOf ⟨j, hj, hcj⟩
    (Or.inr ⟨i, hpart.mem_lt hmemA hi, fun hi' => Finset.disjoint_left.mp hd hi hi', hci⟩))
  obtain ⟨c0, m, _⟩ := hcov a.1 (mem_keys_of_mem ha) ⟨b.1, mem_keys_of_mem hb, hne, c, hc, t1, t2⟩
  rw [hq] at m
  cases m

theorem finalLoop_trace (k : Nat) (cur : FEntry) (q : List FEntry) (next : Nat) (path : Path)
    (hp : TPre ins out cfg.output ((cur :: q).map FEntry.id) next path)
    (hn : NoShare ins cfg.output (((cur :: q).map FEntry.id).map (tagAt ins.length path))) :
    GTr ins out cfg.output (Multiset.ofList (tags ins.length)) (ssaTrace combineTag (tags ins.length) (finalLoop cfg k cur q next path)) := by
  have hdone : GTr ins out cfg.output (Multiset.ofList (tags ins.length)) (ssaTrace combineTag (tags ins.length) path) := by
    have := hp.tr [] trivial
    rwa [List.append_nil] at this
  induction k generalizing cur q next path with
  | zero => exact hdone
  | succ k ih =>
    simp only [finalLoop]
    cases he : popMin FEntry.le q with
    | none => exact hdone
    | some eq1 =>
      obtain ⟨e, q1⟩ := eq1
      have hp1 := popMin_perm he
      simp only
      generalize hnew : ({ cost := _, id := next, key := _ } : FEntry) = new
      have hid : new.id = next := by rw [← hnew]
      obtain ⟨cur', q2, he2⟩ := popMin_ne_none (le := FEntry.le) (l := new :: q1) (by simp)
      have hp2 := popMin_perm he2
      simp only [he2]
      have hpermS : ((cur :: q).map FEntry.id).Perm (min cur.id e.id :: max cur.id e.id :: q1.map FEntry.id) := by
        refine ((hp1.cons cur).map FEntry.id).trans ?_
        simp only [List.map_cons]
        rcases le_total cur.id e.id with hle | hle
        · rw [min_eq_left hle, max_eq_right hle]
        · rw [min_eq_right hle, max_eq_left hle]
          exact List.Perm.swap _ _ _
      have s1 := hp.perm hpermS
      have n1 := hn.perm (hpermS.map (tagAt ins.length path))
      have s2 := s1.step (n1.stepOK _)
      have hids : (next :: q1.map FEntry.id).Perm ((cur' :: q2).map FEntry.id) := by
        have := hp2.map FEntry.id
        rwa [List.map_cons, hid] at this
      have s3 := s2.perm hids
      refine ih _ _ _ _ s3 ?_ (by have := s3.tr [] trivial; rwa [List.append_nil] at this)
      refine NoShare.perm ?_ (hids.map _)
      rw [List.map_cons, s1.new]
      have hold : (q1.map FEntry.id).map (tagAt ins.length (path ++ [[min cur.id e.id, max cur.id e.id]])) =
          (q1.map FEntry.id).map (tagAt ins.length path) :=
        List.map_congr_left (fun i hi => s1.old (s1.lt i (by simp only [List.mem_cons]; exact Or.inr (Or.inr hi))) _)
      rw [hold]
      exact NoShare.step n1

/-! ## The start -/

theorem ssaStore_input {n j : Nat} (hj : j < n) (path : Path) : (ssaStore combineTag (tags n) path)[j]? = some ({j}, false) := by
  have : ∀ (p : Path) (l : List Tag), j < l.length → (ssaStore combineTag l p)[j]? = l[j]? := by
    intro p
    induction p with
    | nil => intro l _; rfl
    | cons a t ih =>
      intro l hl
      rw [ssaStore, ih _ (by simp; omega), List.getElem?_append_left hl]
  rw [this path (tags n) (by rw [tags_length]; exact hj)]
  exact tags_get.mpr ⟨hj, rfl⟩

theorem approx_input {j : Nat} (hj : j < ins.length) (path : Path) : Approx ins out (ins.getD j ∅) (tagAt ins.length path j) := by
  unfold tagAt
  rw [ssaStore_input hj]
  have : labels ins {j} = ins.getD j ∅ := by
    ext c; simp [mem_labels]
  constructor
  · simp only [Option.getD_some, termOf, Bool.false_eq_true, if_false]
    rw [this]
  · simp only [Option.getD_some]
    rw [this]

theorem dedup_inv2 {out' : Finset Nat} (ks : List (Finset Nat)) (i : Nat) (st : GSt) (hk : st.remaining.keys.Nodup)
    (hks : ∀ (m : Nat) (k : Finset Nat), ks[m]? = some k → i + m < ins.length ∧ ins.getD (i + m) ∅ = k)
    (hp : TPre ins out out' (Dict.vals st.remaining ++ List.range' i ks.length) st.next st.path)
    (ha : ∀ e ∈ st.remaining, Approx ins out e.1 (tagAt ins.length st.path e.2)) :
    TPre ins out out' (Dict.vals (dedupLoop ks i st).remaining) (dedupLoop ks i st).next (dedupLoop ks i st).path ∧
    ∀ e ∈ (dedupLoop ks i st).remaining, Approx ins out e.1 (tagAt ins.length (dedupLoop ks i st).path e.2) := by
  induction ks generalizing i st with
  | nil => exact ⟨by simpa [dedupLoop] using hp, ha⟩
  | cons key ks ih =>
    simp only [dedupLoop]
    have h0 := hks 0 key rfl
    rw [Nat.add_zero] at h0
    have hin : Approx ins out key (tagAt ins.length st.path i) := by
      rw [← h0.2]; exact approx_input h0.1 _
    have hks' : ∀ (m : Nat) (k : Finset Nat), ks[m]? = some k → i + 1 + m < ins.length ∧ ins.getD (i + 1 + m) ∅ = k := by
      intro m k hm
      have := hks (m + 1) k (by simpa using hm)
      rwa [show i + (m + 1) = i + 1 + m by omega] at this
    rw [List.length_cons, List.range'_succ] at hp
    cases hg : st.remaining.get? key with
    | none =>
      have hstep : dedupStep st key i = { st with remaining := st.remaining.set key i } := by
        unfold dedupStep; rw [hg]
      rw [hstep]
      apply ih (i + 1) _ (Dict.keys_set_nodup hk _ _) hks'
      · simp only
        rw [Dict.set_of_notMem (Dict.get?_eq_none.mp hg)]
        simpa [Dict.vals] using hp
      · simp only
        rw [Dict.set_of_notMem (Dict.get?_eq_none.mp hg)]
        intro e he
        rcases List.mem_append.mp he with he | he
        · exact ha e he
        · rw [List.mem_singleton] at he
          subst he
          exact hin
    | some id =>
      have hstep : dedupStep st key i =
          { st with path := st.path ++ [[id, i]], remaining := st.remaining.set key st.next, next := st.next + 1 } := by
        unfold dedupStep; rw [hg]
      rw [hstep]
      have h1 : ((Dict.vals st.remaining) ++ i :: List.range' (i + 1) ks.length).Perm
          (id :: i :: (Dict.vals (st.remaining.del key) ++ List.range' (i + 1) ks.length)) := by
        refine (((Dict.perm_del hk hg).map Prod.snd).append_right _).trans ?_
        simp only [List.map_cons, List.cons_append]
        refine List.Perm.cons _ ?_
        exact List.perm_middle
      have hp1 := hp.perm h1
      have hpd := Dict.perm_del hk hg
      obtain ⟨m1, m2⟩ := merge_equal hp1 (ha (key, id) (hpd.mem_iff.mpr (by simp))) hin
      have hps := Dict.perm_set hk key st.next
      apply ih (i + 1) _ (Dict.keys_set_nodup hk _ _) hks'
      · exact m1.perm ((hps.map Prod.snd).append_right _).symm
      · intro e he
        rcases List.mem_cons.mp (hps.mem_iff.mp he) with rfl | he
        · exact m2
        · simp only
          rw [hp1.old (hp1.lt e.2 (by
            simp only [List.mem_cons, List.mem_append, Dict.vals, List.mem_map]
            exact Or.inr (Or.inr (Or.inl ⟨e, he, rfl⟩))))]
          exact ha e (hpd.mem_iff.mpr (by simp [he]))

theorem mem_foldl_dims {output : Finset Nat} (l : List (Finset Nat)) (s : Finset Nat) (d : Nat) :
    d ∈ l.foldl (fun s key => s ∪ key \ output) s ↔ d ∈ s ∨ ∃ k ∈ l, d ∈ k ∧ d ∉ output := by
  induction l generalizing s with
  | nil => simp
  | cons k l ih =>
    rw [List.foldl_cons, ih, Finset.mem_union, Finset.mem_sdiff]
    simp only [List.mem_cons, exists_eq_or_imp]
    tauto

theorem greedyStart_inv2 (hne : ins ≠ []) : GInv2 cfg ins out (greedyStart cfg.output ins) := by
  have hbase := greedyStart_inv (cfg := cfg) cfg.output ins hne rfl
  have h0 : Dict.keys ([] : Dict (Finset Nat) Nat) = [] := rfl
  have hd := dedup_inv2 (ins := ins) (out := out) (out' := cfg.output) ins 0
    { remaining := [], dimKeys := fun _ => ∅, ref2 := ∅, ref3 := ∅, queue := [], path := [], next := ins.length }
    (by simp [Dict.keys]) (by
      intro m k hm
      obtain ⟨hlt, rfl⟩ := List.getElem?_eq_some_iff.mp hm
      rw [Nat.zero_add]
      exact ⟨hlt, by simp [List.getD_eq_getElem?_getD, hlt]⟩) (by
      simp only [Dict.vals, List.map_nil, List.nil_append]
      rw [← List.range_eq_range']
      exact tPre_nil) (by simp)
  refine ⟨hbase, hd.1, hd.2, ?_, ?_⟩
  · have hdims := hbase.dims
    have hmem : ∀ d, d ∉ cfg.output → ((greedyStart cfg.output ins).dimKeys d).Nonempty →
        d ∈ ((greedyStart cfg.output ins).remaining.keys.foldl (fun s key => s ∪ key \ cfg.output) ∅ : Finset Nat) := by
      rintro d hd ⟨k, hk⟩
      obtain ⟨a1, a2, a3⟩ := (hdims d k).mp hk
      rw [mem_foldl_dims]
      exact Or.inr ⟨k, a3, a2, a1⟩
    constructor
    · intro d hd
      have hm := hmem d hd
      simp only [greedyStart] at hm ⊢
      simp only [Finset.mem_sdiff, Finset.mem_filter]
      constructor
      · exact fun h => h.1.2
      · intro h2
        exact ⟨⟨hm (Finset.card_pos.mp (by omega)), h2⟩, hd⟩
    · intro d hd
      have hm := hmem d hd
      simp only [greedyStart] at hm ⊢
      simp only [Finset.mem_sdiff, Finset.mem_filter]
      constructor
      · exact fun h => h.1.2
      · intro h2
        exact ⟨⟨hm (Finset.card_pos.mp (by omega)), h2⟩, hd⟩
  · obtain ⟨_, _, h3, _, _⟩ := dedup_inv (n := ins.length) ins 0
      { remaining := [], dimKeys := fun _ => ∅, ref2 := ∅, ref3 := ∅, queue := [], path := [], next := ins.length }
      (by simp [Dict.keys]) (by
        simp only [Dict.vals, List.map_nil, List.nil_append]
        rw [← List.range_eq_range']
        exact prefix_nil _)
    intro c hc
    have : (greedyStart cfg.output ins).queue = [] := h3
    rw [this] at hc
    cases hc

end

/-! ## The theorems -/

theorem mem_foldl_inter (ks : List (Finset Nat)) (k : Finset Nat) (c : Nat) : c ∈ ks.foldl (· ∩ ·) k ↔ c ∈ k ∧ ∀ s ∈ ks, c ∈ s := by
  induction ks generalizing k with
  | nil => simp
  | cons a l ih =>
    rw [List.foldl_cons, ih, Finset.mem_inter]
    simp only [List.mem_cons, forall_eq_or_imp]
    tauto

/-- The order of the contractions of `ssa_greedy_optimize`. -/
theorem ssaGreedy_trace {fuel : Nat} {size : Nat → Nat} {cost : CostFn} {chooser : Option Chooser} (hc : ∀ c, chooser = some c → ChooserFair c)
    {order : GOrder} (ho : GOrderOK order) {inputs : List (Finset Nat)} (h2 : 2 ≤ inputs.length) {output : Finset Nat} {path : Path}
    (hrun : ssaGreedy fuel size cost chooser order inputs output = some (.ok path)) :
    ∃ out', (∀ c, c ∈ out' ↔ c ∈ output ∨ ∀ s ∈ inputs, c ∈ s) ∧
      GTr inputs output out' (Multiset.ofList (tags inputs.length)) (ssaTrace combineTag (tags inputs.length) path) := by
  match inputs, h2 with
  | k :: k' :: ks, _ =>
    simp only [ssaGreedy] at hrun
    generalize hout : output ∪ (k' :: ks).foldl (· ∩ ·) k = out' at hrun
    have hmem : ∀ c, c ∈ out' ↔ c ∈ output ∨ ∀ s ∈ k :: k' :: ks, c ∈ s := by
      intro c
      rw [← hout, Finset.mem_union, mem_foldl_inter]
      simp only [List.mem_cons, forall_eq_or_imp]
    refine ⟨out', hmem, ?_⟩
    generalize hcfg : ({ size, cost, output := out', pushAll := chooser.isSome } : GCfg) = cfg at hrun
    have hco : cfg.output = out' := by rw [← hcfg]
    have hsub : output ⊆ cfg.output := by
      rw [hco]; intro c hc; exact (hmem c).mpr (Or.inl hc)
    have h0 := greedyStart_inv2 (cfg := cfg) (ins := k :: k' :: ks) (out := output) (by simp)
    rw [hco] at h0
    obtain ⟨q, g1, g2, g3⟩ := cover_init h0 (ds := order.dims ((greedyStart out' (k :: k' :: ks)).remaining.keys.foldl (fun s key => s ∪ key \ out') ∅))
      (by
        intro d hd
        rw [(ho.1 _).2, mem_foldl_dims] at hd
        rw [hco]
        rcases hd with hd | ⟨_, _, _, hd⟩
        · simp at hd
        · exact hd)
      (by
        intro d k0 hd hk hdk
        rw [(ho.1 _).2, mem_foldl_dims]
        rw [hco] at hd
        exact Or.inr ⟨k0, hk, hdk, hd⟩)
    rw [g1] at hrun
    simp only at hrun
    have hch : ChooserFair (chooser.getD simpleChooser) := by
      cases chooser with
      | none => exact simpleChooser_fair
      | some c => exact hc c rfl
    generalize hl : greedyLoop cfg (chooser.getD simpleChooser) order fuel _ = r at hrun
    match r, hrun with
    | some (.ok st), hrun =>
      obtain ⟨f1, f2, f3⟩ := greedyLoop_cover hch ho hsub fuel g2 g3 hl
      have hn := noShare_of_cover f1 f2 f3
      simp only at hrun
      have hrun := Option.some.inj hrun
      unfold finalPhase at hrun
      split at hrun
      · cases hrun
      · rename_i e q' he
        cases hrun
        rw [← hco]
        have hp := (popMin_perm he).map FEntry.id
        rw [List.map_map] at hp
        have hp' : (Dict.vals st.remaining).Perm ((e :: q').map FEntry.id) := hp
        exact finalLoop_trace _ _ _ _ _ (f1.tpre.perm hp') (hn.perm (hp'.map _))

theorem greedyLoop_fuel {cfg : GCfg} {chooser : Chooser} {order : GOrder} {fuel fuel' : Nat} (hle : fuel ≤ fuel') {st : GSt} {r : Except PyErr GSt}
    (h : greedyLoop cfg chooser order fuel st = some r) : greedyLoop cfg chooser order fuel' st = some r := by
  induction fuel generalizing fuel' st with
  | zero =>
    rw [greedyLoop.eq_def] at h ⊢
    simp only at h ⊢
    split at h
    · rename_i h0
      rw [if_pos h0]; exact h
    · cases h
  | succ fuel ih =>
    obtain ⟨g, rfl⟩ : ∃ g, fuel' = g + 1 := ⟨fuel' - 1, by omega⟩
    rw [greedyLoop.eq_def] at h ⊢
    simp only at h ⊢
    by_cases h0 : st.queue = []
    · rw [if_pos h0] at h ⊢; exact h
    · rw [if_neg h0] at h ⊢
      cases hs : greedyStep cfg chooser order st with
      | error e => rw [hs] at h; exact h
      | ok st1 => rw [hs] at h; exact ih (by omega) h

theorem ssaGreedy_fuel {fuel fuel' : Nat} (hle : fuel ≤ fuel') {size : Nat → Nat} {cost : CostFn} {chooser : Option Chooser} {order : GOrder}
    {inputs : List (Finset Nat)} {output : Finset Nat} {r : Except PyErr Path}
    (h : ssaGreedy fuel size cost chooser order inputs output = some r) : ssaGreedy fuel' size cost chooser order inputs output = some r := by
  match inputs with
  | [] => exact h
  | [_] => exact h
  | k :: k' :: ks =>
    simp only [ssaGreedy] at h ⊢
    generalize initQueue _ _ _ = q at h ⊢
    match q with
    | .error e => exact h
    | .ok st =>
      simp only at h ⊢
      generalize hl : greedyLoop _ _ order fuel st = l at h
      match l, h with
      | some l, h => rw [greedyLoop_fuel hle hl]; exact h

/-- From the run of `ssa_greedy_optimize` to the path in recycled positions. -/
theorem ssaGreedy_linear {fuel : Nat} {size : Nat → Nat} {cost : CostFn} {chooser : Option Chooser} (hc : ∀ c, chooser = some c → ChooserFair c)
    {order : GOrder} (ho : GOrderOK order) {inputs : List (Finset Nat)} (h2 : 2 ≤ inputs.length) {output : Finset Nat} {p path : Path}
    (hrun : ssaGreedy fuel size cost chooser order inputs output = some (.ok p)) (hl : ssaToLinear p = .ok path) :
    CompletePath inputs.length path ∧ Pairwise2 path ∧ ConnectedFirst (InnerLabel inputs output) output inputs path := by
  obtain ⟨out', hmem, htr⟩ := ssaGreedy_trace hc ho h2 hrun
  obtain ⟨F, p', hF, hcp, hpw⟩ := ssaGreedy_complete size cost (fun c e => (hc c e).1) ho (inputs := inputs) (by rintro rfl; simp at h2) output
  have hpp : p = p' := by
    have e1 := hF (max F fuel) (le_max_left _ _)
    rw [ssaGreedy_fuel (le_max_right F fuel) hrun] at e1
    cases e1
    rfl
  subst hpp
  obtain ⟨q, e1, e2, _, e4, e5⟩ := C11_ssa_to_linear hcp (ssaComplete_ne_nil hcp h2)
  rw [e1] at hl
  cases hl
  have hp2 := pairwise_of_lengths e4 (hpw h2)
  refine ⟨e2, hp2, ?_⟩
  have := connectedFirst_of_trace (ins := inputs) (out := output) (out' := out') (inner := InnerLabel inputs output)
    (fun c hi h => by
      rcases (hmem c).mp h with h | h
      · exact hi.1 h
      · obtain ⟨s, hs, hcs⟩ := hi.2
        exact hcs (h s hs))
    (fun c i hco hci => by
      rw [hmem, not_or] at hco
      refine ⟨hco.1, ?_⟩
      have := hco.2
      push Not at this
      exact this)
    path (part_tags _) (by rw [tags_length]; exact completePath_valid e2)
    (by rw [(e5 Tag combineTag (tags inputs.length) (tags_length _)).1]; exact htr) hp2
  rwa [tags_terms] at this

/-- **C59.** For any cost function (jittered ones included), sizes, set iteration orders and any chooser that forgets only what it
chooses and what can no longer be contracted, every path that `greedy` returns for two or more tensors without memory limit
contracts two tensors without a common inner label (one that is neither in the output nor on all inputs) only if no two remaining
tensors have one, or if the two have the same labels. -/
theorem C59_greedy_connected_first {fuel : Nat} {size : Nat → Nat} {cost : CostFn} {chooser : Option Chooser}
    (hc : ∀ c, chooser = some c → ChooserFair c) {order : GOrder} (ho : GOrderOK order) {setOrder : SetOrder}
    {inputs : List (Finset Nat)} (h2 : 2 ≤ inputs.length) {output : Finset Nat} {path : Path}
    (hrun : greedy fuel size none cost chooser order setOrder inputs output = some (.ok path)) :
    CompletePath inputs.length path ∧ Pairwise2 path ∧ ConnectedFirst (InnerLabel inputs output) output inputs path := by
  simp only [greedy] at hrun
  generalize hr : ssaGreedy fuel size cost chooser order inputs output = r at hrun
  match r, hrun with
  | some (.ok p), hrun => exact ssaGreedy_linear hc ho h2 hr (Option.some.inj hrun)

theorem assessLoop_path {bySize : Bool} {late : Nat → Bool} (ts : List (Except PyErr Trial)) (k : Nat) (st : ROSt) {p : Path}
    (h : (assessLoop bySize late k ts st).2.path = some p) : st.path = some p ∨ ∃ t, .ok t ∈ ts ∧ t.path = p := by
  induction ts generalizing k st with
  | nil => exact Or.inl h
  | cons t ts ih =>
    cases t with
    | error e => exact Or.inl h
    | ok t =>
      simp only [assessLoop] at h
      have hstep : (assessTrial bySize st t).path = some p → st.path = some p ∨ t.path = p := by
        intro hh
        unfold assessTrial at hh
        simp only at hh
        split at hh
        · exact Or.inr (Option.some.inj hh)
        · exact Or.inl hh
      have hfin : (assessTrial bySize st t).path = some p → st.path = some p ∨ ∃ t', Except.ok t' ∈ (Except.ok t :: ts : List (Except PyErr Trial)) ∧ t'.path = p := by
        intro hh
        rcases hstep hh with hh | hh
        · exact Or.inl hh
        · exact Or.inr ⟨t, by simp, hh⟩
      split at h
      · exact hfin h
      · rcases ih _ _ h with hh | ⟨t', ht', hp⟩
        · exact hfin hh
        · exact Or.inr ⟨t', by simp [ht'], hp⟩

theorem mem_mapM_some {α β : Type} {f : α → Option β} {l : List α} {r : List β} (h : l.mapM f = some r) : ∀ y ∈ r, ∃ x ∈ l, f x = some y := by
  induction l generalizing r with
  | nil => cases h; simp
  | cons a l ih =>
    rw [List.mapM_cons] at h
    cases ha : f a with
    | none => rw [ha] at h; cases h
    | some b =>
      rw [ha] at h
      cases hl : l.mapM f with
      | none => rw [hl] at h; cases h
      | some r' =>
        rw [hl] at h
        cases h
        intro y hy
        rcases List.mem_cons.mp hy with rfl | hy
        · exact ⟨a, by simp, ha⟩
        · obtain ⟨x, hx, hxy⟩ := ih hl y hy
          exact ⟨x, by simp [hx], hxy⟩

/-- **C59, `random_greedy`.** Whatever is drawn, every path that `random_greedy` returns for two or more tensors is of this kind. -/
theorem C59_random_greedy_connected_first {maxRepeats nbranch : Nat} (hb : 0 < nbranch) {cost : Nat → CostFn} {pick : Nat → Path → List ℚ → Nat}
    (hpick : ∀ r, PickOK (pick r)) {order : GOrder} (ho : GOrderOK order) {fuel : Nat} {size : Nat → Nat} {inputs : List (Finset Nat)}
    (h2 : 2 ≤ inputs.length) {output : Finset Nat} {path : Path}
    (hrun : randomGreedy maxRepeats nbranch cost pick order fuel size inputs output = some (.ok path)) :
    CompletePath inputs.length path ∧ Pairwise2 path ∧ ConnectedFirst (InnerLabel inputs output) output inputs path := by
  unfold randomGreedy at hrun
  split at hrun
  · cases hrun
  · rename_i ts hts
    have hrun := Option.some.inj hrun
    have hmem : ∀ t, Except.ok t ∈ ts → ∃ r, trialGreedy fuel size cost (randomGreedyChooser nbranch pick) order inputs output r = some (.ok t) := by
      intro t ht
      obtain ⟨r, _, hr⟩ := mem_mapM_some hts _ ht
      exact ⟨r, hr⟩
    unfold roCall at hrun
    generalize hL : assessLoop _ _ _ _ _ = L at hrun
    obtain ⟨res, st'⟩ := L
    cases res with
    | error e => cases hrun
    | ok u =>
      simp only at hrun
      cases hp : st'.path with
      | none => rw [hp] at hrun; cases hrun
      | some p =>
        rw [hp] at hrun
        rcases assessLoop_path _ _ _ (by rw [hL]; exact hp) with h0 | ⟨t, ht, rfl⟩
        · cases h0
        · simp only [callTrials, List.mem_map] at ht
          obtain ⟨r, _, hr⟩ := ht
          have : Except.ok t ∈ ts := by
            rw [List.getD_eq_getElem?_getD] at hr
            cases hg : ts[r]? with
            | none => rw [hg] at hr; cases hr
            | some x =>
              rw [hg] at hr
              simp only [Option.getD_some] at hr
              rw [← hr]
              exact List.mem_of_getElem? hg
          obtain ⟨r', hr'⟩ := hmem t this
          unfold trialGreedy at hr'
          generalize hg : ssaGreedy fuel size (cost r') _ order inputs output = g at hr'
          match g, hr' with
          | some (.ok p), hr' =>
            simp only at hr'
            have hr' := Option.some.inj hr'
            cases hcost : ssaPathCost size p inputs output with
            | error e => rw [hcost] at hr'; cases hr'
            | ok cs =>
              rw [hcost] at hr'
              cases hr'
              refine ssaGreedy_linear ?_ ho h2 hg hrun
              intro c hc
              split at hc
              · cases hc
              · unfold randomGreedyChooser at hc
                split at hc
                · cases hc
                · cases hc; exact thermal_fair nbranch hb (hpick r')

/-- **C59, `auto` and `auto-hq`.** For fifteen tensors or more `auto` returns such a path, for seventeen or more `auto-hq` does. -/
theorem C59_auto_connected_first {cost : Nat → CostFn} {pick : Nat → Path → List ℚ → Nat} (hpick : ∀ r, PickOK (pick r)) {orders : Orders}
    (ho : GOrderOK orders.greedy) {fuel : Nat} {size : Nat → Nat} {mem : Option Nat} {inputs : List (Finset Nat)} {output : Finset Nat} {path : Path}
    (hrun : (15 ≤ inputs.length ∧ auto orders fuel size none inputs output = some (.ok path)) ∨
      (17 ≤ inputs.length ∧ autoHq cost pick orders fuel size mem inputs output = some (.ok path))) :
    CompletePath inputs.length path ∧ Pairwise2 path ∧ ConnectedFirst (InnerLabel inputs output) output inputs path := by
  rcases hrun with ⟨h, hrun⟩ | ⟨h, hrun⟩
  · unfold auto at hrun
    simp only at hrun
    rw [if_neg (by omega), if_neg (by omega), if_neg (by omega), if_neg (by omega)] at hrun
    exact C59_greedy_connected_first (by rintro c ⟨⟩) ho (by omega) hrun
  · unfold autoHq at hrun
    simp only at hrun
    rw [if_neg (by omega), if_neg (by omega)] at hrun
    exact C59_random_greedy_connected_first (by decide) hpick ho (by omega) hrun

/-! ## Concrete cases -/

-- C59: 'ab,cd,bc,ef,f->ad'; the outer product with the disconnected part comes last
example : greedy 30 (fun _ => 2) none costMemoryRemoved none gAscending ascending [{0, 1}, {2, 3}, {1, 2}, {4, 5}, {5}] {0, 3} =
    some (.ok [[3, 4], [0, 2], [0, 2], [0, 1]]) := by decide +kernel
-- with two more terms, equal to the second and the last, which are merged first
example : greedy 30 (fun _ => 2) none costMemoryRemoved none gAscending ascending [{0, 1}, {2, 3}, {1, 2}, {4, 5}, {5}, {2, 3}, {5}] {0, 3} =
    some (.ok [[1, 5], [3, 4], [2, 4], [0, 1], [0, 2], [0, 1]]) := by decide +kernel
-- the hypotheses on the orders and choosers
example : GOrderOK gAscending := gAscending_ok
-- the outer product of the first two would not do: 'b' joins the first and the third
example : ¬ ConnectedFirst (InnerLabel [{0, 1}, {2, 3}, {1, 2}] {0, 3}) {0, 3} [{0, 1}, {2, 3}, {1, 2}] [[0, 1], [0, 1]] := by
  rintro ⟨h, _⟩
  obtain ⟨i, j, s, t, hi, hj, hij, e1, e2, h⟩ := h ⟨0, 2, {0, 1}, {1, 2}, 1, by decide, rfl, rfl, ⟨by decide, {2, 3}, by decide, by decide⟩, by decide, by decide⟩
  have : (i = 0 ∧ j = 1) ∨ (i = 1 ∧ j = 0) := by simp at hi hj; omega
  rcases this with ⟨rfl, rfl⟩ | ⟨rfl, rfl⟩ <;> (cases e1; cases e2) <;> rcases h with h | ⟨c, _, h1, h2⟩
  · revert h; decide
  · simp at h1 h2; omega
  · revert h; decide
  · simp at h1 h2; omega

end OE.Props
