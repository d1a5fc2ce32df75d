import Verif.Props.LocalChoice
import Mathlib.Tactic.Linarith

/-!
# C100: `RandomGreedy` at temperature zero contracts a best pair at each step

There all candidates are put in the queue.
-/

namespace OE.Props
open OE OE.Py OE.Spec OE.Paths

section
variable {cfg : GCfg} {ins : List (Finset Nat)} {out : Finset Nat}

/-- The two terms of a candidate. -/
def IsPair (c : GCand) (x y : Finset Nat) : Prop := (c.k1 = x ∧ c.k2 = y) ∨ (c.k1 = y ∧ c.k2 = x)

theorem IsPair.symm {c : GCand} {x y : Finset Nat} (h : IsPair c x y) : IsPair c y x := h.elim Or.inr Or.inl

/-- The default cost of a candidate, from the labels it keeps. -/
def CostOK (cfg : GCfg) (c : GCand) : Prop :=
  c.cost = (Paths.sizeOf cfg.size c.k12 : ℚ) - Paths.sizeOf cfg.size c.k1 - Paths.sizeOf cfg.size c.k2

theorem candOf_costOK (hcost : cfg.cost = costMemoryRemoved) (st : GSt) (seed : Path) (a b : Finset Nat) : CostOK cfg (candOf cfg st seed a b) := by
  obtain ⟨⟨h1, h2⟩, -⟩ := candOf_fresh hcost st seed a b
  unfold CostOK
  rw [h1, h2]
  rfl

theorem candOf_k12 (st : GSt) (seed : Path) (a b : Finset Nat) : (candOf cfg st seed a b).k12 = keepNow cfg st a b := by
  unfold candOf
  simp only
  split <;> rfl

theorem pushCandidate_all (hall : cfg.pushAll = true) (st : GSt) {k1 : Finset Nat} {k2s : List (Finset Nat)} (h1 : k1 ∈ st.remaining.keys)
    (h2 : ∀ k ∈ k2s, k ∈ st.remaining.keys) :
    pushCandidate cfg st k1 k2s = .ok { st with queue := st.queue ++ candsOf cfg st k1 k2s } := by
  have hmap : k2s.zipIdx.mapM (fun p => getCandidate cfg st (st.path ++ [[st.queue.length, p.2]]) k1 p.1) = .ok (candsOf cfg st k1 k2s) :=
    mapM_ok_map (fun p hp => getCandidate_eq cfg st _ h1 (h2 _ ((List.mem_zipIdx' hp).2 ▸ List.getElem_mem _)))
  unfold pushCandidate
  rw [hmap]
  simp only [bind, Except.bind, if_pos hall]
  rfl

/-- The pair is in the queue with the labels that it keeps now. -/
def Queued (cfg : GCfg) (st : GSt) (q : List GCand) (x y : Finset Nat) : Prop := ∃ c ∈ q, IsPair c x y ∧ c.k12 = keepNow cfg st x y

theorem Queued.symm {st : GSt} {q : List GCand} {x y : Finset Nat} (h : Queued cfg st q x y) : Queued cfg st q y x := by
  obtain ⟨c, hc, hp, hk⟩ := h
  exact ⟨c, hc, hp.symm, by rw [hk, keepNow_comm]⟩

theorem Queued.mono {st : GSt} {q q' : List GCand} {x y : Finset Nat} (h : Queued cfg st q x y) (hq : ∀ c ∈ q, c ∈ q') : Queued cfg st q' x y := by
  obtain ⟨c, hc, hp, hk⟩ := h
  exact ⟨c, hq c hc, hp, hk⟩

theorem queued_cands {st : GSt} {k1 k2 : Finset Nat} {k2s : List (Finset Nat)} (h : k2 ∈ k2s) : Queued cfg st (candsOf cfg st k1 k2s) k1 k2 := by
  obtain ⟨seed, hm⟩ := candsOf_mem (cfg := cfg) (st := st) (k1 := k1) h
  exact ⟨_, hm, candOf_mem st seed k1 k2, candOf_k12 st seed k1 k2⟩

theorem initPush_all (hall : cfg.pushAll = true) (hcost : cfg.cost = costMemoryRemoved) (l : List (Finset Nat)) : ∀ (st : GSt), (∀ k ∈ l, k ∈ st.remaining.keys) →
    ∃ q, initPush cfg l st = .ok { st with queue := st.queue ++ q } ∧ (∀ c ∈ q, CostOK cfg c) ∧ ∀ x ∈ l, ∀ y ∈ l, x ≠ y → Queued cfg st q x y := by
  induction l with
  | nil => exact fun st _ => ⟨[], by simp [initPush], by simp, by simp⟩
  | cons k1 ks ih =>
    intro st hm
    cases ks with
    | nil => exact ⟨[], by simp [initPush], by simp, by simp⟩
    | cons k2 ks =>
      have g1 := pushCandidate_all hall st (k1 := k1) (k2s := k2 :: ks) (hm _ (by simp)) (fun k hk => hm k (List.mem_cons_of_mem _ hk))
      obtain ⟨q', f1, f2, f3⟩ := ih { st with queue := st.queue ++ candsOf cfg st k1 (k2 :: ks) } (fun k hk => hm k (List.mem_cons_of_mem _ hk))
      refine ⟨candsOf cfg st k1 (k2 :: ks) ++ q', ?_, ?_, ?_⟩
      · rw [initPush, g1]
        simp only [bind, Except.bind]
        rw [f1]
        simp
      · intro c hc
        rcases List.mem_append.mp hc with hc | hc
        · obtain ⟨seed, k, -, rfl⟩ := mem_candsOf hc
          exact candOf_costOK hcost st seed k1 k
        · exact f2 c hc
      · intro x hx y hy hxy
        rcases List.mem_cons.mp hx with ex | hx'
        · rcases List.mem_cons.mp hy with ey | hy'
          · exact absurd (ex.trans ey.symm) hxy
          · rw [ex]
            exact (queued_cands hy').mono (fun c hc => List.mem_append_left _ hc)
        · rcases List.mem_cons.mp hy with ey | hy'
          · rw [ey]
            exact (queued_cands hx').symm.mono (fun c hc => List.mem_append_left _ hc)
          · have : Queued cfg st q' x y := f3 x hx' y hy' hxy
            exact this.mono (fun c hc => List.mem_append_right _ hc)

theorem initQueue_all (hall : cfg.pushAll = true) (hcost : cfg.cost = costMemoryRemoved) (ds : List Nat) (hds : ∀ d ∈ ds, d ∉ cfg.output) : ∀ (st : GSt),
    DimsOK cfg.output st.dimKeys st.remaining.keys →
    ∃ q, initQueue cfg ds st = .ok { st with queue := st.queue ++ q } ∧ (∀ c ∈ q, CostOK cfg c) ∧
      ∀ d ∈ ds, ∀ x ∈ st.remaining.keys, ∀ y ∈ st.remaining.keys, x ≠ y → d ∈ x → d ∈ y → Queued cfg st q x y := by
  induction ds with
  | nil => exact fun st _ => ⟨[], by simp [initQueue], by simp, by simp⟩
  | cons d ds ih =>
    intro st hdk
    have hp := sortedKeys_perm st.remaining (st.dimKeys d)
    have hmem : ∀ k, k ∈ sortedKeys st.remaining (st.dimKeys d) ↔ k ∈ st.remaining.keys ∧ d ∈ k := by
      intro k
      rw [hp.mem_iff, List.mem_filter, decide_eq_true_eq, hdk d k]
      have := hds d (by simp)
      tauto
    obtain ⟨q, g1, g2, g3⟩ := initPush_all hall hcost (sortedKeys st.remaining (st.dimKeys d)) st (fun k h => ((hmem k).mp h).1)
    obtain ⟨q', f1, f2, f3⟩ := ih (fun d' hd' => hds d' (by simp [hd'])) { st with queue := st.queue ++ q } hdk
    refine ⟨q ++ q', ?_, ?_, ?_⟩
    · rw [initQueue, g1]
      simp only [bind, Except.bind]
      rw [f1]
      simp
    · intro c hc
      rcases List.mem_append.mp hc with hc | hc
      · exact g2 c hc
      · exact f2 c hc
    · intro d' hd' x hx y hy hxy hdx hdy
      rcases List.mem_cons.mp hd' with e | hd'
      · subst e
        exact (g3 x ((hmem x).mpr ⟨hx, hdx⟩) y ((hmem y).mpr ⟨hy, hdy⟩) hxy).mono (fun c hc => List.mem_append_left _ hc)
      · have : Queued cfg st q' x y := f3 d' hd' x hx y hy hxy hdx hdy
        exact this.mono (fun c hc => List.mem_append_right _ hc)

/-! ## The invariant -/

structure CInv (cfg : GCfg) (ins : List (Finset Nat)) (out : Finset Nat) (st : GSt) : Prop where
  base : GInv2 cfg ins out st
  common : ∀ d ∈ cfg.output, d ∉ out → ∀ k ∈ st.remaining.keys, d ∈ k
  cost : ∀ c ∈ st.queue, CostOK cfg c
  all : ∀ x ∈ st.remaining.keys, ∀ y ∈ st.remaining.keys, Adj cfg.output x y → Queued cfg st st.queue x y

/-- A candidate keeps at least the labels needed now. -/
theorem keepNow_sub {st : GSt} (hrefs : RefsOK cfg.output st) {k1 k2 k12 : Finset Nat} (h : ResultOK cfg.output st.dimKeys k1 k2 k12) :
    keepNow cfg st k1 k2 ⊆ k12 := by
  intro d hd
  unfold keepNow at hd
  simp only [Finset.mem_union, Finset.mem_inter, Finset.mem_sdiff] at hd
  by_cases hdo : d ∈ cfg.output
  · refine h.outp d ?_ hdo
    rw [Finset.mem_union]
    rcases hd with (hd | hd) | hd
    · exact hd.1
    · exact Or.inl hd.1.1
    · exact hd.1.1
  · rcases hd with (hd | hd) | hd
    · exact absurd hd.2 hdo
    · exact h.two d hdo hd.1.1 hd.1.2 ((hrefs.three d hdo).mp hd.2)
    · exact h.one d hdo (Finset.mem_union.mpr hd.1.1) hd.1.2 ((hrefs.two d hdo).mp hd.2)

theorem sizeOf_le_of_sub {size : Nat → Nat} (hs : ∀ c, 1 ≤ size c) {a b : Finset Nat} (h : a ⊆ b) : Paths.sizeOf size a ≤ Paths.sizeOf size b :=
  Finset.prod_le_prod_of_subset_of_one_le' h (fun c _ _ => hs c)

theorem sizeOf_eq_of_sub {size : Nat → Nat} (hs : ∀ c, 2 ≤ size c) {a b : Finset Nat} (h : a ⊆ b) (hle : Paths.sizeOf size b ≤ Paths.sizeOf size a) : b = a := by
  by_contra hne
  obtain ⟨c, hc, hca⟩ := Finset.exists_of_ssubset (Finset.ssubset_iff_subset_ne.mpr ⟨h, Ne.symm hne⟩)
  have h1 : Paths.sizeOf size (insert c a) ≤ Paths.sizeOf size b :=
    sizeOf_le_of_sub (fun c => (hs c).trans' (by decide)) (Finset.insert_subset hc h)
  have h2 : Paths.sizeOf size (insert c a) = size c * Paths.sizeOf size a := Finset.prod_insert hca
  have h3 : 0 < Paths.sizeOf size a := Finset.prod_pos (fun c _ => (hs c).trans' (by decide))
  have h4 := Nat.mul_le_mul_right (Paths.sizeOf size a) (hs c)
  omega

/-- A label of a contracted term that a third term has is kept. -/
theorem third_kept {st : GSt} (hd : DimsOK cfg.output st.dimKeys st.remaining.keys) {k1 k2 k12 : Finset Nat}
    (hres : ResultOK cfg.output st.dimKeys k1 k2 k12) (h1 : k1 ∈ st.remaining.keys) (h2 : k2 ∈ st.remaining.keys) {b : Finset Nat} {d : Nat}
    (hb1 : b ≠ k1) (hb2 : b ≠ k2) (hbm : b ∈ st.remaining.keys) (hdo : d ∉ cfg.output) (hda : d ∈ k1 ∪ k2) (hdb : d ∈ b) : d ∈ k12 := by
  have hbk : b ∈ st.dimKeys d := (hd d b).mpr ⟨hdo, hdb, hbm⟩
  have hm1 : d ∈ k1 → k1 ∈ st.dimKeys d := fun hh => (hd d k1).mpr ⟨hdo, hh, h1⟩
  have hm2 : d ∈ k2 → k2 ∈ st.dimKeys d := fun hh => (hd d k2).mpr ⟨hdo, hh, h2⟩
  by_cases hboth : d ∈ k1 ∧ d ∈ k2
  · apply hres.two d hdo hboth.1 hboth.2
    exact (card_three (hm1 hboth.1) (hm2 hboth.2) hres.adj.1).mpr ⟨b, hbk, hb1, hb2⟩
  · refine hres.one d hdo hda hboth ?_
    rw [card_two hbk]
    rcases Finset.mem_union.mp hda with h | h
    · exact ⟨k1, hm1 h, hb1.symm⟩
    · exact ⟨k2, hm2 h, hb2.symm⟩

/-- What a pair keeps does not change when two other terms are contracted. -/
theorem keepNow_stays {st st1 : GSt} (hd : DimsOK cfg.output st.dimKeys st.remaining.keys) (hr : RefsOK cfg.output st)
    (hd1 : DimsOK cfg.output st1.dimKeys st1.remaining.keys) (hr1 : RefsOK cfg.output st1) {k1 k2 k12 : Finset Nat}
    (hres : ResultOK cfg.output st.dimKeys k1 k2 k12) (h1 : k1 ∈ st.remaining.keys) (h2 : k2 ∈ st.remaining.keys)
    (hk : ∀ k, k ∈ st1.remaining.keys ↔ k = k12 ∨ (k ∈ st.remaining.keys ∧ k ≠ k1 ∧ k ≠ k2)) {x y : Finset Nat} (hxy : x ≠ y)
    (hx : x ∈ st.remaining.keys) (hx1 : x ≠ k1) (hx2 : x ≠ k2) (hx3 : x ≠ k12)
    (hy : y ∈ st.remaining.keys) (hy1 : y ≠ k1) (hy2 : y ≠ k2) (hy3 : y ≠ k12) : keepNow cfg st1 x y = keepNow cfg st x y := by
  ext d
  rw [mem_keepNow_reserved hd hr hx hy hxy, mem_keepNow_reserved hd1 hr1 ((hk x).mpr (Or.inr ⟨hx, hx1, hx2⟩)) ((hk y).mpr (Or.inr ⟨hy, hy1, hy2⟩)) hxy]
  refine and_congr_right (fun hdm => ?_)
  by_cases hdo : d ∈ cfg.output
  · simp [hdo]
  · refine or_congr_right ?_
    constructor
    · rintro ⟨z, hz, hdz, hzx, hzy⟩
      rcases (hk z).mp hz with rfl | h
      · rcases Finset.mem_union.mp (hres.sub hdz) with h | h
        · exact ⟨k1, h1, h, hx1.symm, hy1.symm⟩
        · exact ⟨k2, h2, h, hx2.symm, hy2.symm⟩
      · exact ⟨z, h.1, hdz, hzx, hzy⟩
    · rintro ⟨z, hz, hdz, hzx, hzy⟩
      by_cases hz12 : z = k1 ∨ z = k2
      · refine ⟨k12, (hk k12).mpr (Or.inl rfl), ?_, hx3.symm, hy3.symm⟩
        have hda : d ∈ k1 ∪ k2 := by
          rw [Finset.mem_union]
          rcases hz12 with rfl | rfl
          · exact Or.inl hdz
          · exact Or.inr hdz
        rcases Finset.mem_union.mp hdm with h | h
        · exact third_kept hd hres h1 h2 hx1 hx2 hx hdo hda h
        · exact third_kept hd hres h1 h2 hy1 hy2 hy hdo hda h
      · rw [not_or] at hz12
        exact ⟨z, (hk z).mpr (Or.inr ⟨hz, hz12⟩), hdz, hzx, hzy⟩

theorem pushNew_all (hall : cfg.pushAll = true) (hcost : cfg.cost = costMemoryRemoved) {order : GOrder} (ho : GOrderOK order) {st : GSt}
    (h : GInv2 cfg ins out st) {k1 : Finset Nat} (h1 : k1 ∈ st.remaining.keys) :
    ∃ q, pushNew cfg order st k1 = .ok { st with queue := st.queue ++ q } ∧ GInv2 cfg ins out { st with queue := st.queue ++ q } ∧
      (∀ c ∈ q, CostOK cfg c) ∧ ∀ y ∈ st.remaining.keys, Adj cfg.output k1 y → Queued cfg st q k1 y := by
  have hmem : ∀ k, k ∈ (k1.biUnion st.dimKeys).erase k1 ↔ k ∈ st.remaining.keys ∧ Adj cfg.output k1 k := by
    intro k
    rw [Finset.mem_erase, Finset.mem_biUnion]
    constructor
    · rintro ⟨hne, d, hd, hk⟩
      obtain ⟨a1, a2, a3⟩ := (h.base.dims d k).mp hk
      exact ⟨a3, fun e => hne e.symm, d, a1, hd, a2⟩
    · rintro ⟨a3, hne, d, a1, hd, a2⟩
      exact ⟨fun e => hne e.symm, d, hd, (h.base.dims d k).mpr ⟨a1, a2, a3⟩⟩
  unfold pushNew
  simp only
  split
  · rename_i hk
    refine ⟨[], by simp, by simpa using h, by simp, ?_⟩
    intro y hy hadj
    have := (hmem y).mpr ⟨hy, hadj⟩
    rw [hk] at this
    simp at this
  · have hin : ∀ k, k ∈ order.keys st.path ((k1.biUnion st.dimKeys).erase k1) ↔ k ∈ st.remaining.keys ∧ Adj cfg.output k1 k :=
      fun k => ((ho.2 _ _).2 k).trans (hmem k)
    refine ⟨_, pushCandidate_all hall st h1 (fun k hk' => ((hin k).mp hk').1), h.setQueue ?_, ?_, ?_⟩
    · intro c hc
      rcases List.mem_append.mp hc with hc | hc
      · exact h.cand c hc
      · obtain ⟨seed, k, hk, rfl⟩ := mem_candsOf hc
        exact candOf_ok h.refs ((hin k).mp hk).2
    · intro c hc
      obtain ⟨seed, k, hk, rfl⟩ := mem_candsOf hc
      exact candOf_costOK hcost st seed k1 k
    · intro y hy hadj
      exact queued_cands ((hin y).mpr ⟨hy, hadj⟩)

/-- A chooser that takes no candidate while a cheaper one is left. -/
def ColdChooser (ch : Chooser) : Prop := ∀ path q (rem : Dict (Finset Nat) Nat) c, (ch path q rem).1 = some c →
  ∀ x ∈ q, x.k1 ∈ rem.keys → x.k2 ∈ rem.keys → c.cost ≤ x.cost

/-- One step. -/
theorem greedyStep_cold (hall : cfg.pushAll = true) (hcost : cfg.cost = costMemoryRemoved) (hs : ∀ c, 2 ≤ cfg.size c) {chooser : Chooser} {order : GOrder}
    (hc : ChooserFair chooser) (hcold : ColdChooser chooser) (ho : GOrderOK order) (hsub : out ⊆ cfg.output) {st : GSt} (h : CInv cfg ins out st)
    (hq : st.queue ≠ []) :
    ∃ st', greedyStep cfg chooser order st = .ok st' ∧ CInv cfg ins out st' ∧
      ((st'.path = st.path ∧ st'.next = st.next ∧ st'.remaining = st.remaining) ∨
       ∃ k1 k2 a b, k1 ∈ st.remaining.keys ∧ k2 ∈ st.remaining.keys ∧ Adj cfg.output k1 k2 ∧
        (∀ x ∈ st.remaining.keys, ∀ y ∈ st.remaining.keys, Adj cfg.output x y → costNow cfg st k1 k2 ≤ costNow cfg st x y) ∧
        st.remaining.Perm ((k1, a) :: (k2, b) :: (st.remaining.del k1).del k2) ∧
        ((st'.path = st.path ++ [[a, b]] ∧ st'.next = st.next + 1 ∧
            st'.remaining.Perm ((keepNow cfg st k1 k2, st.next) :: (st.remaining.del k1).del k2)) ∨
          ∃ id, (keepNow cfg st k1 k2, id) ∈ (st.remaining.del k1).del k2 ∧ st'.path = st.path ++ [[a, b]] ++ [[id, st.next]])) := by
  obtain ⟨_, c2, c3⟩ := hc.1 st.path st.queue st.remaining hq
  have c4 := hc.2 st.path st.queue st.remaining hq
  have c5 := hcold st.path st.queue st.remaining
  unfold greedyStep
  generalize chooser st.path st.queue st.remaining = r at *
  obtain ⟨r, q⟩ := r
  have hq' : ∀ c ∈ q, ResultOK cfg.output st.dimKeys c.k1 c.k2 c.k12 := fun c hc => h.base.cand c (c2 c hc)
  have hlive : ∀ {c : GCand} {x y}, IsPair c x y → x ∈ st.remaining.keys → y ∈ st.remaining.keys → c.k1 ∈ st.remaining.keys ∧ c.k2 ∈ st.remaining.keys := by
    rintro c x y (⟨e1, e2⟩ | ⟨e1, e2⟩) hx hy
    · rw [e1, e2]; exact ⟨hx, hy⟩
    · rw [e1, e2]; exact ⟨hy, hx⟩
  cases r with
  | none =>
    refine ⟨_, rfl, ⟨h.base.setQueue hq', h.common, fun c hc => h.cost c (c2 c hc), ?_⟩, Or.inl ⟨rfl, rfl, rfl⟩⟩
    intro x hx y hy hadj
    obtain ⟨c, hcm, hp, hkk⟩ := h.all x hx y hy hadj
    rcases c4 c hcm (hlive hp hx hy).1 (hlive hp hx hy).2 with h' | h'
    · exact ⟨c, h', hp, hkk⟩
    · cases h'
  | some c =>
    obtain ⟨d1, d2, d3⟩ := c3 c rfl
    have hres := h.base.cand c d1
    -- the candidate is up to date
    have hmin : ∀ x ∈ st.remaining.keys, ∀ y ∈ st.remaining.keys, Adj cfg.output x y → c.cost ≤ costNow cfg st x y := by
      intro x hx y hy hadj
      obtain ⟨c', hcm, hp, hkk⟩ := h.all x hx y hy hadj
      have h1 := c5 c rfl c' hcm (hlive hp hx hy).1 (hlive hp hx hy).2
      have h2 := h.cost c' hcm
      unfold CostOK at h2
      rw [hkk] at h2
      have h3 : c'.cost = costNow cfg st x y := by
        rw [h2]
        unfold costNow
        rcases hp with ⟨e1, e2⟩ | ⟨e1, e2⟩
        · rw [e1, e2]
        · rw [e1, e2, sub_right_comm]
      rw [← h3]
      exact h1
    have hk12 : c.k12 = keepNow cfg st c.k1 c.k2 := by
      apply sizeOf_eq_of_sub hs (keepNow_sub h.base.refs hres)
      have h1 := hmin _ d2 _ d3 hres.adj
      have h2 := h.cost c d1
      unfold CostOK at h2
      rw [h2] at h1
      unfold costNow at h1
      have : (Paths.sizeOf cfg.size c.k12 : ℚ) ≤ Paths.sizeOf cfg.size (keepNow cfg st c.k1 c.k2) := by linarith
      exact_mod_cast this
    have hcn : c.cost = costNow cfg st c.k1 c.k2 := by
      have h2 := h.cost c d1
      unfold CostOK at h2
      rw [h2, hk12]
      rfl
    have h0 := h.base.setQueue hq'
    obtain ⟨st1, e1, e2, e3, _, hk⟩ := contract_inv2 hsub h0 hres d2 d3
    obtain ⟨st1', a, b, f1, -, -, -, hperm, -, -, hform⟩ := contractKeys_form (k12 := c.k12) h0.base hres.adj.1 d2 d3
    rw [e1] at f1
    cases f1
    have h12 : c.k12 ∈ st1.remaining.keys := (hk _).mpr (Or.inl rfl)
    obtain ⟨q2, g1, g2, g3, g4⟩ := pushNew_all hall hcost ho e2 h12
    simp only at hk hperm hform
    refine ⟨_, by simp only [e1, bind, Except.bind]; exact g1, ⟨g2, ?_, ?_, ?_⟩, Or.inr ⟨c.k1, c.k2, a, b, d2, d3, hres.adj, ?_, hperm, ?_⟩⟩
    · intro d hd hdo k hkm
      rcases (hk k).mp hkm with rfl | hh
      · exact hres.outp d (Finset.mem_union_left _ (h.common d hd hdo _ d2)) hd
      · exact h.common d hd hdo k hh.1
    · intro c' hc'
      rcases List.mem_append.mp hc' with hc' | hc'
      · rw [e3] at hc'
        exact h.cost c' (c2 c' hc')
      · exact g3 c' hc'
    · intro x hx y hy hadj
      show Queued cfg st1 (st1.queue ++ q2) x y
      by_cases hx3 : x = c.k12
      · subst hx3
        exact (g4 y hy hadj).mono (fun c hc => List.mem_append_right _ hc)
      · by_cases hy3 : y = c.k12
        · subst hy3
          exact (g4 x hx hadj.symm).symm.mono (fun c hc => List.mem_append_right _ hc)
        · obtain ⟨x1, x2, x4⟩ := ((hk x).mp hx).resolve_left hx3
          obtain ⟨y1, y2, y4⟩ := ((hk y).mp hy).resolve_left hy3
          obtain ⟨c', hcm, hp, hkk⟩ := h.all x x1 y y1 hadj
          refine ⟨c', ?_, hp, ?_⟩
          · rcases c4 c' hcm (hlive hp x1 y1).1 (hlive hp x1 y1).2 with h' | h'
            · rw [e3]; exact List.mem_append_left _ h'
            · cases h'
              rcases hp with ⟨e, -⟩ | ⟨e, -⟩
              · exact absurd e.symm x2
              · exact absurd e.symm y2
          · rw [hkk, keepNow_stays h.base.base.dims h.base.refs e2.base.dims e2.refs hres d2 d3 hk hadj.1 x1 x2 x4 hx3 y1 y2 y4 hy3]
    · intro x hx y hy hadj
      rw [← hcn]
      exact hmin x hx y hy hadj
    · rw [← hk12]
      rcases hform with ⟨-, p1, p2, p3⟩ | ⟨id, p1, p2, -, -⟩
      · exact Or.inl ⟨p1, p2, p3⟩
      · exact Or.inr ⟨id, p1.mem_iff.mpr (by simp), p2⟩

/-! ## The specification -/

theorem best_of_unjoined {size : Nat → Nat} {output reserved : Finset Nat} {next : Nat} {live : Finset (Finset Nat × Nat)} {l : List (List Nat)}
    (h : ∀ p ∈ live, ∀ q ∈ live, ¬ Linked reserved p q) : BestWhileDistinct size output reserved next live l := by
  cases l with
  | nil => trivial
  | cons s l => exact Or.inr (Or.inl h)

theorem best_of_equal {size : Nat → Nat} {output reserved : Finset Nat} {next : Nat} {live : Finset (Finset Nat × Nat)} {l : List (List Nat)}
    {p q : Finset Nat × Nat} (hp : p ∈ live) (hq : q ∈ live) (hne : p ≠ q) (he : p.1 = q.1) : BestWhileDistinct size output reserved next live l := by
  cases l with
  | nil => trivial
  | cons s l => exact Or.inl ⟨p, hp, q, hq, hne, he⟩

theorem keptOf_comm (output : Finset Nat) (live : Finset (Finset Nat × Nat)) (p q : Finset Nat × Nat) : keptOf output live p q = keptOf output live q p := by
  unfold keptOf
  rw [Finset.union_comm]
  apply Finset.filter_congr
  intro c _
  constructor
  · rintro (h | ⟨k, hk, h1, h2, h⟩)
    · exact Or.inl h
    · exact Or.inr ⟨k, hk, h2, h1, h⟩
  · rintro (h | ⟨k, hk, h1, h2, h⟩)
    · exact Or.inl h
    · exact Or.inr ⟨k, hk, h2, h1, h⟩

theorem gainOf_comm (size : Nat → Nat) (output : Finset Nat) (live : Finset (Finset Nat × Nat)) (p q : Finset Nat × Nat) :
    gainOf size output live p q = gainOf size output live q p := by
  unfold gainOf
  rw [keptOf_comm]
  ring

/-- The pairs of the dictionary of terms, by their labels. -/
theorem entry_ne {d : Dict (Finset Nat) Nat} (hn : d.keys.Nodup) {p q : Finset Nat × Nat} (hp : p ∈ d) (hq : q ∈ d) : p ≠ q ↔ p.1 ≠ q.1 := by
  refine ⟨fun h e => h ?_, fun h e => h (congrArg _ e)⟩
  exact List.inj_on_of_nodup_map hn hp hq e

theorem keptOf_keepNow {st : GSt} (h : CInv cfg ins out st) (hsub : out ⊆ cfg.output) {p q z : Finset Nat × Nat} (hp : p ∈ st.remaining) (hq : q ∈ st.remaining)
    (hz : z ∈ st.remaining) (hpq : p ≠ q) (hzp : z ≠ p) (hzq : z ≠ q) : keptOf out st.remaining.toFinset p q = keepNow cfg st p.1 q.1 := by
  have hn := h.base.base.keys
  ext d
  rw [mem_keepNow h.base.base.dims h.base.refs hsub h.common (mem_keys_of_mem hp) (mem_keys_of_mem hq) ((entry_ne hn hp hq).mp hpq)
    ⟨z.1, mem_keys_of_mem hz, (entry_ne hn hz hp).mp hzp, (entry_ne hn hz hq).mp hzq⟩]
  unfold keptOf
  rw [Finset.mem_filter]
  refine and_congr_right (fun _ => or_congr_right ?_)
  constructor
  · rintro ⟨r, hr, h1, h2, h3⟩
    rw [List.mem_toFinset] at hr
    exact ⟨r.1, mem_keys_of_mem hr, h3, (entry_ne hn hr hp).mp h1, (entry_ne hn hr hq).mp h2⟩
  · rintro ⟨k, hk, h3, h1, h2⟩
    obtain ⟨r, hr, rfl⟩ := List.mem_map.mp hk
    exact ⟨r, List.mem_toFinset.mpr hr, (entry_ne hn hr hp).mpr h1, (entry_ne hn hr hq).mpr h2, h3⟩

theorem greedyLoop_cold (hall : cfg.pushAll = true) (hcost : cfg.cost = costMemoryRemoved) (hs : ∀ c, 2 ≤ cfg.size c) {chooser : Chooser} {order : GOrder}
    (hc : ChooserFair chooser) (hcold : ColdChooser chooser) (ho : GOrderOK order) (hsub : out ⊆ cfg.output) (fuel : Nat) :
    ∀ {st st' : GSt}, CInv cfg ins out st → greedyLoop cfg chooser order fuel st = some (.ok st') → ∀ P : Path, st'.path <+: P →
      BestWhileDistinct cfg.size out cfg.output st.next st.remaining.toFinset (P.drop st.path.length) := by
  have hempty : ∀ {st : GSt}, CInv cfg ins out st → st.queue = [] → ∀ l, BestWhileDistinct cfg.size out cfg.output st.next st.remaining.toFinset l := by
    intro st h h0 l
    apply best_of_unjoined
    rintro p hp q hq ⟨hne, c, hc1, hc2, hc3⟩
    rw [List.mem_toFinset] at hp hq
    obtain ⟨x, hx, -⟩ := h.all p.1 (mem_keys_of_mem hp) q.1 (mem_keys_of_mem hq) ⟨(entry_ne h.base.base.keys hp hq).mp hne, c, hc1, hc2, hc3⟩
    rw [h0] at hx
    cases hx
  induction fuel with
  | zero =>
    intro st st' h hrun P hP
    rw [greedyLoop.eq_def] at hrun
    simp only at hrun
    split at hrun
    · rename_i h0
      exact hempty h h0 _
    · cases hrun
  | succ fuel ih =>
    intro st st' h hrun P hP
    rw [greedyLoop.eq_def] at hrun
    simp only at hrun
    split at hrun
    · rename_i h0
      exact hempty h h0 _
    · rename_i h0
      obtain ⟨st1, g1, g2, g3⟩ := greedyStep_cold hall hcost hs hc hcold ho hsub h h0
      rw [g1] at hrun
      have hih := ih g2 hrun P hP
      have hpre := (greedyLoop_prefix fuel hrun).trans hP
      rcases g3 with ⟨e1, e2, e3⟩ | ⟨k1, k2, a, b, m1, m2, hadj, hmin, hperm, hnew⟩
      · rw [e1, e2, e3] at hih
        exact hih
      · have hn := h.base.base.keys
        have hpm : ((k1, a) : Finset Nat × Nat) ∈ st.remaining := hperm.mem_iff.mpr (by simp)
        have hqm : ((k2, b) : Finset Nat × Nat) ∈ st.remaining := hperm.mem_iff.mpr (by simp)
        have hpq : ((k1, a) : Finset Nat × Nat) ≠ (k2, b) := (entry_ne hn hpm hqm).mpr hadj.1
        have hR : ∀ e, e ∈ (st.remaining.del k1).del k2 ↔ e ∈ st.remaining ∧ e ≠ (k1, a) ∧ e ≠ (k2, b) := by
          have hnd : st.remaining.Nodup := hn.of_map
          have hnd' := hperm.nodup_iff.mp hnd
          simp only [List.nodup_cons, List.mem_cons, not_or] at hnd'
          intro e
          rw [hperm.mem_iff]
          simp only [List.mem_cons]
          constructor
          · intro he
            exact ⟨Or.inr (Or.inr he), fun e' => hnd'.1.2 (e' ▸ he), fun e' => hnd'.2.1 (e' ▸ he)⟩
          · rintro ⟨he | he | he, h1, h2⟩
            · exact absurd he h1
            · exact absurd he h2
            · exact he
        have hlive : (st.remaining.toFinset.erase (k1, a)).erase (k2, b) = ((st.remaining.del k1).del k2).toFinset := by
          ext e
          rw [Finset.mem_erase, Finset.mem_erase, List.mem_toFinset, List.mem_toFinset, hR]
          tauto
        -- the step in the path
        have hdrop : ∃ rest, P.drop st.path.length = [a, b] :: rest ∧ (st1.path = st.path ++ [[a, b]] → rest = P.drop st1.path.length) := by
          obtain ⟨t, ht⟩ := hpre
          rcases hnew with ⟨hp, -, -⟩ | ⟨id, -, hp⟩
          · refine ⟨t, ?_, fun _ => ?_⟩
            · rw [← ht, hp, List.append_assoc, List.drop_left]; rfl
            · rw [← ht, List.drop_left]
          · refine ⟨[id, st.next] :: t, ?_, fun hh => ?_⟩
            · rw [← ht, hp, List.append_assoc, List.append_assoc, List.drop_left]; rfl
            · exfalso
              rw [hh] at hp
              have := congrArg List.length hp
              simp at this
        obtain ⟨rest, hd1, hd2⟩ := hdrop
        rw [hd1]
        obtain ⟨-, d, hdo, hdx, hdy⟩ := id hadj
        refine Or.inr (Or.inr ⟨(k1, a), List.mem_toFinset.mpr hpm, (k2, b), List.mem_toFinset.mpr hqm, rfl, ⟨hpq, d, hdo, hdx, hdy⟩, ?_, ?_⟩)
        · rintro r hr s hs' ⟨hrs, d', h1, h2, h3⟩
          rw [List.mem_toFinset] at hr hs'
          by_cases hthird : ∃ z ∈ st.remaining, z ≠ (k1, a) ∧ z ≠ (k2, b)
          · obtain ⟨z, hz, hz1, hz2⟩ := hthird
            have hgain : ∀ p q : Finset Nat × Nat, p ∈ st.remaining → q ∈ st.remaining → p ≠ q → (gainOf cfg.size out st.remaining.toFinset p q : ℚ) = - costNow cfg st p.1 q.1 := by
              intro p q hp hq hne
              have : ∃ z' ∈ st.remaining, z' ≠ p ∧ z' ≠ q := by
                by_cases u1 : ((k1, a) : Finset Nat × Nat) ≠ p ∧ ((k1, a) : Finset Nat × Nat) ≠ q
                · exact ⟨_, hpm, u1⟩
                · by_cases u2 : ((k2, b) : Finset Nat × Nat) ≠ p ∧ ((k2, b) : Finset Nat × Nat) ≠ q
                  · exact ⟨_, hqm, u2⟩
                  · refine ⟨z, hz, ?_, ?_⟩
                    · rintro rfl
                      rw [not_and_or, not_not, not_not] at u1 u2
                      rcases u1 with u1 | u1
                      · exact hz1 u1.symm
                      · rcases u2 with u2 | u2
                        · exact hz2 u2.symm
                        · exact hpq (u1.trans u2.symm)
                    · rintro rfl
                      rw [not_and_or, not_not, not_not] at u1 u2
                      rcases u1 with u1 | u1
                      · rcases u2 with u2 | u2
                        · exact hpq (u1.trans u2.symm)
                        · exact hz2 u2.symm
                      · exact hz1 u1.symm
              obtain ⟨z', hz', w1, w2⟩ := this
              unfold gainOf costNow
              rw [keptOf_keepNow h hsub hp hq hz' hne w1 w2]
              unfold Paths.sizeOf
              push_cast
              ring
            have := hmin r.1 (mem_keys_of_mem hr) s.1 (mem_keys_of_mem hs') ⟨(entry_ne hn hr hs').mp hrs, d', h1, h2, h3⟩
            have e1 := hgain r s hr hs' hrs
            have e2 := hgain (k1, a) (k2, b) hpm hqm hpq
            have : (gainOf cfg.size out st.remaining.toFinset r s : ℚ) ≤ gainOf cfg.size out st.remaining.toFinset (k1, a) (k2, b) := by
              rw [e1, e2]
              exact neg_le_neg this
            exact_mod_cast this
          · push Not at hthird
            by_cases u1 : r = (k1, a)
            · have u2 : s = (k2, b) := hthird s hs' (fun e => hrs (u1.trans e.symm))
              rw [u1, u2]
            · have u2 : r = (k2, b) := hthird r hr u1
              have u3 : s = (k1, a) := by
                by_contra u
                exact hrs (u2.trans (hthird s hs' u).symm)
              rw [u2, u3, gainOf_comm]
        · by_cases hthird : ∃ z ∈ st.remaining, z ≠ (k1, a) ∧ z ≠ (k2, b)
          · obtain ⟨z, hz, hz1, hz2⟩ := hthird
            rw [keptOf_keepNow h hsub hpm hqm hz hpq hz1 hz2, hlive]
            rcases hnew with ⟨p1, p2, p3⟩ | ⟨id, p1, -⟩
            · rw [hd2 p1]
              rw [p2] at hih
              have : st1.remaining.toFinset = insert (keepNow cfg st k1 k2, st.next) ((st.remaining.del k1).del k2).toFinset := by
                rw [List.toFinset_eq_of_perm _ _ p3, List.toFinset_cons]
              rw [← this]
              exact hih
            · refine best_of_equal (Finset.mem_insert_self _ _) (Finset.mem_insert_of_mem (List.mem_toFinset.mpr p1)) ?_ rfl
              intro e
              have := congrArg Prod.snd e
              simp only at this
              have hlt := h.base.tpre.lt id (List.mem_map_of_mem (f := Prod.snd) ((hR _).mp p1).1)
              omega
          · push Not at hthird
            apply best_of_unjoined
            have hnil : (st.remaining.del k1).del k2 = [] := by
              rw [List.eq_nil_iff_forall_not_mem]
              intro e he
              exact ((hR e).mp he).2.2 (hthird e ((hR e).mp he).1 ((hR e).mp he).2.1)
            rw [hlive, hnil]
            rintro p hp q hq ⟨hne, -⟩
            simp only [List.toFinset_nil, Finset.mem_insert, Finset.notMem_empty, or_false] at hp hq
            exact hne (hp.trans hq.symm)

end

theorem ssaGreedy_cold {fuel : Nat} {size : Nat → Nat} (hs : ∀ c, 2 ≤ size c) {chooser : Chooser} (hc : ChooserFair chooser) (hcold : ColdChooser chooser)
    {order : GOrder} (ho : GOrderOK order) {inputs : List (Finset Nat)} (hn : inputs.Nodup) {output reserved : Finset Nat}
    (hres : IsReserved inputs output reserved) {path : Path}
    (hrun : ssaGreedy fuel size costMemoryRemoved (some chooser) order inputs output = some (.ok path)) :
    BestWhileDistinct size output reserved inputs.length (startLive inputs) path := by
  match inputs with
  | [] =>
    apply best_of_unjoined
    intro p hp
    simp [startLive] at hp
  | [k] =>
    apply best_of_unjoined
    rintro p hp q hq ⟨hne, -⟩
    simp [startLive] at hp hq
    exact hne (hp.trans hq.symm)
  | k :: k' :: ks =>
    simp only [ssaGreedy] at hrun
    generalize hout : output ∪ (k' :: ks).foldl (· ∩ ·) k = out' at hrun
    have hmem : ∀ c, c ∈ out' ↔ c ∈ output ∨ ∀ s ∈ k :: k' :: ks, c ∈ s := by
      intro c
      rw [← hout, Finset.mem_union, mem_foldl_inter]
      simp only [List.mem_cons, forall_eq_or_imp]
    have hro : reserved = out' := by
      ext c
      rw [hres c, hmem c]
    generalize hcfg : ({ size, cost := costMemoryRemoved, output := out', pushAll := Option.isSome (some chooser) } : GCfg) = cfg at hrun
    have hco : cfg.output = out' := by rw [← hcfg]
    have hcs : cfg.size = size := by rw [← hcfg]
    have hcost : cfg.cost = costMemoryRemoved := by rw [← hcfg]
    have hall : cfg.pushAll = true := by rw [← hcfg]; rfl
    generalize hins : k :: k' :: ks = ins at *
    have h0 := greedyStart_inv2 (cfg := cfg) (ins := ins) (out := output) (by rw [← hins]; simp)
    obtain ⟨hr, hp0⟩ := start_remaining (out' := out') hn
    rw [hco] at h0
    have hkeys : (greedyStart out' ins).remaining.keys = ins := by rw [hr, zipIdx_keys]
    have hds : ∀ d ∈ order.dims ((greedyStart out' ins).remaining.keys.foldl (fun s key => s ∪ key \ out') ∅), d ∉ cfg.output := by
      intro d hd
      rw [(ho.1 _).2, mem_foldl_dims] at hd
      rw [hco]
      rcases hd with hd | ⟨_, _, _, hd⟩
      · simp at hd
      · exact hd
    obtain ⟨q, g1, g2, g3⟩ := initQueue_all hall hcost _ hds (greedyStart out' ins) h0.base.dims
    obtain ⟨q', g1', g2', -⟩ := initQueue_cover _ h0 hds
    have hqe : (greedyStart out' ins).queue = [] := by
      unfold greedyStart
      rw [dedupLoop_nodup ins 0 _ hn (by simp [Dict.keys])]
    have hqq : (greedyStart out' ins).queue ++ q' = q := by
      rw [g1] at g1'
      have := congrArg (fun e : Except PyErr GSt => match e with | .ok s => s.queue | .error _ => []) g1'
      simp only [hqe, List.nil_append] at this
      rw [hqe, List.nil_append]
      exact this.symm
    rw [hqq] at g2'
    have hnext : (greedyStart out' ins).next = ins.length := by
      unfold greedyStart
      rw [dedupLoop_nodup ins 0 _ hn (by simp [Dict.keys])]
    rw [hqe, List.nil_append] at g1
    rw [g1] at hrun
    simp only at hrun
    have hinv : CInv cfg ins output { greedyStart out' ins with queue := q } := by
      refine ⟨g2', ?_, g2, ?_⟩
      · intro d hd hdo x hx
        rw [hco] at hd
        have hx' : x ∈ (greedyStart out' ins).remaining.keys := hx
        rw [hkeys] at hx'
        exact ((hmem d).mp hd).resolve_left hdo x hx'
      · rintro x hx y hy ⟨hxy, d, hdo, hdx, hdy⟩
        refine g3 d ?_ x hx y hy hxy hdx hdy
        rw [(ho.1 _).2, mem_foldl_dims]
        exact Or.inr ⟨x, hx, hdx, by rw [← hco]; exact hdo⟩
    generalize hl : greedyLoop cfg ((some chooser).getD simpleChooser) order fuel _ = r at hrun
    match r, hrun with
    | some (.ok st), hrun =>
      have hfin : st.path <+: path := by
        simp only at hrun
        have hrun := Option.some.inj hrun
        unfold finalPhase at hrun
        split at hrun
        · cases hrun
        · cases hrun
          exact finalLoop_prefix _ _ _ _ _
      have := greedyLoop_cold hall hcost (by rw [hcs]; exact hs) hc hcold ho (by rw [hco]; intro c hc'; exact (hmem c).mpr (Or.inl hc')) fuel hinv hl path hfin
      rw [hcs, hco] at this
      simp only at this
      rw [hnext, hr, hp0] at this
      rw [hro]
      exact this

/-- `RandomGreedy` at temperature zero with the default cost, if all sizes are at least two and no two operands have the same labels: each step of the SSA
path contracts, of the remaining operands with a common label that is neither in the output nor on all inputs, two with the greatest `reduced_size`, until
two operands have the same labels or no two have such a label in common. -/
theorem C100_temperature_zero {fuel : Nat} {size : Nat → Nat} (hs : ∀ c, 2 ≤ size c) {nbranch : Nat} (hb : 0 < nbranch) {pick : Path → List ℚ → Nat}
    (hpick : PickOK pick) (hcold : PickCold pick) {order : GOrder} (ho : GOrderOK order) {inputs : List (Finset Nat)} (hn : inputs.Nodup)
    {output reserved : Finset Nat} (hres : IsReserved inputs output reserved) {path : Path}
    (hrun : ssaGreedy fuel size costMemoryRemoved (some (thermalChooser nbranch pick)) order inputs output = some (.ok path)) :
    BestWhileDistinct size output reserved inputs.length (startLive inputs) path :=
  ssaGreedy_cold hs (thermal_fair nbranch hb hpick) (fun path q rem c h => C49_thermal_cold nbranch hpick hcold path q rem c h) ho hn hres hrun

/-! ## Examples -/

-- the operands of `C100_counterexample` (here `ad` and `bd` are contracted after `d` and `cd`)
theorem later_cold : ssaGreedy 20 laterSize costMemoryRemoved (some (thermalChooser 8 (fun _ _ => 0))) gAscending laterInputs {0, 1, 2} =
    some (.ok [[0, 4], [1, 2], [5, 6], [3, 7]]) := by decide +kernel

example : BestWhileDistinct laterSize {0, 1, 2} {0, 1, 2} 5 (startLive laterInputs) [[0, 4], [1, 2], [5, 6], [3, 7]] :=
  C100_temperature_zero (by intro c; unfold laterSize; split <;> [decide; (split <;> decide)]) (by decide)
    (by intro path costs h; exact List.length_pos_iff.mpr h) (fun _ _ _ => rfl) gAscending_ok (by decide)
    (by
      intro c
      constructor
      · exact Or.inl
      · rintro (h | h)
        · exact h
        · have h1 := h {1} (by decide)
          have h2 := h {3} (by decide)
          simp only [Finset.mem_singleton] at h1 h2
          omega) later_cold

-- the specification refuses the path that contracts `cd` and `ad` first
example : ¬ BestWhileDistinct laterSize {0, 1, 2} {0, 1, 2} 5 (startLive laterInputs) [[0, 1], [2, 3], [4, 5], [6, 7]] := by
  have h0 : (({2, 3}, 0) : Finset Nat × Nat) ∈ startLive laterInputs := by decide
  have h4 : (({3}, 4) : Finset Nat × Nat) ∈ startLive laterInputs := by decide
  have hj : Linked {0, 1, 2} (({2, 3}, 0) : Finset Nat × Nat) ({3}, 4) := ⟨by decide, 3, by decide, by decide, by decide⟩
  rintro (h | h | ⟨p, hp, q, hq, he, -, hmax, -⟩)
  · revert h
    decide
  · exact h _ h0 _ h4 hj
  · have hp' : p = ({2, 3}, 0) := by
      have : p.2 = 0 := by simp only [List.cons.injEq] at he; exact he.1.symm
      exact (by decide : ∀ p ∈ startLive laterInputs, p.2 = 0 → p = ({2, 3}, 0)) p hp this
    have hq' : q = ({0, 3}, 1) := by
      have : q.2 = 1 := by simp only [List.cons.injEq] at he; exact he.2.1.symm
      exact (by decide : ∀ q ∈ startLive laterInputs, q.2 = 1 → q = ({0, 3}, 1)) q hq this
    subst hp' hq'
    exact absurd (hmax _ h0 _ h4 hj) (by decide +kernel)

end OE.Props
