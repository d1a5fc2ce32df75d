import Verif.Spec.LocalChoice
import Verif.Props.Greedy3
import Mathlib.Tactic.Ring
import Mathlib.Tactic.Push

/-!
# C100: which pair greedy contracts

The documentation says that greedy contracts at each step the pair that maximises `reduced_size`. It is so for the first step, but not for later
ones: a new term puts only its best candidate in the queue, and when that is used up its other pairs are forgotten.
-/

namespace OE.Props
open OE OE.Py OE.Spec OE.Paths

section
variable {cfg : GCfg}

/-- The labels that `_get_candidate` keeps. -/
def keepNow (cfg : GCfg) (st : GSt) (a b : Finset Nat) : Finset Nat :=
  ((a ∪ b) ∩ cfg.output) ∪ ((a ∩ b) ∩ st.ref3) ∪ (((a ∪ b) \ (a ∩ b)) ∩ st.ref2)

/-- The default cost of contracting two terms now. -/
def costNow (cfg : GCfg) (st : GSt) (a b : Finset Nat) : ℚ :=
  (Paths.sizeOf cfg.size (keepNow cfg st a b) : ℚ) - Paths.sizeOf cfg.size a - Paths.sizeOf cfg.size b

theorem keepNow_comm (st : GSt) (a b : Finset Nat) : keepNow cfg st a b = keepNow cfg st b a := by
  unfold keepNow
  rw [Finset.union_comm a b, Finset.inter_comm a b]

theorem costNow_comm (st : GSt) (a b : Finset Nat) : costNow cfg st a b = costNow cfg st b a := by
  unfold costNow
  rw [keepNow_comm, sub_right_comm]

/-- A candidate of the queue as it is computed now. -/
def Fresh (cfg : GCfg) (st : GSt) (c : GCand) : Prop := c.cost = costNow cfg st c.k1 c.k2 ∧ c.k12 = keepNow cfg st c.k1 c.k2

theorem candOf_fresh (hcost : cfg.cost = costMemoryRemoved) (st : GSt) (seed : Path) (a b : Finset Nat) :
    Fresh cfg st (candOf cfg st seed a b) ∧ (candOf cfg st seed a b).cost = costNow cfg st a b := by
  unfold candOf Fresh
  simp only [hcost, costMemoryRemoved]
  split
  · refine ⟨⟨?_, keepNow_comm st a b⟩, rfl⟩
    show costNow cfg st a b = _
    exact costNow_comm st a b
  · exact ⟨⟨rfl, rfl⟩, rfl⟩

theorem candsOf_mem {st : GSt} {k1 k2 : Finset Nat} {k2s : List (Finset Nat)} (h : k2 ∈ k2s) : ∃ seed, candOf cfg st seed k1 k2 ∈ candsOf cfg st k1 k2s := by
  obtain ⟨i, hi, rfl⟩ := List.mem_iff_getElem.mp h
  exact ⟨_, List.mem_map.mpr ⟨(k2s[i], i), by rw [List.mk_mem_zipIdx_iff_getElem?]; simp [hi], rfl⟩⟩

/-- `_push_candidate` pushes one candidate that costs at most as much as each of `k2s`. -/
theorem pushCandidate_least (hcost : cfg.cost = costMemoryRemoved) (st : GSt) {k1 : Finset Nat} {k2s : List (Finset Nat)} (h1 : k1 ∈ st.remaining.keys)
    (h2 : ∀ k ∈ k2s, k ∈ st.remaining.keys) (hne : k2s ≠ []) :
    ∃ q, pushCandidate cfg st k1 k2s = .ok { st with queue := st.queue ++ q } ∧
      (∀ c ∈ q, Fresh cfg st c ∧ ∃ k2 ∈ k2s, (c.k1 = k1 ∧ c.k2 = k2) ∨ (c.k1 = k2 ∧ c.k2 = k1)) ∧
      ∀ k2 ∈ k2s, ∃ c ∈ q, c.cost ≤ costNow cfg st k1 k2 := by
  have hmap : k2s.zipIdx.mapM (fun p => getCandidate cfg st (st.path ++ [[st.queue.length, p.2]]) k1 p.1) = .ok (candsOf cfg st k1 k2s) :=
    mapM_ok_map (fun p hp => getCandidate_eq cfg st _ h1 (h2 _ ((List.mem_zipIdx' hp).2 ▸ List.getElem_mem _)))
  have hmade : ∀ c ∈ candsOf cfg st k1 k2s, Fresh cfg st c ∧ ∃ k2 ∈ k2s, (c.k1 = k1 ∧ c.k2 = k2) ∨ (c.k1 = k2 ∧ c.k2 = k1) := by
    intro c hc
    obtain ⟨seed, k2, hk2, rfl⟩ := mem_candsOf hc
    exact ⟨(candOf_fresh hcost st seed k1 k2).1, k2, hk2, candOf_mem st seed k1 k2⟩
  unfold pushCandidate
  rw [hmap]
  simp only [bind, Except.bind]
  by_cases hp : cfg.pushAll = true
  · rw [if_pos hp]
    refine ⟨_, rfl, hmade, ?_⟩
    intro k2 hk2
    obtain ⟨seed, hm⟩ := candsOf_mem (cfg := cfg) (st := st) (k1 := k1) hk2
    exact ⟨_, hm, (candOf_fresh hcost st seed k1 k2).2.le⟩
  · rw [if_neg hp]
    obtain ⟨c, r, hc⟩ := popMin_ne_none (le := GCand.le) (l := candsOf cfg st k1 k2s) (by
      obtain ⟨k2, hk2⟩ := List.exists_mem_of_ne_nil _ hne
      obtain ⟨seed, hm⟩ := candsOf_mem (cfg := cfg) (st := st) (k1 := k1) hk2
      exact List.ne_nil_of_mem hm)
    rw [hc]
    refine ⟨[c], rfl, ?_, ?_⟩
    · intro c' hc'
      rw [List.mem_singleton] at hc'
      subst hc'
      exact hmade _ ((popMin_perm hc).mem_iff.mpr (by simp))
    · intro k2 hk2
      obtain ⟨seed, hm⟩ := candsOf_mem (cfg := cfg) (st := st) (k1 := k1) hk2
      refine ⟨c, by simp, ?_⟩
      rw [← (candOf_fresh hcost st seed k1 k2).2]
      rcases (gcand_le_iff _ _).mp (popMin_le gcand_le_total gcand_le_trans hc _ hm) with h | h
      · exact h.le
      · exact h.1.le

theorem initPush_least (hcost : cfg.cost = costMemoryRemoved) (l : List (Finset Nat)) (hl : l.Nodup) : ∀ (st : GSt), (∀ k ∈ l, k ∈ st.remaining.keys) →
    ∃ q, initPush cfg l st = .ok { st with queue := st.queue ++ q } ∧
      (∀ c ∈ q, Fresh cfg st c ∧ c.k1 ∈ l ∧ c.k2 ∈ l ∧ c.k1 ≠ c.k2) ∧
      ∀ x ∈ l, ∀ y ∈ l, x ≠ y → ∃ c ∈ q, c.cost ≤ costNow cfg st x y := by
  induction l with
  | nil => exact fun st _ => ⟨[], by simp [initPush], by simp, by simp⟩
  | cons k1 ks ih =>
    intro st hm
    cases ks with
    | nil => exact ⟨[], by simp [initPush], by simp, by simp⟩
    | cons k2 ks =>
      rw [List.nodup_cons] at hl
      obtain ⟨q, g1, g2, g3⟩ := pushCandidate_least hcost st (k1 := k1) (k2s := k2 :: ks) (hm _ (by simp))
        (fun k hk => hm k (List.mem_cons_of_mem _ hk)) (by simp)
      obtain ⟨q', f1, f2, f3⟩ := ih hl.2 { st with queue := st.queue ++ q } (fun k hk => hm k (List.mem_cons_of_mem _ hk))
      refine ⟨q ++ q', ?_, ?_, ?_⟩
      · rw [initPush, g1]
        simp only [bind, Except.bind]
        rw [f1]
        simp
      · intro c hc
        rcases List.mem_append.mp hc with hc | hc
        · obtain ⟨a, k, hk, hh | hh⟩ := g2 c hc
          · rw [hh.1, hh.2]; exact ⟨a, by simp, List.mem_cons_of_mem _ hk, fun e => hl.1 (e ▸ hk)⟩
          · rw [hh.1, hh.2]; exact ⟨a, List.mem_cons_of_mem _ hk, by simp, fun e => hl.1 (e ▸ hk)⟩
        · obtain ⟨a, b, c', d⟩ := f2 c hc
          exact ⟨a, List.mem_cons_of_mem _ b, List.mem_cons_of_mem _ c', d⟩
      · intro x hx y hy hxy
        rcases List.mem_cons.mp hx with ex | hx'
        · rcases List.mem_cons.mp hy with ey | hy'
          · exact absurd (ex.trans ey.symm) hxy
          · obtain ⟨c, hc, hle⟩ := g3 y hy'
            exact ⟨c, List.mem_append_left _ hc, by rw [ex]; exact hle⟩
        · rcases List.mem_cons.mp hy with ey | hy'
          · obtain ⟨c, hc, hle⟩ := g3 x hx'
            exact ⟨c, List.mem_append_left _ hc, by rw [ey, costNow_comm]; exact hle⟩
          · obtain ⟨c, hc, hle⟩ := f3 x hx' y hy' hxy
            exact ⟨c, List.mem_append_right _ hc, hle⟩

theorem initQueue_least (hcost : cfg.cost = costMemoryRemoved) (ds : List Nat) (hds : ∀ d ∈ ds, d ∉ cfg.output) : ∀ (st : GSt),
    st.remaining.keys.Nodup → DimsOK cfg.output st.dimKeys st.remaining.keys →
    ∃ q, initQueue cfg ds st = .ok { st with queue := st.queue ++ q } ∧
      (∀ c ∈ q, Fresh cfg st c ∧ c.k1 ∈ st.remaining.keys ∧ c.k2 ∈ st.remaining.keys ∧ Adj cfg.output c.k1 c.k2) ∧
      ∀ d ∈ ds, ∀ x ∈ st.remaining.keys, ∀ y ∈ st.remaining.keys, x ≠ y → d ∈ x → d ∈ y → ∃ c ∈ q, c.cost ≤ costNow cfg st x y := by
  induction ds with
  | nil => exact fun st _ _ => ⟨[], by simp [initQueue], by simp, by simp⟩
  | cons d ds ih =>
    intro st hk hdk
    have hp := sortedKeys_perm st.remaining (st.dimKeys d)
    have hmem : ∀ k, k ∈ sortedKeys st.remaining (st.dimKeys d) ↔ k ∈ st.remaining.keys ∧ d ∈ k := by
      intro k
      rw [hp.mem_iff, List.mem_filter, decide_eq_true_eq, hdk d k]
      have := hds d (by simp)
      tauto
    have hnd : (sortedKeys st.remaining (st.dimKeys d)).Nodup := hp.nodup_iff.mpr (hk.filter _)
    obtain ⟨q, g1, g2, g3⟩ := initPush_least hcost (sortedKeys st.remaining (st.dimKeys d)) hnd st (fun k h => ((hmem k).mp h).1)
    obtain ⟨q', f1, f2, f3⟩ := ih (fun d' hd' => hds d' (by simp [hd'])) { st with queue := st.queue ++ q } hk hdk
    refine ⟨q ++ q', ?_, ?_, ?_⟩
    · rw [initQueue, g1]
      simp only [bind, Except.bind]
      rw [f1]
      simp
    · intro c hc
      rcases List.mem_append.mp hc with hc | hc
      · obtain ⟨a, b, c', e⟩ := g2 c hc
        exact ⟨a, ((hmem _).mp b).1, ((hmem _).mp c').1, e, d, hds d (by simp), ((hmem _).mp b).2, ((hmem _).mp c').2⟩
      · exact f2 c hc
    · intro d' hd' x hx y hy hxy hdx hdy
      rcases List.mem_cons.mp hd' with e | hd'
      · subst e
        obtain ⟨c, hc, hle⟩ := g3 x ((hmem x).mpr ⟨hx, hdx⟩) y ((hmem y).mpr ⟨hy, hdy⟩) hxy
        exact ⟨c, List.mem_append_left _ hc, hle⟩
      · obtain ⟨c, hc, hle⟩ := f3 d' hd' x hx y hy hxy hdx hdy
        exact ⟨c, List.mem_append_right _ hc, hle⟩

/-! ## The path only grows -/

theorem contractKeys_prefix {st st' : GSt} {k1 k2 k12 : Finset Nat} (h : contractKeys cfg st k1 k2 k12 = .ok st') :
    ∃ a b rest, st.remaining.get? k1 = some a ∧ (st.remaining.del k1).get? k2 = some b ∧ st'.path = st.path ++ [a, b] :: rest := by
  unfold contractKeys popKey at h
  cases h1 : st.remaining.get? k1 with
  | none => rw [h1] at h; cases h
  | some a =>
    rw [h1] at h
    simp only [bind, Except.bind] at h
    cases h2 : (st.remaining.del k1).get? k2 with
    | none => rw [h2] at h; cases h
    | some b =>
      rw [h2] at h
      simp only at h
      cases h3 : removeKey st.dimKeys cfg.output k1 with
      | error e => rw [h3] at h; cases h
      | ok dk =>
        rw [h3] at h
        simp only at h
        cases h4 : removeKey dk cfg.output k2 with
        | error e => rw [h4] at h; cases h
        | ok dk' =>
          rw [h4] at h
          simp only at h
          cases h5 : ((st.remaining.del k1).del k2).get? k12 with
          | none =>
            rw [h5] at h
            cases h
            exact ⟨a, b, [], rfl, rfl, rfl⟩
          | some id =>
            rw [h5] at h
            cases h
            exact ⟨a, b, [[id, st.next]], rfl, rfl, by simp⟩

theorem pushCandidate_path {st st' : GSt} {k1 : Finset Nat} {k2s : List (Finset Nat)} (h : pushCandidate cfg st k1 k2s = .ok st') : st'.path = st.path := by
  unfold pushCandidate at h
  cases hm : k2s.zipIdx.mapM (fun p => getCandidate cfg st (st.path ++ [[st.queue.length, p.2]]) k1 p.1) with
  | error e => rw [hm] at h; cases h
  | ok cs =>
    rw [hm] at h
    simp only [bind, Except.bind] at h
    split at h
    · cases h; rfl
    · split at h
      · cases h
      · cases h; rfl

theorem pushNew_path {order : GOrder} {st st' : GSt} {k1 : Finset Nat} (h : pushNew cfg order st k1 = .ok st') : st'.path = st.path := by
  unfold pushNew at h
  simp only at h
  split at h
  · cases h; rfl
  · exact pushCandidate_path h

theorem greedyStep_prefix {chooser : Chooser} {order : GOrder} {st st' : GSt} (h : greedyStep cfg chooser order st = .ok st') : st.path <+: st'.path := by
  unfold greedyStep at h
  split at h
  · cases h; exact List.prefix_rfl
  · rename_i c q hc
    cases hk : contractKeys cfg { st with queue := q } c.k1 c.k2 c.k12 with
    | error e => rw [hk] at h; cases h
    | ok s =>
      rw [hk] at h
      obtain ⟨a, b, rest, -, -, hp⟩ := contractKeys_prefix hk
      rw [pushNew_path h, hp]
      exact List.prefix_append _ _

theorem greedyLoop_prefix {chooser : Chooser} {order : GOrder} (fuel : Nat) : ∀ {st st' : GSt}, greedyLoop cfg chooser order fuel st = some (.ok st') →
    st.path <+: st'.path := by
  induction fuel with
  | zero =>
    intro st st' h
    rw [greedyLoop.eq_def] at h
    simp only at h
    split at h
    · cases h; exact List.prefix_rfl
    · cases h
  | succ fuel ih =>
    intro st st' h
    rw [greedyLoop.eq_def] at h
    simp only at h
    split at h
    · cases h; exact List.prefix_rfl
    · cases hs : greedyStep cfg chooser order st with
      | error e => rw [hs] at h; cases h
      | ok s =>
        rw [hs] at h
        exact (greedyStep_prefix hs).trans (ih h)

theorem finalLoop_prefix (n : Nat) : ∀ (cur : FEntry) (q : List FEntry) (next : Nat) (path : Path), path <+: finalLoop cfg n cur q next path := by
  induction n with
  | zero => exact fun _ _ _ _ => List.prefix_rfl
  | succ n ih =>
    intro cur q next path
    rw [finalLoop]
    split
    · exact List.prefix_rfl
    · simp only
      split
      · exact List.prefix_rfl
      · exact (List.prefix_append _ _).trans (ih _ _ _ _)

/-! ## The start -/

theorem set_new {d : Dict (Finset Nat) Nat} {k : Finset Nat} (h : k ∉ d.keys) (v : Nat) : d.set k v = d ++ [(k, v)] := by
  induction d with
  | nil => rfl
  | cons e d ih =>
    obtain ⟨k', v'⟩ := e
    simp only [Dict.keys, List.map_cons, List.mem_cons, not_or] at h
    rw [Dict.set, if_neg (Ne.symm h.1), ih h.2]
    rfl

theorem dedupLoop_nodup (ks : List (Finset Nat)) : ∀ (i : Nat) (st : GSt), ks.Nodup → (∀ k ∈ ks, k ∉ st.remaining.keys) →
    dedupLoop ks i st = { st with remaining := st.remaining ++ ks.zipIdx i } := by
  induction ks with
  | nil => intro i st _ _; simp [dedupLoop]
  | cons k ks ih =>
    intro i st hn hk
    rw [List.nodup_cons] at hn
    have h0 : st.remaining.get? k = none := Dict.get?_eq_none.mpr (hk k (by simp))
    rw [dedupLoop, dedupStep, h0]
    simp only
    rw [set_new (hk k (by simp)), ih _ _ hn.2]
    · simp [List.zipIdx_cons, List.append_assoc]
    · intro k' hk' hm
      simp only [Dict.keys, List.map_append, List.map_cons, List.map_nil, List.mem_append, List.mem_singleton] at hm
      rcases hm with hm | hm
      · exact hk k' (List.mem_cons_of_mem _ hk') hm
      · exact hn.1 (hm ▸ hk')

theorem start_remaining {out' : Finset Nat} {ins : List (Finset Nat)} (hn : ins.Nodup) :
    (greedyStart out' ins).remaining = ins.zipIdx ∧ (greedyStart out' ins).path = [] := by
  unfold greedyStart
  rw [dedupLoop_nodup ins 0 _ hn (by simp [Dict.keys])]
  simp

theorem zipIdx_keys (ins : List (Finset Nat)) : Dict.keys (ins.zipIdx : Dict (Finset Nat) Nat) = ins := by
  simp [Dict.keys]

theorem card_three {S : Finset (Finset Nat)} {x y : Finset Nat} (hx : x ∈ S) (hy : y ∈ S) (hxy : x ≠ y) : 3 ≤ S.card ↔ ∃ z ∈ S, z ≠ x ∧ z ≠ y := by
  have h2 : ({x, y} : Finset (Finset Nat)).card = 2 := Finset.card_pair hxy
  constructor
  · intro h
    obtain ⟨z, hz, hn⟩ := Finset.exists_mem_notMem_of_card_lt_card (s := {x, y}) (t := S) (by omega)
    simp only [Finset.mem_insert, Finset.mem_singleton, not_or] at hn
    exact ⟨z, hz, hn⟩
  · rintro ⟨z, hz, h1, h3⟩
    have : ({z, x, y} : Finset (Finset Nat)).card = 3 := by
      rw [Finset.card_insert_of_notMem (by simp [h1, h3]), h2]
    rw [← this]
    exact Finset.card_le_card (by intro w hw; simp only [Finset.mem_insert, Finset.mem_singleton] at hw; rcases hw with rfl | rfl | rfl <;> assumption)

theorem card_two {S : Finset (Finset Nat)} {x : Finset Nat} (hx : x ∈ S) : 2 ≤ S.card ↔ ∃ z ∈ S, z ≠ x := by
  constructor
  · intro h
    obtain ⟨z, hz, hn⟩ := Finset.exists_mem_notMem_of_card_lt_card (s := {x}) (t := S) (by rw [Finset.card_singleton]; omega)
    exact ⟨z, hz, by simpa using hn⟩
  · rintro ⟨z, hz, h1⟩
    rw [← Finset.card_pair h1]
    exact Finset.card_le_card (by intro w hw; simp only [Finset.mem_insert, Finset.mem_singleton] at hw; rcases hw with rfl | rfl <;> assumption)

/-- The labels that are kept. -/
theorem mem_keepNow_reserved {st : GSt} (hdims : DimsOK cfg.output st.dimKeys st.remaining.keys) (hrefs : RefsOK cfg.output st) {A B : Finset Nat}
    (hA0 : A ∈ st.remaining.keys) (hB0 : B ∈ st.remaining.keys) (hne : A ≠ B) (d : Nat) :
    d ∈ keepNow cfg st A B ↔ d ∈ A ∪ B ∧ (d ∈ cfg.output ∨ ∃ z ∈ st.remaining.keys, d ∈ z ∧ z ≠ A ∧ z ≠ B) := by
  unfold keepNow
  simp only [Finset.mem_union, Finset.mem_inter, Finset.mem_sdiff]
  by_cases hdo : d ∈ cfg.output
  · constructor
    · intro h
      refine ⟨?_, Or.inl hdo⟩
      rcases h with (h | h) | h
      · exact h.1
      · exact Or.inl h.1.1
      · exact h.1.1
    · intro h
      exact Or.inl (Or.inl ⟨h.1, hdo⟩)
  · rw [hrefs.two d hdo, hrefs.three d hdo]
    have hD : ∀ k, k ∈ st.dimKeys d ↔ d ∈ k ∧ k ∈ st.remaining.keys := by
      intro k
      rw [hdims d k]
      tauto
    by_cases h1 : d ∈ A
    · have hA : A ∈ st.dimKeys d := (hD _).mpr ⟨h1, hA0⟩
      by_cases h2 : d ∈ B
      · have hB : B ∈ st.dimKeys d := (hD _).mpr ⟨h2, hB0⟩
        have key : 3 ≤ (st.dimKeys d).card ↔ ∃ z ∈ st.remaining.keys, d ∈ z ∧ z ≠ A ∧ z ≠ B := by
          rw [card_three hA hB hne]
          constructor
          · rintro ⟨z, hz, h⟩; exact ⟨z, ((hD z).mp hz).2, ((hD z).mp hz).1, h⟩
          · rintro ⟨z, hz, hdz, h⟩; exact ⟨z, (hD z).mpr ⟨hdz, hz⟩, h⟩
        simp [h1, h2, hdo, key]
      · have key : 2 ≤ (st.dimKeys d).card ↔ ∃ z ∈ st.remaining.keys, d ∈ z ∧ z ≠ A ∧ z ≠ B := by
          rw [card_two hA]
          constructor
          · rintro ⟨z, hz, h⟩; exact ⟨z, ((hD z).mp hz).2, ((hD z).mp hz).1, h, fun e => h2 (e ▸ ((hD z).mp hz).1)⟩
          · rintro ⟨z, hz, hdz, h, _⟩; exact ⟨z, (hD z).mpr ⟨hdz, hz⟩, h⟩
        simp [h1, h2, hdo, key]
    · by_cases h2 : d ∈ B
      · have hB : B ∈ st.dimKeys d := (hD _).mpr ⟨h2, hB0⟩
        have key : 2 ≤ (st.dimKeys d).card ↔ ∃ z ∈ st.remaining.keys, d ∈ z ∧ z ≠ A ∧ z ≠ B := by
          rw [card_two hB]
          constructor
          · rintro ⟨z, hz, h⟩; exact ⟨z, ((hD z).mp hz).2, ((hD z).mp hz).1, fun e => h1 (e ▸ ((hD z).mp hz).1), h⟩
          · rintro ⟨z, hz, hdz, _, h⟩; exact ⟨z, (hD z).mpr ⟨hdz, hz⟩, h⟩
        simp [h1, h2, hdo, key]
      · simp [h1, h2]

/-- The labels that are kept, if a third term remains. -/
theorem mem_keepNow {st : GSt} {output : Finset Nat} (hdims : DimsOK cfg.output st.dimKeys st.remaining.keys) (hrefs : RefsOK cfg.output st)
    (hsub : output ⊆ cfg.output) (hcom : ∀ d ∈ cfg.output, d ∉ output → ∀ k ∈ st.remaining.keys, d ∈ k) {A B : Finset Nat} (hA0 : A ∈ st.remaining.keys)
    (hB0 : B ∈ st.remaining.keys) (hne : A ≠ B) (hthird : ∃ z ∈ st.remaining.keys, z ≠ A ∧ z ≠ B) (d : Nat) :
    d ∈ keepNow cfg st A B ↔ d ∈ A ∪ B ∧ (d ∈ output ∨ ∃ z ∈ st.remaining.keys, d ∈ z ∧ z ≠ A ∧ z ≠ B) := by
  rw [mem_keepNow_reserved hdims hrefs hA0 hB0 hne]
  refine and_congr_right (fun _ => ⟨?_, fun h => h.imp (fun h => hsub h) id⟩)
  rintro (h | h)
  · by_cases ho : d ∈ output
    · exact Or.inl ho
    · obtain ⟨z, hz, h1, h2⟩ := hthird
      exact Or.inr ⟨z, hz, hcom d h ho z hz, h1, h2⟩
  · exact Or.inr h

/-- At the start the labels kept are those of the specification. -/
theorem keepNow_start {st : GSt} {ins : List (Finset Nat)} {output : Finset Nat} (hkeys : st.remaining.keys = ins) (hn : ins.Nodup)
    (hdims : DimsOK cfg.output st.dimKeys st.remaining.keys) (hrefs : RefsOK cfg.output st)
    (hout : ∀ c, c ∈ cfg.output ↔ c ∈ output ∨ ∀ s ∈ ins, c ∈ s) (h3 : 3 ≤ ins.length) {a b : Nat} (ha : a < ins.length) (hb : b < ins.length) (hab : a ≠ b) :
    keepNow cfg st (operand ins a) (operand ins b) = kept ins output a b := by
  have hget : ∀ {i}, i < ins.length → operand ins i ∈ ins := by
    intro i hi
    unfold operand
    rw [List.getD_eq_getElem _ _ hi]
    exact List.getElem_mem hi
  have hinj : ∀ {i j}, i < ins.length → j < ins.length → (operand ins i = operand ins j ↔ i = j) := by
    intro i j hi hj
    unfold operand
    rw [List.getD_eq_getElem _ _ hi, List.getD_eq_getElem _ _ hj]
    exact hn.getElem_inj_iff
  have hne : operand ins a ≠ operand ins b := fun e => hab ((hinj ha hb).mp e)
  have hother : ∀ c, (∃ k ∈ List.range ins.length, k ≠ a ∧ k ≠ b ∧ c ∈ operand ins k) ↔ ∃ z ∈ ins, c ∈ z ∧ z ≠ operand ins a ∧ z ≠ operand ins b := by
    intro c
    constructor
    · rintro ⟨k, hk, h1, h2, hc⟩
      rw [List.mem_range] at hk
      exact ⟨_, hget hk, hc, fun e => h1 ((hinj hk ha).mp e), fun e => h2 ((hinj hk hb).mp e)⟩
    · rintro ⟨z, hz, hc, h1, h2⟩
      obtain ⟨k, hk, rfl⟩ := List.mem_iff_getElem.mp hz
      have hkk : operand ins k = ins[k] := List.getD_eq_getElem _ _ hk
      exact ⟨k, List.mem_range.mpr hk, fun e => h1 (by rw [← hkk, e]), fun e => h2 (by rw [← hkk, e]), by rw [hkk]; exact hc⟩
  have hthird : ∃ z ∈ ins, z ≠ operand ins a ∧ z ≠ operand ins b := by
    have : ∃ k, k < ins.length ∧ k ≠ a ∧ k ≠ b := by
      by_cases h0 : 0 ≠ a ∧ 0 ≠ b
      · exact ⟨0, by omega, h0⟩
      · by_cases h1 : 1 ≠ a ∧ 1 ≠ b
        · exact ⟨1, by omega, h1⟩
        · exact ⟨2, by omega, by omega, by omega⟩
    obtain ⟨k, hk, h1, h2⟩ := this
    exact ⟨_, hget hk, fun e => h1 ((hinj hk ha).mp e), fun e => h2 ((hinj hk hb).mp e)⟩
  ext d
  rw [mem_keepNow hdims hrefs (fun c hc => (hout c).mpr (Or.inl hc))
    (fun c hc hno k hk => ((hout c).mp hc).elim (fun h => absurd h hno) (fun h => h k (hkeys ▸ hk))) (hkeys ▸ hget ha) (hkeys ▸ hget hb) hne (hkeys ▸ hthird)]
  unfold kept
  rw [Finset.mem_filter, hother d, hkeys]

end

/-! ## The chooser -/

/-- A chooser that takes a cheapest candidate, if both terms of all candidates remain. -/
def TakesCheapest (ch : Chooser) : Prop := ∀ path q (rem : Dict (Finset Nat) Nat), q ≠ [] → (∀ c ∈ q, c.k1 ∈ rem.keys ∧ c.k2 ∈ rem.keys) →
  ∃ c q', ch path q rem = (some c, q') ∧ c ∈ q ∧ ∀ x ∈ q, c.cost ≤ x.cost

theorem simple_cheapest : TakesCheapest simpleChooser := by
  intro path q rem hq hl
  obtain ⟨c, r, hc⟩ := popMin_ne_none (le := GCand.le) hq
  have hm : c ∈ q := (popMin_perm hc).mem_iff.mpr (by simp)
  refine ⟨c, r, ?_, hm, ?_⟩
  · unfold simpleChooser
    rw [hc]
    simp only
    rw [if_pos ⟨Dict.has_iff.mpr (hl c hm).1, Dict.has_iff.mpr (hl c hm).2⟩]
  · intro x hx
    rcases (gcand_le_iff _ _).mp (popMin_le gcand_le_total gcand_le_trans hc _ hx) with h | h
    · exact h.le
    · exact h.1.le

theorem thermal_cheapest (nbranch : Nat) (hb : 0 < nbranch) {pick : Path → List ℚ → Nat} (hpick : PickOK pick) (hcold : PickCold pick) :
    TakesCheapest (thermalChooser nbranch pick) := by
  intro path q rem hq hl
  obtain ⟨h1, h2, -⟩ := C49_thermal_chooser nbranch hb hpick path q rem
  cases hr : (thermalChooser nbranch pick path q rem).1 with
  | none =>
    exfalso
    obtain ⟨x, hx⟩ := List.exists_mem_of_ne_nil _ hq
    exact h2 hr x hx (hl x hx)
  | some c =>
    refine ⟨c, (thermalChooser nbranch pick path q rem).2, by rw [← hr], ?_, ?_⟩
    · exact (h1 c hr).1
    · intro x hx
      exact C49_thermal_cold nbranch hpick hcold path q rem c hr x hx (hl x hx).1 (hl x hx).2

/-! ## The first step -/

theorem ssaGreedy_first {fuel : Nat} {size : Nat → Nat} {chooser : Option Chooser} (hc : ∀ c, chooser = some c → TakesCheapest c)
    {order : GOrder} (ho : GOrderOK order) {inputs : List (Finset Nat)} (hn : inputs.Nodup) {output : Finset Nat} {path : Path}
    (hrun : ssaGreedy fuel size costMemoryRemoved chooser order inputs output = some (.ok path)) {i j : Nat} (hm : Meet inputs output i j) :
    ∃ a b rest, path = [a, b] :: rest ∧ Best size inputs output a b := by
  obtain ⟨hi, hj, hij, c0, hc0i, hc0j, hc0o, kk, hkk, hc0k⟩ := hm
  have hopd : ∀ {l}, l < inputs.length → operand inputs l ∈ inputs := by
    intro l hl
    unfold operand
    rw [List.getD_eq_getElem _ _ hl]
    exact List.getElem_mem hl
  have hinj : ∀ {l m}, l < inputs.length → m < inputs.length → operand inputs l = operand inputs m → l = m := by
    intro l m hl hm h
    unfold operand at h
    rw [List.getD_eq_getElem _ _ hl, List.getD_eq_getElem _ _ hm] at h
    exact hn.getElem_inj_iff.mp h
  have h3 : 3 ≤ inputs.length := by
    obtain ⟨m, hmlt, rfl⟩ := List.mem_iff_getElem.mp hkk
    have e : operand inputs m = inputs[m] := List.getD_eq_getElem _ _ hmlt
    have h1 : m ≠ i := fun h => hc0k (by rw [← e, h]; exact hc0i)
    have h2 : m ≠ j := fun h => hc0k (by rw [← e, h]; exact hc0j)
    omega
  match inputs, h3 with
  | k :: k' :: ks, h3 =>
    simp only [ssaGreedy] at hrun
    generalize hout : output ∪ (k' :: ks).foldl (· ∩ ·) k = out' at hrun
    have hmem : ∀ c, c ∈ out' ↔ c ∈ output ∨ ∀ s ∈ k :: k' :: ks, c ∈ s := by
      intro c
      rw [← hout, Finset.mem_union, mem_foldl_inter]
      simp only [List.mem_cons, forall_eq_or_imp]
    generalize hcfg : ({ size, cost := costMemoryRemoved, output := out', pushAll := chooser.isSome } : GCfg) = cfg at hrun
    have hco : cfg.output = out' := by rw [← hcfg]
    have hcs : cfg.size = size := by rw [← hcfg]
    have hcost : cfg.cost = costMemoryRemoved := by rw [← hcfg]
    generalize hins : k :: k' :: ks = ins at *
    have h0 := greedyStart_inv2 (cfg := cfg) (ins := ins) (out := output) (by rw [← hins]; simp)
    obtain ⟨hr, hp0⟩ := start_remaining (out' := out') hn
    rw [hco] at h0
    have hkeys : (greedyStart out' ins).remaining.keys = ins := by rw [hr, zipIdx_keys]
    obtain ⟨q, g1, g2, g3⟩ := initQueue_least hcost (order.dims ((greedyStart out' ins).remaining.keys.foldl (fun s key => s ∪ key \ out') ∅))
      (by
        intro d hd
        rw [(ho.1 _).2, mem_foldl_dims] at hd
        rw [hco]
        rcases hd with hd | ⟨_, _, _, hd⟩
        · simp at hd
        · exact hd) (greedyStart out' ins) h0.base.keys h0.base.dims
    have hqe : (greedyStart out' ins).queue = [] := by
      unfold greedyStart
      rw [dedupLoop_nodup ins 0 _ hn (by simp [Dict.keys])]
    rw [hqe, List.nil_append] at g1
    have hleast : ∀ l m, Meet ins output l m → ∃ c ∈ q, c.cost ≤ costNow cfg (greedyStart out' ins) (operand ins l) (operand ins m) := by
      rintro l m ⟨hl, hm, hlm, d, hdl, hdm, hdo, z, hz, hdz⟩
      have hd' : d ∉ out' := by
        rw [hmem]
        rintro (h | h)
        · exact hdo h
        · exact hdz (h z hz)
      refine g3 d ?_ _ (by rw [hkeys]; exact hopd hl) _ (by rw [hkeys]; exact hopd hm) (fun e => hlm (hinj hl hm e)) hdl hdm
      rw [(ho.1 _).2, mem_foldl_dims]
      exact Or.inr ⟨_, by rw [hkeys]; exact hopd hl, hdl, hd'⟩
    have hqne : q ≠ [] := by
      obtain ⟨c, hc, -⟩ := hleast i j ⟨hi, hj, hij, c0, hc0i, hc0j, hc0o, kk, hkk, hc0k⟩
      exact List.ne_nil_of_mem hc
    rw [g1] at hrun
    simp only at hrun
    have hch : TakesCheapest (chooser.getD simpleChooser) := by
      cases chooser with
      | none => exact simple_cheapest
      | some c => exact hc c rfl
    obtain ⟨c, q', hcc, hcq, hcl⟩ := hch (greedyStart out' ins).path q (greedyStart out' ins).remaining hqne (fun x hx => ⟨(g2 x hx).2.1, (g2 x hx).2.2.1⟩)
    generalize hl : greedyLoop cfg (chooser.getD simpleChooser) order fuel _ = r at hrun
    match r, hrun with
    | some (.ok st), hrun =>
      rw [greedyLoop.eq_def] at hl
      simp only [if_neg hqne] at hl
      cases fuel with
      | zero => cases hl
      | succ fuel =>
        simp only at hl
        cases hs : greedyStep cfg (chooser.getD simpleChooser) order { greedyStart out' ins with queue := q } with
        | error e => rw [hs] at hl; cases hl
        | ok s =>
          rw [hs] at hl
          have hpre := greedyLoop_prefix fuel hl
          unfold greedyStep at hs
          simp only at hs
          rw [hcc] at hs
          simp only at hs
          cases hk : contractKeys cfg { greedyStart out' ins with queue := q' } c.k1 c.k2 c.k12 with
          | error e => rw [hk] at hs; cases hs
          | ok s' =>
            rw [hk] at hs
            obtain ⟨a, b, rest, ha, hb, hpath⟩ := contractKeys_prefix hk
            have hps : s.path = [a, b] :: rest := by
              rw [pushNew_path hs, hpath]
              simp only
              rw [hp0]
              rfl
            have hfin : st.path <+: path := by
              simp only at hrun
              have hrun := Option.some.inj hrun
              unfold finalPhase at hrun
              split at hrun
              · cases hrun
              · cases hrun
                exact finalLoop_prefix _ _ _ _ _
            obtain ⟨t, ht⟩ := hpre.trans hfin
            refine ⟨a, b, rest ++ t, by rw [← ht, hps]; rfl, ?_⟩
            simp only at ha hb
            have hb' : (c.k2, b) ∈ (greedyStart out' ins).remaining := (List.mem_filter.mp (mem_of_get? hb)).1
            have ha' := mem_of_get? ha
            rw [hr, List.mk_mem_zipIdx_iff_getElem?] at ha' hb'
            have ha2 := ha'
            have hb2 := hb'
            have hal : a < ins.length := (List.getElem?_eq_some_iff.mp ha2).1
            have hbl : b < ins.length := (List.getElem?_eq_some_iff.mp hb2).1
            have hoa : operand ins a = c.k1 := by unfold operand; rw [List.getD_eq_getElem?_getD, ha2]; rfl
            have hob : operand ins b = c.k2 := by unfold operand; rw [List.getD_eq_getElem?_getD, hb2]; rfl
            obtain ⟨hfresh, -, -, hadj⟩ := g2 c hcq
            have hab : a ≠ b := by
              rintro rfl
              exact hadj.1 (hoa.symm.trans hob)
            have hred : ∀ l m, l < ins.length → m < ins.length → l ≠ m → costNow cfg (greedyStart out' ins) (operand ins l) (operand ins m) =
                -((reducedSize size ins output l m : ℤ) : ℚ) := by
              intro l m hl hm hlm
              unfold costNow
              rw [keepNow_start (output := output) hkeys hn h0.base.dims h0.refs (by rw [hco]; exact hmem) h3 hl hm hlm, hcs]
              unfold reducedSize Paths.sizeOf
              push_cast
              ring
            refine ⟨⟨hal, hbl, hab, ?_⟩, ?_⟩
            · obtain ⟨-, d, hd, hd1, hd2⟩ := hadj
              rw [hco, hmem] at hd
              push Not at hd
              exact ⟨d, by rw [hoa]; exact hd1, by rw [hob]; exact hd2, hd.1, hd.2⟩
            · intro l m hlm
              obtain ⟨x, hx, hle⟩ := hleast l m hlm
              have h := (hcl x hx).trans hle
              rw [hfresh.1, ← hoa, ← hob, hred a b hal hbl hab, hred l m hlm.1 hlm.2.1 hlm.2.2.1] at h
              have := neg_le_neg_iff.mp h
              exact_mod_cast this

theorem kept_comm (inputs : List (Finset Nat)) (output : Finset Nat) (i j : Nat) : kept inputs output i j = kept inputs output j i := by
  unfold kept
  rw [Finset.union_comm]
  apply Finset.filter_congr
  intro c _
  constructor
  · rintro (h | ⟨k, hk, h1, h2, h⟩)
    · exact Or.inl h
    · exact Or.inr ⟨k, hk, h2, h1, h⟩
  · rintro (h | ⟨k, hk, h1, h2, h⟩)
    · exact Or.inl h
    · exact Or.inr ⟨k, hk, h2, h1, h⟩

theorem reducedSize_comm (size : Nat → Nat) (inputs : List (Finset Nat)) (output : Finset Nat) (i j : Nat) :
    reducedSize size inputs output i j = reducedSize size inputs output j i := by
  unfold reducedSize
  rw [kept_comm]
  ring

theorem best_symm {size : Nat → Nat} {inputs : List (Finset Nat)} {output : Finset Nat} {a b : Nat} (h : Best size inputs output a b) :
    Best size inputs output b a := by
  obtain ⟨⟨h1, h2, h3, c, h4, h5, h6⟩, h⟩ := h
  refine ⟨⟨h2, h1, h3.symm, c, h5, h4, h6⟩, fun i j hij => ?_⟩
  rw [reducedSize_comm size inputs output b a]
  exact h i j hij

/-- The documented claim for the first step: `greedy` with the default cost contracts first a pair that maximises `reduced_size`, among the pairs
with a common label that is neither in the output nor on all operands, if there are such pairs and no two operands have the same labels. The same
for `RandomGreedy` at temperature zero. Missing are the later steps, where it is false: `C100_counterexample`. -/
theorem C100_first_step_partial {fuel : Nat} {size : Nat → Nat} {chooser : Option Chooser} (hc : ∀ c, chooser = some c → ChooserOK c ∧ TakesCheapest c)
    {order : GOrder} (ho : GOrderOK order) {setOrder : SetOrder} {inputs : List (Finset Nat)} (hn : inputs.Nodup) {output : Finset Nat} {path : Path}
    (hrun : greedy fuel size none costMemoryRemoved chooser order setOrder inputs output = some (.ok path)) {i j : Nat} (hm : Meet inputs output i j) :
    ∃ a b rest, path = [a, b] :: rest ∧ a < b ∧ Best size inputs output a b := by
  unfold greedy at hrun
  simp only at hrun
  cases hs : ssaGreedy fuel size costMemoryRemoved chooser order inputs output with
  | none => rw [hs] at hrun; cases hrun
  | some r =>
    cases r with
    | error e => rw [hs] at hrun; cases hrun
    | ok p =>
      rw [hs] at hrun
      simp only [Option.some.injEq] at hrun
      obtain ⟨a, b, rest, hp, hbest⟩ := ssaGreedy_first (fun c h => (hc c h).2) ho hn hs hm
      have hne : inputs ≠ [] := by
        rintro rfl
        exact absurd hm.1 (by simp)
      obtain ⟨F, p', hF, hcomp, -⟩ := ssaGreedy_complete size costMemoryRemoved (fun c h => (hc c h).1) ho hne output
      have e1 := ssaGreedy_fuel (le_max_left fuel F) hs
      rw [hF _ (le_max_right fuel F)] at e1
      cases e1
      have hal := hbest.1.1
      have hbl := hbest.1.2.1
      have hab := hbest.1.2.2.1
      have hbis : ∀ x, x < inputs.length → bisectLeft (List.range inputs.length) x = x := by
        intro x hx
        have hmx := List.mem_range.mpr hx
        rw [bisectLeft_eq (List.pairwise_lt_range) hmx]
        have hlt := List.idxOf_lt_length_iff.mpr hmx
        have := List.getElem_idxOf hlt
        rwa [List.getElem_range] at this
      unfold ssaToLinear at hrun
      rw [numInputs_eq hcomp.2] at hrun
      subst hp
      rw [ssaLoop] at hrun
      simp only [List.map_cons, List.map_nil, hbis a hal, hbis b hbl] at hrun
      cases hpop : popAll (sorted [a, b]).reverse (List.range inputs.length) with
      | error e => rw [hpop] at hrun; cases hrun
      | ok r =>
        rw [hpop] at hrun
        simp only [bind, Except.bind] at hrun
        cases hl : ssaLoop (r.2 ++ [inputs.length]) (inputs.length + 1) rest with
        | error e => rw [hl] at hrun; cases hrun
        | ok l =>
          rw [hl] at hrun
          cases hrun
          rcases Nat.lt_or_gt_of_ne hab with h | h
          · refine ⟨a, b, l, ?_, h, hbest⟩
            simp [sorted, h.le]
          · refine ⟨b, a, l, ?_, h, best_symm hbest⟩
            simp [sorted, not_le.mpr h]

/-! ## The later steps -/

/-- The operands of `'cd,ad,bd,b,d->abc'` (a, b, c, d are 0, 1, 2, 3). -/
def laterInputs : List (Finset Nat) := [{2, 3}, {0, 3}, {1, 3}, {1}, {3}]

/-- Axes a, b, c, d of size 2, 2, 5, 3. -/
def laterSize : Nat → Nat := fun c => if c = 2 then 5 else if c = 3 then 3 else 2

theorem later_path : greedy 20 laterSize none costMemoryRemoved none gAscending ascending laterInputs {0, 1, 2} =
    some (.ok [[0, 4], [0, 3], [0, 2], [0, 1]]) := by decide +kernel

/-- **C100, the later steps.** For `'cd,ad,bd,b,d->abc'` with axes of size 2, 2, 5, 3 the path of `greedy` does not choose at each step the pair that
maximises `reduced_size`: of `ad`, `bd`, `b` and `cd` it contracts `ad` and `cd`, which adds 9 elements, instead of `ad` and `bd`, which adds none. -/
theorem C100_counterexample : laterInputs.Nodup ∧
    ∃ path, greedy 20 laterSize none costMemoryRemoved none gAscending ascending laterInputs {0, 1, 2} = some (.ok path) ∧
      ¬ EveryStepBest laterSize {0, 1, 2} laterInputs path := by
  refine ⟨by decide, _, later_path, ?_⟩
  rintro ⟨a, b, h, -, h'⟩
  cases h
  obtain ⟨a, b, h, hb, -⟩ := h'
  cases h
  have he : contracted laterInputs {0, 1, 2} 0 4 = [{0, 3}, {1, 3}, {1}, {2, 3}] := by decide +kernel
  rw [he] at hb
  have hm : Meet [{0, 3}, {1, 3}, {1}, {2, 3}] {0, 1, 2} 0 1 := ⟨by decide, by decide, by decide, 3, by decide, by decide, by decide, {1}, by decide, by decide⟩
  have := (hb ⟨0, 1, hm⟩).2 0 1 hm
  have e1 : reducedSize laterSize [{0, 3}, {1, 3}, {1}, {2, 3}] {0, 1, 2} 0 1 = 0 := by decide +kernel
  have e2 : reducedSize laterSize [{0, 3}, {1, 3}, {1}, {2, 3}] {0, 1, 2} 0 3 = -9 := by decide +kernel
  rw [e1, e2] at this
  exact absurd this (by decide)

/-! ## Examples -/

-- the conditions of the theorem hold for the same operands
example : laterInputs.Nodup ∧ Meet laterInputs {0, 1, 2} 0 1 :=
  ⟨by decide, by decide, by decide, by decide, 3, by decide, by decide, by decide, {1}, by decide, by decide⟩

example : Best laterSize laterInputs {0, 1, 2} 0 4 := by
  have hm : Meet laterInputs {0, 1, 2} 0 1 := ⟨by decide, by decide, by decide, 3, by decide, by decide, by decide, {1}, by decide, by decide⟩
  obtain ⟨a, b, rest, h, -, hb⟩ := C100_first_step_partial (by simp) gAscending_ok (by decide) later_path hm
  cases h
  exact hb

-- `RandomGreedy(temperature=0)`: a pick among equal costs
example (nbranch : Nat) (hb : 0 < nbranch) : ChooserOK (thermalChooser nbranch (fun _ _ => 0)) ∧ TakesCheapest (thermalChooser nbranch (fun _ _ => 0)) := by
  have h1 : PickOK (fun _ _ => 0) := by intro path costs h; exact List.length_pos_iff.mpr h
  exact ⟨thermal_ok nbranch hb h1, thermal_cheapest nbranch hb h1 (fun _ _ _ => rfl)⟩

end OE.Props
