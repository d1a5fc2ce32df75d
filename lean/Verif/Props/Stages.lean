import Verif.Spec.Stages
import Verif.Props.ColdGreedy
import Verif.Props.CostFunction

/-!
# C101: the three stages of greedy
-/

namespace OE.Props
open OE OE.Py OE.Spec OE.Paths

abbrev Op := Finset Nat × Nat

variable {cfg : GCfg} {ins : List (Finset Nat)} {out out' : Finset Nat}

theorem StageSteps.snoc {ok : Finset Op → Op → Op → Prop} {next : Nat} {live mid : Finset Op} {path : List (List Nat)} (h : StageSteps ok next live path mid)
    {p q : Op} (hp : p ∈ mid) (hq : q ∈ mid) (hne : p ≠ q) (hok : ok mid p q) :
    StageSteps ok next live (path ++ [[p.2, q.2]]) (insert (p.1 ∪ q.1, next + path.length) ((mid.erase p).erase q)) := by
  induction h with
  | done next live => exact .step hp hq hne hok (.done _ _)
  | step h1 h2 h3 h4 _ ih =>
    have := ih hp hq hok
    rw [Nat.add_assoc, Nat.add_comm 1] at this
    exact .step h1 h2 h3 h4 this

/-- The operands `ids` after `path`. -/
def liveOf (n : Nat) (path : Path) (ids : List Nat) : Finset Op := (ids.map (fun i => ((tagAt n path i).1, i))).toFinset

theorem liveOf_perm {n : Nat} {path : Path} {ids ids' : List Nat} (h : ids.Perm ids') : liveOf n path ids = liveOf n path ids' :=
  List.toFinset_eq_of_perm _ _ (h.map _)

theorem mem_liveOf {n : Nat} {path : Path} {ids : List Nat} {p : Op} : p ∈ liveOf n path ids ↔ ∃ i ∈ ids, ((tagAt n path i).1, i) = p := by
  unfold liveOf
  rw [List.mem_toFinset, List.mem_map]

/-- A stage under way: it began at `path0`. -/
structure SPre (ok : Finset Op → Op → Op → Prop) (ins : List (Finset Nat)) (next0 : Nat) (live0 : Finset Op) (path0 : Path) (ids : List Nat) (next : Nat) (path : Path) : Prop where
  nodup : ids.Nodup
  steps : ∃ p1, path = path0 ++ p1 ∧ next = next0 + p1.length ∧ StageSteps ok next0 live0 p1 (liveOf ins.length path ids)

variable {ok : Finset Op → Op → Op → Prop} {next0 next : Nat} {live0 : Finset Op} {path0 path : Path}

theorem SPre.perm {ids ids' : List Nat} (h : SPre ok ins next0 live0 path0 ids next path) (hp : ids.Perm ids') : SPre ok ins next0 live0 path0 ids' next path := by
  refine ⟨hp.nodup_iff.mp h.nodup, ?_⟩
  rw [← liveOf_perm hp]
  exact h.steps

theorem SPre.start {ids : List Nat} (h : ids.Nodup) : SPre ok ins next (liveOf ins.length path ids) path ids next path :=
  ⟨h, [], by simp, by simp, .done _ _⟩

theorem SPre.advance {a b : Nat} {ids : List Nat} (h : SPre ok ins next0 live0 path0 (a :: b :: ids) next path) (ht : TPre ins out out' (a :: b :: ids) next path)
    (hok : ok (liveOf ins.length path (a :: b :: ids)) ((tagAt ins.length path a).1, a) ((tagAt ins.length path b).1, b)) :
    SPre ok ins next0 live0 path0 (next :: ids) (next + 1) (path ++ [[a, b]]) := by
  have hnd := h.nodup
  simp only [List.nodup_cons, List.mem_cons, not_or] at hnd
  have hlt : ∀ i ∈ ids, i < next := fun i hi => ht.lt i (by simp [hi])
  obtain ⟨p1, e1, e2, hs⟩ := h.steps
  refine ⟨List.nodup_cons.mpr ⟨fun hm => absurd (hlt _ hm) (lt_irrefl _), hnd.2.2⟩, p1 ++ [[a, b]], by rw [e1, List.append_assoc], by rw [e2]; simp; omega, ?_⟩
  have := StageSteps.snoc hs (p := ((tagAt ins.length path a).1, a)) (q := ((tagAt ins.length path b).1, b)) (mem_liveOf.mpr ⟨a, by simp, rfl⟩)
    (mem_liveOf.mpr ⟨b, by simp, rfl⟩) (fun e => hnd.1.1 (congrArg Prod.snd e)) hok
  convert this using 1
  ext p
  rw [mem_liveOf, Finset.mem_insert, Finset.mem_erase, Finset.mem_erase, mem_liveOf]
  simp only [List.mem_cons, exists_eq_or_imp]
  rw [ht.new, combine_pair_fst, ← e2]
  constructor
  · rintro (rfl | ⟨i, hi, rfl⟩)
    · exact Or.inl rfl
    · rw [ht.old (hlt i hi)]
      refine Or.inr ⟨fun e => hnd.2.1 ?_, fun e => hnd.1.2 ?_, Or.inr (Or.inr ⟨i, hi, rfl⟩)⟩
      · have := congrArg Prod.snd e; simp only at this; exact this ▸ hi
      · have := congrArg Prod.snd e; simp only at this; exact this ▸ hi
  · rintro (rfl | ⟨h1, h2, h3⟩)
    · exact Or.inl rfl
    · rcases h3 with h3 | h3 | ⟨i, hi, h3⟩
      · exact absurd h3.symm h2
      · exact absurd h3.symm h1
      · exact Or.inr ⟨i, hi, by rw [ht.old (hlt i hi)]; exact h3⟩

/-! ## The first stage -/

theorem dedup_stage {ks : List (Finset Nat)} : ∀ (i : Nat) (st : GSt), st.remaining.keys.Nodup →
    (∀ (m : Nat) (k : Finset Nat), ks[m]? = some k → i + m < ins.length ∧ ins.getD (i + m) ∅ = k) →
    TPre ins out out' (Dict.vals st.remaining ++ List.range' i ks.length) st.next st.path →
    (∀ e ∈ st.remaining, Approx ins out e.1 (tagAt ins.length st.path e.2)) →
    (∀ e ∈ st.remaining, groupLabels ins (tagAt ins.length st.path e.2).1 = e.1) →
    SPre (SameLabels ins) ins ins.length (inputOperands ins.length) [] (Dict.vals st.remaining ++ List.range' i ks.length) st.next st.path →
    SPre (SameLabels ins) ins ins.length (inputOperands ins.length) [] (Dict.vals (dedupLoop ks i st).remaining) (dedupLoop ks i st).next (dedupLoop ks i st).path ∧
    ∀ e ∈ (dedupLoop ks i st).remaining, groupLabels ins (tagAt ins.length (dedupLoop ks i st).path e.2).1 = e.1 := by
  induction ks with
  | nil => exact fun i st _ _ _ _ hl hs => ⟨by simpa [dedupLoop] using hs, hl⟩
  | cons key ks ih =>
    intro i st hk hks hp ha hl hs
    simp only [dedupLoop]
    have h0 := hks 0 key rfl
    rw [Nat.add_zero] at h0
    have hin : Approx ins out key (tagAt ins.length st.path i) := by
      rw [← h0.2]; exact approx_input h0.1 _
    have hlin : groupLabels ins (tagAt ins.length st.path i).1 = key := by
      rw [← h0.2]
      unfold tagAt
      rw [ssaStore_input h0.1]
      simp [groupLabels]
    have hks' : ∀ (m : Nat) (k : Finset Nat), ks[m]? = some k → i + 1 + m < ins.length ∧ ins.getD (i + 1 + m) ∅ = k := by
      intro m k hm
      have := hks (m + 1) k (by simpa using hm)
      rwa [show i + (m + 1) = i + 1 + m by omega] at this
    rw [List.length_cons, List.range'_succ] at hp hs
    cases hg : st.remaining.get? key with
    | none =>
      have hstep : dedupStep st key i = { st with remaining := st.remaining.set key i } := by
        unfold dedupStep; rw [hg]
      have hset : st.remaining.set key i = st.remaining ++ [(key, i)] := Dict.set_of_notMem (Dict.get?_eq_none.mp hg) i
      rw [hstep]
      refine ih (i + 1) _ (Dict.keys_set_nodup hk _ _) hks' ?_ ?_ ?_ ?_
      · simp only
        rw [hset]
        simpa [Dict.vals] using hp
      · simp only
        rw [hset]
        intro e he
        rcases List.mem_append.mp he with he | he
        · exact ha e he
        · rw [List.mem_singleton] at he
          subst he
          exact hin
      · simp only
        rw [hset]
        intro e he
        rcases List.mem_append.mp he with he | he
        · exact hl e he
        · rw [List.mem_singleton] at he
          subst he
          exact hlin
      · simp only
        rw [hset]
        simpa [Dict.vals] using hs
    | some id =>
      have hstep : dedupStep st key i =
          { st with path := st.path ++ [[id, i]], remaining := st.remaining.set key st.next, next := st.next + 1 } := by
        unfold dedupStep; rw [hg]
      rw [hstep]
      have h1 : ((Dict.vals st.remaining) ++ i :: List.range' (i + 1) ks.length).Perm
          (id :: i :: (Dict.vals (st.remaining.del key) ++ List.range' (i + 1) ks.length)) := by
        refine (((Dict.perm_del hk hg).map Prod.snd).append_right _).trans ?_
        simp only [List.map_cons, List.cons_append]
        refine List.Perm.cons _ ?_
        exact List.perm_middle
      have hp1 := hp.perm h1
      have hs1 := hs.perm h1
      have hpd := Dict.perm_del hk hg
      have hlid := hl (key, id) (hpd.mem_iff.mpr (by simp))
      simp only at hlid
      obtain ⟨m1, m2⟩ := merge_equal hp1 (ha (key, id) (hpd.mem_iff.mpr (by simp))) hin
      have hps := Dict.perm_set hk key st.next
      have hs2 := hs1.advance hp1 (hlid.trans hlin.symm)
      have hold : ∀ e ∈ st.remaining.del key, tagAt ins.length (st.path ++ [[id, i]]) e.2 = tagAt ins.length st.path e.2 := by
        intro e he
        exact hp1.old (hp1.lt e.2 (by
            simp only [List.mem_cons, List.mem_append, Dict.vals, List.mem_map]
            exact Or.inr (Or.inr (Or.inl ⟨e, he, rfl⟩)))) _
      refine ih (i + 1) _ (Dict.keys_set_nodup hk _ _) hks' ?_ ?_ ?_ ?_
      · exact m1.perm ((hps.map Prod.snd).append_right _).symm
      · intro e he
        rcases List.mem_cons.mp (hps.mem_iff.mp he) with rfl | he
        · exact m2
        · simp only
          rw [hold e he]
          exact ha e (hpd.mem_iff.mpr (by simp [he]))
      · intro e he
        rcases List.mem_cons.mp (hps.mem_iff.mp he) with rfl | he
        · simp only
          rw [hp1.new]
          have : groupLabels ins (combineTag {tagAt ins.length st.path id, tagAt ins.length st.path i}).1 = _ := labels_combine _ _
          rw [this]
          show groupLabels ins _ ∪ groupLabels ins _ = key
          rw [hlid, hlin, Finset.union_self]
        · simp only
          rw [hold e he]
          exact hl e (hpd.mem_iff.mpr (by simp [he]))
      · exact hs2.perm ((hps.map Prod.snd).append_right _).symm

theorem liveOf_start : liveOf ins.length [] (List.range ins.length) = inputOperands ins.length := by
  ext p
  rw [mem_liveOf]
  unfold inputOperands
  rw [Finset.mem_image]
  simp only [List.mem_range, Finset.mem_range]
  refine exists_congr (fun i => and_congr_right (fun hi => ?_))
  unfold tagAt
  rw [ssaStore_input hi]
  rfl

theorem start_stage : SPre (SameLabels ins) ins ins.length (inputOperands ins.length) [] (Dict.vals (greedyStart out' ins).remaining) (greedyStart out' ins).next
      (greedyStart out' ins).path ∧
    ∀ e ∈ (greedyStart out' ins).remaining, groupLabels ins (tagAt ins.length (greedyStart out' ins).path e.2).1 = e.1 := by
  have := dedup_stage (ins := ins) (out := ∅) (out' := out') (ks := ins) 0
    { remaining := [], dimKeys := fun _ => ∅, ref2 := ∅, ref3 := ∅, queue := [], path := [], next := ins.length }
    (by simp [Dict.keys]) (by
      intro m k hm
      obtain ⟨hlt, rfl⟩ := List.getElem?_eq_some_iff.mp hm
      rw [Nat.zero_add]
      exact ⟨hlt, by simp [List.getD_eq_getElem?_getD, hlt]⟩) (by
      simp only [Dict.vals, List.map_nil, List.nil_append]
      rw [← List.range_eq_range']
      exact tPre_nil) (by simp) (by simp) (by
      simp only [Dict.vals, List.map_nil, List.nil_append]
      rw [← List.range_eq_range', ← liveOf_start]
      exact SPre.start List.nodup_range)
  exact this

/-! ## The second stage -/

/-- Two operands with the same key need the same labels. -/
theorem needed_eq {X Y : Tag} {l : List Tag} {k : Finset Nat} (hp : Part ins.length (X :: Y :: l)) (hX : Approx ins out k X) (hY : Approx ins out k Y) :
    neededLabels ins out X.1 = neededLabels ins out Y.1 := by
  have hd : Disjoint X.1 Y.1 := by
    have := hp.disj
    simp only [List.map_cons, List.pairwise_cons] at this
    exact this.1 _ (by simp)
  have hiff : ∀ S c, c ∈ neededLabels ins out S ↔ c ∈ labels ins S ∧ (c ∈ out ∨ ∃ j < ins.length, j ∉ S ∧ c ∈ ins.getD j ∅) := by
    intro S c
    unfold neededLabels
    rw [Finset.mem_filter]
    simp only [List.mem_range]
    rfl
  have hboth : ∀ c, c ∈ labels ins X.1 → c ∈ labels ins Y.1 → c ∈ neededLabels ins out X.1 ∧ c ∈ neededLabels ins out Y.1 := by
    intro c h1 h2
    obtain ⟨i, hi, hci⟩ := mem_labels.mp h1
    obtain ⟨j, hj, hcj⟩ := mem_labels.mp h2
    rw [hiff, hiff]
    exact ⟨⟨h1, Or.inr ⟨j, hp.mem_lt (by simp) hj, fun hj' => Finset.disjoint_left.mp hd hj' hj, hcj⟩⟩,
      ⟨h2, Or.inr ⟨i, hp.mem_lt (by simp) hi, fun hi' => Finset.disjoint_left.mp hd hi hi', hci⟩⟩⟩
  have hterm : ∀ (t : Tag) c, c ∈ neededLabels ins out t.1 → c ∈ termOf ins out t := by
    intro t c hc
    rw [hiff] at hc
    exact mem_termOf (mem_labels.mp hc.1) hc.2
  ext c
  constructor
  · intro hc
    exact (hboth c ((hiff _ _).mp hc).1 (hY.2 (hX.1 (hterm X c hc)))).2
  · intro hc
    exact (hboth c (hX.2 (hY.1 (hterm Y c hc))) ((hiff _ _).mp hc).1).1

theorem contract_stage {st : GSt} (hsub : out ⊆ cfg.output) (h : GInv2 cfg ins out st) {k1 k2 k12 : Finset Nat}
    (hres : ResultOK cfg.output st.dimKeys k1 k2 k12) (h1 : k1 ∈ st.remaining.keys) (h2 : k2 ∈ st.remaining.keys) {st' : GSt}
    (he : contractKeys cfg st k1 k2 k12 = .ok st')
    (hs : SPre (MeetOrSame ins out cfg.output) ins next0 live0 path0 (Dict.vals st.remaining) st.next st.path) :
    SPre (MeetOrSame ins out cfg.output) ins next0 live0 path0 (Dict.vals st'.remaining) st'.next st'.path := by
  obtain ⟨st'', a, b, he', -, -, -, hperm, -, -, hform⟩ := contractKeys_form (k12 := k12) h.base hres.adj.1 h1 h2
  rw [he] at he'
  cases he'
  have hR : ∀ e ∈ (st.remaining.del k1).del k2, e ∈ st.remaining ∧ e.1 ≠ k1 ∧ e.1 ≠ k2 := by
    intro e hm
    have := mem_keys_of_mem hm
    rw [Dict.mem_keys_del, Dict.mem_keys_del] at this
    exact ⟨hperm.mem_iff.mpr (by simp [hm]), this.1.2, this.2⟩
  have hvals : (Dict.vals st.remaining).Perm (a :: b :: Dict.vals ((st.remaining.del k1).del k2)) := hperm.map Prod.snd
  have hpre := h.tpre.perm hvals
  have hA : Approx ins out k1 (tagAt ins.length st.path a) := h.approx (k1, a) (hperm.mem_iff.mpr (by simp))
  have hB : Approx ins out k2 (tagAt ins.length st.path b) := h.approx (k2, b) (hperm.mem_iff.mpr (by simp))
  generalize hRd : (st.remaining.del k1).del k2 = R at *
  have hpart := hpre.part
  simp only [List.map_cons] at hpart
  obtain ⟨_, d, hd, hd1, hd2⟩ := id hres.adj
  have hstep : TPre ins out cfg.output (st.next :: Dict.vals R) (st.next + 1) (st.path ++ [[a, b]]) := by
    apply hpre.step
    left
    refine ⟨_, _, rfl, Or.inr ?_⟩
    have := shared_term (out := out) hpart (hA.2 hd1) (hB.2 hd2)
    exact ⟨d, hd, this.1, this.2⟩
  have hs1 := (hs.perm hvals).advance hpre (Or.inl ⟨d, hd, hA.2 hd1, hB.2 hd2⟩)
  rcases hform with ⟨_, ep, en, hp⟩ | ⟨id, hpid, ep, en, hp⟩
  · rw [ep, en]
    exact hs1.perm (hp.map Prod.snd).symm
  · rw [ep, en]
    have hnewA : Approx ins out k12 (tagAt ins.length (st.path ++ [[a, b]]) st.next) := by
      rw [hpre.new]
      constructor
      · intro c hc
        obtain ⟨hc1, hc2⟩ := term_combine hpart hc
        have hcu : c ∈ k1 ∪ k2 := by
          rw [Finset.mem_union]
          rcases hc1 with hc1 | hc1
          · exact Or.inl (hA.1 hc1)
          · exact Or.inr (hB.1 hc1)
        by_cases hco : c ∈ cfg.output
        · exact hres.outp c hcu hco
        rcases hc2 with hc2 | ⟨Z, hZ, hcZ⟩
        · exact absurd (hsub hc2) hco
        obtain ⟨i, hi, rfl⟩ := List.mem_map.mp hZ
        obtain ⟨e, hem, rfl⟩ := List.mem_map.mp hi
        obtain ⟨r1, r2, r3⟩ := hR e hem
        exact third_kept h.base.dims hres h1 h2 r2 r3 (mem_keys_of_mem r1) hco hcu ((h.approx e r1).1 hcZ)
      · rw [labels_combine]
        exact hres.sub.trans (Finset.union_subset_union hA.2 hB.2)
    have hI : Approx ins out k12 (tagAt ins.length (st.path ++ [[a, b]]) id) := by
      have hm : (k12, id) ∈ R := hpid.mem_iff.mpr (by simp)
      rw [hpre.old (hpre.lt id (by simp [Dict.vals]; exact Or.inr (Or.inr ⟨k12, hm⟩)))]
      exact h.approx (k12, id) (hR _ hm).1
    have hperm2 : (st.next :: Dict.vals R).Perm (id :: st.next :: Dict.vals (R.del k12)) :=
      ((hpid.map Prod.snd).cons _).trans (List.Perm.swap _ _ _)
    have hpre2 := hstep.perm hperm2
    have hpart2 := hpre2.part
    simp only [List.map_cons] at hpart2
    have hs2 := (hs1.perm hperm2).advance hpre2 (Or.inr (needed_eq hpart2 hI hnewA))
    exact hs2.perm (hp.map Prod.snd).symm

/-- The labels on all inputs stay on all terms. -/
def Common (cfg : GCfg) (out : Finset Nat) (st : GSt) : Prop := ∀ d ∈ cfg.output, d ∉ out → ∀ k ∈ st.remaining.keys, d ∈ k

theorem greedyStep_stage {chooser : Chooser} {order : GOrder} (hc : ChooserFair chooser) (ho : GOrderOK order) (hsub : out ⊆ cfg.output)
    {st st' : GSt} (h : GInv2 cfg ins out st) (hcom : Common cfg out st) (hq : st.queue ≠ []) (hrun : greedyStep cfg chooser order st = .ok st')
    (hs : SPre (MeetOrSame ins out cfg.output) ins next0 live0 path0 (Dict.vals st.remaining) st.next st.path) :
    SPre (MeetOrSame ins out cfg.output) ins next0 live0 path0 (Dict.vals st'.remaining) st'.next st'.path ∧ Common cfg out st' := by
  obtain ⟨_, c2, c3⟩ := hc.1 st.path st.queue st.remaining hq
  unfold greedyStep at hrun
  generalize chooser st.path st.queue st.remaining = r at *
  obtain ⟨r, q⟩ := r
  have hq' : ∀ c ∈ q, ResultOK cfg.output st.dimKeys c.k1 c.k2 c.k12 := fun c hc => h.cand c (c2 c hc)
  cases r with
  | none =>
    cases hrun
    exact ⟨hs, hcom⟩
  | some c =>
    obtain ⟨d1, d2, d3⟩ := c3 c rfl
    have hres := h.cand c d1
    have h0 := h.setQueue hq'
    obtain ⟨st1, e1, e2, e3, _, hk⟩ := contract_inv2 hsub h0 hres d2 d3
    have h12 : c.k12 ∈ st1.remaining.keys := (hk _).mpr (Or.inl rfl)
    obtain ⟨q2, f1, -, -⟩ := pushNew_cover ho e2 h12
    simp only [e1, bind, Except.bind] at hrun
    rw [f1] at hrun
    cases hrun
    have hst := contract_stage (st' := st1) hsub h0 hres d2 d3 e1 hs
    refine ⟨hst, ?_⟩
    intro d hd hdo k hkm
    rcases (hk k).mp hkm with rfl | hh
    · exact hres.outp d (Finset.mem_union_left _ (hcom d hd hdo _ d2)) hd
    · exact hcom d hd hdo k hh.1

theorem greedyLoop_stage {chooser : Chooser} {order : GOrder} (hc : ChooserFair chooser) (ho : GOrderOK order) (hsub : out ⊆ cfg.output) (fuel : Nat) :
    ∀ {st st' : GSt}, GInv2 cfg ins out st → Cover cfg st → Common cfg out st → greedyLoop cfg chooser order fuel st = some (.ok st') →
    SPre (MeetOrSame ins out cfg.output) ins next0 live0 path0 (Dict.vals st.remaining) st.next st.path →
    SPre (MeetOrSame ins out cfg.output) ins next0 live0 path0 (Dict.vals st'.remaining) st'.next st'.path ∧ Common cfg out st' := by
  induction fuel with
  | zero =>
    intro st st' h hcov hcom hrun hs
    rw [greedyLoop.eq_def] at hrun
    simp only at hrun
    split at hrun
    · cases hrun
      exact ⟨hs, hcom⟩
    · cases hrun
  | succ fuel ih =>
    intro st st' h hcov hcom hrun hs
    rw [greedyLoop.eq_def] at hrun
    simp only at hrun
    split at hrun
    · cases hrun
      exact ⟨hs, hcom⟩
    · rename_i h0
      obtain ⟨st1, g1, g2, g3⟩ := greedyStep_cover hc ho hsub h hcov h0
      rw [g1] at hrun
      obtain ⟨s1, s2⟩ := greedyStep_stage hc ho hsub h hcom h0 g1 hs
      exact ih g2 g3 s2 hrun s1

/-! ## The third stage -/

theorem fentry_le_total (a b : FEntry) : FEntry.le a b = true ∨ FEntry.le b a = true := by
  unfold FEntry.le
  by_cases h : a.cost = b.cost
  · simp [h]; omega
  · have h' : b.cost ≠ a.cost := fun e => h e.symm
    simp [h, h']

theorem fentry_le_trans (a b c : FEntry) (h1 : FEntry.le a b = true) (h2 : FEntry.le b c = true) : FEntry.le a c = true := by
  unfold FEntry.le at *
  split at h1 <;> split at h2 <;> split <;> simp_all <;> omega

theorem fentry_le_cost {a b : FEntry} (h : FEntry.le a b = true) : a.cost ≤ b.cost := by
  unfold FEntry.le at h
  split at h <;> simp_all; omega

/-- The cost of an entry is the size of its operand. -/
def OuterEntry (cfg : GCfg) (ins : List (Finset Nat)) (path : Path) (e : FEntry) : Prop :=
  e.cost = Paths.sizeOf cfg.size (e.key ∩ cfg.output) ∧ e.key ∩ cfg.output = groupLabels ins (tagAt ins.length path e.id).1 ∩ cfg.output

theorem OuterEntry.size {e : FEntry} (h : OuterEntry cfg ins path e) : outerSize cfg.size ins cfg.output ((tagAt ins.length path e.id).1, e.id) = e.cost := by
  rw [h.1, h.2]
  rfl

theorem finalLoop_stage (k : Nat) : ∀ (cur : FEntry) (q : List FEntry) (next : Nat) (path : Path), q.length = k →
    TPre ins out cfg.output ((cur :: q).map FEntry.id) next path → NoShare ins cfg.output (((cur :: q).map FEntry.id).map (tagAt ins.length path)) →
    (∀ e ∈ cur :: q, OuterEntry cfg ins path e) → (∀ e ∈ q, cur.cost ≤ e.cost) →
    SPre (SmallestSum cfg.size ins cfg.output) ins next0 live0 path0 ((cur :: q).map FEntry.id) next path →
    ∃ third live, finalLoop cfg k cur q next path = path0 ++ third ∧ StageSteps (SmallestSum cfg.size ins cfg.output) next0 live0 third live ∧ live.card = 1 := by
  induction k with
  | zero =>
    intro cur q next path hk hp hn hok hmin hs
    obtain rfl := List.length_eq_zero_iff.mp hk
    obtain ⟨p1, e1, -, hsteps⟩ := hs.steps
    exact ⟨p1, _, by simpa [finalLoop] using e1, hsteps, by simp [liveOf]⟩
  | succ k ih =>
    intro cur q next path hk hp hn hok hmin hs
    simp only [finalLoop]
    cases he : popMin FEntry.le q with
    | none =>
      exfalso
      obtain ⟨c, r, hc⟩ := popMin_ne_none (le := FEntry.le) (l := q) (by rintro rfl; simp at hk)
      rw [hc] at he
      cases he
    | some eq1 =>
      obtain ⟨e, q1⟩ := eq1
      have hp1 := popMin_perm he
      have hle1 := popMin_le fentry_le_total fentry_le_trans he
      simp only
      generalize hnew : ({ cost := _, id := next, key := _ } : FEntry) = new
      have hid : new.id = next := by rw [← hnew]
      obtain ⟨cur', q2, he2⟩ := popMin_ne_none (le := FEntry.le) (l := new :: q1) (by simp)
      have hp2 := popMin_perm he2
      have hle2 := popMin_le fentry_le_total fentry_le_trans he2
      simp only [he2]
      have hpermS : ((cur :: q).map FEntry.id).Perm (min cur.id e.id :: max cur.id e.id :: q1.map FEntry.id) := by
        refine ((hp1.cons cur).map FEntry.id).trans ?_
        simp only [List.map_cons]
        rcases le_total cur.id e.id with hle | hle
        · rw [min_eq_left hle, max_eq_right hle]
        · rw [min_eq_right hle, max_eq_left hle]
          exact List.Perm.swap _ _ _
      have s1 := hp.perm hpermS
      have n1 := hn.perm (hpermS.map (tagAt ins.length path))
      have s2 := s1.step (n1.stepOK _)
      have hids : (next :: q1.map FEntry.id).Perm ((cur' :: q2).map FEntry.id) := by
        have := hp2.map FEntry.id
        rwa [List.map_cons, hid] at this
      have s3 := s2.perm hids
      have heq : e ∈ q := hp1.mem_iff.mpr (by simp)
      -- the two smallest
      have hsmall : ∀ r ∈ liveOf ins.length path (min cur.id e.id :: max cur.id e.id :: q1.map FEntry.id),
          ∀ s ∈ liveOf ins.length path (min cur.id e.id :: max cur.id e.id :: q1.map FEntry.id), r ≠ s →
          cur.cost + e.cost ≤ outerSize cfg.size ins cfg.output r + outerSize cfg.size ins cfg.output s := by
        rw [← liveOf_perm hpermS]
        intro r hr s hs' hrs
        obtain ⟨i, hi, rfl⟩ := mem_liveOf.mp hr
        obtain ⟨j, hj, rfl⟩ := mem_liveOf.mp hs'
        obtain ⟨x, hx, rfl⟩ := List.mem_map.mp hi
        obtain ⟨y, hy, rfl⟩ := List.mem_map.mp hj
        have hxy : x ≠ y := by rintro rfl; exact hrs rfl
        rw [(hok x hx).size, (hok y hy).size]
        have hq1 : ∀ z ∈ q, e.cost ≤ z.cost := fun z hz => fentry_le_cost (hle1 z hz)
        rcases List.mem_cons.mp hx with ex | hx'
        · rcases List.mem_cons.mp hy with ey | hy'
          · exact absurd (ex.trans ey.symm) hxy
          · have := hq1 y hy'; rw [ex]; omega
        · have a1 := hq1 x hx'
          rcases List.mem_cons.mp hy with ey | hy'
          · rw [ey]; omega
          · have a2 := hq1 y hy'
            have a3 := hmin x hx'
            omega
      have hsum : SmallestSum cfg.size ins cfg.output (liveOf ins.length path (min cur.id e.id :: max cur.id e.id :: q1.map FEntry.id))
          ((tagAt ins.length path (min cur.id e.id)).1, min cur.id e.id) ((tagAt ins.length path (max cur.id e.id)).1, max cur.id e.id) := by
        intro r hr s hs' hrs
        have h0 := hsmall r hr s hs' hrs
        rw [← (hok cur (by simp)).size, ← (hok e (by simp [heq])).size] at h0
        rcases le_total cur.id e.id with hle | hle
        · rw [min_eq_left hle, max_eq_right hle]; exact h0
        · rw [min_eq_right hle, max_eq_left hle, Nat.add_comm (outerSize cfg.size ins cfg.output ((tagAt ins.length path e.id).1, e.id))]; exact h0
      have t2 := (hs.perm hpermS).advance s1 hsum
      have hold : (q1.map FEntry.id).map (tagAt ins.length (path ++ [[min cur.id e.id, max cur.id e.id]])) =
          (q1.map FEntry.id).map (tagAt ins.length path) :=
        List.map_congr_left (fun i hi => s1.old (s1.lt i (by simp only [List.mem_cons]; exact Or.inr (Or.inr hi))) _)
      refine ih _ _ _ _ ?_ s3 ?_ ?_ ?_ (t2.perm hids)
      · have l1 := hp1.length_eq
        have l2 := hp2.length_eq
        simp only [List.length_cons] at l1 l2
        omega
      · refine NoShare.perm ?_ (hids.map _)
        rw [List.map_cons, s1.new, hold]
        exact NoShare.step n1
      · intro x hx
        rcases List.mem_cons.mp (hp2.mem_iff.mpr hx) with rfl | hx'
        · have hkey : x.key = (cur.key ∪ e.key) ∩ cfg.output := by rw [← hnew]
          have hcst : x.cost = Paths.sizeOf cfg.size ((cur.key ∪ e.key) ∩ cfg.output) := by rw [← hnew]
          have hlab : ∀ a b : Nat, groupLabels ins (combineTag {tagAt ins.length path a, tagAt ins.length path b}).1 =
              groupLabels ins (tagAt ins.length path a).1 ∪ groupLabels ins (tagAt ins.length path b).1 := fun a b => labels_combine _ _
          refine ⟨by rw [hcst, hkey, Finset.inter_assoc, Finset.inter_self], ?_⟩
          rw [hkey, Finset.inter_assoc, Finset.inter_self, hid, s1.new, hlab, Finset.union_inter_distrib_right, Finset.union_inter_distrib_right,
            (hok cur (by simp)).2, (hok e (by simp [heq])).2]
          rcases le_total cur.id e.id with hle | hle
          · rw [min_eq_left hle, max_eq_right hle]
          · rw [min_eq_right hle, max_eq_left hle, Finset.union_comm]
        · have hxq : x ∈ q := hp1.mem_iff.mpr (by simp [hx'])
          have h0 := hok x (by simp [hxq])
          refine ⟨h0.1, ?_⟩
          rw [s1.old (s1.lt x.id (by simp only [List.mem_cons]; exact Or.inr (Or.inr (List.mem_map_of_mem hx'))))]
          exact h0.2
      · intro x hx
        exact fentry_le_cost (hle2 x (hp2.mem_iff.mpr (by simp [hx])))

/-! ## The theorem -/

/-- **C101.** For two or more operands the SSA path of greedy has the three documented stages, whatever the cost function, sizes, orders and any chooser that
forgets only what it chooses and what can no longer be contracted. -/
theorem C101_three_stages {fuel : Nat} {size : Nat → Nat} {cost : CostFn} {chooser : Option Chooser} (hc : ∀ c, chooser = some c → ChooserFair c)
    {order : GOrder} (ho : GOrderOK order) {inputs : List (Finset Nat)} (h2 : 2 ≤ inputs.length) {output reserved : Finset Nat}
    (hres : IsReserved inputs output reserved) {path : Path} (hrun : ssaGreedy fuel size cost chooser order inputs output = some (.ok path)) :
    ThreeStages size inputs output reserved path := by
  match inputs, h2 with
  | k :: k' :: ks, _ =>
    simp only [ssaGreedy] at hrun
    generalize hout : output ∪ (k' :: ks).foldl (· ∩ ·) k = out' at hrun
    have hmem : ∀ c, c ∈ out' ↔ c ∈ output ∨ ∀ s ∈ k :: k' :: ks, c ∈ s := by
      intro c
      rw [← hout, Finset.mem_union, mem_foldl_inter]
      simp only [List.mem_cons, forall_eq_or_imp]
    have hro : reserved = out' := by
      ext c
      rw [hres c, hmem c]
    generalize hcfg : ({ size, cost, output := out', pushAll := chooser.isSome } : GCfg) = cfg at hrun
    have hco : cfg.output = out' := by rw [← hcfg]
    have hcs : cfg.size = size := by rw [← hcfg]
    have hsub : output ⊆ cfg.output := by
      rw [hco]; intro c hc; exact (hmem c).mpr (Or.inl hc)
    have h0 := greedyStart_inv2 (cfg := cfg) (ins := k :: k' :: ks) (out := output) (by simp)
    rw [hco] at h0
    obtain ⟨q, g1, g2, g3⟩ := cover_init h0 (ds := order.dims ((greedyStart out' (k :: k' :: ks)).remaining.keys.foldl (fun s key => s ∪ key \ out') ∅))
      (by
        intro d hd
        rw [(ho.1 _).2, mem_foldl_dims] at hd
        rw [hco]
        rcases hd with hd | ⟨_, _, _, hd⟩
        · simp at hd
        · exact hd)
      (by
        intro d k0 hd hk hdk
        rw [(ho.1 _).2, mem_foldl_dims]
        rw [hco] at hd
        exact Or.inr ⟨k0, hk, hdk, hd⟩)
    rw [g1] at hrun
    simp only at hrun
    have hch : ChooserFair (chooser.getD simpleChooser) := by
      cases chooser with
      | none => exact simpleChooser_fair
      | some c => exact hc c rfl
    generalize hins : k :: k' :: ks = ins at *
    obtain ⟨a1, a2⟩ := start_stage (ins := ins) (out' := out')
    have hcom : Common cfg output { greedyStart out' ins with queue := q } := by
      intro d hd hdo x hx
      rw [hco] at hd
      exact ((hmem d).mp hd).resolve_left hdo _ ((greedyStart_keys out' ins x).mp hx)
    generalize hl : greedyLoop cfg (chooser.getD simpleChooser) order fuel _ = r at hrun
    match r, hrun with
    | some (.ok st), hrun =>
      obtain ⟨f1, f2, f3⟩ := greedyLoop_cover hch ho hsub fuel g2 g3 hl
      have hn := noShare_of_cover f1 f2 f3
      obtain ⟨b1, b2⟩ := greedyLoop_stage hch ho hsub fuel g2 g3 hcom hl (SPre.start a1.nodup)
      simp only at hrun
      have hrun := Option.some.inj hrun
      unfold finalPhase at hrun
      split at hrun
      · cases hrun
      · rename_i e q' he
        cases hrun
        have hperm := popMin_perm he
        have hp := hperm.map FEntry.id
        rw [List.map_map] at hp
        have hp' : (Dict.vals st.remaining).Perm ((e :: q').map FEntry.id) := hp
        have hle := popMin_le fentry_le_total fentry_le_trans he
        obtain ⟨third, live3, c1, c2, c3⟩ := finalLoop_stage q'.length e q' st.next st.path rfl (f1.tpre.perm hp') (hn.perm (hp'.map _))
          (by
            intro x hx
            obtain ⟨p, hpm, rfl⟩ := List.mem_map.mp (hperm.mem_iff.mpr hx)
            refine ⟨rfl, ?_⟩
            simp only
            ext d
            rw [Finset.mem_inter, Finset.mem_inter]
            refine and_congr_left (fun hd => ⟨fun h => (f1.approx p hpm).2 h, fun h => ?_⟩)
            by_cases hdo : d ∈ output
            · exact (f1.approx p hpm).1 (mem_termOf (mem_labels.mp h) (Or.inl hdo))
            · exact b2 d hd hdo p.1 (mem_keys_of_mem hpm))
          (fun x hx => fentry_le_cost (hle x (hperm.mem_iff.mpr (by simp [hx]))))
          (SPre.start (hp'.nodup_iff.mp b1.nodup))
        obtain ⟨first, i1, i2, i3⟩ := a1.steps
        obtain ⟨second, j1, j2, j3⟩ := b1.steps
        simp only at j1 j2 j3
        rw [hco] at j3 c2
        rw [hcs] at c2
        rw [i2] at j2 j3
        rw [j2, ← liveOf_perm hp'] at c2
        rw [hro]
        refine ⟨first, second, third, _, _, _, ?_, i3, ?_, j3, ?_, c2, c3⟩
        · rw [c1, j1, i1]; rfl
        · intro p hpm q hqm hne
          obtain ⟨i, hi, rfl⟩ := mem_liveOf.mp hpm
          obtain ⟨j, hj, rfl⟩ := mem_liveOf.mp hqm
          obtain ⟨x, hx, rfl⟩ := List.mem_map.mp hi
          obtain ⟨y, hy, rfl⟩ := List.mem_map.mp hj
          simp only
          rw [a2 x hx, a2 y hy]
          intro e
          exact hne (by rw [List.inj_on_of_nodup_map h0.base.keys hx hy e])
        · rintro p hpm q hqm hne ⟨d, hd, hd1, hd2⟩
          obtain ⟨i, hi, rfl⟩ := mem_liveOf.mp hpm
          obtain ⟨j, hj, rfl⟩ := mem_liveOf.mp hqm
          have hij : i ≠ j := by rintro rfl; exact hne rfl
          unfold NoShare at hn
          rw [List.pairwise_map] at hn
          have : Std.Symm (fun i j => ∀ c, c ∉ cfg.output → c ∈ labels ins (tagAt ins.length st.path i).1 → c ∉ labels ins (tagAt ins.length st.path j).1) :=
            ⟨fun x y h c hc h1 h2 => h c hc h2 h1⟩
          exact hn.forall hi hj hij d (by rw [hco]; exact hd) hd1 hd2

/-! ## Examples -/

/-- 'ab,cd,bc,ef,f,cd,f,g->adg'. -/
def stagesInputs : List (Finset Nat) := [{0, 1}, {2, 3}, {1, 2}, {4, 5}, {5}, {2, 3}, {5}, {6}]

theorem stages_path : ssaGreedy 30 (fun _ => 2) costMemoryRemoved none gAscending stagesInputs {0, 3, 6} =
    some (.ok [[1, 5], [4, 6], [3, 9], [0, 2], [8, 11], [7, 10], [12, 13]]) := by decide +kernel

-- two products of equal terms, three contractions, two outer products
example : ThreeStages (fun _ => 2) stagesInputs {0, 3, 6} {0, 3, 6} [[1, 5], [4, 6], [3, 9], [0, 2], [8, 11], [7, 10], [12, 13]] :=
  C101_three_stages (by simp) gAscending_ok (by decide) (by
    intro c
    constructor
    · exact Or.inl
    · rintro (h | h)
      · exact h
      · have h1 := h {5} (by decide)
        have h2 := h {6} (by decide)
        simp only [Finset.mem_singleton] at h1 h2
        omega) stages_path

-- equal terms must be multiplied first: 'a,a,b->ab'
example : ¬ ThreeStages (fun _ => 2) [{0}, {0}, {1}] {0, 1} {0, 1} [[0, 2], [1, 3]] := by
  rintro ⟨first, second, third, live1, live2, live3, hp, h1, h2, -⟩
  cases h1 with
  | done =>
    exact h2 ({0}, 0) (by decide) ({1}, 1) (by decide) (by decide) (by decide)
  | @step _ _ _ p q rest hp' hq' hne hok h =>
    have he : p.2 = 0 ∧ q.2 = 2 := by
      simp only [List.cons_append, List.cons.injEq] at hp
      exact ⟨hp.1.1.symm, hp.1.2.1.symm⟩
    have e1 : p = ({0}, 0) := (by decide : ∀ p ∈ inputOperands 3, p.2 = 0 → p = ({0}, 0)) p hp' he.1
    have e2 : q = ({2}, 2) := (by decide : ∀ q ∈ inputOperands 3, q.2 = 2 → q = ({2}, 2)) q hq' he.2
    subst e1 e2
    exact absurd hok (by unfold SameLabels; decide)

end OE.Props
