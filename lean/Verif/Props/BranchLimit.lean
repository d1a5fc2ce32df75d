import Verif.Props.Branch4
import Verif.Props.Optimal3

/-!
# C58 under a memory limit
-/

namespace OE.Props
open OE OE.Py OE.Spec OE.Paths

section
variable {cfg : BBCfg} {size : Nat → Nat} {ins : List (Finset Nat)} {out : Finset Nat} {order : SetOrder} {m : Nat}

/-- Cache, progress and best are what they say; the best may be a path that contracts all that remains at once. -/
structure BBLim (cfg : BBCfg) (size : Nat → Nat) (ins : List (Finset Nat)) (out : Finset Nat) (m : Nat) (st : BBSt) : Prop where
  cache : CacheInv size ins out st.cache
  progress : ∀ k b, st.progress.get? k = some b → ∃ d, k = ins.length + d ∧ Reach size ins out (d + 1) b
  best : ∀ p, st.path = some p → ((tagCost size ins out (tags ins.length) p : Nat) : WithTop Nat) ≤ st.flops
  proper : cfg.bySize = true → st.size ≠ ⊤ → st.size ≤ (m : WithTop Nat) ∧ ∃ p, st.path = some p ∧
    st.flops = (tagCost size ins out (tags ins.length) p : Nat) ∧ st.size = (tagPeak size ins out (tags ins.length) p : Nat) ∧ Pairwise2 p

theorem Improves.flops_le {s t : BBSt} (h : Improves false s t) : t.flops ≤ s.flops := by
  rcases h with ⟨h, _⟩ | h
  · exact h.le
  · simp only [better, Bool.false_eq_true, if_false, decide_eq_true_eq] at h
    rcases h with h | ⟨h, _⟩
    · exact h.le
    · exact h.le

/-- A path of these figures is no better than the best: by operations alone, or by size first. -/
def Beaten (b : Bool) (f s : Nat) (st : BBSt) : Prop :=
  if b then better true (f : WithTop Nat) (s : WithTop Nat) st.flops st.size = false else st.flops ≤ (f : WithTop Nat)

theorem Beaten.improve {b : Bool} {f s : Nat} {st st' : BBSt} (h : Beaten b f s st) (hi : Improves b st st') : Beaten b f s st' := by
  unfold Beaten at *
  cases b with
  | false => simp only [Bool.false_eq_true, if_false] at *; exact hi.flops_le.trans h
  | true => simp only [if_true] at *; exact hi.not_better h

theorem beaten_of_not_better {b : Bool} {f s f1 s1 : Nat} {st : BBSt} (h : better b (f : WithTop Nat) (s : WithTop Nat) st.flops st.size = false)
    (hf : f ≤ f1) (hs : s ≤ s1) : Beaten b f1 s1 st := by
  have h1 := not_better_mono h hf hs
  unfold Beaten
  cases b with
  | true => simpa using h1
  | false =>
    simp only [Bool.false_eq_true, if_false]
    simp only [better, Bool.false_eq_true, if_false, decide_eq_false_iff_not, not_or, not_lt] at h1
    exact h1.1

/-- A candidate is what it says, and fits. -/
structure CandLim (size : Nat → Nat) (ins : List (Finset Nat)) (out : Finset Nat) (m : Nat) (store : List Tag) (nd : SearchNode) (sz : Nat) (c : Cand) :
    Prop where
  i : c.i ∈ nd.remaining
  j : c.j ∈ nd.remaining
  ne : c.i ≠ c.j
  k12 : c.k12 = termOf ins out (combineTag (pick store [c.i, c.j]))
  newFlops : c.newFlops = nd.flops + gFlops size ins out (pick store [c.i, c.j])
  newSize : c.newSize = max sz (gSize size ins out (pick store [c.i, c.j]))
  fits : gSize size ins out (pick store [c.i, c.j]) ≤ m

/-- Why a pair is no candidate. -/
def ExcusedLim (cfg : BBCfg) (size : Nat → Nat) (ins : List (Finset Nat)) (out : Finset Nat) (m : Nat) (store : List Tag) (nd : SearchNode) (sz : Nat)
    (st : BBSt) (x : Nat × Nat) : Prop :=
  better cfg.bySize ((nd.flops + gFlops size ins out (pick store [x.1, x.2]) : Nat) : WithTop Nat)
    ((max sz (gSize size ins out (pick store [x.1, x.2])) : Nat) : WithTop Nat) st.flops st.size = false ∨
  (∃ b, Reach size ins out (nd.path.length + 1) b ∧ cfg.cutoff * b < ((nd.flops + gFlops size ins out (pick store [x.1, x.2]) : Nat) : ℚ)) ∨
  (m < gSize size ins out (pick store [x.1, x.2]) ∧
    (cfg.bySize = false → st.flops ≤ ((nd.flops + oversizeFlops size nd.inputs nd.remaining out : Nat) : WithTop Nat)))

theorem ExcusedLim.improve {store : List Tag} {nd : SearchNode} {sz : Nat} {s t : BBSt} {x : Nat × Nat}
    (h : ExcusedLim cfg size ins out m store nd sz s x) (hi : Improves cfg.bySize s t) : ExcusedLim cfg size ins out m store nd sz t x := by
  rcases h with h | h | ⟨h1, h2⟩
  · exact Or.inl (hi.not_better h)
  · exact Or.inr (Or.inl h)
  · refine Or.inr (Or.inr ⟨h1, fun hb => ?_⟩)
    rw [hb] at hi
    exact hi.flops_le.trans (h2 hb)

theorem progressStep_lim {progress : Dict Nat Nat} (h : ∀ k b, progress.get? k = some b → ∃ d, k = ins.length + d ∧ Reach size ins out (d + 1) b)
    {store : List Tag} {nd : SearchNode} {sz : Nat}
    (hnd : NodeTrue size ins out store nd sz) {i j : Nat} (hi : i ∈ nd.remaining) (hj : j ∈ nd.remaining) (hij : i ≠ j) (cutoff : ℚ) :
    match progressStep cutoff progress nd.inputs.length (nd.flops + gFlops size ins out (pick store [i, j])) with
    | some p => ∀ k b, p.get? k = some b → ∃ d, k = ins.length + d ∧ Reach size ins out (d + 1) b
    | none => ∃ b, Reach size ins out (nd.path.length + 1) b ∧ cutoff * b < ((nd.flops + gFlops size ins out (pick store [i, j]) : Nat) : ℚ) :=
  progressStep_true (st := { BBSt.fresh with progress }) ⟨cacheInv_nil, h, fun _ => ⟨rfl, rfl⟩, by simp [BBSt.fresh]⟩ hnd hi hj hij cutoff

theorem assess_lim (hsafe : CacheSafe ins out) (ho : OrderOK order) {store : List Tag} {nd : SearchNode} {sz : Nat} (hnd : NodeTrue size ins out store nd sz)
    {st : BBSt} (h : BBLim cfg size ins out m st) {ij : Nat × Nat} (hi : ij.1 ∈ nd.remaining) (hj : ij.2 ∈ nd.remaining) (hij : ij.1 ≠ ij.2) :
    BBLim cfg size ins out m (assess cfg size out (some m) order nd sz st ij).2 ∧
    Improves cfg.bySize st (assess cfg size out (some m) order nd sz st ij).2 ∧
    (∀ c, (assess cfg size out (some m) order nd sz st ij).1 = some c → c.i = ij.1 ∧ c.j = ij.2 ∧ CandLim size ins out m store nd sz c ∧
      better cfg.bySize c.newFlops c.newSize (assess cfg size out (some m) order nd sz st ij).2.flops
        (assess cfg size out (some m) order nd sz st ij).2.size = true) ∧
    ((assess cfg size out (some m) order nd sz st ij).1 = none →
      ExcusedLim cfg size ins out m store nd sz (assess cfg size out (some m) order nd sz st ij).2 ij) := by
  obtain ⟨r1, r2⟩ := cached_good hsafe hnd.toGood hi hj hij h.cache
  have hp := progressStep_lim h.progress hnd hi hj hij cfg.cutoff
  have hgs : Paths.sizeOf size (termOf ins out (combineTag (pick store [ij.1, ij.2]))) = gSize size ins out (pick store [ij.1, ij.2]) := rfl
  unfold assess
  simp only
  rw [r1]
  simp only [hgs]
  by_cases hb : better cfg.bySize ((nd.flops + gFlops size ins out (pick store [ij.1, ij.2]) : Nat) : WithTop Nat)
    ((max sz (gSize size ins out (pick store [ij.1, ij.2])) : Nat) : WithTop Nat) st.flops st.size = true
  · rw [if_pos hb]
    cases hps : progressStep cfg.cutoff st.progress nd.inputs.length (nd.flops + gFlops size ins out (pick store [ij.1, ij.2])) with
    | none =>
      rw [hps] at hp
      exact ⟨⟨r2, h.progress, h.best, h.proper⟩, Improves.refl _ _, by simp, fun _ => Or.inr (Or.inl hp)⟩
    | some p =>
      rw [hps] at hp
      simp only [assessFit, Option.any_some, hgs]
      by_cases hbig : gSize size ins out (pick store [ij.1, ij.2]) > m
      · rw [if_pos (by simpa using hbig)]
        have hov := oversize_eq hnd.toGood (ho nd.path nd.remaining).1 (fun i => (ho nd.path nd.remaining).2 i)
        have htop : cfg.bySize = true → st.size = ⊤ := by
          intro hby
          by_contra hne
          obtain ⟨hle, _⟩ := h.proper hby hne
          rw [hby] at hb
          simp only [better, if_true, decide_eq_true_eq] at hb
          have h1 : ((max sz (gSize size ins out (pick store [ij.1, ij.2])) : Nat) : WithTop Nat) ≤ st.size := by
            rcases hb with hb | ⟨hb, _⟩
            · exact hb.le
            · exact hb.le
          have h2 := WithTop.coe_le_coe.mp (h1.trans hle)
          have := le_max_right sz (gSize size ins out (pick store [ij.1, ij.2]))
          omega
        by_cases hlt : ((nd.flops + oversizeFlops size nd.inputs nd.remaining out : Nat) : WithTop Nat) < st.flops
        · rw [if_pos hlt]
          refine ⟨⟨r2, hp, ?_, ?_⟩, ?_, by simp, fun _ => Or.inr (Or.inr ⟨hbig, fun _ => le_refl _⟩)⟩
          · rintro q ⟨⟩
            simp only [tagCost, ssaTrace_append, List.map_append, List.sum_append, ← hnd.flops_eq, ← hnd.store_eq, ssaTrace, List.map_cons,
              List.map_nil, List.sum_cons, List.sum_nil, Nat.add_zero]
            rw [hov]
            exact WithTop.coe_le_coe.mpr (Nat.add_le_add_left (gFlops_le_gPlan _) _)
          · intro hby hne
            exact absurd (htop hby) hne
          · right
            cases hby : cfg.bySize with
            | true => simp only [better, if_true, decide_eq_true_eq]; exact Or.inr ⟨trivial, hlt⟩
            | false => simp only [better, Bool.false_eq_true, if_false, decide_eq_true_eq]; exact Or.inl hlt
        · rw [if_neg hlt]
          exact ⟨⟨r2, hp, h.best, h.proper⟩, Improves.refl _ _, by simp, fun _ => Or.inr (Or.inr ⟨hbig, fun _ => not_lt.mp hlt⟩)⟩
      · rw [if_neg (by simpa using hbig)]
        refine ⟨⟨r2, hp, h.best, h.proper⟩, Improves.refl _ _, ?_, by simp⟩
        rintro c ⟨⟩
        exact ⟨rfl, rfl, ⟨hi, hj, hij, rfl, rfl, rfl, not_lt.mp hbig⟩, hb⟩
  · rw [if_neg hb]
    exact ⟨⟨r2, h.progress, h.best, h.proper⟩, Improves.refl _ _, by simp, fun _ => Or.inl (by simpa using hb)⟩

theorem assess_fold_lim (hsafe : CacheSafe ins out) (ho : OrderOK order) {store : List Tag} {nd : SearchNode} {sz : Nat}
    (hnd : NodeTrue size ins out store nd sz) (l : List (Nat × Nat)) (hl : ∀ x ∈ l, x.1 ∈ nd.remaining ∧ x.2 ∈ nd.remaining ∧ x.1 ≠ x.2)
    (acc : List Cand × BBSt) (hacc : ∀ c ∈ acc.1, CandLim size ins out m store nd sz c) (h : BBLim cfg size ins out m acc.2) :
    let r := l.foldl (assessStep cfg size out (some m) order nd sz) acc
    BBLim cfg size ins out m r.2 ∧ Improves cfg.bySize acc.2 r.2 ∧ (∀ c ∈ r.1, CandLim size ins out m store nd sz c) ∧
    (∀ c ∈ acc.1, c ∈ r.1) ∧ r.1.length ≤ acc.1.length + l.length ∧
    (∀ x ∈ l, (∃ c ∈ r.1, c.i = x.1 ∧ c.j = x.2) ∨ ExcusedLim cfg size ins out m store nd sz r.2 x) ∧
    (l.length ≤ 1 → acc.1 = [] → ∀ c ∈ r.1, better cfg.bySize c.newFlops c.newSize r.2.flops r.2.size = true) := by
  induction l generalizing acc with
  | nil => exact ⟨h, Improves.refl _ _, hacc, fun c hc => hc, by simp, by simp, fun _ ha c hc => by simp [ha] at hc⟩
  | cons x xs ih =>
    obtain ⟨hi, hj, hij⟩ := hl x (by simp)
    obtain ⟨a1, a2, a4, a5⟩ := assess_lim (cfg := cfg) (order := order) hsafe ho hnd h hi hj hij
    obtain ⟨b1, b2, b4, b5, b6, b7, b8⟩ := ih (fun y hy => hl y (by simp [hy])) (assessStep cfg size out (some m) order nd sz acc x) (by
        intro c hc
        simp only [assessStep, List.mem_append, Option.mem_toList] at hc
        rcases hc with hc | hc
        · exact hacc c hc
        · exact (a4 c hc).2.2.1) a1
    rw [List.foldl_cons]
    refine ⟨b1, a2.trans b2, b4, fun c hc => b5 c (by simp [assessStep, hc]), ?_, ?_, ?_⟩
    · refine b6.trans ?_
      simp only [assessStep, List.length_append, List.length_cons]
      have : (assess cfg size out (some m) order nd sz acc.2 x).1.toList.length ≤ 1 := by
        cases (assess cfg size out (some m) order nd sz acc.2 x).1 <;> simp
      omega
    · intro y hy
      rcases List.mem_cons.mp hy with rfl | hy
      · cases hr : (assess cfg size out (some m) order nd sz acc.2 y).1 with
        | none => exact Or.inr ((a5 hr).improve b2)
        | some c =>
          left
          obtain ⟨e1, e2, _⟩ := a4 c hr
          exact ⟨c, b5 c (by simp [assessStep, hr]), e1, e2⟩
      · exact b7 y hy
    · intro hlen ha c hc
      have hxs : xs = [] := List.length_eq_zero_iff.mp (by simp only [List.length_cons] at hlen; omega)
      subst hxs
      simp only [List.foldl_nil, assessStep, ha, List.nil_append, Option.mem_toList] at hc ⊢
      exact (a4 c hc).2.2.2

/-- What the candidates are. -/
theorem candidates_lim (hsafe : CacheSafe ins out) (ho : OrderOK order) {store : List Tag} {nd : SearchNode} {sz : Nat}
    (hnd : NodeTrue size ins out store nd sz) {st : BBSt} (h : BBLim cfg size ins out m st) :
    let r := candidates cfg size out (some m) order nd sz st
    BBLim cfg size ins out m r.2 ∧ Improves cfg.bySize st r.2 ∧ (∀ c ∈ r.1, CandLim size ins out m store nd sz c) ∧
    (nd.remaining.card = 2 → r.1.length ≤ 1 ∧ ∀ c ∈ r.1, better cfg.bySize c.newFlops c.newSize r.2.flops r.2.size = true) ∧
    ∀ x ∈ (combinations2 (order nd.path nd.remaining)).map orient,
      (Disjoint (nd.inputs.getD x.1 ∅) (nd.inputs.getD x.2 ∅) →
        ∀ y ∈ (combinations2 (order nd.path nd.remaining)).map orient, Disjoint (nd.inputs.getD y.1 ∅) (nd.inputs.getD y.2 ∅)) →
      (∃ c ∈ r.1, c.i = x.1 ∧ c.j = x.2) ∨ ExcusedLim cfg size ins out m store nd sz r.2 x := by
  have hpairs := pairs_ok ho nd.path nd.remaining
  have hone : nd.remaining.card = 2 → ((combinations2 (order nd.path nd.remaining)).map orient).length ≤ 1 := by
    intro h2
    obtain ⟨o1, o2⟩ := ho nd.path nd.remaining
    have hlen : (order nd.path nd.remaining).length = 2 := by
      rw [← List.toFinset_card_of_nodup o1, ← h2]
      congr 1
      ext a; rw [List.mem_toFinset, o2]
    match order nd.path nd.remaining, hlen with
    | [a, b], _ => simp [combinations2]
  unfold candidates
  simp only
  set pairs := (combinations2 (order nd.path nd.remaining)).map orient with hpd
  set inner := pairs.filter (fun ij => decide (¬ Disjoint (nd.inputs.getD ij.1 ∅) (nd.inputs.getD ij.2 ∅))) with hinner
  have hsub : ∀ x ∈ inner, x ∈ pairs := fun x hx => (List.mem_filter.mp hx).1
  obtain ⟨a1, a2, a4, a5, a6, a7, a8⟩ := assess_fold_lim (cfg := cfg) (order := order) hsafe ho hnd inner (fun x hx => hpairs x (hsub x hx))
    ([], st) (by simp) h
  split
  · rename_i he
    obtain ⟨b1, b2, b4, b5, b6, b7, b8⟩ := assess_fold_lim (cfg := cfg) (order := order) hsafe ho hnd pairs hpairs _ (by rw [he]; simp) a1
    refine ⟨b1, a2.trans b2, b4, ?_, fun x hx _ => b7 x hx⟩
    intro h2
    have := hone h2
    rw [he] at b6
    simp only [List.length_nil] at b6
    exact ⟨by omega, b8 this he⟩
  · rename_i he
    refine ⟨a1, a2, a4, ?_, ?_⟩
    · intro h2
      have := hone h2
      have h3 : inner.length ≤ pairs.length := List.length_filter_le _ _
      simp only [List.length_nil] at a6
      exact ⟨by omega, a8 (by omega) rfl⟩
    · intro x hx hd
      by_cases hdx : Disjoint (nd.inputs.getD x.1 ∅) (nd.inputs.getD x.2 ∅)
      · exfalso
        have : inner = [] := by
          rw [hinner, List.filter_eq_nil_iff]
          intro y hy
          simpa using hd hdx y hy
        apply he
        rw [this]
        rfl
      · exact a7 x (List.mem_filter.mpr ⟨hx, by simpa using hdx⟩)

/-- The paths that are compared: their results fit; the last one need not if operations are counted and no label is summed alone. -/
def AllowedFor (b : Bool) (size : Nat → Nat) (ins : List (Finset Nat)) (out : Finset Nat) (m : Nat) (trace : List (Multiset Tag)) : Prop :=
  (∀ x ∈ trace, gSize size ins out x ≤ m) ∨ (b = false ∧ NoLoneLabels ins out ∧ ∀ x ∈ trace.dropLast, gSize size ins out x ≤ m)

theorem AllowedFor.tail {b : Bool} {x : Multiset Tag} {t : List (Multiset Tag)} (h : AllowedFor b size ins out m (x :: t)) :
    AllowedFor b size ins out m t := by
  rcases h with h | ⟨h1, h2, h3⟩
  · exact Or.inl fun y hy => h y (by simp [hy])
  · refine Or.inr ⟨h1, h2, fun y hy => h3 y ?_⟩
    cases t with
    | nil => simp at hy
    | cons a t => rw [List.dropLast_cons_of_ne_nil (by simp)]; exact List.mem_cons_of_mem _ hy

/-- No allowed completion of a node is better than the best. -/
def SettledLim (cfg : BBCfg) (size : Nat → Nat) (ins : List (Finset Nat)) (out : Finset Nat) (m : Nat) (store : List Tag) (rem : Finset Nat) (flops sz k : Nat)
    (st : BBSt) : Prop :=
  ∀ rest, SsaValid rem store.length rest → Pairwise2 rest → rest.length + 1 = rem.card →
    InnerTr ins out (liveTags store rem) (ssaTrace combineTag store rest) →
    WithinTr cfg.cutoff size ins out flops k (ssaTrace combineTag store rest) →
    AllowedFor cfg.bySize size ins out m (ssaTrace combineTag store rest) →
    Beaten cfg.bySize (flops + tagCost size ins out store rest) (max sz (tagPeak size ins out store rest)) st

theorem SettledLim.improve {store : List Tag} {rem : Finset Nat} {flops sz k : Nat} {s t : BBSt} (h : SettledLim cfg size ins out m store rem flops sz k s)
    (hi : Improves cfg.bySize s t) : SettledLim cfg size ins out m store rem flops sz k t :=
  fun rest a b c d e f => (h rest a b c d e f).improve hi

/-- What a visited candidate establishes. -/
def CandSettledLim (cfg : BBCfg) (size : Nat → Nat) (ins : List (Finset Nat)) (out : Finset Nat) (m : Nat) (store : List Tag) (nd : SearchNode) (sz : Nat)
    (c : Cand) (st : BBSt) : Prop :=
  SettledLim cfg size ins out m (store ++ [combineTag (pick store [c.i, c.j])]) (nd.child c.i c.j c.k12 c.newFlops).remaining
    (nd.flops + gFlops size ins out (pick store [c.i, c.j])) (max sz (gSize size ins out (pick store [c.i, c.j]))) (nd.path.length + 1) st

/-- A node is settled when all its candidates are. -/
theorem settled_of_candidates_lim (ho : OrderOK order) {store : List Tag} {nd : SearchNode} {sz : Nat} (hnd : NodeTrue size ins out store nd sz)
    (h1 : nd.remaining.card ≠ 1) {cands : List Cand} {st' : BBSt}
    (hc : ∀ c ∈ cands, CandSettledLim cfg size ins out m store nd sz c st')
    (hall : ∀ x ∈ (combinations2 (order nd.path nd.remaining)).map orient,
      (Disjoint (nd.inputs.getD x.1 ∅) (nd.inputs.getD x.2 ∅) →
        ∀ y ∈ (combinations2 (order nd.path nd.remaining)).map orient, Disjoint (nd.inputs.getD y.1 ∅) (nd.inputs.getD y.2 ∅)) →
      (∃ c ∈ cands, c.i = x.1 ∧ c.j = x.2) ∨ ExcusedLim cfg size ins out m store nd sz st' x) :
    SettledLim cfg size ins out m store nd.remaining nd.flops sz nd.path.length st' := by
  intro rest hv hp hl hin hwi hal
  cases rest with
  | nil => simp at hl; omega
  | cons p ps =>
    obtain ⟨i, j, rfl⟩ : ∃ i j, p = [i, j] := by
      have := hp p (by simp)
      match p, this with
      | [i, j], _ => exact ⟨i, j, rfl⟩
    obtain ⟨_, hn, hm, hrest⟩ := hv
    have hi := hm i (by simp)
    have hj := hm j (by simp)
    have hij : i ≠ j := by simpa using hn
    rw [pair_toFinset] at hrest
    have hps : Pairwise2 ps := fun q hq => hp q (by simp [hq])
    simp only [ssaTrace] at hin hwi hal
    obtain ⟨hin1, hin2⟩ := hin
    obtain ⟨hwi1, hwi2⟩ := hwi
    rw [tagCost_cons, tagPeak_cons, ← Nat.add_assoc, ← max_assoc]
    obtain ⟨x, hx, hxe⟩ : ∃ x ∈ (combinations2 (order nd.path nd.remaining)).map orient, x = (i, j) ∨ x = (j, i) := by
      rcases combinations2_complete (((ho nd.path nd.remaining).2 i).mpr hi) (((ho nd.path nd.remaining).2 j).mpr hj) hij with h | h
      · exact ⟨_, List.mem_map_of_mem h, orient_eq _⟩
      · exact ⟨_, List.mem_map_of_mem h, (orient_eq _).symm⟩
    have hpick : pick store [x.1, x.2] = pick store [i, j] := by
      rcases hxe with rfl | rfl
      · rfl
      · exact pick_swap _ _ _
    have hpair : ({x.1, x.2} : Finset Nat) = {i, j} := by
      rcases hxe with rfl | rfl
      · rfl
      · exact Finset.pair_comm _ _
    have hdisj : Disjoint (nd.inputs.getD x.1 ∅) (nd.inputs.getD x.2 ∅) →
        ∀ y ∈ (combinations2 (order nd.path nd.remaining)).map orient, Disjoint (nd.inputs.getD y.1 ∅) (nd.inputs.getD y.2 ∅) := by
      intro hd y hy
      by_contra hnd'
      obtain ⟨y1, y2, y3⟩ := pairs_ok ho nd.path nd.remaining y hy
      obtain ⟨X, Y, e1, e2, _, _, f1, f2⟩ := hnd.toGood.pair y1 y2 y3
      rw [f1, f2] at hnd'
      obtain ⟨X', Y', g1, g2⟩ := hin1 ⟨X, Y, by rw [liveTags_split y1 y2 y3 e1 e2]; exact Multiset.cons_le_cons _ (Multiset.cons_le_cons _ (Multiset.zero_le _)), hnd'⟩
      obtain ⟨U, V, _, _, _, hp', h1', h2'⟩ := hnd.toGood.pair hi hj hij
      rw [hp'] at g1
      have heq : ({X', Y'} : Multiset Tag) = {U, V} := Multiset.eq_of_le_of_card_le g1 (by simp)
      have hd' : Disjoint (termOf ins out U) (termOf ins out V) := by
        rw [← h1', ← h2']
        rcases hxe with rfl | rfl
        · exact hd
        · exact hd.symm
      have hX : X' ∈ ({U, V} : Multiset Tag) := by rw [← heq]; simp
      rcases mem_pair.mp hX with rfl | rfl
      · have : ({Y'} : Multiset Tag) = {V} := (Multiset.cons_inj_right X').mp heq
        rw [Multiset.singleton_inj] at this
        subst this
        exact g2 hd'
      · have h2 : ({X', Y'} : Multiset Tag) = {X', U} := by rw [heq]; exact Multiset.pair_comm _ _
        have : ({Y'} : Multiset Tag) = {U} := (Multiset.cons_inj_right X').mp h2
        rw [Multiset.singleton_inj] at this
        subst this
        exact g2 hd'.symm
    rcases hall x hx hdisj with ⟨c, hcm, e1, e2⟩ | hexc
    · have hs := hc c hcm
      unfold CandSettledLim at hs
      rw [e1, e2, hpick] at hs
      have hrem : (nd.child x.1 x.2 c.k12 c.newFlops).remaining = insert nd.inputs.length (nd.remaining \ {i, j}) := by
        simp only [SearchNode.child, hpair]
      refine hs ps ?_ hps ?_ ?_ hwi2 hal.tail
      · rw [hrem, List.length_append, ← hnd.toGood.len]
        rw [← hnd.toGood.len] at hrest
        exact hrest
      · have := child_remaining_card hnd.toGoodPath hi hj hij c.k12 c.newFlops
        simp only [SearchNode.child] at this
        rw [hrem]
        simp only [List.length_cons] at hl
        omega
      · have := liveTags_child hnd.toGood hi hj hij c.k12 c.newFlops
        rw [hrem]
        simp only [SearchNode.child] at this
        rw [this]
        exact hin2
    · unfold ExcusedLim at hexc
      rw [hpick] at hexc
      rcases hexc with hexc | ⟨b, hb, hlt⟩ | ⟨hbig, hov⟩
      · exact beaten_of_not_better hexc (by omega) (le_max_left _ _)
      · exact absurd (hwi1 b hb) (not_le.mpr hlt)
      · rcases hal with hal | ⟨hby, hlone, hal⟩
        · exact absurd (hal _ (by simp)) (not_le.mpr hbig)
        · cases ps with
          | cons a t =>
            refine absurd (hal (pick store [i, j]) ?_) (not_le.mpr hbig)
            simp [ssaTrace]
          | nil =>
            have hrem : nd.remaining = {i, j} := by
              symm
              apply Finset.eq_of_subset_of_card_le
              · intro k hk
                simp only [Finset.mem_insert, Finset.mem_singleton] at hk
                rcases hk with rfl | rfl
                · exact hi
                · exact hj
              · rw [Finset.card_pair hij]; simp at hl; omega
            obtain ⟨X, Y, _, _, hg, hpp, _, _⟩ := hnd.toGood.pair hi hj hij
            have he : oversizeFlops size nd.inputs nd.remaining out = gFlops size ins out (pick store [i, j]) := by
              rw [oversize_eq hnd.toGood (l := [i, j]) (by simpa using hij) (by intro i; rw [hrem]; simp), hpp]
              exact gPlan_eq_gFlops hlone hg
            have := hov hby
            rw [he] at this
            unfold Beaten
            rw [hby]
            simp only [Bool.false_eq_true, if_false]
            simpa [tagCost, ssaTrace] using this

theorem branchIter_leaf_lim (fuel : Nat) (nd : SearchNode) (store : List Tag) (sz : Nat) (hnd : NodeTrue size ins out store nd sz) (hsz : sz ≤ m)
    (h1 : nd.remaining.card = 1) (st : BBSt) (hst : BBLim cfg size ins out m st) (hb : better cfg.bySize nd.flops sz st.flops st.size = true) :
    ∃ st', branchIter cfg size out (some m) order fuel nd sz st = some st' ∧ BBLim cfg size ins out m st' ∧ Improves cfg.bySize st st' ∧
      (cfg.nbranch = none → SettledLim cfg size ins out m store nd.remaining nd.flops sz nd.path.length st') := by
  rw [branchIter.eq_def]
  simp only
  rw [if_pos h1]
  refine ⟨_, rfl, ⟨hst.cache, hst.progress, ?_, ?_⟩, Or.inr hb, ?_⟩
  · rintro p ⟨⟩
    simp only [tagCost]; rw [hnd.flops_eq]
  · intro _ _
    refine ⟨WithTop.coe_le_coe.mpr hsz, nd.path, rfl, ?_, ?_, hnd.pairwise⟩
    · simp only [tagCost]; rw [hnd.flops_eq]
    · simp only; rw [hnd.peak]
  · intro _ rest _ _ hl _ _ _
    have : rest = [] := by
      cases rest with
      | nil => rfl
      | cons a b => simp at hl; omega
    subst this
    simp only [tagCost, tagPeak, ssaTrace, List.map_nil, List.sum_nil, List.foldr_nil, Nat.add_zero, Nat.max_zero]
    exact beaten_of_not_better (better_irrefl _ _ _) (le_refl _) (le_refl _)

/-- The core. -/
theorem branchIter_lim (hsafe : CacheSafe ins out) (ho : OrderOK order) (fuel : Nat) (nd : SearchNode) (store : List Tag) (sz : Nat)
    (hnd : NodeTrue size ins out store nd sz) (hsz : sz ≤ m) (hcard : 0 < nd.remaining.card) (hfuel : nd.remaining.card ≤ fuel + 1) (st : BBSt)
    (hst : BBLim cfg size ins out m st) (hleaf : nd.remaining.card = 1 → better cfg.bySize nd.flops sz st.flops st.size = true) :
    ∃ st', branchIter cfg size out (some m) order fuel nd sz st = some st' ∧ BBLim cfg size ins out m st' ∧ Improves cfg.bySize st st' ∧
      (cfg.nbranch = none → SettledLim cfg size ins out m store nd.remaining nd.flops sz nd.path.length st') := by
  induction fuel generalizing nd store sz st with
  | zero => exact branchIter_leaf_lim _ _ _ _ hnd hsz (by omega) st hst (hleaf (by omega))
  | succ fuel ih =>
    by_cases h1 : nd.remaining.card = 1
    · exact branchIter_leaf_lim _ _ _ _ hnd hsz h1 st hst (hleaf h1)
    rw [branchIter, if_neg h1]
    simp only
    obtain ⟨a1, a2, a4, a5, a6⟩ := candidates_lim (cfg := cfg) hsafe ho hnd hst
    generalize candidates cfg size out (some m) order nd sz st = r at a1 a2 a4 a5 a6 ⊢
    obtain ⟨cands, s⟩ := r
    simp only at a1 a2 a4 a5 a6 ⊢
    have hstep : ∀ (t : BBSt), ∀ c ∈ visited cfg.nbranch cands, BBLim cfg size ins out m t → (nd.remaining.card = 2 → t.flops = s.flops ∧ t.size = s.size) →
        ∃ t', branchIter cfg size out (some m) order fuel (nd.child c.i c.j c.k12 c.newFlops) c.newSize t = some t' ∧ BBLim cfg size ins out m t' ∧
          Improves cfg.bySize t t' ∧ (cfg.nbranch = none → CandSettledLim cfg size ins out m store nd sz c t') := by
      intro t c hc ht h2
      obtain ⟨hi, hj, hij, hk, hf, hs, hfit⟩ := a4 c (mem_visited hc)
      have hcc := child_remaining_card hnd.toGoodPath hi hj hij c.k12 c.newFlops
      have hchild := hnd.child hi hj hij
      have hlf : (nd.child c.i c.j c.k12 c.newFlops).remaining.card = 1 →
          better cfg.bySize (nd.child c.i c.j c.k12 c.newFlops).flops c.newSize t.flops t.size = true := by
        intro h
        have h2' : nd.remaining.card = 2 := by omega
        obtain ⟨e1, e2⟩ := h2 h2'
        rw [e1, e2]
        exact (a5 h2').2 c (mem_visited hc)
      have hnode : NodeTrue size ins out (store ++ [combineTag (pick store [c.i, c.j])]) (nd.child c.i c.j c.k12 c.newFlops) c.newSize := by
        rw [hk, hf, hs]; exact hchild
      obtain ⟨t', g1, g2, g3, g4⟩ := ih _ _ _ hnode (by rw [hs]; exact max_le hsz hfit) (by omega) (by omega) t ht hlf
      refine ⟨t', g1, g2, g3, fun hnb => ?_⟩
      have := g4 hnb
      unfold CandSettledLim
      rw [← hs, ← hf]
      simpa [SearchNode.child] using this
    have hvis : cfg.nbranch = none → ∀ c ∈ cands, c ∈ visited cfg.nbranch cands := by
      intro h c hc
      rw [h]
      exact (List.perm_insertionSort _ cands).mem_iff.mpr hc
    have hvlen : (visited cfg.nbranch cands).length ≤ cands.length := by
      have h0 := (List.perm_insertionSort (fun a b : Cand => a.le b = true) cands).length_eq
      unfold visited
      cases cfg.nbranch with
      | none => exact h0.le
      | some k => simp only [List.length_take]; omega
    have hfin : ∃ st', (visited cfg.nbranch cands).foldlM (fun st c =>
          branchIter cfg size out (some m) order fuel (nd.child c.i c.j c.k12 c.newFlops) c.newSize st) s = some st' ∧ BBLim cfg size ins out m st' ∧
          Improves cfg.bySize s st' ∧ (∀ c ∈ visited cfg.nbranch cands, cfg.nbranch = none → CandSettledLim cfg size ins out m store nd sz c st') := by
      by_cases h2 : nd.remaining.card = 2
      · have hv1 : (visited cfg.nbranch cands).length ≤ 1 := hvlen.trans (a5 h2).1
        generalize visited cfg.nbranch cands = l at hv1 hstep
        match l, hv1 with
        | [], _ => exact ⟨s, rfl, a1, Improves.refl _ _, by simp⟩
        | [c], _ =>
          obtain ⟨t', g1, g2, g3, g4⟩ := hstep s c (by simp) a1 (fun _ => ⟨rfl, rfl⟩)
          refine ⟨t', ?_, g2, g3, ?_⟩
          · rw [List.foldlM_cons, g1]; rfl
          · intro c' hc'
            rw [List.mem_singleton] at hc'
            subst hc'
            exact g4
      · exact foldlM_rule (fun t => BBLim cfg size ins out m t) (Improves cfg.bySize)
          (fun c t => cfg.nbranch = none → CandSettledLim cfg size ins out m store nd sz c t)
          (Improves.refl _) (fun _ _ _ => Improves.trans) (fun c t u h hP hn => (hP hn).improve h) _
          (fun t c hc ht => hstep t c hc ht (fun h => absurd h h2)) s a1
    obtain ⟨st', e1, e2, e3, e4⟩ := hfin
    refine ⟨st', e1, e2, a2.trans e3, fun hnb => ?_⟩
    exact settled_of_candidates_lim ho hnd h1 (fun c hc => e4 c (hvis hnb c hc) hnb) (fun x hx hd => (a6 x hx hd).imp_right (·.improve e3))

theorem liveTags_root (n : Nat) : liveTags (tags n) (Finset.range n) = Multiset.ofList (tags n) := by
  unfold liveTags
  rw [Finset.range_val, ← Multiset.coe_range, Multiset.filterMap_coe]
  congr 1
  unfold tags
  rw [← List.filterMap_eq_map]
  apply List.filterMap_congr
  intro a ha
  simp [List.mem_range.mp ha]

theorem bbLim_fresh : BBLim cfg size ins out m BBSt.fresh :=
  ⟨cacheInv_nil, by simp [BBSt.fresh, Dict.get?], by simp [BBSt.fresh], fun _ h => absurd rfl h⟩

/-- The state after a search under a limit on a new instance. -/
theorem branch_run_lim (hh : NoHyperEdges ins out) (ho : OrderOK order) (hb : cfg.nbranch ≠ some 0) (h2 : 2 ≤ ins.length) {fuel : Nat}
    (hfuel : ins.length ≤ fuel) :
    ∃ st p path, branchIter cfg size out (some m) order fuel (rootNode ins) 0 BBSt.fresh = some st ∧
      branch cfg fuel size (some m) order ins out = some (.ok path) ∧ BBLim cfg size ins out m st ∧
      (cfg.nbranch = none → SettledLim cfg size ins out m (tags ins.length) (Finset.range ins.length) 0 0 0 st) ∧ st.path = some p ∧
      CompletePath ins.length path ∧ (∀ s ∈ (resultSizes size out ins path).dropLast, s ≤ m) ∧
      searchFlops size out ins path = tagCost size ins out (tags ins.length) p ∧ peak size out ins path = tagPeak size ins out (tags ins.length) p ∧
      path.map List.length = p.map List.length ∧ (resultSizes size out ins path = (ssaTrace combineTag (tags ins.length) p).map (gSize size ins out)) := by
  have hne : ins ≠ [] := by rintro rfl; simp at h2
  have hroot : NodeTrue size ins out (tags ins.length) (rootNode ins) 0 :=
    { good_root with pairwise := by intro p hp; simp [rootNode] at hp, peak := rfl }
  obtain ⟨st, e1, e2, _, e4⟩ := branchIter_lim (cfg := cfg) (m := m) (cacheSafe_of_noHyper hh) ho fuel (rootNode ins) _ 0 hroot (Nat.zero_le _)
    (by simp [rootNode]; omega) (by simp [rootNode]; omega) BBSt.fresh bbLim_fresh (by simp [rootNode]; omega)
  obtain ⟨path, st', p, g1, _, g3, g4, g5, _, g7⟩ := branchCall_complete cfg size (some m) ho hb out hne hfuel (fresh_ready _)
  have hst : st' = st := by
    unfold branchCall at g1
    have : branchIter cfg size out (some m) order fuel (rootNode ins) 0 { BBSt.fresh with cache := [] } = some st := e1
    rw [this] at g1
    simp only [Option.map_some, Option.some.injEq, Prod.mk.injEq] at g1
    exact g1.2.symm
  subst hst
  obtain ⟨q, f1, f2, _, f4, f5⟩ := C11_ssa_to_linear g4 (ssaComplete_ne_nil g4 h2)
  rw [g5] at f1
  cases f1
  obtain ⟨l1, l2⟩ := lin_figures (size := size) (out := out) f2 (f5 Tag combineTag (tags ins.length) (tags_length _)).1
  have hbr : branch cfg fuel size (some m) order ins out = some (.ok path) := by
    unfold branch
    rw [if_neg hb, g1]
    rfl
  obtain ⟨path', b1, b2, b3⟩ := C20_branch_function_partial hh cfg hb size m h2 hfuel ho
  have : path' = path := by
    rw [hbr] at b1
    cases b1; rfl
  subst this
  exact ⟨st', p, path', e1, hbr, e2, e4, g3, f2, b3, l1, l2, f4,
    by rw [(figures_complete f2).2.1, (f5 Tag combineTag (tags ins.length) (tags_length _)).1]⟩

/-- What a path that is compared must satisfy, read on its trace. -/
theorem settled_path {st : BBSt} (hset : SettledLim cfg size ins out m (tags ins.length) (Finset.range ins.length) 0 0 0 st)
    {q : Path} (hq : CompletePath ins.length q) (hp : Pairwise2 q) (hin : InnerFirst out ins q) (hwi : WithinCutoff cfg.cutoff size out ins q)
    (hfit : (∀ s ∈ resultSizes size out ins q, s ≤ m) ∨
      (cfg.bySize = false ∧ NoLoneLabels ins out ∧ ∀ s ∈ (resultSizes size out ins q).dropLast, s ≤ m)) :
    Beaten cfg.bySize (searchFlops size out ins q) (peak size out ins q) st := by
  obtain ⟨sq, s1, s2, s3, s4⟩ := ssa_of_pairwise hq hp
  have htr := s4 Tag combineTag (tags ins.length) (tags_length _)
  obtain ⟨l1, l2⟩ := lin_figures (size := size) (out := out) hq htr.symm
  have hal : AllowedFor cfg.bySize size ins out m (ssaTrace combineTag (tags ins.length) sq) := by
    rw [(figures_complete hq).2.1] at hfit
    rw [← List.map_dropLast] at hfit
    rw [htr]
    exact hfit.imp (fun h x hx => h _ (List.mem_map_of_mem hx)) (fun ⟨a, b, c⟩ => ⟨a, b, fun x hx => c _ (List.mem_map_of_mem hx)⟩)
  have := hset sq (by rw [tags_length]; exact s1.1) s2 (by rw [Finset.card_range]; exact s3)
    (by rw [liveTags_root, htr]; exact innerTr_of_innerFirst q (part_tags _) (by rw [tags_length]; exact completePath_valid hq) (by rw [tags_terms]; exact hin))
    (by rw [htr]; exact within_of_cutoff hq hwi) hal
  rw [l1, l2]
  rwa [Nat.zero_add, Nat.zero_max] at this

end

/-- **C58 with a memory limit (partial).** In a network without hyperedges, `branch` with `nbranch=None` and a memory limit, minimizing
operations, with any cutoff, cost function and set iteration orders, returns a path none of whose results but the last exceeds the limit, and
no path that contracts tensors with a common label as long as there are any, stays within the cutoff and has only results within the limit
costs less. If no axis is summed alone the last result (the output) may exceed the limit as well.

Missing: networks with hyperedges, for which the claim is false (`C58_counterexample`). -/
theorem C58_branch_all_limit_partial {ins : List (Finset Nat)} {out : Finset Nat} (hh : NoHyperEdges ins out) (cfg : BBCfg)
    (hnb : cfg.nbranch = none) (hby : cfg.bySize = false) (size : Nat → Nat) (m : Nat) {order : SetOrder} (ho : OrderOK order)
    (h2 : 2 ≤ ins.length) {fuel : Nat} (hfuel : ins.length ≤ fuel) :
    ∃ path, branch cfg fuel size (some m) order ins out = some (.ok path) ∧ CompletePath ins.length path ∧
      (∀ s ∈ (resultSizes size out ins path).dropLast, s ≤ m) ∧
      ∀ q, CompletePath ins.length q → Pairwise2 q → InnerFirst out ins q → WithinCutoff cfg.cutoff size out ins q →
        (∀ s ∈ (resultSizes size out ins q).dropLast, s ≤ m) → (NoLoneLabels ins out ∨ ∀ s ∈ resultSizes size out ins q, s ≤ m) →
        searchFlops size out ins path ≤ searchFlops size out ins q := by
  obtain ⟨st, p, path, _, e2, e3, e4, e5, e6, e7, e8, _⟩ := branch_run_lim (cfg := cfg) (size := size) (m := m) hh ho (by rw [hnb]; simp) h2 hfuel
  refine ⟨path, e2, e6, e7, ?_⟩
  intro q hq hp hin hwi hfit hlone
  have := settled_path (e4 hnb) hq hp hin hwi (hlone.symm.imp_right fun h => ⟨hby, h, hfit⟩)
  rw [Beaten, hby] at this
  simp only [Bool.false_eq_true, if_false] at this
  have := (e3.best p e5).trans this
  rw [e8]
  exact WithTop.coe_le_coe.mp this

/-- **C58 with a memory limit, `minimize='size'` (partial).** If any path that is inner first and within the cutoff has only results within
the limit, the path returned is pairwise, has only results within the limit, and no such path has a smaller largest intermediate or, at equal
largest intermediate, a lower cost.

Missing: networks with hyperedges, for which the claim is false (`C58_counterexample`). -/
theorem C58_branch_all_limit_size_partial {ins : List (Finset Nat)} {out : Finset Nat} (hh : NoHyperEdges ins out) (cfg : BBCfg)
    (hnb : cfg.nbranch = none) (hby : cfg.bySize = true) (size : Nat → Nat) (m : Nat) {order : SetOrder} (ho : OrderOK order)
    (h2 : 2 ≤ ins.length) {fuel : Nat} (hfuel : ins.length ≤ fuel) :
    ∃ path, branch cfg fuel size (some m) order ins out = some (.ok path) ∧ CompletePath ins.length path ∧
      (∀ s ∈ (resultSizes size out ins path).dropLast, s ≤ m) ∧
      ∀ q, CompletePath ins.length q → Pairwise2 q → InnerFirst out ins q → WithinCutoff cfg.cutoff size out ins q →
        (∀ s ∈ resultSizes size out ins q, s ≤ m) →
        Pairwise2 path ∧ (∀ s ∈ resultSizes size out ins path, s ≤ m) ∧
        ¬ LexLess true (searchFlops size out ins q) (peak size out ins q) (searchFlops size out ins path) (peak size out ins path) := by
  obtain ⟨st, p, path, _, e2, e3, e4, e5, e6, e7, e8, e9, e10, e11⟩ :=
    branch_run_lim (cfg := cfg) (size := size) (m := m) hh ho (by rw [hnb]; simp) h2 hfuel
  refine ⟨path, e2, e6, e7, ?_⟩
  intro q hq hp hin hwi hfit
  have hbt := settled_path (e4 hnb) hq hp hin hwi (Or.inl hfit)
  rw [Beaten, hby] at hbt
  simp only [if_true] at hbt
  have hne : st.size ≠ ⊤ := by
    intro ht
    rw [ht] at hbt
    simp only [better, if_true, decide_eq_false_iff_not, not_or] at hbt
    exact hbt.1 (WithTop.coe_lt_top _)
  obtain ⟨f1, p', f2, f3, f4, f5⟩ := e3.proper hby hne
  rw [e5] at f2
  cases f2
  refine ⟨pairwise_of_lengths e10 f5, ?_, ?_⟩
  · intro s hs
    have h1 : s ≤ peak size out ins path := by
      unfold peak
      generalize resultSizes size out ins path = l at hs
      induction l with
      | nil => simp at hs
      | cons a l ih =>
        rcases List.mem_cons.mp hs with rfl | hs
        · exact le_max_left _ _
        · exact (ih hs).trans (le_max_right _ _)
    rw [e9] at h1
    rw [f4] at f1
    exact h1.trans (WithTop.coe_le_coe.mp f1)
  · rw [lexLess_better, e8, e9, ← f3, ← f4, hbt]
    simp

/-! ## Cases -/

/-- Sizes of a chain whose cheapest path has a large intermediate. -/
def limSizes : Nat → Nat := fun c => [2, 5, 50, 5].getD c 1

/-- `branch-all` with a cutoff of 3000. -/
def limCfg : BBCfg := { bbDefault none with cutoff := 3000 }

-- C58: on the chain 'ab,bc,cd->ad' with sizes 2, 5, 50, 5 the cheapest path has an intermediate of 100 elements; with a limit of 30 the other
-- one is returned, which is the cheapest (and the only one) within the limit
example : branch limCfg 3 limSizes none ascending chainNet {0, 3} = some (.ok [[0, 1], [0, 1]]) ∧
    branch limCfg 3 limSizes (some 30) ascending chainNet {0, 3} = some (.ok [[1, 2], [0, 1]]) ∧
    branch { limCfg with bySize := true } 3 limSizes (some 30) ascending chainNet {0, 3} = some (.ok [[1, 2], [0, 1]]) := by
  refine ⟨?_, ?_, ?_⟩ <;> decide +kernel

example : searchFlops limSizes {0, 3} chainNet [[0, 1], [0, 1]] = 2000 ∧ resultSizes limSizes {0, 3} chainNet [[0, 1], [0, 1]] = [100, 10] ∧
    searchFlops limSizes {0, 3} chainNet [[1, 2], [0, 1]] = 2600 ∧ resultSizes limSizes {0, 3} chainNet [[1, 2], [0, 1]] = [25, 10] := by
  decide +kernel

-- with a limit that nothing meets all is contracted at once
example : branch limCfg 3 limSizes (some 20) ascending chainNet {0, 3} = some (.ok [[0, 1, 2]]) := by decide +kernel

-- the hypotheses: no label summed alone, no hyperedges, within the cutoff
example : NoLoneLabels chainNet {0, 3} ∧ InnerFirst {0, 3} chainNet [[1, 2], [0, 1]] ∧
    WithinCutoff limCfg.cutoff limSizes {0, 3} chainNet [[1, 2], [0, 1]] := by
  refine ⟨?_, ⟨fun _ => ⟨1, 2, {1, 2}, {2, 3}, by decide⟩, fun _ => ⟨0, 1, {0, 1}, {1, 3}, by decide⟩, trivial⟩, ?_⟩
  · unfold NoLoneLabels; decide
  apply withinCutoff_of_le
  · intro c
    match c with
    | 0 | 1 | 2 | 3 => decide
    | _ + 4 => simp [limSizes]
  · decide +kernel

end OE.Props
