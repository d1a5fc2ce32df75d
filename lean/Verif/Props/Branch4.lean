import Verif.Spec.Quality
import Verif.Props.Branch3
import Mathlib.Data.List.NodupEquivFin

/-!
# C58: how good the path of a branch search is
-/

namespace OE.Props
open OE OE.Py OE.Spec OE.Paths

section
variable {cfg : BBCfg} {size : Nat → Nat} {ins : List (Finset Nat)} {out : Finset Nat} {order : SetOrder}

/-- The largest result on tags. -/
def tagPeak (size : Nat → Nat) (ins : List (Finset Nat)) (out : Finset Nat) (l : List Tag) (path : Path) : Nat :=
  ((ssaTrace combineTag l path).map (gSize size ins out)).foldr max 0

/-- `b` is the cost of some first `k` pairwise contractions. -/
def Reach (size : Nat → Nat) (ins : List (Finset Nat)) (out : Finset Nat) (k b : Nat) : Prop :=
  ∃ nd store, Good size ins out store nd ∧ Pairwise2 nd.path ∧ 0 < nd.remaining.card ∧ nd.path.length = k ∧ nd.flops = b

/-- Cache, progress and best are what they say. -/
structure BBTrue (size : Nat → Nat) (ins : List (Finset Nat)) (out : Finset Nat) (st : BBSt) : Prop where
  cache : CacheInv size ins out st.cache
  progress : ∀ k b, st.progress.get? k = some b → ∃ d, k = ins.length + d ∧ Reach size ins out (d + 1) b
  none : st.path = none → st.flops = ⊤ ∧ st.size = ⊤
  best : ∀ p, st.path = some p → st.flops = (tagCost size ins out (tags ins.length) p : Nat) ∧
    st.size = (tagPeak size ins out (tags ins.length) p : Nat) ∧ Pairwise2 p ∧ SsaComplete ins.length p

theorem better_trans {b : Bool} {f s f1 s1 f2 s2 : WithTop Nat} (h1 : better b f s f1 s1 = true) (h2 : better b f1 s1 f2 s2 = true) :
    better b f s f2 s2 = true := by
  unfold better at *
  cases b <;> simp only [if_true, if_false, Bool.false_eq_true, decide_eq_true_eq] at * <;>
  · rcases h1 with h1 | ⟨rfl, h1⟩ <;> rcases h2 with h2 | ⟨rfl, h2⟩
    · exact Or.inl (h1.trans h2)
    · exact Or.inl h1
    · exact Or.inl h2
    · exact Or.inr ⟨rfl, h1.trans h2⟩

/-- Anything at least as large in both is not better. -/
theorem not_better_mono {b : Bool} {f s f1 s1 : Nat} {f2 s2 : WithTop Nat} (h : better b f s f2 s2 = false) (hf : f ≤ f1) (hs : s ≤ s1) :
    better b f1 s1 f2 s2 = false := by
  by_contra hc
  rw [Bool.not_eq_false] at hc
  rw [← Bool.not_eq_true] at h
  apply h
  have hf' : (f : WithTop Nat) ≤ f1 := WithTop.coe_le_coe.mpr hf
  have hs' : (s : WithTop Nat) ≤ s1 := WithTop.coe_le_coe.mpr hs
  unfold better at *
  cases b <;> simp only [if_true, if_false, Bool.false_eq_true, decide_eq_true_eq] at *
  · rcases hc with hc | ⟨e, hc⟩
    · exact Or.inl (hf'.trans_lt hc)
    · rcases lt_or_eq_of_le hf' with h | h
      · exact Or.inl (e ▸ h)
      · exact Or.inr ⟨h.trans e, hs'.trans_lt hc⟩
  · rcases hc with hc | ⟨e, hc⟩
    · exact Or.inl (hs'.trans_lt hc)
    · rcases lt_or_eq_of_le hs' with h | h
      · exact Or.inl (e ▸ h)
      · exact Or.inr ⟨h.trans e, hf'.trans_lt hc⟩

/-- The best of `t` is that of `s` or better. -/
def Improves (b : Bool) (s t : BBSt) : Prop := (t.flops = s.flops ∧ t.size = s.size) ∨ better b t.flops t.size s.flops s.size = true

theorem Improves.refl (b : Bool) (s : BBSt) : Improves b s s := Or.inl ⟨rfl, rfl⟩

theorem Improves.trans {b : Bool} {s t u : BBSt} (h1 : Improves b s t) (h2 : Improves b t u) : Improves b s u := by
  rcases h1 with ⟨e1, e2⟩ | h1 <;> rcases h2 with ⟨g1, g2⟩ | h2
  · exact Or.inl ⟨g1.trans e1, g2.trans e2⟩
  · right; rw [← e1, ← e2]; exact h2
  · right; rw [g1, g2]; exact h1
  · exact Or.inr (better_trans h2 h1)

theorem Improves.not_better {b : Bool} {s t : BBSt} (h : Improves b s t) {f sz : WithTop Nat} (hn : better b f sz s.flops s.size = false) :
    better b f sz t.flops t.size = false := by
  rcases h with ⟨e1, e2⟩ | h
  · rw [e1, e2]; exact hn
  · by_contra hc
    rw [Bool.not_eq_false] at hc
    rw [better_trans hc h] at hn
    cases hn

/-! ## Assessing candidates -/

/-- A candidate is what it says, and was better than the best when assessed. -/
structure CandTrue (cfg : BBCfg) (size : Nat → Nat) (ins : List (Finset Nat)) (out : Finset Nat) (store : List Tag) (nd : SearchNode) (sz : Nat)
    (bf bs : WithTop Nat) (c : Cand) : Prop where
  i : c.i ∈ nd.remaining
  j : c.j ∈ nd.remaining
  ne : c.i ≠ c.j
  k12 : c.k12 = termOf ins out (combineTag (pick store [c.i, c.j]))
  newFlops : c.newFlops = nd.flops + gFlops size ins out (pick store [c.i, c.j])
  newSize : c.newSize = max sz (gSize size ins out (pick store [c.i, c.j]))
  better : better cfg.bySize c.newFlops c.newSize bf bs = true

/-- Why a pair is no candidate. -/
def Excused (cfg : BBCfg) (size : Nat → Nat) (ins : List (Finset Nat)) (out : Finset Nat) (store : List Tag) (nd : SearchNode) (sz : Nat)
    (bf bs : WithTop Nat) (x : Nat × Nat) : Prop :=
  better cfg.bySize ((nd.flops + gFlops size ins out (pick store [x.1, x.2]) : Nat) : WithTop Nat)
    ((max sz (gSize size ins out (pick store [x.1, x.2])) : Nat) : WithTop Nat) bf bs = false ∨
  ∃ b, Reach size ins out (nd.path.length + 1) b ∧ cfg.cutoff * b < ((nd.flops + gFlops size ins out (pick store [x.1, x.2]) : Nat) : ℚ)

/-- What a node needs. -/
structure NodeTrue (size : Nat → Nat) (ins : List (Finset Nat)) (out : Finset Nat) (store : List Tag) (nd : SearchNode) (sz : Nat) : Prop
    extends Good size ins out store nd where
  pairwise : Pairwise2 nd.path
  peak : sz = tagPeak size ins out (tags ins.length) nd.path

theorem NodeTrue.length {store : List Tag} {nd : SearchNode} {sz : Nat} (h : NodeTrue size ins out store nd sz) :
    nd.inputs.length = ins.length + nd.path.length := by
  have hl := h.toGood.len
  have : ∀ (p : Path) (l : List Tag), (ssaStore combineTag l p).length = l.length + p.length := by
    intro p
    induction p with
    | nil => intro l; rfl
    | cons a t ih => intro l; rw [ssaStore, ih]; simp; omega
  rw [hl, h.store_eq, this, tags_length]

theorem tagPeak_append (l : List Tag) (p q : Path) : tagPeak size ins out l (p ++ q) =
    max (tagPeak size ins out l p) (tagPeak size ins out (ssaStore combineTag l p) q) := by
  unfold tagPeak
  rw [ssaTrace_append, List.map_append]
  generalize (ssaTrace combineTag l p).map (gSize size ins out) = a
  generalize (ssaTrace combineTag (ssaStore combineTag l p) q).map (gSize size ins out) = b
  induction a with
  | nil => simp
  | cons x xs ih => simp only [List.cons_append, List.foldr_cons, ih, max_assoc]

theorem NodeTrue.child {store : List Tag} {nd : SearchNode} {sz : Nat} (h : NodeTrue size ins out store nd sz) {i j : Nat}
    (hi : i ∈ nd.remaining) (hj : j ∈ nd.remaining) (hij : i ≠ j) :
    NodeTrue size ins out (store ++ [combineTag (pick store [i, j])])
      (nd.child i j (termOf ins out (combineTag (pick store [i, j]))) (nd.flops + gFlops size ins out (pick store [i, j])))
      (max sz (gSize size ins out (pick store [i, j]))) := by
  refine { h.toGood.child hi hj hij with pairwise := ?_, peak := ?_ }
  · intro p hp
    simp only [SearchNode.child, List.mem_append, List.mem_singleton] at hp
    rcases hp with hp | rfl
    · exact h.pairwise p hp
    · rfl
  · simp only [SearchNode.child]
    rw [tagPeak_append, ← h.peak, ← h.store_eq]
    simp [tagPeak, ssaTrace]

theorem progressStep_true {st : BBSt} (h : BBTrue size ins out st) {store : List Tag} {nd : SearchNode} {sz : Nat}
    (hnd : NodeTrue size ins out store nd sz) {i j : Nat} (hi : i ∈ nd.remaining) (hj : j ∈ nd.remaining) (hij : i ≠ j) (cutoff : ℚ) :
    match progressStep cutoff st.progress nd.inputs.length (nd.flops + gFlops size ins out (pick store [i, j])) with
    | some p => ∀ k b, p.get? k = some b → ∃ d, k = ins.length + d ∧ Reach size ins out (d + 1) b
    | none => ∃ b, Reach size ins out (nd.path.length + 1) b ∧ cutoff * b < ((nd.flops + gFlops size ins out (pick store [i, j]) : Nat) : ℚ) := by
  have hlen := hnd.length
  have hcc := child_remaining_card hnd.toGoodPath hi hj hij (termOf ins out (combineTag (pick store [i, j])))
    (nd.flops + gFlops size ins out (pick store [i, j]))
  have hpos : 0 < nd.remaining.card := Finset.card_pos.mpr ⟨i, hi⟩
  have hnew : Reach size ins out (nd.path.length + 1) (nd.flops + gFlops size ins out (pick store [i, j])) := by
    refine ⟨_, _, (hnd.child hi hj hij).toGood, (hnd.child hi hj hij).pairwise, ?_, ?_, rfl⟩
    · have : 1 < nd.remaining.card := Finset.one_lt_card.mpr ⟨i, hi, j, hj, hij⟩
      omega
    · simp [SearchNode.child]
  have hset : ∀ k b, (st.progress.set nd.inputs.length (nd.flops + gFlops size ins out (pick store [i, j]))).get? k = some b →
      ∃ d, k = ins.length + d ∧ Reach size ins out (d + 1) b := by
    intro k b hk
    by_cases e : k = nd.inputs.length
    · subst e
      rw [Dict.get?_set_self] at hk
      cases hk
      exact ⟨nd.path.length, hlen, hnew⟩
    · rw [Dict.get?_set_ne e] at hk
      exact h.progress k b hk
  unfold progressStep
  cases hg : st.progress.get? nd.inputs.length with
  | none => exact hset
  | some b =>
    simp only
    by_cases hlt : nd.flops + gFlops size ins out (pick store [i, j]) < b
    · rw [if_pos hlt]; exact hset
    · rw [if_neg hlt]
      by_cases hcut : ((nd.flops + gFlops size ins out (pick store [i, j]) : Nat) : ℚ) > cutoff * b
      · rw [if_pos hcut]
        obtain ⟨d, hd, hr⟩ := h.progress _ _ hg
        have : d = nd.path.length := by omega
        subst this
        exact ⟨b, hr, hcut⟩
      · rw [if_neg hcut]
        exact h.progress

theorem assess_true (hsafe : CacheSafe ins out) {store : List Tag} {nd : SearchNode} {sz : Nat} (hnd : NodeTrue size ins out store nd sz)
    {st : BBSt} (h : BBTrue size ins out st) {ij : Nat × Nat} (hi : ij.1 ∈ nd.remaining) (hj : ij.2 ∈ nd.remaining) (hij : ij.1 ≠ ij.2) :
    BBTrue size ins out (assess cfg size out none order nd sz st ij).2 ∧
    (assess cfg size out none order nd sz st ij).2.flops = st.flops ∧ (assess cfg size out none order nd sz st ij).2.size = st.size ∧
    (∀ c, (assess cfg size out none order nd sz st ij).1 = some c → c.i = ij.1 ∧ c.j = ij.2 ∧
      CandTrue cfg size ins out store nd sz st.flops st.size c) ∧
    ((assess cfg size out none order nd sz st ij).1 = none → Excused cfg size ins out store nd sz st.flops st.size ij) := by
  obtain ⟨r1, r2⟩ := cached_good hsafe hnd.toGood hi hj hij h.cache
  have hp := progressStep_true h hnd hi hj hij cfg.cutoff
  have hgs : Paths.sizeOf size (termOf ins out (combineTag (pick store [ij.1, ij.2]))) = gSize size ins out (pick store [ij.1, ij.2]) := rfl
  unfold assess
  simp only
  rw [r1]
  simp only [hgs]
  by_cases hb : better cfg.bySize ((nd.flops + gFlops size ins out (pick store [ij.1, ij.2]) : Nat) : WithTop Nat)
    ((max sz (gSize size ins out (pick store [ij.1, ij.2])) : Nat) : WithTop Nat) st.flops st.size = true
  · rw [if_pos hb]
    cases hps : progressStep cfg.cutoff st.progress nd.inputs.length (nd.flops + gFlops size ins out (pick store [ij.1, ij.2])) with
    | none =>
      rw [hps] at hp
      exact ⟨⟨r2, h.progress, h.none, h.best⟩, rfl, rfl, by simp, fun _ => Or.inr hp⟩
    | some p =>
      rw [hps] at hp
      simp only [assessFit, Option.any_none, Bool.false_eq_true, if_false]
      refine ⟨⟨r2, hp, h.none, h.best⟩, trivial, trivial, ?_, by simp⟩
      rintro c ⟨⟩
      exact ⟨rfl, rfl, hi, hj, hij, rfl, rfl, rfl, hb⟩
  · rw [if_neg hb]
    exact ⟨⟨r2, h.progress, h.none, h.best⟩, rfl, rfl, by simp, fun _ => Or.inl (by simpa using hb)⟩

theorem assess_fold_true (hsafe : CacheSafe ins out) {store : List Tag} {nd : SearchNode} {sz : Nat} (hnd : NodeTrue size ins out store nd sz)
    {L : List (Nat × Nat)} (l : List (Nat × Nat)) (hl : ∀ x ∈ l, x.1 ∈ nd.remaining ∧ x.2 ∈ nd.remaining ∧ x.1 ≠ x.2) (acc : List Cand × BBSt) {bf bs : WithTop Nat}
    (hacc : ∀ c ∈ acc.1, (c.i, c.j) ∈ L ∧ CandTrue cfg size ins out store nd sz bf bs c) (hL : ∀ x ∈ l, x ∈ L) (h : BBTrue size ins out acc.2)
    (hf : acc.2.flops = bf) (hs : acc.2.size = bs) :
    let r := l.foldl (assessStep cfg size out none order nd sz) acc
    BBTrue size ins out r.2 ∧ r.2.flops = bf ∧ r.2.size = bs ∧ (∀ c ∈ r.1, (c.i, c.j) ∈ L ∧ CandTrue cfg size ins out store nd sz bf bs c) ∧
    (∀ c ∈ acc.1, c ∈ r.1) ∧ r.1.length ≤ acc.1.length + l.length ∧
    ∀ x ∈ l, (∃ c ∈ r.1, c.i = x.1 ∧ c.j = x.2) ∨ Excused cfg size ins out store nd sz bf bs x := by
  induction l generalizing acc with
  | nil => exact ⟨h, hf, hs, hacc, fun c hc => hc, by simp, by simp⟩
  | cons x xs ih =>
    obtain ⟨hi, hj, hij⟩ := hl x (by simp)
    obtain ⟨a1, a2, a3, a4, a5⟩ := assess_true (cfg := cfg) (order := order) hsafe hnd h hi hj hij
    rw [hf, hs] at a4 a5
    obtain ⟨b1, b2, b3, b4, b5, b6, b7⟩ := ih (fun y hy => hl y (by simp [hy])) (assessStep cfg size out none order nd sz acc x) (by
        intro c hc
        simp only [assessStep, List.mem_append, Option.mem_toList] at hc
        rcases hc with hc | hc
        · exact hacc c hc
        · obtain ⟨e1, e2, e3⟩ := a4 c hc
          exact ⟨by rw [e1, e2]; exact hL x (by simp), e3⟩) (fun y hy => hL y (by simp [hy])) a1 (by rw [← hf]; exact a2) (by rw [← hs]; exact a3)
    rw [List.foldl_cons]
    refine ⟨b1, b2, b3, b4, fun c hc => b5 c (by simp [assessStep, hc]), ?_, ?_⟩
    · refine b6.trans ?_
      simp only [assessStep, List.length_append, List.length_cons]
      have : (assess cfg size out none order nd sz acc.2 x).1.toList.length ≤ 1 := by
        cases (assess cfg size out none order nd sz acc.2 x).1 <;> simp
      omega
    · intro y hy
      rcases List.mem_cons.mp hy with rfl | hy
      · cases hr : (assess cfg size out none order nd sz acc.2 y).1 with
        | none => exact Or.inr (a5 hr)
        | some c =>
          left
          obtain ⟨e1, e2, _⟩ := a4 c hr
          exact ⟨c, b5 c (by simp [assessStep, hr]), e1, e2⟩
      · exact b7 y hy

/-- What the candidates are. -/
theorem candidates_true (hsafe : CacheSafe ins out) (ho : OrderOK order) {store : List Tag} {nd : SearchNode} {sz : Nat}
    (hnd : NodeTrue size ins out store nd sz) {st : BBSt} (h : BBTrue size ins out st) :
    let r := candidates cfg size out none order nd sz st
    BBTrue size ins out r.2 ∧ r.2.flops = st.flops ∧ r.2.size = st.size ∧ (∀ c ∈ r.1, CandTrue cfg size ins out store nd sz st.flops st.size c) ∧
    (nd.remaining.card = 2 → r.1.length ≤ 1) ∧
    ∀ x ∈ (combinations2 (order nd.path nd.remaining)).map orient,
      (Disjoint (nd.inputs.getD x.1 ∅) (nd.inputs.getD x.2 ∅) →
        ∀ y ∈ (combinations2 (order nd.path nd.remaining)).map orient, Disjoint (nd.inputs.getD y.1 ∅) (nd.inputs.getD y.2 ∅)) →
      (∃ c ∈ r.1, c.i = x.1 ∧ c.j = x.2) ∨ Excused cfg size ins out store nd sz st.flops st.size x := by
  have hpairs := pairs_ok ho nd.path nd.remaining
  have hone : nd.remaining.card = 2 → ((combinations2 (order nd.path nd.remaining)).map orient).length ≤ 1 := by
    intro h2
    obtain ⟨o1, o2⟩ := ho nd.path nd.remaining
    have hlen : (order nd.path nd.remaining).length = 2 := by
      rw [← List.toFinset_card_of_nodup o1, ← h2]
      congr 1
      ext a; rw [List.mem_toFinset, o2]
    match order nd.path nd.remaining, hlen with
    | [a, b], _ => simp [combinations2]
  unfold candidates
  simp only
  set pairs := (combinations2 (order nd.path nd.remaining)).map orient with hpd
  set inner := pairs.filter (fun ij => decide (¬ Disjoint (nd.inputs.getD ij.1 ∅) (nd.inputs.getD ij.2 ∅))) with hinner
  have hsub : ∀ x ∈ inner, x ∈ pairs := fun x hx => (List.mem_filter.mp hx).1
  obtain ⟨a1, a2, a3, a4, a5, a6, a7⟩ := assess_fold_true (cfg := cfg) (order := order) (L := pairs) hsafe hnd inner (fun x hx => hpairs x (hsub x hx))
    ([], st) (bf := st.flops) (bs := st.size) (by simp) hsub h rfl rfl
  split
  · rename_i he
    obtain ⟨b1, b2, b3, b4, b5, b6, b7⟩ := assess_fold_true (cfg := cfg) (order := order) (L := pairs) hsafe hnd pairs hpairs _ (bf := st.flops) (bs := st.size)
      (by rw [he]; simp) (fun x hx => hx) a1 a2 a3
    refine ⟨b1, b2, b3, fun c hc => (b4 c hc).2, ?_, fun x hx _ => b7 x hx⟩
    intro h2
    have := hone h2
    rw [he] at b6
    simp only [List.length_nil] at b6
    omega
  · rename_i he
    refine ⟨a1, a2, a3, fun c hc => (a4 c hc).2, ?_, ?_⟩
    · intro h2
      have := hone h2
      have h3 : inner.length ≤ pairs.length := List.length_filter_le _ _
      simp only [List.length_nil] at a6
      omega
    · intro x hx hd
      by_cases hdx : Disjoint (nd.inputs.getD x.1 ∅) (nd.inputs.getD x.2 ∅)
      · exfalso
        have : inner = [] := by
          rw [hinner, List.filter_eq_nil_iff]
          intro y hy
          simpa using hd hdx y hy
        apply he
        rw [this]
        rfl
      · exact a7 x (List.mem_filter.mpr ⟨hx, by simpa using hdx⟩)

/-! ## Traces -/

/-- The remaining tensors. -/
def liveTags (store : List Tag) (rem : Finset Nat) : Multiset Tag := rem.val.filterMap (fun i => store[i]?)

/-- Inner products first, on traces. -/
def InnerTr (ins : List (Finset Nat)) (out : Finset Nat) : Multiset Tag → List (Multiset Tag) → Prop
  | _, [] => True
  | live, m :: ms =>
    ((∃ X Y, ({X, Y} : Multiset Tag) ≤ live ∧ ¬ Disjoint (termOf ins out X) (termOf ins out Y)) →
      ∃ X Y, ({X, Y} : Multiset Tag) ≤ m ∧ ¬ Disjoint (termOf ins out X) (termOf ins out Y)) ∧
    InnerTr ins out (live - m + {combineTag m}) ms

/-- Never above the cutoff, on traces. -/
def WithinTr (cutoff : ℚ) (size : Nat → Nat) (ins : List (Finset Nat)) (out : Finset Nat) : Nat → Nat → List (Multiset Tag) → Prop
  | _, _, [] => True
  | base, k, m :: ms =>
    (∀ b, Reach size ins out (k + 1) b → ((base + gFlops size ins out m : Nat) : ℚ) ≤ cutoff * b) ∧
    WithinTr cutoff size ins out (base + gFlops size ins out m) (k + 1) ms

theorem rem_split {s : Finset Nat} {i j : Nat} (hi : i ∈ s) (hj : j ∈ s) (hij : i ≠ j) : s.val = i ::ₘ j ::ₘ (s \ {i, j}).val := by
  have h1 : j ∈ s.erase i := Finset.mem_erase.mpr ⟨fun h => hij h.symm, hj⟩
  have h2 : s \ {i, j} = (s.erase i).erase j := by
    ext a; simp only [Finset.mem_sdiff, Finset.mem_insert, Finset.mem_singleton, Finset.mem_erase]; tauto
  rw [h2, Finset.erase_val, Multiset.cons_erase h1, Finset.erase_val, Multiset.cons_erase (by simpa using hi)]

theorem liveTags_split {store : List Tag} {s : Finset Nat} {i j : Nat} (hi : i ∈ s) (hj : j ∈ s) (hij : i ≠ j) {X Y : Tag}
    (hX : store[i]? = some X) (hY : store[j]? = some Y) : liveTags store s = X ::ₘ Y ::ₘ liveTags store (s \ {i, j}) := by
  unfold liveTags
  rw [rem_split hi hj hij, Multiset.filterMap_cons_some _ _ _ hX, Multiset.filterMap_cons_some _ _ _ hY]

theorem filterMap_congr' {α β : Type} {f g : α → Option β} {s : Multiset α} (h : ∀ a ∈ s, f a = g a) : s.filterMap f = s.filterMap g := by
  induction s using Multiset.induction_on with
  | empty => rfl
  | cons a s ih =>
    rw [Multiset.filterMap_cons, Multiset.filterMap_cons, h a (by simp), ih (fun b hb => h b (by simp [hb]))]

theorem liveTags_child {store : List Tag} {nd : SearchNode} (h : Good size ins out store nd) {i j : Nat} (hi : i ∈ nd.remaining)
    (hj : j ∈ nd.remaining) (hij : i ≠ j) (k12 : Finset Nat) (f : Nat) :
    liveTags (store ++ [combineTag (pick store [i, j])]) (nd.child i j k12 f).remaining =
      liveTags store nd.remaining - pick store [i, j] + {combineTag (pick store [i, j])} := by
  obtain ⟨X, Y, e1, e2, _, hp, _, _⟩ := h.pair hi hj hij
  rw [liveTags_split hi hj hij e1 e2, hp]
  have hnot : nd.inputs.length ∉ nd.remaining \ {i, j} := by
    intro hm
    have := h.lt _ (Finset.mem_sdiff.mp hm).1
    omega
  have hsub : ({X, Y} : Multiset Tag) = X ::ₘ Y ::ₘ 0 := rfl
  have hcc : (X ::ₘ Y ::ₘ liveTags store (nd.remaining \ {i, j})) - {X, Y} = liveTags store (nd.remaining \ {i, j}) := by
    have : (X ::ₘ Y ::ₘ liveTags store (nd.remaining \ {i, j})) = liveTags store (nd.remaining \ {i, j}) + {X, Y} := by
      rw [hsub, Multiset.add_cons, Multiset.add_cons, add_zero]
    rw [this, Multiset.add_sub_cancel_right]
  rw [hcc]
  have hv : (nd.child i j k12 f).remaining.val = nd.inputs.length ::ₘ (nd.remaining \ {i, j}).val := Finset.insert_val_of_notMem hnot
  unfold liveTags
  rw [hv, h.len, Multiset.filterMap_cons_some _ _ _ (b := combineTag {X, Y}) (by simp), add_comm, Multiset.singleton_add]
  congr 1
  apply filterMap_congr'
  intro k hk
  have := h.lt k (Finset.mem_sdiff.mp hk).1
  rw [List.getElem?_append_left (by rw [← h.len]; exact this)]

theorem tagCost_cons (store : List Tag) (p : List Nat) (ps : Path) : tagCost size ins out store (p :: ps) =
    gFlops size ins out (pick store p) + tagCost size ins out (store ++ [combineTag (pick store p)]) ps := by
  simp [tagCost, ssaTrace]

theorem tagPeak_cons (store : List Tag) (p : List Nat) (ps : Path) : tagPeak size ins out store (p :: ps) =
    max (gSize size ins out (pick store p)) (tagPeak size ins out (store ++ [combineTag (pick store p)]) ps) := by
  simp [tagPeak, ssaTrace]

/-- No completion of a node that contracts inner products first and stays below the cutoff is better than the best. -/
def Settled (cfg : BBCfg) (size : Nat → Nat) (ins : List (Finset Nat)) (out : Finset Nat) (store : List Tag) (rem : Finset Nat) (flops sz k : Nat)
    (st : BBSt) : Prop :=
  ∀ rest, SsaValid rem store.length rest → Pairwise2 rest → rest.length + 1 = rem.card →
    InnerTr ins out (liveTags store rem) (ssaTrace combineTag store rest) →
    WithinTr cfg.cutoff size ins out flops k (ssaTrace combineTag store rest) →
    better cfg.bySize ((flops + tagCost size ins out store rest : Nat) : WithTop Nat)
      ((max sz (tagPeak size ins out store rest) : Nat) : WithTop Nat) st.flops st.size = false

theorem Settled.improve {store : List Tag} {rem : Finset Nat} {flops sz k : Nat} {s t : BBSt} (h : Settled cfg size ins out store rem flops sz k s)
    (hi : Improves cfg.bySize s t) : Settled cfg size ins out store rem flops sz k t :=
  fun rest a b c d e => hi.not_better (h rest a b c d e)

theorem better_irrefl (b : Bool) (f s : WithTop Nat) : better b f s f s = false := by
  cases b <;> simp [better]

/-- What a visited candidate establishes. -/
def CandSettled (cfg : BBCfg) (size : Nat → Nat) (ins : List (Finset Nat)) (out : Finset Nat) (store : List Tag) (nd : SearchNode) (sz : Nat)
    (c : Cand) (st : BBSt) : Prop :=
  Settled cfg size ins out (store ++ [combineTag (pick store [c.i, c.j])]) (nd.child c.i c.j c.k12 c.newFlops).remaining
    (nd.flops + gFlops size ins out (pick store [c.i, c.j])) (max sz (gSize size ins out (pick store [c.i, c.j]))) (nd.path.length + 1) st

/-- A node is settled when all its candidates are. -/
theorem settled_of_candidates (ho : OrderOK order) {store : List Tag} {nd : SearchNode} {sz : Nat} (hnd : NodeTrue size ins out store nd sz)
    (h1 : nd.remaining.card ≠ 1) {cands : List Cand} {bf bs : WithTop Nat} {st st' : BBSt} (hbf : st.flops = bf) (hbs : st.size = bs)
    (himp : Improves cfg.bySize st st')
    (hc : ∀ c ∈ cands, CandSettled cfg size ins out store nd sz c st')
    (hall : ∀ x ∈ (combinations2 (order nd.path nd.remaining)).map orient,
      (Disjoint (nd.inputs.getD x.1 ∅) (nd.inputs.getD x.2 ∅) →
        ∀ y ∈ (combinations2 (order nd.path nd.remaining)).map orient, Disjoint (nd.inputs.getD y.1 ∅) (nd.inputs.getD y.2 ∅)) →
      (∃ c ∈ cands, c.i = x.1 ∧ c.j = x.2) ∨ Excused cfg size ins out store nd sz bf bs x) :
    Settled cfg size ins out store nd.remaining nd.flops sz nd.path.length st' := by
  intro rest hv hp hl hin hwi
  cases rest with
  | nil => simp at hl; omega
  | cons p ps =>
    obtain ⟨i, j, rfl⟩ : ∃ i j, p = [i, j] := by
      have := hp p (by simp)
      match p, this with
      | [i, j], _ => exact ⟨i, j, rfl⟩
    obtain ⟨_, hn, hm, hrest⟩ := hv
    have hi := hm i (by simp)
    have hj := hm j (by simp)
    have hij : i ≠ j := by simpa using hn
    rw [pair_toFinset] at hrest
    have hps : Pairwise2 ps := fun q hq => hp q (by simp [hq])
    simp only [ssaTrace] at hin hwi
    obtain ⟨hin1, hin2⟩ := hin
    obtain ⟨hwi1, hwi2⟩ := hwi
    rw [tagCost_cons, tagPeak_cons, ← Nat.add_assoc, ← max_assoc]
    obtain ⟨x, hx, hxe⟩ : ∃ x ∈ (combinations2 (order nd.path nd.remaining)).map orient, x = (i, j) ∨ x = (j, i) := by
      rcases combinations2_complete (((ho nd.path nd.remaining).2 i).mpr hi) (((ho nd.path nd.remaining).2 j).mpr hj) hij with h | h
      · exact ⟨_, List.mem_map_of_mem h, orient_eq _⟩
      · exact ⟨_, List.mem_map_of_mem h, (orient_eq _).symm⟩
    have hpick : pick store [x.1, x.2] = pick store [i, j] := by
      rcases hxe with rfl | rfl
      · rfl
      · exact pick_swap _ _ _
    have hpair : ({x.1, x.2} : Finset Nat) = {i, j} := by
      rcases hxe with rfl | rfl
      · rfl
      · exact Finset.pair_comm _ _
    have hdisj : Disjoint (nd.inputs.getD x.1 ∅) (nd.inputs.getD x.2 ∅) →
        ∀ y ∈ (combinations2 (order nd.path nd.remaining)).map orient, Disjoint (nd.inputs.getD y.1 ∅) (nd.inputs.getD y.2 ∅) := by
      intro hd y hy
      by_contra hnd'
      obtain ⟨y1, y2, y3⟩ := pairs_ok ho nd.path nd.remaining y hy
      obtain ⟨X, Y, e1, e2, _, _, f1, f2⟩ := hnd.toGood.pair y1 y2 y3
      rw [f1, f2] at hnd'
      obtain ⟨X', Y', g1, g2⟩ := hin1 ⟨X, Y, by rw [liveTags_split y1 y2 y3 e1 e2]; exact Multiset.cons_le_cons _ (Multiset.cons_le_cons _ (Multiset.zero_le _)), hnd'⟩
      obtain ⟨U, V, _, _, _, hp', h1', h2'⟩ := hnd.toGood.pair hi hj hij
      rw [hp'] at g1
      have heq : ({X', Y'} : Multiset Tag) = {U, V} := Multiset.eq_of_le_of_card_le g1 (by simp)
      have hd' : Disjoint (termOf ins out U) (termOf ins out V) := by
        rw [← h1', ← h2']
        rcases hxe with rfl | rfl
        · exact hd
        · exact hd.symm
      have hX : X' ∈ ({U, V} : Multiset Tag) := by rw [← heq]; simp
      rcases mem_pair.mp hX with rfl | rfl
      · have : ({Y'} : Multiset Tag) = {V} := (Multiset.cons_inj_right X').mp heq
        rw [Multiset.singleton_inj] at this
        subst this
        exact g2 hd'
      · have h2 : ({X', Y'} : Multiset Tag) = {X', U} := by rw [heq]; exact Multiset.pair_comm _ _
        have : ({Y'} : Multiset Tag) = {U} := (Multiset.cons_inj_right X').mp h2
        rw [Multiset.singleton_inj] at this
        subst this
        exact g2 hd'.symm
    rcases hall x hx hdisj with ⟨c, hcm, e1, e2⟩ | hexc
    · have hs := hc c hcm
      unfold CandSettled at hs
      rw [e1, e2, hpick] at hs
      have hrem : (nd.child x.1 x.2 c.k12 c.newFlops).remaining = insert nd.inputs.length (nd.remaining \ {i, j}) := by
        simp only [SearchNode.child, hpair]
      refine hs ps ?_ hps ?_ ?_ hwi2
      · rw [hrem, List.length_append, ← hnd.toGood.len]
        rw [← hnd.toGood.len] at hrest
        exact hrest
      · have := child_remaining_card hnd.toGoodPath hi hj hij c.k12 c.newFlops
        simp only [SearchNode.child] at this
        rw [hrem]
        simp only [List.length_cons] at hl
        omega
      · have := liveTags_child hnd.toGood hi hj hij c.k12 c.newFlops
        rw [hrem]
        simp only [SearchNode.child] at this
        rw [this]
        exact hin2
    · unfold Excused at hexc
      rw [hpick] at hexc
      rcases hexc with hexc | ⟨b, hb, hlt⟩
      · subst hbf; subst hbs
        exact himp.not_better (not_better_mono hexc (by omega) (le_max_left _ _))
      · exact absurd (hwi1 b hb) (not_le.mpr hlt)

theorem branchIter_leaf (fuel : Nat) (nd : SearchNode) (store : List Tag) (sz : Nat) (hnd : NodeTrue size ins out store nd sz)
    (h1 : nd.remaining.card = 1) (st : BBSt) (hst : BBTrue size ins out st) (hb : better cfg.bySize nd.flops sz st.flops st.size = true) :
    ∃ st', branchIter cfg size out none order fuel nd sz st = some st' ∧ BBTrue size ins out st' ∧ Improves cfg.bySize st st' ∧
      (cfg.nbranch = none → Settled cfg size ins out store nd.remaining nd.flops sz nd.path.length st') := by
  rw [branchIter.eq_def]
  simp only
  rw [if_pos h1]
  refine ⟨_, rfl, ⟨hst.cache, hst.progress, by simp, ?_⟩, Or.inr hb, ?_⟩
  · rintro p ⟨⟩
    refine ⟨?_, ?_, hnd.pairwise, hnd.complete h1⟩
    · simp only [tagCost]; rw [hnd.flops_eq]
    · simp only; rw [hnd.peak]
  · intro _ rest _ _ hl _ _
    have : rest = [] := by
      cases rest with
      | nil => rfl
      | cons a b => simp at hl; omega
    subst this
    simp only [tagCost, tagPeak, ssaTrace, List.map_nil, List.sum_nil, List.foldr_nil, Nat.add_zero, Nat.max_zero]
    exact better_irrefl _ _ _

/-- The core. -/
theorem branchIter_true (hsafe : CacheSafe ins out) (ho : OrderOK order) (fuel : Nat) (nd : SearchNode) (store : List Tag) (sz : Nat)
    (hnd : NodeTrue size ins out store nd sz) (hcard : 0 < nd.remaining.card) (hfuel : nd.remaining.card ≤ fuel + 1) (st : BBSt)
    (hst : BBTrue size ins out st) (hleaf : nd.remaining.card = 1 → better cfg.bySize nd.flops sz st.flops st.size = true) :
    ∃ st', branchIter cfg size out none order fuel nd sz st = some st' ∧ BBTrue size ins out st' ∧ Improves cfg.bySize st st' ∧
      (cfg.nbranch = none → Settled cfg size ins out store nd.remaining nd.flops sz nd.path.length st') := by
  induction fuel generalizing nd store sz st with
  | zero => exact branchIter_leaf _ _ _ _ hnd (by omega) st hst (hleaf (by omega))
  | succ fuel ih =>
    by_cases h1 : nd.remaining.card = 1
    · exact branchIter_leaf _ _ _ _ hnd h1 st hst (hleaf h1)
    rw [branchIter, if_neg h1]
    simp only
    obtain ⟨a1, a2, a3, a4, a5, a6⟩ := candidates_true (cfg := cfg) hsafe ho hnd hst
    generalize candidates cfg size out none order nd sz st = r at a1 a2 a3 a4 a5 a6 ⊢
    obtain ⟨cands, s⟩ := r
    simp only at a1 a2 a3 a4 a5 a6 ⊢
    have hstep : ∀ (t : BBSt), ∀ c ∈ visited cfg.nbranch cands, BBTrue size ins out t → (nd.remaining.card = 2 → t.flops = st.flops ∧ t.size = st.size) →
        ∃ t', branchIter cfg size out none order fuel (nd.child c.i c.j c.k12 c.newFlops) c.newSize t = some t' ∧ BBTrue size ins out t' ∧
          Improves cfg.bySize t t' ∧ (cfg.nbranch = none → CandSettled cfg size ins out store nd sz c t') := by
      intro t c hc ht h2
      obtain ⟨hi, hj, hij, hk, hf, hs, hb⟩ := a4 c (mem_visited hc)
      have hcc := child_remaining_card hnd.toGoodPath hi hj hij c.k12 c.newFlops
      have hchild := hnd.child hi hj hij
      have hlf : (nd.child c.i c.j c.k12 c.newFlops).remaining.card = 1 →
          better cfg.bySize (nd.child c.i c.j c.k12 c.newFlops).flops c.newSize t.flops t.size = true := by
        intro h
        obtain ⟨e1, e2⟩ := h2 (by omega)
        rw [e1, e2]
        exact hb
      have hnode : NodeTrue size ins out (store ++ [combineTag (pick store [c.i, c.j])]) (nd.child c.i c.j c.k12 c.newFlops) c.newSize := by
        rw [hk, hf, hs]; exact hchild
      obtain ⟨t', g1, g2, g3, g4⟩ := ih _ _ _ hnode (by omega) (by omega) t ht hlf
      refine ⟨t', g1, g2, g3, fun hnb => ?_⟩
      have := g4 hnb
      unfold CandSettled
      rw [← hs, ← hf]
      simpa [SearchNode.child] using this
    have hvis : cfg.nbranch = none → ∀ c ∈ cands, c ∈ visited cfg.nbranch cands := by
      intro h c hc
      rw [h]
      exact (List.perm_insertionSort _ cands).mem_iff.mpr hc
    have hvlen : (visited cfg.nbranch cands).length ≤ cands.length := by
      have h0 := (List.perm_insertionSort (fun a b : Cand => a.le b = true) cands).length_eq
      unfold visited
      cases cfg.nbranch with
      | none => exact h0.le
      | some k => simp only [List.length_take]; omega
    have hfin : ∃ st', (visited cfg.nbranch cands).foldlM (fun st c =>
          branchIter cfg size out none order fuel (nd.child c.i c.j c.k12 c.newFlops) c.newSize st) s = some st' ∧ BBTrue size ins out st' ∧
          Improves cfg.bySize s st' ∧ (∀ c ∈ visited cfg.nbranch cands, cfg.nbranch = none → CandSettled cfg size ins out store nd sz c st') := by
      by_cases h2 : nd.remaining.card = 2
      · have hv1 : (visited cfg.nbranch cands).length ≤ 1 := hvlen.trans (a5 h2)
        generalize visited cfg.nbranch cands = l at hv1 hstep
        match l, hv1 with
        | [], _ => exact ⟨s, rfl, a1, Improves.refl _ _, by simp⟩
        | [c], _ =>
          obtain ⟨t', g1, g2, g3, g4⟩ := hstep s c (by simp) a1 (fun _ => ⟨a2, a3⟩)
          refine ⟨t', ?_, g2, g3, ?_⟩
          · rw [List.foldlM_cons, g1]; rfl
          · intro c' hc'
            rw [List.mem_singleton] at hc'
            subst hc'
            exact g4
      · exact foldlM_rule (fun t => BBTrue size ins out t) (Improves cfg.bySize)
          (fun c t => cfg.nbranch = none → CandSettled cfg size ins out store nd sz c t)
          (Improves.refl _) (fun _ _ _ => Improves.trans) (fun c t u h hP hn => (hP hn).improve h) _
          (fun t c hc ht => hstep t c hc ht (fun h => absurd h h2)) s a1
    obtain ⟨st', e1, e2, e3, e4⟩ := hfin
    have himp : Improves cfg.bySize st st' := Improves.trans (Or.inl ⟨a2, a3⟩) e3
    refine ⟨st', e1, e2, himp, fun hnb => ?_⟩
    exact settled_of_candidates ho hnd h1 rfl rfl himp (fun c hc => e4 c (hvis hnb c hc) hnb) a6

/-! ## From traces to paths -/

theorem pair_positions {l : List Tag} {X Y : Tag} (h : ({X, Y} : Multiset Tag) ≤ Multiset.ofList l) :
    ∃ i j : Nat, i ≠ j ∧ l[i]? = some X ∧ l[j]? = some Y := by
  obtain ⟨l', hp, hs⟩ := Multiset.coe_le.mp (show Multiset.ofList [X, Y] ≤ Multiset.ofList l from h)
  obtain ⟨f, hf⟩ := List.sublist_iff_exists_orderEmbedding_getElem?_eq.mp hs
  have hlen := hp.length_eq
  match l', hlen with
  | [A, B], _ =>
    have h0 := hf 0
    have h1 := hf 1
    simp only [List.getElem?_cons_zero, List.getElem?_cons_succ] at h0 h1
    have hne : f 0 ≠ f 1 := fun e => by simpa using f.injective e
    have hA : A ∈ [X, Y] := hp.mem_iff.mp (by simp)
    rcases List.mem_cons.mp hA with rfl | hA
    · have : B = Y := by simpa using (List.perm_cons A).mp hp
      subst this
      exact ⟨f 0, f 1, hne, h0.symm, h1.symm⟩
    · rw [List.mem_singleton] at hA
      subst hA
      have : B = X := by
        have := hp.trans (List.Perm.swap _ _ _)
        simpa using (List.perm_cons A).mp this
      subst this
      exact ⟨f 1, f 0, hne.symm, h1.symm, h0.symm⟩

theorem pick_pair_le {l : List Tag} {p : List Nat} {i j : Nat} (hi : i ∈ p) (hj : j ∈ p) (hij : i ≠ j) {X Y : Tag} (hX : l[i]? = some X)
    (hY : l[j]? = some Y) : ({X, Y} : Multiset Tag) ≤ pick l p := by
  have hsub : List.Subperm [i, j] p := by
    apply List.subperm_of_subset
    · simpa using hij
    · intro a ha
      rcases List.mem_cons.mp ha with rfl | ha
      · exact hi
      · rw [List.mem_singleton] at ha; subst ha; exact hj
  have : List.Subperm ([i, j].filterMap (fun k => l[k]?)) (p.filterMap (fun k => l[k]?)) := by
    obtain ⟨l', h1, h2⟩ := hsub
    exact ⟨_, h1.filterMap _, h2.filterMap _⟩
  rw [List.filterMap_cons_some hX, List.filterMap_cons_some hY] at this
  exact Multiset.coe_le.mpr this

theorem innerTr_of_innerFirst (q : Path) {l : List Tag} (hpart : Part ins.length l) (hv : ValidPath l.length q)
    (hin : InnerFirst out (l.map (termOf ins out)) q) : InnerTr ins out (Multiset.ofList l) (linTrace combineTag l q) := by
  induction q generalizing l with
  | nil => trivial
  | cons p ps ih =>
    obtain ⟨hv1, hv2⟩ := hv
    obtain ⟨hi1, hi2⟩ := hin
    refine ⟨?_, ?_⟩
    · rintro ⟨X, Y, hle, hd⟩
      obtain ⟨i, j, hij, e1, e2⟩ := pair_positions hle
      obtain ⟨i', j', s, t, g1, g2, g3, g4, g5, g6⟩ := hi1 ⟨i, j, _, _, hij, by rw [List.getElem?_map, e1]; rfl, by rw [List.getElem?_map, e2]; rfl, hd⟩
      rw [List.getElem?_map] at g4 g5
      obtain ⟨X', f1, rfl⟩ := Option.map_eq_some_iff.mp g4
      obtain ⟨Y', f2, rfl⟩ := Option.map_eq_some_iff.mp g5
      exact ⟨X', Y', pick_pair_le g1 g2 g3 f1 f2, g6⟩
    · rw [afterStep_tags hpart hv1] at hi2
      have hlen : (unselected l p ++ [combineTag (pick l p)]).length = l.length + 1 - p.length := by
        have := unselected_length hv1.2.1 hv1.2.2
        rw [List.length_append, List.length_singleton]; omega
      have hrec := ih (part_step hpart hv1) (by rw [hlen]; exact hv2) hi2
      obtain ⟨sel, hperm, hpick, _, _⟩ := select hv1
      have hl : Multiset.ofList l - pick l p = Multiset.ofList (unselected l p) := by
        rw [hpick, ← Multiset.coe_eq_coe.mpr hperm, ← Multiset.coe_add, add_tsub_cancel_left]
      rw [hl]
      exact hrec

theorem linTrace_take {α : Type} (combine : Multiset α → α) (q : Path) (l : List α) (d : Nat) :
    linTrace combine l (q.take d) = (linTrace combine l q).take d := by
  induction q generalizing l d with
  | nil => simp [linTrace]
  | cons p ps ih =>
    cases d with
    | zero => simp [linTrace]
    | succ d => simp only [List.take_succ_cons, linTrace, ih]

theorem validPath_take {n : Nat} {q : Path} (h : ValidPath n q) (d : Nat) : ValidPath n (q.take d) := by
  induction q generalizing n d with
  | nil => simpa using h
  | cons p ps ih =>
    cases d with
    | zero => trivial
    | succ d => exact ⟨h.1, ih h.2 d⟩

/-- Operations of the first steps. -/
theorem searchFlops_take {q : Path} (h : CompletePath ins.length q) (d : Nat) :
    searchFlops size out ins (q.take d) = (((linTrace combineTag (tags ins.length) q).take d).map (gFlops size ins out)).sum := by
  have := figures_trace (ins := ins) (out := out) (size := size) (q.take d) (part_tags ins.length)
    (by rw [tags_length]; exact validPath_take (completePath_valid h) d)
  rw [tags_terms, linTrace_take] at this
  exact this.1

theorem ssaTrace_length {α : Type} (combine : Multiset α → α) (q : Path) (l : List α) : (ssaTrace combine l q).length = q.length := by
  induction q generalizing l with
  | nil => rfl
  | cons p ps ih => simp [ssaTrace, ih]

/-- Any partial pairwise path can be completed. -/
theorem complete_pairwise {n : Nat} (k : Nat) (nd : SearchNode) (h : GoodPath n nd) (hp : Pairwise2 nd.path) (hk : nd.remaining.card = k + 1) :
    ∃ rest, SsaComplete n (nd.path ++ rest) ∧ Pairwise2 (nd.path ++ rest) := by
  induction k generalizing nd with
  | zero => exact ⟨[], by rw [List.append_nil]; exact ⟨h.complete hk, hp⟩⟩
  | succ k ih =>
    obtain ⟨i, hi, j, hj, hij⟩ := Finset.one_lt_card.mp (by omega : 1 < nd.remaining.card)
    have hc := child_remaining_card h hi hj hij ∅ 0
    obtain ⟨rest, h1, h2⟩ := ih (nd.child i j ∅ 0) (goodPath_child h hi hj hij ∅ 0) (by
      intro p hpm
      simp only [SearchNode.child, List.mem_append, List.mem_singleton] at hpm
      rcases hpm with hpm | rfl
      · exact hp p hpm
      · rfl) (by omega)
    refine ⟨[i, j] :: rest, ?_⟩
    simpa [SearchNode.child] using And.intro h1 h2

theorem pairwise_of_lengths {p q : Path} (h : p.map List.length = q.map List.length) (hq : Pairwise2 q) : Pairwise2 p := by
  intro x hx
  have : x.length ∈ q.map List.length := by rw [← h]; exact List.mem_map_of_mem hx
  obtain ⟨y, hy, e⟩ := List.mem_map.mp this
  rw [← e]; exact hq y hy

/-- What is reached is reached by a pairwise path. -/
theorem reach_path {k b : Nat} (h : Reach size ins out (k + 1) b) :
    ∃ r, CompletePath ins.length r ∧ Pairwise2 r ∧ searchFlops size out ins (r.take (k + 1)) = b := by
  obtain ⟨nd, store, h1, h2, h3, h4, h5⟩ := h
  obtain ⟨rest, g1, g2⟩ := complete_pairwise (nd.remaining.card - 1) nd h1.toGoodPath h2 (by omega)
  obtain ⟨r, e1, e2, _, e4, e5⟩ := C11_ssa_to_linear g1 (by
    intro h0
    rw [(List.append_eq_nil_iff.mp h0).1] at h4
    cases h4)
  refine ⟨r, e2, pairwise_of_lengths e4 g2, ?_⟩
  rw [searchFlops_take e2, (e5 Tag combineTag (tags ins.length) (tags_length _)).1, ssaTrace_append, ← h4,
    List.take_left' (ssaTrace_length _ _ _), ← h5, h1.flops_eq]

theorem withinTr_of (cutoff : ℚ) (ms : List (Multiset Tag)) (base k : Nat)
    (h : ∀ d b, d < ms.length → Reach size ins out (k + d + 1) b →
      ((base + ((ms.take (d + 1)).map (gFlops size ins out)).sum : Nat) : ℚ) ≤ cutoff * b) :
    WithinTr cutoff size ins out base k ms := by
  induction ms generalizing base k with
  | nil => trivial
  | cons m ms ih =>
    refine ⟨fun b hb => by simpa using h 0 b (by simp) hb, ih _ _ ?_⟩
    intro d b hd hb
    have := h (d + 1) b (by simpa using hd) (by rw [show k + (d + 1) + 1 = k + 1 + d + 1 by omega]; exact hb)
    simpa [Nat.add_assoc] using this

theorem within_of_cutoff {cutoff : ℚ} {q : Path} (hq : CompletePath ins.length q) (h : WithinCutoff cutoff size out ins q) :
    WithinTr cutoff size ins out 0 0 (linTrace combineTag (tags ins.length) q) := by
  apply withinTr_of
  intro d b _ hb
  rw [Nat.zero_add] at hb
  obtain ⟨r, h1, h2, h3⟩ := reach_path hb
  have := h r (d + 1) h1 h2
  rw [h3, searchFlops_take hq] at this
  rw [Nat.zero_add]
  exact this

/-- The figures of a linear path as those of the corresponding one on tags. -/
theorem lin_figures {p q : Path} (hq : CompletePath ins.length q)
    (htr : linTrace combineTag (tags ins.length) q = ssaTrace combineTag (tags ins.length) p) :
    searchFlops size out ins q = tagCost size ins out (tags ins.length) p ∧ peak size out ins q = tagPeak size ins out (tags ins.length) p := by
  obtain ⟨f1, f2, _⟩ := figures_complete (size := size) (out := out) hq
  unfold peak
  rw [f1, f2, htr]
  exact ⟨rfl, rfl⟩

theorem lexLess_better {b : Bool} {f s f' s' : Nat} : LexLess b f s f' s' ↔ better b f s f' s' = true := by
  unfold LexLess better
  cases b <;> simp

/-- The state after a search on a new instance. -/
theorem branch_run (hsafe : CacheSafe ins out) (ho : OrderOK order) (hb : cfg.nbranch ≠ some 0) (h2 : 2 ≤ ins.length) {fuel : Nat}
    (hfuel : ins.length ≤ fuel) :
    ∃ st p path, branchIter cfg size out none order fuel (rootNode ins) 0 BBSt.fresh = some st ∧
      branch cfg fuel size none order ins out = some (.ok path) ∧ BBTrue size ins out st ∧
      (cfg.nbranch = none → Settled cfg size ins out (tags ins.length) (Finset.range ins.length) 0 0 0 st) ∧ st.path = some p ∧
      CompletePath ins.length path ∧ Pairwise2 path ∧ st.flops = (searchFlops size out ins path : Nat) ∧ st.size = (peak size out ins path : Nat) := by
  have hne : ins ≠ [] := by rintro rfl; simp at h2
  have hroot : NodeTrue size ins out (tags ins.length) (rootNode ins) 0 :=
    { good_root with pairwise := by intro p hp; simp [rootNode] at hp, peak := rfl }
  have hfresh : BBTrue size ins out BBSt.fresh := ⟨cacheInv_nil, by simp [BBSt.fresh, Dict.get?], fun _ => ⟨rfl, rfl⟩, by simp [BBSt.fresh]⟩
  obtain ⟨st, e1, e2, _, e4⟩ := branchIter_true (cfg := cfg) hsafe ho fuel (rootNode ins) _ 0 hroot (by simp [rootNode]; omega) (by simp [rootNode]; omega)
    BBSt.fresh hfresh (by simp [rootNode]; omega)
  obtain ⟨path, st', p, g1, _, g3, g4, g5, _, g7⟩ := branchCall_complete cfg size none ho hb out hne hfuel (fresh_ready _)
  have hst : st' = st := by
    unfold branchCall at g1
    have : branchIter cfg size out none order fuel (rootNode ins) 0 { BBSt.fresh with cache := [] } = some st := e1
    rw [this] at g1
    simp only [Option.map_some, Option.some.injEq, Prod.mk.injEq] at g1
    exact g1.2.symm
  subst hst
  obtain ⟨b1, b2, b3, b4⟩ := e2.best p g3
  obtain ⟨q, f1, f2, _, f4, f5⟩ := C11_ssa_to_linear g4 (ssaComplete_ne_nil g4 h2)
  rw [g5] at f1
  cases f1
  obtain ⟨l1, l2⟩ := lin_figures (size := size) (out := out) f2 (f5 Tag combineTag (tags ins.length) (tags_length _)).1
  refine ⟨st', p, path, e1, ?_, e2, e4, g3, f2, pairwise_of_lengths f4 b3, by rw [l1]; exact b1, by rw [l2]; exact b2⟩
  unfold branch
  rw [if_neg hb, g1]
  rfl

end

/-- **C58 (partial).** In a network without hyperedges, `branch` with `nbranch=None` (`branch-all`), without memory limit, with any
cutoff, cost function, objective and set iteration orders, returns a pairwise path, and no other path that contracts tensors
with a common label as long as there are any, and that stays within the cutoff, is better: cheaper or, at equal cost, of smaller
largest intermediate (or the other way round with `minimize='size'`).

Missing: networks with hyperedges, for which the claim is false (`C58_counterexample`). -/
theorem C58_branch_all_partial {ins : List (Finset Nat)} {out : Finset Nat} (hh : NoHyperEdges ins out) (cfg : BBCfg)
    (hnb : cfg.nbranch = none) (size : Nat → Nat) {order : SetOrder} (ho : OrderOK order) (h2 : 2 ≤ ins.length) {fuel : Nat}
    (hfuel : ins.length ≤ fuel) :
    ∃ path, branch cfg fuel size none order ins out = some (.ok path) ∧ CompletePath ins.length path ∧ Pairwise2 path ∧
      ∀ q, CompletePath ins.length q → Pairwise2 q → InnerFirst out ins q → WithinCutoff cfg.cutoff size out ins q →
        ¬ LexLess cfg.bySize (searchFlops size out ins q) (peak size out ins q) (searchFlops size out ins path) (peak size out ins path) := by
  obtain ⟨st, p, path, e1, e2, e3, e4, e5, e6, e7, e8, e9⟩ := branch_run (cfg := cfg) (size := size) (cacheSafe_of_noHyper hh) ho (by rw [hnb]; simp) h2 hfuel
  refine ⟨path, e2, e6, e7, ?_⟩
  intro q hq hp hin hwi hlt
  obtain ⟨sq, s1, s2, s3, s4⟩ := ssa_of_pairwise hq hp
  have htr := s4 Tag combineTag (tags ins.length) (tags_length _)
  have hlive : liveTags (tags ins.length) (Finset.range ins.length) = Multiset.ofList (tags ins.length) := by
    unfold liveTags
    rw [Finset.range_val, ← Multiset.coe_range, Multiset.filterMap_coe]
    congr 1
    unfold tags
    rw [← List.filterMap_eq_map]
    apply List.filterMap_congr
    intro a ha
    simp [List.mem_range.mp ha]
  have := e4 hnb sq (by rw [tags_length]; exact s1.1) s2 (by rw [Finset.card_range]; exact s3)
    (by rw [hlive, htr]; exact innerTr_of_innerFirst q (part_tags _) (by rw [tags_length]; exact completePath_valid hq) (by rw [tags_terms]; exact hin))
    (by rw [htr]; exact within_of_cutoff hq hwi)
  obtain ⟨l1, l2⟩ := lin_figures (size := size) (out := out) hq htr.symm
  rw [lexLess_better, ← e8, ← e9, l1, l2] at hlt
  rw [Nat.zero_add, Nat.zero_max, hlt] at this
  cases this

theorem searchFlops_take_le (size : Nat → Nat) (out : Finset Nat) (q : Path) (terms : List (Finset Nat)) (d : Nat) :
    searchFlops size out terms (q.take d) ≤ searchFlops size out terms q := by
  induction q generalizing terms d with
  | nil => simp
  | cons p ps ih =>
    cases d with
    | zero => simp [searchFlops]
    | succ d =>
      simp only [List.take_succ_cons, searchFlops]
      have := ih (afterStep out terms p) d
      omega

theorem pairFlops_pos {size : Nat → Nat} (hpos : ∀ c, 0 < size c) (out : Finset Nat) (terms : List (Finset Nat)) (p : List Nat) :
    0 < pairFlops size out terms p := by
  unfold pairFlops
  apply Nat.mul_pos
  · exact Finset.prod_induction _ (fun x => 0 < x) (fun a b => Nat.mul_pos) Nat.one_pos (fun c _ => hpos c)
  · have : 1 ≤ max 1 (p.length - 1) := le_max_left _ _
    omega

/-- A path that costs no more than the cutoff is within the cutoff. -/
theorem withinCutoff_of_le {cutoff : ℚ} {size : Nat → Nat} (hpos : ∀ c, 0 < size c) {out : Finset Nat} {ins : List (Finset Nat)} {q : Path}
    (h : (searchFlops size out ins q : ℚ) ≤ cutoff) : WithinCutoff cutoff size out ins q := by
  intro r d hr _
  cases d with
  | zero => simp [searchFlops]
  | succ d =>
    cases r with
    | nil => exact absurd hr (by simp [CompletePath])
    | cons p ps =>
      have h1 : 1 ≤ searchFlops size out ins ((p :: ps).take (d + 1)) := by
        simp only [List.take_succ_cons, searchFlops]
        have := pairFlops_pos hpos out ins p
        omega
      have h2 : (searchFlops size out ins (q.take (d + 1)) : ℚ) ≤ searchFlops size out ins q := by
        exact_mod_cast searchFlops_take_le size out q ins (d + 1)
      have h0 : (0 : ℚ) ≤ searchFlops size out ins q := by exact_mod_cast Nat.zero_le _
      have h3 : (1 : ℚ) ≤ searchFlops size out ins ((p :: ps).take (d + 1)) := by exact_mod_cast h1
      calc (searchFlops size out ins (q.take (d + 1)) : ℚ) ≤ cutoff := h2.trans h
        _ = cutoff * 1 := (mul_one _).symm
        _ ≤ _ := mul_le_mul_of_nonneg_left h3 (h0.trans h)

/-- With a cutoff that is large enough, `branch-all` is optimal among the paths that contract tensors with common labels first. -/
theorem C58_large_cutoff_partial {ins : List (Finset Nat)} {out : Finset Nat} (hh : NoHyperEdges ins out) (cfg : BBCfg)
    (hnb : cfg.nbranch = none) {size : Nat → Nat} (hpos : ∀ c, 0 < size c) {order : SetOrder} (ho : OrderOK order) (h2 : 2 ≤ ins.length)
    {fuel : Nat} (hfuel : ins.length ≤ fuel) :
    ∃ path, branch cfg fuel size none order ins out = some (.ok path) ∧ CompletePath ins.length path ∧ Pairwise2 path ∧
      ∀ q, CompletePath ins.length q → Pairwise2 q → InnerFirst out ins q → (searchFlops size out ins q : ℚ) ≤ cfg.cutoff →
        ¬ LexLess cfg.bySize (searchFlops size out ins q) (peak size out ins q) (searchFlops size out ins path) (peak size out ins path) := by
  obtain ⟨path, h1, h3, h4, h5⟩ := C58_branch_all_partial hh cfg hnb size ho h2 hfuel
  exact ⟨path, h1, h3, h4, fun q a b c d => h5 q a b c (withinCutoff_of_le hpos d)⟩

/-! ## More branches are no worse than one -/

theorem visited_head {nbranch : Option Nat} (hb : nbranch ≠ some 0) (l : List Cand) :
    (visited (some 1) l = [] ∧ visited nbranch l = []) ∨ ∃ c cs, visited (some 1) l = [c] ∧ visited nbranch l = c :: cs := by
  unfold visited
  generalize l.insertionSort (fun a b => a.le b = true) = l'
  cases l' with
  | nil => left; cases nbranch <;> simp
  | cons c cs =>
    right
    cases nbranch with
    | none => exact ⟨c, cs, rfl, rfl⟩
    | some k =>
      cases k with
      | zero => exact absurd rfl hb
      | succ k => exact ⟨c, cs.take k, rfl, rfl⟩

theorem candidates_nbranch (cfg : BBCfg) (b : Option Nat) (size : Nat → Nat) (out : Finset Nat) (mem : Option Nat) (order : SetOrder)
    (nd : SearchNode) (sz : Nat) (st : BBSt) :
    candidates { cfg with nbranch := b } size out mem order nd sz st = candidates cfg size out mem order nd sz st := rfl

theorem branchIter_one {cfg : BBCfg} {size : Nat → Nat} {ins : List (Finset Nat)} {out : Finset Nat} {order : SetOrder}
    (hsafe : CacheSafe ins out) (ho : OrderOK order) (hb : cfg.nbranch ≠ some 0) (fuel : Nat) (nd : SearchNode) (store : List Tag) (sz : Nat)
    (hnd : NodeTrue size ins out store nd sz) (hcard : 0 < nd.remaining.card) (hfuel : nd.remaining.card ≤ fuel + 1) (st : BBSt)
    (hst : BBTrue size ins out st) (hleaf : nd.remaining.card = 1 → better cfg.bySize nd.flops sz st.flops st.size = true) (s1 s2 : BBSt)
    (h1 : branchIter { cfg with nbranch := some 1 } size out none order fuel nd sz st = some s1)
    (h2 : branchIter cfg size out none order fuel nd sz st = some s2) : Improves cfg.bySize s1 s2 := by
  induction fuel generalizing nd store sz st s1 s2 with
  | zero =>
    have hc : nd.remaining.card = 1 := by omega
    rw [branchIter, if_pos hc] at h1 h2
    cases h1; cases h2
    exact Improves.refl _ _
  | succ fuel ih =>
    by_cases hc : nd.remaining.card = 1
    · rw [branchIter, if_pos hc] at h1 h2
      cases h1; cases h2
      exact Improves.refl _ _
    · rw [branchIter, if_neg hc] at h1 h2
      simp only at h1 h2
      rw [candidates_nbranch] at h1
      obtain ⟨a1, a2, a3, a4, a5, a6⟩ := candidates_true (cfg := cfg) hsafe ho hnd hst
      generalize candidates cfg size out none order nd sz st = r at a1 a2 a3 a4 a5 a6 h1 h2
      obtain ⟨cands, s⟩ := r
      simp only at a1 a2 a3 a4 a5 a6 h1 h2
      have hstep : ∀ (t : BBSt), ∀ c ∈ cands, BBTrue size ins out t → (nd.remaining.card = 2 → t.flops = st.flops ∧ t.size = st.size) →
          ∃ t', branchIter cfg size out none order fuel (nd.child c.i c.j c.k12 c.newFlops) c.newSize t = some t' ∧ BBTrue size ins out t' ∧
            Improves cfg.bySize t t' ∧ ∀ u, branchIter { cfg with nbranch := some 1 } size out none order fuel (nd.child c.i c.j c.k12 c.newFlops) c.newSize t = some u →
              Improves cfg.bySize u t' := by
        intro t c hcm ht h2'
        obtain ⟨hi, hj, hij, hk, hf, hs, hbt⟩ := a4 c hcm
        have hcc := child_remaining_card hnd.toGoodPath hi hj hij c.k12 c.newFlops
        have hlf : (nd.child c.i c.j c.k12 c.newFlops).remaining.card = 1 →
            better cfg.bySize (nd.child c.i c.j c.k12 c.newFlops).flops c.newSize t.flops t.size = true := by
          intro h
          obtain ⟨e1, e2⟩ := h2' (by omega)
          rw [e1, e2]
          exact hbt
        have hnode : NodeTrue size ins out (store ++ [combineTag (pick store [c.i, c.j])]) (nd.child c.i c.j c.k12 c.newFlops) c.newSize := by
          rw [hk, hf, hs]; exact hnd.child hi hj hij
        obtain ⟨t', g1, g2, g3, _⟩ := branchIter_true (cfg := cfg) hsafe ho fuel _ _ _ hnode (by omega) (by omega) t ht hlf
        exact ⟨t', g1, g2, g3, fun u hu => ih _ _ _ hnode (by omega) (by omega) t ht hlf u t' hu g1⟩
      have hmem : ∀ c ∈ visited cfg.nbranch cands, c ∈ cands := fun c => mem_visited
      have hvlen : (visited cfg.nbranch cands).length ≤ cands.length := by
        have h0 := (List.perm_insertionSort (fun a b : Cand => a.le b = true) cands).length_eq
        unfold visited
        cases cfg.nbranch with
        | none => exact h0.le
        | some k => simp only [List.length_take]; omega
      rcases visited_head hb cands with ⟨v1, v2⟩ | ⟨c, cs, v1, v2⟩
      · rw [v1] at h1
        rw [v2] at h2
        simp only [List.foldlM_nil, pure, Option.some.injEq] at h1 h2
        rw [← h1, ← h2]
        exact Improves.refl _ _
      · rw [v1] at h1
        rw [v2] at h2 hmem hvlen
        rw [List.foldlM_cons] at h1 h2
        obtain ⟨t, g1, g2, g3, g4⟩ := hstep s c (hmem c (by simp)) a1 (fun _ => ⟨a2, a3⟩)
        have hu : branchIter { cfg with nbranch := some 1 } size out none order fuel (nd.child c.i c.j c.k12 c.newFlops) c.newSize s = some s1 := by
          cases hx : branchIter { cfg with nbranch := some 1 } size out none order fuel (nd.child c.i c.j c.k12 c.newFlops) c.newSize s with
          | none => rw [hx] at h1; cases h1
          | some x => rw [hx] at h1; exact h1
        rw [g1] at h2
        refine (g4 s1 hu).trans ?_
        have h2' : cs.foldlM (fun st c => branchIter cfg size out none order fuel (nd.child c.i c.j c.k12 c.newFlops) c.newSize st) t = some s2 := h2
        by_cases hc2 : nd.remaining.card = 2
        · have : cs = [] := by
            have := a5 hc2
            simp only [List.length_cons] at hvlen
            exact List.length_eq_zero_iff.mp (by omega)
          subst this
          simp only [List.foldlM_nil, pure, Option.some.injEq] at h2'
          rw [h2']
          exact Improves.refl _ _
        · obtain ⟨s', f1, _, f3, _⟩ := foldlM_rule (f := fun st c => branchIter cfg size out none order fuel (nd.child c.i c.j c.k12 c.newFlops) c.newSize st)
            (fun t => BBTrue size ins out t) (Improves cfg.bySize) (fun _ _ => True)
            (Improves.refl _) (fun _ _ _ => Improves.trans) (fun _ _ _ _ _ => trivial) cs
            (fun t c hcm ht => by
              obtain ⟨t', k1, k2, k3, _⟩ := hstep t c (hmem c (by simp [hcm])) ht (fun h => absurd h hc2)
              exact ⟨t', k1, k2, k3, trivial⟩) t g2
          rw [h2'] at f1
          cases f1
          exact f3

/-- **C58 (partial).** More branches are never worse than one: in a network without hyperedges, the path that `branch` finds with any
`nbranch` is not worse than the one it finds with `nbranch=1` and the same other options.

Missing: networks with hyperedges. -/
theorem C58_more_branches_partial {ins : List (Finset Nat)} {out : Finset Nat} (hh : NoHyperEdges ins out) (cfg : BBCfg)
    (hb : cfg.nbranch ≠ some 0) (size : Nat → Nat) {order : SetOrder} (ho : OrderOK order) (h2 : 2 ≤ ins.length) {fuel : Nat}
    (hfuel : ins.length ≤ fuel) :
    ∃ path path1, branch cfg fuel size none order ins out = some (.ok path) ∧
      branch { cfg with nbranch := some 1 } fuel size none order ins out = some (.ok path1) ∧
      ¬ LexLess cfg.bySize (searchFlops size out ins path1) (peak size out ins path1) (searchFlops size out ins path) (peak size out ins path) := by
  have hsafe := cacheSafe_of_noHyper hh
  obtain ⟨st, p, path, e1, e2, e3, _, _, _, _, e8, e9⟩ := branch_run (cfg := cfg) (size := size) hsafe ho hb h2 hfuel
  obtain ⟨st1, p1, path1, f1, f2, f3, _, _, _, _, f8, f9⟩ := branch_run (cfg := { cfg with nbranch := some 1 }) (size := size) hsafe ho (by simp) h2 hfuel
  refine ⟨path, path1, e2, f2, ?_⟩
  have hroot : NodeTrue size ins out (tags ins.length) (rootNode ins) 0 :=
    { good_root with pairwise := by intro p hp; simp [rootNode] at hp, peak := rfl }
  have hfresh : BBTrue size ins out BBSt.fresh := ⟨cacheInv_nil, by simp [BBSt.fresh, Dict.get?], fun _ => ⟨rfl, rfl⟩, by simp [BBSt.fresh]⟩
  have := branchIter_one hsafe ho hb fuel (rootNode ins) _ 0 hroot (by simp [rootNode]; omega) (by simp [rootNode]; omega) BBSt.fresh hfresh
    (by simp [rootNode]; omega) st1 st f1 e1
  rw [lexLess_better, ← e8, ← e9, ← f8, ← f9]
  rw [this.not_better (better_irrefl _ _ _)]
  simp

/-! ## Cases -/

/-- `branch-all` with a large cutoff. -/
def bbWide : BBCfg := { bbDefault none with cutoff := 1000 }

-- C58: on the chain 'ab,bc,cd->ad' with sizes 10, 2, 10, 2 the path found costs 160, the one it is compared with 800
example : branch bbWide 3 (fun c => if c % 2 = 0 then 10 else 2) none ascending chainNet {0, 3} = some (.ok [[1, 2], [0, 1]]) ∧
    searchFlops (fun c => if c % 2 = 0 then 10 else 2) {0, 3} chainNet [[1, 2], [0, 1]] = 160 ∧
    searchFlops (fun c => if c % 2 = 0 then 10 else 2) {0, 3} chainNet [[0, 1], [0, 1]] = 800 := by decide +kernel

-- both paths are inner first and within the cutoff
example : InnerFirst {0, 3} chainNet [[0, 1], [0, 1]] ∧ InnerFirst {0, 3} chainNet [[1, 2], [0, 1]] ∧
    WithinCutoff bbWide.cutoff (fun c => if c % 2 = 0 then 10 else 2) {0, 3} chainNet [[0, 1], [0, 1]] := by
  refine ⟨⟨fun _ => ⟨0, 1, {0, 1}, {1, 2}, by decide⟩, fun _ => ⟨0, 1, {2, 3}, {0, 2}, by decide⟩, trivial⟩,
    ⟨fun _ => ⟨1, 2, {1, 2}, {2, 3}, by decide⟩, fun _ => ⟨0, 1, {0, 1}, {1, 3}, by decide⟩, trivial⟩, ?_⟩
  apply withinCutoff_of_le
  · intro c; split <;> decide
  · decide +kernel

-- C58: a path that starts with an outer product may be better: 'b,c,bcd->d' with sizes 5
example : branch bbWide 3 (fun _ => 5) none ascending [{1}, {2}, {1, 2, 3}] {3} = some (.ok [[0, 2], [0, 1]]) ∧
    LexLess false (searchFlops (fun _ => 5) {3} [{1}, {2}, {1, 2, 3}] [[0, 1], [0, 1]]) 0
      (searchFlops (fun _ => 5) {3} [{1}, {2}, {1, 2, 3}] [[0, 2], [0, 1]]) 0 := by
  refine ⟨by decide +kernel, Or.inl (by decide +kernel)⟩

/-- **C58 is false with hyperedges**: for 'ac,a,ab->' with sizes 2, 3, 5 `branch-all` returns a path that costs 26, while another
that is inner first and within the cutoff costs 22. -/
theorem C58_counterexample :
    branch bbWide 3 sizes235 none ascending [{0, 2}, {0}, {0, 1}] ∅ = some (.ok [[1, 2], [0, 1]]) ∧
    CompletePath 3 [[0, 1], [0, 1]] ∧ Pairwise2 [[0, 1], [0, 1]] ∧ InnerFirst ∅ [{0, 2}, {0}, {0, 1}] [[0, 1], [0, 1]] ∧
    WithinCutoff bbWide.cutoff sizes235 ∅ [{0, 2}, {0}, {0, 1}] [[0, 1], [0, 1]] ∧
    LexLess bbWide.bySize (searchFlops sizes235 ∅ [{0, 2}, {0}, {0, 1}] [[0, 1], [0, 1]]) (peak sizes235 ∅ [{0, 2}, {0}, {0, 1}] [[0, 1], [0, 1]])
      (searchFlops sizes235 ∅ [{0, 2}, {0}, {0, 1}] [[1, 2], [0, 1]]) (peak sizes235 ∅ [{0, 2}, {0}, {0, 1}] [[1, 2], [0, 1]]) := by
  refine ⟨by decide +kernel, by unfold CompletePath CompletePath ValidStep; decide, by unfold Pairwise2; decide,
    ⟨fun _ => ⟨0, 1, {0, 2}, {0}, by decide⟩, fun _ => ⟨0, 1, {0, 1}, {0}, by decide⟩, trivial⟩, ?_, Or.inl (by decide +kernel)⟩
  apply withinCutoff_of_le
  · intro c; unfold sizes235; split
    · decide
    · split <;> decide
  · decide +kernel

-- C58: on 'ab,bc,cd,de->ae' with sizes 2, 2, 2, 3, 10, one branch finds a path that costs 216, all branches one that costs 160
example :
    let size : Nat → Nat := fun c => [2, 2, 2, 3, 10].getD c 1
    let ins : List (Finset Nat) := [{0, 1}, {1, 2}, {2, 3}, {3, 4}]
    branch (bbDefault (some 1)) 4 size none ascending ins {0, 4} = some (.ok [[0, 1], [0, 1], [0, 1]]) ∧
    branch (bbDefault none) 4 size none ascending ins {0, 4} = some (.ok [[0, 1], [0, 2], [0, 1]]) ∧
    searchFlops size {0, 4} ins [[0, 1], [0, 1], [0, 1]] = 216 ∧ searchFlops size {0, 4} ins [[0, 1], [0, 2], [0, 1]] = 160 := by
  decide +kernel

end OE.Props
