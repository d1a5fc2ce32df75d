import Verif.Spec.Assessed
import Verif.Model.Assessed
import Verif.Props.BranchAgain
import Verif.Props.Optimal1
import Mathlib.Tactic.Ring

/-!
# C95: how many paths the searches assess
-/

namespace OE.Props
open OE OE.Py OE.Spec OE.Paths

/-! ## The closed forms -/

theorem mostPaths_succ (k : Option Nat) (m : Nat) :
    mostPaths k (m + 2) = (match k with | none => (m + 2).choose 2 | some k => min k ((m + 2).choose 2)) * mostPaths k (m + 1) := by
  cases k <;> rfl

theorem mostPaths_le_pow (k m : Nat) : mostPaths (some k) (m + 2) ≤ k ^ m := by
  induction m with
  | zero => simp [mostPaths]
  | succ m ih =>
    rw [mostPaths, pow_succ, Nat.mul_comm]
    exact Nat.mul_le_mul ih (min_le_left _ _)

theorem mostPaths_all (m : Nat) : mostPaths none (m + 1) * 2 ^ m = (m + 1).factorial * m.factorial := by
  induction m with
  | zero => simp [mostPaths]
  | succ m ih =>
    have h2 : (m + 2).choose 2 * 2 = (m + 2) * (m + 1) := by
      have := Nat.add_one_mul_choose_eq (m + 1) 1
      rw [Nat.choose_one_right] at this
      exact this.symm
    rw [mostPaths, pow_succ, Nat.factorial_succ (m + 1)]
    calc (m + 2).choose 2 * mostPaths none (m + 1) * (2 ^ m * 2)
        = ((m + 2).choose 2 * 2) * (mostPaths none (m + 1) * 2 ^ m) := by ring
      _ = ((m + 2) * (m + 1)) * ((m + 1).factorial * m.factorial) := by rw [h2, ih]
      _ = _ := by rw [Nat.factorial_succ m]; ring

/-! ## Lists of paths that grow -/

/-- `new` paths were added to the list: at most `b`, without repetition, all with `P`. -/
def Grows (b : Nat) (P : Path → Prop) (s s' : List Path) : Prop :=
  ∃ new, s' = s ++ new ∧ new.length ≤ b ∧ new.Nodup ∧ ∀ p ∈ new, P p

theorem Grows.refl (P : Path → Prop) (s : List Path) : Grows 0 P s s := ⟨[], by simp⟩

theorem Grows.mono {b c : Nat} {P Q : Path → Prop} {s s' : List Path} (h : Grows b P s s') (hb : b ≤ c) (hP : ∀ p, P p → Q p) :
    Grows c Q s s' := by
  obtain ⟨new, h1, h2, h3, h4⟩ := h
  exact ⟨new, h1, h2.trans hb, h3, fun p hp => hP p (h4 p hp)⟩

theorem Grows.trans {b c : Nat} {P Q : Path → Prop} {s t u : List Path} (h1 : Grows b P s t) (h2 : Grows c Q t u)
    (hd : ∀ p, P p → ¬ Q p) : Grows (b + c) (fun p => P p ∨ Q p) s u := by
  obtain ⟨n1, a1, a2, a3, a4⟩ := h1
  obtain ⟨n2, b1, b2, b3, b4⟩ := h2
  refine ⟨n1 ++ n2, by rw [b1, a1, List.append_assoc], by rw [List.length_append]; omega, ?_, ?_⟩
  · rw [List.nodup_append']
    exact ⟨a3, b3, fun p hp hp' => hd p (a4 p hp) (b4 p hp')⟩
  · intro p hp
    rcases List.mem_append.mp hp with h | h
    · exact Or.inl (a4 p h)
    · exact Or.inr (b4 p h)

theorem foldlM_grows {σ α : Type} {f : σ × List Path → α → Option (σ × List Path)} {b : Nat} {P : α → Path → Prop} (l : List α)
    (hdis : l.Pairwise (fun x y => ∀ p, P x p → ¬ P y p))
    (hf : ∀ s s', ∀ x ∈ l, f s x = some s' → Grows b (P x) s.2 s'.2) (s s' : σ × List Path) (h : l.foldlM f s = some s') :
    Grows (l.length * b) (fun p => ∃ x ∈ l, P x p) s.2 s'.2 := by
  induction l generalizing s with
  | nil => cases h; simpa using Grows.refl _ _
  | cons x xs ih =>
    rw [List.foldlM_cons] at h
    cases hx : f s x with
    | none => rw [hx] at h; cases h
    | some t =>
      rw [hx] at h
      obtain ⟨d1, d2⟩ := List.pairwise_cons.mp hdis
      have h1 := hf s t x (by simp) hx
      have h2 := ih d2 (fun s s' y hy => hf s s' y (by simp [hy])) t h
      refine (h1.trans h2 ?_).mono (le_of_eq (by rw [List.length_cons]; ring)) ?_
      · rintro p hp ⟨y, hy, hp'⟩
        exact d1 y hy p hp hp'
      · rintro p (hp | ⟨y, hy, hp⟩)
        · exact ⟨x, by simp, hp⟩
        · exact ⟨y, by simp [hy], hp⟩

theorem foldlM_state {σ τ α : Type} {f : σ × τ → α → Option (σ × τ)} {g : σ → α → Option σ}
    (hf : ∀ s x, (f s x).map Prod.fst = g s.1 x) (l : List α) (s : σ × τ) :
    (l.foldlM f s).map Prod.fst = l.foldlM g s.1 := by
  induction l generalizing s with
  | nil => rfl
  | cons x xs ih =>
    rw [List.foldlM_cons, List.foldlM_cons, ← hf s x]
    cases f s x with
    | none => rfl
    | some t => exact ih t

theorem foldlM_keeps {σ α : Type} {f : σ → α → Option σ} {I : σ → Prop} (l : List α)
    (hf : ∀ s s', ∀ x ∈ l, I s → f s x = some s' → I s') (s s' : σ) (hs : I s) (h : l.foldlM f s = some s') : I s' := by
  induction l generalizing s with
  | nil => cases h; exact hs
  | cons x xs ih =>
    rw [List.foldlM_cons] at h
    cases hx : f s x with
    | none => rw [hx] at h; cases h
    | some t =>
      rw [hx] at h
      exact ih (fun s s' y hy => hf s s' y (by simp [hy])) t (hf s t x (by simp) hs hx) h

/-! ## Pairs -/

theorem combinations2_length (l : List Nat) : (combinations2 l).length = l.length.choose 2 := by
  induction l with
  | nil => rfl
  | cons x xs ih =>
    rw [combinations2, List.length_append, List.length_map, ih, List.length_cons, Nat.choose_succ_succ' xs.length 1, Nat.choose_one_right]

theorem orient_pairwise {l : List Nat} (hl : l.Nodup) : ((combinations2 l).map orient).Nodup := by
  induction l with
  | nil => simp [combinations2]
  | cons x xs ih =>
    obtain ⟨hx, hxs⟩ := List.nodup_cons.mp hl
    rw [combinations2, List.map_append, List.nodup_append', List.map_map]
    refine ⟨?_, ih hxs, ?_⟩
    · apply List.Nodup.map_on _ hxs
      intro a _ b _ h
      simp only [Function.comp, orient] at h
      split at h <;> split at h <;> simp only [Prod.mk.injEq] at h <;> omega
    · intro q h1 h2
      obtain ⟨a, ha, rfl⟩ := List.mem_map.mp h1
      obtain ⟨⟨b, c⟩, hb, e⟩ := List.mem_map.mp h2
      obtain ⟨hb1, hb2, _⟩ := mem_combinations2 hxs hb
      have hb1' : b ≠ x := fun h => hx (h ▸ hb1)
      have hb2' : c ≠ x := fun h => hx (h ▸ hb2)
      simp only [Function.comp, orient] at e
      split at e <;> split at e <;> simp only [Prod.mk.injEq] at e <;> omega

theorem order_length {order : SetOrder} (ho : OrderOK order) (path : Path) (s : Finset Nat) : (order path s).length = s.card := by
  obtain ⟨o1, o2⟩ := ho path s
  rw [← List.toFinset_card_of_nodup o1]
  congr 1
  ext a; rw [List.mem_toFinset, o2]

theorem prefix_disjoint {q : Path} {x y : Nat × Nat} (h : x ≠ y) (p : Path) (hx : q ++ [[x.1, x.2]] <+: p) : ¬ q ++ [[y.1, y.2]] <+: p := by
  intro hy
  obtain ⟨r, rfl⟩ := hx
  rw [List.append_assoc, List.prefix_append_right_inj] at hy
  have := List.cons_prefix_cons.mp hy
  apply h
  have e := this.1
  simp only [List.cons.injEq, and_true] at e
  exact Prod.ext e.1.symm e.2.symm

/-! ## `_branch_iterate` -/

section
variable {cfg : BBCfg} {size : Nat → Nat} {out : Finset Nat} {mem : Option Nat} {order : SetOrder} {n : Nat}

theorem branchTrace_state (fuel : Nat) (nd : SearchNode) (sz : Nat) (s : BBSt × List Path) :
    (branchTrace cfg size out mem order fuel nd sz s).map Prod.fst = branchIter cfg size out mem order fuel nd sz s.1 := by
  induction fuel generalizing nd sz s with
  | zero =>
    obtain ⟨st, seen⟩ := s
    rw [branchTrace, branchIter]
    split <;> rfl
  | succ fuel ih =>
    obtain ⟨st, seen⟩ := s
    rw [branchTrace, branchIter]
    split
    · rfl
    · exact foldlM_state (fun s c => ih _ _ s) _ _

theorem assess_fold_pairs (nd : SearchNode) (sz : Nat) (l : List (Nat × Nat)) (acc : List Cand × BBSt) :
    ∃ new, (l.foldl (assessStep cfg size out mem order nd sz) acc).1 = acc.1 ++ new ∧
      (new.map (fun c => (c.i, c.j))).Sublist l := by
  induction l generalizing acc with
  | nil => exact ⟨[], by simp⟩
  | cons x xs ih =>
    rw [List.foldl_cons]
    obtain ⟨new, h1, h2⟩ := ih (assessStep cfg size out mem order nd sz acc x)
    refine ⟨(assess cfg size out mem order nd sz acc.2 x).1.toList ++ new, ?_, ?_⟩
    · rw [h1, assessStep, List.append_assoc]
    · have hk := (assess_kept (cfg := cfg) (size := size) (out := out) (mem := mem) (order := order) nd sz acc.2 x).2
      cases hc : (assess cfg size out mem order nd sz acc.2 x).1 with
      | none => simpa using h2.cons x
      | some c =>
        obtain ⟨_, e1, e2⟩ := hk c hc
        have hx : x = (c.i, c.j) := Prod.ext e1.symm e2.symm
        rw [hx]
        simpa using h2

theorem candidates_pairs (nd : SearchNode) (sz : Nat) (st : BBSt) :
    ((candidates cfg size out mem order nd sz st).1.map (fun c => (c.i, c.j))).Sublist
      ((combinations2 (order nd.path nd.remaining)).map orient) := by
  unfold candidates
  simp only
  generalize (combinations2 (order nd.path nd.remaining)).map orient = pairs
  have hsub : (pairs.filter (fun ij : Nat × Nat => ¬ Disjoint (nd.inputs.getD ij.1 ∅) (nd.inputs.getD ij.2 ∅))).Sublist pairs :=
    List.filter_sublist
  generalize pairs.filter (fun ij : Nat × Nat => ¬ Disjoint (nd.inputs.getD ij.1 ∅) (nd.inputs.getD ij.2 ∅)) = l1 at hsub ⊢
  obtain ⟨n1, a1, a2⟩ := assess_fold_pairs (cfg := cfg) (size := size) (out := out) (mem := mem) (order := order) nd sz l1 ([], st)
  split
  · rename_i hnil
    obtain ⟨n2, b1, b2⟩ := assess_fold_pairs (cfg := cfg) (size := size) (out := out) (mem := mem) (order := order) nd sz pairs
      (l1.foldl (assessStep cfg size out mem order nd sz) ([], st))
    rw [b1, hnil]
    exact b2
  · rw [a1]
    exact a2.trans hsub

theorem visited_pairs {nbranch : Option Nat} {l : List Cand} (h : (l.map (fun c => (c.i, c.j))).Nodup) :
    ((visited nbranch l).map (fun c => (c.i, c.j))).Nodup := by
  have hp : ((l.insertionSort (fun a b => a.le b = true)).map (fun c => (c.i, c.j))).Nodup :=
    ((List.perm_insertionSort _ l).map _).nodup_iff.mpr h
  unfold visited
  cases nbranch with
  | none => exact hp
  | some k => exact hp.sublist ((List.take_sublist k _).map _)

theorem visited_count {nbranch : Option Nat} {l : List Cand} {c : Nat} (h : l.length ≤ c) :
    (visited nbranch l).length ≤ (match nbranch with | none => c | some k => min k c) := by
  have h1 := visited_length nbranch l
  cases nbranch with
  | none => exact h1.trans h
  | some k =>
    refine le_min ?_ (h1.trans h)
    simp [visited]

theorem branchTrace_grows (ho : OrderOK order) (fuel : Nat) (nd : SearchNode) (hnd : GoodPath n nd) (hcard : 0 < nd.remaining.card)
    (sz : Nat) (s s' : BBSt × List Path) (h : branchTrace cfg size out mem order fuel nd sz s = some s') :
    Grows (mostPaths cfg.nbranch nd.remaining.card) (fun p => nd.path <+: p ∧ SsaComplete n p) s.2 s'.2 := by
  have hleaf : ∀ (st : BBSt) (seen : List Path), nd.remaining.card = 1 →
      Grows (mostPaths cfg.nbranch nd.remaining.card) (fun p => nd.path <+: p ∧ SsaComplete n p) seen (seen ++ [nd.path]) := by
    intro st seen h1
    refine ⟨[nd.path], rfl, ?_, by simp, ?_⟩
    · rw [h1]; simp [mostPaths]
    · intro p hp
      rw [List.mem_singleton] at hp
      subst hp
      exact ⟨List.prefix_refl _, hnd.complete h1⟩
  induction fuel generalizing nd sz s s' with
  | zero =>
    obtain ⟨st, seen⟩ := s
    rw [branchTrace] at h
    split at h
    · rename_i h1
      cases h
      exact hleaf st seen h1
    · cases h
  | succ fuel ih =>
    obtain ⟨st, seen⟩ := s
    rw [branchTrace] at h
    split at h
    · rename_i h1
      cases h
      exact hleaf st seen h1
    rename_i h1
    simp only at h
    obtain ⟨m, hm⟩ : ∃ m, nd.remaining.card = m + 2 := ⟨nd.remaining.card - 2, by omega⟩
    have hpairs := candidates_pairs (cfg := cfg) (size := size) (out := out) (mem := mem) (order := order) nd sz st
    have b2 := (candidates_kept (cfg := cfg) (size := size) (out := out) (mem := mem) ho nd sz st).2.1
    generalize candidates cfg size out mem order nd sz st = r at hpairs b2 h
    obtain ⟨cands, t⟩ := r
    simp only at hpairs b2 h
    have hnd' : (cands.map (fun c => (c.i, c.j))).Nodup := (orient_pairwise (ho nd.path nd.remaining).1).sublist hpairs
    have hlen : cands.length ≤ (m + 2).choose 2 := by
      have := hpairs.length_le
      rw [List.length_map, List.length_map, combinations2_length, order_length ho, hm] at this
      exact this
    have key := foldlM_grows (P := fun (c : Cand) p => nd.path ++ [[c.i, c.j]] <+: p ∧ SsaComplete n p) (b := mostPaths cfg.nbranch (m + 1))
      (visited cfg.nbranch cands) ?_ ?_ _ _ h
    · refine key.mono ?_ ?_
      · rw [hm, mostPaths_succ]
        exact Nat.mul_le_mul_right _ (visited_count hlen)
      · rintro p ⟨c, _, hp, hc⟩
        exact ⟨(List.prefix_append _ _).trans hp, hc⟩
    · have := visited_pairs (nbranch := cfg.nbranch) hnd'
      rw [List.Nodup, List.pairwise_map] at this
      refine this.imp ?_
      intro a b hab p hp hp'
      exact prefix_disjoint hab p hp.1 hp'.1
    · intro u u' c hc hr
      obtain ⟨hi, hj, hij⟩ := b2 c (mem_visited hc)
      have hcc := child_remaining_card hnd hi hj hij c.k12 c.newFlops
      have hc1 : (nd.child c.i c.j c.k12 c.newFlops).remaining.card = m + 1 := by omega
      have hg := goodPath_child hnd hi hj hij c.k12 c.newFlops
      have := ih _ hg (by omega) c.newSize u u' hr ?_
      · rw [hc1] at this
        exact this
      · intro st seen h1
        refine ⟨[(nd.child c.i c.j c.k12 c.newFlops).path], rfl, ?_, by simp, ?_⟩
        · rw [h1]; simp [mostPaths]
        · intro p hp
          rw [List.mem_singleton] at hp
          subst hp
          exact ⟨List.prefix_refl _, hg.complete h1⟩

/-- The best path is one of the list. -/
def Known (s : BBSt × List Path) : Prop := ∀ p, s.1.path = some p → p ∈ s.2

theorem assess_path_kept (nd : SearchNode) (sz : Nat) (st : BBSt) (ij : Nat × Nat) :
    (assess cfg size out none order nd sz st ij).2.path = st.path := by
  unfold assess
  simp only
  split
  · cases progressStep cfg.cutoff st.progress nd.inputs.length _ with
    | none => rfl
    | some p' => simp [assessFit]
  · rfl

theorem assess_fold_path (nd : SearchNode) (sz : Nat) (l : List (Nat × Nat)) (acc : List Cand × BBSt) :
    (l.foldl (assessStep cfg size out none order nd sz) acc).2.path = acc.2.path := by
  induction l generalizing acc with
  | nil => rfl
  | cons x xs ih =>
    rw [List.foldl_cons, ih]
    exact assess_path_kept nd sz acc.2 x

theorem candidates_path (nd : SearchNode) (sz : Nat) (st : BBSt) : (candidates cfg size out none order nd sz st).2.path = st.path := by
  unfold candidates
  simp only
  split
  · rw [assess_fold_path, assess_fold_path]
  · rw [assess_fold_path]

theorem branchTrace_known (fuel : Nat) (nd : SearchNode) (sz : Nat) (s s' : BBSt × List Path) (hs : Known s)
    (h : branchTrace cfg size out none order fuel nd sz s = some s') : Known s' := by
  induction fuel generalizing nd sz s s' with
  | zero =>
    obtain ⟨st, seen⟩ := s
    rw [branchTrace] at h
    split at h
    · cases h
      intro p hp; cases hp; simp
    · cases h
  | succ fuel ih =>
    obtain ⟨st, seen⟩ := s
    rw [branchTrace] at h
    split at h
    · cases h
      intro p hp; cases hp; simp
    · refine foldlM_keeps _ (fun u u' c _ hu hr => ih _ _ u u' hu hr) _ _ ?_ h
      intro p hp
      exact hs p (by rw [← candidates_path]; exact hp)

end

/-! ## `_optimal_iterate` -/

section
variable {size : Nat → Nat} {out : Finset Nat} {mem : Option Nat} {order : SetOrder} {n : Nat}

theorem optTrace_state (fuel : Nat) (nd : SearchNode) (s : OptSt × List Path) :
    (optTrace size out mem order fuel nd s).map Prod.fst = optIter size out mem order fuel nd s.1 := by
  induction fuel generalizing nd s with
  | zero =>
    obtain ⟨st, seen⟩ := s
    rw [optTrace, optIter]
    split <;> rfl
  | succ fuel ih =>
    obtain ⟨st, seen⟩ := s
    rw [optTrace, optIter]
    split
    · rfl
    · refine foldlM_state (fun s x => ?_) _ _
      unfold optTraceBody optBody
      simp only
      split
      · cases mem with
        | none => exact ih _ _
        | some m =>
          simp only
          split
          · split <;> rfl
          · exact ih _ _
      · rfl

theorem optTrace_grows (ho : OrderOK order) (fuel : Nat) (nd : SearchNode) (hnd : GoodPath n nd) (hcard : 0 < nd.remaining.card)
    (s s' : OptSt × List Path) (h : optTrace size out mem order fuel nd s = some s') :
    Grows (mostPaths none nd.remaining.card) (fun p => nd.path <+: p ∧ SsaComplete n p) s.2 s'.2 := by
  have hleaf : ∀ (nd : SearchNode), GoodPath n nd → ∀ (seen : List Path), nd.remaining.card = 1 →
      Grows (mostPaths none nd.remaining.card) (fun p => nd.path <+: p ∧ SsaComplete n p) seen (seen ++ [nd.path]) := by
    intro nd hnd seen h1
    refine ⟨[nd.path], rfl, ?_, by simp, ?_⟩
    · rw [h1]; simp [mostPaths]
    · intro p hp
      rw [List.mem_singleton] at hp
      subst hp
      exact ⟨List.prefix_refl _, hnd.complete h1⟩
  induction fuel generalizing nd s s' with
  | zero =>
    obtain ⟨st, seen⟩ := s
    rw [optTrace] at h
    split at h
    · rename_i h1
      cases h
      exact hleaf nd hnd seen h1
    · cases h
  | succ fuel ih =>
    obtain ⟨st, seen⟩ := s
    rw [optTrace] at h
    split at h
    · rename_i h1
      cases h
      exact hleaf nd hnd seen h1
    rename_i h1
    obtain ⟨m, hm⟩ : ∃ m, nd.remaining.card = m + 2 := ⟨nd.remaining.card - 2, by omega⟩
    have key := foldlM_grows (P := fun (x : Nat × Nat) p => nd.path ++ [[(orient x).1, (orient x).2]] <+: p ∧ SsaComplete n p)
      (b := mostPaths none (m + 1)) (combinations2 (order nd.path nd.remaining)) ?_ ?_ _ _ h
    · refine key.mono ?_ ?_
      · rw [hm, mostPaths, combinations2_length, order_length ho, hm]
      · rintro p ⟨c, _, hp, hc⟩
        exact ⟨(List.prefix_append _ _).trans hp, hc⟩
    · have := orient_pairwise (ho nd.path nd.remaining).1
      rw [List.Nodup, List.pairwise_map] at this
      refine this.imp ?_
      intro a b hab p hp hp'
      exact prefix_disjoint hab p hp.1 hp'.1
    · intro u u' x hx hr
      obtain ⟨hi, hj, hij⟩ := pair_of_order ho hx
      have hrec : ∀ k f (t : OptSt), optTrace size out mem order fuel (nd.child (orient x).1 (orient x).2 k f) (t, u.2) = some u' →
          Grows (mostPaths none (m + 1)) (fun p => nd.path ++ [[(orient x).1, (orient x).2]] <+: p ∧ SsaComplete n p) u.2 u'.2 := by
        intro k f t ht
        have hcc := child_remaining_card hnd hi hj hij k f
        have hc1 : (nd.child (orient x).1 (orient x).2 k f).remaining.card = m + 1 := by omega
        have := ih _ (goodPath_child hnd hi hj hij k f) (by omega) _ _ ht
        rw [hc1] at this
        exact this
      have hstay : ∀ (t : OptSt), some (t, u.2) = some u' →
          Grows (mostPaths none (m + 1)) (fun p => nd.path ++ [[(orient x).1, (orient x).2]] <+: p ∧ SsaComplete n p) u.2 u'.2 := by
        intro t ht
        cases ht
        exact (Grows.refl _ _).mono (Nat.zero_le _) (fun _ h => h)
      unfold optTraceBody at hr
      simp only at hr
      split at hr
      · cases mem with
        | none => exact hrec _ _ _ hr
        | some M =>
          simp only at hr
          split at hr
          · split at hr <;> exact hstay _ hr
          · exact hrec _ _ _ hr
      · exact hstay _ hr

end

/-! ## The theorems -/

/-- **C95.** Whatever the state of the instance, a call of `BranchBound` follows to the end at most
`mostPaths nbranch n` paths, no path twice, all of them complete. Without a memory limit the path that a new instance returns
is one of them. -/
theorem C95_branch {cfg : BBCfg} {fuel : Nat} {size : Nat → Nat} {mem : Option Nat} {order : SetOrder} (ho : OrderOK order)
    {inputs : List (Finset Nat)} (hne : inputs ≠ []) {output : Finset Nat} {st st' : BBSt}
    (h : branchIter cfg size output mem order fuel (rootNode inputs) 0 st = some st') :
    ∃ seen, branchTrace cfg size output mem order fuel (rootNode inputs) 0 (st, []) = some (st', seen) ∧ seen.Nodup ∧
      (∀ p ∈ seen, SsaComplete inputs.length p) ∧ seen.length ≤ mostPaths cfg.nbranch inputs.length ∧
      (mem = none → st.path = none → ∀ p, st'.path = some p → p ∈ seen) := by
  have hs := branchTrace_state (cfg := cfg) (size := size) (out := output) (mem := mem) (order := order) fuel (rootNode inputs) 0 (st, [])
  rw [h] at hs
  obtain ⟨⟨t, seen⟩, ht, e⟩ := Option.map_eq_some_iff.mp hs
  have e' : t = st' := e
  subst e'
  have hn : 0 < inputs.length := List.length_pos_iff.mpr hne
  have hc : (rootNode inputs).remaining.card = inputs.length := by simp [rootNode]
  obtain ⟨new, g1, g2, g3, g4⟩ := branchTrace_grows ho fuel _ (goodPath_root inputs) (by omega) 0 _ _ ht
  have g1' : seen = new := by simpa using g1
  subst g1'
  refine ⟨seen, ht, g3, fun p hp => (g4 p hp).2, by rw [← hc]; exact g2, ?_⟩
  rintro rfl hst
  exact branchTrace_known fuel _ 0 (st, []) (t, seen) (fun p hp => by simp only [hst] at hp; cases hp) ht

/-- **C95.** The same for `optimal`, which has no limit on the pairs tried. -/
theorem C95_optimal {fuel : Nat} {size : Nat → Nat} {mem : Option Nat} {order : SetOrder} (ho : OrderOK order)
    {inputs : List (Finset Nat)} (hne : inputs ≠ []) {output : Finset Nat} {st' : OptSt}
    (h : optimalSsa fuel size mem order inputs output = some st') :
    ∃ seen, optTrace size output mem order fuel (rootNode inputs)
        ({ bestFlops := ⊤, bestPath := [List.range inputs.length], cache := [] }, []) = some (st', seen) ∧ seen.Nodup ∧
      (∀ p ∈ seen, SsaComplete inputs.length p) ∧ seen.length ≤ mostPaths none inputs.length := by
  have hs := optTrace_state (size := size) (out := output) (mem := mem) (order := order) fuel (rootNode inputs)
    ({ bestFlops := ⊤, bestPath := [List.range inputs.length], cache := [] }, [])
  unfold optimalSsa at h
  rw [h] at hs
  obtain ⟨⟨t, seen⟩, ht, e⟩ := Option.map_eq_some_iff.mp hs
  have e' : t = st' := e
  subst e'
  have hn : 0 < inputs.length := List.length_pos_iff.mpr hne
  have hc : (rootNode inputs).remaining.card = inputs.length := by simp [rootNode]
  obtain ⟨new, g1, g2, g3, g4⟩ := optTrace_grows ho fuel _ (goodPath_root inputs) (by omega) _ _ ht
  have g1' : seen = new := by simpa using g1
  subst g1'
  exact ⟨seen, ht, g3, fun p hp => (g4 p hp).2, by rw [← hc]; exact g2⟩

/-- **C95.** The closed forms: for `branch-k` at most `k ^ (n - 2)` paths, so no more than the `2 ^ n` of the documentation for
`branch-2` and one for `branch-1`; for `branch-all` and `optimal` at most `n! (n - 1)! / 2 ^ (n - 1)`. -/
theorem C95_bounds :
    (∀ k n, 2 ≤ n → mostPaths (some k) n ≤ k ^ (n - 2)) ∧ (∀ n, 2 ≤ n → mostPaths (some 2) n ≤ 2 ^ n) ∧
    (∀ n, mostPaths (some 1) n ≤ 1) ∧
    (∀ n, 1 ≤ n → mostPaths none n * 2 ^ (n - 1) = n.factorial * (n - 1).factorial) := by
  have hk : ∀ k n, 2 ≤ n → mostPaths (some k) n ≤ k ^ (n - 2) := by
    intro k n hn
    obtain ⟨m, rfl⟩ : ∃ m, n = m + 2 := ⟨n - 2, by omega⟩
    exact mostPaths_le_pow k m
  refine ⟨hk, fun n hn => (hk 2 n hn).trans (Nat.pow_le_pow_right (by omega) (by omega)), fun n => ?_, fun n hn => ?_⟩
  · match n with
    | 0 => simp [mostPaths]
    | 1 => simp [mostPaths]
    | m + 2 => simpa using hk 1 (m + 2) (by omega)
  · obtain ⟨m, rfl⟩ : ∃ m, n = m + 1 := ⟨n - 1, by omega⟩
    exact mostPaths_all m

/-! ### Examples -/

/-- `ab,bc,cd,de->ae`. -/
def c95Chain : List (Finset Nat) := [{1, 2}, {2, 3}, {3, 4}, {4, 5}]

/-- Dimensions 6, 5, 4, 3, 2. -/
def c95Size (i : Nat) : Nat := 7 - i

-- C95: on four matrices `branch-2` follows four paths to the end, as many as the bound allows
example : (branchTrace (bbDefault (some 2)) c95Size {1, 5} none ascending 4 (rootNode c95Chain) 0 (BBSt.fresh, [])).map Prod.snd =
    some [[[0, 1], [2, 4], [3, 5]], [[0, 1], [2, 3], [4, 5]], [[1, 2], [0, 4], [3, 5]], [[1, 2], [3, 4], [0, 5]]] ∧
    mostPaths (some 2) 4 = 4 := by
  decide +kernel

-- C95: `branch-1` follows one, `optimal` four of the eighteen
example : (branchTrace (bbDefault (some 1)) c95Size {1, 5} none ascending 4 (rootNode c95Chain) 0 (BBSt.fresh, [])).map Prod.snd =
    some [[[0, 1], [2, 4], [3, 5]]] ∧
    (optTrace c95Size {1, 5} none ascending 4 (rootNode c95Chain) ({ bestFlops := ⊤, bestPath := [List.range 4], cache := [] }, [])).map
      (fun r => r.2.length) = some 4 ∧ mostPaths none 4 = 18 := by
  decide +kernel

-- C95: the hypothesis of the theorem holds there
example : (branchIter (bbDefault (some 2)) c95Size {1, 5} none ascending 4 (rootNode c95Chain) 0 BBSt.fresh).isSome = true := by
  decide +kernel

end OE.Props
