import Verif.Model.Greedy
import Verif.Lemmas.SearchNode
import Verif.Spec.Search
import Verif.Lemmas.DictLemmas

/-! The state of the greedy search: dictionaries as bags, legal prefixes of ssa paths, the invariant of the main loop. -/

namespace OE.Py

variable {κ ν : Type} [DecidableEq κ]

/-- The values of a dictionary. -/
def Dict.vals (d : Dict κ ν) : List ν := d.map Prod.snd

theorem Dict.get?_eq_none {d : Dict κ ν} {k : κ} : d.get? k = none ↔ k ∉ d.keys := by
  induction d with
  | nil => simp [Dict.get?, Dict.keys]
  | cons p d ih =>
    obtain ⟨a, b⟩ := p
    simp only [Dict.get?, Dict.keys, List.map_cons, List.mem_cons]
    by_cases h : a = k
    · simp [h]
    · rw [if_neg h]
      have : ¬ k = a := fun e => h e.symm
      simpa [this, Dict.keys] using ih

theorem Dict.mem_keys {d : Dict κ ν} {k : κ} : k ∈ d.keys ↔ ∃ v, d.get? k = some v := by
  constructor
  · intro h
    cases hg : d.get? k with
    | none => exact absurd h (Dict.get?_eq_none.mp hg)
    | some v => exact ⟨v, rfl⟩
  · rintro ⟨v, hv⟩
    by_contra h
    rw [Dict.get?_eq_none.mpr h] at hv
    cases hv

theorem Dict.has_iff {d : Dict κ ν} {k : κ} : d.has k = true ↔ k ∈ d.keys := by
  rw [Dict.mem_keys, Dict.has, Option.isSome_iff_exists]

theorem Dict.del_of_notMem {d : Dict κ ν} {k : κ} (h : k ∉ d.keys) : d.del k = d := by
  apply List.filter_eq_self.mpr
  intro p hp
  simp only [ne_eq, decide_eq_true_eq]
  intro e
  exact h (List.mem_map.mpr ⟨p, hp, e⟩)

theorem Dict.keys_del (d : Dict κ ν) (k : κ) : (d.del k).keys = d.keys.filter (· ≠ k) := by
  simp only [Dict.del, Dict.keys, List.filter_map]
  rfl

theorem Dict.mem_keys_del {d : Dict κ ν} {k k' : κ} : k' ∈ (d.del k).keys ↔ k' ∈ d.keys ∧ k' ≠ k := by
  rw [Dict.keys_del]; simp

theorem Dict.keys_del_nodup {d : Dict κ ν} (h : d.keys.Nodup) (k : κ) : (d.del k).keys.Nodup := by
  rw [Dict.keys_del]; exact h.filter _

theorem Dict.get?_del_ne {d : Dict κ ν} {k k' : κ} (h : k' ≠ k) : (d.del k).get? k' = d.get? k' := by
  induction d with
  | nil => rfl
  | cons p d ih =>
    obtain ⟨a, b⟩ := p
    simp only [Dict.del, List.filter_cons]
    by_cases ha : a = k
    · subst ha
      simp only [ne_eq, not_true_eq_false, decide_false, Bool.false_eq_true, if_false]
      rw [Dict.get?, if_neg (fun e => h e.symm)]
      exact ih
    · simp only [ne_eq, ha, not_false_eq_true, decide_true, if_true]
      simp only [Dict.get?]
      split
      · rfl
      · exact ih

/-- Taking an entry out. -/
theorem Dict.perm_del {d : Dict κ ν} (hd : d.keys.Nodup) {k : κ} {v : ν} (h : d.get? k = some v) : d.Perm ((k, v) :: d.del k) := by
  induction d with
  | nil => simp [Dict.get?] at h
  | cons p d ih =>
    obtain ⟨a, b⟩ := p
    simp only [Dict.keys, List.map_cons, List.nodup_cons] at hd
    simp only [Dict.get?] at h
    by_cases ha : a = k
    · subst ha
      rw [if_pos rfl] at h
      cases h
      have : Dict.del ((a, v) :: d) a = d := by
        simp only [Dict.del, List.filter_cons, ne_eq, not_true_eq_false, decide_false, Bool.false_eq_true, if_false]
        exact Dict.del_of_notMem hd.1
      rw [this]
    · rw [if_neg ha] at h
      have : Dict.del ((a, b) :: d) k = (a, b) :: Dict.del d k := by
        simp [Dict.del, ha]
      rw [this]
      exact ((ih hd.2 h).cons _).trans (List.Perm.swap _ _ _)

theorem Dict.set_of_notMem {d : Dict κ ν} {k : κ} (h : k ∉ d.keys) (v : ν) : d.set k v = d ++ [(k, v)] := by
  induction d with
  | nil => rfl
  | cons p d ih =>
    obtain ⟨a, b⟩ := p
    simp only [Dict.keys, List.map_cons, List.mem_cons, not_or] at h
    simp only [Dict.set]
    rw [if_neg (fun e => h.1 e.symm), ih h.2]
    rfl

/-- Storing an entry, old or new. -/
theorem Dict.perm_set {d : Dict κ ν} (hd : d.keys.Nodup) (k : κ) (v : ν) : (d.set k v).Perm ((k, v) :: d.del k) := by
  induction d with
  | nil => simp [Dict.set, Dict.del]
  | cons p d ih =>
    obtain ⟨a, b⟩ := p
    simp only [Dict.keys, List.map_cons, List.nodup_cons] at hd
    simp only [Dict.set]
    by_cases ha : a = k
    · subst ha
      rw [if_pos rfl]
      have : Dict.del ((a, b) :: d) a = d := by
        simp only [Dict.del, List.filter_cons, ne_eq, not_true_eq_false, decide_false, Bool.false_eq_true, if_false]
        exact Dict.del_of_notMem hd.1
      rw [this]
    · rw [if_neg ha]
      have : Dict.del ((a, b) :: d) k = (a, b) :: Dict.del d k := by
        simp [Dict.del, ha]
      rw [this]
      exact ((ih hd.2).cons _).trans (List.Perm.swap _ _ _)

theorem Dict.mem_keys_set {d : Dict κ ν} (hd : d.keys.Nodup) {k k' : κ} {v : ν} : k' ∈ (d.set k v).keys ↔ k' = k ∨ k' ∈ d.keys := by
  have := ((Dict.perm_set hd k v).map Prod.fst).mem_iff (a := k')
  simp only [Dict.keys] at this ⊢
  rw [this]
  simp only [List.map_cons, List.mem_cons]
  have h2 := Dict.mem_keys_del (d := d) (k := k) (k' := k')
  simp only [Dict.keys] at h2
  rw [h2]
  by_cases h : k' = k <;> simp [h]

theorem Dict.keys_set_nodup {d : Dict κ ν} (hd : d.keys.Nodup) (k : κ) (v : ν) : (d.set k v).keys.Nodup := by
  have hp := (Dict.perm_set hd k v).map Prod.fst
  rw [Dict.keys, hp.nodup_iff]
  simp only [List.map_cons, List.nodup_cons]
  exact ⟨fun h => (Dict.mem_keys_del.mp h).2 rfl, Dict.keys_del_nodup hd k⟩

end OE.Py

namespace OE.Paths
open OE OE.Py OE.Spec

/-! ## Heaps -/

theorem popMin_perm {α : Type} {le : α → α → Bool} {l : List α} {a : α} {r : List α} (h : popMin le l = some (a, r)) : l.Perm (a :: r) := by
  induction l generalizing a r with
  | nil => simp [popMin] at h
  | cons x l ih =>
    simp only [popMin] at h
    cases hp : popMin le l with
    | none =>
      rw [hp] at h
      simp only at h
      cases h
      cases l with
      | nil => rfl
      | cons y l =>
        simp only [popMin] at hp
        split at hp
        · cases hp
        · split at hp <;> cases hp
    | some br =>
      obtain ⟨b, r'⟩ := br
      rw [hp] at h
      simp only at h
      split at h
      · cases h; rfl
      · cases h
        exact ((ih hp).cons x).trans (List.Perm.swap _ _ _)

theorem popMin_ne_none {α : Type} {le : α → α → Bool} {l : List α} (h : l ≠ []) : ∃ a r, popMin le l = some (a, r) := by
  cases l with
  | nil => exact absurd rfl h
  | cons x l =>
    simp only [popMin]
    split
    · exact ⟨_, _, rfl⟩
    · split
      · exact ⟨_, _, rfl⟩
      · exact ⟨_, _, rfl⟩

/-! ## Prefixes of ssa paths -/

/-- A legal beginning of an ssa path for `n` inputs, after which the tensors `live` remain and `next` is the next id. -/
structure Prefix (n : Nat) (live : List Nat) (next : Nat) (path : Path) : Prop where
  nodup : live.Nodup
  lt : ∀ i ∈ live, i < next
  valid : ∀ rest, SsaValid live.toFinset next rest → SsaValid (Finset.range n) n (path ++ rest)
  count : (path.map List.length).sum + live.length = n + path.length
  pairs : Pairwise2 path

theorem prefix_nil (n : Nat) : Prefix n (List.range n) n [] := by
  refine ⟨List.nodup_range, fun i hi => by simpa using hi, fun rest h => ?_, by simp, by simp [Pairwise2]⟩
  have : (List.range n).toFinset = Finset.range n := by ext; simp
  rw [this] at h
  simpa using h

theorem Prefix.perm {n : Nat} {live live' : List Nat} {next : Nat} {path : Path} (h : Prefix n live next path) (hp : live.Perm live') :
    Prefix n live' next path := by
  refine ⟨hp.nodup_iff.mp h.nodup, fun i hi => h.lt i (hp.mem_iff.mpr hi), fun rest hr => h.valid rest ?_, ?_, h.pairs⟩
  · rwa [List.toFinset_eq_of_perm _ _ hp]
  · rw [← hp.length_eq]; exact h.count

theorem Prefix.step {n a b : Nat} {live : List Nat} {next : Nat} {path : Path} (h : Prefix n (a :: b :: live) next path) :
    Prefix n (next :: live) (next + 1) (path ++ [[a, b]]) := by
  have hnd := h.nodup
  simp only [List.nodup_cons, List.mem_cons, not_or] at hnd
  have hlt : ∀ i ∈ live, i < next := fun i hi => h.lt i (by simp [hi])
  refine ⟨?_, ?_, ?_, ?_, ?_⟩
  · rw [List.nodup_cons]
    exact ⟨fun hm => by have := hlt _ hm; omega, hnd.2.2⟩
  · intro i hi
    rcases List.mem_cons.mp hi with rfl | hi
    · omega
    · have := hlt i hi; omega
  · intro rest hr
    rw [List.append_assoc, List.singleton_append]
    apply h.valid
    refine ⟨by simp, by simpa using hnd.1.1, ?_, ?_⟩
    · intro x hx
      simp only [List.mem_cons, List.not_mem_nil, or_false] at hx
      simp only [List.toFinset_cons, Finset.mem_insert]
      tauto
    · convert hr using 1
      ext x
      simp only [List.toFinset_cons, List.toFinset_nil, Finset.mem_insert, Finset.mem_sdiff, List.mem_toFinset]
      constructor
      · rintro (h0 | ⟨h1, h2⟩)
        · exact Or.inl h0
        · simp only [Finset.notMem_empty, or_false] at h2
          tauto
      · rintro (h0 | h1)
        · exact Or.inl h0
        · refine Or.inr ⟨by tauto, ?_⟩
          simp only [Finset.notMem_empty, or_false]
          rintro (rfl | rfl)
          · exact hnd.1.2 h1
          · exact hnd.2.1 h1
  · have := h.count
    simp only [List.length_cons, List.map_append, List.map_cons, List.map_nil, List.sum_append, List.sum_cons, List.sum_nil,
      List.length_append, List.length_nil] at this ⊢
    omega
  · intro p hp
    rcases List.mem_append.mp hp with hp | hp
    · exact h.pairs p hp
    · rw [List.mem_singleton] at hp
      subst hp
      rfl

theorem Prefix.complete {n a next : Nat} {path : Path} (h : Prefix n [a] next path) : SsaComplete n path ∧ Pairwise2 path := by
  refine ⟨⟨by simpa using h.valid [] trivial, ?_⟩, h.pairs⟩
  have := h.count
  simpa using this

/-! ## Deduplication -/

theorem dedup_inv {n : Nat} (ks : List (Finset Nat)) (i : Nat) (st : GSt) (hk : st.remaining.keys.Nodup)
    (hp : Prefix n ((Dict.vals st.remaining) ++ List.range' i ks.length) st.next st.path) :
    (dedupLoop ks i st).remaining.keys.Nodup ∧
    Prefix n (Dict.vals (dedupLoop ks i st).remaining) (dedupLoop ks i st).next (dedupLoop ks i st).path ∧
    (dedupLoop ks i st).queue = st.queue ∧ (dedupLoop ks i st).dimKeys = st.dimKeys ∧
    (ks ≠ [] ∨ st.remaining ≠ [] → (dedupLoop ks i st).remaining ≠ []) := by
  induction ks generalizing i st with
  | nil =>
    refine ⟨hk, by simpa [dedupLoop] using hp, rfl, rfl, ?_⟩
    rintro (h | h)
    · exact absurd rfl h
    · exact h
  | cons key ks ih =>
    simp only [dedupLoop]
    have hstep : (dedupStep st key i).remaining.keys.Nodup ∧
        Prefix n (Dict.vals (dedupStep st key i).remaining ++ List.range' (i + 1) ks.length) (dedupStep st key i).next (dedupStep st key i).path ∧
        (dedupStep st key i).queue = st.queue ∧ (dedupStep st key i).dimKeys = st.dimKeys ∧ (dedupStep st key i).remaining ≠ [] := by
      have hne : ∀ v, st.remaining.set key v ≠ [] := by
        intro v h0
        have := (Dict.perm_set hk key v).length_eq
        rw [h0] at this
        simp at this
      unfold dedupStep
      rw [List.length_cons, List.range'_succ] at hp
      cases hg : st.remaining.get? key with
      | none =>
        refine ⟨Dict.keys_set_nodup hk _ _, ?_, rfl, rfl, hne _⟩
        simp only
        rw [Dict.set_of_notMem (Dict.get?_eq_none.mp hg)]
        simpa [Dict.vals] using hp
      | some id =>
        refine ⟨Dict.keys_set_nodup hk _ _, ?_, rfl, rfl, hne _⟩
        simp only
        have h1 : ((Dict.vals st.remaining) ++ i :: List.range' (i + 1) ks.length).Perm
            (id :: i :: (Dict.vals (st.remaining.del key) ++ List.range' (i + 1) ks.length)) := by
          refine (((Dict.perm_del hk hg).map Prod.snd).append_right _).trans ?_
          simp only [List.map_cons, List.cons_append]
          refine List.Perm.cons _ ?_
          exact List.perm_middle
        refine ((hp.perm h1).step).perm ?_
        exact (((Dict.perm_set hk key st.next).map Prod.snd).append_right _).symm
    obtain ⟨h1, h2, h3, h4, h5⟩ := hstep
    obtain ⟨g1, g2, g3, g4, g5⟩ := ih (i + 1) _ h1 h2
    exact ⟨g1, g2, g3.trans h3, g4.trans h4, fun _ => g5 (Or.inr h5)⟩

/-! ## The labels of the remaining terms -/

/-- `dimKeys d` are the remaining terms with the label `d`, for labels that are not in the output. -/
def DimsOK (output : Finset Nat) (dimKeys : Nat → Finset (Finset Nat)) (keys : List (Finset Nat)) : Prop :=
  ∀ d k, k ∈ dimKeys d ↔ d ∉ output ∧ d ∈ k ∧ k ∈ keys

theorem dimsOK_add {output key : Finset Nat} {dimKeys : Nat → Finset (Finset Nat)} {keys keys' : List (Finset Nat)}
    (h : DimsOK output dimKeys keys) (hk : ∀ k, k ∈ keys' ↔ k = key ∨ k ∈ keys) : DimsOK output (addKey dimKeys output key) keys' := by
  intro d k
  unfold addKey
  rw [hk]
  split
  · rename_i hd
    rw [Finset.mem_sdiff] at hd
    rw [Finset.mem_insert, h]
    constructor
    · rintro (rfl | h1)
      · exact ⟨hd.2, hd.1, Or.inl rfl⟩
      · exact ⟨h1.1, h1.2.1, Or.inr h1.2.2⟩
    · rintro ⟨h1, h2, rfl | h3⟩
      · exact Or.inl rfl
      · exact Or.inr ⟨h1, h2, h3⟩
  · rename_i hd
    rw [Finset.mem_sdiff] at hd
    rw [h]
    constructor
    · rintro ⟨h1, h2, h3⟩; exact ⟨h1, h2, Or.inr h3⟩
    · rintro ⟨h1, h2, rfl | h3⟩
      · exact absurd ⟨h2, h1⟩ hd
      · exact ⟨h1, h2, h3⟩

theorem dimsOK_foldl {output : Finset Nat} (l keys : List (Finset Nat)) (dimKeys : Nat → Finset (Finset Nat)) (h : DimsOK output dimKeys keys) :
    DimsOK output (l.foldl (fun d key => addKey d output key) dimKeys) (keys ++ l) := by
  induction l generalizing keys dimKeys with
  | nil => simpa using h
  | cons k l ih =>
    rw [List.foldl_cons]
    have := ih (keys ++ [k]) (addKey dimKeys output k) (dimsOK_add h (by intro x; simp [or_comm]))
    simpa using this

theorem dimsOK_remove {output key : Finset Nat} {dimKeys : Nat → Finset (Finset Nat)} {keys keys' : List (Finset Nat)}
    (h : DimsOK output dimKeys keys) (hm : key ∈ keys) (hk : ∀ k, k ∈ keys' ↔ k ∈ keys ∧ k ≠ key) :
    ∃ dk, removeKey dimKeys output key = .ok dk ∧ DimsOK output dk keys' := by
  unfold removeKey
  rw [if_pos]
  · refine ⟨_, rfl, ?_⟩
    intro d k
    simp only
    rw [hk]
    split
    · rw [Finset.mem_erase, h]; tauto
    · rename_i hd
      rw [Finset.mem_sdiff] at hd
      rw [h]
      constructor
      · rintro ⟨h1, h2, h3⟩
        refine ⟨h1, h2, h3, ?_⟩
        rintro rfl
        exact hd ⟨h2, h1⟩
      · rintro ⟨h1, h2, h3, _⟩; exact ⟨h1, h2, h3⟩
  · intro d hd
    rw [Finset.mem_sdiff] at hd
    rw [h]
    exact ⟨hd.2, hd.1, hm⟩

/-! ## Candidates -/

/-- The id of a remaining term. -/
def idOf (remaining : Dict (Finset Nat) Nat) (k : Finset Nat) : Nat := (remaining.get? k).getD 0

/-- The candidate for two remaining terms. -/
def candOf (cfg : GCfg) (st : GSt) (seed : Path) (k1 k2 : Finset Nat) : GCand :=
  let k12 := ((k1 ∪ k2) ∩ cfg.output) ∪ ((k1 ∩ k2) ∩ st.ref3) ∪ (((k1 ∪ k2) \ (k1 ∩ k2)) ∩ st.ref2)
  let cost := cfg.cost seed (Paths.sizeOf cfg.size k12) (Paths.sizeOf cfg.size k1) (Paths.sizeOf cfg.size k2) k12 k1 k2
  if idOf st.remaining k1 > idOf st.remaining k2 then
    { cost, id2 := idOf st.remaining k1, id1 := idOf st.remaining k2, k1 := k2, k2 := k1, k12 }
  else { cost, id2 := idOf st.remaining k2, id1 := idOf st.remaining k1, k1, k2, k12 }

theorem getCandidate_eq (cfg : GCfg) (st : GSt) (seed : Path) {k1 k2 : Finset Nat} (h1 : k1 ∈ st.remaining.keys) (h2 : k2 ∈ st.remaining.keys) :
    getCandidate cfg st seed k1 k2 = .ok (candOf cfg st seed k1 k2) := by
  obtain ⟨a, ha⟩ := Dict.mem_keys.mp h1
  obtain ⟨b, hb⟩ := Dict.mem_keys.mp h2
  unfold getCandidate candOf idOf
  simp only [Dict.get!, ha, hb, bind, Except.bind, Option.getD_some]
  split <;> rfl

theorem candOf_ne {cfg : GCfg} {st : GSt} {seed : Path} {k1 k2 : Finset Nat} (h : k1 ≠ k2) :
    (candOf cfg st seed k1 k2).k1 ≠ (candOf cfg st seed k1 k2).k2 := by
  unfold candOf
  simp only
  split
  · exact h.symm
  · exact h

theorem mapM_ok_map {α β : Type} {f : α → Except PyErr β} {g : α → β} {l : List α} (h : ∀ x ∈ l, f x = .ok (g x)) :
    l.mapM f = .ok (l.map g) := by
  induction l with
  | nil => rfl
  | cons x l ih =>
    rw [List.mapM_cons, h x (by simp), ih (fun y hy => h y (by simp [hy]))]
    rfl

/-- The candidates that `_push_candidate` looks at. -/
def candsOf (cfg : GCfg) (st : GSt) (k1 : Finset Nat) (k2s : List (Finset Nat)) : List GCand :=
  k2s.zipIdx.map (fun p => candOf cfg st (st.path ++ [[st.queue.length, p.2]]) k1 p.1)

theorem mem_candsOf {cfg : GCfg} {st : GSt} {k1 : Finset Nat} {k2s : List (Finset Nat)} {c : GCand} (h : c ∈ candsOf cfg st k1 k2s) :
    ∃ seed, ∃ k2 ∈ k2s, c = candOf cfg st seed k1 k2 := by
  obtain ⟨p, hp, rfl⟩ := List.mem_map.mp h
  exact ⟨_, p.1, (List.mem_zipIdx' hp).2 ▸ List.getElem_mem _, rfl⟩

theorem pushCandidate_ok (cfg : GCfg) (st : GSt) {k1 : Finset Nat} {k2s : List (Finset Nat)} (h1 : k1 ∈ st.remaining.keys)
    (h2 : ∀ k ∈ k2s, k ∈ st.remaining.keys) (hne : k2s ≠ []) :
    ∃ q, pushCandidate cfg st k1 k2s = .ok { st with queue := st.queue ++ q } ∧ ∀ c ∈ q, c ∈ candsOf cfg st k1 k2s := by
  unfold pushCandidate
  rw [mapM_ok_map (g := fun p => candOf cfg st (st.path ++ [[st.queue.length, p.2]]) k1 p.1)]
  · simp only [bind, Except.bind]
    rw [← candsOf]
    split
    · exact ⟨candsOf cfg st k1 k2s, rfl, fun c hc => hc⟩
    · have hcne : candsOf cfg st k1 k2s ≠ [] := by
        intro h0
        apply hne
        have := congrArg List.length h0
        simpa [candsOf] using this
      obtain ⟨c, r, hc⟩ := popMin_ne_none (le := GCand.le) hcne
      rw [hc]
      refine ⟨[c], rfl, ?_⟩
      intro x hx
      rw [List.mem_singleton] at hx
      subst hx
      exact (popMin_perm hc).mem_iff.mpr (by simp)
  · intro p hp
    exact getCandidate_eq cfg st _ h1 (h2 _ ((List.mem_zipIdx' hp).2 ▸ List.getElem_mem _))

end OE.Paths
