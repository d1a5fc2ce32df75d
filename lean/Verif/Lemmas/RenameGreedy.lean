import Verif.Lemmas.RenameSearch

/-!
# Renaming labels: `ssa_greedy_optimize`
-/

namespace OE.Rename
open OE OE.Py OE.Paths

variable {σ : Nat ≃ Nat} {size size' : Nat → Nat}

/-- A set of terms under a renaming. -/
def renKeys (σ : Nat ≃ Nat) (K : Finset (Finset Nat)) : Finset (Finset Nat) := K.map ⟨ren σ, ren_injective σ⟩

theorem mem_renKeys {K : Finset (Finset Nat)} {k : Finset Nat} : ren σ k ∈ renKeys σ K ↔ k ∈ K := by
  unfold renKeys
  rw [Finset.mem_map]
  constructor
  · rintro ⟨a, ha, h⟩
    rwa [← ren_injective σ h]
  · intro h; exact ⟨k, h, rfl⟩

theorem ren_symm (s : Finset Nat) : ren σ (ren σ.symm s) = s := by
  ext c; simp [mem_ren']

theorem symm_ren (s : Finset Nat) : ren σ.symm (ren σ s) = s := by
  ext c; simp [mem_ren']

theorem mem_renKeys' {K : Finset (Finset Nat)} {k : Finset Nat} : k ∈ renKeys σ K ↔ ren σ.symm k ∈ K := by
  rw [← mem_renKeys (σ := σ) (K := K) (k := ren σ.symm k), ren_symm]

theorem renKeys_card (K : Finset (Finset Nat)) : (renKeys σ K).card = K.card := Finset.card_map _

@[simp] theorem renKeys_eq_empty {K : Finset (Finset Nat)} : renKeys σ K = ∅ ↔ K = ∅ := Finset.map_eq_empty

theorem renKeys_symm (K : Finset (Finset Nat)) : renKeys σ.symm (renKeys σ K) = K := by
  ext k; rw [mem_renKeys', Equiv.symm_symm, mem_renKeys]

theorem renKeys_erase (K : Finset (Finset Nat)) (k : Finset Nat) : (renKeys σ K).erase (ren σ k) = renKeys σ (K.erase k) := by
  ext x
  obtain ⟨y, rfl⟩ : ∃ y, x = ren σ y := ⟨ren σ.symm x, (ren_symm x).symm⟩
  simp [mem_renKeys]

theorem renKeys_insert (K : Finset (Finset Nat)) (k : Finset Nat) : insert (ren σ k) (renKeys σ K) = renKeys σ (insert k K) := by
  ext x
  obtain ⟨y, rfl⟩ : ∃ y, x = ren σ y := ⟨ren σ.symm x, (ren_symm x).symm⟩
  simp [mem_renKeys]

/-- `dim_to_keys` under a renaming. -/
def renDims (σ : Nat ≃ Nat) (d : Nat → Finset (Finset Nat)) : Nat → Finset (Finset Nat) := fun c => renKeys σ (d (σ.symm c))

theorem renDims_apply (d : Nat → Finset (Finset Nat)) (c : Nat) : renDims σ d (σ c) = renKeys σ (d c) := by simp [renDims]

/-- `remaining` under a renaming. -/
def renRem (σ : Nat ≃ Nat) (d : Dict (Finset Nat) Nat) : Dict (Finset Nat) Nat := mapDict (ren σ) id d

def renC (σ : Nat ≃ Nat) (c : GCand) : GCand := { c with k1 := ren σ c.k1, k2 := ren σ c.k2, k12 := ren σ c.k12 }

def renG (σ : Nat ≃ Nat) (st : GSt) : GSt :=
  { st with
    remaining := renRem σ st.remaining
    dimKeys := renDims σ st.dimKeys
    ref2 := ren σ st.ref2
    ref3 := ren σ st.ref3
    queue := st.queue.map (renC σ) }

def renCfg (σ : Nat ≃ Nat) (size' : Nat → Nat) (cfg : GCfg) : GCfg := { cfg with size := size', output := ren σ cfg.output }

/-- Iteration orders that list a renamed set as the renamed list of the old set. -/
def renOrder (σ : Nat ≃ Nat) (o : GOrder) : GOrder where
  dims s := (o.dims (ren σ.symm s)).map σ
  keys p s := (o.keys p (renKeys σ.symm s)).map (ren σ)

/-- A chooser that does not look at names. -/
def NamelessChooser (ch : Chooser) : Prop :=
  ∀ (σ : Nat ≃ Nat) (path : Path) (queue : List GCand) (remaining : Dict (Finset Nat) Nat),
    ch path (queue.map (renC σ)) (renRem σ remaining) = ((ch path queue remaining).1.map (renC σ), (ch path queue remaining).2.map (renC σ))

theorem renRem_get? (d : Dict (Finset Nat) Nat) (k : Finset Nat) : (renRem σ d).get? (ren σ k) = d.get? k := by
  rw [renRem, mapDict_get? (ren_injective σ)]; simp

theorem renRem_get! (d : Dict (Finset Nat) Nat) (k : Finset Nat) : (renRem σ d).get! (ren σ k) = d.get! k := by
  unfold Dict.get!; rw [renRem_get?]

theorem renRem_has (d : Dict (Finset Nat) Nat) (k : Finset Nat) : (renRem σ d).has (ren σ k) = d.has k := by
  unfold Dict.has; rw [renRem_get?]

theorem renRem_set (d : Dict (Finset Nat) Nat) (k : Finset Nat) (v : Nat) : (renRem σ d).set (ren σ k) v = renRem σ (d.set k v) :=
  mapDict_set (g := id) (ren_injective σ) d k v

theorem renRem_del (d : Dict (Finset Nat) Nat) (k : Finset Nat) : (renRem σ d).del (ren σ k) = renRem σ (d.del k) :=
  mapDict_del (ren_injective σ) d k

theorem renRem_keys (d : Dict (Finset Nat) Nat) : (renRem σ d).keys = d.keys.map (ren σ) := by
  simp [renRem, mapDict, Dict.keys, Function.comp_def]

theorem mapM_ren {α β γ δ : Type} {ε : Type} (f : α → γ) (g : β → δ) {F : α → Except ε β} {F' : γ → Except ε δ} (l : List α)
    (h : ∀ a ∈ l, F' (f a) = (F a).map g) : (l.map f).mapM F' = (l.mapM F).map (List.map g) := by
  induction l with
  | nil => rfl
  | cons a l ih =>
    rw [List.map_cons, List.mapM_cons, List.mapM_cons, h a (by simp), ih (fun b hb => h b (by simp [hb]))]
    cases F a with
    | error e => rfl
    | ok x => cases l.mapM F <;> rfl

theorem popMin_map {α : Type} (f : α → α) {le : α → α → Bool} (h : ∀ a b, le (f a) (f b) = le a b) (l : List α) :
    popMin le (l.map f) = (popMin le l).map (fun p => (f p.1, p.2.map f)) := by
  induction l with
  | nil => rfl
  | cons a l ih =>
    rw [List.map_cons, popMin, popMin, ih]
    cases popMin le l with
    | none => rfl
    | some p =>
      obtain ⟨b, r⟩ := p
      simp only [Option.map_some, h]
      split <;> rfl

theorem getCandidate_ren (cfg : GCfg) (hs : SameSize σ cfg.size size') (hc : Nameless cfg.cost) (st : GSt) (seed : Path) (k1 k2 : Finset Nat) :
    getCandidate (renCfg σ size' cfg) (renG σ st) seed (ren σ k1) (ren σ k2) = (getCandidate cfg st seed k1 k2).map (renC σ) := by
  have hc' : ∀ p a b c k12 k1 k2, cfg.cost p a b c (ren σ k12) (ren σ k1) (ren σ k2) = cfg.cost p a b c k12 k1 k2 := hc σ
  unfold getCandidate
  simp only [renCfg, renG, renRem_get!, ← ren_union, ← ren_inter, ← ren_sdiff, sizeOf_ren hs, hc']
  cases st.remaining.get! k1 with
  | error e => rfl
  | ok a =>
    cases st.remaining.get! k2 with
    | error e => rfl
    | ok b =>
      simp only [bind, Except.bind]
      split <;> rfl

theorem gcand_le_ren (a b : GCand) : (renC σ a).le (renC σ b) = a.le b := rfl

theorem renG_queue (st : GSt) (q : List GCand) : { renG σ st with queue := q.map (renC σ) } = renG σ { st with queue := q } := rfl

theorem pushCandidate_ren (cfg : GCfg) (hs : SameSize σ cfg.size size') (hc : Nameless cfg.cost) (st : GSt) (k1 : Finset Nat)
    (k2s : List (Finset Nat)) :
    pushCandidate (renCfg σ size' cfg) (renG σ st) (ren σ k1) (k2s.map (ren σ)) = (pushCandidate cfg st k1 k2s).map (renG σ) := by
  unfold pushCandidate
  have hq : (renG σ st).queue = st.queue.map (renC σ) := rfl
  have hp : (renG σ st).path = st.path := rfl
  rw [hq, hp, List.length_map, List.zipIdx_map]
  rw [mapM_ren (Prod.map (ren σ) id) (renC σ) (F := fun p => getCandidate cfg st (st.path ++ [[st.queue.length, p.2]]) k1 p.1) _
    (fun p _ => getCandidate_ren cfg hs hc st _ k1 p.1)]
  cases k2s.zipIdx.mapM (fun p => getCandidate cfg st (st.path ++ [[st.queue.length, p.2]]) k1 p.1) with
  | error e => rfl
  | ok cands =>
    simp only [Except.map, bind, Except.bind]
    have hpa : (renCfg σ size' cfg).pushAll = cfg.pushAll := rfl
    rw [hpa]
    split
    · rw [← List.map_append]; rfl
    · rw [popMin_map (renC σ) gcand_le_ren]
      cases popMin GCand.le cands with
      | none => rfl
      | some p =>
        obtain ⟨c, r⟩ := p
        simp only [Option.map_some]
        have : st.queue.map (renC σ) ++ [renC σ c] = (st.queue ++ [c]).map (renC σ) := by simp
        rw [this]; rfl

theorem ren_filter (s : Finset Nat) (P : Nat → Prop) [DecidablePred P] (P' : Nat → Prop) [DecidablePred P'] (h : ∀ c, P' (σ c) ↔ P c) :
    (ren σ s).filter P' = ren σ (s.filter P) := by
  ext c
  obtain ⟨x, rfl⟩ : ∃ x, c = σ x := ⟨σ.symm c, by simp⟩
  simp [h]

theorem updateRefs_ren (d : Nat → Finset (Finset Nat)) (r2 r3 dims : Finset Nat) :
    updateRefs (renDims σ d) (ren σ r2) (ren σ r3) (ren σ dims) = (ren σ (updateRefs d r2 r3 dims).1, ren σ (updateRefs d r2 r3 dims).2) := by
  unfold updateRefs
  simp only [ren_union, ren_sdiff]
  rw [ren_filter dims (fun c => 2 ≤ (d c).card) _ (fun c => by rw [renDims_apply, renKeys_card]),
    ren_filter dims (fun c => 3 ≤ (d c).card) _ (fun c => by rw [renDims_apply, renKeys_card])]

theorem removeKey_ren (d : Nat → Finset (Finset Nat)) (output key : Finset Nat) :
    removeKey (renDims σ d) (ren σ output) (ren σ key) = (removeKey d output key).map (renDims σ) := by
  unfold removeKey
  have hiff : (∀ c ∈ ren σ key \ ren σ output, ren σ key ∈ renDims σ d c) ↔ ∀ c ∈ key \ output, key ∈ d c := by
    constructor
    · intro h c hc
      have := h (σ c) (by rw [← ren_sdiff, mem_ren]; exact hc)
      rwa [renDims_apply, mem_renKeys] at this
    · intro h c hc
      obtain ⟨x, rfl⟩ : ∃ x, c = σ x := ⟨σ.symm c, by simp⟩
      rw [← ren_sdiff, mem_ren] at hc
      rw [renDims_apply, mem_renKeys]
      exact h x hc
  rw [if_congr hiff rfl rfl]
  split
  · simp only [Except.map]
    congr 1
    funext c
    obtain ⟨x, rfl⟩ : ∃ x, c = σ x := ⟨σ.symm c, by simp⟩
    rw [renDims_apply, renDims_apply, ← ren_sdiff]
    simp only [mem_ren]
    split
    · rw [renKeys_erase]
    · rfl
  · rfl

theorem addKey_ren (d : Nat → Finset (Finset Nat)) (output key : Finset Nat) :
    addKey (renDims σ d) (ren σ output) (ren σ key) = renDims σ (addKey d output key) := by
  funext c
  obtain ⟨x, rfl⟩ : ∃ x, c = σ x := ⟨σ.symm c, by simp⟩
  unfold addKey
  rw [renDims_apply, renDims_apply, ← ren_sdiff]
  simp only [mem_ren]
  split
  · rw [renKeys_insert]
  · rfl

theorem dedupStep_ren (st : GSt) (key : Finset Nat) (i : Nat) : dedupStep (renG σ st) (ren σ key) i = renG σ (dedupStep st key i) := by
  unfold dedupStep
  have hr : (renG σ st).remaining = renRem σ st.remaining := rfl
  rw [hr, renRem_get?]
  cases st.remaining.get? key with
  | none => simp only [renRem_set]; rfl
  | some id =>
    have hn : (renG σ st).next = st.next := rfl
    simp only [hn, renRem_set]; rfl

theorem dedupLoop_ren (ks : List (Finset Nat)) : ∀ (i : Nat) (st : GSt),
    dedupLoop (ks.map (ren σ)) i (renG σ st) = renG σ (dedupLoop ks i st) := by
  induction ks with
  | nil => intro i st; rfl
  | cons k ks ih =>
    intro i st
    rw [List.map_cons, dedupLoop, dedupLoop, dedupStep_ren, ih]

theorem sortedKeys_ren (d : Dict (Finset Nat) Nat) (K : Finset (Finset Nat)) :
    sortedKeys (renRem σ d) (renKeys σ K) = (sortedKeys d K).map (ren σ) := by
  unfold sortedKeys renRem mapDict
  rw [List.filter_map]
  have hf : ((fun p : Finset Nat × Nat => decide (p.1 ∈ renKeys σ K)) ∘ fun p : Finset Nat × Nat => (ren σ p.1, id p.2)) =
      fun p => decide (p.1 ∈ K) := by
    funext p; simp only [Function.comp]; rw [decide_eq_decide]; exact mem_renKeys
  rw [hf, insertionSort_map (fun p : Finset Nat × Nat => (ren σ p.1, id p.2)) (r := fun a b => a.2 ≤ b.2) (fun a b => Iff.rfl)]
  simp [Function.comp_def]

theorem initPush_ren (cfg : GCfg) (hs : SameSize σ cfg.size size') (hc : Nameless cfg.cost) (ks : List (Finset Nat)) : ∀ st : GSt,
    initPush (renCfg σ size' cfg) (ks.map (ren σ)) (renG σ st) = (initPush cfg ks st).map (renG σ) := by
  induction ks with
  | nil => intro st; rfl
  | cons k ks ih =>
    intro st
    match ks with
    | [] => rfl
    | k2 :: ks =>
      simp only [List.map_cons, initPush]
      rw [← List.map_cons, pushCandidate_ren cfg hs hc]
      cases pushCandidate cfg st k (k2 :: ks) with
      | error e => rfl
      | ok st => exact ih st

theorem initQueue_ren (cfg : GCfg) (hs : SameSize σ cfg.size size') (hc : Nameless cfg.cost) (ds : List Nat) : ∀ st : GSt,
    initQueue (renCfg σ size' cfg) (ds.map σ) (renG σ st) = (initQueue cfg ds st).map (renG σ) := by
  induction ds with
  | nil => intro st; rfl
  | cons d ds ih =>
    intro st
    simp only [List.map_cons, initQueue]
    have h1 : (renG σ st).remaining = renRem σ st.remaining := rfl
    have h2 : (renG σ st).dimKeys (σ d) = renKeys σ (st.dimKeys d) := renDims_apply _ _
    rw [h1, h2, sortedKeys_ren, initPush_ren cfg hs hc]
    cases initPush cfg (sortedKeys st.remaining (st.dimKeys d)) st with
    | error e => rfl
    | ok st => exact ih st

theorem popKey_ren (d : Dict (Finset Nat) Nat) (k : Finset Nat) :
    popKey (renRem σ d) (ren σ k) = (popKey d k).map (fun p => (p.1, renRem σ p.2)) := by
  unfold popKey
  rw [renRem_get?]
  cases d.get? k with
  | none => rfl
  | some id => simp only [renRem_del]; rfl

theorem contractKeys_ren (cfg : GCfg) (st : GSt) (k1 k2 k12 : Finset Nat) :
    contractKeys (renCfg σ size' cfg) (renG σ st) (ren σ k1) (ren σ k2) (ren σ k12) = (contractKeys cfg st k1 k2 k12).map (renG σ) := by
  unfold contractKeys
  have e1 : (renG σ st).remaining = renRem σ st.remaining := rfl
  have e2 : (renG σ st).dimKeys = renDims σ st.dimKeys := rfl
  have e3 : (renCfg σ size' cfg).output = ren σ cfg.output := rfl
  rw [e1, e2, e3, popKey_ren]
  cases popKey st.remaining k1 with
  | error e => rfl
  | ok p =>
    obtain ⟨id1, rem1⟩ := p
    simp only [Except.map, bind, Except.bind, popKey_ren]
    cases popKey rem1 k2 with
    | error e => rfl
    | ok p =>
      obtain ⟨id2, rem2⟩ := p
      simp only [Except.map, removeKey_ren]
      cases removeKey st.dimKeys cfg.output k1 with
      | error e => rfl
      | ok d1 =>
        simp only [Except.map, removeKey_ren]
        cases removeKey d1 cfg.output k2 with
        | error e => rfl
        | ok d2 =>
          simp only [renRem_get?, pure, Except.pure]
          have hdims : ren σ k1 ∪ (ren σ k2 \ ren σ cfg.output) = ren σ (k1 ∪ (k2 \ cfg.output)) := by
            rw [ren_union, ren_sdiff]
          rw [hdims]
          have hn : (renG σ st).next = st.next := rfl
          have hp : (renG σ st).path = st.path := rfl
          have h2 : (renG σ st).ref2 = ren σ st.ref2 := rfl
          have h3 : (renG σ st).ref3 = ren σ st.ref3 := rfl
          cases rem2.get? k12 with
          | some id => simp only [hn, hp, h2, h3, renRem_set, updateRefs_ren]; rfl
          | none => simp only [hn, hp, h2, h3, renRem_set, addKey_ren, updateRefs_ren]; rfl

theorem pushNew_ren (cfg : GCfg) (hs : SameSize σ cfg.size size') (hc : Nameless cfg.cost) (order : GOrder) (st : GSt) (k1 : Finset Nat) :
    pushNew (renCfg σ size' cfg) (renOrder σ order) (renG σ st) (ren σ k1) = (pushNew cfg order st k1).map (renG σ) := by
  unfold pushNew
  have hk : ((ren σ k1).biUnion (renG σ st).dimKeys).erase (ren σ k1) = renKeys σ ((k1.biUnion st.dimKeys).erase k1) := by
    rw [← renKeys_erase]
    congr 1
    ext x
    obtain ⟨y, rfl⟩ : ∃ y, x = ren σ y := ⟨ren σ.symm x, (ren_symm x).symm⟩
    rw [mem_renKeys, Finset.mem_biUnion, Finset.mem_biUnion]
    constructor
    · rintro ⟨c, hc, hy⟩
      obtain ⟨a, rfl⟩ : ∃ a, c = σ a := ⟨σ.symm c, by simp⟩
      refine ⟨a, mem_ren.mp hc, ?_⟩
      have : ren σ y ∈ renDims σ st.dimKeys (σ a) := hy
      rwa [renDims_apply, mem_renKeys] at this
    · rintro ⟨a, ha, hy⟩
      refine ⟨σ a, mem_ren.mpr ha, ?_⟩
      change ren σ y ∈ renDims σ st.dimKeys (σ a)
      rwa [renDims_apply, mem_renKeys]
  simp only [hk, renKeys_eq_empty]
  split
  · rfl
  · have ho : (renOrder σ order).keys (renG σ st).path (renKeys σ ((k1.biUnion st.dimKeys).erase k1)) =
        (order.keys st.path ((k1.biUnion st.dimKeys).erase k1)).map (ren σ) := by
      simp only [renOrder, renKeys_symm]; rfl
    rw [ho, pushCandidate_ren cfg hs hc]

theorem greedyStep_ren (cfg : GCfg) (hs : SameSize σ cfg.size size') (hc : Nameless cfg.cost) {ch : Chooser} (hch : NamelessChooser ch)
    (order : GOrder) (st : GSt) :
    greedyStep (renCfg σ size' cfg) ch (renOrder σ order) (renG σ st) = (greedyStep cfg ch order st).map (renG σ) := by
  unfold greedyStep
  have h := hch σ st.path st.queue st.remaining
  have e : ch (renG σ st).path (renG σ st).queue (renG σ st).remaining = ch st.path (st.queue.map (renC σ)) (renRem σ st.remaining) := rfl
  rw [e, h]
  cases hr : ch st.path st.queue st.remaining with
  | mk c q =>
    cases c with
    | none => rfl
    | some c =>
      simp only [Option.map_some, renG_queue]
      have e1 : (renC σ c).k1 = ren σ c.k1 := rfl
      have e2 : (renC σ c).k2 = ren σ c.k2 := rfl
      have e3 : (renC σ c).k12 = ren σ c.k12 := rfl
      rw [e1, e2, e3, contractKeys_ren]
      cases contractKeys cfg { st with queue := q } c.k1 c.k2 c.k12 with
      | error e => rfl
      | ok st => exact pushNew_ren cfg hs hc order st c.k12

theorem greedyLoop_ren (cfg : GCfg) (hs : SameSize σ cfg.size size') (hc : Nameless cfg.cost) {ch : Chooser} (hch : NamelessChooser ch)
    (order : GOrder) : ∀ (fuel : Nat) (st : GSt),
    greedyLoop (renCfg σ size' cfg) ch (renOrder σ order) fuel (renG σ st) = (greedyLoop cfg ch order fuel st).map (Except.map (renG σ)) := by
  intro fuel
  have hq : ∀ st : GSt, (renG σ st).queue = [] ↔ st.queue = [] := fun st => by simp [renG]
  induction fuel with
  | zero =>
    intro st
    rw [greedyLoop, greedyLoop]
    simp only [hq]
    split <;> rfl
  | succ fuel ih =>
    intro st
    rw [greedyLoop, greedyLoop]
    simp only [hq]
    split
    · rfl
    · rw [greedyStep_ren cfg hs hc hch]
      cases greedyStep cfg ch order st with
      | error e => rfl
      | ok st => exact ih st

def renF (σ : Nat ≃ Nat) (e : FEntry) : FEntry := { e with key := ren σ e.key }

theorem fentry_le_ren (a b : FEntry) : (renF σ a).le (renF σ b) = a.le b := rfl

theorem finalLoop_ren (cfg : GCfg) (hs : SameSize σ cfg.size size') : ∀ (n : Nat) (cur : FEntry) (queue : List FEntry) (next : Nat) (path : Path),
    finalLoop (renCfg σ size' cfg) n (renF σ cur) (queue.map (renF σ)) next path = finalLoop cfg n cur queue next path := by
  intro n
  induction n with
  | zero => intros; rfl
  | succ n ih =>
    intro cur queue next path
    rw [finalLoop, finalLoop, popMin_map (renF σ) fentry_le_ren]
    cases popMin FEntry.le queue with
    | none => rfl
    | some p =>
      obtain ⟨e, q⟩ := p
      simp only [Option.map_some]
      have hk : ((renF σ cur).key ∪ (renF σ e).key) ∩ (renCfg σ size' cfg).output = ren σ ((cur.key ∪ e.key) ∩ cfg.output) := by
        simp only [renF, renCfg, ren_inter, ren_union]
      have hz : Paths.sizeOf (renCfg σ size' cfg).size (ren σ ((cur.key ∪ e.key) ∩ cfg.output)) = Paths.sizeOf cfg.size ((cur.key ∪ e.key) ∩ cfg.output) :=
        sizeOf_ren hs _
      rw [hk, hz]
      have hnew : ({ cost := Paths.sizeOf cfg.size ((cur.key ∪ e.key) ∩ cfg.output), id := next, key := ren σ ((cur.key ∪ e.key) ∩ cfg.output) } : FEntry) :: q.map (renF σ) =
          (({ cost := Paths.sizeOf cfg.size ((cur.key ∪ e.key) ∩ cfg.output), id := next, key := (cur.key ∪ e.key) ∩ cfg.output } : FEntry) :: q).map (renF σ) := rfl
      rw [hnew, popMin_map (renF σ) fentry_le_ren]
      cases popMin FEntry.le (({ cost := Paths.sizeOf cfg.size ((cur.key ∪ e.key) ∩ cfg.output), id := next, key := (cur.key ∪ e.key) ∩ cfg.output } : FEntry) :: q) with
      | none => rfl
      | some p =>
        obtain ⟨cur', q'⟩ := p
        simp only [Option.map_some]
        exact ih _ _ _ _

theorem finalPhase_ren (cfg : GCfg) (hs : SameSize σ cfg.size size') (st : GSt) :
    finalPhase (renCfg σ size' cfg) (renG σ st) = finalPhase cfg st := by
  unfold finalPhase
  have hq : (renG σ st).remaining.map (fun p => ({ cost := Paths.sizeOf (renCfg σ size' cfg).size (p.1 ∩ (renCfg σ size' cfg).output), id := p.2, key := p.1 } : FEntry)) =
      (st.remaining.map (fun p => ({ cost := Paths.sizeOf cfg.size (p.1 ∩ cfg.output), id := p.2, key := p.1 } : FEntry))).map (renF σ) := by
    simp only [renG, renRem, mapDict, List.map_map]
    apply List.map_congr_left
    intro p _
    simp only [Function.comp, renF, renCfg, ← ren_inter, sizeOf_ren hs, id]
  rw [hq, popMin_map (renF σ) fentry_le_ren]
  cases popMin FEntry.le (st.remaining.map (fun p => ({ cost := Paths.sizeOf cfg.size (p.1 ∩ cfg.output), id := p.2, key := p.1 } : FEntry))) with
  | none => rfl
  | some p =>
    obtain ⟨e, q⟩ := p
    simp only [Option.map_some, List.length_map, finalLoop_ren cfg hs]
    rfl

theorem dims_ren (ks : List (Finset Nat)) (output : Finset Nat) : ∀ s : Finset Nat,
    (ks.map (ren σ)).foldl (fun s key => s ∪ key \ ren σ output) (ren σ s) = ren σ (ks.foldl (fun s key => s ∪ key \ output) s) := by
  induction ks with
  | nil => intro s; rfl
  | cons k ks ih =>
    intro s
    rw [List.map_cons, List.foldl_cons, List.foldl_cons, ← ren_sdiff, ← ren_union, ih]

theorem addKeys_ren (ks : List (Finset Nat)) (output : Finset Nat) : ∀ d : Nat → Finset (Finset Nat),
    (ks.map (ren σ)).foldl (fun d key => addKey d (ren σ output) key) (renDims σ d) =
      renDims σ (ks.foldl (fun d key => addKey d output key) d) := by
  induction ks with
  | nil => intro s; rfl
  | cons k ks ih =>
    intro s
    rw [List.map_cons, List.foldl_cons, List.foldl_cons, addKey_ren, ih]

theorem greedyStart_ren (output : Finset Nat) (inputs : List (Finset Nat)) :
    greedyStart (ren σ output) (inputs.map (ren σ)) = renG σ (greedyStart output inputs) := by
  unfold greedyStart
  rw [List.length_map]
  have h0 : ({ remaining := [], dimKeys := fun _ => ∅, ref2 := ∅, ref3 := ∅, queue := [], path := [], next := inputs.length } : GSt) =
      renG σ { remaining := [], dimKeys := fun _ => ∅, ref2 := ∅, ref3 := ∅, queue := [], path := [], next := inputs.length } := by
    rfl
  rw [h0, dedupLoop_ren, ← h0]
  generalize dedupLoop inputs 0 _ = st
  have e1 : (renG σ st).remaining = renRem σ st.remaining := rfl
  have e2 : (renG σ st).dimKeys = renDims σ st.dimKeys := rfl
  have hd : (st.remaining.keys.map (ren σ)).foldl (fun s key => s ∪ key \ ren σ output) ∅ =
      ren σ (st.remaining.keys.foldl (fun s key => s ∪ key \ output) ∅) := by
    have := dims_ren (σ := σ) st.remaining.keys output ∅
    rwa [ren_empty] at this
  simp only [e1, e2, renRem_keys, addKeys_ren, hd]
  rw [ren_filter _ (fun c => 2 ≤ ((st.remaining.keys.foldl (fun d key => addKey d output key) st.dimKeys) c).card) _
      (fun c => by rw [renDims_apply, renKeys_card]),
    ren_filter _ (fun c => 3 ≤ ((st.remaining.keys.foldl (fun d key => addKey d output key) st.dimKeys) c).card) _
      (fun c => by rw [renDims_apply, renKeys_card]), ← ren_sdiff, ← ren_sdiff]
  rfl

theorem simpleChooser_nameless : NamelessChooser simpleChooser := by
  intro σ path queue remaining
  unfold simpleChooser
  rw [popMin_map (renC σ) gcand_le_ren]
  cases popMin GCand.le queue with
  | none => rfl
  | some p =>
    obtain ⟨c, q⟩ := p
    simp only [Option.map_some]
    have e1 : (renC σ c).k1 = ren σ c.k1 := rfl
    have e2 : (renC σ c).k2 = ren σ c.k2 := rfl
    rw [e1, e2, renRem_has, renRem_has]
    split <;> rfl

theorem popChoices_ren (remaining : Dict (Finset Nat) Nat) : ∀ (fuel nbranch : Nat) (queue : List GCand),
    popChoices (renRem σ remaining) fuel nbranch (queue.map (renC σ)) =
      ((popChoices remaining fuel nbranch queue).1.map (renC σ), (popChoices remaining fuel nbranch queue).2.map (renC σ)) := by
  intro fuel
  induction fuel with
  | zero => intro n q; simp only [popChoices]; rfl
  | succ fuel ih =>
    intro n q
    cases n with
    | zero => simp only [popChoices]; rfl
    | succ n =>
      simp only [popChoices, popMin_map (renC σ) gcand_le_ren]
      cases popMin GCand.le q with
      | none => rfl
      | some p =>
        obtain ⟨c, q⟩ := p
        simp only [Option.map_some]
        have hl : live (renRem σ remaining) (renC σ c) = live remaining c := by
          unfold live
          have e1 : (renC σ c).k1 = ren σ c.k1 := rfl
          have e2 : (renC σ c).k2 = ren σ c.k2 := rfl
          rw [e1, e2, renRem_has, renRem_has]
        rw [hl]
        split
        · rw [ih]; rfl
        · exact ih _ _

theorem thermalChooser_nameless (nbranch : Nat) (pick : Path → List ℚ → Nat) : NamelessChooser (thermalChooser nbranch pick) := by
  intro σ path queue remaining
  unfold thermalChooser
  rw [List.length_map, popChoices_ren]
  generalize popChoices remaining queue.length nbranch queue = r
  obtain ⟨cs, q⟩ := r
  match cs with
  | [] => rfl
  | [c] => rfl
  | c :: c' :: cs =>
    simp only [List.map_cons]
    have hcost : (renC σ c).cost :: (renC σ c').cost :: (cs.map (renC σ)).map GCand.cost = c.cost :: c'.cost :: cs.map GCand.cost := by
      simp [Function.comp_def, renC]
    rw [hcost, ← List.map_cons, ← List.map_cons, List.getElem?_map]
    cases (c :: c' :: cs)[pick path (c.cost :: c'.cost :: cs.map GCand.cost)]? with
    | none => rfl
    | some x => simp only [Option.map_some, List.eraseIdx_map, ← List.map_append]

theorem foldl_inter_ren (ks : List (Finset Nat)) : ∀ k : Finset Nat,
    (ks.map (ren σ)).foldl (· ∩ ·) (ren σ k) = ren σ (ks.foldl (· ∩ ·) k) := by
  induction ks with
  | nil => intro k; rfl
  | cons a ks ih => intro k; rw [List.map_cons, List.foldl_cons, List.foldl_cons, ← ren_inter, ih]

/-- `ssa_greedy_optimize` under a renaming, with the iteration orders renamed. -/
theorem ssaGreedy_ren (hs : SameSize σ size size') {cost : CostFn} (hc : Nameless cost) {chooser : Option Chooser}
    (hch : ∀ ch ∈ chooser, NamelessChooser ch) (order : GOrder) (fuel : Nat) (inputs : List (Finset Nat)) (output : Finset Nat) :
    ssaGreedy fuel size' cost chooser (renOrder σ order) (inputs.map (ren σ)) (ren σ output) =
      ssaGreedy fuel size cost chooser order inputs output := by
  match inputs with
  | [] => rfl
  | [_] => rfl
  | k :: k' :: ks =>
    have hch' : NamelessChooser (chooser.getD simpleChooser) := by
      cases chooser with
      | none => exact simpleChooser_nameless
      | some ch => exact hch ch rfl
    simp only [List.map_cons, ssaGreedy]
    rw [← List.map_cons, foldl_inter_ren, ← ren_union, ← List.map_cons, greedyStart_ren]
    generalize output ∪ (k' :: ks).foldl (· ∩ ·) k = out
    generalize greedyStart out (k :: k' :: ks) = st
    have e1 : (renG σ st).remaining = renRem σ st.remaining := rfl
    have hd := dims_ren (σ := σ) st.remaining.keys out ∅
    rw [ren_empty] at hd
    rw [e1, renRem_keys, hd]
    generalize st.remaining.keys.foldl (fun s key => s ∪ key \ out) ∅ = ds
    have ho : (renOrder σ order).dims (ren σ ds) = (order.dims ds).map σ := by
      simp only [renOrder, symm_ren]
    have hcfg : ({ size := size', cost, output := ren σ out, pushAll := chooser.isSome } : GCfg) =
      renCfg σ size' { size, cost, output := out, pushAll := chooser.isSome } := rfl
    rw [ho, hcfg]
    have hs' : SameSize σ ({ size, cost, output := out, pushAll := chooser.isSome } : GCfg).size size' := hs
    have hc' : Nameless ({ size, cost, output := out, pushAll := chooser.isSome } : GCfg).cost := hc
    generalize ({ size, cost, output := out, pushAll := chooser.isSome } : GCfg) = cfg at hs' hc'
    rw [initQueue_ren _ hs' hc']
    cases initQueue cfg (order.dims ds) st with
    | error e => rfl
    | ok st =>
      simp only [Except.map, greedyLoop_ren _ hs' hc' hch']
      cases greedyLoop cfg (chooser.getD simpleChooser) order fuel st with
      | none => rfl
      | some r =>
        cases r with
        | error e => rfl
        | ok st => simp only [Option.map_some, Except.map, finalPhase_ren _ hs']

end OE.Rename
