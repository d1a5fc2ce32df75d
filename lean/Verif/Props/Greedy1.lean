import Verif.Lemmas.GreedyInv
import Verif.Props.Branch3

/-!
# C16: the greedy search always returns a complete path
-/

namespace OE.Props
open OE OE.Py OE.Spec OE.Paths

/-- The iteration orders list the sets they are given. -/
def GOrderOK (order : GOrder) : Prop :=
  (∀ s, (order.dims s).Nodup ∧ ∀ x, x ∈ order.dims s ↔ x ∈ s) ∧
  ∀ path s, (order.keys path s).Nodup ∧ ∀ x, x ∈ order.keys path s ↔ x ∈ s

/-- What is asked of a chooser: it shortens the non-empty queue without adding to it, and returns nothing or a candidate of
the queue whose two terms both remain. -/
def ChooserOK (ch : Chooser) : Prop :=
  ∀ path queue remaining, queue ≠ [] →
    (ch path queue remaining).2.length < queue.length ∧ (∀ c ∈ (ch path queue remaining).2, c ∈ queue) ∧
    ∀ c, (ch path queue remaining).1 = some c → c ∈ queue ∧ c.k1 ∈ remaining.keys ∧ c.k2 ∈ remaining.keys

theorem simpleChooser_ok : ChooserOK simpleChooser := by
  intro path queue remaining hq
  obtain ⟨c, r, hc⟩ := popMin_ne_none (le := GCand.le) hq
  have hp := popMin_perm hc
  have hlen := hp.length_eq
  unfold simpleChooser
  rw [hc]
  simp only
  split
  · rename_i hh
    refine ⟨by simp at hlen ⊢; omega, fun x hx => hp.mem_iff.mpr (by simp [hx]), ?_⟩
    rintro c' ⟨⟩
    exact ⟨hp.mem_iff.mpr (by simp), Dict.has_iff.mp hh.1, Dict.has_iff.mp hh.2⟩
  · exact ⟨by simp at hlen ⊢; omega, fun x hx => hp.mem_iff.mpr (by simp [hx]), by simp⟩

section
variable {cfg : GCfg} {n : Nat}

/-- The invariant of the main loop. -/
structure GInv (cfg : GCfg) (n : Nat) (st : GSt) : Prop where
  keys : st.remaining.keys.Nodup
  pre : Prefix n (Dict.vals st.remaining) st.next st.path
  ne : st.remaining ≠ []
  dims : DimsOK cfg.output st.dimKeys st.remaining.keys
  queue : ∀ c ∈ st.queue, c.k1 ≠ c.k2

theorem GInv.setQueue {st : GSt} (h : GInv cfg n st) {q : List GCand} (hq : ∀ c ∈ q, c.k1 ≠ c.k2) : GInv cfg n { st with queue := q } :=
  ⟨h.keys, h.pre, h.ne, h.dims, hq⟩

theorem GInv.push {st : GSt} (h : GInv cfg n st) {k1 : Finset Nat} {k2s : List (Finset Nat)} (h1 : k1 ∈ st.remaining.keys)
    (h2 : ∀ k ∈ k2s, k ∈ st.remaining.keys ∧ k ≠ k1) (hne : k2s ≠ []) :
    ∃ q, pushCandidate cfg st k1 k2s = .ok { st with queue := st.queue ++ q } ∧ GInv cfg n { st with queue := st.queue ++ q } := by
  obtain ⟨q, g1, g2⟩ := pushCandidate_ok cfg st h1 (fun k hk => (h2 k hk).1) hne
  refine ⟨q, g1, h.setQueue ?_⟩
  intro c hc
  rcases List.mem_append.mp hc with hc | hc
  · exact h.queue c hc
  · obtain ⟨seed, k2, hk2, rfl⟩ := mem_candsOf (g2 c hc)
    exact candOf_ne (h2 k2 hk2).2.symm

theorem initPush_inv (l : List (Finset Nat)) (hl : l.Nodup) {st : GSt} (h : GInv cfg n st) (hm : ∀ k ∈ l, k ∈ st.remaining.keys) :
    ∃ q, initPush cfg l st = .ok { st with queue := q } ∧ GInv cfg n { st with queue := q } := by
  induction l generalizing st with
  | nil => exact ⟨st.queue, rfl, h⟩
  | cons k1 ks ih =>
    cases ks with
    | nil => exact ⟨st.queue, rfl, h⟩
    | cons k2 ks =>
      rw [List.nodup_cons] at hl
      obtain ⟨q, g1, g2⟩ := h.push (k1 := k1) (k2s := k2 :: ks) (hm _ (by simp))
        (fun k hk => ⟨hm k (List.mem_cons_of_mem _ hk), fun e => hl.1 (e ▸ hk)⟩) (by simp)
      obtain ⟨q', g3, g4⟩ := ih hl.2 g2 (fun k hk => hm k (List.mem_cons_of_mem _ hk))
      refine ⟨q', ?_, g4⟩
      rw [initPush, g1]
      exact g3

theorem sortedKeys_perm (remaining : Dict (Finset Nat) Nat) (keys : Finset (Finset Nat)) :
    (sortedKeys remaining keys).Perm (remaining.keys.filter (fun k => k ∈ keys)) := by
  unfold sortedKeys
  refine ((List.perm_insertionSort _ _).map _).trans ?_
  rw [Dict.keys, List.filter_map]
  rfl

theorem initQueue_inv (ds : List Nat) {st : GSt} (h : GInv cfg n st) :
    ∃ q, initQueue cfg ds st = .ok { st with queue := q } ∧ GInv cfg n { st with queue := q } := by
  induction ds generalizing st with
  | nil => exact ⟨st.queue, rfl, h⟩
  | cons d ds ih =>
    have hp := sortedKeys_perm st.remaining (st.dimKeys d)
    obtain ⟨q, g1, g2⟩ := initPush_inv (sortedKeys st.remaining (st.dimKeys d)) (hp.nodup_iff.mpr (h.keys.filter _)) h
      (fun k hk => (List.mem_filter.mp (hp.mem_iff.mp hk)).1)
    obtain ⟨q', g3, g4⟩ := ih g2
    refine ⟨q', ?_, g4⟩
    rw [initQueue, g1]
    exact g3

theorem popKey_ok {remaining : Dict (Finset Nat) Nat} {k : Finset Nat} (h : k ∈ remaining.keys) :
    ∃ id, remaining.get? k = some id ∧ popKey remaining k = .ok (id, remaining.del k) := by
  obtain ⟨id, hid⟩ := Dict.mem_keys.mp h
  exact ⟨id, hid, by unfold popKey; rw [hid]⟩

theorem contractKeys_inv {st : GSt} (h : GInv cfg n st) {k1 k2 : Finset Nat} (k12 : Finset Nat) (hne : k1 ≠ k2)
    (h1 : k1 ∈ st.remaining.keys) (h2 : k2 ∈ st.remaining.keys) :
    ∃ st', contractKeys cfg st k1 k2 k12 = .ok st' ∧ GInv cfg n st' ∧ k12 ∈ st'.remaining.keys ∧
      st'.remaining.length < st.remaining.length ∧ st'.queue = st.queue := by
  obtain ⟨a, ha, hpa⟩ := popKey_ok h1
  have hk1 := Dict.keys_del_nodup h.keys k1
  have h2' : k2 ∈ (st.remaining.del k1).keys := Dict.mem_keys_del.mpr ⟨h2, hne.symm⟩
  obtain ⟨b, hb, hpb⟩ := popKey_ok h2'
  have hk2 := Dict.keys_del_nodup hk1 k2
  obtain ⟨dk1, hd1, hok1⟩ := dimsOK_remove h.dims h1 (keys' := (st.remaining.del k1).keys) (fun k => Dict.mem_keys_del)
  obtain ⟨dk2, hd2, hok2⟩ := dimsOK_remove hok1 h2' (keys' := ((st.remaining.del k1).del k2).keys) (fun k => Dict.mem_keys_del)
  have hperm : (Dict.vals st.remaining).Perm (a :: b :: Dict.vals ((st.remaining.del k1).del k2)) := by
    refine ((Dict.perm_del h.keys ha).map Prod.snd).trans ?_
    exact (((Dict.perm_del hk1 hb).map Prod.snd)).cons a
  have hpre := (h.pre.perm hperm).step
  have hlen : st.remaining.length = ((st.remaining.del k1).del k2).length + 2 := by
    have := hperm.length_eq
    simp only [Dict.vals, List.length_map, List.length_cons] at this
    omega
  generalize hr : (st.remaining.del k1).del k2 = R at *
  have hset : ∀ v, (R.set k12 v).length = (R.del k12).length + 1 := fun v => by
    have := (Dict.perm_set hk2 k12 v).length_eq
    simpa using this
  unfold contractKeys
  rw [hpa]
  simp only [bind, Except.bind]
  rw [hpb]
  rw [hd1]
  simp only
  rw [hd2]
  simp only
  cases hg : R.get? k12 with
  | none =>
    have hn : k12 ∉ R.keys := Dict.get?_eq_none.mp hg
    refine ⟨_, rfl, ⟨Dict.keys_set_nodup hk2 _ _, ?_, ?_, ?_, h.queue⟩, ?_, ?_, rfl⟩
    · simp only
      rw [Dict.set_of_notMem hn]
      refine hpre.perm ?_
      simp only [Dict.vals, List.map_append, List.map_cons, List.map_nil]
      exact (List.perm_append_singleton _ _).symm
    · simp only
      rw [Dict.set_of_notMem hn]
      simp
    · exact dimsOK_add hok2 (fun k => Dict.mem_keys_set hk2)
    · exact (Dict.mem_keys_set hk2).mpr (Or.inl rfl)
    · simp only
      rw [hset, Dict.del_of_notMem hn]
      omega
  | some id =>
    have hp := Dict.perm_del hk2 hg
    have hlen' := hp.length_eq
    simp only [List.length_cons] at hlen'
    refine ⟨_, rfl, ⟨Dict.keys_set_nodup hk2 _ _, ?_, ?_, ?_, h.queue⟩, ?_, ?_, rfl⟩
    · simp only
      have e1 : (st.next :: Dict.vals R).Perm (id :: st.next :: Dict.vals (R.del k12)) :=
        ((hp.map Prod.snd).cons _).trans (List.Perm.swap _ _ _)
      refine ((hpre.perm e1).step).perm ?_
      exact ((Dict.perm_set hk2 k12 (st.next + 1)).map Prod.snd).symm
    · simp only
      intro h0
      have := hset (st.next + 1)
      rw [h0] at this
      simp at this
    · simp only
      intro d k
      rw [hok2, Dict.mem_keys_set hk2]
      constructor
      · rintro ⟨x1, x2, x3⟩; exact ⟨x1, x2, Or.inr x3⟩
      · rintro ⟨x1, x2, rfl | x3⟩
        · exact ⟨x1, x2, Dict.mem_keys.mpr ⟨id, hg⟩⟩
        · exact ⟨x1, x2, x3⟩
    · exact (Dict.mem_keys_set hk2).mpr (Or.inl rfl)
    · simp only
      rw [hset]
      omega

theorem pushNew_inv {order : GOrder} (ho : GOrderOK order) {st : GSt} (h : GInv cfg n st) {k1 : Finset Nat} (h1 : k1 ∈ st.remaining.keys) :
    ∃ q, pushNew cfg order st k1 = .ok { st with queue := q } ∧ GInv cfg n { st with queue := q } := by
  unfold pushNew
  simp only
  split
  · exact ⟨st.queue, rfl, h⟩
  · rename_i hk
    obtain ⟨q, g1, g2⟩ := h.push (k1 := k1) (k2s := order.keys st.path ((k1.biUnion st.dimKeys).erase k1)) h1
      (by
        intro k hk'
        rw [(ho.2 _ _).2, Finset.mem_erase, Finset.mem_biUnion] at hk'
        obtain ⟨hne, d, _, hd⟩ := hk'
        exact ⟨((h.dims d k).mp hd).2.2, hne⟩)
      (by
        intro h0
        apply hk
        ext x
        have := (ho.2 st.path ((k1.biUnion st.dimKeys).erase k1)).2 x
        rw [h0] at this
        simpa using this)
    exact ⟨_, g1, g2⟩

theorem greedyStep_inv {chooser : Chooser} {order : GOrder} (hc : ChooserOK chooser) (ho : GOrderOK order) {st : GSt} (h : GInv cfg n st)
    (hq : st.queue ≠ []) :
    ∃ st', greedyStep cfg chooser order st = .ok st' ∧ GInv cfg n st' ∧
      (st'.remaining.length < st.remaining.length ∨ st'.remaining.length = st.remaining.length ∧ st'.queue.length < st.queue.length) := by
  obtain ⟨c1, c2, c3⟩ := hc st.path st.queue st.remaining hq
  unfold greedyStep
  generalize chooser st.path st.queue st.remaining = r at *
  obtain ⟨r, q⟩ := r
  have hq' : ∀ c ∈ q, c.k1 ≠ c.k2 := fun c hc => h.queue c (c2 c hc)
  cases r with
  | none => exact ⟨_, rfl, h.setQueue hq', Or.inr ⟨rfl, c1⟩⟩
  | some c =>
    obtain ⟨d1, d2, d3⟩ := c3 c rfl
    obtain ⟨st1, e1, e2, e3, e4, e5⟩ := contractKeys_inv (h.setQueue hq') c.k12 (h.queue c d1) d2 d3
    obtain ⟨q2, f1, f2⟩ := pushNew_inv ho e2 e3
    refine ⟨_, ?_, f2, Or.inl e4⟩
    simp only [e1, bind, Except.bind]
    exact f1

theorem greedyLoop_inv {chooser : Chooser} {order : GOrder} (hc : ChooserOK chooser) (ho : GOrderOK order) (m : Nat) :
    ∀ (k : Nat) (st : GSt), GInv cfg n st → st.remaining.length ≤ m → st.queue.length ≤ k →
      ∃ F st', (∀ fuel, F ≤ fuel → greedyLoop cfg chooser order fuel st = some (.ok st')) ∧ GInv cfg n st' := by
  induction m with
  | zero =>
    intro k st h hm
    exact absurd (List.length_eq_zero_iff.mp (by omega)) h.ne
  | succ m ihm =>
    intro k
    induction k with
    | zero =>
      intro st h _ hk
      have h0 : st.queue = [] := List.length_eq_zero_iff.mp (by omega)
      refine ⟨0, st, fun fuel _ => ?_, h⟩
      rw [greedyLoop.eq_def]
      simp only
      rw [if_pos h0]
    | succ k ihk =>
      intro st h hm hk
      by_cases h0 : st.queue = []
      · refine ⟨0, st, fun fuel _ => ?_, h⟩
        rw [greedyLoop.eq_def]
        simp only
        rw [if_pos h0]
      · obtain ⟨st1, g1, g2, g3⟩ := greedyStep_inv (cfg := cfg) hc ho h h0
        have hrec : ∃ F st', (∀ fuel, F ≤ fuel → greedyLoop cfg chooser order fuel st1 = some (.ok st')) ∧ GInv cfg n st' := by
          rcases g3 with g3 | g3
          · exact ihm _ st1 g2 (by omega) (le_refl _)
          · exact ihk st1 g2 (by omega) (by omega)
        obtain ⟨F, st', hF, hst'⟩ := hrec
        refine ⟨F + 1, st', fun fuel hf => ?_, hst'⟩
        obtain ⟨fuel, rfl⟩ : ∃ f, fuel = f + 1 := ⟨fuel - 1, by omega⟩
        rw [greedyLoop.eq_def]
        simp only
        rw [if_neg h0, g1]
        exact hF fuel (by omega)

theorem finalLoop_complete (k : Nat) (cur : FEntry) (q : List FEntry) (next : Nat) (path : Path) (hk : q.length = k)
    (hp : Prefix n ((cur :: q).map FEntry.id) next path) : SsaComplete n (finalLoop cfg k cur q next path) ∧ Pairwise2 (finalLoop cfg k cur q next path) := by
  induction k generalizing cur q next path with
  | zero =>
    have : q = [] := List.length_eq_zero_iff.mp hk
    subst this
    exact Prefix.complete hp
  | succ k ih =>
    obtain ⟨e, q1, he⟩ := popMin_ne_none (le := FEntry.le) (l := q) (by rintro rfl; simp at hk)
    have hp1 := popMin_perm he
    simp only [finalLoop, he]
    generalize hnew : ({ cost := _, id := next, key := _ } : FEntry) = new
    have hid : new.id = next := by rw [← hnew]
    obtain ⟨cur', q2, he2⟩ := popMin_ne_none (le := FEntry.le) (l := new :: q1) (by simp)
    have hp2 := popMin_perm he2
    simp only [he2]
    have hl1 := hp1.length_eq
    have hl2 := hp2.length_eq
    simp only [List.length_cons] at hl1 hl2
    apply ih _ _ _ _ (by omega)
    have s1 : Prefix n (min cur.id e.id :: max cur.id e.id :: q1.map FEntry.id) next path := by
      refine hp.perm ?_
      refine ((hp1.cons cur).map FEntry.id).trans ?_
      simp only [List.map_cons]
      rcases le_total cur.id e.id with hle | hle
      · rw [min_eq_left hle, max_eq_right hle]
      · rw [min_eq_right hle, max_eq_left hle]
        exact List.Perm.swap _ _ _
    refine s1.step.perm ?_
    have := hp2.map FEntry.id
    rw [List.map_cons, hid] at this
    exact this

theorem finalPhase_complete {st : GSt} (h : GInv cfg n st) : ∃ p, finalPhase cfg st = .ok p ∧ SsaComplete n p ∧ Pairwise2 p := by
  unfold finalPhase
  have hne : (st.remaining.map (fun p => ({ cost := Paths.sizeOf cfg.size (p.1 ∩ cfg.output), id := p.2, key := p.1 } : FEntry))) ≠ [] := by
    simpa using h.ne
  obtain ⟨e, q, he⟩ := popMin_ne_none (le := FEntry.le) hne
  rw [he]
  refine ⟨_, rfl, finalLoop_complete _ _ _ _ _ rfl ?_⟩
  refine h.pre.perm ?_
  have := (popMin_perm he).map FEntry.id
  rw [List.map_map] at this
  exact this

theorem greedyStart_inv (output : Finset Nat) (inputs : List (Finset Nat)) (hne : inputs ≠ []) (hout : cfg.output = output) :
    GInv cfg inputs.length (greedyStart output inputs) := by
  obtain ⟨h1, h2, h3, h4, h5⟩ := dedup_inv (n := inputs.length) inputs 0
    { remaining := [], dimKeys := fun _ => ∅, ref2 := ∅, ref3 := ∅, queue := [], path := [], next := inputs.length }
    (by simp [Dict.keys]) (by
      simp only [Dict.vals, List.map_nil, List.nil_append]
      rw [← List.range_eq_range']
      exact prefix_nil _)
  unfold greedyStart
  refine ⟨h1, h2, h5 (Or.inl hne), ?_, ?_⟩
  · simp only
    rw [hout, h4]
    have := dimsOK_foldl (output := output) (dedupLoop inputs 0
      { remaining := [], dimKeys := fun _ => ∅, ref2 := ∅, ref3 := ∅, queue := [], path := [], next := inputs.length }).remaining.keys [] (fun _ => ∅)
      (by intro d k; simp)
    simpa using this
  · simp only
    rw [h3]
    simp

end

/-- The ssa paths of `ssa_greedy_optimize`. -/
theorem ssaGreedy_complete (size : Nat → Nat) (cost : CostFn) {chooser : Option Chooser} (hc : ∀ c, chooser = some c → ChooserOK c)
    {order : GOrder} (ho : GOrderOK order) {inputs : List (Finset Nat)} (hne : inputs ≠ []) (output : Finset Nat) :
    ∃ F path, (∀ fuel, F ≤ fuel → ssaGreedy fuel size cost chooser order inputs output = some (.ok path)) ∧
      SsaComplete inputs.length path ∧ (2 ≤ inputs.length → Pairwise2 path) := by
  match inputs, hne with
  | [k], _ => exact ⟨0, [[0]], fun _ _ => rfl, ssaComplete_range (n := 1) (by omega), fun h => absurd h (by simp)⟩
  | k :: k' :: ks, _ =>
    simp only [ssaGreedy]
    generalize hout : output ∪ (k' :: ks).foldl (· ∩ ·) k = out
    generalize hcfg : ({ size, cost, output := out, pushAll := chooser.isSome } : GCfg) = cfg
    have h0 := greedyStart_inv (cfg := cfg) out (k :: k' :: ks) (by simp) (by rw [← hcfg])
    obtain ⟨q, h1, h2⟩ := initQueue_inv (order.dims ((greedyStart out (k :: k' :: ks)).remaining.keys.foldl (fun s key => s ∪ key \ out) ∅)) h0
    rw [h1]
    simp only
    have hch : ChooserOK (chooser.getD simpleChooser) := by
      cases chooser with
      | none => exact simpleChooser_ok
      | some c => exact hc c rfl
    obtain ⟨F, st', hF, hst'⟩ := greedyLoop_inv hch ho _ _ _ h2 (le_refl _) (le_refl _)
    obtain ⟨p, hp1, hp2⟩ := finalPhase_complete hst'
    refine ⟨F, p, fun fuel hf => ?_, hp2.1, fun _ => hp2.2⟩
    rw [hF fuel hf]
    simp only
    rw [hp1]

/-- **C16.** For any non-empty list of inputs, any output, sizes and cost function (jittered ones included), any set iteration
order and any chooser that returns live candidates or nothing and does not add to the queue, `ssa_greedy_optimize` terminates
without raising and returns a complete ssa path, of pairwise contractions if there are two inputs or more; so does the default chooser. -/
theorem C16_ssa_greedy_complete (size : Nat → Nat) (cost : CostFn) {chooser : Option Chooser} (hc : ∀ c, chooser = some c → ChooserOK c)
    {order : GOrder} (ho : GOrderOK order) {inputs : List (Finset Nat)} (hne : inputs ≠ []) (output : Finset Nat) :
    ∃ F path, (∀ fuel, F ≤ fuel → ssaGreedy fuel size cost chooser order inputs output = some (.ok path)) ∧
      SsaComplete inputs.length path ∧ (2 ≤ inputs.length → Pairwise2 path) := ssaGreedy_complete size cost hc ho hne output

/-- **C16, `greedy`.** With or without a memory limit, `greedy` returns a complete path in recycled positions. -/
theorem C16_greedy_complete (size : Nat → Nat) (mem : Option Nat) (cost : CostFn) {chooser : Option Chooser}
    (hc : ∀ c, chooser = some c → ChooserOK c) {order : GOrder} (ho : GOrderOK order) {setOrder : SetOrder} (hs : OrderOK setOrder)
    {inputs : List (Finset Nat)} (hne : inputs ≠ []) (output : Finset Nat) :
    ∃ F, ∀ fuel, F ≤ fuel → ∃ path, greedy fuel size mem cost chooser order setOrder inputs output = some (.ok path) ∧
      (2 ≤ inputs.length → CompletePath inputs.length path) := by
  cases mem with
  | some m =>
    refine ⟨inputs.length, fun fuel hf => ?_⟩
    obtain ⟨path, h1, _, h3⟩ := C15_branch_function { nbranch := some 1, cutoff := 4, bySize := false, cost } (by simp) size output (some m)
      hs hne hf
    exact ⟨path, h1, h3⟩
  | none =>
    obtain ⟨F, p, hF, hp, _⟩ := ssaGreedy_complete size cost hc ho hne output
    obtain ⟨q, g1, g2, g3⟩ := linear_of_ssa hp
    refine ⟨F, fun fuel hf => ⟨q, ?_, g3⟩⟩
    simp only [greedy, hF fuel hf, g1]

/-- Iteration orders for the concrete cases: labels ascending, sets of labels in the order of `sublists`. -/
def gAscending : GOrder where
  dims s := ascending [] s
  keys _ s := ((List.range ((s.sup id).sup id + 1)).sublists.map List.toFinset).filter (fun k => k ∈ s)

theorem gAscending_ok : GOrderOK gAscending := by
  refine ⟨fun s => ascending_ok [] s, fun _ s => ⟨?_, fun x => ?_⟩⟩
  · refine List.Nodup.filter _ ?_
    refine List.Nodup.map_on ?_ (List.nodup_sublists.mpr List.nodup_range)
    intro a ha b hb hab
    rw [List.mem_sublists] at ha hb
    have sa : a.Pairwise (· < ·) := List.pairwise_lt_range.sublist ha
    have sb : b.Pairwise (· < ·) := List.pairwise_lt_range.sublist hb
    refine List.Perm.eq_of_pairwise (fun x y _ _ h1 h2 => by omega) sa sb ?_
    rw [List.perm_ext_iff_of_nodup (List.nodup_range.sublist ha) (List.nodup_range.sublist hb)]
    intro x
    have := congrArg (x ∈ ·) hab
    simpa using this
  · simp only [gAscending, List.mem_filter, List.mem_map, List.mem_sublists, decide_eq_true_eq]
    refine ⟨fun h => h.2, fun h => ⟨⟨(List.range ((s.sup id).sup id + 1)).filter (fun i => i ∈ x), List.filter_sublist, ?_⟩, h⟩⟩
    ext i
    simp only [List.mem_toFinset, List.mem_filter, List.mem_range, decide_eq_true_eq]
    refine ⟨fun h => h.2, fun hi => ⟨?_, hi⟩⟩
    have h1 : i ∈ s.sup id := by
      rw [Finset.mem_sup]; exact ⟨x, h, hi⟩
    have := Finset.le_sup (f := id) h1
    simp only [id] at this
    omega

-- C16: the example of the documentation, 'abd,ac,bdc->' with sizes 1, 2, 3, 4
example : greedy 20 (fun c => c + 1) none costMemoryRemoved none gAscending ascending [{0, 1, 3}, {0, 2}, {1, 3, 2}] ∅ =
    some (.ok [[0, 2], [0, 1]]) := by decide +kernel
-- two equal terms (merged first) and two disconnected ones
example : greedy 20 (fun c => c + 1) none costMemoryRemoved none gAscending ascending [{0, 1}, {1, 2}, {0, 1}, {3}, {2}] {3} =
    some (.ok [[0, 2], [0, 2], [1, 2], [0, 1]]) := by decide +kernel

end OE.Props
