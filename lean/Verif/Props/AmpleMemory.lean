import Verif.Model.Registry
import Verif.Spec.AmpleMemory
import Verif.Props.EndToEnd
import Mathlib.Data.List.GetD

/-!
# C86: a memory limit that no array exceeds changes nothing, except for `greedy`
-/

namespace OE.Paths
open OE OE.Py OE.Spec

/-! ### `optimal` -/

/-- All the label sets that a cache holds are within `U`. -/
def CacheWithin (U : Finset Nat) (cache : ResCache) : Prop := ∀ k v, cache.get? k = some v → v.1 ⊆ U

theorem cached_within {U : Finset Nat} {cache : ResCache} (h : CacheWithin U cache) (key : Finset Nat × Finset Nat) {v : Finset Nat × Nat}
    (hv : v.1 ⊆ U) : (cached cache key v).1.1 ⊆ U ∧ CacheWithin U (cached cache key v).2 := by
  unfold cached
  cases hk : cache.get? key with
  | some w => exact ⟨h _ _ hk, h⟩
  | none =>
    refine ⟨hv, ?_⟩
    intro k w hw
    rw [Dict.get?_set] at hw
    split at hw
    · cases hw; exact hv
    · exact h _ _ hw

/-- All the label sets at a node are within `U`. -/
def NodeWithin (U : Finset Nat) (nd : SearchNode) : Prop := ∀ k, nd.inputs.getD k ∅ ⊆ U

theorem calcK12_within {U : Finset Nat} {inputs : List (Finset Nat)} (h : ∀ k, inputs.getD k ∅ ⊆ U) (size : Nat → Nat)
    (output remaining : Finset Nat) (i j : Nat) : (calcK12 size inputs output remaining i j).1 ⊆ U := by
  unfold calcK12
  exact Finset.inter_subset_left.trans (Finset.union_subset (h i) (h j))

theorem child_within {U : Finset Nat} {nd : SearchNode} (h : NodeWithin U nd) {k12 : Finset Nat} (hk : k12 ⊆ U) (i j f : Nat) :
    NodeWithin U (nd.child i j k12 f) := by
  intro k
  unfold SearchNode.child
  simp only
  rcases lt_trichotomy k nd.inputs.length with hlt | rfl | hgt
  · rw [List.getD_append _ _ _ _ hlt]; exact h k
  · rw [List.getD_append_right _ _ _ _ le_rfl]; simpa using hk
  · rw [List.getD_eq_default _ _ (by simp; omega)]; simp

theorem foldlM_congr {α β : Type} {P : β → Prop} (f g : β → α → Option β) (l : List α)
    (h : ∀ b a, a ∈ l → P b → f b a = g b a ∧ ∀ b', g b a = some b' → P b') :
    ∀ b, P b → l.foldlM f b = l.foldlM g b ∧ ∀ b', l.foldlM g b = some b' → P b' := by
  induction l with
  | nil => intro b hb; exact ⟨rfl, fun b' h => by simp at h; cases h; exact hb⟩
  | cons a t ih =>
    intro b hb
    obtain ⟨h1, h2⟩ := h b a (by simp) hb
    simp only [List.foldlM_cons, bind, Option.bind]
    rw [h1]
    cases hg : g b a with
    | none => exact ⟨rfl, fun b' h => by cases h⟩
    | some c => exact ih (fun b a ha => h b a (by simp [ha])) c (h2 c hg)

theorem optIter_ample {size : Nat → Nat} {U : Finset Nat} {m : Nat} (hU : ∀ s ⊆ U, sizeOf size s ≤ m) (output : Finset Nat)
    (order : SetOrder) (fuel : Nat) : ∀ (nd : SearchNode) (st : OptSt), NodeWithin U nd → CacheWithin U st.cache →
      optIter size output (some m) order fuel nd st = optIter size output none order fuel nd st ∧
      ∀ st', optIter size output none order fuel nd st = some st' → CacheWithin U st'.cache := by
  induction fuel with
  | zero =>
    intro nd st _ hc
    unfold optIter
    split
    · exact ⟨rfl, fun st' h => by cases h; exact hc⟩
    · exact ⟨rfl, fun st' h => by cases h⟩
  | succ fuel ih =>
    intro nd st hn hc
    unfold optIter
    split
    · exact ⟨rfl, fun st' h => by cases h; exact hc⟩
    · refine foldlM_congr (P := fun st : OptSt => CacheWithin U st.cache) _ _ _ ?_ st hc
      intro st ij _ hst
      unfold optBody
      simp only
      obtain ⟨k1, k2⟩ := cached_within hst (nd.inputs.getD (orient ij).1 ∅, nd.inputs.getD (orient ij).2 ∅)
        (calcK12_within hn size output nd.remaining (orient ij).1 (orient ij).2)
      split
      · rw [if_neg (by have := hU _ k1; omega)]
        exact ih _ _ (child_within hn k1 _ _ _) k2
      · exact ⟨rfl, fun st' h => by cases h; exact k2⟩

theorem root_within (inputs : List (Finset Nat)) : NodeWithin (inputs.foldr (· ∪ ·) ∅) (rootNode inputs) := by
  intro k
  show inputs.getD k ∅ ⊆ _
  induction inputs generalizing k with
  | nil => simp
  | cons x t ih =>
    cases k with
    | zero => simp
    | succ k => exact (ih k).trans (by simp)

theorem optimal_ample {size : Nat → Nat} {inputs : List (Finset Nat)} {m : Nat} (hm : AmpleMemory size inputs m) (fuel : Nat) (order : SetOrder)
    (output : Finset Nat) : optimal fuel size (some m) order inputs output = optimal fuel size none order inputs output := by
  unfold optimal optimalSsa
  rw [(optIter_ample hm output order fuel _ _ (root_within inputs) (fun k v h => by simp [Dict.get?] at h)).1]

/-! ### `branch` -/

theorem assess_ample {size : Nat → Nat} {U : Finset Nat} {m : Nat} (hU : ∀ s ⊆ U, sizeOf size s ≤ m) (cfg : BBCfg) (output : Finset Nat)
    (order : SetOrder) {nd : SearchNode} (hn : NodeWithin U nd) (sz : Nat) {st : BBSt} (hc : CacheWithin U st.cache) (ij : Nat × Nat) :
    assess cfg size output (some m) order nd sz st ij = assess cfg size output none order nd sz st ij ∧
      (∀ c ∈ (assess cfg size output none order nd sz st ij).1, c.k12 ⊆ U) ∧
      CacheWithin U (assess cfg size output none order nd sz st ij).2.cache := by
  obtain ⟨k1, k2⟩ := cached_within hc (nd.inputs.getD ij.1 ∅, nd.inputs.getD ij.2 ∅) (calcK12_within hn size output nd.remaining ij.1 ij.2)
  unfold assess
  simp only
  split
  · split
    · exact ⟨rfl, by simp, k2⟩
    · unfold assessFit
      have h := hU _ k1
      refine ⟨?_, ?_, k2⟩
      · rw [if_neg (by simpa using h), if_neg (by simp)]
      · intro c hc
        simp only [Option.any_none, Bool.false_eq_true, if_false, Option.mem_def, Option.some.injEq] at hc
        rw [← hc]
        exact k1
  · exact ⟨rfl, by simp, k2⟩

/-- The candidates and the cache of an accumulator are within `U`. -/
def AccWithin (U : Finset Nat) (acc : List Cand × BBSt) : Prop := (∀ c ∈ acc.1, c.k12 ⊆ U) ∧ CacheWithin U acc.2.cache

theorem assessFold_ample {size : Nat → Nat} {U : Finset Nat} {m : Nat} (hU : ∀ s ⊆ U, sizeOf size s ≤ m) (cfg : BBCfg) (output : Finset Nat)
    (order : SetOrder) {nd : SearchNode} (hn : NodeWithin U nd) (sz : Nat) (l : List (Nat × Nat)) : ∀ acc, AccWithin U acc →
      l.foldl (assessStep cfg size output (some m) order nd sz) acc = l.foldl (assessStep cfg size output none order nd sz) acc ∧
      AccWithin U (l.foldl (assessStep cfg size output none order nd sz) acc) := by
  induction l with
  | nil => intro acc h; exact ⟨rfl, h⟩
  | cons ij t ih =>
    intro acc h
    obtain ⟨h1, h2, h3⟩ := assess_ample hU cfg output order hn sz h.2 ij
    have hs : assessStep cfg size output (some m) order nd sz acc ij = assessStep cfg size output none order nd sz acc ij := by
      unfold assessStep; rw [h1]
    simp only [List.foldl_cons]
    rw [hs]
    apply ih
    refine ⟨?_, h3⟩
    intro c hc
    rcases List.mem_append.mp hc with hc | hc
    · exact h.1 c hc
    · exact h2 c (by simpa using hc)

theorem candidates_ample {size : Nat → Nat} {U : Finset Nat} {m : Nat} (hU : ∀ s ⊆ U, sizeOf size s ≤ m) (cfg : BBCfg) (output : Finset Nat)
    (order : SetOrder) {nd : SearchNode} (hn : NodeWithin U nd) (sz : Nat) {st : BBSt} (hc : CacheWithin U st.cache) :
    candidates cfg size output (some m) order nd sz st = candidates cfg size output none order nd sz st ∧
      AccWithin U (candidates cfg size output none order nd sz st) := by
  unfold candidates
  simp only
  obtain ⟨a1, a2⟩ := assessFold_ample hU cfg output order hn sz
    (((combinations2 (order nd.path nd.remaining)).map orient).filter
      (fun ij => ¬ Disjoint (nd.inputs.getD ij.1 ∅) (nd.inputs.getD ij.2 ∅))) ([], st) ⟨by simp, hc⟩
  rw [a1]
  split
  · exact assessFold_ample hU cfg output order hn sz _ _ a2
  · exact ⟨rfl, a2⟩

theorem visited_mem {nbranch : Option Nat} {l : List Cand} {c : Cand} (h : c ∈ visited nbranch l) : c ∈ l := by
  unfold visited at h
  cases nbranch with
  | none => simpa using h
  | some k => exact (List.mem_insertionSort _).mp (List.mem_of_mem_take h)

theorem branchIter_ample {size : Nat → Nat} {U : Finset Nat} {m : Nat} (hU : ∀ s ⊆ U, sizeOf size s ≤ m) (cfg : BBCfg) (output : Finset Nat)
    (order : SetOrder) (fuel : Nat) : ∀ (nd : SearchNode) (sz : Nat) (st : BBSt), NodeWithin U nd → CacheWithin U st.cache →
      branchIter cfg size output (some m) order fuel nd sz st = branchIter cfg size output none order fuel nd sz st ∧
      ∀ st', branchIter cfg size output none order fuel nd sz st = some st' → CacheWithin U st'.cache := by
  induction fuel with
  | zero =>
    intro nd sz st _ hc
    unfold branchIter
    split
    · exact ⟨rfl, fun st' h => by cases h; exact hc⟩
    · exact ⟨rfl, fun st' h => by cases h⟩
  | succ fuel ih =>
    intro nd sz st hn hc
    unfold branchIter
    split
    · exact ⟨rfl, fun st' h => by cases h; exact hc⟩
    · obtain ⟨c1, c2⟩ := candidates_ample hU cfg output order hn sz hc
      simp only
      rw [c1]
      refine foldlM_congr (P := fun st : BBSt => CacheWithin U st.cache) _ _ _ ?_ _ c2.2
      intro st c hc hst
      exact ih _ _ _ (child_within hn (c2.1 c (visited_mem hc)) _ _ _) hst

theorem branch_ample {size : Nat → Nat} {inputs : List (Finset Nat)} {m : Nat} (hm : AmpleMemory size inputs m) (cfg : BBCfg) (fuel : Nat)
    (order : SetOrder) (output : Finset Nat) :
    branch cfg fuel size (some m) order inputs output = branch cfg fuel size none order inputs output := by
  unfold branch branchCall
  rw [(branchIter_ample hm cfg output order fuel _ _ _ (root_within inputs) (fun k v h => by simp [Dict.get?] at h)).1]

/-! ### Dynamic programming -/

/-- All the label sets in a table are within `U`. -/
def TableWithin (U : Finset Nat) (t : DPTable) : Prop := ∀ p ∈ t, p.2.legs ⊆ U

theorem TableWithin.set {U : Finset Nat} {t : DPTable} (h : TableWithin U t) {s : Nat} {e : DPEntry} (he : e.legs ⊆ U) :
    TableWithin U (Dict.set t s e) := by
  induction t with
  | nil => intro p hp; simp [Dict.set] at hp; subst hp; exact he
  | cons q t ih =>
    intro p hp
    unfold Dict.set at hp
    split at hp
    · rcases List.mem_cons.mp hp with rfl | hp
      · exact he
      · exact h p (by simp [hp])
    · rcases List.mem_cons.mp hp with rfl | hp
      · exact h _ (by simp)
      · exact ih (fun p hp => h p (by simp [hp])) p hp

/-- The context with no memory limit. -/
def DPCtx.free (ctx : DPCtx) : DPCtx := { ctx with memoryLimit := none }

theorem legs_within (g a s : Nat) (inputs : List (Finset Nat)) (cut union : Finset Nat) : dpCalcLegs g a s inputs cut union ⊆ union :=
  Finset.sdiff_subset

theorem check_ample {ctx : DPCtx} {U : Finset Nat} {m : Nat} (hl : ctx.memoryLimit = some m) (hU : ∀ s ⊆ U, sizeOf ctx.size s ≤ m)
    (cap : WithTop Nat) (s1 s2 : Nat) (e1 e2 : DPEntry) (cut : Finset Nat) {union : Finset Nat} (hu : union ⊆ U) {xn : DPTable}
    (hx : TableWithin U xn) :
    checkContraction ctx cap s1 s2 e1 e2 cut union xn = checkContraction ctx.free cap s1 s2 e1 e2 cut union xn ∧
      TableWithin U (checkContraction ctx.free cap s1 s2 e1 e2 cut union xn) := by
  have hle : ∀ s, sizeOf ctx.size (dpCalcLegs ctx.g ctx.allTensors s ctx.inputs cut union) ≤ m := fun s => hU _ ((legs_within _ _ _ _ _ _).trans hu)
  have hset : ∀ s c t, TableWithin U (Dict.set xn s ⟨dpCalcLegs ctx.g ctx.allTensors s ctx.inputs cut union, c, t⟩) :=
    fun s c t => hx.set ((legs_within _ _ _ _ _ _).trans hu)
  unfold checkContraction
  cases hm : ctx.metric <;> simp only [DPCtx.free, hm, dpCompareFlops, dpCompareSize, dpCompareWrite, dpCompareCombo, dpCompareCustom, hl, memOk, hle,
    decide_true, if_true, true_and] <;> (split <;> [split <;> [exact hset _ _ _; exact hx]; exact hx])

theorem tryPair_ample {ctx : DPCtx} {U : Finset Nat} {m : Nat} (hl : ctx.memoryLimit = some m) (hU : ∀ s ⊆ U, sizeOf ctx.size s ≤ m)
    (cap : WithTop Nat) (n k : Nat) {p1 p2 : Nat × DPEntry} (h1 : p1.2.legs ⊆ U) (h2 : p2.2.legs ⊆ U) {xn : DPTable} (hx : TableWithin U xn) :
    tryPair ctx cap n k p1 p2 xn = tryPair ctx.free cap n k p1 p2 xn ∧ TableWithin U (tryPair ctx.free cap n k p1 p2 xn) := by
  unfold tryPair
  simp only [show ctx.free.output = ctx.output from rfl, show ctx.free.searchOuter = ctx.searchOuter from rfl]
  split
  · split
    · exact check_ample hl hU cap _ _ _ _ _ (Finset.union_subset h1 h2) hx
    · exact ⟨rfl, hx⟩
  · exact ⟨rfl, hx⟩

theorem foldl_congr {α β : Type} {P : β → Prop} (f g : β → α → β) (l : List α)
    (h : ∀ b a, a ∈ l → P b → f b a = g b a ∧ P (g b a)) : ∀ b, P b → l.foldl f b = l.foldl g b ∧ P (l.foldl g b) := by
  induction l with
  | nil => intro b hb; exact ⟨rfl, hb⟩
  | cons a t ih =>
    intro b hb
    obtain ⟨h1, h2⟩ := h b a (by simp) hb
    simp only [List.foldl_cons]
    rw [h1]
    exact ih (fun b a ha => h b a (by simp [ha])) _ h2

/-- All tables are within `U`. -/
def TablesWithin (U : Finset Nat) (x : List DPTable) : Prop := ∀ n, TableWithin U (x.getD n [])

theorem fillTable_ample {ctx : DPCtx} {U : Finset Nat} {m : Nat} (hl : ctx.memoryLimit = some m) (hU : ∀ s ⊆ U, sizeOf ctx.size s ≤ m)
    (cap : WithTop Nat) {x : List DPTable} (hx : TablesWithin U x) (n : Nat) :
    fillTable ctx cap x n = fillTable ctx.free cap x n ∧ TableWithin U (fillTable ctx.free cap x n) := by
  unfold fillTable
  refine foldl_congr (P := TableWithin U) _ _ _ ?_ _ (hx n)
  intro xn k _ hxn
  refine foldl_congr (P := TableWithin U) _ _ _ ?_ _ hxn
  intro xn p1 hp1 hxn
  refine foldl_congr (P := TableWithin U) _ _ _ ?_ _ hxn
  intro xn p2 hp2 hxn
  exact tryPair_ample hl hU cap n k (hx k p1 hp1) (hx (n - k) p2 hp2) hxn

theorem dpRound_ample {ctx : DPCtx} {U : Finset Nat} {m : Nat} (hl : ctx.memoryLimit = some m) (hU : ∀ s ⊆ U, sizeOf ctx.size s ≤ m)
    (cap : WithTop Nat) {x : List DPTable} (hx : TablesWithin U x) :
    dpRound ctx cap x = dpRound ctx.free cap x ∧ TablesWithin U (dpRound ctx.free cap x) := by
  unfold dpRound
  refine foldl_congr (P := TablesWithin U) _ _ _ ?_ _ hx
  intro x n _ hx
  obtain ⟨h1, h2⟩ := fillTable_ample hl hU cap hx n
  refine ⟨by rw [h1], ?_⟩
  intro k p hp
  rcases Nat.lt_or_ge n x.length with hn | hn
  · rcases eq_or_ne n k with rfl | hne
    · rw [List.getD_eq_getElem?_getD, List.getElem?_set_self hn] at hp
      exact h2 p hp
    · rw [List.getD_eq_getElem?_getD, List.getElem?_set_ne hne, ← List.getD_eq_getElem?_getD] at hp
      exact hx k p hp
  · rw [List.set_eq_of_length_le hn] at hp
    exact hx k p hp

theorem dpWhile_ample {ctx : DPCtx} {U : Finset Nat} {m : Nat} (hl : ctx.memoryLimit = some m) (hU : ∀ s ⊆ U, sizeOf ctx.size s ≤ m)
    (naive : WithTop Nat) (increment fuel : Nat) : ∀ (cap : WithTop Nat) (x : List DPTable), TablesWithin U x →
      dpWhile ctx naive increment fuel cap x = dpWhile ctx.free naive increment fuel cap x := by
  induction fuel with
  | zero => intro cap x _; rfl
  | succ fuel ih =>
    intro cap x hx
    unfold dpWhile
    obtain ⟨h1, h2⟩ := dpRound_ample hl hU cap hx
    simp only
    rw [h1]
    split
    · rfl
    · split
      · rfl
      · exact ih _ _ h2

theorem dpSubgraph_ample {size : Nat → Nat} {U : Finset Nat} {m : Nat} (hU : ∀ s ⊆ U, sizeOf size s ≤ m) (cfg : DPCfg) (output : Finset Nat)
    {inputs : List (Finset Nat)} (hi : ∀ k, inputs.getD k ∅ ⊆ U) (contractions : List Tree) (naive : WithTop Nat) (fuel : Nat) (g : List Nat) :
    dpSubgraph cfg size output (some m) inputs contractions naive fuel g = dpSubgraph cfg size output none inputs contractions naive fuel g := by
  unfold dpSubgraph
  simp only
  rw [dpWhile_ample (U := U) rfl hU]
  · rfl
  · intro n
    unfold dpStart
    rcases n with _ | _ | n
    · simp [TableWithin]
    · intro p hp
      simp only [List.getD_cons_succ, List.getD_cons_zero, List.mem_map] at hp
      obtain ⟨j, _, rfl⟩ := hp
      exact hi j
    · intro p hp
      simp only [List.getD_cons_succ] at hp
      rcases Nat.lt_or_ge n (g.length - 1) with h | h
      · rw [List.getD_eq_getElem?_getD, List.getElem?_replicate, if_pos h] at hp
        simp at hp
      · rw [List.getD_eq_default _ _ (by simpa using h)] at hp
        simp at hp

theorem parseSingles_within {U : Finset Nat} (single : Nat → Bool) (inputs : List (Finset Nat)) (j : Nat) (h : ∀ s ∈ inputs, s ⊆ U) :
    ∀ s ∈ (parseSingles single j inputs).inputs, s ⊆ U := by
  induction inputs generalizing j with
  | nil => simp [parseSingles]
  | cons i t ih =>
    have ih := ih (j + 1) (fun s hs => h s (by simp [hs]))
    intro s hs
    unfold parseSingles at hs
    simp only at hs
    split at hs
    · exact ih s hs
    · rcases List.mem_cons.mp hs with rfl | hs
      · exact (Finset.filter_subset _ _).trans (h i (by simp))
      · exact ih s hs

theorem subset_foldr_union {inputs : List (Finset Nat)} : ∀ s ∈ inputs, s ⊆ inputs.foldr (· ∪ ·) ∅ := by
  induction inputs with
  | nil => simp
  | cons x t ih =>
    intro s hs
    rcases List.mem_cons.mp hs with rfl | hs
    · simp
    · exact (ih s hs).trans (by simp)

theorem dpCall_ample {size : Nat → Nat} {inputs : List (Finset Nat)} {m : Nat} (hm : AmpleMemory size inputs m) (cfg : DPCfg) (order : PopOrder)
    (output : Finset Nat) (fuel : Nat) : dpCall cfg order size (some m) inputs output fuel = dpCall cfg order size none inputs output fuel := by
  have hw : ∀ k, (dpParse inputs output).inputs.getD k ∅ ⊆ inputs.foldr (· ∪ ·) ∅ := by
    intro k
    have := parseSingles_within (fun c => indCount inputs output c == 1) inputs 0 subset_foldr_union
    rw [List.getD_eq_getElem?_getD]
    cases h : (dpParse inputs output).inputs[k]? with
    | none => simp
    | some s => exact this s (List.mem_of_getElem? h)
  have hs : ∀ naive, dpSubgraph cfg size output (some m) (dpParse inputs output).inputs (dpParse inputs output).contractions naive fuel =
      dpSubgraph cfg size output none (dpParse inputs output).inputs (dpParse inputs output).contractions naive fuel := by
    intro naive
    funext g
    exact dpSubgraph_ample hm cfg output hw _ _ _ _
  unfold dpCall
  simp only [hs]

end OE.Paths

namespace OE.Props
open OE OE.Py OE.Paths OE.Contract OE.Spec OE.Registry

/-- The finders that a memory limit steers only by cutting off what exceeds it: all but `greedy`, and `auto` for up to 14 operands. -/
def CutsOnly (b : Builtin) (n : Nat) : Prop := b ≠ .greedy ∧ (b = .auto → n < 15)

theorem fn_ample (e : Env) {d : Dict Nat Nat} {inputs : List (Finset Nat)} {m : Nat} (hm : AmpleMemory (labelSize d) inputs m)
    (hne : inputs ≠ []) (output : Finset Nat) {b : Builtin} (hb : CutsOnly b inputs.length) :
    b.fn e inputs output d (some m) = b.fn e inputs output d none := by
  have h1 : 1 ≤ inputs.length := List.length_pos_iff.mpr hne
  have ho := optimal_ample hm e.fuel e.orders.set output
  have hbr := fun cfg => branch_ample hm cfg e.fuel e.orders.set output
  have hdp := fun cfg => dpCall_ample hm cfg e.orders.pop output e.fuel
  cases b with
  | auto =>
    have := hb.2 rfl
    simp only [Builtin.fn, asPathFn, Paths.auto, branchN, ho, hbr]
    split
    · rfl
    · split
      · rfl
      · split
        · rfl
        · rw [if_pos (by omega), if_pos (by omega)]
  | autoHq => simp only [Builtin.fn, asPathFn, Paths.autoHq, ho, hdp]
  | optimal => simp only [Builtin.fn, asPathFn, ho]
  | branchAll => simp only [Builtin.fn, asPathFn, branchN, hbr]
  | branch2 => simp only [Builtin.fn, asPathFn, branchN, hbr]
  | branch1 => simp only [Builtin.fn, asPathFn, branchN, hbr]
  | greedy => exact absurd rfl hb.1
  | dynamicProgramming => simp only [Builtin.fn, asPathFn, hdp]
  | randomGreedy => rfl
  | randomGreedy128 => rfl

/-- `contract_path` gives the same report for two choices of `optimize` and `memory_limit` if they lead to the same path. -/
theorem contractPath_congr {inputs : List Str} {output : Str} {shapes : List Shape} {opt opt' : Optimize} {mem mem' : MemLimit} (ub : Bool)
    (h : ∀ d, sizeLoop [] inputs shapes = .ok d → (∀ t ∈ inputs ++ [output], ∀ c ∈ t, (d.get? c).isSome) →
      ∃ m m', chooseMemoryArg mem ((inputs ++ [output]).map (fun t => (t.map (labelSize d)).prod)) = .ok m ∧
        chooseMemoryArg mem' ((inputs ++ [output]).map (fun t => (t.map (labelSize d)).prod)) = .ok m' ∧
        choosePath opt inputs.length (inputs.map List.toFinset) output.toFinset d m =
          choosePath opt' inputs.length (inputs.map List.toFinset) output.toFinset d m') :
    contractPath inputs output shapes opt mem ub = contractPath inputs output shapes opt' mem' ub := by
  unfold contractPath
  cases hd : sizeLoop [] inputs shapes with
  | error e => rfl
  | ok d =>
    simp only [bind, Except.bind]
    cases hl : (inputs ++ [output]).mapM (fun t => Helpers.computeSizeByDict t d) with
    | error e => rfl
    | ok l =>
      obtain ⟨m, m', h1, h2, h3⟩ := h d hd (mapM_size_some hl)
      simp only
      rw [mapM_size hl, h1, h2]
      simp only
      rw [h3]

theorem contractPath_same_choice {inputs : List Str} {output : Str} {shapes : List Shape} {opt opt' : Optimize} {mem : MemLimit} {ub : Bool}
    (h : ∀ (d : Dict Nat Nat) m, chooseMemoryArg mem ((inputs ++ [output]).map (fun t => (t.map (labelSize d)).prod)) = .ok m →
      choosePath opt inputs.length (inputs.map List.toFinset) output.toFinset d m =
        choosePath opt' inputs.length (inputs.map List.toFinset) output.toFinset d m) :
    contractPath inputs output shapes opt mem ub = contractPath inputs output shapes opt' mem ub := by
  unfold contractPath
  cases hd : sizeLoop [] inputs shapes with
  | error e => rfl
  | ok d =>
    simp only [bind, Except.bind]
    cases hl : (inputs ++ [output]).mapM (fun t => Helpers.computeSizeByDict t d) with
    | error e => rfl
    | ok l =>
      simp only
      rw [mapM_size hl]
      cases hm : chooseMemoryArg mem ((inputs ++ [output]).map (fun t => (t.map (labelSize d)).prod)) with
      | error e => rfl
      | ok m =>
        simp only
        rw [h d m hm]

/-- The path chosen for a registered name. -/
theorem named_path {lower : Str → Str} (hl : LowerOK lower) {t : Dict Str Builtin} (ht : importedOptions lower = .ok t) {e : Env} {name : Str}
    {b : Builtin} (hname : documentedName (lower name) = some b) (n : Nat) (sets : List (Finset Nat)) (output : Finset Nat) (d : Dict Nat Nat)
    (m : Option Nat) : choosePath (resolve lower (optionFns e t) (.name name)) n sets output d m =
      if n ≤ 2 then .ok [List.range n] else b.fn e sets output d m := by
  simp only [resolve, choosePath]
  rw [getPathFn_eq, optionFns_get, importedOptions_get hl ht, hname]
  rfl

/-- What the limit allows, with the sizes of the labels. -/
theorem memory_ample {size : Nat → Nat} {inputs : List Str} {output : Str} {shapes : List Shape} (hlen : inputs.length = shapes.length)
    (hsize : ∀ c s, IsLabelSize inputs shapes c s → size c = s) {mem : MemLimit}
    (hmem : ∀ s ⊆ inputs.flatten.toFinset, WithinMemory mem size inputs output (∏ c ∈ s, size c)) {d : Dict Nat Nat}
    (hd : sizeLoop [] inputs shapes = .ok d) (hsome : ∀ t ∈ inputs ++ [output], ∀ c ∈ t, (d.get? c).isSome) :
    ∃ m, chooseMemoryArg mem ((inputs ++ [output]).map (fun t => (t.map (labelSize d)).prod)) = .ok m ∧
      ∀ k, m = some k → AmpleMemory (labelSize d) (inputs.map List.toFinset) k := by
  have hls : ∀ t ∈ inputs ++ [output], ∀ c ∈ t, size c = labelSize d c := by
    intro t ht c hc
    obtain ⟨v, hv⟩ := Option.isSome_iff_exists.mp (hsome t ht c hc)
    rw [hsize c v ((labelSize_spec hlen hd c v).mpr hv)]
    simp [labelSize, hv]
  have hU : ∀ c ∈ (inputs.map List.toFinset).foldr (· ∪ ·) ∅, ∃ t ∈ inputs, c ∈ t := by
    clear hlen hsize hmem hd hsome hls
    induction inputs with
    | nil => simp
    | cons t l ih =>
      intro c hc
      simp only [List.map_cons, List.foldr_cons, Finset.mem_union, List.mem_toFinset] at hc
      rcases hc with hc | hc
      · exact ⟨t, by simp, hc⟩
      · obtain ⟨t', h1, h2⟩ := ih c hc
        exact ⟨t', by simp [h1], h2⟩
  have hok : ∃ m, chooseMemoryArg mem ((inputs ++ [output]).map (fun t => (t.map (labelSize d)).prod)) = .ok m := by
    have h0 := hmem ∅ (by simp)
    cases mem with
    | none => exact ⟨_, rfl⟩
    | otherStr => exact absurd h0 (by simp [WithinMemory])
    | maxInput =>
      simp only [chooseMemoryArg]
      split
      · exact ⟨_, rfl⟩
      · rename_i hn
        simp at hn
    | num q =>
      simp only [WithinMemory, Finset.prod_empty, Nat.cast_one] at h0
      simp only [chooseMemoryArg]
      rcases h0 with rfl | h0
      · exact ⟨none, by norm_num⟩
      · exact ⟨_, by rw [if_neg (not_lt.mpr h0)]⟩
  obtain ⟨m, hm⟩ := hok
  refine ⟨m, hm, ?_⟩
  rintro k rfl s hs
  have hw := hmem s (by
    intro c hc
    obtain ⟨t, h1, h2⟩ := hU c (hs hc)
    simp only [List.mem_toFinset, List.mem_flatten]
    exact ⟨t, h1, h2⟩)
  rw [withinMemory_congr hls, chooseMemory_within hm] at hw
  have := hw k rfl
  unfold Paths.sizeOf
  rwa [Finset.prod_congr rfl (fun c hc => by
    obtain ⟨t, h1, h2⟩ := hU c (hs hc)
    exact (hls t (by simp [h1]) c h2).symm)]

/-- **C86.** A memory limit that no array with labels of the operands exceeds changes nothing in what `contract_path` reports, errors included,
for every named finder but `greedy` (and `auto` beyond 14 operands). -/
theorem C86_ample_memory {lower : Str → Str} (hl : LowerOK lower) {t : Dict Str Builtin} (ht : importedOptions lower = .ok t) (e : Env)
    {name : Str} {b : Builtin} (hname : documentedName (lower name) = some b) {size : Nat → Nat} {inputs : List Str} {output : Str}
    {shapes : List Shape} (hlen : inputs.length = shapes.length) (hsize : ∀ c s, IsLabelSize inputs shapes c s → size c = s)
    (hb : CutsOnly b inputs.length) {mem : MemLimit}
    (hmem : ∀ s ⊆ inputs.flatten.toFinset, WithinMemory mem size inputs output (∏ c ∈ s, size c)) (ub : Bool) :
    contractPath inputs output shapes (resolve lower (optionFns e t) (.name name)) mem ub =
      contractPath inputs output shapes (resolve lower (optionFns e t) (.name name)) .none ub := by
  apply contractPath_congr
  intro d hd hsome
  obtain ⟨m, hm, ha⟩ := memory_ample hlen hsize hmem hd hsome
  refine ⟨m, none, hm, rfl, ?_⟩
  rw [named_path hl ht hname, named_path hl ht hname]
  split
  · rfl
  · rename_i hn
    cases m with
    | none => rfl
    | some k => exact fn_ample e (ha k rfl) (by intro h; simp at h; subst h; simp at hn) _ (by simpa using hb)

/-- **C86, `greedy`.** With a memory limit, `greedy` (and `auto` beyond 14 operands) reports what `branch-1` reports; if no array exceeds the
limit, this is what `branch-1` reports without limit. -/
theorem C86_greedy {lower : Str → Str} (hl : LowerOK lower) {t : Dict Str Builtin} (ht : importedOptions lower = .ok t) (e : Env)
    {name name' : Str} {b : Builtin} (hname : documentedName (lower name) = some b) (hname' : documentedName (lower name') = some .branch1)
    {inputs : List Str} {output : Str} {shapes : List Shape} (hb : b = .greedy ∨ (b = .auto ∧ 15 ≤ inputs.length)) (ub : Bool) :
    (∀ mem, mem ≠ .none → mem ≠ .num (-1) → contractPath inputs output shapes (resolve lower (optionFns e t) (.name name)) mem ub =
      contractPath inputs output shapes (resolve lower (optionFns e t) (.name name')) mem ub) ∧
    (∀ (size : Nat → Nat) mem, inputs.length = shapes.length → (∀ c s, IsLabelSize inputs shapes c s → size c = s) →
      mem ≠ .none → mem ≠ .num (-1) → (∀ s ⊆ inputs.flatten.toFinset, WithinMemory mem size inputs output (∏ c ∈ s, size c)) →
      contractPath inputs output shapes (resolve lower (optionFns e t) (.name name)) mem ub =
        contractPath inputs output shapes (resolve lower (optionFns e t) (.name name')) .none ub) := by
  have first : ∀ mem, mem ≠ .none → mem ≠ .num (-1) → contractPath inputs output shapes (resolve lower (optionFns e t) (.name name)) mem ub =
      contractPath inputs output shapes (resolve lower (optionFns e t) (.name name')) mem ub := by
    intro mem h1 h2
    apply contractPath_same_choice
    intro d m hm
    rw [named_path hl ht hname, named_path hl ht hname']
    split
    · rfl
    · rename_i hn
      have hk : ∃ k, m = some k := by
        cases mem with
        | none => exact absurd rfl h1
        | otherStr => cases hm
        | maxInput =>
          simp only [chooseMemoryArg] at hm
          split at hm
          · cases hm; exact ⟨_, rfl⟩
          · cases hm
        | num q =>
          simp only [chooseMemoryArg] at hm
          split at hm
          · split at hm
            · rename_i h; exact absurd (by rw [h]) h2
            · cases hm
          · cases hm; exact ⟨_, rfl⟩
      obtain ⟨k, rfl⟩ := hk
      rcases hb with rfl | ⟨rfl, h15⟩
      · rfl
      · have hlen : (inputs.map List.toFinset).length = inputs.length := by simp
        simp only [Builtin.fn, asPathFn, Paths.auto, hlen]
        rw [if_neg (by omega), if_neg (by omega), if_neg (by omega), if_neg (by omega)]
        rfl
  refine ⟨first, ?_⟩
  intro size mem hlen hsize h1 h2 hmem
  rw [first mem h1 h2]
  exact C86_ample_memory hl ht e hname' hlen hsize ⟨by simp, by simp⟩ hmem ub

/-- **C86, explicit paths.** A valid memory limit means nothing for a path given by the user, nor with `optimize=False`. -/
theorem C86_explicit_path {inputs : List Str} {output : Str} {shapes : List Shape} {mem : MemLimit} (hmem : ValidMemory mem) {opt : Optimize}
    (hopt : opt = .off ∨ ∃ p, opt = .path p) (ub : Bool) :
    contractPath inputs output shapes opt mem ub = contractPath inputs output shapes opt .none ub := by
  apply contractPath_congr
  intro d _ _
  have hok : ∃ m, chooseMemoryArg mem ((inputs ++ [output]).map (fun t => (t.map (labelSize d)).prod)) = .ok m := by
    cases mem with
    | none => exact ⟨_, rfl⟩
    | otherStr => exact absurd hmem (by simp [ValidMemory])
    | maxInput =>
      simp only [chooseMemoryArg]
      split
      · exact ⟨_, rfl⟩
      · rename_i hn
        simp at hn
    | num q =>
      simp only [chooseMemoryArg]
      rcases hmem with rfl | h0
      · exact ⟨none, by norm_num⟩
      · exact ⟨_, by rw [if_neg (not_lt.mpr h0)]⟩
  obtain ⟨m, hm⟩ := hok
  refine ⟨m, none, hm, rfl, ?_⟩
  rcases hopt with rfl | ⟨p, rfl⟩ <;> rfl

/-- If no axis has length zero, a number that is at least the product of the lengths of all labels is such a limit. -/
theorem ample_of_product {size : Nat → Nat} {inputs : List Str} (output : Str) (hpos : ∀ c ∈ inputs.flatten, 0 < size c) {q : ℚ}
    (hq : ((∏ c ∈ inputs.flatten.toFinset, size c : Nat) : ℚ) ≤ q) :
    ∀ s ⊆ inputs.flatten.toFinset, WithinMemory (.num q) size inputs output (∏ c ∈ s, size c) := by
  intro s hs
  refine Or.inr (le_trans ?_ hq)
  have : ∏ c ∈ s, size c ≤ ∏ c ∈ inputs.flatten.toFinset, size c :=
    Finset.prod_le_prod_of_subset_of_one_le' hs (fun c hc _ => hpos c (by simpa using hc))
  exact_mod_cast this

/-! ### Concrete cases -/

/-- Four matrices in a ring with a limit of 120 elements, the product of the four lengths: dynamic programming, "auto" and "branch-all" report what
they report without limit. -/
example : ∀ n ∈ [S "dp", S "auto", S "Branch-ALL"],
    contractPath [S "ab", S "bc", S "cd", S "da"] [] [[2, 3], [3, 4], [4, 5], [5, 2]]
      (resolve asciiLower (optionFns exampleEnv (pathOptions ++ [(S "random-greedy", .randomGreedy), (S "random-greedy-128", .randomGreedy128)])) (.name n))
      (.num 120) true =
    contractPath [S "ab", S "bc", S "cd", S "da"] [] [[2, 3], [3, 4], [4, 5], [5, 2]]
      (resolve asciiLower (optionFns exampleEnv (pathOptions ++ [(S "random-greedy", .randomGreedy), (S "random-greedy-128", .randomGreedy128)])) (.name n))
      .none true := by
  have hmem := ample_of_product (size := fun c => c - 95) (inputs := [S "ab", S "bc", S "cd", S "da"]) [] (by decide +kernel) (q := 120)
    (by rw [show ∏ c ∈ [S "ab", S "bc", S "cd", S "da"].flatten.toFinset, (c - 95) = 120 by decide +kernel]; norm_num)
  have hd : sizeLoop [] [S "ab", S "bc", S "cd", S "da"] [[2, 3], [3, 4], [4, 5], [5, 2]] = .ok [(97, 2), (98, 3), (99, 4), (100, 5)] := by decide +kernel
  have hsize : ∀ c s, IsLabelSize [S "ab", S "bc", S "cd", S "da"] [[2, 3], [3, 4], [4, 5], [5, 2]] c s → c - 95 = s := by
    intro c s h
    rw [labelSize_spec (by decide) hd] at h
    simp only [Dict.get?] at h
    split at h
    · rename_i h'; cases h; subst h'; rfl
    · split at h
      · rename_i h'; cases h; subst h'; rfl
      · split at h
        · rename_i h'; cases h; subst h'; rfl
        · split at h
          · rename_i h'; cases h; subst h'; rfl
          · cases h
  have key : ∀ n b, documentedName (asciiLower n) = some b → b ≠ .greedy → _ := fun n b hn hb =>
    C86_ample_memory asciiLower_ok (importedOptions_ok asciiLower_ok) exampleEnv (name := n) (b := b) hn (by decide) hsize
      ⟨hb, fun _ => by decide⟩ hmem true
  have : ∀ n ∈ [S "dp", S "auto", S "Branch-ALL"], ∃ b, documentedName (asciiLower n) = some b ∧ b ≠ .greedy := by
    simp only [List.forall_mem_cons, List.not_mem_nil, false_implies, implies_true, and_true]
    exact ⟨⟨.dynamicProgramming, by decide +kernel, by decide⟩, ⟨.auto, by decide +kernel, by decide⟩, ⟨.branchAll, by decide +kernel, by decide⟩⟩
  intro n hn
  obtain ⟨b, h1, h2⟩ := this n hn
  exact key n b h1 h2

/-- A tight limit does change the report. -/
example : (contractPath [S "ab", S "bc", S "cd", S "da"] [] [[2, 3], [3, 4], [4, 5], [5, 2]] (.finder (Builtin.optimal.fn exampleEnv)) (.num 5) true).map
      PathInfo.optCost ≠
    (contractPath [S "ab", S "bc", S "cd", S "da"] [] [[2, 3], [3, 4], [4, 5], [5, 2]] (.finder (Builtin.optimal.fn exampleEnv)) .none true).map
      PathInfo.optCost := by decide +kernel

/-- `greedy` is the exception: a limit of 1000 elements, which nothing exceeds, changes the path and the cost. -/
theorem C86_greedy_counterexample :
    (contractPath [S "xa", S "x", S "ab"] (S "xb") [[10, 2], [10], [2, 3]] (.finder (Builtin.greedy.fn exampleEnv)) .none true).map
      (fun r => (r.path, r.optCost)) = .ok ([[0, 2], [0, 1]], 150) ∧
    (contractPath [S "xa", S "x", S "ab"] (S "xb") [[10, 2], [10], [2, 3]] (.finder (Builtin.greedy.fn exampleEnv)) (.num 1000) true).map
      (fun r => (r.path, r.optCost)) = .ok ([[0, 1], [0, 1]], 140) := by
  constructor <;> decide +kernel

end OE.Props
