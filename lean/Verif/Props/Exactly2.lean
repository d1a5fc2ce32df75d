import Verif.Props.Auto
import Verif.Props.Choices
import Verif.Props.DpExactly
import Verif.Props.Objects
import Verif.Props.SharingStack

/-!
# C41, C45, C50 without the hypotheses under which they hold: what the code does in all cases
-/

namespace OE.Props
open OE OE.Py OE.Spec OE.Paths

/-! ## C50 -/

/-- With a growing cost cap and one of the cost models flops, size and write, the search of every part ends. -/
theorem part_ends {cfg : DPCfg} (hc : cfg.costCap = .increase) (hm : cfg.metric = .flops ∨ cfg.metric = .size ∨ cfg.metric = .write) {size : Nat → Nat}
    {limit : Option Nat} {inputs : List (Finset Nat)} {output B : Finset Nat} (hB : IsPart cfg.searchOuter inputs output B) :
    Solved cfg size limit inputs output B ∨ Refused cfg size limit inputs output B := by
  obtain ⟨n, hn⟩ : ∃ n, costBound cfg.metric size inputs output = WithTop.some n := by
    rcases hm with h | h | h <;> exact ⟨_, by rw [h]; rfl⟩
  by_cases h0 : firstCap cfg.costCap size (partLabels inputs output B) output = WithTop.some 0
  · left
    rw [hc] at h0
    exact firstCap_reached (fun fn h => by rw [h] at hm; simp at hm) hB hc (WithTop.coe_injective h0)
  · obtain ⟨m, hm⟩ := capAt_exceeds (two_le_growth size (partLabels inputs output B)) h0 n
    by_cases hr : Reaches cfg size limit inputs output B (partCap cfg size inputs output B m)
    · classical
      have hex : ∃ m, Reaches cfg size limit inputs output B (partCap cfg size inputs output B m) := ⟨m, hr⟩
      by_cases hstop : ∃ j, j < Nat.find hex ∧ costBound cfg.metric size inputs output < partCap cfg size inputs output B j
      · obtain ⟨j, hj, hj'⟩ := hstop
        exact Or.inr ⟨j, hj', Nat.find_min hex hj⟩
      · exact Or.inl ⟨Nat.find hex, fun j hj hj' => hstop ⟨j, hj, hj'⟩, Nat.find_spec hex⟩
    · exact Or.inr ⟨m, by rw [hn]; exact hm, hr⟩

/-- **C50, `auto_hq`, exactly.** For every non-empty list of inputs, output, sizes, memory limit, set orders and random draws, `auto_hq` ends; it raises
`RuntimeError` exactly if there are 6 to 16 inputs and some part of the network is refused by the dynamic programming search (C79), and otherwise returns a path, complete if
there are two inputs or more. -/
theorem C50_auto_hq_exactly {orders : Orders} (ho : OrdersOK orders) (cost : Nat → CostFn) {pick : Nat → Path → List ℚ → Nat} (hpick : ∀ r, PickOK (pick r))
    (size : Nat → Nat) (mem : Option Nat) {inputs : List (Finset Nat)} (hne : inputs ≠ []) (output : Finset Nat) :
    let refused := 6 ≤ inputs.length ∧ inputs.length ≤ 16 ∧
      ∃ G, IsPart false inputs output G ∧ Refused ⟨.flops, .increase, false⟩ size mem inputs output G
    (¬ refused → ∃ F, ∀ fuel, F ≤ fuel → ∃ path, autoHq cost pick orders fuel size mem inputs output = some (.ok path) ∧
      (2 ≤ inputs.length → CompletePath inputs.length path)) ∧
    (refused → ∃ F, ∀ fuel, F ≤ fuel → autoHq cost pick orders fuel size mem inputs output = some (.error .runtime)) := by
  obtain ⟨g1, ⟨F0, g2⟩, -⟩ := C50_auto_hq_partial ho cost hpick size mem hne output
  obtain ⟨d1, d2, -⟩ := C79_dp_outcome ho.2.2 ⟨.flops, .increase, false⟩ size mem inputs hne output
  have heq : 6 ≤ inputs.length → inputs.length ≤ 16 → ∀ fuel, autoHq cost pick orders fuel size mem inputs output =
      dpCall ⟨.flops, .increase, false⟩ orders.pop size mem inputs output fuel := fun h6 h16 fuel =>
    (C50_auto_hq_choice cost pick orders fuel size mem inputs output).2.1 h6 h16
  constructor
  · intro hno
    by_cases h6 : 6 ≤ inputs.length
    · by_cases h16 : inputs.length ≤ 16
      · obtain ⟨F, hF⟩ := d1 (fun G hG => (part_ends rfl (Or.inl rfl) hG).resolve_right (fun hr => hno ⟨h6, h16, G, hG, hr⟩))
        refine ⟨max F F0, fun fuel hf => ?_⟩
        obtain ⟨path, hp⟩ := hF fuel (le_trans (le_max_left _ _) hf)
        rw [← heq h6 h16] at hp
        exact ⟨path, hp, g2 fuel (le_trans (le_max_right _ _) hf) path hp⟩
      · exact g1 (Or.inr (Or.inr (by omega)))
    · exact g1 (Or.inr (Or.inl (by omega)))
  · rintro ⟨h6, h16, hG⟩
    obtain ⟨F, hF⟩ := d2 hG
    exact ⟨F, fun fuel hf => (heq h6 h16 fuel).trans (hF fuel hf)⟩

/-- A chain of six matrices, all sizes 0: nothing is refused, because the first cost cap suffices; with sizes 2 and a memory limit of 1 it is refused. -/
example : autoHq (fun _ => costMemoryRemoved) (fun _ _ _ => 0) exampleOrders 20 (fun _ => 0) none [{0, 1}, {1, 2}, {2, 3}, {3, 4}, {4, 5}, {5, 6}] {0, 6} =
      some (.ok [[4, 5], [3, 4], [2, 3], [1, 2], [0, 1]]) ∧
    autoHq (fun _ => costMemoryRemoved) (fun _ _ _ => 0) exampleOrders 20 (fun _ => 2) (some 1) [{0, 1}, {1, 2}, {2, 3}, {3, 4}, {4, 5}, {5, 6}] {0, 6} = some (.error .runtime) := by
  constructor <;> decide +kernel

/-! ## C45 -/

section
open OE.Objects OE.Contract OE.Blas
variable {α : Type}

/-- **C45, exactly.** For a full equation and shapes that fit it, `object_einsum` returns the Einstein sum unless some summed label has length 0 while
the output has elements: then it raises a `TypeError`. -/
theorem C45_object_einsum_exactly [Add α] [Mul α] [Inhabited α] {R : Type} [CommSemiring R] (φ : α → R)
    (hadd : ∀ a b, φ (a + b) = φ a + φ b) (hmul : ∀ a b, φ (a * b) = φ a * φ b)
    (size : Nat → Nat) (inputs : List Str) (output : Str) (arrays : List (Tensor α)) (hne : inputs ≠ [])
    (hpunct : ∀ t ∈ inputs, ∀ c ∈ t, ¬ IsPunct c) (hshape : ExactShapes size inputs arrays)
    (hn : output.Nodup) (hsub : ∀ c ∈ output, ∃ t ∈ inputs, c ∈ t) :
    let fails := (∃ c ∈ summed inputs output, size c = 0) ∧ ∀ c ∈ output, 0 < size c
    (¬ fails → ∃ T, objectEinsum (einsumStrOf inputs output) arrays = .ok T ∧
      IsEinsum size inputs output (arrays.map (mapTensor φ)) (mapTensor φ T)) ∧
    (fails → objectEinsum (einsumStrOf inputs output) arrays = .error .type) := by
  intro fails
  by_cases hpos : ∀ c ∈ summed inputs output, 0 < size c
  · refine ⟨fun _ => C45_object_einsum_partial φ hadd hmul size inputs output arrays hne hpunct hshape hn hsub hpos, ?_⟩
    rintro ⟨⟨c, hc, h0⟩, -⟩
    exact absurd (hpos c hc) (by omega)
  have hzero : ∃ c ∈ summed inputs output, size c = 0 := by
    by_contra hno
    apply hpos
    intro c hc
    by_contra h
    exact hno ⟨c, hc, by omega⟩
  have hlen := hshape.1
  have hex : Exact size (inputs.zip arrays) := by
    intro p hp
    obtain ⟨i, h1, h2⟩ := mem_zip_get.mp hp
    exact hshape.2 i p.1 p.2 h1 h2
  have hfst : (inputs.zip arrays).map Prod.fst = inputs := List.map_fst_zip (by omega)
  have hocc : ∀ c, (∃ p ∈ inputs.zip arrays, c ∈ p.1) ↔ ∃ t ∈ inputs, c ∈ t := by
    intro c
    constructor
    · rintro ⟨p, hp, hc⟩
      exact ⟨p.1, (List.of_mem_zip hp).1, hc⟩
    · rintro ⟨t, ht, hc⟩
      rw [← hfst] at ht
      obtain ⟨p, hp, rfl⟩ := List.mem_map.mp ht
      exact ⟨p, hp, hc⟩
  obtain ⟨hkn, hget⟩ := sizes_ok hex
  have hgetl : ∀ c, (∃ t ∈ inputs, c ∈ t) → (sizes (inputs.zip arrays)).get! c = .ok (size c) := by
    intro c hc
    unfold Dict.get!
    rw [hget, if_pos ((hocc c).mpr hc)]
  have hkeys : ∀ c, c ∈ (sizes (inputs.zip arrays)).keys ↔ ∃ t ∈ inputs, c ∈ t := by
    intro c
    rw [Dict.mem_keys, ← hocc, hget]
    split <;> simp_all
  set inner := (sizes (inputs.zip arrays)).keys.filter (fun k => k ∉ output) with hinner
  have hmem : ∀ c, c ∈ inner ↔ (∃ t ∈ inputs, c ∈ t) ∧ c ∉ output := by
    intro c
    rw [hinner, List.mem_filter, hkeys]
    simp
  have hempty : ndindex (inner.map size) = [] := by
    obtain ⟨c, hc, h0⟩ := hzero
    rw [← Finset.mem_toList, (labels_perm inputs output).mem_iff, mem_innerLabels, ← hmem] at hc
    rw [List.eq_nil_iff_forall_not_mem]
    intro k hk
    rw [mem_ndindex] at hk
    have := hk.getD hc
    omega
  have h1 : output.mapM (fun k => (sizes (inputs.zip arrays)).get! k) = .ok (output.map size) :=
    mapM_ok (fun c hc => hgetl c (hsub c hc))
  have h2 : inner.mapM (fun k => (sizes (inputs.zip arrays)).get! k) = .ok (inner.map size) :=
    mapM_ok (fun c hc => hgetl c ((hmem c).mp hc).1)
  have hfree : ∀ x, IsPunct x → x ≠ cComma → x ∉ join [cComma] inputs := by
    intro x hx hxc hm
    rcases mem_join _ _ _ hm with h | ⟨t, ht, h⟩
    · exact hxc (by simpa using h)
    · exact hpunct t ht x h hx
  have hsplit : splitArrow (einsumStrOf inputs output) = [join [cComma] inputs, output] := by
    apply splitArrow_two
    · exact hfree _ (by simp [IsPunct]) (by decide)
    · intro hm
      obtain ⟨t, ht, hc⟩ := hsub _ hm
      exact hpunct t ht _ hc (by simp [IsPunct])
  have hsp : splitOn cComma (join [cComma] inputs) = inputs :=
    splitOn_join _ _ hne (fun t ht hc => hpunct t ht _ hc (by simp [IsPunct]))
  have hentry : ∀ coord, entry (inputs.zip arrays) inner (inner.map size) coord = .error .type := by
    intro coord
    unfold entry
    rw [hempty]
    rfl
  have hun : objectEinsum (einsumStrOf inputs output) arrays =
      ((ndindex (output.map size)).mapM (fun _ : List Nat => (Except.error PyErr.type : Except PyErr α))).bind (fun entries =>
        .ok { shape := output.map size, val := fun coords => (((ndindex (output.map size)).zip entries).lookup coords).getD default }) := by
    unfold objectEinsum
    rw [hsplit]
    simp only [hsp]
    rw [h1]
    simp only [bind, Except.bind]
    rw [← hinner, h2]
    simp only [hentry]
  constructor
  · intro hno
    obtain ⟨c, hc, h0⟩ : ∃ c ∈ output, size c = 0 := by
      by_contra h
      exact hno ⟨hzero, fun c hc => by by_contra h'; exact h ⟨c, hc, by omega⟩⟩
    have hout : ndindex (output.map size) = [] := by
      rw [List.eq_nil_iff_forall_not_mem]
      intro k hk
      rw [mem_ndindex] at hk
      have := hk.getD hc
      omega
    rw [hun, hout]
    refine ⟨_, rfl, rfl, ?_⟩
    intro coords hl hr
    have := mem_ndindex.mpr (inRange_of_get hl hr)
    rw [hout] at this
    simp at this
  · rintro ⟨-, hall⟩
    have hout : ndindex (output.map size) ≠ [] := ndindex_ne_nil (by simpa using hall)
    rw [hun]
    cases ho : ndindex (output.map size) with
    | nil => exact absurd ho hout
    | cons k ks => rfl

/-- The three cases: nothing empty, an empty output, and an empty inner axis under an output that has elements. -/
example : (∃ T, objectEinsum (S "ab,b->a") [⟨[2, 3], fun i => (i.sum : ℤ)⟩, ⟨[3], fun _ => 1⟩] = .ok T ∧ T.shape = [2] ∧ T.val [1] = 6) ∧
    (∃ T, objectEinsum (S "ab,b->a") [⟨[0, 0], fun i => (i.sum : ℤ)⟩, ⟨[0], fun _ => 1⟩] = .ok T ∧ T.shape = [0]) ∧
    objectEinsum (S "ab,b->a") [⟨[2, 0], fun i => (i.sum : ℤ)⟩, ⟨[0], fun _ => 1⟩] = .error .type :=
  ⟨⟨_, rfl, rfl, by decide⟩, ⟨_, rfl, rfl⟩, rfl⟩

end

/-! ## C41 -/

section
open OE.Sharing
variable {C : Type}

/-- What one thread's commands leave behind: the caches of the contexts that are open, the innermost last, and whether the thread has asked for the active
cache since it was last inside a context. `none` if a context is left that was not entered. -/
def contextsAndAsked : List (Cmd C) → List C → Bool → Option (List C × Bool)
  | [], o, asked => some (o, asked)
  | .enter c :: cmds, o, _ => contextsAndAsked cmds (o ++ [c]) false
  | .leave :: cmds, o, _ => if o.isEmpty then none else contextsAndAsked cmds o.dropLast false
  | .getCache :: cmds, o, asked => contextsAndAsked cmds o (o.isEmpty || asked)

theorem contextsAndAsked_append (a b : List (Cmd C)) (l : List C) (q : Bool) :
    contextsAndAsked (a ++ b) l q = (contextsAndAsked a l q).bind (fun p => contextsAndAsked b p.1 p.2) := by
  induction a generalizing l q with
  | nil => rfl
  | cons cmd a ih =>
    cases cmd with
    | enter c => exact ih _ _
    | leave =>
      simp only [List.cons_append, contextsAndAsked]
      split
      · rfl
      · exact ih _ _
    | getCache => exact ih _ _

/-- Between two commands: the entry of a thread that is inside `o` and has, or has not, asked for the cache outside since. -/
def entryOf (o : List C) (asked : Bool) : Option (List C) := if o ≠ [] ∨ asked = true then some o else none

structure ThreadAll (prog₀ : List (Cmd C)) (entry : Option (List C)) (pc : Pc C) (rest : List (Cmd C)) (begun : List (Cmd C)) : Prop where
  split : prog₀ = begun ++ rest
  state : ∃ o asked, contextsAndAsked begun [] false = some (o, asked) ∧
    match pc with
    | .idle => entry = entryOf o asked
    | .append c => asked = false ∧ ∃ o', o = o' ++ [c] ∧ entry = some o'
    | .pop => asked = false ∧ ∃ c, entry = some (o ++ [c])
    | .check => asked = false ∧ entry = some o
    | .del => asked = false ∧ o = [] ∧ entry = some []

theorem entryOf_getD (o : List C) (asked : Bool) : (entryOf o asked).getD [] = o := by
  unfold entryOf
  split
  · rfl
  · rename_i h
    push Not at h
    simp [h.1]

theorem get?_del_ne {st : Stack C} {tid t : Nat} (ht : t ≠ tid) : (st.del tid).get? t = st.get? t := by
  unfold Dict.del
  induction st with
  | nil => rfl
  | cons p d ih =>
    obtain ⟨k, v⟩ := p
    by_cases hk : k = tid
    · subst hk
      rw [List.filter_cons_of_neg (by simp), ih, Dict.get?, if_neg (fun e => ht e.symm)]
    · rw [List.filter_cons_of_pos (by simpa using hk), Dict.get?, Dict.get?, ih]

theorem stepCaught_ok {progs : Nat → List (Cmd C)} (hp : ∀ t, contextsAndAsked (progs t) [] false ≠ none) {s : Sys C} {begun : Nat → List (Cmd C)}
    (h : ∀ t, ThreadAll (progs t) (s.stack.get? t) (s.pc t) (s.prog t) (begun t)) (tid : Nat) :
    ∃ (s' : Sys C) (begun' : Nat → List (Cmd C)), stepCaught s tid = .ok s' ∧
      ∀ t, ThreadAll (progs t) (s'.stack.get? t) (s'.pc t) (s'.prog t) (begun' t) := by
  obtain ⟨hsplit, o, asked, ho, hst⟩ := h tid
  cases hpc : s.pc tid with
  | idle =>
    rw [hpc] at hst
    simp only at hst
    cases hprog : s.prog tid with
    | nil => exact ⟨s, begun, by simp only [stepCaught, stepThread, hpc, hprog], h⟩
    | cons cmd rest =>
      rw [hprog] at hsplit
      have hopen : contextsAndAsked (cmd :: rest) o asked ≠ none := by
        have := hp tid
        rw [hsplit, contextsAndAsked_append, ho] at this
        exact this
      have hnew : progs tid = (begun tid ++ [cmd]) ++ rest := by rw [hsplit]; simp
      have hob : contextsAndAsked (begun tid ++ [cmd]) [] false = contextsAndAsked [cmd] o asked := by rw [contextsAndAsked_append, ho]; rfl
      obtain ⟨_, ht2, ht3⟩ := touch_entry s.stack tid
      have hent : (s.stack.get? tid).getD [] = o := by rw [hst, entryOf_getD]
      let begun' : Nat → List (Cmd C) := fun t => if t = tid then begun tid ++ [cmd] else begun t
      have hb1 : begun' tid = begun tid ++ [cmd] := if_pos rfl
      have hb2 : ∀ t, t ≠ tid → begun' t = begun t := fun t ht => if_neg ht
      cases cmd with
      | enter c =>
        refine ⟨_, begun', by simp only [stepCaught, stepThread, hpc, hprog]; rfl, ?_⟩
        intro t
        by_cases ht : t = tid
        · subst ht
          simp only [if_true, hb1]
          refine ⟨hnew, o ++ [c], false, by rw [hob]; rfl, rfl, o, rfl, ?_⟩
          rw [ht2, hent]
        · simp only [if_neg ht, hb2 t ht, ht3 t ht]
          exact h t
      | leave =>
        have hne : o ≠ [] := by
          intro e; subst e; simp [contextsAndAsked] at hopen
        refine ⟨_, begun', by simp only [stepCaught, stepThread, hpc, hprog]; rfl, ?_⟩
        intro t
        by_cases ht : t = tid
        · subst ht
          simp only [if_true, hb1]
          refine ⟨hnew, o.dropLast, false, by rw [hob]; simp [contextsAndAsked, hne], rfl, o.getLast hne, ?_⟩
          rw [ht2, hent, List.dropLast_append_getLast]
        · simp only [if_neg ht, hb2 t ht, ht3 t ht]
          exact h t
      | getCache =>
        have hget : (getSharingCache s.stack tid).2 = (touch s.stack tid).2 := by
          unfold getSharingCache
          simp only
          split <;> rfl
        refine ⟨_, begun', by simp only [stepCaught, hpc, hprog]; rfl, ?_⟩
        intro t
        by_cases ht : t = tid
        · subst ht
          simp only [if_true, hb1, hpc, hget]
          refine ⟨hnew, o, o.isEmpty || asked, by rw [hob]; rfl, ?_⟩
          show _ = entryOf o (o.isEmpty || asked)
          rw [ht2, hent]
          unfold entryOf
          rw [if_pos]
          cases o <;> simp
        · simp only [if_neg ht, hb2 t ht, hget, ht3 t ht]
          exact h t
  | append c =>
    rw [hpc] at hst
    obtain ⟨rfl, o', rfl, he⟩ := hst
    refine ⟨_, begun, by simp only [stepCaught, stepThread, hpc]; rfl, ?_⟩
    intro t
    by_cases ht : t = tid
    · subst ht
      simp only [if_true, he, Option.getD_some, Dict.get?_set_self]
      refine ⟨hsplit, _, _, ho, ?_⟩
      show _ = entryOf _ _
      unfold entryOf
      rw [if_pos (Or.inl (by simp))]
    · simp only [if_neg ht, Dict.get?_set_ne ht]
      exact h t
  | pop =>
    rw [hpc] at hst
    obtain ⟨rfl, c, he⟩ := hst
    refine ⟨{ s with stack := s.stack.set tid o, pc := fun t => if t = tid then .check else s.pc t }, begun, ?_, ?_⟩
    · simp only [stepCaught, stepThread, hpc, he, Option.getD_some]
      cases hoc : o ++ [c] with
      | nil => simp at hoc
      | cons x xs => simp only [← hoc, List.dropLast_concat]
    · intro t
      by_cases ht : t = tid
      · subst ht
        simp only [if_true, Dict.get?_set_self]
        exact ⟨hsplit, o, false, ho, rfl, rfl⟩
      · simp only [if_neg ht, Dict.get?_set_ne ht]
        exact h t
  | check =>
    rw [hpc] at hst
    obtain ⟨rfl, hst⟩ := hst
    have htouch : touch s.stack tid = (o, s.stack) := by unfold touch; rw [hst]
    cases o with
    | nil =>
      refine ⟨_, begun, by simp only [stepCaught, stepThread, hpc, htouch]; rfl, ?_⟩
      intro t
      by_cases ht : t = tid
      · subst ht
        simp only [if_true]
        exact ⟨hsplit, [], false, ho, rfl, rfl, hst⟩
      · simp only [if_neg ht]
        exact h t
    | cons x xs =>
      refine ⟨_, begun, by simp only [stepCaught, stepThread, hpc, htouch]; rfl, ?_⟩
      intro t
      by_cases ht : t = tid
      · subst ht
        simp only [if_true]
        refine ⟨hsplit, _, _, ho, ?_⟩
        show _ = entryOf _ _
        rw [hst]
        rfl
      · simp only [if_neg ht]
        exact h t
  | del =>
    rw [hpc] at hst
    obtain ⟨rfl, rfl, he⟩ := hst
    refine ⟨{ s with stack := s.stack.del tid, pc := fun t => if t = tid then .idle else s.pc t }, begun, ?_, ?_⟩
    · simp only [stepCaught, stepThread, hpc]
      rw [if_pos (by rw [Dict.has, he]; rfl)]
    · intro t
      by_cases ht : t = tid
      · subst ht
        simp only [if_true]
        refine ⟨hsplit, [], false, ho, ?_⟩
        show _ = entryOf _ _
        rw [show entryOf ([] : List C) false = none from rfl, Dict.get?_eq_none, Dict.mem_keys_del]
        simp
      · simp only [if_neg ht, get?_del_ne ht]
        exact h t

/-- **C41, exactly.** For any programs in which no thread leaves a context it has not entered, and any schedule: no step fails but for
`get_sharing_cache` (whose `IndexError` the thread may catch); and whenever a thread is between two commands, `currently_sharing()` is true exactly if it is inside at least one of
its own contexts or has asked for the active cache since it was last inside one; and `get_sharing_cache()` is the cache of its innermost context, or raises `IndexError` if
there is none. -/
theorem C41_sharing_stack_exactly (progs : Nat → List (Cmd C)) (hp : ∀ t, contextsAndAsked (progs t) [] false ≠ none) (sched : List Nat) :
    ∃ s, runCaught (start progs) sched = .ok s ∧ ∀ t, s.pc t = .idle →
      ∃ done, progs t = done ++ s.prog t ∧ ∃ o asked, contextsAndAsked done [] false = some (o, asked) ∧
        (currentlySharing s.stack t = true ↔ o ≠ [] ∨ asked = true) ∧
        (∀ (h : o ≠ []), (getSharingCache s.stack t).1 = .ok (o.getLast h)) ∧
        (o = [] → (getSharingCache s.stack t).1 = .error .index) := by
  have h0 : ∀ t, ThreadAll (progs t) ((start progs).stack.get? t) ((start progs).pc t) ((start progs).prog t) [] :=
    fun t => ⟨rfl, [], false, rfl, rfl⟩
  have run : ∀ (sched : List Nat) (s : Sys C) (begun : Nat → List (Cmd C)),
      (∀ t, ThreadAll (progs t) (s.stack.get? t) (s.pc t) (s.prog t) (begun t)) →
      ∃ (s' : Sys C) (begun' : Nat → List (Cmd C)), runCaught s sched = .ok s' ∧
        ∀ t, ThreadAll (progs t) (s'.stack.get? t) (s'.pc t) (s'.prog t) (begun' t) := by
    intro sched
    induction sched with
    | nil => exact fun s begun h => ⟨s, begun, rfl, h⟩
    | cons tid sched ih =>
      intro s begun h
      obtain ⟨s', begun', h1, h2⟩ := stepCaught_ok hp h tid
      obtain ⟨s'', begun'', h3, h4⟩ := ih s' begun' h2
      refine ⟨s'', begun'', ?_, h4⟩
      simp only [runCaught, h1]
      exact h3
  obtain ⟨s, begun, h1, h2⟩ := run sched _ _ h0
  refine ⟨s, h1, ?_⟩
  intro t ht
  obtain ⟨hsplit, o, asked, ho, hst⟩ := h2 t
  rw [ht] at hst
  simp only at hst
  have hget : (getSharingCache s.stack t).1 = match o.getLast? with
      | some c => .ok c
      | none => .error .index := by
    have := (touch_entry s.stack t).1
    rw [hst, entryOf_getD] at this
    unfold getSharingCache
    simp only [this]
    cases o.getLast? <;> rfl
  refine ⟨begun t, hsplit, o, asked, ho, ?_, ?_, ?_⟩
  · unfold currentlySharing Dict.has
    rw [hst]
    unfold entryOf
    split
    · rename_i hc
      simpa using hc
    · rename_i hc
      simpa using hc
  · intro hne
    rw [hget, List.getLast?_eq_getLast_of_ne_nil hne]
  · intro he
    rw [hget, he]
    rfl

/-- Thread 0 asks for the cache outside, which makes it count as sharing until it has entered and left a context; thread 1 notices nothing. -/
example : let progs : Nat → List (Cmd Nat) := fun t => if t = 0 then [.getCache, .enter 7, .leave] else if t = 1 then [.enter 20, .leave] else []
    (∀ t, contextsAndAsked (progs t) [] false ≠ none) ∧
    (runCaught (start progs) [0]).map (fun s => (currentlySharing s.stack 0, currentlySharing s.stack 1)) = .ok (true, false) ∧
    (runCaught (start progs) [0, 1, 0, 1, 0, 0, 0, 0, 0]).map (fun s => (currentlySharing s.stack 0, currentlySharing s.stack 1)) = .ok (false, true) := by
  refine ⟨?_, rfl, rfl⟩
  intro t
  by_cases h0 : t = 0
  · subst h0; simp [contextsAndAsked]
  · by_cases h1 : t = 1
    · subst h1; simp [contextsAndAsked]
    · simp [h0, h1, contextsAndAsked]

end

end OE.Props
