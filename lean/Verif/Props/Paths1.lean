import Verif.Model.PathConv
import Verif.Lemmas.Unselected
import Verif.Lemmas.Strings

/-!
# C11, C12: conversions between the two kinds of path
-/

namespace OE.Props
open OE OE.Py OE.Spec OE.Paths

/-! ## Sorting and bisection -/

theorem sorted_strict {l : List Nat} (h : l.Nodup) : (sorted l).Pairwise (· < ·) := by
  have h1 := sorted_pairwise l
  have h2 : (sorted l).Nodup := (sorted_perm l).nodup_iff.mpr h
  exact (h1.and h2).imp (fun ⟨a, b⟩ => by omega)

theorem strict_ext {l₁ l₂ : List Nat} (h₁ : l₁.Pairwise (· ≤ ·)) (h₂ : l₂.Pairwise (· ≤ ·)) (h : l₁.Perm l₂) : l₁ = l₂ :=
  h.eq_of_pairwise (le := (· ≤ ·)) (fun _ _ _ _ a b => Nat.le_antisymm a b) h₁ h₂

theorem sorted_of_pairwise {l : List Nat} (h : l.Pairwise (· ≤ ·)) : sorted l = l :=
  strict_ext (sorted_pairwise l) h (sorted_perm l)

theorem sorted_of_perm {l m : List Nat} (h : l.Perm m) : sorted l = sorted m :=
  strict_ext (sorted_pairwise l) (sorted_pairwise m) ((sorted_perm l).trans (h.trans (sorted_perm m).symm))

theorem sorted_reverse (l : List Nat) : (sorted l).reverse = sortedDesc l := by
  apply pairwise_ge_ext
  · rw [List.pairwise_reverse]; exact sorted_pairwise l
  · exact sortedDesc_pairwise l
  · exact (List.reverse_perm _).trans ((sorted_perm l).trans (sortedDesc_perm l).symm)

theorem bisectLeft_eq {ids : List Nat} (h : ids.Pairwise (· < ·)) {s : Nat} (hs : s ∈ ids) : bisectLeft ids s = ids.idxOf s := by
  unfold bisectLeft
  induction ids with
  | nil => simp at hs
  | cons a t ih =>
    rw [List.pairwise_cons] at h
    rcases List.mem_cons.mp hs with rfl | hm
    · simp
    · have := h.1 s hm
      rw [List.takeWhile_cons_of_pos (by simpa using this), List.length_cons, ih h.2 hm, List.idxOf_cons_ne _ (by omega)]

theorem idxOf_map_nodup {ids scon : List Nat} (hs : ∀ x ∈ scon, x ∈ ids) (hn : scon.Nodup) : (scon.map ids.idxOf).Nodup := by
  rw [List.nodup_map_iff_inj_on hn]
  intro a ha b hb hab
  exact (List.idxOf_inj (hs a ha)).mp hab

/-! ## The invariant -/

/-- `ids` lists the live ids below `next` in increasing order. -/
structure Ids (ids : List Nat) (next : Nat) : Prop where
  inc : ids.Pairwise (· < ·)
  lt : ∀ x ∈ ids, x < next

theorem Ids.nodup {ids : List Nat} {next : Nat} (h : Ids ids next) : ids.Nodup := h.inc.imp (fun h => Nat.ne_of_lt h)

theorem ids_range (n : Nat) : Ids (List.range n) n := ⟨List.pairwise_lt_range, fun _ hx => List.mem_range.mp hx⟩

theorem Ids.step {ids : List Nat} {next : Nat} (h : Ids ids next) (scon : List Nat) :
    Ids (ids.filter (· ∉ scon) ++ [next]) (next + 1) := by
  constructor
  · rw [List.pairwise_append]
    refine ⟨h.inc.filter _, by simp, ?_⟩
    intro a ha b hb
    rw [List.mem_singleton] at hb
    subst hb
    exact h.lt a (List.mem_filter.mp ha).1
  · intro x hx
    rw [List.mem_append, List.mem_singleton] at hx
    rcases hx with hx | rfl
    · have := h.lt x (List.mem_filter.mp hx).1; omega
    · omega

theorem step_toFinset (ids scon : List Nat) (next : Nat) :
    (ids.filter (· ∉ scon) ++ [next]).toFinset = insert next (ids.toFinset \ scon.toFinset) := by
  ext x
  simp only [List.mem_toFinset, List.mem_append, List.mem_filter, decide_eq_true_eq, List.mem_singleton, Finset.mem_insert,
    Finset.mem_sdiff]
  tauto

/-- Removing the positions of `scon` removes `scon`. -/
theorem unselected_positions {ids scon : List Nat} (hids : ids.Nodup) (hs : ∀ x ∈ scon, x ∈ ids) {con : List Nat}
    (hcon : ∀ i, i ∈ con ↔ i ∈ scon.map ids.idxOf) : unselected ids con = ids.filter (· ∉ scon) := by
  rw [unselected_eq_filter hids]
  apply List.filter_congr
  intro x hx
  simp only [decide_eq_decide, not_iff_not, hcon, List.mem_map]
  constructor
  · rintro ⟨y, hy, hxy⟩
    rw [← (List.idxOf_inj (hs y hy)).mp hxy]; exact hy
  · intro h; exact ⟨x, h, rfl⟩

/-- The tensors of the linear path are those of the ids. -/
def Holds {α : Type} (store : List α) (ids : List Nat) (l : List α) : Prop := l.map some = ids.map (fun i => store[i]?)

theorem Holds.get {α : Type} {store l : List α} {ids : List Nat} (h : Holds store ids l) {i : Nat} (hi : i < ids.length) :
    l[i]? = store[ids[i]]? := by
  have h1 : (l.map some)[i]? = (ids.map (fun i => store[i]?))[i]? := by rw [h]
  rw [List.getElem?_map, List.getElem?_map, List.getElem?_eq_getElem hi] at h1
  have hlen : l.length = ids.length := by
    have := congrArg List.length h
    simpa using this
  rw [List.getElem?_eq_getElem (by omega)] at h1 ⊢
  simpa using h1

theorem Holds.length {α : Type} {store l : List α} {ids : List Nat} (h : Holds store ids l) : l.length = ids.length := by
  have := congrArg List.length h
  simpa using this

theorem Holds.pick {α : Type} {store l : List α} {ids scon con : List Nat} (h : Holds store ids l)
    (hs : ∀ x ∈ scon, x ∈ ids) (hcon : con.Perm (scon.map ids.idxOf)) : pick l con = pick store scon := by
  rw [pick_perm l hcon]
  unfold Spec.pick
  rw [List.filterMap_map]
  congr 1
  apply List.filterMap_congr
  intro x hx
  simp only [Function.comp_apply]
  have hi := List.idxOf_lt_length_of_mem (hs x hx)
  rw [h.get hi, List.getElem_idxOf]

theorem Holds.step {α : Type} {store l : List α} {ids scon con : List Nat} {next : Nat} (h : Holds store ids l)
    (hids : Ids ids next) (hstore : store.length = next)
    (hs : ∀ x ∈ scon, x ∈ ids) (hcon : ∀ i, i ∈ con ↔ i ∈ scon.map ids.idxOf) (v : α) :
    Holds (store ++ [v]) (ids.filter (· ∉ scon) ++ [next]) (unselected l con ++ [v]) := by
  unfold Holds at *
  rw [List.map_append, List.map_append, ← unselected_map, h, ← unselected_positions hids.nodup hs hcon, unselected_map]
  congr 1
  · apply List.map_congr_left
    intro x hx
    rw [unselected_positions hids.nodup hs hcon, List.mem_filter] at hx
    rw [List.getElem?_append_left (by rw [hstore]; exact hids.lt x hx.1)]
  · simp [← hstore]

/-! ## `ssa_to_linear` -/

theorem sum_length_map_sorted (q : Path) : (q.map sorted).map List.length = q.map List.length := by
  rw [List.map_map]
  apply List.map_congr_left
  intro p _
  simp [(sorted_perm p).length_eq]

/-- The linear positions of a step: `con` of paths.py:105. -/
theorem con_facts {ids scon : List Nat} {next : Nat} (hids : Ids ids next) (hs : ∀ x ∈ scon, x ∈ ids) (hn : scon.Nodup) :
    (sorted (scon.map (bisectLeft ids))).Perm (scon.map ids.idxOf) ∧
    (sorted (scon.map (bisectLeft ids))).Nodup ∧ (∀ i ∈ sorted (scon.map (bisectLeft ids)), i < ids.length) := by
  have he : scon.map (bisectLeft ids) = scon.map ids.idxOf := List.map_congr_left (fun x hx => bisectLeft_eq hids.inc (hs x hx))
  rw [he]
  have hp := sorted_perm (scon.map ids.idxOf)
  refine ⟨hp, hp.nodup_iff.mpr (idxOf_map_nodup hs hn), ?_⟩
  intro i hi
  obtain ⟨x, hx, rfl⟩ := List.mem_map.mp (hp.mem_iff.mp hi)
  exact List.idxOf_lt_length_of_mem (hs x hx)

theorem ssaLoop_step {ids scon : List Nat} {next : Nat} (hids : Ids ids next) (hs : ∀ x ∈ scon, x ∈ ids) (hn : scon.Nodup) (rest : Path) :
    ssaLoop ids next (scon :: rest) =
      (ssaLoop (ids.filter (· ∉ scon) ++ [next]) (next + 1) rest).map (fun q => sorted (scon.map (bisectLeft ids)) :: q) := by
  obtain ⟨h1, h2, h3⟩ := con_facts hids hs hn
  rw [ssaLoop, sorted_reverse]
  have hd : sortedDesc (scon.map (bisectLeft ids)) = sortedDesc (sorted (scon.map (bisectLeft ids))) :=
    sortedDesc_of_perm (sorted_perm _).symm
  rw [hd]
  obtain ⟨P, Q, hPQ⟩ := popAll_valid (l := ids) h2 h3
  have hQ := (popAll_selected h2 hPQ).2
  rw [unselected_positions hids.nodup hs (fun i => h1.mem_iff)] at hQ
  simp only [hPQ, bind, Except.bind, ← hQ]
  cases ssaLoop (Q ++ [next]) (next + 1) rest <;> rfl

theorem ssaLoop_spec (path : Path) {ids : List Nat} {next : Nat} (hids : Ids ids next) (hv : SsaValid ids.toFinset next path) :
    ∃ q, ssaLoop ids next path = .ok q ∧ ValidPath ids.length q ∧ (∀ p ∈ q, p.Pairwise (· < ·)) ∧
      q.map List.length = path.map List.length ∧
      ∀ (α : Type) (combine : Multiset α → α) (store l : List α), store.length = next → Holds store ids l →
        linTrace combine l q = ssaTrace combine store path := by
  induction path generalizing ids next with
  | nil => exact ⟨[], rfl, trivial, by simp, rfl, fun _ _ _ _ _ _ => rfl⟩
  | cons scon rest ih =>
    obtain ⟨hne, hn, hs, hrest⟩ := hv
    have hs' : ∀ x ∈ scon, x ∈ ids := fun x hx => List.mem_toFinset.mp (hs x hx)
    rw [← step_toFinset] at hrest
    obtain ⟨q, hq, hvq, hsort, hlen, htr⟩ := ih (hids.step scon) hrest
    obtain ⟨h1, h2, h3⟩ := con_facts hids hs' hn
    refine ⟨sorted (scon.map (bisectLeft ids)) :: q, ?_, ⟨⟨?_, h2, h3⟩, ?_⟩, ?_, ?_, ?_⟩
    · rw [ssaLoop_step hids hs' hn, hq]; rfl
    · intro h0
      rw [h0] at h1
      exact hne (by simpa using h1.symm)
    · have hl := unselected_length h2 h3
      rw [unselected_positions hids.nodup hs' (fun i => h1.mem_iff)] at hl
      have : (ids.filter (· ∉ scon) ++ [next]).length = ids.length + 1 - (sorted (scon.map (bisectLeft ids))).length := by
        rw [List.length_append, List.length_singleton]; omega
      rw [← this]; exact hvq
    · intro p hp
      rcases List.mem_cons.mp hp with rfl | hp
      · have he : scon.map (bisectLeft ids) = scon.map ids.idxOf := List.map_congr_left (fun x hx => bisectLeft_eq hids.inc (hs' x hx))
        rw [he]
        exact sorted_strict (idxOf_map_nodup hs' hn)
      · exact hsort p hp
    · simp only [List.map_cons, hlen, (sorted_perm _).length_eq, List.length_map]
    · intro α combine store l hst hl
      simp only [linTrace, ssaTrace]
      rw [hl.pick hs' h1]
      congr 1
      apply htr
      · simp [hst]
      · exact hl.step hids hst hs' (fun i => h1.mem_iff) _

/-! ## `linear_to_ssa` -/

theorem mapM_get {ids con : List Nat} (h : ∀ i ∈ con, i < ids.length) :
    con.mapM (getId ids) = .ok (con.map (fun i => ids.getD i 0)) := by
  induction con with
  | nil => rfl
  | cons a t ih =>
    rw [List.mapM_cons, ih (fun i hi => h i (List.mem_cons_of_mem _ hi))]
    rw [getId, List.getElem?_eq_getElem (h a (by simp))]
    simp only [bind, Except.bind, pure, Except.pure, List.map_cons]
    rw [List.getD_eq_getElem?_getD, List.getElem?_eq_getElem (h a (by simp))]
    rfl

theorem getD_facts {ids con : List Nat} {next : Nat} (hids : Ids ids next) (hn : con.Nodup) (h : ∀ i ∈ con, i < ids.length) :
    (con.map (fun i => ids.getD i 0)).Nodup ∧ (∀ x ∈ con.map (fun i => ids.getD i 0), x ∈ ids) ∧
    (con.map (fun i => ids.getD i 0)).map ids.idxOf = con := by
  have hg : ∀ i ∈ con, ∃ hi : i < ids.length, ids.getD i 0 = ids[i] := by
    intro i hi
    refine ⟨h i hi, ?_⟩
    rw [List.getD_eq_getElem?_getD, List.getElem?_eq_getElem (h i hi)]; rfl
  have h3 : (con.map (fun i => ids.getD i 0)).map ids.idxOf = con := by
    rw [List.map_map]
    conv_rhs => rw [← List.map_id con]
    apply List.map_congr_left
    intro i hi
    obtain ⟨hi', he⟩ := hg i hi
    simp only [Function.comp_apply, he, id]
    exact hids.nodup.idxOf_getElem _ _
  refine ⟨?_, ?_, h3⟩
  · apply List.Nodup.of_map ids.idxOf
    rw [h3]; exact hn
  · intro x hx
    obtain ⟨i, hi, rfl⟩ := List.mem_map.mp hx
    obtain ⟨hi', he⟩ := hg i hi
    rw [he]; exact List.getElem_mem _

theorem linLoop_step {ids con : List Nat} {next : Nat} (hids : Ids ids next) (hn : con.Nodup) (h : ∀ i ∈ con, i < ids.length) (rest : Path) :
    linLoop ids next (con :: rest) =
      (linLoop (ids.filter (· ∉ con.map (fun i => ids.getD i 0)) ++ [next]) (next + 1) rest).map
        (fun q => con.map (fun i => ids.getD i 0) :: q) := by
  obtain ⟨g1, g2, g3⟩ := getD_facts hids hn h
  rw [linLoop, mapM_get h]
  obtain ⟨P, Q, hPQ⟩ := popAll_valid (l := ids) hn h
  have hQ := (popAll_selected hn hPQ).2
  rw [unselected_positions hids.nodup g2 (fun i => by rw [g3])] at hQ
  simp only [hPQ, bind, Except.bind, ← hQ]
  cases linLoop (Q ++ [next]) (next + 1) rest <;> rfl

theorem linLoop_spec (q : Path) {ids : List Nat} {next : Nat} (hids : Ids ids next) (hv : ValidPath ids.length q) :
    ∃ path, linLoop ids next q = .ok path ∧ SsaValid ids.toFinset next path ∧ path.map List.length = q.map List.length ∧
      ssaLoop ids next path = .ok (q.map sorted) ∧
      ∀ (α : Type) (combine : Multiset α → α) (store l : List α), store.length = next → Holds store ids l →
        ssaTrace combine store path = linTrace combine l q := by
  induction q generalizing ids next with
  | nil => exact ⟨[], rfl, trivial, rfl, rfl, fun _ _ _ _ _ _ => rfl⟩
  | cons con rest ih =>
    obtain ⟨⟨hne, hn, hlt⟩, hrest⟩ := hv
    obtain ⟨g1, g2, g3⟩ := getD_facts hids hn hlt
    have hl := unselected_length hn hlt
    rw [unselected_positions hids.nodup g2 (fun i => by rw [g3])] at hl
    have hle : (ids.filter (· ∉ con.map (fun i => ids.getD i 0)) ++ [next]).length = ids.length + 1 - con.length := by
      rw [List.length_append, List.length_singleton]; omega
    rw [← hle] at hrest
    obtain ⟨path, hp, hvp, hlen, hback, htr⟩ := ih (hids.step _) hrest
    refine ⟨con.map (fun i => ids.getD i 0) :: path, ?_, ⟨?_, g1, ?_, ?_⟩, ?_, ?_, ?_⟩
    · rw [linLoop_step hids hn hlt, hp]; rfl
    · simpa using hne
    · intro x hx; exact List.mem_toFinset.mpr (g2 x hx)
    · rw [← step_toFinset]; exact hvp
    · simp [hlen]
    · rw [ssaLoop_step hids g2 g1, hback]
      have he : (con.map (fun i => ids.getD i 0)).map (bisectLeft ids) = con := by
        rw [List.map_congr_left (fun x hx => bisectLeft_eq hids.inc (g2 x hx)), g3]
      rw [he]; rfl
    · intro α combine store l hst hho
      simp only [linTrace, ssaTrace]
      rw [← hho.pick (con := con) g2 (by rw [g3])]
      congr 1
      apply htr
      · simp [hst]
      · exact hho.step hids hst g2 (fun i => by rw [g3]) _

theorem linLoop_ssaLoop (path : Path) {ids : List Nat} {next : Nat} (hids : Ids ids next) (hv : SsaValid ids.toFinset next path) :
    ∃ q, ssaLoop ids next path = .ok q ∧ linLoop ids next q = .ok (path.map sorted) := by
  induction path generalizing ids next with
  | nil => exact ⟨[], rfl, rfl⟩
  | cons scon rest ih =>
    obtain ⟨hne, hn, hs, hrest⟩ := hv
    have hs' : ∀ x ∈ scon, x ∈ ids := fun x hx => List.mem_toFinset.mp (hs x hx)
    rw [← step_toFinset] at hrest
    obtain ⟨q, hq, hback⟩ := ih (hids.step scon) hrest
    obtain ⟨h1, h2, h3⟩ := con_facts hids hs' hn
    refine ⟨sorted (scon.map (bisectLeft ids)) :: q, by rw [ssaLoop_step hids hs' hn, hq]; rfl, ?_⟩
    rw [linLoop_step hids h2 h3]
    -- the ids at the sorted positions are the sorted ids
    have he : (sorted (scon.map (bisectLeft ids))).map (fun i => ids.getD i 0) = sorted scon := by
      obtain ⟨g1, g2, g3⟩ := getD_facts hids h2 h3
      apply strict_ext
      · rw [List.pairwise_map]
        apply List.Pairwise.imp_of_mem _ (sorted_pairwise _)
        intro a b ha hb hab
        have ha' := h3 a ha
        have hb' := h3 b hb
        rw [List.getD_eq_getElem?_getD, List.getD_eq_getElem?_getD, List.getElem?_eq_getElem ha', List.getElem?_eq_getElem hb']
        simp only [Option.getD_some]
        rcases Nat.lt_or_eq_of_le hab with h | h
        · exact Nat.le_of_lt (List.pairwise_iff_getElem.mp hids.inc a b ha' hb' h)
        · subst h; exact Nat.le_refl _
      · exact sorted_pairwise _
      · refine (h1.map _).trans (List.Perm.trans ?_ (sorted_perm scon).symm)
        rw [List.map_map]
        conv_rhs => rw [← List.map_id scon]
        have : scon.map ((fun i => ids.getD i 0) ∘ ids.idxOf) = scon.map id := by
          apply List.map_congr_left
          intro x hx
          have := List.idxOf_lt_length_of_mem (hs' x hx)
          simp only [Function.comp_apply, List.getD_eq_getElem?_getD, id]
          rw [List.getElem?_eq_getElem this, List.getElem_idxOf]
          rfl
        rw [this]
    rw [he]
    have hf : ids.filter (· ∉ sorted scon) = ids.filter (· ∉ scon) := by
      apply List.filter_congr
      intro x _
      simp only [(sorted_perm scon).mem_iff]
    rw [hf, hback]
    rfl

/-! ## Complete paths -/

theorem completePath_iff (n : Nat) (path : Path) :
    CompletePath n path ↔ path ≠ [] ∧ ValidPath n path ∧ (path.map List.length).sum + 1 = n + path.length := by
  induction path generalizing n with
  | nil => simp [CompletePath]
  | cons p ps ih =>
    cases ps with
    | nil =>
      simp only [CompletePath, ValidPath, ne_eq, reduceCtorEq, not_false_eq_true, true_and, and_true, List.map_cons,
        List.map_nil, List.sum_cons, List.sum_nil, List.length_cons, List.length_nil]
      apply and_congr_right
      intro _; omega
    | cons q qs =>
      rw [CompletePath, ih, ValidPath]
      simp only [ne_eq, reduceCtorEq, not_false_eq_true, true_and, List.map_cons, List.sum_cons, List.length_cons]
      constructor
      · rintro ⟨h1, h2, h3⟩
        have : p.length ≤ n := by
          have := List.Subperm.length_le (h1.2.1.subperm (l₂ := List.range n) (fun x hx => List.mem_range.mpr (h1.2.2 x hx)))
          simpa using this
        exact ⟨⟨h1, h2⟩, by omega⟩
      · rintro ⟨⟨h1, h2⟩, h3⟩
        have : p.length ≤ n := by
          have := List.Subperm.length_le (h1.2.1.subperm (l₂ := List.range n) (fun x hx => List.mem_range.mpr (h1.2.2 x hx)))
          simpa using this
        exact ⟨h1, h2, by omega⟩

theorem numInputs_eq {n : Nat} {path : Path} (h : (path.map List.length).sum + 1 = n + path.length) : numInputs path = n := by
  unfold numInputs; omega

theorem range_toFinset (n : Nat) : (List.range n).toFinset = Finset.range n := by ext; simp

theorem holds_range {α : Type} {ts : List α} {n : Nat} (h : ts.length = n) : Holds ts (List.range n) ts := by
  unfold Holds
  apply List.ext_getElem?
  intro i
  rw [List.getElem?_map, List.getElem?_map]
  by_cases hi : i < n
  · rw [List.getElem?_eq_getElem (by omega), List.getElem?_eq_getElem (by simpa using hi)]
    simp [hi, h]
  · rw [List.getElem?_eq_none (by omega), List.getElem?_eq_none (by simpa using hi)]; rfl

/-- The operands left by a path end with the result of its last step. -/
theorem linExec_last {α : Type} (combine : Multiset α → α) (q : Path) (l : List α) (m : Multiset α)
    (h : (linTrace combine l q).getLast? = some m) : (linExec combine l q).getLast? = some (combine m) := by
  induction q generalizing l with
  | nil => simp [linTrace] at h
  | cons p ps ih =>
    simp only [linTrace, linExec] at *
    cases ps with
    | nil =>
      simp only [linTrace, List.getLast?_singleton, Option.some.injEq] at h
      simp [linExec, h]
    | cons p' ps' =>
      apply ih
      rw [List.getLast?_cons] at h
      simp only [linTrace, List.getLast?_cons] at h ⊢
      simpa using h

theorem linExec_length {α : Type} (combine : Multiset α → α) (q : Path) (l : List α) (hv : ValidPath l.length q) :
    (linExec combine l q).length + (q.map List.length).sum = l.length + q.length := by
  induction q generalizing l with
  | nil => simp [linExec]
  | cons p ps ih =>
    obtain ⟨h1, h2⟩ := hv
    have hl := unselected_length h1.2.1 h1.2.2
    have hle : (unselected l p ++ [combine (pick l p)]).length = l.length + 1 - p.length := by
      rw [List.length_append, List.length_singleton]; omega
    have := ih _ (by rw [hle]; exact h2)
    simp only [linExec, List.map_cons, List.sum_cons, List.length_cons]
    rw [hle] at this
    omega

/-- **C11.** `ssa_to_linear` of a complete path with static single assignment ids on `n` tensors is a path with
recycled positions (contracted in the same order of steps, positions of each step increasing) that performs exactly
the same contractions, whatever a tensor is and whatever contracting means, and ends with the same single result. -/
theorem C11_ssa_to_linear {n : Nat} {path : Path} (h : SsaComplete n path) (hne : path ≠ []) :
    ∃ q, ssaToLinear path = .ok q ∧ CompletePath n q ∧ (∀ p ∈ q, p.Pairwise (· < ·)) ∧
      q.map List.length = path.map List.length ∧
      ∀ (α : Type) (combine : Multiset α → α) (ts : List α), ts.length = n →
        linTrace combine ts q = ssaTrace combine ts path ∧
        ∃ last, (ssaTrace combine ts path).getLast? = some last ∧ linExec combine ts q = [combine last] := by
  obtain ⟨hv, hsum⟩ := h
  rw [← range_toFinset] at hv
  obtain ⟨q, hq, hvq, hsort, hlen, htr⟩ := ssaLoop_spec path (ids_range n) hv
  rw [List.length_range] at hvq
  have hql : q.length = path.length := by simpa using congrArg List.length hlen
  have hqne : q ≠ [] := by
    intro h0; rw [h0] at hql; exact hne (by simpa using hql.symm)
  refine ⟨q, ?_, ?_, hsort, hlen, ?_⟩
  · unfold ssaToLinear
    rw [numInputs_eq hsum]; exact hq
  · rw [completePath_iff]
    exact ⟨hqne, hvq, by rw [hlen, hql]; exact hsum⟩
  · intro α combine ts hts
    have ht := htr α combine ts ts hts (holds_range hts)
    refine ⟨ht, ?_⟩
    have hne' : ssaTrace combine ts path ≠ [] := by
      cases path with
      | nil => exact absurd rfl hne
      | cons a b => simp [ssaTrace]
    refine ⟨(ssaTrace combine ts path).getLast hne', List.getLast?_eq_some_getLast hne', ?_⟩
    have hl := linExec_length combine q ts (by rw [hts]; exact hvq)
    have h1 : (linExec combine ts q).length = 1 := by rw [hlen, hql] at hl; omega
    have h2 := linExec_last combine q ts _ (by rw [ht]; exact List.getLast?_eq_some_getLast hne')
    obtain ⟨x, hx⟩ := List.length_eq_one_iff.mp h1
    rw [hx] at h2 ⊢
    simpa using h2

/-- **C12, first half.** `linear_to_ssa` of a complete path is a complete path with static single assignment ids that
performs the same contractions, and `ssa_to_linear` brings the path back with each step's positions sorted. -/
theorem C12_linear_to_ssa {n : Nat} {q : Path} (h : CompletePath n q) :
    ∃ path, linearToSsa q = .ok path ∧ SsaComplete n path ∧ ssaToLinear path = .ok (q.map sorted) ∧
      ∀ (α : Type) (combine : Multiset α → α) (ts : List α), ts.length = n →
        ssaTrace combine ts path = linTrace combine ts q := by
  obtain ⟨_, hv, hsum⟩ := (completePath_iff n q).mp h
  obtain ⟨path, hp, hvp, hlen, hback, htr⟩ := linLoop_spec q (ids_range n) (by rw [List.length_range]; exact hv)
  have hpl : path.length = q.length := by simpa using congrArg List.length hlen
  have hsum' : (path.map List.length).sum + 1 = n + path.length := by rw [hlen, hpl]; exact hsum
  refine ⟨path, ?_, ⟨by rw [← range_toFinset]; exact hvp, hsum'⟩, ?_, ?_⟩
  · unfold linearToSsa
    rw [numInputs_eq hsum]; exact hp
  · unfold ssaToLinear
    rw [numInputs_eq hsum']; exact hback
  · intro α combine ts hts
    exact htr α combine ts ts hts (holds_range hts)

/-- **C12, second half.** `linear_to_ssa(ssa_to_linear(path))` is `path` with each step's ids sorted. -/
theorem C12_ssa_round_trip {n : Nat} {path : Path} (h : SsaComplete n path) :
    ∃ q, ssaToLinear path = .ok q ∧ linearToSsa q = .ok (path.map sorted) := by
  obtain ⟨hv, hsum⟩ := h
  rw [← range_toFinset] at hv
  obtain ⟨q, hq, hback⟩ := linLoop_ssaLoop path (ids_range n) hv
  obtain ⟨q', hq', _, _, hlen, _⟩ := ssaLoop_spec path (ids_range n) hv
  rw [hq] at hq'
  cases hq'
  have hql : q.length = path.length := by simpa using congrArg List.length hlen
  refine ⟨q, ?_, ?_⟩
  · unfold ssaToLinear
    rw [numInputs_eq hsum]; exact hq
  · unfold linearToSsa
    rw [numInputs_eq (n := n) (by rw [hlen, hql]; exact hsum)]; exact hback

-- C11, C12: the example of the documentation, and a path with a triple and a single contraction
example : SsaComplete 4 [[0, 3], [2, 4], [1, 5]] ∧ ssaToLinear [[0, 3], [2, 4], [1, 5]] = .ok [[0, 3], [1, 2], [0, 1]] ∧
    linearToSsa [[0, 3], [1, 2], [0, 1]] = .ok [[0, 3], [2, 4], [1, 5]] ∧ CompletePath 4 [[0, 3], [1, 2], [0, 1]] := by
  refine ⟨⟨?_, by decide⟩, by decide, by decide, ?_⟩
  · simp only [SsaValid]; decide
  · simp only [CompletePath, ValidStep]; decide
example : SsaComplete 5 [[4, 0, 2], [1], [5, 3, 6]] ∧ ssaToLinear [[4, 0, 2], [1], [5, 3, 6]] = .ok [[0, 2, 4], [0], [0, 1, 2]] := by
  refine ⟨⟨?_, by decide⟩, by decide⟩
  simp only [SsaValid]; decide

end OE.Props
