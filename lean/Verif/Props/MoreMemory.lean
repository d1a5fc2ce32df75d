import Verif.Props.Optimal3
import Verif.Props.AmpleMemory
import Verif.Props.EndToEnd

/-!
# C87: raising the memory limit of `optimal`
-/

namespace OE.Props
open OE OE.Py OE.Spec OE.Paths

/-! ### Contracting all that remains at once costs at least as much as one pair and then all that remains -/

section
variable {size : Nat → Nat} {out rem : Finset Nat} {inputs : List (Finset Nat)} {i j : Nat}

/-- The sizes of the labels of the remaining tensors: positive, and at least 2 for labels that are summed. -/
def SizesOK (size : Nat → Nat) (out : Finset Nat) (inputs : List (Finset Nat)) (rem : Finset Nat) : Prop :=
  ∀ k ∈ rem, ∀ c ∈ inputs.getD k ∅, 0 < size c ∧ (c ∉ out → 2 ≤ size c)

theorem prod_le_prod_within {A B : Finset Nat} (h : A ⊆ B) (hs : ∀ c ∈ B, 0 < size c) : ∏ c ∈ A, size c ≤ ∏ c ∈ B, size c :=
  Finset.prod_le_prod_of_subset_of_one_le' h (fun c hc _ => hs c hc)

theorem pair_subset_all (hi : i ∈ rem) (hj : j ∈ rem) :
    inputs.getD i ∅ ∪ inputs.getD j ∅ ⊆ rem.biUnion (fun k => inputs.getD k ∅) := by
  apply Finset.union_subset
  · exact Finset.subset_biUnion_of_mem (fun k => inputs.getD k ∅) hi
  · exact Finset.subset_biUnion_of_mem (fun k => inputs.getD k ∅) hj

theorem all_pos (hs : SizesOK size out inputs rem) : ∀ c ∈ rem.biUnion (fun k => inputs.getD k ∅), 0 < size c := by
  intro c hc
  obtain ⟨k, hk, hck⟩ := Finset.mem_biUnion.mp hc
  exact (hs k hk c hck).1

theorem step_le_oversize (hs : SizesOK size out inputs rem) (hi : i ∈ rem) (hj : j ∈ rem) (hij : i ≠ j) :
    (calcK12 size inputs out rem i j).2 ≤ oversizeFlops size inputs rem out := by
  have hcard : 2 ≤ rem.card := Finset.one_lt_card.mpr ⟨i, hi, j, hj, hij⟩
  have hsub := pair_subset_all (inputs := inputs) hi hj
  have hle := prod_le_prod_within (size := size) hsub (all_pos hs)
  unfold calcK12 oversizeFlops flopsOf Paths.sizeOf
  simp only
  refine Nat.mul_le_mul hle ?_
  by_cases hin : (inputs.getD i ∅ ∩ inputs.getD j ∅) \ (out ∪ (rem \ {i, j}).biUnion (fun k => inputs.getD k ∅)) ≠ ∅
  · have : rem.biUnion (fun k => inputs.getD k ∅) \ out ≠ ∅ := by
      obtain ⟨c, hc⟩ := Finset.nonempty_iff_ne_empty.mpr hin
      simp only [Finset.mem_sdiff, Finset.mem_inter, Finset.mem_union, not_or] at hc
      apply Finset.nonempty_iff_ne_empty.mp
      exact ⟨c, Finset.mem_sdiff.mpr ⟨hsub (Finset.mem_union_left _ hc.1.1), hc.2.1⟩⟩
    simp only [hin, this, decide_true, if_true, ne_eq, not_false_eq_true]
    omega
  · simp only [hin, decide_false, Bool.false_eq_true, if_false]
    split <;> omega

/-- The labels after the step. -/
theorem child_labels (hlt : ∀ k ∈ rem, k < inputs.length) (k12 : Finset Nat) :
    (insert inputs.length (rem \ {i, j})).biUnion (fun k => (inputs ++ [k12]).getD k ∅) =
      k12 ∪ (rem \ {i, j}).biUnion (fun k => inputs.getD k ∅) := by
  rw [Finset.biUnion_insert]
  congr 1
  · simp [List.getD_eq_getElem?_getD]
  · apply Finset.biUnion_congr rfl
    intro k hk
    have := hlt k (Finset.mem_sdiff.mp hk).1
    simp [List.getD_eq_getElem?_getD, List.getElem?_append_left this]

/-- The inequality for a pair with labels `E`, of which `sh` are shared, and the labels `K` of the other tensors. -/
theorem flops_split {E K sh : Finset Nat} {r : Nat} (hsh : sh ⊆ E) (hs : ∀ c ∈ E ∪ K, 0 < size c ∧ (c ∉ out → 2 ≤ size c)) (h3 : 3 ≤ r) :
    flopsOf size E (decide (sh \ (out ∪ K) ≠ ∅)) 2 + flopsOf size (E ∩ (out ∪ K) ∪ K) (decide ((E ∩ (out ∪ K) ∪ K) \ out ≠ ∅)) (r - 1) ≤
      flopsOf size (E ∪ K) (decide ((E ∪ K) \ out ≠ ∅)) r := by
  have hpos : ∀ c ∈ E ∪ K, 0 < size c := fun c hc => (hs c hc).1
  have hle := prod_le_prod_within (size := size) (Finset.subset_union_left (s₁ := E) (s₂ := K)) hpos
  have hch : E ∩ (out ∪ K) ∪ K ⊆ E ∪ K := by
    intro c hc
    simp only [Finset.mem_union, Finset.mem_inter] at hc ⊢
    tauto
  have hchle := prod_le_prod_within (size := size) hch hpos
  have hflag : (E ∩ (out ∪ K) ∪ K) \ out ≠ ∅ → (E ∪ K) \ out ≠ ∅ := by
    intro h h'
    apply h
    rw [Finset.sdiff_eq_empty_iff_subset] at h' ⊢
    exact hch.trans h'
  obtain ⟨n, rfl⟩ : ∃ n, r = n + 3 := ⟨r - 3, by omega⟩
  unfold flopsOf Paths.sizeOf
  simp only
  rw [show max 1 (2 - 1) = 1 from rfl, show max 1 (n + 3 - 1 - 1) = n + 1 by omega, show max 1 (n + 3 - 1) = n + 2 by omega]
  by_cases hin : sh \ (out ∪ K) ≠ ∅
  · obtain ⟨c, hc⟩ := Finset.nonempty_iff_ne_empty.mpr hin
    simp only [Finset.mem_sdiff, Finset.mem_union, not_or] at hc
    have hcE : c ∈ E := hsh hc.1
    have hcn : c ∉ E ∩ (out ∪ K) ∪ K := by
      simp only [Finset.mem_union, Finset.mem_inter]
      tauto
    have hc2 : 2 ≤ size c := (hs c (Finset.mem_union_left _ hcE)).2 hc.2.1
    have hall' : (E ∪ K) \ out ≠ ∅ := by
      apply Finset.nonempty_iff_ne_empty.mp
      exact ⟨c, Finset.mem_sdiff.mpr ⟨Finset.mem_union_left _ hcE, hc.2.1⟩⟩
    have hhalf : 2 * ∏ c ∈ E ∩ (out ∪ K) ∪ K, size c ≤ ∏ c ∈ E ∪ K, size c := by
      have h1 : insert c (E ∩ (out ∪ K) ∪ K) ⊆ E ∪ K := Finset.insert_subset (Finset.mem_union_left _ hcE) hch
      have h2 := prod_le_prod_within (size := size) h1 hpos
      rw [Finset.prod_insert hcn] at h2
      exact le_trans (Nat.mul_le_mul_right _ hc2) h2
    rw [if_pos (show decide (sh \ (out ∪ K) ≠ ∅) = true by simpa using hin),
      if_pos (show decide ((E ∪ K) \ out ≠ ∅) = true by simpa using hall')]
    have hb : ((∏ c ∈ E ∩ (out ∪ K) ∪ K, size c) * if decide ((E ∩ (out ∪ K) ∪ K) \ out ≠ ∅) = true then n + 1 + 1 else n + 1) ≤
        (∏ c ∈ E ∩ (out ∪ K) ∪ K, size c) * (n + 2) := by
      refine Nat.mul_le_mul_left _ ?_
      split <;> omega
    refine le_trans (Nat.add_le_add (Nat.mul_le_mul_right _ hle) hb) ?_
    generalize ∏ c ∈ E ∪ K, size c = P at *
    generalize ∏ c ∈ E ∩ (out ∪ K) ∪ K, size c = Q at *
    nlinarith
  · rw [if_neg (by simpa using hin), Nat.mul_one]
    have hb : ((∏ c ∈ E ∩ (out ∪ K) ∪ K, size c) * if decide ((E ∩ (out ∪ K) ∪ K) \ out ≠ ∅) = true then n + 1 + 1 else n + 1) ≤
        (∏ c ∈ E ∪ K, size c) * if decide ((E ∪ K) \ out ≠ ∅) = true then n + 1 + 1 else n + 1 := by
      refine Nat.mul_le_mul hchle ?_
      by_cases h1 : (E ∩ (out ∪ K) ∪ K) \ out ≠ ∅
      · rw [if_pos (by simpa using h1), if_pos (by simpa using hflag h1)]
      · rw [if_neg (by simpa using h1)]
        split <;> omega
    refine le_trans (Nat.add_le_add hle hb) ?_
    rw [show ∀ a b : Nat, a + a * b = a * (1 + b) from fun a b => by ring]
    refine Nat.mul_le_mul_left _ ?_
    split <;> omega

theorem step_child_le_oversize (hs : SizesOK size out inputs rem) (hlt : ∀ k ∈ rem, k < inputs.length) (hi : i ∈ rem) (hj : j ∈ rem)
    (hij : i ≠ j) (h3 : 3 ≤ rem.card) :
    (calcK12 size inputs out rem i j).2 +
      oversizeFlops size (inputs ++ [(calcK12 size inputs out rem i j).1]) (insert inputs.length (rem \ {i, j})) out ≤
    oversizeFlops size inputs rem out := by
  have hcc : (insert inputs.length (rem \ {i, j})).card = rem.card - 1 := by
    rw [Finset.card_insert_of_notMem, Finset.card_sdiff_of_subset, Finset.card_pair hij]
    · omega
    · intro x hx
      simp only [Finset.mem_insert, Finset.mem_singleton] at hx
      rcases hx with rfl | rfl <;> assumption
    · intro h
      exact absurd (hlt _ (Finset.mem_sdiff.mp h).1) (lt_irrefl _)
  have hall : rem.biUnion (fun k => inputs.getD k ∅) =
      (inputs.getD i ∅ ∪ inputs.getD j ∅) ∪ (rem \ {i, j}).biUnion (fun k => inputs.getD k ∅) := by
    ext c
    simp only [Finset.mem_biUnion, Finset.mem_union, Finset.mem_sdiff, Finset.mem_insert, Finset.mem_singleton, not_or]
    constructor
    · rintro ⟨k, hk, hc⟩
      by_cases h1 : k = i
      · subst h1; exact Or.inl (Or.inl hc)
      · by_cases h2 : k = j
        · subst h2; exact Or.inl (Or.inr hc)
        · exact Or.inr ⟨k, ⟨hk, h1, h2⟩, hc⟩
    · rintro ((hc | hc) | ⟨k, ⟨hk, _⟩, hc⟩)
      · exact ⟨i, hi, hc⟩
      · exact ⟨j, hj, hc⟩
      · exact ⟨k, hk, hc⟩
  unfold oversizeFlops
  rw [child_labels hlt, hcc, hall]
  refine flops_split (fun c hc => Finset.mem_union_left _ (Finset.mem_inter.mp hc).1) ?_ h3
  rw [← hall]
  intro c hc
  obtain ⟨k, hk, hck⟩ := Finset.mem_biUnion.mp hc
  exact hs k hk c hck

end

variable {size : Nat → Nat} {ins : List (Finset Nat)} {out : Finset Nat}

/-- Operations of a path on tags as `PathInfo` counts them. -/
def planCost (size : Nat → Nat) (ins : List (Finset Nat)) (out : Finset Nat) (l : List Tag) (path : Path) : Nat :=
  ((ssaTrace combineTag l path).map (gPlan size ins out)).sum

/-- Pairs, and then possibly all that remains at once. -/
def Mixed : Finset Nat → Nat → Path → Prop
  | rem, _, [] => rem.card = 1
  | rem, n, p :: ps => (ps = [] ∧ p.Nodup ∧ p.toFinset = rem) ∨
      ∃ i j, p = [i, j] ∧ i ≠ j ∧ i ∈ rem ∧ j ∈ rem ∧ Mixed (insert n (rem \ {i, j})) (n + 1) ps

theorem _root_.OE.Paths.Good.sizes {store : List Tag} {nd : SearchNode} (h : Good size ins out store nd)
    (hs : ∀ s ∈ ins, ∀ c ∈ s, 0 < size c ∧ (c ∉ out → 2 ≤ size c)) : SizesOK size out nd.inputs nd.remaining := by
  intro k hk c hc
  have hk' := h.lt k hk
  rw [h.len] at hk'
  rw [h.inputs_eq, List.getD_eq_getElem?_getD, List.getElem?_map, List.getElem?_eq_getElem hk'] at hc
  obtain ⟨i, _, hci⟩ := termOf_has (ins := ins) (out := out) hc
  have hi := mem_getD hci
  rw [List.getD_eq_getElem?_getD, List.getElem?_eq_getElem hi] at hci
  exact hs _ (List.getElem_mem hi) c hci

/-- The search under a limit is at least as good as every path of pairs within the limit followed by contracting the rest at once. -/
theorem optIter_mixed (hsafe : CacheSafe ins out) (hs : ∀ s ∈ ins, ∀ c ∈ s, 0 < size c ∧ (c ∉ out → 2 ≤ size c)) {m : Nat} {order : SetOrder}
    (ho : OrderOK order) (fuel : Nat) (nd : SearchNode)
    (store : List Tag) (hnd : Good size ins out store nd) (hcard : 0 < nd.remaining.card)
    (hfuel : nd.remaining.card ≤ fuel + 1) (st : OptSt) (hc : CacheInv size ins out st.cache)
    (hlt : WithTop.some nd.flops < st.bestFlops) :
    ∃ st', optIter size out (some m) order fuel nd st = some st' ∧ CacheInv size ins out st'.cache ∧
      st'.bestFlops ≤ st.bestFlops ∧
      ∀ rest, Mixed nd.remaining nd.inputs.length rest → (∀ x ∈ (ssaTrace combineTag store rest).dropLast, gSize size ins out x ≤ m) →
        st'.bestFlops ≤ WithTop.some (nd.flops + planCost size ins out store rest) := by
  induction fuel generalizing nd store st with
  | zero =>
    have h1 : nd.remaining.card = 1 := by omega
    rw [optIter, if_pos h1]
    refine ⟨_, rfl, hc, hlt.le, fun rest _ _ => ?_⟩
    exact WithTop.coe_le_coe.mpr (Nat.le_add_right _ _)
  | succ fuel ih =>
    by_cases h1 : nd.remaining.card = 1
    · rw [optIter, if_pos h1]
      refine ⟨_, rfl, hc, hlt.le, fun rest _ _ => ?_⟩
      exact WithTop.coe_le_coe.mpr (Nat.le_add_right _ _)
    rw [optIter, if_neg h1]
    have hov := oversize_eq hnd (ho nd.path nd.remaining).1 (fun i => (ho nd.path nd.remaining).2 i)
    have hfold := foldlM_rule (f := optBody size out (some m) order (optIter size out (some m) order fuel) nd)
      (fun s : OptSt => CacheInv size ins out s.cache)
      (fun s t => t.bestFlops ≤ s.bestFlops)
      (fun x s => s.bestFlops ≤ WithTop.some (nd.flops + oversizeFlops size nd.inputs nd.remaining out) ∧
        ∀ rest, Mixed (insert nd.inputs.length (nd.remaining \ {(orient x).1, (orient x).2})) (nd.inputs.length + 1) rest →
        (∀ y ∈ (ssaTrace combineTag store ([(orient x).1, (orient x).2] :: rest)).dropLast, gSize size ins out y ≤ m) →
        s.bestFlops ≤ WithTop.some (nd.flops + planCost size ins out store ([(orient x).1, (orient x).2] :: rest)))
      (fun _ => le_refl _) (fun _ _ _ h g => le_trans g h)
      (fun x s t hR hP => ⟨le_trans hR hP.1, fun rest a b => le_trans hR (hP.2 rest a b)⟩)
      (combinations2 (order nd.path nd.remaining)) ?_ st hc
    · obtain ⟨st', e1, e3, e4, e5⟩ := hfold
      refine ⟨st', e1, e3, e4, ?_⟩
      intro rest hv hal
      cases rest with
      | nil => exact absurd hv h1
      | cons p ps =>
        rcases hv with ⟨rfl, hn, hp⟩ | ⟨i, j, rfl, hij, hi, hj, hrest⟩
        · have h2 : 1 < nd.remaining.card := by omega
          obtain ⟨a, ha, b, hb, hab⟩ := Finset.one_lt_card.mp h2
          have hbest : st'.bestFlops ≤ WithTop.some (nd.flops + oversizeFlops size nd.inputs nd.remaining out) := by
            rcases combinations2_complete (((ho nd.path nd.remaining).2 a).mpr ha) (((ho nd.path nd.remaining).2 b).mpr hb) hab with h | h
            · exact (e5 _ h).1
            · exact (e5 _ h).1
          rw [oversize_eq hnd hn (fun i => by rw [← hp, List.mem_toFinset])] at hbest
          simpa [planCost, ssaTrace] using hbest
        · have hsw : ssaTrace combineTag store ([j, i] :: ps) = ssaTrace combineTag store ([i, j] :: ps) := by
            simp only [ssaTrace]; rw [pick_swap store i j]
          have hsw' : planCost size ins out store ([j, i] :: ps) = planCost size ins out store ([i, j] :: ps) := by
            unfold planCost; rw [hsw]
          have hset : ({j, i} : Finset Nat) = {i, j} := Finset.pair_comm _ _
          rcases combinations2_complete (((ho nd.path nd.remaining).2 i).mpr hi) (((ho nd.path nd.remaining).2 j).mpr hj) hij with h | h
          · have h5 := (e5 _ h).2 ps
            rcases orient_eq (i, j) with e | e <;> rw [e] at h5
            · exact h5 hrest hal
            · rw [← hsw']; exact h5 (by simp only; rw [hset]; exact hrest) (by simp only; rw [hsw]; exact hal)
          · have h5 := (e5 _ h).2 ps
            rcases orient_eq (j, i) with e | e <;> rw [e] at h5
            · rw [← hsw']; exact h5 (by simp only; rw [hset]; exact hrest) (by simp only; rw [hsw]; exact hal)
            · exact h5 hrest hal
    · rintro s x hx hsc
      obtain ⟨hi, hj, hij⟩ := pair_of_order ho hx
      obtain ⟨r1, r2⟩ := cached_good hsafe hnd hi hj hij hsc
      have hcalc := hnd.calc hi hj hij
      have hstep : gFlops size ins out (pick store [(orient x).1, (orient x).2]) ≤ oversizeFlops size nd.inputs nd.remaining out := by
        have := step_le_oversize (hnd.sizes hs) hi hj hij
        rwa [hcalc] at this
      have hfirst : ∀ rest : Path, gFlops size ins out (pick store [(orient x).1, (orient x).2]) ≤
          planCost size ins out store ([(orient x).1, (orient x).2] :: rest) := by
        intro rest
        simp only [planCost, ssaTrace, List.map_cons, List.sum_cons]
        exact le_trans (gFlops_le_gPlan _) (Nat.le_add_right _ _)
      unfold optBody
      simp only
      rw [r1]
      simp only
      by_cases hcut : WithTop.some (nd.flops + gFlops size ins out (pick store [(orient x).1, (orient x).2])) < s.bestFlops
      · rw [if_pos hcut]
        have hcc := child_remaining_card hnd.toGoodPath hi hj hij (termOf ins out (combineTag (pick store [(orient x).1, (orient x).2])))
          (nd.flops + gFlops size ins out (pick store [(orient x).1, (orient x).2]))
        by_cases hbig : Paths.sizeOf size (termOf ins out (combineTag (pick store [(orient x).1, (orient x).2]))) > m
        · rw [if_pos hbig]
          -- an oversize pair is allowed only as the last one
          have hlast : ∀ rest : Path, Mixed (insert nd.inputs.length (nd.remaining \ {(orient x).1, (orient x).2})) (nd.inputs.length + 1) rest →
              (∀ y ∈ (ssaTrace combineTag store ([(orient x).1, (orient x).2] :: rest)).dropLast, gSize size ins out y ≤ m) →
              oversizeFlops size nd.inputs nd.remaining out ≤ planCost size ins out store ([(orient x).1, (orient x).2] :: rest) := by
            intro rest hmx hal
            have hrest : rest = [] := by
              cases rest with
              | nil => rfl
              | cons p ps =>
                refine absurd (hal (pick store [(orient x).1, (orient x).2]) ?_) (not_le.mpr hbig)
                simp [ssaTrace]
            subst hrest
            have hone : (insert nd.inputs.length (nd.remaining \ {(orient x).1, (orient x).2})).card = 1 := hmx
            have hrem : nd.remaining = {(orient x).1, (orient x).2} := by
              symm
              apply Finset.eq_of_subset_of_card_le
              · intro k hk
                simp only [Finset.mem_insert, Finset.mem_singleton] at hk
                rcases hk with rfl | rfl
                · exact hi
                · exact hj
              · rw [Finset.card_pair hij]
                simp only [SearchNode.child] at hcc
                omega
            rw [oversize_eq hnd (l := [(orient x).1, (orient x).2]) (by simpa using hij) (by intro i; rw [hrem]; simp)]
            simp [planCost, ssaTrace]
          by_cases hov2 : WithTop.some (nd.flops + oversizeFlops size nd.inputs nd.remaining out) < s.bestFlops
          · rw [if_pos hov2]
            refine ⟨_, rfl, r2, hov2.le, le_refl _, fun rest hmx hal => ?_⟩
            exact WithTop.coe_le_coe.mpr (Nat.add_le_add_left (hlast rest hmx hal) _)
          · rw [if_neg hov2]
            push Not at hov2
            refine ⟨_, rfl, r2, le_refl _, hov2, fun rest hmx hal => le_trans hov2 ?_⟩
            exact WithTop.coe_le_coe.mpr (Nat.add_le_add_left (hlast rest hmx hal) _)
        · rw [if_neg hbig]
          have hgc := hnd.child hi hj hij
          obtain ⟨s', g1, g3, g4, g6⟩ := ih _ _ hgc (by omega) (by omega)
            { s with cache := (cached s.cache (nd.inputs.getD (orient x).1 ∅, nd.inputs.getD (orient x).2 ∅)
              (calcK12 size nd.inputs out nd.remaining (orient x).1 (orient x).2)).2 } r2 hcut
          refine ⟨s', g1, g3, g4, ?_, ?_⟩
          · by_cases h2 : nd.remaining.card = 2
            · have := g6 [] (by show _ = 1; omega) (by simp [ssaTrace])
              refine le_trans this (WithTop.coe_le_coe.mpr ?_)
              simp only [SearchNode.child, planCost, ssaTrace, List.map_nil, List.sum_nil, Nat.add_zero]
              exact Nat.add_le_add_left hstep _
            · have hch := step_child_le_oversize (hnd.sizes hs) hnd.lt hi hj hij (by omega)
              have hol := ho [] (insert nd.inputs.length (nd.remaining \ {(orient x).1, (orient x).2}))
              have := g6 [order [] (insert nd.inputs.length (nd.remaining \ {(orient x).1, (orient x).2}))]
                (Or.inl ⟨rfl, hol.1, by ext k; rw [List.mem_toFinset, hol.2]; rfl⟩) (by simp [ssaTrace])
              refine le_trans this (WithTop.coe_le_coe.mpr ?_)
              simp only [planCost, ssaTrace, List.map_cons, List.map_nil, List.sum_cons, List.sum_nil, Nat.add_zero]
              rw [← oversize_eq hgc hol.1 (fun k => by rw [hol.2]; rfl)]
              rw [hcalc] at hch
              simp only [SearchNode.child] at hch ⊢
              omega
          · intro rest hmx hal
            have := g6 rest (by simpa [SearchNode.child] using hmx) (by
              intro y hy
              refine hal y ?_
              simp only [ssaTrace]
              cases ht : ssaTrace combineTag (store ++ [combineTag (pick store [(orient x).1, (orient x).2])]) rest with
              | nil => rw [ht] at hy; simp at hy
              | cons a t => rw [List.dropLast_cons_of_ne_nil (by simp)]; rw [ht] at hy; exact List.mem_cons_of_mem _ hy)
            refine le_trans this (WithTop.coe_le_coe.mpr ?_)
            simp only [SearchNode.child, planCost, ssaTrace, List.map_cons, List.sum_cons]
            have := gFlops_le_gPlan (size := size) (ins := ins) (out := out) (pick store [(orient x).1, (orient x).2])
            omega
      · rw [if_neg hcut]
        push Not at hcut
        refine ⟨_, rfl, r2, le_refl _, le_trans hcut (WithTop.coe_le_coe.mpr (Nat.add_le_add_left hstep _)), ?_⟩
        intro rest _ _
        exact le_trans hcut (WithTop.coe_le_coe.mpr (Nat.add_le_add_left (hfirst rest) _))

/-- What is recorded is such a path. -/
theorem optIter_isMixed {n : Nat} {mem : Option Nat} {order : SetOrder} (ho : OrderOK order) (fuel : Nat) (nd : SearchNode)
    (hnd : GoodPath n nd) (hM : ∀ rest, Mixed nd.remaining nd.inputs.length rest → Mixed (Finset.range n) n (nd.path ++ rest))
    (hcard : 0 < nd.remaining.card) (hfuel : nd.remaining.card ≤ fuel + 1) (st : OptSt) (hst : Mixed (Finset.range n) n st.bestPath) :
    ∃ st', optIter size out mem order fuel nd st = some st' ∧ Mixed (Finset.range n) n st'.bestPath := by
  induction fuel generalizing nd st with
  | zero =>
    have h1 : nd.remaining.card = 1 := by omega
    rw [optIter, if_pos h1]
    exact ⟨_, rfl, by simpa using hM [] h1⟩
  | succ fuel ih =>
    rw [optIter]
    by_cases h1 : nd.remaining.card = 1
    · rw [if_pos h1]
      exact ⟨_, rfl, by simpa using hM [] h1⟩
    · rw [if_neg h1]
      apply foldlM_inv (fun st => Mixed (Finset.range n) n st.bestPath) _ _ st hst
      intro s x hx hs
      obtain ⟨hi, hj, hij⟩ := pair_of_order ho hx
      have hrec : ∀ k f (st : OptSt), Mixed (Finset.range n) n st.bestPath →
          ∃ st', optIter size out mem order fuel (nd.child (orient x).1 (orient x).2 k f) st = some st' ∧
            Mixed (Finset.range n) n st'.bestPath := by
        intro k f st hst
        have hc := child_remaining_card hnd hi hj hij k f
        refine ih _ (goodPath_child hnd hi hj hij k f) ?_ (by omega) (by omega) _ hst
        intro rest hrest
        simp only [SearchNode.child, List.length_append, List.length_singleton] at hrest
        have := hM ([(orient x).1, (orient x).2] :: rest) (Or.inr ⟨_, _, rfl, hij, hi, hj, hrest⟩)
        simpa [SearchNode.child] using this
      unfold optBody
      simp only
      split
      · cases mem with
        | none => exact hrec _ _ _ hs
        | some m =>
          simp only
          split
          · split
            · refine ⟨_, rfl, hM _ (Or.inl ⟨rfl, (ho nd.path nd.remaining).1, ?_⟩)⟩
              ext k
              rw [List.mem_toFinset, (ho nd.path nd.remaining).2]
            · exact ⟨_, rfl, hs⟩
          · exact hrec _ _ _ hs
      · exact ⟨_, rfl, hs⟩

theorem exists_ample (hs : ∀ s ∈ ins, ∀ c ∈ s, 0 < size c ∧ (c ∉ out → 2 ≤ size c)) (k : Nat) : ∃ M, k ≤ M ∧ AmpleMemory size ins M := by
  refine ⟨max k (∏ c ∈ ins.foldr (· ∪ ·) ∅, size c), le_max_left _ _, ?_⟩
  intro s hsub
  refine le_trans ?_ (le_max_right _ _)
  apply prod_le_prod_within hsub
  have : ∀ (l : List (Finset Nat)) c, c ∈ l.foldr (· ∪ ·) ∅ → ∃ s ∈ l, c ∈ s := by
    intro l
    induction l with
    | nil => simp
    | cons a t ih =>
      intro c hc
      simp only [List.foldr_cons, Finset.mem_union] at hc
      rcases hc with hc | hc
      · exact ⟨a, by simp, hc⟩
      · obtain ⟨s, h1, h2⟩ := ih c hc
        exact ⟨s, by simp [h1], h2⟩
  intro c hc
  obtain ⟨s, h1, h2⟩ := this _ c hc
  exact (hs s h1 c h2).1

theorem optimal_more_memory_some (hh : NoHyperEdges ins out) (hs : ∀ s ∈ ins, ∀ c ∈ s, 0 < size c ∧ (c ∉ out → 2 ≤ size c))
    {m m' : Nat} (hle : m ≤ m') {order order' : SetOrder} (ho : OrderOK order) (ho' : OrderOK order') (h2 : 2 ≤ ins.length)
    {fuel fuel' : Nat} (hfuel : ins.length ≤ fuel) (hfuel' : ins.length ≤ fuel') :
    ∃ path path', optimal fuel size (some m) order ins out = some (.ok path) ∧ optimal fuel' size (some m') order' ins out = some (.ok path') ∧
      CompletePath ins.length path ∧ CompletePath ins.length path' ∧
      searchFlops size out ins path' ≤ ((planFigures size out ins path).map StepFigures.flops).sum := by
  have hne : ins ≠ [] := by rintro rfl; simp at h2
  have hsafe := cacheSafe_of_noHyper hh
  -- the path found under the smaller limit
  obtain ⟨st, e1, e2⟩ := optimalSsa_complete (size := size) (output := out) (mem := some m) ho hne (fuel := fuel) (by omega)
  obtain ⟨p, g1, g2, _, g4, g5⟩ := C11_ssa_to_linear e2 (ssaComplete_ne_nil e2 h2)
  have hfit := (optIter_fits hsafe ho fuel (rootNode ins) _ good_root (by intro x hx; simp [rootNode, ssaTrace] at hx)
    (by simp [rootNode]; omega) _ (by intro x hx; simp [ssaTrace] at hx) cacheInv_nil st e1).1
  obtain ⟨st1, f1, f2⟩ := optIter_isMixed (size := size) (out := out) (mem := some m) ho fuel (rootNode ins) (goodPath_root ins)
    (by intro rest h; simpa [rootNode] using h) (by simp [rootNode]; omega) (by simp [rootNode]; omega)
    { bestFlops := ⊤, bestPath := [List.range ins.length], cache := [] }
    (Or.inl ⟨rfl, List.nodup_range, by ext k; simp⟩)
  have : st1 = st := Option.some.inj (f1.symm.trans e1)
  subst this
  -- the search under the larger limit
  obtain ⟨st', e1', e2'⟩ := optimalSsa_complete (size := size) (output := out) (mem := some m') ho' hne (fuel := fuel') (by omega)
  obtain ⟨p', g1', g2', _, g4', g5'⟩ := C11_ssa_to_linear e2' (ssaComplete_ne_nil e2' h2)
  obtain ⟨st2, a1, a2, _, _, _⟩ := optIter_minimal_limit (size := size) hsafe (m := m') ho' fuel' (rootNode ins) _ good_root
    (by simp [rootNode]; omega) (by simp [rootNode]; omega)
    { bestFlops := ⊤, bestPath := [List.range ins.length], cache := [] } le_top cacheInv_nil (by exact WithTop.coe_lt_top _)
  have : st2 = st' := Option.some.inj (a1.symm.trans e1')
  subst this
  obtain ⟨st3, b1, _, _, b4⟩ := optIter_mixed hsafe hs (m := m') ho' fuel' (rootNode ins) _ good_root
    (by simp [rootNode]; omega) (by simp [rootNode]; omega)
    { bestFlops := ⊤, bestPath := [List.range ins.length], cache := [] } cacheInv_nil (by exact WithTop.coe_lt_top _)
  have : st3 = st2 := Option.some.inj (b1.symm.trans e1')
  subst this
  refine ⟨p, p', by unfold optimal; rw [e1]; exact congrArg some g1, by unfold optimal; rw [e1']; exact congrArg some g1', g2, g2', ?_⟩
  have h3 := b4 st1.bestPath (by simpa [rootNode] using f2) (fun x hx => le_trans (hfit x hx) hle)
  have h4 := WithTop.coe_le_coe.mp (le_trans a2 h3)
  rw [(figures_complete g2').1, (figures_complete g2).2.2, (g5' Tag combineTag (tags ins.length) (tags_length _)).1,
    (g5 Tag combineTag (tags ins.length) (tags_length _)).1]
  simpa [rootNode, tagCost, planCost] using h4

/-- Raising the limit, or dropping it. -/
theorem optimal_more_memory (hh : NoHyperEdges ins out) (hs : ∀ s ∈ ins, ∀ c ∈ s, 0 < size c ∧ (c ∉ out → 2 ≤ size c))
    {m m' : Option Nat} (hle : ∀ k', m' = some k' → ∃ k, m = some k ∧ k ≤ k') {order order' : SetOrder} (ho : OrderOK order)
    (ho' : OrderOK order') (h2 : 2 ≤ ins.length) {fuel fuel' : Nat} (hfuel : ins.length ≤ fuel) (hfuel' : ins.length ≤ fuel') :
    ∃ path path', optimal fuel size m order ins out = some (.ok path) ∧ optimal fuel' size m' order' ins out = some (.ok path') ∧
      CompletePath ins.length path ∧ CompletePath ins.length path' ∧
      searchFlops size out ins path' ≤ ((planFigures size out ins path).map StepFigures.flops).sum := by
  cases m' with
  | some k' =>
    obtain ⟨k, rfl, hk⟩ := hle k' rfl
    exact optimal_more_memory_some hh hs hk ho ho' h2 hfuel hfuel'
  | none =>
    cases m with
    | some k =>
      obtain ⟨M, h1, h3⟩ := exists_ample hs k
      rw [← optimal_ample h3]
      exact optimal_more_memory_some hh hs h1 ho ho' h2 hfuel hfuel'
    | none =>
      obtain ⟨M, h1, h3⟩ := exists_ample hs 0
      rw [← optimal_ample h3, ← optimal_ample h3]
      exact optimal_more_memory_some hh hs (le_refl _) ho ho' h2 hfuel hfuel'

open OE.Contract OE.Registry in
/-- **C87 (partial).** In a network without hyperedges and without axes that are summed alone, in which no axis is empty and no summed label has
length 1: if everything that fits in `memory_limit` also fits in another limit, then the `opt_cost` that `contract_path` reports for `optimal`,
`auto` (up to four operands) or `auto-hq` (up to five) with the other limit is not greater.

Missing: summed labels of length 1, for which the claim is false (`C87_counterexample`), and hyperedges. -/
theorem C87_more_memory_partial {lower : Str → Str} (hl : LowerOK lower) {t : Dict Str Builtin} (ht : importedOptions lower = .ok t)
    {e e' : Env} (he : EnvOK e) (he' : EnvOK e') {name name' : Str} {b b' : Builtin} (hname : documentedName (lower name) = some b)
    (hname' : documentedName (lower name') = some b') {size : Nat → Nat} {inputs : List Str} {output : Str} {shapes : List Shape} (hne : inputs ≠ [])
    (hlen : inputs.length = shapes.length) (hsize : ∀ c s, IsLabelSize inputs shapes c s → size c = s)
    (hb : SearchesAll b inputs.length) (hb' : SearchesAll b' inputs.length) (hfuel : inputs.length ≤ e.fuel) (hfuel' : inputs.length ≤ e'.fuel)
    (hh : NoHyperEdges (inputs.map List.toFinset) output.toFinset) (hlone : NoLoneLabels (inputs.map List.toFinset) output.toFinset)
    (hpos : ∀ t ∈ inputs, ∀ c ∈ t, 0 < size c ∧ (c ∉ output → 2 ≤ size c))
    {mem mem' : MemLimit} (hmore : ∀ s, WithinMemory mem size inputs output s → WithinMemory mem' size inputs output s)
    {ub ub' : Bool} {info info' : PathInfo}
    (h : contractPath inputs output shapes (resolve lower (optionFns e t) (.name name)) mem ub = .ok info)
    (h' : contractPath inputs output shapes (resolve lower (optionFns e' t) (.name name')) mem' ub' = .ok info') :
    info'.optCost ≤ info.optCost := by
  obtain ⟨hd, hsome, -⟩ := contractPath_chosen_args h
  obtain ⟨hd', -⟩ := contractPath_chosen_args h'
  obtain ⟨m, hm, h3, h12⟩ := contractPath_named hl ht hname h
  obtain ⟨m', hm', h3', h12'⟩ := contractPath_named hl ht hname' h'
  have hdd : info'.sizeDict = info.sizeDict := by rw [hd] at hd'; exact (Except.ok.inj hd').symm
  rw [hdd] at hm' h3'
  have hlab : ∀ t ∈ inputs ++ [output], ∀ c ∈ t, size c = labelSize info.sizeDict c := by
    intro t ht c hc
    obtain ⟨v, hv⟩ := Option.isSome_iff_exists.mp (hsome t ht c hc)
    rw [hsize c v ((labelSize_spec hlen hd c v).mpr hv)]
    simp [labelSize, hv]
  have hmore' : ∀ k', m' = some k' → ∃ k, m = some k ∧ k ≤ k' := by
    intro k' hk'
    have hw : ∀ s, (∀ k, m = some k → s ≤ k) → s ≤ k' := by
      intro s hks
      have h1 := hmore s ((withinMemory_congr hlab s).mpr ((chooseMemory_within hm s).mpr hks))
      exact (chooseMemory_within hm' s).mp ((withinMemory_congr hlab s).mp h1) k' hk'
    cases m with
    | none => exact absurd (hw (k' + 1) (by simp)) (by omega)
    | some k => exact ⟨k, rfl, hw k (by intro k2 h2; cases h2; exact le_refl _)⟩
  by_cases hn : inputs.length ≤ 2
  · have hp := h12 hn
    have hp' := h12' hn
    have hne : 0 < inputs.length := List.length_pos_iff.mpr hne
    have hc : CompletePath inputs.length info.path := by rw [hp]; exact complete_range hne
    have hc' : CompletePath inputs.length info'.path := by rw [hp']; exact complete_range hne
    rw [(reported hlen h hc).1, (reported hlen h' hc').1, hp, hp', hdd]
  · push Not at hn
    have hne : inputs.map List.toFinset ≠ [] := by intro e; rw [List.map_eq_nil_iff] at e; rw [e] at hn; simp at hn
    have hfn := h3 hn
    have hfn' := h3' hn
    rw [searchesAll_fn (by simpa using hb) hne] at hfn
    rw [searchesAll_fn (by simpa using hb') hne] at hfn'
    obtain ⟨path, path', a1, a2, a3, a4, a5⟩ := optimal_more_memory (size := labelSize info.sizeDict) hh (by
        intro s hs c hc
        obtain ⟨t, ht, rfl⟩ := List.mem_map.mp hs
        rw [List.mem_toFinset] at hc
        have := hpos t ht c hc
        rw [hlab t (by simp [ht]) c hc] at this
        exact ⟨this.1, fun ho => this.2 (by simpa using ho)⟩) hmore' he.orders.1 he'.orders.1 (by simpa using hn.le) (fuel := e.fuel)
        (fuel' := e'.fuel) (by simpa using hfuel) (by simpa using hfuel')
    rw [a1] at hfn
    rw [a2] at hfn'
    cases hfn
    cases hfn'
    rw [List.length_map] at a3 a4
    rw [(reported hlen h a3).1, (reported hlen h' a4).2.1 hlone, hdd]
    exact a5

open OE.Contract OE.Registry in
/-- The claim without its condition is false: 'xab,xbc,xca->x' with lengths 5, 1, 1, 1. With a limit of 4 elements no pair may be
contracted, and contracting all three at once is counted as 15 operations; with a limit of 5, and without limit, the best path in pairs
takes 20. -/
theorem C87_counterexample :
    (contractPath [S "xab", S "xbc", S "xca"] (S "x") [[5, 1, 1], [5, 1, 1], [5, 1, 1]] (.finder (Builtin.optimal.fn exampleEnv)) (.num 4) true).map
      (fun r => (r.path, r.optCost)) = .ok ([[0, 1, 2]], 15) ∧
    (contractPath [S "xab", S "xbc", S "xca"] (S "x") [[5, 1, 1], [5, 1, 1], [5, 1, 1]] (.finder (Builtin.optimal.fn exampleEnv)) (.num 5) true).map
      (fun r => (r.path, r.optCost)) = .ok ([[0, 1], [0, 1]], 20) ∧
    (contractPath [S "xab", S "xbc", S "xca"] (S "x") [[5, 1, 1], [5, 1, 1], [5, 1, 1]] (.finder (Builtin.optimal.fn exampleEnv)) .none true).map
      (fun r => (r.path, r.optCost)) = .ok ([[0, 1], [0, 1]], 20) := by
  refine ⟨?_, ?_, ?_⟩ <;> decide +kernel

open OE.Contract OE.Registry in
-- 'ab,bc,cd,de->ae' with lengths 2, 6, 2, 6, 2: whatever the limit, 'auto' reports at least the 112 operations of no limit
example (q : ℚ) (info : PathInfo) (h : exampleReport (.name (S "auto")) (.num q) = .ok info) : 112 ≤ info.optCost := by
  have hrun : (exampleReport (.name (S "OPTIMAL")) .none).map (fun i => i.optCost) = .ok 112 := by decide +kernel
  have hname : documentedName (asciiLower (S "OPTIMAL")) = some .optimal := by decide +kernel
  have hname' : documentedName (asciiLower (S "auto")) = some .auto := by decide +kernel
  have ht : importedOptions asciiLower = .ok exampleTable := importedOptions_ok asciiLower_ok
  generalize S "OPTIMAL" = name at hrun hname
  generalize S "auto" = name' at h hname'
  have key := @C87_more_memory_partial _ asciiLower_ok _ ht _ _ exampleEnv_ok exampleEnv_ok _ _ _ _ hname' hname (fun c => if c = 98 ∨ c = 100 then 6 else 2)
    [S "ab", S "bc", S "cd", S "de"] (S "ae") [[2, 6], [6, 2], [2, 6], [6, 2]] (by simp) rfl exampleReport_sizes (Or.inr (Or.inl ⟨rfl, by decide⟩)) (Or.inl rfl)
    (by decide) (by decide) exampleReport_noHyper exampleReport_noLone (by intro t _ c _; split <;> omega) (.num q) .none (fun _ _ => trivial) true true
  unfold exampleReport at hrun h
  generalize contractPath _ (S "ae") _ (resolve asciiLower (optionFns exampleEnv exampleTable) (.name name)) .none true = r at hrun key
  cases r with
  | error e => cases hrun
  | ok info' =>
    rw [← Except.ok.inj hrun]
    exact key h rfl

end OE.Props
