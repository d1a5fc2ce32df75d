import Verif.Model.Objects
import Verif.Spec.Objects
import Verif.Props.Contract2
import Verif.Lemmas.GreedyInv

/-!
# C45: `object_einsum` computes the Einstein sum
-/

namespace OE.Props
open OE OE.Py OE.Spec OE.Objects OE.Contract OE.Blas
variable {α : Type}

/-! ## Lemmas -/

theorem mem_ndindex {dims k : List Nat} : k ∈ ndindex dims ↔ InRange dims k := by
  induction dims generalizing k with
  | nil => cases k <;> simp [ndindex, InRange]
  | cons d ds ih =>
    cases k with
    | nil => simp [ndindex, InRange]
    | cons i k => simp [ndindex, InRange, ih]

theorem ndindex_ne_nil {dims : List Nat} (h : ∀ d ∈ dims, 0 < d) : ndindex dims ≠ [] := by
  have : InRange dims (dims.map (fun _ => 0)) := by
    induction dims with
    | nil => trivial
    | cons d ds ih => exact ⟨h d (by simp), ih (fun x hx => h x (by simp [hx]))⟩
  intro he
  have := mem_ndindex.mpr this
  rw [he] at this
  simp at this

theorem sum_range_list {R : Type} [CommSemiring R] (d : Nat) (g : Nat → R) :
    ∑ i ∈ Finset.range d, g i = ((List.range d).map g).sum := by
  simp [Finset.sum, Multiset.range]

theorem sum_ndindex {R : Type} [CommSemiring R] (dims : List Nat) (f : List Nat → R) :
    ((ndindex dims).map f).sum = sumIdx dims f := by
  induction dims generalizing f with
  | nil => simp [ndindex, sumIdx]
  | cons d ds ih =>
    simp only [ndindex, sumIdx, List.map_flatMap, List.map_map]
    rw [List.flatMap_def, List.sum_flatten, List.map_map, sum_range_list]
    congr 1
    apply List.map_congr_left
    intro i _
    exact ih (fun is => f (i :: is))

theorem inBounds_iff {dims k : List Nat} : inBounds dims k = true ↔ InRange dims k := by
  induction dims generalizing k with
  | nil => cases k <;> simp [inBounds, InRange]
  | cons d ds ih => cases k <;> simp [inBounds, InRange, ih]

theorem inRange_map {t : List Nat} {size env : Nat → Nat} (h : ∀ c ∈ t, env c < size c) : InRange (t.map size) (t.map env) := by
  induction t with
  | nil => trivial
  | cons a t ih => exact ⟨h a (by simp), ih (fun c hc => h c (by simp [hc]))⟩

theorem updateZip_get (d : Dict Nat Nat) (ks vs : List Nat) (hn : ks.Nodup) (hl : vs.length = ks.length) (c : Nat) :
    (updateZip d ks vs).get? c = if c ∈ ks then some (vs.getD (ks.idxOf c) 0) else d.get? c := by
  unfold updateZip
  induction ks generalizing d vs with
  | nil => simp
  | cons a ks ih =>
    cases vs with
    | nil => simp at hl
    | cons v vs =>
      rw [List.nodup_cons] at hn
      simp only [List.zip_cons_cons, List.foldl_cons]
      rw [ih _ _ hn.2 (by simpa using hl), Dict.get?_set]
      by_cases hca : c = a
      · subst hca
        rw [if_neg hn.1]; simp
      · have h2 : (a == c) = false := by simpa using fun e => hca e.symm
        simp [hca, List.idxOf_cons, h2]

theorem reduce1_ok (f : α → α → α) {l : List α} (h : l ≠ []) : ∃ v, reduce1 f l = .ok v := by
  cases l with
  | nil => exact absurd rfl h
  | cons a l => exact ⟨_, rfl⟩

section
variable {R : Type} [CommSemiring R] (φ : α → R)

theorem reduce1_add [Add α] (hadd : ∀ a b, φ (a + b) = φ a + φ b) {l : List α} {v : α} (h : reduce1 (· + ·) l = .ok v) :
    φ v = (l.map φ).sum := by
  cases l with
  | nil => simp [reduce1] at h
  | cons a l =>
    simp only [reduce1, Except.ok.injEq] at h
    subst h
    induction l generalizing a with
    | nil => simp
    | cons b l ih =>
      simp only [List.foldl_cons, ih, List.map_cons, List.sum_cons, hadd, add_assoc]

theorem reduce1_mul [Mul α] (hmul : ∀ a b, φ (a * b) = φ a * φ b) {l : List α} {v : α} (h : reduce1 (· * ·) l = .ok v) :
    φ v = (l.map φ).prod := by
  cases l with
  | nil => simp [reduce1] at h
  | cons a l =>
    simp only [reduce1, Except.ok.injEq] at h
    subst h
    induction l generalizing a with
    | nil => simp
    | cons b l ih =>
      simp only [List.foldl_cons, ih, List.map_cons, List.prod_cons, hmul, mul_assoc]

/-- Each array has exactly the shape its term describes. -/
def Exact (size : Nat → Nat) (ops : List (Str × Tensor α)) : Prop := ∀ p ∈ ops, p.2.shape = p.1.map size

/-- One product, at label values inside the sizes. -/
theorem product_ok [Mul α] (hmul : ∀ a b, φ (a * b) = φ a * φ b) {size : Nat → Nat} {ops : List (Str × Tensor α)}
    (hne : ops ≠ []) (hex : Exact size ops) {coord : Dict Nat Nat} {env : Nat → Nat}
    (hc : ∀ p ∈ ops, ∀ c ∈ p.1, coord.get? c = some (env c) ∧ env c < size c) :
    ∃ v, product ops coord = .ok v ∧ φ v = prodVal (ops.map (fun p => (p.1, mapTensor φ p.2))) env := by
  have h1 : ops.mapM (fun p => do
      let loc ← p.1.mapM (fun k => coord.get! k)
      element p.2 loc) = .ok (ops.map (fun p => p.2.val (p.1.map env))) := by
    apply mapM_ok
    intro p hp
    have : p.1.mapM (fun k => coord.get! k) = .ok (p.1.map env) := by
      apply mapM_ok
      intro c hcp
      simp only [Dict.get!, (hc p hp c hcp).1]
    rw [this]
    show element p.2 (p.1.map env) = _
    unfold element
    rw [if_pos]
    rw [inBounds_iff, hex p hp]
    exact inRange_map (fun c hcp => (hc p hp c hcp).2)
  obtain ⟨v, hv⟩ := reduce1_ok (· * ·) (l := ops.map (fun p => p.2.val (p.1.map env))) (by simpa using hne)
  refine ⟨v, ?_, ?_⟩
  · unfold product
    rw [h1]; exact hv
  · rw [reduce1_mul φ hmul hv, List.map_map]
    unfold prodVal
    rw [List.map_map]
    congr 1
    apply List.map_congr_left
    intro p hp
    simp only [Function.comp, mapTensor, Tensor.get]
    congr 2
    rw [hex p hp]
    have h3 : ∀ c ∈ p.1, env c < size c := fun c hcp => (hc p hp c hcp).2
    generalize p.1 = t at h3
    induction t with
    | nil => rfl
    | cons a t ih =>
      simp only [List.map_cons, List.zipWith_cons_cons]
      rw [← ih (fun c hc => h3 c (by simp [hc]))]
      congr 1
      have := h3 a (by simp)
      unfold bc
      split <;> omega

/-- One entry of the result. -/
theorem entry_ok [Add α] [Mul α] [Inhabited α] (hadd : ∀ a b, φ (a + b) = φ a + φ b) (hmul : ∀ a b, φ (a * b) = φ a * φ b)
    {size : Nat → Nat} {ops : List (Str × Tensor α)} (hne : ops ≠ []) (hex : Exact size ops) {inner output coords : List Nat}
    (hin : inner.Nodup) (hon : output.Nodup) (hpos : ∀ c ∈ inner, 0 < size c) (hlen : coords.length = output.length)
    (hr : ∀ c ∈ output, coords.getD (output.idxOf c) 0 < size c) (hcov : ∀ p ∈ ops, ∀ c ∈ p.1, c ∈ inner ∨ c ∈ output) (hd : ∀ c ∈ inner, c ∉ output) :
    ∃ v, entry ops inner (inner.map size) (updateZip [] output coords) = .ok v ∧
      φ v = sumOver size inner (prodVal (ops.map (fun p => (p.1, mapTensor φ p.2)))) (envOf output coords) := by
  have key : ∀ k ∈ ndindex (inner.map size), ∃ v, product ops (updateZip (updateZip [] output coords) inner k) = .ok v ∧
      φ v = prodVal (ops.map (fun p => (p.1, mapTensor φ p.2))) (updL (envOf output coords) inner k) := by
    intro k hk
    rw [mem_ndindex] at hk
    have hkl : k.length = inner.length := by simpa using hk.length
    apply product_ok φ hmul hne hex
    intro p hp c hc
    rw [updateZip_get _ _ _ hin hkl, updateZip_get _ _ _ hon hlen]
    by_cases hci : c ∈ inner
    · rw [if_pos hci, updL_mem hin hkl hci]
      exact ⟨rfl, hk.getD hci⟩
    · have hco := (hcov p hp c hc).resolve_left hci
      rw [if_neg hci, if_pos hco, updL_not_mem hci]
      exact ⟨rfl, hr c hco⟩
  choose! g hg1 hg2 using key
  have h1 : (ndindex (inner.map size)).mapM (fun cooI => product ops (updateZip (updateZip [] output coords) inner cooI)) =
      .ok ((ndindex (inner.map size)).map g) := mapM_ok hg1
  have hnn : (ndindex (inner.map size)).map g ≠ [] := by
    have := ndindex_ne_nil (dims := inner.map size) (by simpa using hpos)
    simpa using this
  obtain ⟨v, hv⟩ := reduce1_ok (· + ·) hnn
  refine ⟨v, ?_, ?_⟩
  · unfold entry; rw [h1]; exact hv
  · rw [reduce1_add φ hadd hv, sumOver_eq_sumIdx, List.map_map, ← sum_ndindex]
    congr 1
    apply List.map_congr_left
    intro k hk
    exact hg2 k hk
end

/-- The sizes dictionary of consistent shapes. -/
theorem sizes_ok {size : Nat → Nat} {ops : List (Str × Tensor α)} (hex : Exact size ops) :
    (sizes ops).keys.Nodup ∧ ∀ c, (sizes ops).get? c = if ∃ p ∈ ops, c ∈ p.1 then some (size c) else none := by
  have step : ∀ (t : Str) (d : Dict Nat Nat), d.keys.Nodup → (updateZip d t (t.map size)).keys.Nodup ∧
      ∀ c, (updateZip d t (t.map size)).get? c = if c ∈ t then some (size c) else d.get? c := by
    intro t
    unfold updateZip
    induction t with
    | nil => intro d hd; simp [hd]
    | cons a t ih =>
      intro d hd
      simp only [List.map_cons, List.zip_cons_cons, List.foldl_cons]
      obtain ⟨h1, h2⟩ := ih (d.set a (size a)) (Dict.keys_set_nodup hd a (size a))
      refine ⟨h1, fun c => ?_⟩
      rw [h2, Dict.get?_set]
      by_cases hca : c = a
      · subst hca; simp
      · simp [hca]
  have gen : ∀ (ops : List (Str × Tensor α)) (d : Dict Nat Nat), Exact size ops → d.keys.Nodup →
      (ops.foldl (fun d p => updateZip d p.1 p.2.shape) d).keys.Nodup ∧
      ∀ c, (ops.foldl (fun d p => updateZip d p.1 p.2.shape) d).get? c = if ∃ p ∈ ops, c ∈ p.1 then some (size c) else d.get? c := by
    intro ops
    induction ops with
    | nil => intro d _ hd; simp [hd]
    | cons p ops ih =>
      intro d hex hd
      simp only [List.foldl_cons]
      rw [hex p (by simp)]
      obtain ⟨h1, h2⟩ := step p.1 d hd
      obtain ⟨h3, h4⟩ := ih _ (fun q hq => hex q (by simp [hq])) h1
      refine ⟨h3, fun c => ?_⟩
      rw [h4, h2]
      by_cases ha : ∃ q ∈ ops, c ∈ q.1
      · rw [if_pos ha, if_pos]
        obtain ⟨q, hq, hc⟩ := ha
        exact ⟨q, by simp [hq], hc⟩
      · rw [if_neg ha]
        by_cases hb : c ∈ p.1
        · rw [if_pos hb, if_pos ⟨p, by simp, hb⟩]
        · rw [if_neg hb, if_neg]
          rintro ⟨q, hq, hc⟩
          rcases List.mem_cons.mp hq with rfl | hq
          · exact hb hc
          · exact ha ⟨q, hq, hc⟩
  have := gen ops [] hex (by simp [Dict.keys])
  simpa [sizes, Dict.get?] using this

theorem lookup_zip_map {β γ : Type} [BEq β] [LawfulBEq β] (g : β → γ) {l : List β} {x : β} (h : x ∈ l) :
    (l.zip (l.map g)).lookup x = some (g x) := by
  induction l with
  | nil => simp at h
  | cons a l ih =>
    simp only [List.map_cons, List.zip_cons_cons, List.lookup_cons]
    by_cases hxa : x = a
    · subst hxa; simp
    · have : (x == a) = false := by simpa using hxa
      rw [this]
      exact ih ((List.mem_cons.mp h).resolve_left hxa)

theorem inRange_of_get {output : Str} {size : Nat → Nat} {coords : List Nat} (hl : coords.length = output.length)
    (h : ∀ (i : Nat) (c x : Nat), output[i]? = some c → coords[i]? = some x → x < size c) : InRange (output.map size) coords := by
  induction output generalizing coords with
  | nil => cases coords; trivial; simp at hl
  | cons a t ih =>
    cases coords with
    | nil => simp at hl
    | cons i k =>
      exact ⟨h 0 a i rfl rfl, ih (by simpa using hl) (fun j c x h1 h2 => h (j + 1) c x (by simpa using h1) (by simpa using h2))⟩

/-! ## The theorem -/

/-- **C45.** For a full equation (`terms -> output`, distinct output labels taken from the inputs) and consistent shapes,
`object_einsum` returns an array of the shape named by the output whose entry at every coordinate is the sum over
the inner labels of the product of the elements. It uses only `+` and `*` of the elements: read through any map `φ` into a
commutative semiring that preserves the two operations, the result is the Einstein sum of the operands. Inner axes must not
be empty, because `functools.reduce` has no initial value (see `C45_empty_inner_axis`). -/
theorem C45_object_einsum_partial [Add α] [Mul α] [Inhabited α] {R : Type} [CommSemiring R] (φ : α → R)
    (hadd : ∀ a b, φ (a + b) = φ a + φ b) (hmul : ∀ a b, φ (a * b) = φ a * φ b)
    (size : Nat → Nat) (inputs : List Str) (output : Str) (arrays : List (Tensor α)) (hne : inputs ≠ [])
    (hpunct : ∀ t ∈ inputs, ∀ c ∈ t, ¬ IsPunct c) (hshape : ExactShapes size inputs arrays)
    (hn : output.Nodup) (hsub : ∀ c ∈ output, ∃ t ∈ inputs, c ∈ t) (hpos : ∀ c ∈ summed inputs output, 0 < size c) :
    ∃ T, objectEinsum (einsumStrOf inputs output) arrays = .ok T ∧
      IsEinsum size inputs output (arrays.map (mapTensor φ)) (mapTensor φ T) := by
  have hlen := hshape.1
  have hex : Exact size (inputs.zip arrays) := by
    intro p hp
    obtain ⟨i, h1, h2⟩ := mem_zip_get.mp hp
    exact hshape.2 i p.1 p.2 h1 h2
  have hfst : (inputs.zip arrays).map Prod.fst = inputs := List.map_fst_zip (by omega)
  have hocc : ∀ c, (∃ p ∈ inputs.zip arrays, c ∈ p.1) ↔ ∃ t ∈ inputs, c ∈ t := by
    intro c
    constructor
    · rintro ⟨p, hp, hc⟩
      exact ⟨p.1, (List.of_mem_zip hp).1, hc⟩
    · rintro ⟨t, ht, hc⟩
      rw [← hfst] at ht
      obtain ⟨p, hp, rfl⟩ := List.mem_map.mp ht
      exact ⟨p, hp, hc⟩
  have hzne : inputs.zip arrays ≠ [] := by
    intro h
    rw [h] at hfst
    exact hne hfst.symm
  obtain ⟨hkn, hget⟩ := sizes_ok hex
  have hgetl : ∀ c, (∃ t ∈ inputs, c ∈ t) → (sizes (inputs.zip arrays)).get! c = .ok (size c) := by
    intro c hc
    unfold Dict.get!
    rw [hget, if_pos ((hocc c).mpr hc)]
  have hkeys : ∀ c, c ∈ (sizes (inputs.zip arrays)).keys ↔ ∃ t ∈ inputs, c ∈ t := by
    intro c
    rw [Dict.mem_keys, ← hocc, hget]
    split <;> simp_all
  set inner := (sizes (inputs.zip arrays)).keys.filter (fun k => k ∉ output) with hinner
  have hinn : inner.Nodup := hkn.filter _
  have hmem : ∀ c, c ∈ inner ↔ (∃ t ∈ inputs, c ∈ t) ∧ c ∉ output := by
    intro c
    rw [hinner, List.mem_filter, hkeys]
    simp
  have hperm : inner.Perm (innerLabels inputs output) := by
    rw [List.perm_ext_iff_of_nodup hinn (innerLabels_nodup _ _)]
    intro c
    rw [hmem, mem_innerLabels]
  have hsummed : ∀ c ∈ inner, c ∈ summed inputs output := by
    intro c hc
    rw [← Finset.mem_toList, (labels_perm inputs output).mem_iff, ← hperm.mem_iff]
    exact hc
  have h1 : output.mapM (fun k => (sizes (inputs.zip arrays)).get! k) = .ok (output.map size) :=
    mapM_ok (fun c hc => hgetl c (hsub c hc))
  have h2 : inner.mapM (fun k => (sizes (inputs.zip arrays)).get! k) = .ok (inner.map size) :=
    mapM_ok (fun c hc => hgetl c ((hmem c).mp hc).1)
  have key : ∀ coords ∈ ndindex (output.map size), ∃ v,
      entry (inputs.zip arrays) inner (inner.map size) (updateZip [] output coords) = .ok v ∧
      φ v = sumOver size inner (prodVal ((inputs.zip arrays).map (fun p => (p.1, mapTensor φ p.2)))) (envOf output coords) := by
    intro coords hcoords
    rw [mem_ndindex] at hcoords
    apply entry_ok φ hadd hmul hzne hex hinn hn (fun c hc => hpos c (hsummed c hc)) (by simpa using hcoords.length)
      (fun c hc => hcoords.getD hc)
    · intro p hp c hc
      by_cases hco : c ∈ output
      · exact Or.inr hco
      · exact Or.inl ((hmem c).mpr ⟨(hocc c).mp ⟨p, hp, hc⟩, hco⟩)
    · exact fun c hc => ((hmem c).mp hc).2
  choose! g hg1 hg2 using key
  refine ⟨{ shape := output.map size, val := fun coords => (((ndindex (output.map size)).zip ((ndindex (output.map size)).map g)).lookup coords).getD default }, ?_, ?_⟩
  · unfold objectEinsum
    have hp2 : ∀ t ∈ inputs, ∀ c ∈ t, ¬ IsPunct c := hpunct
    have hfree : ∀ x, IsPunct x → x ≠ cComma → x ∉ join [cComma] inputs := by
      intro x hx hxc hm
      rcases mem_join _ _ _ hm with h | ⟨t, ht, h⟩
      · exact hxc (by simpa using h)
      · exact hpunct t ht x h hx
    have hsplit : splitArrow (einsumStrOf inputs output) = [join [cComma] inputs, output] := by
      apply splitArrow_two
      · exact hfree _ (by simp [IsPunct]) (by decide)
      · intro hm
        obtain ⟨t, ht, hc⟩ := hsub _ hm
        exact hpunct t ht _ hc (by simp [IsPunct])
    rw [hsplit]
    have hsp : splitOn cComma (join [cComma] inputs) = inputs :=
      splitOn_join _ _ hne (fun t ht hc => hpunct t ht _ hc (by simp [IsPunct]))
    simp only [hsp]
    rw [h1]
    simp only [bind, Except.bind]
    rw [← hinner, h2]
    simp only
    rw [mapM_ok hg1]
  · refine ⟨rfl, ?_⟩
    intro coords hl hr
    have hm : coords ∈ ndindex (output.map size) := mem_ndindex.mpr (inRange_of_get hl hr)
    rw [← sumOver_spec]
    simp only [mapTensor]
    rw [lookup_zip_map g hm, Option.getD_some, hg2 coords hm, sumOver_perm hperm hinn, List.zip_map_right]
    rfl

/-- A matrix product, computed. -/
example : ∃ T, objectEinsum (S "ab,bc->ac") [⟨[2, 3], fun i => (i.sum : ℤ)⟩, ⟨[3, 2], fun _ => 1⟩] = .ok T ∧
    T.shape = [2, 2] ∧ T.val [1, 0] = 6 := by
  refine ⟨_, rfl, rfl, by decide⟩

/-- The hypotheses of `C45_object_einsum_partial` hold for it. -/
example : ∃ T, objectEinsum (einsumStrOf [S "ab", S "bc"] (S "ac")) [⟨[2, 3], fun i => (i.sum : ℤ)⟩, ⟨[3, 2], fun _ => 1⟩] = .ok T ∧
    IsEinsum (fun c => if c = 98 then 3 else 2) [S "ab", S "bc"] (S "ac")
      ([⟨[2, 3], fun i => (i.sum : ℤ)⟩, ⟨[3, 2], fun _ => 1⟩].map (mapTensor id)) (mapTensor id T) := by
  apply C45_object_einsum_partial id (fun _ _ => rfl) (fun _ _ => rfl) _ _ _ _ (by simp) (by unfold IsPunct; decide) _ (by decide) (by decide)
    (by decide)
  refine ⟨rfl, ?_⟩
  intro i t A h1 h2
  match i with
  | 0 => simp at h1 h2; subst h1; subst h2; rfl
  | 1 => simp at h1 h2; subst h1; subst h2; rfl
  | n + 2 => simp at h1

/-- What is missing from C45: with an empty inner axis the Einstein sum is zero, but `functools.reduce` over no terms
raises `TypeError`. -/
theorem C45_empty_inner_axis (a : ℤ) : objectEinsum (S "a->") [⟨[0], fun _ => a⟩] = .error .type := rfl

/-- `object_einsum` does not broadcast axes of length 1 as numpy's `einsum` does: the last axis seen fixes the size. -/
theorem C45_no_broadcast : (∃ T, objectEinsum (S "a,a->a") [⟨[3], fun _ => (1 : ℤ)⟩, ⟨[1], fun _ => 1⟩] = .ok T ∧ T.shape = [1]) ∧
    objectEinsum (S "a,a->a") [⟨[1], fun _ => (1 : ℤ)⟩, ⟨[3], fun _ => 1⟩] = .error .index :=
  ⟨⟨_, rfl, rfl⟩, rfl⟩

end OE.Props
