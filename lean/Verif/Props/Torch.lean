import Verif.Spec.Torch
import Verif.Props.Contract2

/-!
# C46: the torch `tensordot` fallback
-/

namespace OE.Props
open OE OE.Py OE.Spec OE.Torch OE.Contract OE.Parser OE.Blas

/-! ## Lemmas -/

theorem nextSymbol_ok {k : Nat} (h : k < 52) : nextSymbol k = .ok (getSymbol k) := by
  unfold nextSymbol getSymbol
  rw [if_pos h]
  have hl : einsumSymbolsBase.length = 52 := by decide
  rw [List.getElem?_eq_getElem (by omega), List.getD_eq_getElem?_getD, List.getElem?_eq_getElem (by omega)]
  rfl

theorem setItem_ok {α : Type} {l : List α} {ax : Int} {p : Nat} (h : DenotesAxis l.length ax p) (v : α) :
    setItem l ax v = .ok (l.set p v) := by
  obtain ⟨hp, h | h⟩ := h
  · unfold setItem
    simp only
    rw [if_neg (show ¬ ax < 0 by omega), if_pos (by omega)]
    congr 2
    omega
  · unfold setItem
    simp only
    rw [if_pos (show ax < 0 by omega), if_pos (by omega)]
    congr 2
    omega

/-- The paired axes carry the first symbols, in order. -/
theorem fillPairs_ok {nx ny : Nat} {xs ys : List Int} {la lb : List Nat} {x y : List (Option Nat)} {k : Nat}
    (hx : List.Forall₂ (DenotesAxis nx) xs la) (hy : List.Forall₂ (DenotesAxis ny) ys lb) (hxl : x.length = nx) (hyl : y.length = ny)
    (hlen : la.length = lb.length) (hna : la.Nodup) (hnb : lb.Nodup) (hk : k + la.length ≤ 52) :
    ∃ x' y', fillPairs k (xs.zip ys) x y = .ok (k + la.length, x', y') ∧ x'.length = nx ∧ y'.length = ny ∧
      (∀ p, p < nx → x'[p]? = if p ∈ la then some (some (getSymbol (k + la.idxOf p))) else x[p]?) ∧
      (∀ p, p < ny → y'[p]? = if p ∈ lb then some (some (getSymbol (k + lb.idxOf p))) else y[p]?) := by
  induction hx generalizing ys lb x y k with
  | nil =>
    cases hy with
    | nil => exact ⟨x, y, rfl, hxl, hyl, by simp, by simp⟩
    | cons _ _ => simp at hlen
  | @cons i p xs la hip hx ih =>
    cases hy with
    | nil => simp at hlen
    | @cons j q ys lb hjq hy =>
      rw [List.nodup_cons] at hna hnb
      simp only [List.length_cons] at hlen hk
      obtain ⟨x', y', h1, h2, h3, h4, h5⟩ := ih (x := x.set p (some (getSymbol k))) (y := y.set q (some (getSymbol k))) (k := k + 1)
        hy (by simpa using hxl) (by simpa using hyl) (by omega) hna.2 hnb.2 (by omega)
      refine ⟨x', y', ?_, h2, h3, ?_, ?_⟩
      · simp only [List.zip_cons_cons, fillPairs]
        rw [nextSymbol_ok (by omega)]
        simp only [bind, Except.bind]
        rw [setItem_ok (hxl ▸ hip)]
        simp only
        rw [setItem_ok (hyl ▸ hjq)]
        simp only
        rw [h1]
        congr 2
        simp; omega
      · exact fun r hr => step_get h4 hip.1 hxl hna.1 r hr
      · exact fun r hr => step_get h5 hjq.1 hyl hnb.1 r hr
where
  step_get {n k p : Nat} {la : List Nat} {x x' : List (Option Nat)}
      (h : ∀ r, r < n → x'[r]? = if r ∈ la then some (some (getSymbol (k + 1 + la.idxOf r))) else (x.set p (some (getSymbol k)))[r]?)
      (hp : p < n) (hl : x.length = n) (hnp : p ∉ la) (r : Nat) (hr : r < n) :
      x'[r]? = if r ∈ p :: la then some (some (getSymbol (k + (p :: la).idxOf r))) else x[r]? := by
    rw [h r hr]
    by_cases hrp : r = p
    · subst hrp
      rw [if_neg hnp, if_pos (by simp)]
      simp [hl, hr]
    · have h2 : (p == r) = false := by simpa using fun e => hrp e.symm
      by_cases hrl : r ∈ la
      · rw [if_pos hrl, if_pos (by simp [hrl]), List.idxOf_cons, h2]
        congr 3
        simp; omega
      · rw [if_neg hrl, if_neg (by simp [hrl, hrp]), List.getElem?_set_ne (fun e => hrp e.symm)]

/-- The remaining positions get fresh symbols, which are exactly what is appended to the output. -/
theorem fillRest_ok (k : Nat) (l : List (Option Nat)) (hk : k + l.count none ≤ 52)
    (hl : ∀ c, some c ∈ l → ∃ j < k, c = getSymbol j) (hn : (l.filterMap id).Nodup) :
    ∃ s o, fillRest k l = .ok (s, o, k + l.count none) ∧ o = (List.range' k (l.count none)).map getSymbol ∧
      s.length = l.length ∧ (∀ (i c : Nat), l[i]? = some (some c) → s[i]? = some c) ∧
      s.filter (fun c => some c ∉ l) = o ∧ s.Nodup ∧ (∀ c ∈ s, some c ∈ l ∨ c ∈ o) := by
  suffices ∀ (l' : List (Option Nat)), (∀ c, some c ∈ l → some c ∈ l') → (∀ c, some c ∈ l' → ∃ j < k, c = getSymbol j) →
      ∃ s o, fillRest k l = .ok (s, o, k + l.count none) ∧ o = (List.range' k (l.count none)).map getSymbol ∧
      s.length = l.length ∧ (∀ (i c : Nat), l[i]? = some (some c) → s[i]? = some c) ∧
      s.filter (fun c => some c ∉ l') = o ∧ s.Nodup ∧ (∀ c ∈ s, some c ∈ l ∨ c ∈ o) from this l (fun _ h => h) hl
  clear hl
  induction l generalizing k with
  | nil => intro l' _ _; exact ⟨[], [], rfl, rfl, rfl, by simp, rfl, by simp, by simp⟩
  | cons a l ih =>
    intro l' hsub hl'
    cases a with
    | some c =>
      have hcnt : (some c :: l).count none = l.count none := by simp
      rw [hcnt] at hk ⊢
      simp only [List.filterMap_cons_some (show id (some c) = some c from rfl), List.nodup_cons] at hn
      obtain ⟨s, o, h1, h2, h3, h4, h5, h6, h7⟩ := ih k hk hn.2 l' (fun d hd => hsub d (by simp [hd])) hl'
      refine ⟨c :: s, o, ?_, h2, by simp [h3], ?_, ?_, ?_, ?_⟩
      · simp only [fillRest, h1, bind, Except.bind]
      · intro i d hi
        cases i with
        | zero => simpa using hi
        | succ i => simpa using h4 i d (by simpa using hi)
      · rw [List.filter_cons_of_neg (by simpa using hsub c (by simp)), h5]
      · rw [List.nodup_cons]
        refine ⟨?_, h6⟩
        intro hc
        rcases h7 c hc with h | h
        · exact hn.1 (List.mem_filterMap.mpr ⟨some c, h, rfl⟩)
        · rw [h2] at h
          obtain ⟨j, hj, hjc⟩ := List.mem_map.mp h
          obtain ⟨j', hj', hjc'⟩ := hl' c (hsub c (by simp))
          have := getSymbol_injective (hjc.trans hjc')
          rw [List.mem_range'_1] at hj
          omega
      · intro d hd
        rcases List.mem_cons.mp hd with rfl | hd
        · left; simp
        · rcases h7 d hd with h | h
          · left; simp [h]
          · exact Or.inr h
    | none =>
      have hcnt : (none :: l).count none = l.count none + 1 := by simp
      rw [hcnt] at hk ⊢
      simp only [List.filterMap_cons_none (show id (none : Option Nat) = none from rfl)] at hn
      obtain ⟨s, o, h1, h2, h3, h4, h5, h6, h7⟩ := ih (k + 1) (by omega) hn l' (fun d hd => hsub d (by simp [hd]))
        (fun d hd => by obtain ⟨j, hj, e⟩ := hl' d hd; exact ⟨j, by omega, e⟩)
      have hfresh : some (getSymbol k) ∉ l' := by
        intro h
        obtain ⟨j, hj, e⟩ := hl' _ h
        have := getSymbol_injective e
        omega
      refine ⟨getSymbol k :: s, getSymbol k :: o, ?_, ?_, by simp [h3], ?_, ?_, ?_, ?_⟩
      · simp only [fillRest, nextSymbol_ok (show k < 52 by omega), h1, bind, Except.bind]
        congr 3
        omega
      · rw [List.range'_succ, List.map_cons, h2]
      · intro i d hi
        cases i with
        | zero => simp at hi
        | succ i => simpa using h4 i d (by simpa using hi)
      · rw [List.filter_cons_of_pos (by simpa using hfresh), h5]
      · rw [List.nodup_cons]
        refine ⟨?_, h6⟩
        intro hc
        rcases h7 _ hc with h | h
        · exact hfresh (hsub _ (by simp [h]))
        · rw [h2] at h
          obtain ⟨j, hj, hjc⟩ := List.mem_map.mp h
          have := getSymbol_injective hjc
          rw [List.mem_range'_1] at hj
          omega
      · intro d hd
        rcases List.mem_cons.mp hd with rfl | hd
        · right; simp
        · rcases h7 d hd with h | h
          · left; simp [h]
          · right; simp [h]

/-- The list of one operand after the loop over the paired axes. -/
def axList (n : Nat) (la : List Nat) : List (Option Nat) :=
  (List.range n).map (fun p => if p ∈ la then some (getSymbol (la.idxOf p)) else none)

theorem eq_axList {n : Nat} {la : List Nat} {x' : List (Option Nat)} (hl : x'.length = n)
    (h : ∀ p, p < n → x'[p]? = if p ∈ la then some (some (getSymbol (0 + la.idxOf p))) else (List.replicate n none)[p]?) :
    x' = axList n la := by
  apply List.ext_getElem?
  intro p
  by_cases hp : p < n
  · rw [h p hp]
    unfold axList
    rw [List.getElem?_map, List.getElem?_range hp]
    simp only [Option.map_some, Nat.zero_add]
    split
    · rfl
    · simp [hp]
  · rw [List.getElem?_eq_none (by omega), List.getElem?_eq_none (by unfold axList; simp; omega)]

theorem mem_axList {n : Nat} {la : List Nat} (hlt : ∀ p ∈ la, p < n) (hn : la.Nodup) {c : Nat} :
    some c ∈ axList n la ↔ c ∈ (List.range la.length).map getSymbol := by
  unfold axList
  simp only [List.mem_map, List.mem_range]
  constructor
  · rintro ⟨p, hp, h⟩
    by_cases hpl : p ∈ la
    · rw [if_pos hpl] at h
      exact ⟨la.idxOf p, List.idxOf_lt_length_of_mem hpl, by simpa using h⟩
    · rw [if_neg hpl] at h; simp at h
  · rintro ⟨i, hi, rfl⟩
    refine ⟨la[i], hlt _ (by simp), ?_⟩
    rw [if_pos (by simp), hn.idxOf_getElem i hi]

theorem axList_nodup {n : Nat} {la : List Nat} : ((axList n la).filterMap id).Nodup := by
  unfold axList
  rw [List.filterMap_map]
  apply List.Nodup.filterMap _ List.nodup_range
  intro p q c hp hq
  simp only [Function.comp, id] at hp hq
  by_cases h1 : p ∈ la
  · by_cases h2 : q ∈ la
    · rw [if_pos h1] at hp
      rw [if_pos h2] at hq
      simp only [Option.mem_def, Option.some.injEq] at hp hq
      exact (List.idxOf_inj h1).mp (getSymbol_injective (hp.trans hq.symm))
    · simp [h2] at hq
  · simp [h1] at hp

theorem axList_count {n : Nat} {la : List Nat} (hlt : ∀ p ∈ la, p < n) (hn : la.Nodup) :
    (axList n la).count none + la.length = n := by
  unfold axList
  rw [List.count, List.countP_map]
  have h1 : la.length = (List.range n).countP (fun p => p ∈ la) := by
    rw [List.countP_eq_length_filter]
    apply List.Perm.length_eq
    rw [List.perm_ext_iff_of_nodup hn (List.nodup_range.filter _)]
    intro p
    simp only [List.mem_filter, List.mem_range, decide_eq_true_eq]
    exact ⟨fun h => ⟨hlt p h, h⟩, fun h => h.2⟩
  have h2 := List.length_eq_countP_add_countP (fun p => decide (p ∈ la)) (l := List.range n)
  rw [List.length_range] at h2
  have h3 : (List.range n).countP ((fun x => x == none) ∘ fun p => if p ∈ la then some (getSymbol (la.idxOf p)) else none) =
      (List.range n).countP (fun a => decide ¬ (decide (a ∈ la)) = true) := by
    congr 1
    funext p
    by_cases h : p ∈ la <;> simp [h]
  rw [h3]
  omega

theorem forall2_of_axesMean {xnd ynd : Nat} {axes : Axes} {la lb : List Nat} (h : AxesMean xnd ynd axes la lb) :
    List.Forall₂ (DenotesAxis xnd) (axes.lists xnd).1 la ∧ List.Forall₂ (DenotesAxis ynd) (axes.lists xnd).2 lb := by
  have arg : ∀ (nd : Nat) (x : AxArg) (l : List Nat), DenotesAxes nd x l → List.Forall₂ (DenotesAxis nd) x.toList l := by
    intro nd x l h
    cases x with
    | one i =>
      obtain ⟨p, rfl, hp⟩ := h
      exact List.Forall₂.cons hp List.Forall₂.nil
    | many l => exact h
  cases axes with
  | pair x y => exact ⟨arg _ _ _ h.1, arg _ _ _ h.2⟩
  | int n =>
    obtain ⟨m, rfl, h1, h2, rfl, rfl⟩ := h
    simp only [Axes.lists]
    constructor
    · unfold pyRange
      have he : ((xnd : Int) - (xnd - m)).toNat = m := by omega
      rw [he, List.forall₂_iff_get]
      refine ⟨by simp, ?_⟩
      intro i hi hi'
      simp only [List.length_map, List.length_range] at hi
      simp only [List.get_eq_getElem, List.getElem_map, List.getElem_range, List.getElem_range']
      exact ⟨by omega, Or.inl (by push_cast; omega)⟩
    · unfold pyRange
      have he : ((m : Int) - 0).toNat = m := by omega
      rw [he, List.forall₂_iff_get]
      refine ⟨by simp, ?_⟩
      intro i hi hi'
      simp only [List.length_map, List.length_range] at hi
      simp only [List.get_eq_getElem, List.getElem_map, List.getElem_range, List.getElem_range']
      exact ⟨by omega, Or.inl (by push_cast; omega)⟩

section
variable {R : Type} [CommSemiring R]

/-- Two contractions of the same operands are the same array. -/
theorem sameArray_of_contraction {size : Nat → Nat} {P : List (Str × Tensor R)} {r : Str} {S T : Tensor R} (hn : r.Nodup)
    (hS : IsContraction size P r S) (hT : IsContraction size P r T) : SameArray S T := by
  refine ⟨by rw [hS.shape, hT.shape], ?_⟩
  intro coords hl hr
  have hl' : coords.length = r.length := by rw [hl, hS.shape, List.length_map]
  have key : ∀ U : Tensor R, IsContraction size P r U → U.val coords = U.get (r.map (envOf r coords)) := by
    intro U hU
    unfold Tensor.get
    rw [map_envOf hn hl']
    congr 1
    rw [hU.shape]
    apply List.ext_getElem
    · simp [hl']
    · intro i h1 h2
      simp only [List.getElem_zipWith, List.getElem_map, bc]
      split
      · rename_i hs
        have hi : i < r.length := by omega
        have := hr i (localSize P r[i]) coords[i] (by rw [hS.shape, List.getElem?_map, List.getElem?_eq_getElem hi]; rfl)
          (List.getElem?_eq_getElem h1)
        omega
      · rfl
  rw [key S hS, key T hT, hS.get, hT.get]

/-! ## The theorem -/

/-- **C46.** For every axes specification for which numpy's `tensordot` is defined, with at most 52 symbols needed, the einsum
string built by the fallback computes `tensordot`: the paired axes are contracted, the remaining axes of the left array come first,
then those of the right one, in order. -/
theorem C46_torch_tensordot (a b : Tensor R) (axes : Axes) (la lb : List Nat)
    (hax : AxesMean a.shape.length b.shape.length axes la lb) (V : Tensor R) (hV : npTensordot a b la lb = .ok V)
    (h52 : a.shape.length + b.shape.length ≤ 52 + la.length) :
    ∃ T, torchTensordot a b axes = .ok T ∧ SameArray T V := by
  have hcond : la.length = lb.length ∧ la.Nodup ∧ lb.Nodup ∧ (∀ p ∈ la, p < a.shape.length) ∧ (∀ p ∈ lb, p < b.shape.length) ∧
      la.map (fun p => a.shape.getD p 0) = lb.map (fun p => b.shape.getD p 0) := by
    unfold npTensordot at hV
    split at hV
    · cases hV
    · rename_i h
      simp only [not_or, not_not, List.any_eq_true, decide_eq_true_eq, not_exists, not_and, ne_eq, not_le] at h
      exact h
  obtain ⟨hlen, hna, hnb, hla, hlb, hdims⟩ := hcond
  obtain ⟨hxs, hys⟩ := forall2_of_axesMean hax
  set xnd := a.shape.length with hxnd
  set ynd := b.shape.length with hynd
  have hcx := axList_count hla hna
  have hcy := axList_count hlb hnb
  obtain ⟨x', y', hf, hx1, hy1, hx2, hy2⟩ := fillPairs_ok (k := 0) (x := List.replicate xnd none) (y := List.replicate ynd none)
    hxs hys (by simp) (by simp) hlen hna hnb (by omega)
  rw [eq_axList hx1 hx2, eq_axList hy1 hy2] at hf
  rw [Nat.zero_add] at hf
  have hmx : ∀ c, some c ∈ axList xnd la ↔ c ∈ (List.range la.length).map getSymbol := fun c => mem_axList hla hna
  have hmy : ∀ c, some c ∈ axList ynd lb ↔ c ∈ (List.range la.length).map getSymbol := fun c => by rw [hlen]; exact mem_axList hlb hnb
  obtain ⟨sx, ox, fx, hox, hsxl, hsx, hsxf, hsxn, hsxm⟩ := fillRest_ok la.length (axList xnd la) (by omega)
    (fun c hc => by
      obtain ⟨j, hj, rfl⟩ := List.mem_map.mp ((hmx c).mp hc)
      exact ⟨j, by simpa using hj, rfl⟩) axList_nodup
  obtain ⟨sy, oy, fy, hoy, hsyl, hsy, hsyf, hsyn, hsym⟩ := fillRest_ok (la.length + (axList xnd la).count none) (axList ynd lb) (by omega)
    (fun c hc => by
      obtain ⟨j, hj, rfl⟩ := List.mem_map.mp ((hmy c).mp hc)
      exact ⟨j, by simp at hj; omega, rfl⟩) axList_nodup
  set L := (List.range la.length).map getSymbol with hL
  have hLn : L.Nodup := List.nodup_range.map getSymbol_injective
  have haxl : ∀ n l, (axList n l).length = n := by intro n l; simp [axList]
  rw [haxl] at hsxl hsyl
  -- symbols of the outputs are fresh
  have hoxL : ∀ c ∈ ox, c ∉ L := by
    intro c hc hcL
    rw [hox] at hc
    obtain ⟨i, hi, rfl⟩ := List.mem_map.mp hc
    obtain ⟨j, hj, he⟩ := List.mem_map.mp hcL
    have := getSymbol_injective he
    rw [List.mem_range'_1] at hi
    simp at hj
    omega
  have hoyL : ∀ c ∈ oy, c ∉ L := by
    intro c hc hcL
    rw [hoy] at hc
    obtain ⟨i, hi, rfl⟩ := List.mem_map.mp hc
    obtain ⟨j, hj, he⟩ := List.mem_map.mp hcL
    have := getSymbol_injective he
    rw [List.mem_range'_1] at hi
    simp at hj
    omega
  have hoxy : ∀ c ∈ ox, c ∉ oy := by
    intro c hc hc'
    rw [hox] at hc
    rw [hoy] at hc'
    obtain ⟨i, hi, rfl⟩ := List.mem_map.mp hc
    obtain ⟨j, hj, he⟩ := List.mem_map.mp hc'
    have := getSymbol_injective he
    rw [List.mem_range'_1] at hi hj
    omega
  -- positions of the paired symbols
  have pos : ∀ (n : Nat) (l : List Nat) (s : Str), (∀ p ∈ l, p < n) → l.Nodup → s.Nodup → la.length = l.length →
      (∀ (i c : Nat), (axList n l)[i]? = some (some c) → s[i]? = some c) → L.map s.idxOf = l ∧ ∀ c ∈ L, c ∈ s := by
    intro n l s hl hn hsn hll hs
    have hat : ∀ i (hi : i < l.length), s[l[i]]? = some (getSymbol i) := by
      intro i hi
      apply hs
      have hlt := hl l[i] (by simp)
      unfold axList
      rw [List.getElem?_map, List.getElem?_range hlt]
      simp [hn.idxOf_getElem i hi]
    constructor
    · apply List.ext_getElem
      · simp [hL, hll]
      · intro i h1 h2
        simp only [hL, List.getElem_map, List.getElem_range]
        have h3 := hat i h2
        obtain ⟨h4, h5⟩ := List.getElem?_eq_some_iff.mp h3
        rw [← h5, hsn.idxOf_getElem _ h4]
    · intro c hc
      obtain ⟨i, hi, rfl⟩ := List.mem_map.mp hc
      exact List.mem_of_getElem? (hat i (by simpa [hll] using hi))
  obtain ⟨hpx, hLx⟩ := pos xnd la sx hla hna hsxn rfl hsx
  obtain ⟨hpy, hLy⟩ := pos ynd lb sy hlb hnb hsyn hlen hsy
  have hrm : ∀ c, c ∈ L.toFinset ↔ c ∈ sx ∧ c ∈ sy := by
    intro c
    rw [List.mem_toFinset]
    constructor
    · exact fun h => ⟨hLx c h, hLy c h⟩
    · rintro ⟨h1, h2⟩
      rcases hsxm c h1 with h | h
      · exact (hmx c).mp h
      · rcases hsym c h2 with h' | h'
        · exact (hmy c).mp h'
        · exact absurd h' (hoxy c h)
  have hout : (sx ++ sy).filter (fun c => c ∉ L.toFinset) = ox ++ oy := by
    rw [List.filter_append]
    congr 1
    · rw [← hsxf]
      apply List.filter_congr
      intro c _
      simp only [List.mem_toFinset, decide_eq_decide]
      rw [hmx]
    · rw [← hsyf]
      apply List.filter_congr
      intro c _
      simp only [List.mem_toFinset, decide_eq_decide]
      rw [hmy]
  have hblas : BlasOk sx sy a b L.toFinset ((sx ++ sy).filter (fun c => c ∉ L.toFinset)) := by
    refine ⟨hsxn, hsyn, hsxl, hsyl, hrm, ?_, ?_⟩
    · intro c; rw [List.mem_filter, List.mem_append]; simp only [decide_eq_true_eq]
    · intro c hc
      rw [List.mem_toFinset] at hc
      unfold dimOf
      obtain ⟨i, hi, rfl⟩ := List.getElem_of_mem hc
      have hil : i < la.length := by simpa [hL] using hi
      have e1 : sx.idxOf L[i] = la[i] := by
        have : (L.map sx.idxOf)[i]? = la[i]? := by rw [hpx]
        rw [List.getElem?_map, List.getElem?_eq_getElem hi, List.getElem?_eq_getElem hil] at this
        simpa using this
      have hil' : i < lb.length := by omega
      have e2 : sy.idxOf L[i] = lb[i] := by
        have : (L.map sy.idxOf)[i]? = lb[i]? := by rw [hpy]
        rw [List.getElem?_map, List.getElem?_eq_getElem hi, List.getElem?_eq_getElem hil'] at this
        simpa using this
      rw [e1, e2]
      have h3 := congrArg (fun l => l[i]?) hdims
      simp only [List.getElem?_map, List.getElem?_eq_getElem hil, List.getElem?_eq_getElem hil', Option.map_some,
        Option.some.injEq] at h3
      exact h3
  set P : List (Str × Tensor R) := [(sx, a), (sy, b)] with hP
  obtain ⟨V', hV', hcV⟩ := tensordot_contraction_of_order (size := localSize P) hblas (fun c _ => rfl) L hLn
    (by intro c; rw [List.mem_toFinset]; exact ⟨fun h => ⟨hLx c h, h⟩, fun h => h.2⟩)
  rw [hpx, hpy, hV] at hV'
  cases hV'
  rw [hout] at hcV
  have hon : (ox ++ oy).Nodup := by
    rw [← hout]
    rw [List.filter_append, List.nodup_append]
    refine ⟨hsxn.filter _, hsyn.filter _, ?_⟩
    intro c hc d hd he
    subst he
    rw [List.mem_filter] at hc hd
    simp only [decide_eq_true_eq] at hc
    exact hc.2 ((hrm c).mpr ⟨hc.1, hd.1⟩)
  have hoccP : ∀ c, Occurs P c ↔ c ∈ sx ∨ c ∈ sy := by intro c; simp [hP, Occurs]
  have hsymall : ∀ c, Occurs P c → c ∈ (List.range 52).map getSymbol := by
    intro c hc
    rw [hoccP] at hc
    have hLr : ∀ c ∈ L, c ∈ (List.range 52).map getSymbol := by
      intro c hc
      obtain ⟨i, hi, rfl⟩ := List.mem_map.mp hc
      exact List.mem_map.mpr ⟨i, by simp at hi ⊢; omega, rfl⟩
    have hoxr : ∀ c ∈ ox, c ∈ (List.range 52).map getSymbol := by
      intro c hc
      rw [hox] at hc
      obtain ⟨i, hi, rfl⟩ := List.mem_map.mp hc
      rw [List.mem_range'_1] at hi
      exact List.mem_map.mpr ⟨i, by simp; omega, rfl⟩
    have hoyr : ∀ c ∈ oy, c ∈ (List.range 52).map getSymbol := by
      intro c hc
      rw [hoy] at hc
      obtain ⟨i, hi, rfl⟩ := List.mem_map.mp hc
      rw [List.mem_range'_1] at hi
      exact List.mem_map.mpr ⟨i, by simp; omega, rfl⟩
    rcases hc with hc | hc
    · rcases hsxm c hc with h | h
      · exact hLr c ((hmx c).mp h)
      · exact hoxr c h
    · rcases hsym c hc with h | h
      · exact hLr c ((hmy c).mp h)
      · exact hoyr c h
  have hfits : Fits (localSize P) P := by
    have hls : ∀ c ∈ sx, localSize P c = dimOf sx a c := fun c hc => localSize_left hblas hc
    have hrs : ∀ c ∈ sy, localSize P c = dimOf sy b c := fun c hc => localSize_right hblas hc
    have hfun : ∀ (t : Str) (T : Tensor R), t.Nodup → t.length = T.shape.length → ∀ c d, (c, d) ∈ t.zip T.shape → d = dimOf t T c := by
      intro t T hn hl c d hd
      rw [shape_eq_map_dimOf hn hl, mem_zip_map_right] at hd
      exact hd.2
    refine ⟨?_, ?_, ?_, ?_⟩
    · intro p hp
      simp only [hP, List.mem_cons, List.not_mem_nil, or_false] at hp
      rcases hp with rfl | rfl
      · exact hsxl
      · exact hsyl
    · intro p hp c d d' h1 h2
      simp only [hP, List.mem_cons, List.not_mem_nil, or_false] at hp
      rcases hp with rfl | rfl
      · rw [hfun _ _ hsxn hsxl _ _ h1, hfun _ _ hsxn hsxl _ _ h2]
      · rw [hfun _ _ hsyn hsyl _ _ h1, hfun _ _ hsyn hsyl _ _ h2]
    · rintro c d ⟨p, hp, hd⟩
      right
      simp only [hP, List.mem_cons, List.not_mem_nil, or_false] at hp
      rcases hp with rfl | rfl
      · rw [hfun _ _ hsxn hsxl _ _ hd, hls c (List.of_mem_zip hd).1]
      · rw [hfun _ _ hsyn hsyl _ _ hd, hrs c (List.of_mem_zip hd).1]
    · intro c hc
      rw [hoccP] at hc
      rcases hc with hc | hc
      · rw [hls c hc]; exact ⟨(sx, a), by simp [hP], dimOf_mem hsxl hc⟩
      · rw [hrs c hc]; exact ⟨(sy, b), by simp [hP], dimOf_mem hsyl hc⟩
  have hcall := convertCall_contraction (size := localSize P) (P := P) (r := ox ++ oy) (by simp [hP]) hfits hon
    (by
      intro c hc
      rw [← hout, List.mem_filter, List.mem_append] at hc
      exact (hoccP c).mpr hc.1)
    (fun _ _ _ => rfl)
    (by
      intro c hc
      obtain ⟨i, _, rfl⟩ := List.mem_map.mp (hsymall c hc)
      exact fun h => getSymbol_not_punct i ((isPunct_iff _).mpr h))
  have hstr : tensordotStr xnd ynd axes = .ok (einsumStrOf (P.map Prod.fst) (ox ++ oy)) := by
    unfold tensordotStr
    simp only
    rw [hf]
    simp only [bind, Except.bind]
    rw [fx]
    simp only
    rw [fy]
    simp [einsumStrOf, hP, join]
  rcases hcall with ⟨T, hT, hc⟩ | ⟨_, h⟩
  · refine ⟨T, ?_, sameArray_of_contraction hon hc hcV⟩
    unfold torchTensordot
    rw [hstr]
    exact hT
  · have := h _ hsymall
    simp at this

/-- A tensordot with a negative axis and crossing pairs meets the hypotheses. -/
example : ∃ T, torchTensordot (ones [2, 3, 4]) (ones [4, 5, 2]) (.pair (.many [0, -1]) (.many [2, 0])) = .ok T ∧ T.shape = [3, 5] ∧
    T.val [1, 1] = 8 := by
  obtain ⟨T, h1, h2, h3⟩ := C46_torch_tensordot (ones [2, 3, 4]) (ones [4, 5, 2]) (.pair (.many [0, -1]) (.many [2, 0])) [0, 2] [2, 0]
    (by
      refine ⟨?_, ?_⟩ <;> simp [DenotesAxes, DenotesAxis, ones]) _ rfl (by decide)
  refine ⟨T, h1, h2, ?_⟩
  rw [h3 [1, 1] (by rw [h2]; rfl) (by
    intro i d x hd hx
    rw [h2] at hd
    match i with
    | 0 => simp [ones, freeAxes, List.range_succ] at hd hx; omega
    | 1 => simp [ones, freeAxes, List.range_succ] at hd hx; omega
    | n + 2 => simp at hx)]
  rfl

example : tensordotStr 3 3 (.int 2) = .ok (S "cab,abd->cd") := rfl
example : tensordotStr 3 3 (.pair (.many [0, -1]) (.many [2, 0])) = .ok (S "acb,bda->cd") := rfl

/-- The fallback accepts axes that `tensordot` refuses: an axis of length 1 is broadcast against a longer one, and surplus
axes of one side are ignored. -/
theorem C46_fallback_accepts_more :
    (npTensordot (ones [3]) (ones [1]) [0] [0] = .error .value ∧
      ∃ T, torchTensordot (ones [3]) (ones [1]) (.pair (.one 0) (.one 0)) = .ok T ∧ T.val [] = 3) ∧
    (npTensordot (ones [3]) (ones [3]) [0] [] = .error .value ∧
      ∃ T, torchTensordot (ones [3]) (ones [3]) (.pair (.one 0) (.many [])) = .ok T ∧ T.shape = [3, 3]) :=
  ⟨⟨rfl, _, rfl, rfl⟩, rfl, _, rfl, rfl⟩
end

end OE.Props
