import Verif.Lemmas.EinsumInv
import Verif.Props.Parser2

/-! `numpy.einsum` on equations with ellipses agrees with the expansion of `parse_einsum_input`. -/

namespace OE
open OE.Py OE.Parser OE.Spec OE.Contract
variable {R : Type} [CommSemiring R]

/-- Renaming of the parser's broadcast labels `E` to numpy's. -/
def toBcast (E : List Nat) (c : Nat) : Nat := if c ∈ E then E.length - 1 - E.idxOf c + 128 else c

theorem toBcast_suffix {E suf : List Nat} {k : Nat} (hE : E.Nodup) (h : IsSuffixOfLength k E suf) : suf.map (toBcast E) = bcastLabels k := by
  obtain ⟨hl, p, rfl⟩ := h
  subst hl
  apply List.ext_getElem
  · simp [bcastLabels]
  intro j h1 h2
  have hj : j < suf.length := by simpa using h1
  rw [List.getElem_map]
  have hb : (bcastLabels suf.length)[j]'h2 = suf.length - 1 - j + 128 := by simp [bcastLabels]
  rw [hb]
  unfold toBcast
  have hidx : (p ++ suf).idxOf suf[j] = p.length + j := by
    have h := hE.idxOf_getElem (p.length + j) (by simp; omega)
    have e : (p ++ suf)[p.length + j]'(by simp; omega) = suf[j] := by
      rw [List.getElem_append_right (by omega)]
      simp
    rwa [e] at h
  rw [if_pos (by simp), hidx]
  simp only [List.length_append]
  omega

theorem toBcast_id {E l : List Nat} (h : ∀ c ∈ l, c ∉ E) : l.map (toBcast E) = l := by
  conv_rhs => rw [← List.map_id l]
  apply List.map_congr_left
  intro c hc
  simp [toBcast, h c hc]

theorem toBcast_injOn {E : List Nat} {S : Set Nat} (h : ∀ c ∈ S, c ∈ E ∨ c < 128) : Set.InjOn (toBcast E) S := by
  intro x hx y hy e
  unfold toBcast at e
  by_cases hxE : x ∈ E <;> by_cases hyE : y ∈ E
  · rw [if_pos hxE, if_pos hyE] at e
    have h1 := List.idxOf_lt_length_iff.mpr hxE
    have h2 := List.idxOf_lt_length_iff.mpr hyE
    exact (List.idxOf_inj hxE).mp (by omega)
  · rw [if_pos hxE, if_neg hyE] at e
    have := (h y hy).resolve_left hyE
    omega
  · rw [if_neg hxE, if_pos hyE] at e
    have := (h x hx).resolve_left hxE
    omega
  · rwa [if_neg hxE, if_neg hyE] at e

/-- The dimensions an ellipsis stands for. -/
def dotDims (p : Str × Nat) : Nat := if cDot ∈ p.1 then p.2 + 3 - p.1.length else 0

theorem npBroadcast_eq (l : List (Str × Nat)) : npBroadcast l = (l.map dotDims).foldl max 0 := by
  unfold npBroadcast
  suffices h : ∀ n, l.foldl (fun n p => if cDot ∈ p.1 then max n (p.2 + 3 - p.1.length) else n) n = (l.map dotDims).foldl max n from h 0
  intro n
  induction l generalizing n with
  | nil => rfl
  | cons a t ih =>
    rw [List.foldl_cons, List.map_cons, List.foldl_cons, ih]
    congr 1
    unfold dotDims
    split <;> simp

theorem npTerm_expand {E : List Nat} (hE : E.Nodup) {rank k : Nat} {t t' : Str} (h : ExpandTerm E rank t t' k) (hfit : cDot ∈ t → t.length ≤ rank + 3)
    (hfr : ∀ c ∈ t, c ∉ E) : npTerm t rank = .ok (t'.map (toBcast E)) ∧ k = dotDims (t, rank) := by
  cases h with
  | plain _ hd => simp [npTerm, hd, dotDims, toBcast_id hfr]
  | dots a b suf k ha hb hk hs =>
    have hdot : cDot ∈ a ++ S "..." ++ b := by simp [dots_eq]
    have hl := hfit hdot
    have hlen : (a ++ S "..." ++ b).length = a.length + 3 + b.length := by simp [dots_eq]; omega
    have hform : a ++ S "..." ++ b = a ++ 46 :: 46 :: 46 :: b := by simp [dots_eq]
    have hk' : k = rank + 3 - (a ++ S "..." ++ b).length := by omega
    refine ⟨?_, by simp only [dotDims, if_pos hdot]; exact hk'⟩
    unfold npTerm
    rw [if_neg (by simp [dots_eq]), if_neg (by rw [hform]; simp [dots_form_conv a b ha hb]), if_neg (by omega), ← hk', hform,
      replaceDots_append _ _ _ ha, replaceDots_of_free _ b hb, List.map_append, List.map_append, toBcast_suffix hE hs,
      toBcast_id (fun c hc => hfr c (by simp [hc])), toBcast_id (l := b) (fun c hc => hfr c (by simp [hc]))]

theorem npTerm_error {t : Str} {rank : Nat} {e : PyErr} (h : npTerm t rank = .error e) : e = .value := by
  unfold npTerm at h
  split at h
  · cases h
  · split at h
    · cases h; rfl
    · split at h
      · cases h; rfl
      · cases h

theorem mapM_npTerm_ok {l : List (Str × Nat)} {m : List Str} (hlen : l.length = m.length)
    (h : ∀ (i : Nat) (p : Str × Nat) (t : Str), l[i]? = some p → m[i]? = some t → npTerm p.1 p.2 = .ok t) :
    l.mapM (fun p => npTerm p.1 p.2) = .ok m := by
  induction l generalizing m with
  | nil =>
    cases m with
    | nil => rfl
    | cons a t => simp at hlen
  | cons p l ih =>
    cases m with
    | nil => simp at hlen
    | cons a t =>
      rw [List.mapM_cons, h 0 p a rfl rfl, ih (by simpa using hlen) (fun i p' t' h1 h2 => h (i + 1) p' t' (by simpa using h1) (by simpa using h2))]
      rfl

theorem mapM_npTerm_error {l : List (Str × Nat)} {p : Str × Nat} (hp : p ∈ l) (h : ∃ e, npTerm p.1 p.2 = .error e) :
    l.mapM (fun p => npTerm p.1 p.2) = .error .value := by
  induction l with
  | nil => cases hp
  | cons a l ih =>
    rw [List.mapM_cons]
    cases ha : npTerm a.1 a.2 with
    | error e => rw [npTerm_error ha]; rfl
    | ok v =>
      rcases List.mem_cons.mp hp with rfl | hp
      · obtain ⟨e, he⟩ := h
        rw [he] at ha; cases ha
      · rw [ih hp]; rfl

theorem expandOut_eq {eo r r' : Str} (h : ExpandOut eo r r') : r' = replaceDots eo r := by
  induction h with
  | nil => rfl
  | dots r r' _ ih => rw [dots_eq]; simp [replaceDots, ih]
  | char c r r' hc _ ih =>
    rw [replaceDots, ih]
    intro xs hx
    exact absurd hx hc

theorem expandOut_mem {eo r r' : Str} (h : ExpandOut eo r r') {c : Nat} (hc : c ∈ r) (hn : c ≠ cDot) : c ∈ r' := by
  induction h with
  | nil => cases hc
  | dots r r' _ ih =>
    rw [dots_eq] at hc
    simp only [List.mem_append, List.mem_cons, List.not_mem_nil, or_false] at hc ⊢
    rcases hc with (h | h | h) | h
    · exact absurd h hn
    · exact absurd h hn
    · exact absurd h hn
    · exact Or.inr (ih h)
  | char d r r' hd _ ih =>
    rcases List.mem_cons.mp hc with rfl | h
    · simp
    · exact List.mem_cons_of_mem _ (ih h)

theorem count_join_label {l : List Str} {c : Nat} (hc : c ≠ cComma) : (join [cComma] l).count c = l.flatten.count c := by
  induction l with
  | nil => rfl
  | cons a t ih =>
    cases t with
    | nil => simp [join]
    | cons b t =>
      rw [join, List.count_append, List.count_append, ih, List.flatten_cons, List.count_append, List.count_singleton]
      have : (cComma == c) = false := beq_eq_false_iff_ne.mpr (Ne.symm hc)
      simp [this]

theorem count_flatten_congr {c : Nat} {l m : List Str} (hlen : l.length = m.length)
    (h : ∀ (i : Nat) (t t' : Str), l[i]? = some t → m[i]? = some t' → t.count c = t'.count c) : l.flatten.count c = m.flatten.count c := by
  induction l generalizing m with
  | nil =>
    cases m with
    | nil => rfl
    | cons a t => simp at hlen
  | cons p l ih =>
    cases m with
    | nil => simp at hlen
    | cons a t =>
      rw [List.flatten_cons, List.flatten_cons, List.count_append, List.count_append, h 0 p a rfl rfl,
        ih (by simpa using hlen) (fun i p' t' h1 h2 => h (i + 1) p' t' (by simpa using h1) (by simpa using h2))]

theorem valid_lt {c : Nat} (h : isValidEinsumChar c = true) : c < 128 := by
  unfold isValidEinsumChar einsumSymbolsBase at h
  simp only [Bool.or_eq_true, decide_eq_true_eq, List.mem_append, List.mem_map, List.mem_range, List.mem_cons, List.not_mem_nil, or_false] at h
  rcases h with (⟨a, _, rfl⟩ | ⟨a, _, rfl⟩) | h <;> omega

theorem einsumCore_rank {ts : List Str} {r : Str} {ops : List (Tensor R)} {i : Nat} {t : Str} {T : Tensor R} (h1 : ts[i]? = some t)
    (h2 : ops[i]? = some T) (h : t.length ≠ T.shape.length) : einsumCore ts r ops = .error .value := by
  unfold einsumCore
  simp only
  split
  · rfl
  · rw [if_pos]
    rw [List.any_eq_true]
    refine ⟨(t, T.shape), ?_, by simpa using h⟩
    apply List.mem_of_getElem? (i := i)
    rw [List.getElem?_zip_eq_some]
    exact ⟨h1, by simp [h2]⟩

/-- numpy evaluates an equation with ellipses over the 52 letters as the equation that the parser expands it to. -/
theorem npEinsum_ellipsis {eq inp out : Str} {ops : List (Tensor R)} (hv : hasValidEinsumCharsOnly eq = true) (hdot : cDot ∈ eq)
    (hparse : parseEinsum eq (ops.map Tensor.shape) = .ok (inp, out)) (hkeep : KeepsEllipsis eq (ops.map Tensor.shape)) :
    npEinsum eq ops = einsumCore (splitOn cComma inp) out ops := by
  have hvc : ∀ c ∈ eq, isValidEinsumChar c = true := List.all_eq_true.mp hv
  have hfil : eq.filter (· ≠ cSpace) = eq := by
    rw [List.filter_eq_self]
    intro a ha
    simp only [decide_eq_true_eq]
    rintro rfl
    exact absurd (hvc _ ha) (by decide)
  have hE := Props.C35_ellipsis_expansion eq _ inp out hdot hparse
  rw [hfil] at hE
  obtain ⟨E, lhs, terms, terms', ks, L, eo, hEn, hEf, hs1, hs2, l1, l2, l3, hexp, ⟨hL1, hL2⟩, heo, hon, hosub, hside, hd1, hd2⟩ := hE
  have hlhs : splitOn cComma lhs = terms := by
    rw [← hs1.2.1, ← Props.join_eq_intercalate]
    exact splitOn_join _ _ hs1.1 hs1.2.2
  have hinp : splitOn cComma inp = terms' := by
    rw [← hs2.2.1, ← Props.join_eq_intercalate]
    exact splitOn_join _ _ hs2.1 hs2.2.2
  rw [hinp]
  simp only [List.length_map] at l1 l2 l3
  have hsubeq : ∀ c ∈ lhs, c ∈ eq := by
    intro c hc
    rcases hside with ⟨rhs, rfl, _⟩ | ⟨rfl, _⟩
    · simp [hc]
    · exact hc
  have hterm : ∀ t ∈ terms, ∀ c ∈ t, c ∈ lhs := by
    intro t ht c hc
    rw [← hlhs] at ht
    have := mem_join_of_mem [cComma] (splitOn cComma lhs) c t ht hc
    rwa [join_splitOn] at this
  have hfr : ∀ t ∈ terms, ∀ c ∈ t, c ∉ E := fun t ht c hc hcE => (hEf c hcE).1 (hsubeq c (hterm t ht c hc))
  -- the arrow
  have hcinp : ∀ c ∈ inp, c ∈ E ∨ c ∈ lhs := by
    intro c hc
    rw [← join_splitOn cComma inp, hinp] at hc
    rcases mem_join _ _ _ hc with h | ⟨t', ht', hct⟩
    · rw [List.mem_singleton] at h
      subst h
      -- a separator of `inp` is one of `lhs`
      by_cases h1 : terms'.length ≤ 1
      · exfalso
        rcases hx : terms' with _ | ⟨x, _ | ⟨y, ys⟩⟩
        · exact hs2.1 hx
        · rw [hx] at hc; exact hs2.2.2 x (by simp [hx]) hc
        · rw [hx] at h1; simp at h1
      · right
        rcases hx : terms with _ | ⟨x, _ | ⟨y, ys⟩⟩
        · rw [hx] at l1; simp at l1; omega
        · rw [hx] at l1; simp at l1; omega
        · rw [← join_splitOn cComma lhs, hlhs, hx, join]; simp
    · obtain ⟨i, hi, rfl⟩ := List.getElem_of_mem ht'
      have hi1 : i < terms.length := by omega
      have hi2 : i < ks.length := by omega
      have hi3 : i < ops.length := by omega
      have := hexp i terms[i] terms'[i] ks[i] ops[i].shape (List.getElem?_eq_getElem hi1) (List.getElem?_eq_getElem hi)
        (List.getElem?_eq_getElem hi2) (by simp [hi3])
      rcases expandTerm_mem this hct with h | h
      · exact Or.inr (hterm _ (List.getElem_mem hi1) c h.1)
      · exact Or.inl h
  have hnp : ∀ c, c = cDash ∨ c = cGt → c ∉ inp := by
    intro c hc h
    rcases hcinp c h with h | h
    · exact (hEf c h).2 (by rcases hc with rfl | rfl <;> simp [IsPunct])
    · rcases hc with rfl | rfl
      · exact hd1 h
      · exact hd2 h
  set ranks := ops.map (fun T => T.shape.length) with hranks
  have hlen : (splitOn cComma lhs).length = ranks.length := by rw [hlhs, hranks, List.length_map]; exact l1
  -- what remains, whichever way the output is given
  have key : ∀ o : Option Str, splitArrow eq = (match o with | some r => [lhs, r] | none => [lhs]) →
      (∀ n, n = L → (match o with | some r => npOutput n r | none => .ok (bcastLabels n ++ findOutputStr (removeChar cDot lhs))) =
        .ok (out.map (toBcast E))) →
      npEinsum eq ops = einsumCore terms' out ops := by
    intro o ho hout
    have h1 : npEinsum eq ops = (npSubscripts lhs o ranks).bind (fun p => einsumCore p.1 p.2 ops) := by
      unfold npEinsum
      rw [if_neg (by simp [hv]), ho]
      cases o <;> rfl
    rw [h1]
    unfold npSubscripts
    simp only
    rw [if_neg (by simp [hd1, hd2, hlen]), hlhs]
    by_cases hbad : ∃ (i : Nat) (t : Str) (T : Tensor R), terms[i]? = some t ∧ ops[i]? = some T ∧ cDot ∈ t ∧ T.shape.length + 3 < t.length
    · -- a 0-dimensional operand with labels beside its ellipsis
      obtain ⟨i, t, T, g1, g2, g3, g4⟩ := hbad
      have hz : (terms.zip ranks)[i]? = some (t, T.shape.length) := by
        rw [List.getElem?_zip_eq_some]
        exact ⟨g1, by simp [hranks, g2]⟩
      rw [mapM_npTerm_error (List.mem_of_getElem? hz) (by
        unfold npTerm
        rw [if_neg (by simp [g3])]
        rw [if_pos g4]
        split
        · exact ⟨_, rfl⟩
        · exact ⟨.value, rfl⟩)]
      have hi : i < ops.length := (List.getElem?_eq_some_iff.mp g2).1
      have hi2 : i < terms'.length := by omega
      have hi3 : i < ks.length := by omega
      have hx := hexp i t terms'[i] ks[i] T.shape g1 (List.getElem?_eq_getElem hi2) (List.getElem?_eq_getElem hi3) (by simp [g2])
      rw [einsumCore_rank (List.getElem?_eq_getElem hi2) g2]
      · rfl
      · generalize terms'[i] = t' at hx
        generalize ks[i] = k at hx
        cases hx with
        | plain _ hd => exact absurd g3 hd
        | dots a b suf k ha hb hk hs =>
          have hs1' := hs.1
          simp [dots_eq] at g4 ⊢
          omega
    · have hfit : ∀ (i : Nat) (t : Str) (T : Tensor R), terms[i]? = some t → ops[i]? = some T → cDot ∈ t → t.length ≤ T.shape.length + 3 := by
        intro i t T g1 g2 g3
        by_contra hc
        exact hbad ⟨i, t, T, g1, g2, g3, by omega⟩
      have hall : ∀ (i : Nat) (p : Str × Nat), (terms.zip ranks)[i]? = some p → ∃ (hi : i < terms'.length) (hk : i < ks.length),
          npTerm p.1 p.2 = .ok (terms'[i].map (toBcast E)) ∧ ks[i] = dotDims p := by
        intro i p hp
        rw [List.getElem?_zip_eq_some] at hp
        obtain ⟨hp1, hp2⟩ := hp
        rw [hranks, List.getElem?_map, Option.map_eq_some_iff] at hp2
        obtain ⟨T, hT, hT2⟩ := hp2
        have hi : i < ops.length := (List.getElem?_eq_some_iff.mp hT).1
        have hi2 : i < terms'.length := by omega
        have hi3 : i < ks.length := by omega
        have hx := hexp i p.1 terms'[i] ks[i] T.shape hp1 (List.getElem?_eq_getElem hi2) (List.getElem?_eq_getElem hi3) (by simp [hT])
        have := npTerm_expand hEn hx (hfit i p.1 T hp1 hT) (hfr p.1 (List.mem_of_getElem? hp1))
        rw [hT2] at this
        exact ⟨hi2, hi3, this⟩
      have hm : (terms.zip ranks).mapM (fun p => npTerm p.1 p.2) = .ok (terms'.map (List.map (toBcast E))) := by
        apply mapM_npTerm_ok
        · simp [hranks]; omega
        · intro i p t g1 g2
          obtain ⟨hi, _, h, _⟩ := hall i p g1
          rw [List.getElem?_map, List.getElem?_eq_getElem hi] at g2
          cases g2
          exact h
      have hks : (terms.zip ranks).map dotDims = ks := by
        apply List.ext_getElem
        · simp [hranks]; omega
        · intro i h1 h2
          have hi : i < (terms.zip ranks).length := by simpa using h1
          obtain ⟨_, _, _, h⟩ := hall i _ (List.getElem?_eq_getElem hi)
          rw [List.getElem_map, h]
      have hn : npBroadcast (terms.zip ranks) = L := by
        rw [npBroadcast_eq, hks]
        obtain ⟨f1, f2, f3⟩ := Props.foldl_max_spec ks 0
        have := f3 L hL1
        rcases f1 with h | h
        · omega
        · have := hL2 _ h; omega
      rw [hm]
      have hren := einsumCore_rename (f := toBcast E) (P := terms'.zip ops) (r := out) (by
        apply toBcast_injOn
        have hlt : ∀ c ∈ inp, c ∈ E ∨ c < 128 := fun c hc => (hcinp c hc).imp id (fun h => valid_lt (hvc c (hsubeq c h)))
        rintro c (⟨p, hp, hc⟩ | hc)
        · apply hlt
          have := mem_join_of_mem [cComma] terms' c p.1 (List.of_mem_zip hp).1 hc
          rwa [← hinp, join_splitOn] at this
        · exact hlt c (hosub c hc))
      have h3 : (renameOps (toBcast E) (terms'.zip ops)).map Prod.fst = terms'.map (List.map (toBcast E)) := by
        have : (renameOps (toBcast E) (terms'.zip ops)).map Prod.fst = ((terms'.zip ops).map Prod.fst).map (List.map (toBcast E)) := by
          simp [renameOps]
        rw [this, List.map_fst_zip (by omega)]
      have h4 : (renameOps (toBcast E) (terms'.zip ops)).map Prod.snd = ops := by
        have : (renameOps (toBcast E) (terms'.zip ops)).map Prod.snd = (terms'.zip ops).map Prod.snd := by
          simp [renameOps]
        rw [this, List.map_snd_zip (by omega)]
      rw [h3, h4, List.map_fst_zip (by omega), List.map_snd_zip (by omega)] at hren
      rw [← hren]
      have := hout _ hn
      cases o with
      | some r => simp only at this ⊢; simp only [bind, Except.bind, this]
      | none =>
        simp only [Except.ok.injEq] at this
        simp only [bind, Except.bind, this]
  rcases hside with ⟨rhs, heq, hxo⟩ | ⟨heq, rest, hrest, hinc, honce⟩
  · have harrow : S "->" = [cDash, cGt] := by decide
    apply key (some rhs)
    · rw [heq, harrow]
      exact splitArrow_two _ _ hd1 (fun h => hnp cGt (Or.inr rfl) (hosub _ (expandOut_mem hxo h (by decide))))
    · rintro n rfl
      have hrfr : ∀ c ∈ rhs, c ∉ E := fun c hc hcE => (hEf c hcE).1 (by rw [heq]; simp [hc])
      simp only
      have hoeq := expandOut_eq hxo
      rcases hkeep lhs rhs heq with ⟨a, b, hr, ha, hb⟩ | ⟨hr, hz⟩
      · have hform : rhs = a ++ 46 :: 46 :: 46 :: b := by rw [hr]; simp [dots_eq]
        unfold npOutput
        rw [if_neg (by rw [hform]; simp), if_neg (by rw [hform]; simp [dots_form_conv a b ha hb]), hoeq, hform,
          replaceDots_append _ _ _ ha, replaceDots_append _ _ _ ha, replaceDots_of_free _ b hb, replaceDots_of_free _ b hb,
          List.map_append, List.map_append, toBcast_suffix hEn heo, toBcast_id (fun c hc => hrfr c (by rw [hform]; simp [hc])),
          toBcast_id (l := b) (fun c hc => hrfr c (by rw [hform]; simp [hc]))]
      · have hn0 : n = 0 := by
          obtain ⟨i, hi, hik⟩ := List.getElem_of_mem hL1
          have hi1 : i < terms.length := by omega
          have hi2 : i < terms'.length := by omega
          have hi3 : i < ops.length := by omega
          have hx := hexp i terms[i] terms'[i] ks[i] ops[i].shape (List.getElem?_eq_getElem hi1) (List.getElem?_eq_getElem hi2)
            (List.getElem?_eq_getElem hi) (by simp [hi3])
          have hz' := hz terms i terms[i] ops[i].shape hs1 (List.getElem?_eq_getElem hi1) (by simp [hi3])
          rw [hik] at hx
          generalize terms[i] = t at hx hz'
          generalize terms'[i] = t' at hx
          cases hx with
          | plain => rfl
          | dots a b suf k ha hb hk hs =>
            have := hz' (by simp [dots_eq])
            simp [dots_eq] at this
            omega
        unfold npOutput
        rw [if_pos hr, if_pos hn0, hoeq, replaceDots_of_free _ _ hr, toBcast_id hrfr]
  · apply key none
    · rw [heq]
      exact splitArrow_of_free lhs hd2
    · rintro n rfl
      simp only [Except.ok.injEq]
      rw [hrest, List.map_append, toBcast_suffix hEn heo]
      have hcE : ∀ c ∈ inp, c ∈ E → c ∈ eo := by
        intro c hc hcE
        rw [← join_splitOn cComma inp, hinp] at hc
        rcases mem_join _ _ _ hc with h | ⟨t', ht', hct⟩
        · rw [List.mem_singleton] at h
          exact absurd (by rw [h]; simp [IsPunct]) (hEf c hcE).2
        · obtain ⟨i, hi, rfl⟩ := List.getElem_of_mem ht'
          have hi1 : i < terms.length := by omega
          have hi2 : i < ks.length := by omega
          have hi3 : i < ops.length := by omega
          have hx := hexp i terms[i] terms'[i] ks[i] ops[i].shape (List.getElem?_eq_getElem hi1) (List.getElem?_eq_getElem hi)
            (List.getElem?_eq_getElem hi2) (by simp [hi3])
          have hfr' := hfr terms[i] (List.getElem_mem hi1) c
          have hkL := hL2 ks[i] (List.getElem_mem hi2)
          generalize terms[i] = t at hx hfr'
          generalize terms'[i] = t' at hx hct
          generalize ks[i] = k at hx hkL
          cases hx with
          | plain => exact absurd hcE (hfr' hct)
          | dots a b suf k ha hb hk hs =>
            have hcs : c ∈ suf := by
              simp only [List.mem_append] at hct hfr'
              rcases hct with (h | h) | h
              · exact absurd hcE (hfr' (by simp [h]))
              · exact h
              · exact absurd hcE (hfr' (by simp [h]))
            obtain ⟨s1, p, s2⟩ := hs
            obtain ⟨s3, q, s4⟩ := heo
            have e : p ++ suf = q ++ eo := s2.symm.trans s4
            have hle : suf.length ≤ eo.length := by omega
            have hsfx : suf <:+ eo := List.suffix_of_suffix_length_le ⟨p, e⟩ ⟨q, rfl⟩ hle
            exact hsfx.subset hcs
      have hrE : ∀ c ∈ rest, c ∉ E := by
        intro c hc hcE'
        obtain ⟨h1, h2, h3⟩ := (honce c).mp hc
        exact h1 (hcE _ (List.count_pos_iff.mp (by omega)) hcE')
      rw [toBcast_id hrE]
      congr 1
      apply OE.Py.strict_ext (findOutputStr_strict _) hinc
      intro c
      rw [mem_findOutputStr, honce]
      have hcount : ∀ c, c ∉ E → c ≠ cDot → c ≠ cComma → inp.count c = lhs.count c := by
        intro c h1 h2 h3
        rw [← join_splitOn cComma inp, hinp, ← join_splitOn cComma lhs, hlhs, count_join_label h3, count_join_label h3]
        apply count_flatten_congr (by omega)
        intro i t' t g1 g2
        have hi : i < terms.length := (List.getElem?_eq_some_iff.mp g2).1
        have hi2 : i < ks.length := by omega
        have hi3 : i < ops.length := by omega
        have hx := hexp i t t' ks[i] ops[i].shape g2 g1 (List.getElem?_eq_getElem hi2) (by simp [hi3])
        generalize ks[i] = k at hx
        cases hx with
        | plain => rfl
        | dots a b suf k ha hb hk hs =>
          obtain ⟨_, p, s2⟩ := hs
          have : c ∉ suf := fun h => h1 (by rw [s2]; simp [h])
          have hd3 : c ∉ ([46, 46, 46] : List Nat) := by simpa using h2
          simp only [List.count_append, List.count_eq_zero.mpr this, dots_eq, List.count_eq_zero.mpr hd3]
      have hrem : ∀ c, c ≠ cDot → (removeChar cDot lhs).count c = lhs.count c := by
        intro c h
        unfold removeChar
        rw [List.count_filter (by simpa using h)]
      constructor
      · rintro ⟨h1, h2⟩
        have hcd : c ≠ cDot := by
          rintro rfl
          have := List.count_pos_iff.mp (by omega : 0 < (removeChar cDot lhs).count cDot)
          exact (mem_removeChar.mp this).2 rfl
        rw [hrem c hcd] at h2
        have hcE' : c ∉ E := fun h => (hEf c h).1 (hsubeq c (List.count_pos_iff.mp (by omega)))
        refine ⟨fun h => ?_, h1, by rw [hcount c hcE' hcd h1]; exact h2⟩
        obtain ⟨_, q, s4⟩ := heo
        exact hcE' (by rw [s4]; simp [h])
      · rintro ⟨h1, h2, h3⟩
        have hcinp' := List.count_pos_iff.mp (by omega : 0 < inp.count c)
        have hcE' : c ∉ E := fun h => h1 (hcE c hcinp' h)
        have hcd : c ≠ cDot := by
          rintro rfl
          rw [← join_splitOn cComma inp, hinp] at hcinp'
          rcases mem_join _ _ _ hcinp' with h | ⟨t', ht', hct⟩
          · simp at h
          · obtain ⟨i, hi, rfl⟩ := List.getElem_of_mem ht'
            have hi1 : i < terms.length := by omega
            have hi2 : i < ks.length := by omega
            have hi3 : i < ops.length := by omega
            have hx := hexp i terms[i] terms'[i] ks[i] ops[i].shape (List.getElem?_eq_getElem hi1) (List.getElem?_eq_getElem hi)
              (List.getElem?_eq_getElem hi2) (by simp [hi3])
            rcases expandTerm_mem hx hct with h | h
            · exact h.2 rfl
            · exact hcE' h
        rw [hcount c hcE' hcd h2] at h3
        exact ⟨h2, by rw [hrem c hcd]; exact h3⟩

end OE
