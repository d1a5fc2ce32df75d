import Verif.Props.Parser3
import Verif.Props.Subgraphs
import Verif.Props.Dispatch
import Verif.Props.Random2

/-!
# What the code does where properties hold only in part (C28, C32, C36, C37, C47)
-/

namespace OE.Props
open OE OE.Py OE.Parser OE.Paths OE.Spec OE.Dispatch

/-! ## C28 -/

/-- The table after a history of registrations; one that is refused changes nothing. -/
def registerAll {φ : Type} (lower : Str → Str) (options : Dict Str φ) (calls : List (Str × φ)) : Dict Str φ :=
  calls.foldl (fun o c => match registerPathFn lower o c.1 c.2 with
    | .ok o' => o'
    | .error _ => o) options

/-- What is found under a name after a history of registrations, where `cur` was found before: a registration under another spelling of the name
that is not in lower case always counts, one in lower case only if the name is free. -/
def found {φ : Type} (lower : Str → Str) (name : Str) : Option φ → List (Str × φ) → Option φ
  | cur, [] => cur
  | cur, c :: cs => found lower name (if lower c.1 = lower name ∧ (c.1 ≠ lower name ∨ cur = none) then some c.2 else cur) cs

/-- **C28, exactly.** What `get_path_fn` finds after any history of registrations, if the table began with lower-case names. -/
theorem C28_exactly {φ : Type} (lower : Str → Str) (hidem : ∀ s, lower (lower s) = lower s) (options : Dict Str φ)
    (hnd : options.keys.Nodup) (hlow : ∀ k ∈ options.keys, lower k = k) (calls : List (Str × φ)) (name : Str) :
    getPathFn lower (registerAll lower options calls) name =
      match found lower name (options.get? (lower name)) calls with
      | some f => .ok f
      | none => .error .key := by
  have hget : ∀ (o : Dict Str φ) x, getPathFn lower o x = match o.get? (lower x) with | some f => .ok f | none => .error .key := by
    intro o x
    unfold getPathFn
    rw [Dict.has]
    cases h : o.get? (lower x) with
    | none => simp
    | some f => simp [Dict.get!, h]
  rw [hget]
  have key : (registerAll lower options calls).get? (lower name) = found lower name (options.get? (lower name)) calls := by
    induction calls generalizing options with
    | nil => rfl
    | cons c cs ih =>
      simp only [registerAll, List.foldl_cons, found]
      by_cases hh : options.has c.1
      · have hr : registerPathFn lower options c.1 c.2 = .error .key := if_pos hh
        rw [hr]
        have hc : lower c.1 = c.1 := hlow _ (Dict.has_iff.1 hh)
        have : (if lower c.1 = lower name ∧ (c.1 ≠ lower name ∨ options.get? (lower name) = none) then some c.2 else options.get? (lower name)) =
            options.get? (lower name) := by
          rw [if_neg]
          rintro ⟨h1, h2⟩
          rw [hc] at h1
          rcases h2 with h2 | h2
          · exact h2 h1
          · rw [← h1] at h2
            simp [Dict.has, h2] at hh
        rw [this]
        exact ih options hnd hlow
      · have hr : registerPathFn lower options c.1 c.2 = .ok (options.set (lower c.1) c.2) := if_neg hh
        rw [hr]
        have hrec := ih (options.set (lower c.1) c.2) (Dict.keys_set_nodup hnd _ _) (by
          intro k hk
          rw [Dict.mem_keys_set] at hk
          rcases hk with rfl | hk
          · exact hidem _
          · exact hlow k hk
          · exact hnd)
        unfold registerAll at hrec
        simp only
        rw [hrec]
        congr 1
        rw [Dict.get?_set]
        by_cases h1 : lower name = lower c.1
        · rw [if_pos h1, if_pos]
          refine ⟨h1.symm, ?_⟩
          by_cases h2 : c.1 = lower name
          · right
            rw [← h2]
            simpa [Dict.has] using hh
          · left; exact h2
        · rw [if_neg h1, if_neg (fun h => h1 h.1.symm)]
  rw [key]

example : found asciiLower (S "greedy") (some 1) [(S "greedy", 2), (S "GREEDY", 3), (S "mine", 4), (S "greedy", 5)] = some 3 := by decide +kernel

example : getPathFn asciiLower (registerAll asciiLower [(S "greedy", 1)] [(S "greedy", 2), (S "GREEDY", 3), (S "mine", 4), (S "greedy", 5)]) (S "Greedy") =
    .ok 3 := by decide +kernel

/-! ## C32 -/

/-- The position of an element of a strictly increasing list is the number of elements below it. -/
theorem rank_eq {κ : Type} [LinearOrder κ] {l : List κ} (h : l.Pairwise (· < ·)) {i : Nat} {c : κ} (hi : l[i]? = some c) :
    (l.filter (fun x => x < c)).length = i := by
  induction l generalizing i with
  | nil => simp at hi
  | cons a t ih =>
    rw [List.pairwise_cons] at h
    cases i with
    | zero =>
      simp only [List.getElem?_cons_zero, Option.some.injEq] at hi
      subst hi
      rw [List.filter_cons_of_neg (by simp), List.length_eq_zero_iff, List.filter_eq_nil_iff]
      intro x hx
      simpa using le_of_lt (h.1 x hx)
    | succ i =>
      simp only [List.getElem?_cons_succ] at hi
      have := h.1 c (List.mem_of_getElem? hi)
      rw [List.filter_cons_of_pos (by simpa using this), List.length_cons, ih h.2 hi]

/-- **C32, exactly.** For every string: all characters but the three separators are renamed, the dot as well, injectively, to the first symbols in
the order of their code points. -/
theorem C32_exactly (s : Str) :
    ∃ f : Nat → Nat, convertToValidEinsumChars s = s.map f ∧
      (∀ c, c = cComma ∨ c = cDash ∨ c = cGt → f c = c) ∧
      (∀ c ∈ s, ¬ (c = cComma ∨ c = cDash ∨ c = cGt) →
        f c = getSymbol (s.toFinset.filter (fun x => x ∉ [cComma, cDash, cGt] ∧ x < c)).card) := by
  refine ⟨convFun s, convert_eq s, convFun_sep s, fun c hc hn => ?_⟩
  obtain ⟨i, hi, he⟩ := convFun_label s c hc hn
  rw [he]
  congr 1
  rw [← rank_eq (sortedSet_strict _) hi, ← List.toFinset_card_of_nodup ((sortedSet_nodup _).filter _)]
  congr 1
  ext x
  simp only [List.mem_toFinset, List.mem_filter, Finset.mem_filter, sortedSet_mem, decide_eq_true_eq]
  tauto

/-- A string with a dot: the dots become one letter. -/
example : convertToValidEinsumChars (S "...ij,...jk->...ik") = S "aaabc,aaacd->aaabd" := by decide

/-! ## C36 -/

/-- The order of symbols by their index: those of `A..Z` come first, then `a..z`, then the others. -/
def SymbolsBefore (i j : Nat) : Prop :=
  if 26 ≤ i ∧ i < 52 then (26 ≤ j ∧ j < 52 → i < j) else if i < 26 then (j < 26 ∧ i < j) ∨ 52 ≤ j else i < j

theorem getSymbol_lt_iff (i j : Nat) : getSymbol i < getSymbol j ↔ SymbolsBefore i j := by
  unfold SymbolsBefore
  rw [getSymbol_eq, getSymbol_eq]
  constructor
  · intro h
    split at h <;> (try split at h) <;> (try split at h) <;> (try split at h) <;> (try split at h) <;> (try split at h) <;>
      (split <;> omega)
  · intro h
    split at h <;> (try split at h) <;> split <;> (try split) <;> (try split) <;> (try split) <;> (try split) <;> (try split) <;> omega

section
variable {κ : Type} [LinearOrder κ]

/-- **C36, the order of the implicit output exactly.** The symbol of a label is decided by the number of labels below it; the implicit output
(symbols in increasing order, C33) lists the labels with 26 to 51 labels below them first, then those with fewer, then the others. -/
theorem C36_order_exactly {α : Type} (items : List (α × List (Lbl κ))) (labels : List κ) (hn : labels.Nodup)
    (hlab : ∀ k, (∃ sub ∈ items.map Prod.snd, Lbl.key k ∈ sub) ↔ k ∈ labels) :
    ∃ sym : κ → Nat,
      (∀ a ∈ labels, sym a = getSymbol (labels.filter (fun x => x < a)).length) ∧
      (∀ a ∈ labels, ∀ b ∈ labels, sym a < sym b ↔
        SymbolsBefore (labels.filter (fun x => x < a)).length (labels.filter (fun x => x < b)).length) ∧
      ((∀ a ∈ labels, ∀ b ∈ labels, a < b ↔ sym a < sym b) ↔ labels.length ≤ 26) ∧
      convertInterleaved items none = .ok
        (List.intercalate [cComma] ((items.map Prod.snd).map (render sym)), items.map Prod.fst) := by
  set L := sortedLabels (items.map Prod.snd) with hL
  have hpw := sortedLabels_pairwise (items.map Prod.snd)
  have hnL : L.Nodup := hpw.imp (fun h => ne_of_lt h)
  have hmem : ∀ k, k ∈ L ↔ k ∈ labels := fun k => by rw [hL, mem_sortedLabels, hlab]
  have hperm : L.Perm labels := (List.perm_ext_iff_of_nodup hnL hn).2 hmem
  have hsym : ∀ a ∈ labels, symOf L a = getSymbol (labels.filter (fun x => x < a)).length := by
    intro a ha
    have hs : (L.idxOf? a).isSome := by simpa using (hmem a).2 ha
    obtain ⟨i, hi⟩ := Option.isSome_iff_exists.1 hs
    unfold symOf
    rw [hi, Option.getD_some]
    congr 1
    obtain ⟨p1, e1, _⟩ := List.idxOf?_eq_some_iff.1 hi
    rw [← (hperm.filter _).length_eq, rank_eq hpw]
    rw [List.getElem?_eq_getElem p1, e1]
  have hord : ∀ a ∈ labels, ∀ b ∈ labels, symOf L a < symOf L b ↔
      SymbolsBefore (labels.filter (fun x => x < a)).length (labels.filter (fun x => x < b)).length := by
    intro a ha b hb
    rw [hsym a ha, hsym b hb, getSymbol_lt_iff]
  refine ⟨symOf L, hsym, hord, ⟨fun h => ?_, fun h => ?_⟩, ?_⟩
  · by_contra hgt
    have h26 : 26 < L.length := by rw [hperm.length_eq]; omega
    have h0 : 0 < L.length := by omega
    have ha := (hmem _).1 (List.getElem_mem h0)
    have hb := (hmem _).1 (List.getElem_mem h26)
    have hlt : L[0] < L[26] := List.pairwise_iff_getElem.1 hpw 0 26 h0 h26 (by omega)
    have := (h _ ha _ hb).1 hlt
    rw [hord _ ha _ hb, ← (hperm.filter _).length_eq, ← (hperm.filter _).length_eq, rank_eq hpw (List.getElem?_eq_getElem h0),
      rank_eq hpw (List.getElem?_eq_getElem h26)] at this
    simp [SymbolsBefore] at this
  · have hlt : ∀ a ∈ labels, ∀ b ∈ labels, a < b → symOf L a < symOf L b := by
      intro a ha b hb hab
      exact symOf_lt _ (by rw [← hL, hperm.length_eq]; exact h) a b ((hmem a).2 ha) ((hmem b).2 hb) hab
    intro a ha b hb
    refine ⟨hlt a ha b hb, fun h' => ?_⟩
    by_contra hnab
    rcases lt_or_eq_of_le (not_lt.1 hnab) with h2 | h2
    · have := hlt b hb a ha h2
      omega
    · subst h2; omega
  · unfold convertInterleaved
    simp only
    rw [mapM_convert]
    · simp [bind, Except.bind, join_eq_intercalate]
      rfl
    · intro sub hsub k hk
      exact (mem_sortedLabels _ _).2 ⟨sub, hsub, hk⟩

end

/-! ## C37 -/

/-- The size of the first axis of an operand that has the label. -/
def axisOf (term : Str) (shape : Shape) (c : Nat) : Option Nat := ((term.zip shape).find? (fun q => q.1 = c)).map Prod.snd

theorem axisOf_eq {term : Str} {shape : Shape} (c : Nat) (h : term.length ≤ shape.length) :
    ∀ x, axisOf term shape c = some x ↔ ∃ i, term.idxOf? c = some i ∧ shape[i]? = some x := by
  intro x
  unfold axisOf
  induction term generalizing shape with
  | nil => simp
  | cons a t ih =>
    cases shape with
    | nil => simp at h
    | cons d ds =>
      simp only [List.length_cons, Nat.add_le_add_iff_right] at h
      by_cases hac : a = c
      · subst hac
        simp [List.idxOf?_cons]
      · simp only [List.zip_cons_cons, List.find?_cons, hac, decide_false, List.idxOf?_cons, beq_iff_eq, if_false]
        rw [ih h]
        constructor
        · rintro ⟨i, h1, h2⟩
          exact ⟨i + 1, by simp [h1], by simpa using h2⟩
        · rintro ⟨i, h1, h2⟩
          cases hi : t.idxOf? c with
          | none => simp [hi] at h1
          | some j =>
            simp [hi] at h1
            subst h1
            exact ⟨j, rfl, by simpa using h2⟩

theorem foldr_max_spec (l : List Nat) : (∀ x ∈ l, x ≤ l.foldr max 0) ∧ (l ≠ [] → l.foldr max 0 ∈ l) := by
  induction l with
  | nil => simp
  | cons a t ih =>
    rw [List.foldr_cons]
    refine ⟨fun x hx => ?_, fun _ => ?_⟩
    · rcases List.mem_cons.1 hx with rfl | hx
      · exact le_max_left _ _
      · exact le_trans (ih.1 x hx) (le_max_right _ _)
    · by_cases ht : t = []
      · subst ht; simp
      · rcases le_total a (t.foldr max 0) with h | h
        · rw [max_eq_right h]; exact List.mem_cons_of_mem _ (ih.2 ht)
        · rw [max_eq_left h]; simp

/-- **C37, exactly.** If no term is longer than its shape, the dimension that `find_output_shape` gives to an output label is the largest of the
first dimensions it has in the operands that have it; an output label that occurs nowhere is a `ValueError`. -/
theorem C37_exactly (inputs : List Str) (shapes : List Shape) (output : Str) (hlen : ∀ p ∈ inputs.zip shapes, p.1.length ≤ p.2.length) :
    ((∀ c ∈ output, ∃ p ∈ inputs.zip shapes, ∃ x, axisOf p.1 p.2 c = some x) →
      findOutputShape inputs shapes output = .ok (output.map (fun c => ((inputs.zip shapes).filterMap (fun p => axisOf p.1 p.2 c)).foldr max 0))) ∧
    ((∃ c ∈ output, ∀ p ∈ inputs.zip shapes, axisOf p.1 p.2 c = none) → findOutputShape inputs shapes output = .error .value) := by
  have hswap : ∀ p, p ∈ shapes.zip inputs ↔ p.swap ∈ inputs.zip shapes := by
    intro p
    rw [List.mem_iff_getElem?, List.mem_iff_getElem?]
    apply exists_congr; intro i
    simp only [List.getElem?_zip_eq_some, Prod.fst_swap, Prod.snd_swap]
    exact and_comm
  have hdim : ∀ c, findOutputDim inputs shapes c =
      if (inputs.zip shapes).filterMap (fun p => axisOf p.1 p.2 c) = [] then .error .value
      else .ok (((inputs.zip shapes).filterMap (fun p => axisOf p.1 p.2 c)).foldr max 0) := by
    intro c
    obtain ⟨dims, h1, h2⟩ := findOutputDim_eq inputs shapes c (by
      intro p hp
      simpa using hlen p.swap ((hswap p).1 hp))
    have hsame : ∀ x, x ∈ dims ↔ x ∈ (inputs.zip shapes).filterMap (fun p => axisOf p.1 p.2 c) := by
      intro x
      rw [h2, List.mem_filterMap]
      constructor
      · rintro ⟨p, hp, hi⟩
        refine ⟨p.swap, (hswap p).1 hp, ?_⟩
        exact (axisOf_eq c (hlen _ ((hswap p).1 hp)) x).2 hi
      · rintro ⟨p, hp, hx⟩
        refine ⟨p.swap, (hswap _).2 (by simpa using hp), ?_⟩
        exact (axisOf_eq c (hlen _ hp) x).1 hx
    rw [h1]
    obtain ⟨g1, g2⟩ := foldr_max_spec ((inputs.zip shapes).filterMap (fun p => axisOf p.1 p.2 c))
    cases dims with
    | nil =>
      rw [if_pos]
      rw [List.eq_nil_iff_forall_not_mem]
      intro x hx
      exact absurd ((hsame x).2 hx) (by simp)
    | cons d ds =>
      have hne : (inputs.zip shapes).filterMap (fun p => axisOf p.1 p.2 c) ≠ [] := by
        intro h
        have := (hsame d).1 (by simp)
        rw [h] at this
        cases this
      rw [if_neg hne]
      obtain ⟨f1, f2, f3⟩ := foldl_max_spec ds d
      have hmem : ds.foldl max d ∈ d :: ds := by
        rcases f1 with h | h
        · rw [h]; simp
        · simp [h]
      have hge : ∀ x ∈ d :: ds, x ≤ ds.foldl max d := by
        intro x hx
        rcases List.mem_cons.1 hx with rfl | hx
        · exact f2
        · exact f3 x hx
      have e1 := g1 _ ((hsame _).1 hmem)
      have e2 := hge _ ((hsame _).2 (g2 hne))
      simp only [Except.ok.injEq]
      omega
  unfold findOutputShape
  constructor
  · intro h
    induction output with
    | nil => rfl
    | cons c t ih =>
      rw [List.mapM_cons, hdim c, if_neg, ih (fun c hc => h c (by simp [hc]))]
      · rfl
      · obtain ⟨p, hp, x, hx⟩ := h c (by simp)
        intro he
        rw [List.filterMap_eq_nil_iff] at he
        rw [he p hp] at hx
        cases hx
  · rintro ⟨c, hc, h⟩
    induction output with
    | nil => cases hc
    | cons a t ih =>
      rw [List.mapM_cons, hdim a]
      split
      · rfl
      · rename_i hne
        rcases List.mem_cons.1 hc with rfl | hc
        · exact absurd (List.filterMap_eq_nil_iff.2 h) hne
        · rw [ih hc]; rfl

/-- A label with dimensions 0 and 1, and a term with a repeated label. -/
example : findOutputShape [S "ab", S "aab"] [[0, 5], [1, 7, 1]] (S "ba") = .ok [5, 1] := by decide

/-! ## C47 -/

variable {F : Type}

/-- What is known of one function of one backend after a history `ops`: it is cached only if the backend provides it or a default was given, and
after a lookup with a default it is cached if the library can be imported. -/
structure FuncExact (w : World F) (st₀ : St F) (func backend : Str) (poisoned : Prop) (st : St F) : Prop where
  prov : (∃ f, st.funcs.get? (func, backend) = some f) → Provides w st₀ func backend ∨ ((w ((aliases.get? backend).getD backend)).isSome ∧ poisoned)
  pre : (∃ f, ((func, backend), f) ∈ st₀.funcs) → ∃ f, st.funcs.get? (func, backend) = some f
  bad : (w ((aliases.get? backend).getD backend)).isSome → poisoned → ∃ f, st.funcs.get? (func, backend) = some f

theorem getFunc_exact {w : World F} {st₀ st : St F} {func backend : Str} {poisoned : Prop} (h : FuncExact w st₀ func backend poisoned st)
    (f' b' : Str) (d : Option F) :
    FuncExact w st₀ func backend (poisoned ∨ (f' = func ∧ b' = backend ∧ d.isSome)) (getFunc w f' b' d st).2 := by
  have keep : ∀ f, st.funcs.get? (func, backend) = some f → ∃ f, (getFunc w f' b' d st).2.funcs.get? (func, backend) = some f := by
    intro f hf
    exact ⟨f, getFunc_keeps w f' b' func backend d st hf⟩
  refine ⟨?_, fun hp => ?_, ?_⟩
  · rintro ⟨f, hf⟩
    unfold getFunc at hf
    split at hf
    · rcases h.prov ⟨f, hf⟩ with h1 | ⟨h1, h2⟩
      · exact Or.inl h1
      · exact Or.inr ⟨h1, Or.inl h2⟩
    · split at hf
      · rename_i fn himp
        simp only at hf
        rw [Dict.get?_set] at hf
        split at hf
        · rename_i he
          cases he
          unfold importFunc at himp
          cases hw : w ((aliases.get? backend).getD backend) with
          | none => rw [hw] at himp; cases himp
          | some lib =>
            rw [hw] at himp
            simp only at himp
            cases hl : lib func with
            | some g => exact Or.inl (Or.inr ⟨lib, g, hw, hl⟩)
            | none =>
              rw [hl] at himp
              cases d with
              | none => cases himp
              | some d => exact Or.inr ⟨rfl, Or.inr ⟨rfl, rfl, rfl⟩⟩
        · rcases h.prov ⟨f, hf⟩ with h1 | ⟨h1, h2⟩
          · exact Or.inl h1
          · exact Or.inr ⟨h1, Or.inl h2⟩
      · rcases h.prov ⟨f, hf⟩ with h1 | ⟨h1, h2⟩
        · exact Or.inl h1
        · exact Or.inr ⟨h1, Or.inl h2⟩
  · obtain ⟨f, hf⟩ := h.pre hp
    exact keep f hf
  · rintro hs (hp | ⟨rfl, rfl, hd⟩)
    · obtain ⟨f, hf⟩ := h.bad hs hp
      exact keep f hf
    · cases hc : st.funcs.get? (f', b') with
      | some f => exact keep f hc
      | none =>
        unfold getFunc
        rw [hc]
        obtain ⟨lib, hl⟩ := Option.isSome_iff_exists.1 hs
        obtain ⟨d, rfl⟩ := Option.isSome_iff_exists.1 hd
        unfold importFunc
        rw [hl]
        simp only
        cases lib f' with
        | some g => exact ⟨g, Dict.get?_set_self _ _ _⟩
        | none => exact ⟨d, Dict.get?_set_self _ _ _⟩

theorem FuncExact.of_funcs {w : World F} {st₀ st st' : St F} {func backend : Str} {P Q : Prop} (h : FuncExact w st₀ func backend P st)
    (hf : st'.funcs = st.funcs) (hPQ : P ↔ Q) : FuncExact w st₀ func backend Q st' :=
  ⟨by rw [hf, ← hPQ]; exact h.prov, by rw [hf]; exact h.pre, by rw [hf, ← hPQ]; exact h.bad⟩

/-- A default was looked up for the function. -/
def Offered (func backend : Str) (ops : List (Op F)) : Prop := ∃ d, Op.get func backend (some d) ∈ ops

/-- A default was looked up for the function before the question was first asked. -/
def OfferedBefore (func backend : Str) (question : Op F) (ops : List (Op F)) : Prop :=
  ∃ pre post d, ops = pre ++ .get func backend (some d) :: post ∧ question ∉ pre

theorem offeredBefore_append (func backend : Str) (q op : Op F) (ops : List (Op F)) :
    OfferedBefore func backend q (ops ++ [op]) ↔ OfferedBefore func backend q ops ∨ ((∃ d, op = .get func backend (some d)) ∧ q ∉ ops) := by
  constructor
  · rintro ⟨pre, post, d, h, hq⟩
    rcases List.eq_nil_or_concat post with rfl | ⟨post', x, rfl⟩
    · obtain ⟨h1, h2⟩ := List.append_inj' h rfl
      subst h1
      exact Or.inr ⟨⟨d, by simpa using h2⟩, hq⟩
    · rw [List.concat_eq_append, ← List.cons_append, ← List.append_assoc] at h
      obtain ⟨h1, -⟩ := List.append_inj' h rfl
      exact Or.inl ⟨pre, post', d, h1, hq⟩
  · rintro (⟨pre, post, d, rfl, hq⟩ | ⟨⟨d, rfl⟩, hq⟩)
    · exact ⟨pre, post ++ [op], d, by simp, hq⟩
    · exact ⟨ops, [], d, rfl, hq⟩

theorem offeredBefore_iff (func backend : Str) (q : Op F) (ops : List (Op F)) (h : q ∉ ops) :
    OfferedBefore func backend q ops ↔ Offered func backend ops := by
  constructor
  · rintro ⟨pre, post, d, rfl, -⟩
    exact ⟨d, by simp⟩
  · rintro ⟨d, hd⟩
    obtain ⟨pre, post, rfl⟩ := List.append_of_mem hd
    exact ⟨pre, post, d, rfl, fun hq => h (by simp [hq])⟩

theorem run_exact {w : World F} {st₀ st : St F} {func backend : Str} {ops : List (Op F)} (h : FuncExact w st₀ func backend (Offered func backend ops) st)
    (op : Op F) : FuncExact w st₀ func backend (Offered func backend (ops ++ [op])) (op.run w st) := by
  have hnone : ∀ f' b' : Str, (Offered func backend ops ∨ (f' = func ∧ b' = backend ∧ (none : Option F).isSome)) ↔ Offered func backend ops := by simp
  cases op with
  | get f' b' d =>
    refine (getFunc_exact h f' b' d).of_funcs rfl ?_
    constructor
    · rintro (⟨d, hd⟩ | ⟨rfl, rfl, hd⟩)
      · exact ⟨d, by simp [hd]⟩
      · obtain ⟨d, rfl⟩ := Option.isSome_iff_exists.1 hd
        exact ⟨d, by simp⟩
    · rintro ⟨d', hd⟩
      rcases List.mem_append.1 hd with hd | hd
      · exact Or.inl ⟨d', hd⟩
      · simp only [List.mem_singleton, Op.get.injEq] at hd
        obtain ⟨rfl, rfl, rfl⟩ := hd
        exact Or.inr ⟨rfl, rfl, rfl⟩
  | hasEinsum b =>
    have ho : Offered func backend ops ↔ Offered func backend (ops ++ [Op.hasEinsum b]) := by simp [Offered]
    rcases hasEinsum_state w b st with ⟨h1, _⟩ | ⟨_, h1⟩
    · exact h.of_funcs h1 ho
    · exact (getFunc_exact h (S "einsum") b none).of_funcs h1 ((hnone _ _).trans ho)
  | hasTensordot b =>
    have ho : Offered func backend ops ↔ Offered func backend (ops ++ [Op.hasTensordot b]) := by simp [Offered]
    rcases hasTensordot_state w b st with ⟨h1, _⟩ | ⟨_, h1⟩
    · exact h.of_funcs h1 ho
    · exact (getFunc_exact h (S "tensordot") b none).of_funcs h1 ((hnone _ _).trans ho)

/-- The invariant for `has_einsum`. -/
structure EinsumExact (w : World F) (st₀ : St F) (backend : Str) (ops : List (Op F)) (st : St F) : Prop where
  fe : FuncExact w st₀ (S "einsum") backend (Offered (S "einsum") backend ops) st
  known : ∀ b, st.hasEinsum.get? backend = some b → (Provides w st₀ (S "einsum") backend ∨ (w ((aliases.get? backend).getD backend)).isSome) ∧
    (b = true ↔ Provides w st₀ (S "einsum") backend ∨ OfferedBefore (S "einsum") backend (.hasEinsum backend) ops) ∧
    Op.hasEinsum backend ∈ ops
  fresh : st.hasEinsum.get? backend = none → (Provides w st₀ (S "einsum") backend ∨ (w ((aliases.get? backend).getD backend)).isSome) →
    Op.hasEinsum backend ∉ ops

theorem einsum_answer_exact {w : World F} {st₀ st : St F} {backend : Str} {ops : List (Op F)} (h : EinsumExact w st₀ backend ops st) :
    ((¬ Provides w st₀ (S "einsum") backend ∧ (w ((aliases.get? backend).getD backend)) = none) →
      Dispatch.hasEinsum w backend st = (.error .importError, st)) ∧
    ((Provides w st₀ (S "einsum") backend ∨ (w ((aliases.get? backend).getD backend)).isSome) →
      ∃ b, (Dispatch.hasEinsum w backend st).1 = .ok b ∧ (Dispatch.hasEinsum w backend st).2.hasEinsum.get? backend = some b ∧
        (b = true ↔ Provides w st₀ (S "einsum") backend ∨ OfferedBefore (S "einsum") backend (.hasEinsum backend) ops)) := by
  unfold Dispatch.hasEinsum
  cases hc : st.hasEinsum.get? backend with
  | some b =>
    obtain ⟨h1, h2, -⟩ := h.known b hc
    refine ⟨?_, fun _ => ⟨b, rfl, hc, h2⟩⟩
    rintro ⟨n1, n2⟩
    rw [n2] at h1
    simp [n1] at h1
  | none =>
    simp only
    unfold getFunc
    cases hf : st.funcs.get? (S "einsum", backend) with
    | some f =>
      have hp := h.fe.prov ⟨f, hf⟩
      simp only
      refine ⟨?_, fun hpi => ⟨true, rfl, Dict.get?_set_self _ _ _, ?_⟩⟩
      · rintro ⟨n1, n2⟩
        rw [n2] at hp
        simp [n1] at hp
      · rw [offeredBefore_iff _ _ _ _ (h.fresh hc hpi)]
        simp only [true_iff]
        exact hp.imp id And.right
    | none =>
      have hnpre : ¬ ∃ f, ((S "einsum", backend), f) ∈ st₀.funcs := by
        intro hpre
        obtain ⟨f, hf'⟩ := h.fe.pre hpre
        rw [hf] at hf'; cases hf'
      simp only
      unfold importFunc
      cases hw : w ((aliases.get? backend).getD backend) with
      | none =>
        have hnp : ¬ Provides w st₀ (S "einsum") backend := by
          rintro (hp | ⟨lib, f, hl, _⟩)
          · exact hnpre hp
          · rw [hw] at hl; cases hl
        exact ⟨fun _ => rfl, fun hpi => by simp [hnp] at hpi⟩
      | some lib =>
        refine ⟨(fun hpi => by simp at hpi), fun _ => ?_⟩
        have hpi : Provides w st₀ (S "einsum") backend ∨ (w ((aliases.get? backend).getD backend)).isSome := Or.inr (by rw [hw]; rfl)
        have hnb : ¬ Offered (S "einsum") backend ops := by
          intro ho
          obtain ⟨f, hf'⟩ := h.fe.bad (by rw [hw]; rfl) ho
          rw [hf] at hf'; cases hf'
        rw [offeredBefore_iff _ _ _ _ (h.fresh hc hpi)]
        simp only
        cases hl : lib (S "einsum") with
        | some f =>
          refine ⟨true, rfl, Dict.get?_set_self _ _ _, ?_⟩
          simp only [true_iff]
          exact Or.inl (Or.inr ⟨lib, f, hw, hl⟩)
        | none =>
          refine ⟨false, rfl, Dict.get?_set_self _ _ _, ?_⟩
          simp only [Bool.false_eq_true, false_iff, not_or]
          refine ⟨?_, hnb⟩
          rintro (hp | ⟨lib', f, hl', hf'⟩)
          · exact hnpre hp
          · rw [hw] at hl'; cases hl'; rw [hl] at hf'; cases hf'

theorem run_einsum_exact {w : World F} {st₀ st : St F} {backend : Str} {ops : List (Op F)} (h : EinsumExact w st₀ backend ops st) (op : Op F) :
    EinsumExact w st₀ backend (ops ++ [op]) (op.run w st) := by
  by_cases hq : op = .hasEinsum backend
  · subst hq
    have hsame : OfferedBefore (S "einsum") backend (.hasEinsum backend) (ops ++ [Op.hasEinsum backend]) ↔
        OfferedBefore (S "einsum") backend (.hasEinsum backend) ops := by
      rw [offeredBefore_append]
      simp
    obtain ⟨h1, h2⟩ := einsum_answer_exact h
    refine ⟨run_exact h.fe _, fun b hb => ?_, fun hn hpi => ?_⟩
    · rw [hsame]
      by_cases hpi : Provides w st₀ (S "einsum") backend ∨ (w ((aliases.get? backend).getD backend)).isSome
      · obtain ⟨b', _, hb', hiff⟩ := h2 hpi
        simp only [Op.run] at hb
        rw [hb'] at hb
        cases hb
        exact ⟨hpi, hiff, by simp⟩
      · rw [not_or, Bool.not_eq_true, Option.isSome_eq_false_iff, Option.isNone_iff_eq_none] at hpi
        simp only [Op.run] at hb
        rw [h1 hpi] at hb
        obtain ⟨k1, k2, -⟩ := h.known b hb
        exact ⟨k1, k2, by simp⟩
    · obtain ⟨b', _, hb', _⟩ := h2 hpi
      simp only [Op.run] at hn
      rw [hb'] at hn
      cases hn
  · have hget : (op.run w st).hasEinsum.get? backend = st.hasEinsum.get? backend := by
      cases op with
      | get f' b' d => simp only [Op.run, (getFunc_has w f' b' d st).1]
      | hasEinsum b => exact hasEinsum_other w b backend st (fun e => hq (by rw [e]))
      | hasTensordot b => simp only [Op.run, hasTensordot_keepsE]
    have hmem : Op.hasEinsum backend ∈ ops ++ [op] ↔ Op.hasEinsum backend ∈ ops := by
      simp only [List.mem_append, List.mem_singleton]
      exact or_iff_left (fun e => hq e.symm)
    refine ⟨run_exact h.fe op, fun b hb => ?_, fun hn hpi => ?_⟩
    · rw [hget] at hb
      obtain ⟨k1, k2, k3⟩ := h.known b hb
      refine ⟨k1, ?_, by simp [k3]⟩
      rw [k2, offeredBefore_append]
      simp [k3]
    · rw [hget] at hn
      rw [hmem]
      exact h.fresh hn hpi

theorem initial_einsum_exact (w : World F) (oe : F) (np : Option (F × F × F)) (backend : Str) (ops : List (Op F)) :
    EinsumExact w (initial oe np) backend ops (runAll w ops (initial oe np)) := by
  induction ops using List.reverseRecOn with
  | nil =>
    refine ⟨⟨fun ⟨f, hf⟩ => Or.inl (Or.inl ⟨f, mem_of_get? hf⟩), fun ⟨_, hf⟩ => get?_of_mem hf, fun _ => ?_⟩, ?_, ?_⟩
    · rintro ⟨d, hd⟩; cases hd
    · intro b hb; simp [runAll, initial, Dict.get?] at hb
    · simp
  | append_singleton ops op ih =>
    have := run_einsum_exact ih op
    unfold runAll at this ⊢
    rw [List.foldl_append]
    exact this

/-- The invariant for `has_tensordot`. -/
structure TensordotExact (w : World F) (st₀ : St F) (backend : Str) (ops : List (Op F)) (st : St F) : Prop where
  fe : FuncExact w st₀ (S "tensordot") backend (Offered (S "tensordot") backend ops) st
  known : ∀ b, st.hasTensordot.get? backend = some b → (Provides w st₀ (S "tensordot") backend ∨ (w ((aliases.get? backend).getD backend)).isSome) ∧
    (b = true ↔ Provides w st₀ (S "tensordot") backend ∨ OfferedBefore (S "tensordot") backend (.hasTensordot backend) ops) ∧
    Op.hasTensordot backend ∈ ops
  fresh : st.hasTensordot.get? backend = none → (Provides w st₀ (S "tensordot") backend ∨ (w ((aliases.get? backend).getD backend)).isSome) →
    Op.hasTensordot backend ∉ ops

theorem tensordot_answer_exact {w : World F} {st₀ st : St F} {backend : Str} {ops : List (Op F)} (h : TensordotExact w st₀ backend ops st) :
    ((¬ Provides w st₀ (S "tensordot") backend ∧ (w ((aliases.get? backend).getD backend)) = none) →
      Dispatch.hasTensordot w backend st = (.error .importError, st)) ∧
    ((Provides w st₀ (S "tensordot") backend ∨ (w ((aliases.get? backend).getD backend)).isSome) →
      ∃ b, (Dispatch.hasTensordot w backend st).1 = .ok b ∧ (Dispatch.hasTensordot w backend st).2.hasTensordot.get? backend = some b ∧
        (b = true ↔ Provides w st₀ (S "tensordot") backend ∨ OfferedBefore (S "tensordot") backend (.hasTensordot backend) ops)) := by
  unfold Dispatch.hasTensordot
  cases hc : st.hasTensordot.get? backend with
  | some b =>
    obtain ⟨h1, h2, -⟩ := h.known b hc
    refine ⟨?_, fun _ => ⟨b, rfl, hc, h2⟩⟩
    rintro ⟨n1, n2⟩
    rw [n2] at h1
    simp [n1] at h1
  | none =>
    simp only
    unfold getFunc
    cases hf : st.funcs.get? (S "tensordot", backend) with
    | some f =>
      have hp := h.fe.prov ⟨f, hf⟩
      simp only
      refine ⟨?_, fun hpi => ⟨true, rfl, Dict.get?_set_self _ _ _, ?_⟩⟩
      · rintro ⟨n1, n2⟩
        rw [n2] at hp
        simp [n1] at hp
      · rw [offeredBefore_iff _ _ _ _ (h.fresh hc hpi)]
        simp only [true_iff]
        exact hp.imp id And.right
    | none =>
      have hnpre : ¬ ∃ f, ((S "tensordot", backend), f) ∈ st₀.funcs := by
        intro hpre
        obtain ⟨f, hf'⟩ := h.fe.pre hpre
        rw [hf] at hf'; cases hf'
      simp only
      unfold importFunc
      cases hw : w ((aliases.get? backend).getD backend) with
      | none =>
        have hnp : ¬ Provides w st₀ (S "tensordot") backend := by
          rintro (hp | ⟨lib, f, hl, _⟩)
          · exact hnpre hp
          · rw [hw] at hl; cases hl
        exact ⟨fun _ => rfl, fun hpi => by simp [hnp] at hpi⟩
      | some lib =>
        refine ⟨(fun hpi => by simp at hpi), fun _ => ?_⟩
        have hpi : Provides w st₀ (S "tensordot") backend ∨ (w ((aliases.get? backend).getD backend)).isSome := Or.inr (by rw [hw]; rfl)
        have hnb : ¬ Offered (S "tensordot") backend ops := by
          intro ho
          obtain ⟨f, hf'⟩ := h.fe.bad (by rw [hw]; rfl) ho
          rw [hf] at hf'; cases hf'
        rw [offeredBefore_iff _ _ _ _ (h.fresh hc hpi)]
        simp only
        cases hl : lib (S "tensordot") with
        | some f =>
          refine ⟨true, rfl, Dict.get?_set_self _ _ _, ?_⟩
          simp only [true_iff]
          exact Or.inl (Or.inr ⟨lib, f, hw, hl⟩)
        | none =>
          refine ⟨false, rfl, Dict.get?_set_self _ _ _, ?_⟩
          simp only [Bool.false_eq_true, false_iff, not_or]
          refine ⟨?_, hnb⟩
          rintro (hp | ⟨lib', f, hl', hf'⟩)
          · exact hnpre hp
          · rw [hw] at hl'; cases hl'; rw [hl] at hf'; cases hf'

theorem run_tensordot_exact {w : World F} {st₀ st : St F} {backend : Str} {ops : List (Op F)} (h : TensordotExact w st₀ backend ops st) (op : Op F) :
    TensordotExact w st₀ backend (ops ++ [op]) (op.run w st) := by
  by_cases hq : op = .hasTensordot backend
  · subst hq
    have hsame : OfferedBefore (S "tensordot") backend (.hasTensordot backend) (ops ++ [Op.hasTensordot backend]) ↔
        OfferedBefore (S "tensordot") backend (.hasTensordot backend) ops := by
      rw [offeredBefore_append]
      simp
    obtain ⟨h1, h2⟩ := tensordot_answer_exact h
    refine ⟨run_exact h.fe _, fun b hb => ?_, fun hn hpi => ?_⟩
    · rw [hsame]
      by_cases hpi : Provides w st₀ (S "tensordot") backend ∨ (w ((aliases.get? backend).getD backend)).isSome
      · obtain ⟨b', _, hb', hiff⟩ := h2 hpi
        simp only [Op.run] at hb
        rw [hb'] at hb
        cases hb
        exact ⟨hpi, hiff, by simp⟩
      · rw [not_or, Bool.not_eq_true, Option.isSome_eq_false_iff, Option.isNone_iff_eq_none] at hpi
        simp only [Op.run] at hb
        rw [h1 hpi] at hb
        obtain ⟨k1, k2, -⟩ := h.known b hb
        exact ⟨k1, k2, by simp⟩
    · obtain ⟨b', _, hb', _⟩ := h2 hpi
      simp only [Op.run] at hn
      rw [hb'] at hn
      cases hn
  · have hget : (op.run w st).hasTensordot.get? backend = st.hasTensordot.get? backend := by
      cases op with
      | get f' b' d => simp only [Op.run, (getFunc_has w f' b' d st).2]
      | hasEinsum b => simp only [Op.run, hasEinsum_keepsT]
      | hasTensordot b => exact hasTensordot_other w b backend st (fun e => hq (by rw [e]))
    have hmem : Op.hasTensordot backend ∈ ops ++ [op] ↔ Op.hasTensordot backend ∈ ops := by
      simp only [List.mem_append, List.mem_singleton]
      exact or_iff_left (fun e => hq e.symm)
    refine ⟨run_exact h.fe op, fun b hb => ?_, fun hn hpi => ?_⟩
    · rw [hget] at hb
      obtain ⟨k1, k2, k3⟩ := h.known b hb
      refine ⟨k1, ?_, by simp [k3]⟩
      rw [k2, offeredBefore_append]
      simp [k3]
    · rw [hget] at hn
      rw [hmem]
      exact h.fresh hn hpi

theorem initial_tensordot_exact (w : World F) (oe : F) (np : Option (F × F × F)) (backend : Str) (ops : List (Op F)) :
    TensordotExact w (initial oe np) backend ops (runAll w ops (initial oe np)) := by
  induction ops using List.reverseRecOn with
  | nil =>
    refine ⟨⟨fun ⟨f, hf⟩ => Or.inl (Or.inl ⟨f, mem_of_get? hf⟩), fun ⟨_, hf⟩ => get?_of_mem hf, fun _ => ?_⟩, ?_, ?_⟩
    · rintro ⟨d, hd⟩; cases hd
    · intro b hb; simp [runAll, initial, Dict.get?] at hb
    · simp
  | append_singleton ops op ih =>
    have := run_tensordot_exact ih op
    unfold runAll at this ⊢
    rw [List.foldl_append]
    exact this

/-- **C47, exactly.** After any history of lookups and questions, `has_einsum` raises `ImportError` if the backend has no `einsum` among the
pre-populated functions and cannot be imported; otherwise it answers `True` just if the backend provides `einsum`, or a default was looked up for
it before `has_einsum` was first asked. Likewise `has_tensordot`. -/
theorem C47_exactly (w : World F) (oe : F) (np : Option (F × F × F)) (ops : List (Op F)) (backend : Str) :
    ((¬ Provides w (initial oe np) (S "einsum") backend ∧ w ((aliases.get? backend).getD backend) = none) →
      (Dispatch.hasEinsum w backend (runAll w ops (initial oe np))).1 = .error .importError) ∧
    ((Provides w (initial oe np) (S "einsum") backend ∨ (w ((aliases.get? backend).getD backend)).isSome) →
      ∃ b, (Dispatch.hasEinsum w backend (runAll w ops (initial oe np))).1 = .ok b ∧
        (b = true ↔ Provides w (initial oe np) (S "einsum") backend ∨ OfferedBefore (S "einsum") backend (.hasEinsum backend) ops)) ∧
    ((¬ Provides w (initial oe np) (S "tensordot") backend ∧ w ((aliases.get? backend).getD backend) = none) →
      (Dispatch.hasTensordot w backend (runAll w ops (initial oe np))).1 = .error .importError) ∧
    ((Provides w (initial oe np) (S "tensordot") backend ∨ (w ((aliases.get? backend).getD backend)).isSome) →
      ∃ b, (Dispatch.hasTensordot w backend (runAll w ops (initial oe np))).1 = .ok b ∧
        (b = true ↔ Provides w (initial oe np) (S "tensordot") backend ∨ OfferedBefore (S "tensordot") backend (.hasTensordot backend) ops)) := by
  obtain ⟨h1, h2⟩ := einsum_answer_exact (initial_einsum_exact w oe np backend ops)
  obtain ⟨h3, h4⟩ := tensordot_answer_exact (initial_tensordot_exact w oe np backend ops)
  refine ⟨fun h => by rw [h1 h], fun h => ?_, fun h => by rw [h3 h], fun h => ?_⟩
  · obtain ⟨b, hb, _, hi⟩ := h2 h; exact ⟨b, hb, hi⟩
  · obtain ⟨b, hb, _, hi⟩ := h4 h; exact ⟨b, hb, hi⟩

/-- The default counts if it came first and does not if it came second. -/
example : (Dispatch.hasEinsum exWorld (S "lib") (runAll exWorld [.get (S "einsum") (S "lib") (some 3), .hasEinsum (S "lib")] (initial 1 none))).1 = .ok true ∧
    (Dispatch.hasEinsum exWorld (S "lib") (runAll exWorld [.hasEinsum (S "lib"), .get (S "einsum") (S "lib") (some 3)] (initial 1 none))).1 = .ok false :=
  ⟨rfl, rfl⟩

/-! ## C48 -/

section
open OE.Paths OE.Contract

/-- The additions that the searches miss: those of the steps in which labels disappear, but none that two of the contracted tensors have. -/
def missedAdditions (size : Nat → Nat) (output : Finset Nat) : List (Finset Nat) → List (List Nat) → Nat
  | _, [] => 0
  | terms, p :: ps =>
    (if (∃ c ∈ labelsAt terms p, c ∉ keptLabels output terms p) ∧
        ∀ c ∈ labelsAt terms p, c ∉ keptLabels output terms p → p.countP (fun i => c ∈ terms.getD i ∅) ≤ 1
      then ∏ c ∈ labelsAt terms p, size c else 0) + missedAdditions size output (afterStep output terms p) ps

theorem kept_eq_iff (output : Finset Nat) (terms : List (Finset Nat)) (p : List Nat) :
    labelsAt terms p = keptLabels output terms p ↔ ¬ ∃ c ∈ labelsAt terms p, c ∉ keptLabels output terms p := by
  have hsub : keptLabels output terms p ⊆ labelsAt terms p := Finset.filter_subset _ _
  constructor
  · rintro e ⟨c, hc, hk⟩
    exact hk (e ▸ hc)
  · intro h
    refine Finset.Subset.antisymm (fun c hc => ?_) hsub
    by_contra hk
    exact h ⟨c, hc, hk⟩

theorem plan_add_missed (size : Nat → Nat) (output : Finset Nat) (q : Path) (terms : List (Finset Nat)) :
    ((planFigures size output terms q).map StepFigures.flops).sum = searchFlops size output terms q + missedAdditions size output terms q ∧
      missedAdditions size output terms q ≤ searchFlops size output terms q := by
  induction q generalizing terms with
  | nil => exact ⟨rfl, le_refl _⟩
  | cons p q ih =>
    obtain ⟨h1, h2⟩ := ih (afterStep output terms p)
    simp only [planFigures, List.map_cons, List.sum_cons, searchFlops, missedAdditions, h1]
    have hf : ((labelsAt terms p).filter (fun c => c ∉ keptLabels output terms p ∧ 1 < p.countP (fun i => c ∈ terms.getD i ∅)) = ∅) ↔
        ∀ c ∈ labelsAt terms p, c ∉ keptLabels output terms p → p.countP (fun i => c ∈ terms.getD i ∅) ≤ 1 := by
      rw [Finset.filter_eq_empty_iff]
      constructor
      · intro h c hc hk
        by_contra hlt
        exact h hc ⟨hk, by omega⟩
      · intro h c hc hk
        have := h c hc hk.1
        omega
    have hk := kept_eq_iff output terms p
    unfold stepFlops pairFlops
    by_cases e : ∃ c ∈ labelsAt terms p, c ∉ keptLabels output terms p
    · rw [if_neg (fun h => hk.1 h e)]
      by_cases e2 : ∀ c ∈ labelsAt terms p, c ∉ keptLabels output terms p → p.countP (fun i => c ∈ terms.getD i ∅) ≤ 1
      · rw [if_pos (hf.2 e2), if_pos ⟨e, e2⟩]
        have : 1 ≤ max 1 (p.length - 1) := le_max_left _ _
        generalize max 1 (p.length - 1) = k at *
        generalize (∏ c ∈ labelsAt terms p, size c) = x at *
        have hx : x * 1 ≤ x * (k + 0) := Nat.mul_le_mul_left _ (by omega)
        constructor
        · rw [Nat.mul_add, Nat.mul_add]; omega
        · omega
      · rw [if_neg (fun h => e2 (hf.1 h)), if_neg (fun h => e2 h.2)]
        constructor <;> omega
    · have e2 : ∀ c ∈ labelsAt terms p, c ∉ keptLabels output terms p → p.countP (fun i => c ∈ terms.getD i ∅) ≤ 1 :=
        fun c hc hn => absurd ⟨c, hc, hn⟩ e
      rw [if_pos (hk.2 e), if_pos (hf.2 e2), if_neg (fun h => e h.1)]
      constructor <;> omega

/-- **C48, exactly.** For every network and complete pairwise ssa path, the flops by which a random optimizer ranks it fall short of `opt_cost` by
the additions of the steps in which labels disappear but none that both tensors have; so `opt_cost` is at most twice as much. -/
theorem C48_exactly (size : Nat → Nat) (inputs : List Str) (output : Str) (shapes : List Shape) (opt : Optimize) (mem : MemLimit)
    (useBlas : Bool) (info : PathInfo) (hlen : inputs.length = shapes.length) (hsize : ∀ c s, IsLabelSize inputs shapes c s → size c = s)
    (h : contractPath inputs output shapes opt mem useBlas = .ok info) {path : Path} (h2 : 2 ≤ inputs.length)
    (hc : SsaComplete inputs.length path) (hp : Pairwise2 path) (hq : ssaToLinear path = .ok info.path) :
    ∃ flops, ssaPathCost size path (inputs.map List.toFinset) output.toFinset = .ok (flops, info.largestIntermediate) ∧
      info.optCost = flops + missedAdditions size output.toFinset (inputs.map List.toFinset) info.path ∧
      flops ≤ info.optCost ∧ info.optCost ≤ 2 * flops := by
  obtain ⟨flops, g1, -⟩ := C48_cost_partial size inputs output shapes opt mem useBlas info hlen hsize h h2 hc hp hq
  have hl : (inputs.map List.toFinset).length = inputs.length := List.length_map _
  obtain ⟨q, e1, e2, e3, e4⟩ := ssaPathCost_spec (size := size) (ins := inputs.map List.toFinset) (out := output.toFinset) (path := path)
    (by rw [hl]; exact h2) (by rw [hl]; exact hc) hp
  rw [hq] at e1
  cases e1
  have hv : ValidPath inputs.length info.path := by
    have := completePath_valid e2
    rwa [hl] at this
  obtain ⟨c1, _⟩ := C05_path_info size inputs output shapes opt mem useBlas info hlen hsize h hv
  obtain ⟨m1, m2⟩ := plan_add_missed size output.toFinset info.path (inputs.map List.toFinset)
  rw [e4] at g1
  simp only [Except.ok.injEq, Prod.mk.injEq] at g1
  obtain ⟨rfl, g2⟩ := g1
  rw [e4, g2]
  exact ⟨_, rfl, by rw [c1, m1], by rw [c1, m1]; omega, by rw [c1, m1]; omega⟩

/-- 'ab,c->bc': 8 operations more. -/
example : missedAdditions (fun _ => 2) (S "bc").toFinset ([S "ab", S "c"].map List.toFinset) [[0, 1]] = 8 := by decide +kernel

end

end OE.Props
