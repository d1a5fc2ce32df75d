import Verif.Model.Interleaved
import Verif.Lemmas.Rename
import Verif.Lemmas.NpEllipsis
import Verif.Props.Parser3
import Verif.Props.Registry

/-!
# C36, C55: `contract` on interleaved operands
-/

namespace OE.Props
open OE OE.Py OE.Spec OE.Parser OE.Helpers OE.Blas OE.Contract OE.Paths OE.Registry
variable {R : Type} [CommSemiring R] {κ : Type} [LinearOrder κ]

/-- The labels of interleaved operands. -/
def LabelOf {α : Type} (items : List (α × List (Lbl κ))) (k : κ) : Prop := ∃ sub ∈ items.map Prod.snd, Lbl.key k ∈ sub

/-- The equation of interleaved operands, given symbols for their labels. -/
def renderAll {α : Type} (sym : κ → Nat) (items : List (α × List (Lbl κ))) (output : Option (List (Lbl κ))) : Str :=
  List.intercalate [cComma] ((items.map Prod.snd).map (render sym)) ++ (match output with | none => [] | some o => S "->" ++ render sym o)

omit [LinearOrder κ] in
theorem mem_render {sym : κ → Nat} {l : List (Lbl κ)} {c : Nat} (h : c ∈ render sym l) : c = cDot ∨ ∃ k, Lbl.key k ∈ l ∧ c = sym k := by
  induction l with
  | nil => cases h
  | cons a t ih =>
    cases a with
    | ellipsis =>
      rw [render, List.mem_append] at h
      rcases h with h | h
      · left
        have hS : S "..." = [cDot, cDot, cDot] := by decide
        rw [hS] at h
        simpa using h
      · rcases ih h with h | ⟨k, hk, e⟩
        · exact Or.inl h
        · exact Or.inr ⟨k, by simp [hk], e⟩
    | key k =>
      rw [render, List.mem_cons] at h
      rcases h with h | h
      · exact Or.inr ⟨k, by simp, h⟩
      · rcases ih h with h | ⟨k, hk, e⟩
        · exact Or.inl h
        · exact Or.inr ⟨k, by simp [hk], e⟩

theorem symOf_ne_space (labels : List κ) (k : κ) : symOf labels k ≠ cSpace := by
  unfold symOf
  rw [getSymbol_eq]
  show _ ≠ 32
  split <;> (try split) <;> (try split) <;> omega

/-- **C36.** `contract` on interleaved operands is `contract` on the string equation that renders the labels by distinct symbols, for every path, path
finder, memory limit and use of BLAS and backends without `einsum` (`optimize=False` is handed to numpy as it is). -/
theorem C36_contract_interleaved (items : List (Tensor R × List (Lbl κ))) (output : Option (List (Lbl κ)))
    (hout : ∀ o, output = some o → ∀ k, Lbl.key k ∈ o → LabelOf items k) :
    ∃ sym : κ → Nat, Set.InjOn sym {k | LabelOf items k} ∧ (∀ k, ¬ IsPunct (sym k) ∧ sym k ≠ cSpace) ∧
      (∀ labels : List κ, (∀ k, LabelOf items k → k ∈ labels) → labels.length ≤ 26 →
        ∀ a b, LabelOf items a → LabelOf items b → (a < b ↔ sym a < sym b)) ∧
      (∀ noEinsum opt mem useBlas, opt ≠ .off →
        contractInterleaved noEinsum items output opt mem useBlas =
          contract noEinsum (renderAll sym items output) (items.map Prod.fst) opt mem useBlas) ∧
      convertInterleaved items output = .ok (renderAll sym items output, items.map Prod.fst) := by
  have hS : S "->" = [cDash, cGt] := by decide
  have hconv : convertInterleaved items output = .ok (renderAll (symOf (sortedLabels (items.map Prod.snd))) items output, items.map Prod.fst) := by
    unfold convertInterleaved renderAll
    simp only
    rw [mapM_convert]
    · cases output with
      | none => simp [bind, Except.bind, join_eq_intercalate]
      | some o =>
        have := convertSubscripts_ok (sortedLabels (items.map Prod.snd)) o (fun k hk => (mem_sortedLabels _ _).2 (hout o rfl k hk))
        simp only [bind, Except.bind, this, join_eq_intercalate, hS]
        simp
    · intro sub hsub k hk
      exact (mem_sortedLabels _ _).2 ⟨sub, hsub, hk⟩
  refine ⟨symOf (sortedLabels (items.map Prod.snd)), ?_, fun k => ⟨getSymbol_not_isPunct _, symOf_ne_space _ _⟩, ?_, ?_, hconv⟩
  · intro a ha b hb hab
    exact symOf_injOn (items.map Prod.snd) ((mem_sortedLabels _ _).2 ha) ((mem_sortedLabels _ _).2 hb) hab
  · intro labels hlab h26 a b ha hb
    have h26 : (sortedLabels (items.map Prod.snd)).length ≤ 26 := by
      have hn : (sortedLabels (items.map Prod.snd)).Nodup := (sortedLabels_pairwise _).imp (fun h => ne_of_lt h)
      have := (hn.subperm (fun k hk => hlab k ((mem_sortedLabels _ _).1 hk))).length_le
      omega
    rw [LabelOf, ← mem_sortedLabels] at ha hb
    constructor
    · exact symOf_lt _ h26 a b ha hb
    · intro hlt
      rcases lt_trichotomy a b with h | h | h
      · exact h
      · subst h; omega
      · have := symOf_lt _ h26 b a hb ha h; omega
  · intro noEinsum opt mem ub hoff
    have hsp : removeChar cSpace (renderAll (symOf (sortedLabels (items.map Prod.snd))) items output) =
        renderAll (symOf (sortedLabels (items.map Prod.snd))) items output := by
      unfold removeChar
      rw [List.filter_eq_self]
      intro c hc
      simp only [decide_eq_true_eq]
      have hr : ∀ l : List (Lbl κ), c ∈ render (symOf (sortedLabels (items.map Prod.snd))) l → c ≠ cSpace := by
        intro l hl
        rcases mem_render hl with rfl | ⟨k, _, rfl⟩
        · decide
        · exact symOf_ne_space _ _
      unfold renderAll at hc
      rw [List.mem_append, ← join_eq_intercalate] at hc
      rcases hc with hc | hc
      · rcases mem_join _ _ _ hc with h | ⟨t, ht, h⟩
        · rw [List.mem_singleton] at h; subst h; decide
        · obtain ⟨l, _, rfl⟩ := List.mem_map.mp ht
          exact hr l h
      · cases output with
        | none => cases hc
        | some o =>
          simp only [List.mem_append, hS] at hc
          rcases hc with h | h
          · simp only [List.mem_cons, List.not_mem_nil, or_false] at h
            rcases h with rfl | rfl <;> decide
          · exact hr o h
    have hparse : parseInterleaved Tensor.shape items output =
        (parseEinsum (renderAll (symOf (sortedLabels (items.map Prod.snd))) items output) ((items.map Prod.fst).map Tensor.shape)).map
          (fun r => (r.1, r.2, items.map Prod.fst)) := by
      unfold parseInterleaved parseEinsum
      rw [hconv, hsp]
      simp only [bind, Except.bind]
      split
      · rfl
      · by_cases hd : cDot ∈ renderAll (symOf (sortedLabels (items.map Prod.snd))) items output
        · simp only [if_pos hd]
          cases expandEllipses (renderAll (symOf (sortedLabels (items.map Prod.snd))) items output) ((items.map Prod.fst).map Tensor.shape) with
          | error e => rfl
          | ok v =>
            simp only
            cases finishParse v ((items.map Prod.fst).map Tensor.shape).length <;> rfl
        · simp only [if_neg hd]
          cases finishParse (renderAll (symOf (sortedLabels (items.map Prod.snd))) items output) ((items.map Prod.fst).map Tensor.shape).length <;> rfl
    cases opt with
    | off => exact absurd rfl hoff
    | path p =>
      simp only [contractInterleaved, contract, bind, Except.bind]
      rw [hparse]
      cases parseEinsum (renderAll (symOf (sortedLabels (items.map Prod.snd))) items output) ((items.map Prod.fst).map Tensor.shape) <;> rfl
    | finder f =>
      simp only [contractInterleaved, contract, bind, Except.bind]
      rw [hparse]
      cases parseEinsum (renderAll (symOf (sortedLabels (items.map Prod.snd))) items output) ((items.map Prod.fst).map Tensor.shape) <;> rfl

/-! ## C55 -/

/-- The output that the caller of the interleaved form means: the list given, of distinct labels of the operands; or, if none is given (and there are
at most 26 labels, see `C36_order_counterexample`), the labels that occur once, in increasing order. -/
inductive MeansOutput (subs : List (List κ)) : Option (List κ) → List κ → Prop
  | given (o : List κ) (nodup : o.Nodup) (sub : ∀ k ∈ o, ∃ t ∈ subs, k ∈ t) : MeansOutput subs (some o) o
  | implicit (o : List κ) (inc : o.Pairwise (· < ·)) (once : ∀ k, k ∈ o ↔ subs.flatten.count k = 1) (labels : List κ)
      (hlab : ∀ t ∈ subs, ∀ k ∈ t, k ∈ labels) (h26 : labels.length ≤ 26) : MeansOutput subs none o

omit [LinearOrder κ] in
theorem render_keys (sym : κ → Nat) (l : List κ) : render sym (l.map Lbl.key) = l.map sym := by
  induction l with
  | nil => rfl
  | cons a t ih => rw [List.map_cons, render, ih, List.map_cons]

theorem count_map_injOn {f : κ → Nat} {l : List κ} (hf : Set.InjOn f {k | k ∈ l}) {k : κ} (hk : k ∈ l) : (l.map f).count (f k) = l.count k := by
  rw [List.count, List.countP_map, List.count]
  apply List.countP_congr
  intro x hx
  simp only [Function.comp, beq_iff_eq]
  exact ⟨fun h => hf hx hk h, fun h => by rw [h]⟩

/-- What interleaved operands without ellipsis are parsed to. -/
theorem interleaved_parse (items : List (Tensor R × List κ)) (hne : items ≠ []) {output : Option (List κ)} {o : List κ}
    (ho : MeansOutput (items.map Prod.snd) output o) :
    ∃ sym : κ → Nat, Set.InjOn sym {k | ∃ t ∈ items.map Prod.snd, k ∈ t} ∧ cComma ∉ o.map sym ∧
      (∀ k ∈ o, ∃ t ∈ items.map Prod.snd, k ∈ t) ∧
      ∃ eq inp, parseEinsum eq ((items.map Prod.fst).map Tensor.shape) = .ok (inp, o.map sym) ∧
        splitOn cComma inp = (items.map Prod.snd).map (List.map sym) ∧
        (∀ noEinsum opt mem useBlas, opt ≠ .off →
          contractInterleaved noEinsum (items.map (fun p => (p.1, p.2.map Lbl.key))) (output.map (List.map Lbl.key)) opt mem useBlas =
            contract noEinsum eq (items.map Prod.fst) opt mem useBlas) ∧
        convertInterleaved (items.map (fun p => (p.1, p.2.map Lbl.key))) (output.map (List.map Lbl.key)) = .ok (eq, items.map Prod.fst) := by
  set items' := items.map (fun p => (p.1, p.2.map Lbl.key)) with hitems'
  have hlab : ∀ k, LabelOf items' k ↔ ∃ t ∈ items.map Prod.snd, k ∈ t := by
    intro k
    unfold LabelOf
    simp only [hitems', List.map_map, List.mem_map, Function.comp]
    constructor
    · rintro ⟨sub, ⟨p, hp, rfl⟩, hk⟩
      obtain ⟨x, hx, e⟩ := List.mem_map.mp hk
      cases e
      exact ⟨_, ⟨p, hp, rfl⟩, hx⟩
    · rintro ⟨t, ⟨p, hp, rfl⟩, hk⟩
      exact ⟨_, ⟨p, hp, rfl⟩, List.mem_map_of_mem hk⟩
  have hsub : ∀ k ∈ o, ∃ t ∈ items.map Prod.snd, k ∈ t := by
    cases ho with
    | given _ _ sub => exact sub
    | implicit _ inc once labels hl h26 =>
      intro k hk
      have : 0 < (items.map Prod.snd).flatten.count k := by rw [(once k).mp hk]; omega
      exact List.mem_flatten.mp (List.count_pos_iff.mp this)
  obtain ⟨sym, hinj, hpun, hord, hcall, hconv⟩ := C36_contract_interleaved items' (output.map (List.map Lbl.key)) (by
    intro o' ho' k hk
    cases ho with
    | given _ _ sub =>
      simp only [Option.map_some, Option.some.injEq] at ho'
      subst ho'
      obtain ⟨x, hx, e⟩ := List.mem_map.mp hk
      cases e
      exact (hlab k).mpr (sub k hx)
    | implicit => cases ho')
  have hinj' : Set.InjOn sym {k | ∃ t ∈ items.map Prod.snd, k ∈ t} := fun a ha b hb e => hinj ((hlab a).mpr ha) ((hlab b).mpr hb) e
  have hterms : (items'.map Prod.snd).map (render sym) = (items.map Prod.snd).map (List.map sym) := by
    simp only [hitems', List.map_map]
    apply List.map_congr_left
    intro p hp
    simp only [Function.comp, render_keys]
  have hcf : ∀ t ∈ (items.map Prod.snd).map (List.map sym), ∀ c ∈ t, ¬ IsPunct c ∧ c ≠ cSpace := by
    intro t ht c hc
    obtain ⟨l, _, rfl⟩ := List.mem_map.mp ht
    obtain ⟨k, _, rfl⟩ := List.mem_map.mp hc
    exact hpun k
  have hof : ∀ c ∈ o.map sym, ¬ IsPunct c ∧ c ≠ cSpace := by
    intro c hc
    obtain ⟨k, _, rfl⟩ := List.mem_map.mp hc
    exact hpun k
  have hfst : items'.map Prod.fst = items.map Prod.fst := by simp [hitems', Function.comp_def]
  rw [hfst] at hcall hconv
  set inp := join [cComma] ((items.map Prod.snd).map (List.map sym)) with hinp
  have hinpc : ∀ c ∈ inp, c = cComma ∨ ∃ k, (∃ t ∈ items.map Prod.snd, k ∈ t) ∧ c = sym k := by
    intro c hc
    rcases mem_join _ _ _ hc with h | ⟨t, ht, h⟩
    · exact Or.inl (List.mem_singleton.mp h)
    · obtain ⟨l, hl, rfl⟩ := List.mem_map.mp ht
      obtain ⟨k, hk, rfl⟩ := List.mem_map.mp h
      exact Or.inr ⟨k, ⟨l, hl, hk⟩, rfl⟩
  have hfree : ∀ x, x = cDot ∨ x = cDash ∨ x = cGt ∨ x = cSpace → x ∉ inp ∧ x ∉ o.map sym := by
    intro x hx
    have hk : ∀ k, sym k ≠ x := by
      intro k e
      have := hpun k
      rw [e] at this
      unfold IsPunct at this
      rcases hx with h | h | h | h <;> rw [h] at this <;> simp at this
    constructor
    · intro hm
      rcases hinpc x hm with h | ⟨k, _, h⟩
      · rw [h] at hx; revert hx; decide
      · exact hk k h.symm
    · intro hm
      obtain ⟨k, _, e⟩ := List.mem_map.mp hm
      exact hk k e
  have hsplit : splitOn cComma inp = (items.map Prod.snd).map (List.map sym) := by
    rw [hinp]
    apply splitOn_join
    · simpa using hne
    · intro t ht hc
      exact (hcf t ht cComma hc).1 (Or.inr (Or.inl rfl))
  have hcount : inp.count cComma + 1 = ((items.map Prod.fst).map Tensor.shape).length := by
    have := splitOn_length cComma inp
    rw [hsplit] at this
    simpa using this.symm
  refine ⟨sym, hinj', fun hc => (hof _ hc).1 (Or.inr (Or.inl rfl)), hsub, ?_⟩
  have hocc : ∀ k, (∃ t ∈ items.map Prod.snd, k ∈ t) → sym k ∈ inp := by
    rintro k ⟨t, ht, hk⟩
    have : sym k ∈ (splitOn cComma inp).flatten := by
      rw [hsplit]
      exact List.mem_flatten.mpr ⟨t.map sym, List.mem_map_of_mem ht, List.mem_map_of_mem hk⟩
    have hc : sym k ≠ cComma := fun e => (hpun k).1 (by rw [e]; exact Or.inr (Or.inl rfl))
    rw [hsplit] at this
    have h1 := List.count_pos_iff.mpr this
    rw [← count_join_label hc] at h1
    exact List.count_pos_iff.mp h1
  have hwf : WellFormed ((items.map Prod.fst).map Tensor.shape).length (renderAll sym items' (output.map (List.map Lbl.key))) inp (o.map sym) := by
    unfold renderAll
    rw [hterms, ← join_eq_intercalate]
    cases ho with
    | given _ nodup sub =>
      simp only [Option.map_some, render_keys]
      rw [← List.append_assoc]
      exact WellFormed.explicit inp (o.map sym) (hfree cDash (by simp)).1 (hfree cGt (by simp)).1 (hfree cDash (by simp)).2 (hfree cGt (by simp)).2
        ((List.nodup_map_iff_inj_on nodup).mpr (fun a ha b hb e => hinj' (sub a ha) (sub b hb) e))
        (fun c hc => by
          obtain ⟨k, hk, rfl⟩ := List.mem_map.mp hc
          exact hocc k (sub k hk)) hcount
    | implicit _ inc once labels hl h26 =>
      simp only [Option.map_none, List.append_nil]
      refine WellFormed.implicit inp (o.map sym) (hfree cDash (by simp)).1 (hfree cGt (by simp)).1 ?_ ?_ hcount
      · unfold StrictInc
        rw [List.pairwise_map]
        refine List.Pairwise.imp_of_mem ?_ inc
        intro a b ha hb hab
        refine (hord labels ?_ h26 a b ((hlab a).mpr (hsub a ha)) ((hlab b).mpr (hsub b hb))).mp hab
        intro k hk
        obtain ⟨t, ht, hk⟩ := (hlab k).mp hk
        exact hl t ht k hk
      · intro c
        have hcnt : ∀ k, (∃ t ∈ items.map Prod.snd, k ∈ t) → inp.count (sym k) = (items.map Prod.snd).flatten.count k := by
          intro k hk
          rw [hinp, count_join_label (fun e => (hpun k).1 (by rw [e]; exact Or.inr (Or.inl rfl))), ← List.map_flatten]
          apply count_map_injOn
          · intro a ha b hb e
            exact hinj' (List.mem_flatten.mp ha) (List.mem_flatten.mp hb) e
          · exact List.mem_flatten.mpr hk
        constructor
        · intro hc
          obtain ⟨k, hk, rfl⟩ := List.mem_map.mp hc
          refine ⟨fun e => (hpun k).1 (by rw [e]; exact Or.inr (Or.inl rfl)), ?_⟩
          rw [hcnt k (hsub k hk)]
          exact (once k).mp hk
        · rintro ⟨hc, h1⟩
          have hmem : c ∈ inp := List.count_pos_iff.mp (by omega)
          rcases hinpc c hmem with rfl | ⟨k, hk, rfl⟩
          · exact absurd rfl hc
          · rw [hcnt k hk] at h1
            exact List.mem_map_of_mem ((once k).mpr h1)
  have hS : S "->" = [cDash, cGt] := by decide
  have hchars : ∀ c ∈ renderAll sym items' (output.map (List.map Lbl.key)), c ∈ inp ∨ c = cDash ∨ c = cGt ∨ c ∈ o.map sym := by
    intro c hc
    unfold renderAll at hc
    rw [hterms, ← join_eq_intercalate, List.mem_append] at hc
    rcases hc with hc | hc
    · exact Or.inl hc
    · cases ho with
      | given =>
        simp only [Option.map_some, render_keys, hS, List.mem_append, List.mem_cons, List.not_mem_nil, or_false] at hc
        rcases hc with (h | h) | h
        · exact Or.inr (Or.inl h)
        · exact Or.inr (Or.inr (Or.inl h))
        · exact Or.inr (Or.inr (Or.inr h))
      | implicit => cases hc
  have hnosp : (renderAll sym items' (output.map (List.map Lbl.key))).filter (· ≠ cSpace) = renderAll sym items' (output.map (List.map Lbl.key)) := by
    rw [List.filter_eq_self]
    intro c hc
    simp only [decide_eq_true_eq]
    rintro rfl
    rcases hchars _ hc with h | h | h | h
    · exact (hfree cSpace (by simp)).1 h
    · revert h; decide
    · revert h; decide
    · exact (hfree cSpace (by simp)).2 h
  have hnodot : cDot ∉ renderAll sym items' (output.map (List.map Lbl.key)) := by
    intro hc
    rcases hchars _ hc with h | h | h | h
    · exact (hfree cDot (by simp)).1 h
    · revert h; decide
    · revert h; decide
    · exact (hfree cDot (by simp)).2 h
  refine ⟨renderAll sym items' (output.map (List.map Lbl.key)), inp, ?_, hsplit, hcall, hconv⟩
  rw [C34_parse_einsum_input_iff _ _ hnodot, hnosp]
  exact hwf

omit [LinearOrder κ] in
/-- Sizes for the symbols from sizes for the labels. -/
theorem size_of_sym {sym : κ → Nat} {inputs : List (List κ)} (hinj : Set.InjOn sym {k | ∃ t ∈ inputs, k ∈ t}) (size : κ → Nat) :
    ∃ size' : Nat → Nat, ∀ k, (∃ t ∈ inputs, k ∈ t) → size' (sym k) = size k := by
  classical
  refine ⟨fun c => if h : ∃ k, (∃ t ∈ inputs, k ∈ t) ∧ sym k = c then size h.choose else 0, ?_⟩
  intro k hk
  have h : ∃ k', (∃ t ∈ inputs, k' ∈ t) ∧ sym k' = sym k := ⟨k, hk, rfl⟩
  simp only [dif_pos h]
  rw [hinj h.choose_spec.1 hk h.choose_spec.2]

theorem card_map_labels {sym : κ → Nat} {inputs : List (List κ)} (hinj : Set.InjOn sym {k | ∃ t ∈ inputs, k ∈ t}) :
    ((inputs.map (List.map sym)).flatten.toFinset).card = inputs.flatten.toFinset.card := by
  have : (inputs.map (List.map sym)).flatten.toFinset = inputs.flatten.toFinset.image sym := by
    rw [← List.map_flatten]
    ext c
    rw [List.mem_toFinset, List.mem_map, Finset.mem_image]
    simp only [List.mem_toFinset]
  rw [this]
  apply Finset.card_image_of_injOn
  intro a ha b hb e
  rw [Finset.mem_coe, List.mem_toFinset, List.mem_flatten] at ha hb
  exact hinj ha hb e

/-- **C55.** `contract(op0, labels0, op1, labels1, ..., [output])` on interleaved operands that fit, with at most 52 different labels of any ordered type: along every
complete explicit path the result is the Einstein summation over the caller's labels. -/
theorem C55_interleaved_path (items : List (Tensor R × List κ)) (hne : items ≠ []) {output : Option (List κ)} {o : List κ}
    (ho : MeansOutput (items.map Prod.snd) output o) (size : κ → Nat)
    (hfit : OperandsFit size (items.map Prod.snd) ((items.map Prod.fst).map Tensor.shape))
    (hlab : (items.map Prod.snd).flatten.toFinset.card ≤ 52)
    {p : List (List Nat)} (hp : CompletePath items.length p) (mem : MemLimit) (hmem : ValidMemory mem) (useBlas : Bool) :
    ∃ T, contractInterleaved false (items.map (fun p => (p.1, p.2.map Lbl.key))) (output.map (List.map Lbl.key)) (.path p) mem useBlas = .ok T ∧
      IsEinsum size (items.map Prod.snd) o (items.map Prod.fst) T := by
  obtain ⟨sym, hinj, hcomma, hsub, eq, inp, hparse, hsplit, hcall, _⟩ := interleaved_parse items hne ho
  obtain ⟨size', hsize⟩ := size_of_sym hinj size
  obtain ⟨T, hT, hE⟩ := C01_contract size' eq (items.map Prod.fst) inp (o.map sym) hparse hcomma
    (by rw [hsplit]; exact operandsFit_rename hinj hsize hfit) (by rw [hsplit, card_map_labels hinj]; exact hlab) (.path p) mem hmem
    (by rw [hsplit]; simpa [ChoosesComplete] using hp) useBlas
  refine ⟨T, (hcall false (.path p) mem useBlas (by simp)).trans hT, ?_⟩
  rw [hsplit] at hE
  exact isEinsum_of_rename hinj hsub hsize hE

/-- **C55, built-in path finders.** The same with `optimize="name"` as in `C54_contract_named`. -/
theorem C55_interleaved_named {lower : Str → Str} (hl : LowerOK lower) {t : Dict Str Builtin} (ht : importedOptions lower = .ok t)
    {e : Env} (he : EnvOK e) {name : Str} {b : Builtin} (hname : documentedName (lower name) = some b)
    (items : List (Tensor R × List κ)) (hne : items ≠ []) {output : Option (List κ)} {o : List κ}
    (ho : MeansOutput (items.map Prod.snd) output o) (size : κ → Nat)
    (hfit : OperandsFit size (items.map Prod.snd) ((items.map Prod.fst).map Tensor.shape))
    (hlab : (items.map Prod.snd).flatten.toFinset.card ≤ 52) (mem : MemLimit) (hmem : ValidMemory mem) (useBlas : Bool)
    (hpos : UsesDp b → ∀ k ∈ (items.map Prod.snd).flatten, 0 < size k) :
    ∃ F, ∀ fuel, F ≤ fuel →
      (∃ T, contractInterleaved false (items.map (fun p => (p.1, p.2.map Lbl.key))) (output.map (List.map Lbl.key))
          (resolve lower (optionFns { e with fuel } t) (.name name)) mem useBlas = .ok T ∧
        IsEinsum size (items.map Prod.snd) o (items.map Prod.fst) T) ∨
      (contractInterleaved false (items.map (fun p => (p.1, p.2.map Lbl.key))) (output.map (List.map Lbl.key))
          (resolve lower (optionFns { e with fuel } t) (.name name)) mem useBlas = .error .runtime ∧
        UsesDp b ∧ ¬ Unlimited mem ∧ 2 < items.length) := by
  obtain ⟨sym, hinj, hcomma, hsub, eq, inp, hparse, hsplit, hcall, _⟩ := interleaved_parse items hne ho
  obtain ⟨size', hsize⟩ := size_of_sym hinj size
  obtain ⟨F, hF⟩ := C54_contract_named hl ht he hname size' eq (items.map Prod.fst) inp (o.map sym) hparse hcomma
    (by rw [hsplit]; exact operandsFit_rename hinj hsize hfit) (by rw [hsplit, card_map_labels hinj]; exact hlab) mem hmem useBlas (by
      intro hb c hc
      rw [hsplit, ← List.map_flatten] at hc
      obtain ⟨k, hk, rfl⟩ := List.mem_map.mp hc
      rw [hsize k (List.mem_flatten.mp hk)]
      exact hpos hb k hk)
  refine ⟨F, fun fuel hf => ?_⟩
  rw [hcall _ _ _ _ (by simp [resolve])]
  rcases hF fuel hf with ⟨T, hT, hE⟩ | ⟨h1, h2, h3, h4⟩
  · rw [hsplit] at hE
    exact Or.inl ⟨T, hT, isEinsum_of_rename hinj hsub hsize hE⟩
  · exact Or.inr ⟨h1, h2, h3, by simpa using h4⟩

-- C55: three operands with labels 30, 7, 1000, implicit output
example : ∃ T, contractInterleaved false [(ones [2, 3], [Lbl.key 30, .key 7]), (ones [3, 4], [.key 7, .key 1000]), (ones [4, 1], [.key 1000, .key 1000000])] none
      (.path [[0, 2], [1, 0]]) .maxInput true = .ok T ∧
    IsEinsum (fun k => if k = 30 then 2 else if k = 7 then 3 else if k = 1000 then 4 else 1) [[30, 7], [7, 1000], [1000, 1000000]] [30, 1000000]
      [ones [2, 3], ones [3, 4], ones [4, 1]] T := by
  refine C55_interleaved_path (items := [(ones [2, 3], [30, 7]), (ones [3, 4], [7, 1000]), (ones [4, 1], [1000, 1000000])]) (output := none) (by simp)
    (MeansOutput.implicit _ (by decide) ?_ [30, 7, 1000, 1000000] (by decide) (by decide)) _
    (operandsFit_of_list (by decide +kernel) (by decide +kernel) (by decide +kernel) (by decide +kernel) (by decide +kernel)) (by decide +kernel)
    ?_ .maxInput trivial true
  · intro k
    simp only [List.map_cons, List.map_nil, List.flatten_cons, List.flatten_nil, List.append_nil, List.cons_append, List.nil_append,
      List.count_cons, List.count_nil, List.mem_cons, List.not_mem_nil, or_false, beq_iff_eq]
    split <;> split <;> split <;> split <;> simp_all <;> omega
  · simp [CompletePath, ValidStep]

end OE.Props
