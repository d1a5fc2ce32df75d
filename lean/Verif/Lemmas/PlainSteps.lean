import Verif.Props.Contract2

/-! The labels in the equations of the steps of a contraction are neither punctuation nor spaces. -/

namespace OE
open OE.Py OE.Spec OE.Parser OE.Contract OE.Helpers OE.Props

/-- A label that the parser can have produced. -/
def GoodLabel (c : Nat) : Prop := ¬ IsPunct c ∧ c ≠ cSpace

theorem mem_splitArrow {s p : Str} (h : p ∈ splitArrow s) {c : Nat} (hc : c ∈ p) : c ∈ s := by
  induction s using splitArrow.induct generalizing p with
  | case1 => simp only [splitArrow, List.mem_singleton] at h; subst h; exact hc
  | case2 xs ih =>
    simp only [splitArrow, List.mem_cons] at h
    rcases h with rfl | h
    · simp at hc
    · have := ih h hc
      simp [this]
  | case3 x xs hx he ih =>
    rw [splitArrow.eq_3 _ _ hx] at h
    rw [he] at h
    simp only [List.mem_singleton] at h
    subst h
    simp only [List.mem_singleton] at hc
    simp [hc]
  | case4 x xs hx a t he ih =>
    rw [splitArrow.eq_3 _ _ hx] at h
    rw [he] at h
    simp only [List.mem_cons] at h
    rcases h with rfl | h
    · simp only [List.mem_cons] at hc
      rcases hc with rfl | hc
      · simp
      · exact List.mem_cons_of_mem _ (ih (p := a) (by rw [he]; simp) hc)
    · exact List.mem_cons_of_mem _ (ih (p := p) (by rw [he]; simp [h]) hc)

theorem mem_of_splitOn {x : Nat} {s t : Str} (ht : t ∈ splitOn x s) {c : Nat} (hc : c ∈ t) : c ∈ s := by
  rw [← join_splitOn x s]
  exact mem_join_of_mem _ _ _ t ht hc

theorem mem_lastN {n : Nat} {l : List Nat} {c : Nat} (h : c ∈ lastN n l) : c ∈ l := List.mem_of_mem_drop h

theorem expandTerms_chars {E : Str} {shapes : List Shape} {subs : List (Nat × Str)} {acc : List Str} {longest : Nat}
    {terms : List Str} {L : Nat} (h : expandTerms E shapes subs acc longest = .ok (terms, L)) {c : Nat}
    (hc : ∃ t ∈ terms, c ∈ t) : c ∈ E ∨ (∃ t ∈ acc, c ∈ t) ∨ ∃ p ∈ subs, c ∈ p.2 := by
  induction subs generalizing acc longest with
  | nil =>
    simp only [expandTerms, Except.ok.injEq, Prod.mk.injEq] at h
    obtain ⟨rfl, _⟩ := h
    obtain ⟨t, ht, hc⟩ := hc
    right; left; exact ⟨t, by simpa using ht, hc⟩
  | cons p rest ih =>
    obtain ⟨num, sub⟩ := p
    have key : ∀ (new : Str), (∀ x ∈ new, x ∈ E ∨ x ∈ sub) → ∀ L', expandTerms E shapes rest (new :: acc) L' = .ok (terms, L) →
        c ∈ E ∨ (∃ t ∈ acc, c ∈ t) ∨ ∃ p ∈ (num, sub) :: rest, c ∈ p.2 := by
      intro new hnew L' hh
      rcases ih hh with h1 | ⟨t, ht, h1⟩ | ⟨q, hq, h1⟩
      · exact Or.inl h1
      · rcases List.mem_cons.mp ht with rfl | ht
        · rcases hnew c h1 with h2 | h2
          · exact Or.inl h2
          · right; right; exact ⟨(num, sub), by simp, h2⟩
        · right; left; exact ⟨t, ht, h1⟩
      · right; right; exact ⟨q, by simp [hq], h1⟩
    rw [expandTerms] at h
    split at h
    · split at h
      · cases h
      · split at h
        · cases h
        · simp only at h
          split at h
          · cases h
          · split at h
            · exact key _ (fun x hx => by rcases mem_replaceDots _ _ hx with h | h; simp at h; exact Or.inr h) _ h
            · exact key _ (fun x hx => by
                rcases mem_replaceDots _ _ hx with h | h
                · exact Or.inl (mem_lastN h)
                · exact Or.inr h) _ h
    · exact key sub (fun x hx => Or.inr hx) _ h

theorem expandEllipses_chars {s subs : Str} {shapes : List Shape} (h : expandEllipses s shapes = .ok subs) {c : Nat} (hc : c ∈ subs) :
    c ∈ s ∨ (∃ i, c = getSymbol i) ∨ IsPunct c := by
  unfold expandEllipses at h
  simp only at h
  split at h
  · cases h
  · rename_i m _
    set E := genUnusedSymbols (removeArrow (removeChar cComma (removeChar cDot s))) m with hE
    have hEc : ∀ x ∈ E, x ∈ s ∨ (∃ i, x = getSymbol i) ∨ IsPunct x := by
      intro x hx
      obtain ⟨_, i, hi⟩ := genUnused_fresh _ _ x hx
      right; left; exact ⟨i, hi⟩
    suffices main : ∀ (split : List Str) (outSub : Option Str), (∀ t ∈ split, ∀ x ∈ t, x ∈ s) →
        (∀ r, outSub = some r → ∀ x ∈ r, x ∈ s) →
        (expandTerms E shapes (split.zipIdx.map Prod.swap) [] 0 >>= fun x => match outSub with
          | some o => .ok (join [cComma] x.1 ++ [cDash, cGt] ++ replaceDots (if x.2 = 0 then [] else lastN x.2 E) o)
          | none => .ok (join [cComma] x.1 ++ [cDash, cGt] ++ ((if x.2 = 0 then [] else lastN x.2 E) ++
              sortedSet ((findOutputStr (join [cComma] x.1)).filter (fun c => c ∉ if x.2 = 0 then [] else lastN x.2 E))))) =
          Except.ok subs → c ∈ s ∨ (∃ i, c = getSymbol i) ∨ IsPunct c by
      have hone : ∀ t ∈ splitOn cComma s, ∀ x ∈ t, x ∈ s := fun t ht x hx => mem_of_splitOn ht hx
      rcases hsp : splitArrow s with _ | ⟨l, _ | ⟨r, _ | ⟨y, t⟩⟩⟩
      · rw [hsp] at h; exact main _ none hone (by simp) h
      · rw [hsp] at h; exact main _ none hone (by simp) h
      · rw [hsp] at h
        refine main (splitOn cComma l) (some r) ?_ ?_ h
        · intro t ht x hx
          exact mem_splitArrow (p := l) (by rw [hsp]; simp) (mem_of_splitOn ht hx)
        · intro r' hr' x hx
          cases hr'
          exact mem_splitArrow (p := r) (by rw [hsp]; simp) hx
      · rw [hsp] at h; exact main _ none hone (by simp) h
    clear h
    intro split outSub hsplit hout h
    simp only [bind, Except.bind] at h
    split at h
    · cases h
    · rename_i v hv
      obtain ⟨terms, longest⟩ := v
      have hterms : ∀ x, (∃ t ∈ terms, x ∈ t) → x ∈ s ∨ (∃ i, x = getSymbol i) ∨ IsPunct x := by
        intro x hx
        rcases expandTerms_chars hv hx with h1 | ⟨t, ht, _⟩ | ⟨p, hp, hxp⟩
        · exact hEc x h1
        · simp at ht
        · obtain ⟨q, hq, rfl⟩ := List.mem_map.mp hp
          left
          have : q.1 ∈ split := by
            obtain ⟨a, b⟩ := q
            rw [List.mem_zipIdx_iff_getElem?] at hq
            exact List.mem_of_getElem? hq
          exact hsplit _ this x hxp
      have hsubs : ∀ x ∈ join [cComma] terms, x ∈ s ∨ (∃ i, x = getSymbol i) ∨ IsPunct x := by
        intro x hx
        rcases mem_join _ _ _ hx with h1 | h1
        · right; right; simp at h1; simp [IsPunct, h1]
        · exact hterms x h1
      have heo : ∀ x ∈ (if longest = 0 then [] else lastN longest E), x ∈ s ∨ (∃ i, x = getSymbol i) ∨ IsPunct x := by
        intro x hx
        split at hx
        · simp at hx
        · exact hEc x (mem_lastN hx)
      simp only at h
      cases outSub with
      | some o =>
        simp only [Except.ok.injEq] at h
        subst h
        simp only [List.append_assoc, List.mem_append, List.mem_cons, List.not_mem_nil, or_false] at hc
        rcases hc with hc | (hc | hc) | hc
        · exact hsubs c hc
        · right; right; simp [IsPunct, hc]
        · right; right; simp [IsPunct, hc]
        · rcases mem_replaceDots _ _ hc with h1 | h1
          · exact heo c h1
          · left; exact hout o rfl c h1
      | none =>
        simp only [Except.ok.injEq] at h
        subst h
        simp only [List.append_assoc, List.mem_append, List.mem_cons, List.not_mem_nil, or_false] at hc
        rcases hc with hc | (hc | hc) | hc | hc
        · exact hsubs c hc
        · right; right; simp [IsPunct, hc]
        · right; right; simp [IsPunct, hc]
        · exact heo c hc
        · have : c ∈ findOutputStr (join [cComma] terms) := by
            have := (List.mem_filter.mp (List.mem_dedup.mp ((List.perm_insertionSort _ _).mem_iff.mp hc))).1
            exact this
          rw [mem_findOutputStr] at this
          apply hsubs c
          by_contra hn
          have := this.2
          rw [List.count_eq_zero.mpr hn] at this
          omega

theorem getSymbol_ne_space (i : Nat) : getSymbol i ≠ cSpace := by
  unfold getSymbol
  split
  · rename_i h
    have : ∀ x ∈ einsumSymbolsBase, x ≠ 32 := by decide
    have hl : einsumSymbolsBase.length = 52 := by decide
    rw [List.getD_eq_getElem?_getD, List.getElem?_eq_getElem (by omega)]
    exact this _ (List.getElem_mem _)
  · split <;> omega

/-- The terms that the parser returns consist of labels. -/
theorem parse_good {s : Str} {shapes : List Shape} {inp out : Str} (h : parseEinsum s shapes = .ok (inp, out)) :
    ∀ t ∈ splitOn cComma inp, ∀ c ∈ t, GoodLabel c := by
  intro t ht c hc
  have hp := (parse_labels h).2.2.2 t ht c hc
  refine ⟨hp, ?_⟩
  rintro rfl
  have hci : cSpace ∈ inp := mem_of_splitOn ht hc
  unfold parseEinsum at h
  simp only [bind, Except.bind] at h
  split at h
  · cases h
  · obtain ⟨subs, hsubs, h⟩ : ∃ subs, (if cDot ∈ removeChar cSpace s then expandEllipses (removeChar cSpace s) shapes
        else .ok (removeChar cSpace s)) = .ok subs ∧ finishParse subs shapes.length = .ok (inp, out) := by
      split at h
      · rename_i hd
        rw [if_pos hd]
        cases he : expandEllipses (removeChar cSpace s) shapes with
        | error e => rw [he] at h; cases h
        | ok v => rw [he] at h; exact ⟨v, rfl, h⟩
      · rename_i hd
        rw [if_neg hd]
        exact ⟨_, rfl, h⟩
    · have hin : cSpace ∈ subs := by
        unfold finishParse at h
        simp only [bind, Except.bind] at h
        split at h
        · cases h
        · rcases hsp : splitArrow subs with _ | ⟨l, _ | ⟨r, _ | ⟨y, t⟩⟩⟩ <;> rw [hsp] at h <;> simp only at h <;> split at h <;>
            first
            | cases h; done
            | (simp only [Except.ok.injEq, Prod.mk.injEq] at h
               obtain ⟨rfl, _⟩ := h
               first
               | exact hci
               | exact mem_splitArrow (p := l) (by rw [hsp]; simp) hci)
      have hno : cSpace ∉ removeChar cSpace s := by simp [removeChar]
      split at hsubs
      · rcases expandEllipses_chars hsubs hin with h1 | ⟨i, hi⟩ | h1
        · exact hno h1
        · exact getSymbol_ne_space i hi.symm
        · simp [IsPunct] at h1
      · cases hsubs
        exact hno hin

/-- The equation of a step, as `contract_path` builds it. -/
def PlainStep (s : Step) : Prop :=
  ∃ (ins : List Str) (r : Str), s.einsumStr = einsumStrOf ins r ∧ (∀ t ∈ ins, ∀ c ∈ t, GoodLabel c) ∧ (∀ c ∈ r, GoodLabel c) ∧
    ins.length = s.inds.length

theorem pathLoop_plain {ub : Bool} {output : Str} {d : Dict Nat Nat} (hout : ∀ c ∈ output, GoodLabel c) {ps : List (List Nat)}
    {st st' : PathState} {outs : List StepOut} (hst : ∀ t ∈ st.inputs, ∀ c ∈ t, GoodLabel c)
    (h : pathLoop ub output d st ps = .ok (st', outs)) : ∀ o ∈ outs, PlainStep o.step := by
  induction ps generalizing st st' outs with
  | nil =>
    simp only [pathLoop, Except.ok.injEq, Prod.mk.injEq] at h
    obtain ⟨_, rfl⟩ := h
    simp
  | cons p ps ih =>
    rw [pathLoop] at h
    simp only [bind, Except.bind] at h
    split at h
    · cases h
    · rename_i v hv
      obtain ⟨st1, o⟩ := v
      simp only at h
      split at h
      · cases h
      · rename_i v2 hv2
        obtain ⟨st2, os⟩ := v2
        simp only [Except.ok.injEq, Prod.mk.injEq] at h
        obtain ⟨_, rfl⟩ := h
        unfold pathStep at hv
        simp only [bind, Except.bind] at hv
        split at hv
        · cases hv
        · rename_i cc hcc
          split at hv
          · cases hv
          · rename_i pp hpp
            obtain ⟨tmpI, inputs'⟩ := pp
            simp only at hv
            split at hv
            · cases hv
            · split at hv
              · cases hv
              · split at hv
                · cases hv
                · split at hv
                  · cases hv
                  · simp only [Except.ok.injEq, Prod.mk.injEq] at hv
                    obtain ⟨rfl, rfl⟩ := hv
                    have hperm := popAll_perm hpp
                    have htmp : ∀ t ∈ tmpI, ∀ c ∈ t, GoodLabel c :=
                      fun t ht => hst t (hperm.mem_iff.mp (List.mem_append_left _ ht))
                    have hrest : ∀ t ∈ inputs', ∀ c ∈ t, GoodLabel c :=
                      fun t ht => hst t (hperm.mem_iff.mp (List.mem_append_right _ ht))
                    have hres : ∀ c ∈ (if ps.isEmpty = true then output else tensordotOrder tmpI.flatten cc.newResult), GoodLabel c := by
                      intro c hc
                      split at hc
                      · exact hout c hc
                      · rw [mem_tensordotOrder, List.mem_flatten] at hc
                        obtain ⟨⟨t, ht, hct⟩, _⟩ := hc
                        exact htmp t ht c hct
                    intro o ho
                    rcases List.mem_cons.mp ho with rfl | ho
                    · exact ⟨tmpI, _, rfl, htmp, hres, (popAll_length hpp).1⟩
                    · refine ih ?_ hv2 o ho
                      intro t ht
                      simp only [List.mem_append, List.mem_singleton] at ht
                      rcases ht with ht | rfl
                      · exact hrest t ht
                      · exact hres

/-- Every step of a contraction list has a plain equation. -/
theorem contractPath_plain {s : Str} {shapes : List Shape} {inp out : Str} {opt : Optimize} {mem : MemLimit} {ub : Bool} {info : PathInfo}
    (hp : parseEinsum s shapes = .ok (inp, out))
    (h : contractPath (splitOn cComma inp) out shapes opt mem ub = .ok info) : ∀ st ∈ info.contractionList, PlainStep st := by
  have hgood := parse_good hp
  unfold contractPath at h
  simp only [bind, Except.bind] at h
  split at h
  · cases h
  · rename_i d hd
    split at h
    · cases h
    · rename_i sl hsl
      split at h
      · cases h
      · split at h
        · cases h
        · split at h
          · cases h
          · split at h
            · cases h
            · rename_i v hv
              obtain ⟨st', outs⟩ := v
              simp only [Except.ok.injEq] at h
              subst h
              have hout : ∀ c ∈ out, GoodLabel c := by
                intro c hc
                obtain ⟨b, hb⟩ := mapM_ok_mem hsl out (by simp)
                have := computeSize_keys hb c hc
                rcases sizeLoop_keys hd this with h1 | ⟨t, ht, h1⟩
                · simp [Dict.get?] at h1
                · exact hgood t ht c h1
              intro st hst
              obtain ⟨o, ho, rfl⟩ := List.mem_map.mp hst
              exact pathLoop_plain hout hgood hv o ho

end OE
