import Verif.Lemmas.Sharing

/-! Simulation: `_core_contract` under sharing computes what it computes without. -/

namespace OE.Share
open OE OE.Py OE.Parser OE.Contract OE.Spec OE.Props
variable {R : Type} [CommSemiring R]

theorem plainTerms_of_good {ins : List Str} {r : Str} (h1 : ∀ t ∈ ins, ∀ c ∈ t, GoodLabel c) (h2 : ∀ c ∈ r, GoodLabel c) :
    PlainTerms ins r := ⟨fun t ht c hc => (h1 t ht c hc).1, fun c hc => (h2 c hc).1⟩

theorem good_str {ins : List Str} {r : Str} (h1 : ∀ t ∈ ins, ∀ c ∈ t, GoodLabel c) (h2 : ∀ c ∈ r, GoodLabel c) :
    cDot ∉ einsumStrOf ins r ∧ (einsumStrOf ins r).filter (· ≠ cSpace) = einsumStrOf ins r := by
  have hm : ∀ c ∈ einsumStrOf ins r, (c = cComma ∨ c = cDash ∨ c = cGt) ∨ GoodLabel c := by
    intro c hc
    simp only [einsumStrOf, List.append_assoc, List.mem_append, List.mem_cons, List.not_mem_nil, or_false] at hc
    rcases hc with hc | (hc | hc) | hc
    · rcases mem_join _ _ _ hc with h | ⟨t, ht, hc⟩
      · left; simp at h; simp [h]
      · right; exact h1 t ht c hc
    · left; simp [hc]
    · left; simp [hc]
    · right; exact h2 c hc
  constructor
  · intro hc
    rcases hm _ hc with h | h
    · omega
    · exact h.1 (by simp [IsPunct])
  · rw [List.filter_eq_self]
    intro c hc
    simp only [decide_eq_true_eq]
    rcases hm c hc with h | h
    · omega
    · exact h.2

theorem eqOk_plain {ins : List Str} {r : Str} (h1 : ∀ t ∈ ins, ∀ c ∈ t, GoodLabel c) (h2 : ∀ c ∈ r, GoodLabel c) (noE : Bool)
    (ops : List (Tensor R)) : EqOk noE (einsumStrOf ins r) ops := by
  obtain ⟨ins', hne, he, h1'⟩ : ∃ ins' : List Str, ins' ≠ [] ∧ einsumStrOf ins r = einsumStrOf ins' r ∧ ∀ t ∈ ins', ∀ c ∈ t, GoodLabel c := by
    cases ins with
    | nil => exact ⟨[[]], by simp, rfl, by simp⟩
    | cons a t => exact ⟨a :: t, by simp, rfl, h1⟩
  rw [he]
  clear h1 he
  have hpl := plainTerms_of_good h1' h2
  obtain ⟨hdot, hsp⟩ := good_str h1' h2
  have harrow : S "->" = [cDash, cGt] := by decide
  have hsplit : splitOn cComma (join [cComma] ins') = ins' :=
    splitOn_join _ _ hne (fun t ht hc => hpl.1 t ht _ hc (by simp [IsPunct]))
  have hjd : cDash ∉ join [cComma] ins' := by
    intro hm
    rcases mem_join _ _ _ hm with h | ⟨t, ht, hc⟩
    · simp at h
    · exact hpl.1 t ht _ hc (by simp [IsPunct])
  have hjg : cGt ∉ join [cComma] ins' := by
    intro hm
    rcases mem_join _ _ _ hm with h | ⟨t, ht, hc⟩
    · simp at h
    · exact hpl.1 t ht _ hc (by simp [IsPunct])
  cases hp : parseEinsum (einsumStrOf ins' r) (ops.map Tensor.shape) with
  | ok v =>
    obtain ⟨inp, out⟩ := v
    left
    have hw := (C34_parse_einsum_input_iff _ _ hdot inp out).mp hp
    rw [hsp] at hw
    generalize hE : einsumStrOf ins' r = E at hw
    cases hw with
    | explicit _ _ hi hi' ho ho' nodup sub hn =>
      have e1 : splitArrow (inp ++ S "->" ++ out) = [inp, out] := by rw [harrow]; exact splitArrow_two _ _ hi ho'
      have e2 : splitArrow (einsumStrOf ins' r) = [join [cComma] ins', r] :=
        splitArrow_two _ _ hjd (fun hm => hpl.2 _ hm (by simp [IsPunct]))
      rw [← hE, e2] at e1
      simp only [List.cons.injEq, and_true] at e1
      obtain ⟨rfl, rfl⟩ := e1
      refine ⟨_, _, hp, ?_, ?_⟩
      · rw [hsplit]; exact hpl
      · rw [hsplit, ← hE]
    | implicit _ _ hi hi' inc once hn =>
      exfalso
      apply hi
      rw [← hE]
      simp [einsumStrOf]
  | error e =>
    right
    refine ⟨⟨e, hp⟩, ?_⟩
    cases noE with
    | true => exact ⟨_, rfl⟩
    | false =>
      rw [einsumCall_eq hne hpl]
      split
      · by_cases hlen : ins'.length = ops.length
        · by_cases hok : EinsumOk (ins'.zip ops) r
          · exfalso
            have hw : WellFormed (ops.map Tensor.shape).length (einsumStrOf ins' r) (join [cComma] ins') r := by
              have := WellFormed.explicit (n := (ops.map Tensor.shape).length) (join [cComma] ins') r hjd hjg
                (fun hm => hpl.2 _ hm (by simp [IsPunct])) (fun hm => hpl.2 _ hm (by simp [IsPunct])) hok.2.1
                (by
                  intro c hc
                  obtain ⟨p, hp, hcp⟩ := hok.2.2 c hc
                  exact mem_join_of_mem _ _ _ p.1 (List.of_mem_zip hp).1 hcp)
                (by rw [← splitOn_length, hsplit]; simpa using hlen)
              rw [harrow] at this
              exact this
            rw [← hsp] at hw
            rw [(C34_parse_einsum_input_iff _ _ hdot _ _).mpr hw] at hp
            cases hp
          · have := einsumCore_fails hok
            rw [List.map_fst_zip (by omega), List.map_snd_zip (by omega)] at this
            exact ⟨_, this⟩
        · refine ⟨.value, ?_⟩
          unfold einsumCore
          simp [hlen]
      · exact ⟨_, rfl⟩

theorem eqOk_simple {eq : Str} {ops : List (Tensor R)} (h : SimpleEquation eq (ops.map Tensor.shape)) (noE : Bool) : EqOk noE eq ops := by
  obtain ⟨hread, inp, out, hparse, hcomma, hlab52⟩ := h
  left
  have hlab := parse_labels hparse
  have hout : ∀ c ∈ out, ¬ IsPunct c := by
    intro c hc
    have hm := hlab.2.2.1 c hc
    rw [← join_splitOn cComma inp] at hm
    rcases mem_join _ _ _ hm with h | ⟨t, ht, h⟩
    · rw [List.mem_singleton] at h
      exact absurd (h ▸ hc) hcomma
    · exact hlab.2.2.2 t ht c h
  refine ⟨inp, out, hparse, ⟨hlab.2.2.2, hout⟩, ?_⟩
  cases noE with
  | true => rfl
  | false => exact einsumCall_direct hread hparse hcomma hlab52

theorem blasStep_ok {E : Env R} (hE : FreshIds E) (L : List Nat) (b : Str) (step : Step) (tmp : List Nat) {w : World R} (hI : Inv E w) :
    CallOk E (L ++ tmp) (blasStep E L b step tmp) w (Contract.blasStep step (tmp.map w.heap)) := by
  unfold CallOk blasStep Contract.blasStep
  rcases hsp : splitArrow step.einsumStr with _ | ⟨inp, _ | ⟨ri, _ | ⟨z, zs⟩⟩⟩
  · exact ⟨_, _, rfl, hI, Ext.refl _ _, trivial⟩
  · exact ⟨_, _, rfl, hI, Ext.refl _ _, trivial⟩
  swap
  · exact ⟨_, _, rfl, hI, Ext.refl _ _, trivial⟩
  simp only
  rcases hsc : splitOn cComma inp with _ | ⟨left, _ | ⟨right, _ | ⟨z, zs⟩⟩⟩
  · exact ⟨_, _, rfl, hI, Ext.refl _ _, trivial⟩
  · exact ⟨_, _, rfl, hI, Ext.refl _ _, trivial⟩
  swap
  · exact ⟨_, _, rfl, hI, Ext.refl _ _, trivial⟩
  simp only
  rcases tmp with _ | ⟨x, _ | ⟨y, _ | ⟨z, zs⟩⟩⟩
  · exact ⟨_, _, rfl, hI, Ext.refl _ _, trivial⟩
  · exact ⟨_, _, rfl, hI, Ext.refl _ _, trivial⟩
  swap
  · exact ⟨_, _, rfl, hI, Ext.refl _ _, trivial⟩
  simp only [List.map_cons, List.map_nil, bind, Except.bind]
  obtain ⟨o, w1, h1, h2, h3, h4⟩ := tensordot_ok hE (L ++ [x, y]) b x y (blasAxes left right step.removed) hI
  unfold M.andThen
  rw [h1]
  cases hd : npTensordot (w.heap x) (w.heap y) (blasAxes left right step.removed).1 (blasAxes left right step.removed).2 with
  | error e =>
    rw [hd] at h4
    cases o with
    | error e' => exact ⟨_, _, rfl, h2, h3, trivial⟩
    | ok a => exact absurd h4 (by simp [Out, Agrees])
  | ok V =>
    rw [hd] at h4
    cases o with
    | error e' => exact absurd h4 (by simp [Out, Agrees])
    | ok view =>
      have hV : w1.heap view = V := h4
      simp only
      by_cases hq : List.filter (fun c => decide (c ∉ step.removed)) (left ++ right) ≠ ri
      · rw [if_pos hq, if_pos hq]
        cases htr : transposeAxes (List.filter (fun c => decide (c ∉ step.removed)) (left ++ right)) ri with
        | error e => exact ⟨_, _, rfl, h2, h3, trivial⟩
        | ok perm =>
          simp only
          obtain ⟨o', w2, g1, g2, g3, g4⟩ := transpose_ok hE (L ++ [x, y] ++ [view]) b view perm h2
          rw [hV] at g4
          exact ⟨o', w2, g1, g2, h3.trans (g3.weaken (by intro i hi; exact List.mem_append_left _ hi)), g4⟩
      · rw [if_neg hq, if_neg hq]
        exact ⟨_, _, rfl, h2, h3, hV⟩

theorem stepResult_ok {E : Env R} (hE : FreshIds E) (L : List Nat) (b : Str) (step : Step) (hstep : PlainStep step) (tmp : List Nat)
    {w : World R} (hI : Inv E w) :
    CallOk E (L ++ tmp) (stepResult E L b step tmp) w (Contract.stepResult (E.noEinsum b) step (tmp.map w.heap)) := by
  unfold stepResult Contract.stepResult
  split
  · exact blasStep_ok hE L b step tmp hI
  · obtain ⟨ins, r, he, h1, h2, _⟩ := hstep
    rw [he]
    exact einsum_ok hE (L ++ tmp) b _ tmp hI (eqOk_plain h1 h2 _ _)

/-- The outcome of the loop: the expected contents, or an exception where one is expected. -/
def OutList (o : Except PyErr (List Nat)) (w' : World R) (r : Except PyErr (List (Tensor R))) : Prop :=
  match o, r with
  | .ok l, .ok Ts => l.map w'.heap = Ts
  | .error _, .error _ => True
  | _, _ => False

theorem coreLoop_ok {E : Env R} (hE : FreshIds E) (args : List Nat) (b : Str) (steps : List Step) (hs : ∀ s ∈ steps, PlainStep s)
    (ops : List Nat) {w : World R} (hI : Inv E w) :
    ∃ o w', coreLoop E args b steps ops w = (o, w') ∧ Inv E w' ∧ Ext args w w' ∧
      OutList o w' (Contract.coreLoop (E.noEinsum b) steps (ops.map w.heap)) := by
  induction steps generalizing ops w with
  | nil => exact ⟨_, _, rfl, hI, Ext.refl _ _, rfl⟩
  | cons s ss ih =>
    unfold coreLoop Contract.coreLoop
    rw [popAll_map]
    cases hp : popAll s.inds ops with
    | error e => exact ⟨_, _, rfl, hI, Ext.refl _ _, trivial⟩
    | ok v =>
      obtain ⟨tmp, rest⟩ := v
      simp only [bind, Except.bind]
      obtain ⟨o, w1, h1, h2, h3, h4⟩ := stepResult_ok hE (args ++ rest) b s (hs s (by simp)) tmp hI
      unfold M.andThen
      rw [h1]
      cases hd : Contract.stepResult (E.noEinsum b) s (tmp.map w.heap) with
      | error e =>
        rw [hd] at h4
        cases o with
        | error e' =>
          refine ⟨_, _, rfl, h2, h3.weaken ?_, ?_⟩
          · intro i hi; simp [hi]
          · simp [Except.map, hd, OutList]
        | ok a => exact absurd h4 (by simp [Out, Agrees])
      | ok V =>
        rw [hd] at h4
        cases o with
        | error e' => exact absurd h4 (by simp [Out, Agrees])
        | ok view =>
          have hV : w1.heap view = V := h4
          simp only
          obtain ⟨o', w2, g1, g2, g3, g4⟩ := ih (fun s hs' => hs s (by simp [hs'])) (rest ++ [view]) h2
          refine ⟨o', w2, g1, g2, (h3.weaken (by intro i hi; simp [hi])).trans g3, ?_⟩
          have hr : (rest ++ [view]).map w1.heap = rest.map w.heap ++ [V] := by
            rw [List.map_append]
            congr 1
            · apply List.map_congr_left
              intro i hi
              exact h3.heap i (Or.inl (by simp [hi]))
            · simp [hV]
          rw [hr] at g4
          simpa [Except.map, hd] using g4

theorem coreContract_ok {E : Env R} (hE : FreshIds E) (b : Str) (steps : List Step) (hs : ∀ s ∈ steps, PlainStep s)
    (ops : List Nat) {w : World R} (hI : Inv E w) :
    CallOk E ops (coreContract E b steps ops) w (Contract.coreContract (E.noEinsum b) steps (ops.map w.heap)) := by
  unfold CallOk coreContract Contract.coreContract
  obtain ⟨o, w', h1, h2, h3, h4⟩ := coreLoop_ok hE ops b steps hs ops hI
  unfold M.andThen
  rw [h1]
  simp only [bind, Except.bind]
  cases hd : Contract.coreLoop (E.noEinsum b) steps (ops.map w.heap) with
  | error e =>
    rw [hd] at h4
    cases o with
    | error e' => exact ⟨_, _, rfl, h2, h3, trivial⟩
    | ok a => exact absurd h4 (by simp [OutList])
  | ok Ts =>
    rw [hd] at h4
    cases o with
    | error e' => exact absurd h4 (by simp [OutList])
    | ok l =>
      have hl : l.map w'.heap = Ts := h4
      subst hl
      cases l with
      | nil => exact ⟨_, _, rfl, h2, h3, trivial⟩
      | cons a t => exact ⟨_, _, rfl, h2, h3, rfl⟩

theorem contract_ok {E : Env R} (hE : FreshIds E) (b : Str) (s : Str) (ids : List Nat) (opt : Optimize) (hopt : opt ≠ .off) (mem : MemLimit)
    (ub : Bool) {w : World R} (hI : Inv E w) :
    CallOk E ids (contract E b s ids opt mem ub) w (Contract.contract (E.noEinsum b) s (ids.map w.heap) opt mem ub) := by
  have hsh : (ids.map w.heap).map Tensor.shape = ids.map (fun i => (w.heap i).shape) := by rw [List.map_map]; rfl
  have key : CallOk E ids (fun w => match parseEinsum s (ids.map (fun i => (w.heap i).shape)) with
      | .error e => (.error e, w)
      | .ok (inp, out) =>
        match contractPath (splitOn cComma inp) out (ids.map (fun i => (w.heap i).shape)) opt mem ub with
        | .error e => (.error e, w)
        | .ok info => coreContract E b info.contractionList ids w) w (do
      let (inp, out) ← parseEinsum s ((ids.map w.heap).map Tensor.shape)
      let info ← contractPath (splitOn cComma inp) out ((ids.map w.heap).map Tensor.shape) opt mem ub
      Contract.coreContract (E.noEinsum b) info.contractionList (ids.map w.heap)) := by
    unfold CallOk
    simp only [bind, Except.bind, hsh]
    cases hp : parseEinsum s (ids.map (fun i => (w.heap i).shape)) with
    | error e => exact ⟨_, _, rfl, hI, Ext.refl _ _, trivial⟩
    | ok v =>
      obtain ⟨inp, out⟩ := v
      simp only
      cases hc : contractPath (splitOn cComma inp) out (ids.map (fun i => (w.heap i).shape)) opt mem ub with
      | error e => exact ⟨_, _, rfl, hI, Ext.refl _ _, trivial⟩
      | ok info =>
        simp only
        exact coreContract_ok hE b _ (contractPath_plain hp hc) ids hI
  cases opt with
  | off => exact absurd rfl hopt
  | path p => exact key
  | finder f => exact key

end OE.Share
