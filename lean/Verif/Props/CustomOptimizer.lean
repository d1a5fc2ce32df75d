import Verif.Spec.CustomOptimizer
import Verif.Props.RandomUse

/-!
# C98: path optimizers written by the user
-/

namespace OE.Props
open OE OE.Py OE.Spec OE.Parser OE.Helpers OE.Contract OE.Paths OE.Registry
variable {R : Type} [CommSemiring R]

/-! ## The first pair again and again -/

theorem firstPair_complete (n : Nat) : CompletePath (n + 2) (List.replicate (n + 1) [0, 1]) := by
  induction n with
  | zero => exact ⟨⟨by simp, by simp, by simp⟩, rfl⟩
  | succ n ih =>
    rw [List.replicate_succ]
    rw [List.replicate_succ] at ih ⊢
    exact ⟨⟨by simp, by simp, by simp⟩, ih⟩

/-- **C98, the optimizer of the documentation.** `contract` with the optimizer that contracts the first pair again and again returns the
Einstein summation. -/
theorem C98_first_pair (size : Nat → Nat) (eq : Str) (ops : List (Tensor R)) (inp out : Str)
    (hparse : parseEinsum eq (ops.map Tensor.shape) = .ok (inp, out)) (hcomma : cComma ∉ out)
    (hfit : OperandsFit size (splitOn cComma inp) (ops.map Tensor.shape))
    (hlab : (splitOn cComma inp).flatten.toFinset.card ≤ 52) (mem : MemLimit) (hmem : ValidMemory mem) (useBlas : Bool) :
    ∃ T, contract false eq ops (.finder firstPair) mem useBlas = .ok T ∧ IsEinsum size (splitOn cComma inp) out ops T := by
  refine C01_contract size eq ops inp out hparse hcomma hfit hlab _ mem hmem ?_ useBlas
  intro h2 d m _
  obtain ⟨n, hn⟩ : ∃ n, (splitOn cComma inp).length = n + 2 := ⟨_, (Nat.sub_add_cancel (by omega)).symm⟩
  refine ⟨_, rfl, ?_⟩
  rw [List.length_map, hn]
  exact firstPair_complete n

/-- What it reports: for three operands or more the path `[(0, 1), (0, 1), …]`. -/
theorem C98_first_pair_path {inputs : List Str} {output : Str} {shapes : List Shape} {mem : MemLimit} {ub : Bool} {info : PathInfo}
    (h : contractPath inputs output shapes (.finder firstPair) mem ub = .ok info) (hn : 1 < inputs.length) :
    info.path = List.replicate (inputs.length - 1) [0, 1] := by
  obtain ⟨-, -, m, -, hp⟩ := contractPath_chosen_args h
  simp only [choosePath] at hp
  split at hp
  · have : inputs.length = 2 := by omega
    rw [this] at hp ⊢
    exact (Except.ok.inj hp).symm
  · simp only [firstPair, List.length_map] at hp
    exact (Except.ok.inj hp).symm

/-! ## Random orders -/

theorem randomPathLoop_spec (n : Nat) {choose : Path → Finset Nat → Nat × Nat} (hc : TwoOf choose) (k : Nat) :
    ∀ (remaining : Finset Nat) (path : Path), remaining.card = k + 1 → (∀ x ∈ remaining, x < n + path.length) →
      ∃ new, (∀ fuel, k < fuel → randomPathLoop n choose fuel remaining path = some (path ++ new)) ∧ new.length = k ∧ Pairwise2 new ∧
        SsaValid remaining (n + path.length) new := by
  induction k with
  | zero =>
    intro remaining path hcard _
    refine ⟨[], fun fuel hf => ?_, rfl, by simp [Pairwise2], trivial⟩
    obtain ⟨fuel, rfl⟩ : ∃ f, fuel = f + 1 := ⟨fuel - 1, by omega⟩
    rw [randomPathLoop, if_neg (by omega), List.append_nil]
  | succ k ih =>
    intro remaining path hcard hlt
    obtain ⟨h1, h2, h3⟩ := hc path remaining (by omega)
    generalize hcd : choose path remaining = c at h1 h2 h3
    obtain ⟨i, j⟩ := c
    simp only at h1 h2 h3
    have hnew : n + path.length ∉ remaining := fun hm => absurd (hlt _ hm) (by omega)
    have hset : ((insert (n + path.length) remaining).erase i).erase j = insert (n + path.length) (remaining \ [i, j].toFinset) := by
      ext x
      simp only [Finset.mem_erase, Finset.mem_insert, Finset.mem_sdiff, List.mem_toFinset, List.mem_cons, List.not_mem_nil, or_false]
      constructor
      · rintro ⟨a, b, c | c⟩
        · exact Or.inl c
        · exact Or.inr ⟨c, by tauto⟩
      · rintro (c | ⟨c, d⟩)
        · subst c
          exact ⟨fun e => hnew (e ▸ h2), fun e => hnew (e ▸ h1), Or.inl rfl⟩
        · exact ⟨by tauto, by tauto, Or.inr c⟩
    have hcard' : (((insert (n + path.length) remaining).erase i).erase j).card = k + 1 := by
      rw [Finset.card_erase_of_mem (by simp [h2, h3.symm]), Finset.card_erase_of_mem (by simp [h1]), Finset.card_insert_of_notMem hnew]
      omega
    obtain ⟨new, g1, g2, g3, g4⟩ := ih _ (path ++ [[i, j]]) hcard' (by
      intro x hx
      have := Finset.mem_of_mem_erase (Finset.mem_of_mem_erase hx)
      rw [List.length_append, List.length_singleton]
      rcases Finset.mem_insert.mp this with e | e
      · omega
      · have := hlt x e; omega)
    refine ⟨[i, j] :: new, fun fuel hf => ?_, by simp [g2], ?_, ⟨by simp, by simpa using h3, ?_, ?_⟩⟩
    · obtain ⟨fuel, rfl⟩ : ∃ f, fuel = f + 1 := ⟨fuel - 1, by omega⟩
      rw [randomPathLoop, if_pos (by omega)]
      simp only [hcd]
      rw [g1 fuel (by omega), List.append_assoc, List.singleton_append]
    · intro p hp
      rcases List.mem_cons.mp hp with rfl | hp
      · rfl
      · exact g3 p hp
    · intro x hx
      rcases List.mem_cons.mp hx with rfl | hx
      · exact h1
      · rw [List.mem_singleton.mp hx]; exact h2
    · rw [← hset]
      rw [List.length_append, List.length_singleton, ← Nat.add_assoc] at g4
      exact g4

/-- **C98, the random orders of the documentation.** Whatever is drawn, a trial of `MyRandomOptimizer` on two or more inputs returns an SSA
path in pairs that contracts all inputs, with its true figures. -/
theorem C98_random_path {choose : Nat → Path → Finset Nat → Nat × Nat} (hc : ∀ r, TwoOf (choose r)) {inputs : List (Finset Nat)} (h2 : 2 ≤ inputs.length)
    (size : Nat → Nat) (output : Finset Nat) (r : Nat) :
    ∃ t, (∀ fuel, inputs.length ≤ fuel → randomPath choose fuel size inputs output r = .ok t) ∧ SsaComplete inputs.length t.path ∧ Pairwise2 t.path ∧
      ∀ q, ssaToLinear t.path = .ok q → t.cost = searchFlops size output inputs q ∧ t.size = peak size output inputs q := by
  obtain ⟨path, g1, g2, g3, g4⟩ := randomPathLoop_spec inputs.length (hc r) (inputs.length - 1) (Finset.range inputs.length) []
    (by rw [Finset.card_range]; omega) (fun x hx => by simpa using hx)
  have hsum : ∀ (p : Path), Pairwise2 p → (p.map List.length).sum = 2 * p.length := by
    intro p
    induction p with
    | nil => simp
    | cons a p ih =>
      intro h
      rw [List.map_cons, List.sum_cons, ih (fun x hx => h x (List.mem_cons_of_mem _ hx)), h a (by simp), List.length_cons]
      omega
  have hcomp : SsaComplete inputs.length path := ⟨by simpa using g4, by rw [hsum path g3, g2]; omega⟩
  obtain ⟨q, q1, q2, q3, q4⟩ := ssaPathCost_spec (size := size) (out := output) h2 hcomp g3
  refine ⟨{ path, cost := searchFlops size output inputs q, size := (resultSizes size output inputs q).foldl max 0 }, ?_, hcomp, g3, ?_⟩
  · intro fuel hf
    unfold randomPath
    rw [g1 fuel (by omega), List.nil_append]
    simp only [q4]
  · intro q' hq'
    simp only at hq'
    rw [q1] at hq'
    cases hq'
    refine ⟨rfl, ?_⟩
    unfold peak
    generalize resultSizes size output inputs q = l
    have : ∀ (l : List Nat) (a : Nat), l.foldl max a = max a (l.foldr max 0) := by
      intro l
      induction l with
      | nil => simp
      | cons x l ih => intro a; rw [List.foldl_cons, ih, List.foldr_cons, max_assoc]
    show l.foldl max 0 = _
    rw [this, Nat.zero_max]

/-! ## Any subclass of `RandomOptimizer` -/

section
variable {bySize : Bool} {size : Nat → Nat} {ins : List (Finset Nat)} {out : Finset Nat}

/-- Each trial recorded was run in one of the uses. -/
def RanIn (size : Nat → Nat) (ins : List (Finset Nat)) (out : Finset Nat) (uses : List ROUse) (hist : List Trial) : Prop :=
  ∀ t ∈ hist, ∃ u ∈ uses, ∃ r, u.trial size ins out r = .ok t

theorem custom_run {uses : List ROUse} {hist : List Trial} {st : ROSt} (hr : Records bySize hist st) (h : RanIn size ins out uses hist) (u : ROUse) :
    ∃ new, Records bySize (hist ++ new) (u.run bySize size ins out st).2 ∧ RanIn size ins out (uses ++ [u]) (hist ++ new) := by
  obtain ⟨new, g1, g2, -⟩ := C24_call bySize u.maxRepeats u.preDispatch u.late (u.trial size ins out) hist st hr
  refine ⟨new, g1, ?_⟩
  intro t ht
  rcases List.mem_append.mp ht with ht | ht
  · obtain ⟨v, hv, r, hr⟩ := h t ht
    exact ⟨v, List.mem_append_left _ hv, r, hr⟩
  · obtain ⟨r, hr⟩ := callTrials_ok (g2.subset (List.mem_map.mpr ⟨t, ht, rfl⟩))
    exact ⟨u, by simp, r, hr⟩

theorem custom_more {uses : List ROUse} {hist : List Trial} (hr : Records bySize hist (afterROUses bySize size ins out uses))
    (h : RanIn size ins out uses hist) (more : List ROUse) :
    ∃ new, Records bySize (hist ++ new) (afterROUses bySize size ins out (uses ++ more)) ∧ RanIn size ins out (uses ++ more) (hist ++ new) := by
  induction more using List.reverseRecOn with
  | nil => exact ⟨[], by simpa using hr, by simpa using h⟩
  | append_singleton more u ih =>
    obtain ⟨new, h1, h2⟩ := ih
    obtain ⟨new', g1, g2⟩ := custom_run h1 h2 u
    refine ⟨new ++ new', ?_, ?_⟩
    · rw [← List.append_assoc, ← List.append_assoc]
      unfold afterROUses at g1 ⊢
      rw [List.foldl_append]
      exact g1
    · rw [← List.append_assoc, ← List.append_assoc]
      exact g2

theorem custom_uses (uses : List ROUse) : ∃ hist, Records bySize hist (afterROUses bySize size ins out uses) ∧ RanIn size ins out uses hist := by
  obtain ⟨new, h1, h2⟩ := custom_more (bySize := bySize) (size := size) (ins := ins) (out := out) (uses := []) (hist := [])
    ⟨rfl, rfl, fun _ => ⟨rfl, rfl, rfl⟩, fun h => absurd rfl h⟩ (fun t ht => by cases ht) uses
  exact ⟨[] ++ new, h1, h2⟩

theorem custom_best {hist : List Trial} {st : ROSt} {u : ROUse} {path : Path} (hr : Records bySize hist (u.run bySize size ins out st).2)
    (h : (u.run bySize size ins out st).1 = .ok path) :
    ∃ t ∈ hist, ssaToLinear t.path = .ok path ∧ ∀ v ∈ hist, ¬ Beats bySize v t := by
  have key : ∃ p, (u.run bySize size ins out st).2.path = some p ∧ ssaToLinear p = .ok path := by
    unfold ROUse.run roCall at h ⊢
    generalize assessLoop bySize u.late 0 (callTrials u.maxRepeats u.preDispatch (u.trial size ins out) st.costs.length) st = a at h ⊢
    obtain ⟨a, st'⟩ := a
    cases a with
    | error e => cases h
    | ok _ =>
      simp only at h ⊢
      cases hp : st'.path with
      | none => rw [hp] at h; cases h
      | some p => rw [hp] at h; exact ⟨p, rfl, h⟩
  obtain ⟨p, hp, hq⟩ := key
  have hne : hist ≠ [] := by
    intro e
    rw [(hr.none e).1] at hp
    cases hp
  obtain ⟨pre, t, post, e1, e2, -, -, -, e6⟩ := hr.best hne
  rw [hp] at e2
  cases e2
  exact ⟨t, by rw [e1]; simp, hq, e6⟩

end

/-- **C98, any subclass.** An instance of a subclass of `RandomOptimizer`, whose trials return SSA paths that contract all inputs if they
return, is used as `optimize` after any earlier uses for the same operands, with any settings, time-outs, executors and failing trials. If
`max_repeats` is positive, `pre_dispatch` too, and no trial of this use raises, `contract` returns the Einstein summation. -/
theorem C98_any_subclass (size : Nat → Nat) (eq : Str) (ops : List (Tensor R)) (inp out : Str)
    (hparse : parseEinsum eq (ops.map Tensor.shape) = .ok (inp, out)) (hcomma : cComma ∉ out)
    (hfit : OperandsFit size (splitOn cComma inp) (ops.map Tensor.shape))
    (hlab : (splitOn cComma inp).flatten.toFinset.card ≤ 52) (mem : MemLimit) (hmem : ValidMemory mem) (useBlas : Bool)
    {bySize : Bool} {uses : List ROUse} {u : ROUse} (sizes : Nat → Nat)
    (hu : ∀ v ∈ uses ++ [u], CompleteTrials v ((splitOn cComma inp).map List.toFinset) out.toFinset)
    (hm : 0 < u.maxRepeats) (hp : u.preDispatch ≠ some 0)
    (hok : ∀ size r, ∃ t, u.trial size ((splitOn cComma inp).map List.toFinset) out.toFinset r = .ok t) :
    ∃ T, contract false eq ops (.finder (u.finder bySize
        (afterROUses bySize sizes ((splitOn cComma inp).map List.toFinset) out.toFinset uses))) mem useBlas = .ok T ∧
      IsEinsum size (splitOn cComma inp) out ops T := by
  refine C01_contract size eq ops inp out hparse hcomma hfit hlab _ mem hmem ?_ useBlas
  intro h2 d m _
  have hl : ((splitOn cComma inp).map List.toFinset).length = (splitOn cComma inp).length := List.length_map _
  generalize (splitOn cComma inp).map List.toFinset = ins at *
  obtain ⟨hist, a1, a2⟩ := custom_uses (bySize := bySize) (size := sizes) (ins := ins) (out := out.toFinset) uses
  obtain ⟨new, g1, g2, g3⟩ := C24_call bySize u.maxRepeats u.preDispatch u.late (u.trial (labelSize d) ins out.toFinset) hist _ a1
  obtain ⟨-, g4⟩ := g3 (by
    intro t ht
    cases hpre : u.preDispatch with
    | none =>
      rw [hpre] at ht
      obtain ⟨r, -, rfl⟩ := List.mem_map.mp ht
      exact hok _ r
    | some p =>
      rw [hpre] at ht
      have hp0 : 0 < p := Nat.pos_of_ne_zero (fun e => hp (by rw [hpre, e]))
      simp only [callTrials] at ht
      rw [genParallel_eq hp0 _ _ [] (by simp)] at ht
      obtain ⟨r, -, rfl⟩ := List.mem_map.mp ht
      exact hok _ r)
  obtain ⟨pre, t, post, e1, -, -, e4⟩ := g4 (by
    intro e
    obtain ⟨k, hk⟩ : ∃ k, u.maxRepeats = k + 1 := ⟨u.maxRepeats - 1, by omega⟩
    rw [hk] at e
    cases hpre : u.preDispatch with
    | none => rw [hpre] at e; simp [callTrials, List.range'_succ] at e
    | some p =>
      have hp0 : 0 < p := Nat.pos_of_ne_zero (fun e => hp (by rw [hpre, e]))
      rw [hpre] at e
      simp only [callTrials] at e
      rw [genParallel_eq hp0 _ _ [] (by simp), List.range'_succ, submitted, if_pos (by simpa using hp0)] at e
      simp at e)
  have ht : SsaComplete ins.length t.path := by
    have : t ∈ hist ++ new := by rw [e1]; simp
    rcases List.mem_append.mp this with h | h
    · obtain ⟨v, hv, r, hr⟩ := a2 t h
      exact hu v (List.mem_append_left _ hv) _ _ _ hr
    · obtain ⟨r, hr⟩ := callTrials_ok (g2.subset (List.mem_map.mpr ⟨t, h, rfl⟩))
      exact hu u (by simp) _ _ _ hr
  obtain ⟨q, q1, -, q3⟩ := linear_of_ssa ht
  refine ⟨q, ?_, by rw [← hl]; exact q3 (by omega)⟩
  show (roCall _ _ _ _ _ _).1 = _
  rw [e4, q1]

/-- **C98, the best trial.** If moreover the trials return their true figures, what `contract_path` reports with the instance is not beaten by
what it reports for the path of any trial recorded so far, in this use or in earlier ones for the same operands. -/
theorem C98_best_trial {bySize : Bool} {uses : List ROUse} {u : ROUse} {inputs : List Str} {output : Str} {shapes : List Shape} (hn : 2 < inputs.length)
    (hu : ∀ v ∈ uses ++ [u], TrueTrials v (inputs.map List.toFinset) output.toFinset)
    (hlen : inputs.length = shapes.length) {d : Dict Nat Nat} (hd : sizeLoop [] inputs shapes = .ok d)
    {mem : MemLimit} {ub : Bool} {info : PathInfo}
    (h : contractPath inputs output shapes
      (.finder (u.finder bySize (afterROUses bySize (labelSize d) (inputs.map List.toFinset) output.toFinset uses))) mem ub = .ok info) :
    CompletePath inputs.length info.path ∧ Pairwise2 info.path ∧
    ∃ hist, Records bySize hist (afterROUses bySize (labelSize d) (inputs.map List.toFinset) output.toFinset (uses ++ [u])) ∧
      (∃ t ∈ hist, ssaToLinear t.path = .ok info.path) ∧
      ∀ t' ∈ hist, ∀ q mem' ub' info', ssaToLinear t'.path = .ok q → contractPath inputs output shapes (.path q) mem' ub' = .ok info' →
        (NoLoneLabels (inputs.map List.toFinset) output.toFinset →
          ¬ LexLess bySize info'.optCost info'.largestIntermediate info.optCost info.largestIntermediate) ∧
        (bySize = true → info.largestIntermediate ≤ info'.largestIntermediate) := by
  have hl : (inputs.map List.toFinset).length = inputs.length := List.length_map _
  obtain ⟨hd1, -, m, -, hp⟩ := contractPath_chosen_args h
  have e1 : info.sizeDict = d := by rw [hd] at hd1; exact (Except.ok.inj hd1).symm
  simp only [choosePath, if_neg (not_le.mpr hn), ROUse.finder] at hp
  rw [e1] at hp
  obtain ⟨hist0, a1, a2⟩ := custom_uses (bySize := bySize) (size := labelSize d) (ins := inputs.map List.toFinset) (out := output.toFinset) uses
  obtain ⟨new, b1, b2⟩ := custom_run a1 a2 u
  generalize hist0 ++ new = hist at b1 b2
  have key : ∀ t ∈ hist, ∀ q, ssaToLinear t.path = .ok q → CompletePath inputs.length q ∧ Pairwise2 q ∧
      t.cost = searchFlops (labelSize d) output.toFinset (inputs.map List.toFinset) q ∧
      t.size = peak (labelSize d) output.toFinset (inputs.map List.toFinset) q := by
    intro t ht q hq
    obtain ⟨v, hv, r, hr⟩ := b2 t ht
    obtain ⟨c1, c2, c3⟩ := hu v hv _ _ _ hr
    obtain ⟨q', q1, q2, q3, -⟩ := ssaPathCost_spec (size := labelSize d) (out := output.toFinset) (by omega) c1 c2
    rw [hq] at q1
    cases q1
    rw [hl] at q2
    exact ⟨q2, q3, c3 q hq⟩
  obtain ⟨t, ht, hq, hbest⟩ := custom_best b1 hp
  obtain ⟨k1, k2, k3, k4⟩ := key t ht _ hq
  refine ⟨k1, k2, hist, ?_, ⟨t, ht, hq⟩, ?_⟩
  · unfold afterROUses
    rw [List.foldl_append]
    exact b1
  · intro t' ht' q mem' ub' info' hq' h'
    obtain ⟨j1, -, j3, j4⟩ := key t' ht' q hq'
    obtain ⟨-, -, m', -, hp'⟩ := contractPath_chosen_args h'
    have e2 : info'.path = q := (Except.ok.inj hp').symm
    rw [← e2] at j1 j3 j4
    rw [← e1] at k3 k4 j3 j4
    exact beats_reported hlen h h' k1 j1 ⟨k3, k4⟩ ⟨j3, j4⟩ (hbest t' ht')

/-- **C98, never getting worse.** The figures reported with the instance after any further uses for the same operands are not beaten by those
reported before. -/
theorem C98_never_gets_worse {bySize : Bool} {uses more : List ROUse} {u u' : ROUse} {inputs : List Str} {output : Str} {shapes : List Shape}
    (hn : 2 < inputs.length) (hu : ∀ v ∈ uses ++ [u] ++ more ++ [u'], TrueTrials v (inputs.map List.toFinset) output.toFinset)
    (hlen : inputs.length = shapes.length) {d : Dict Nat Nat} (hd : sizeLoop [] inputs shapes = .ok d)
    {mem mem' : MemLimit} {ub ub' : Bool} {info info' : PathInfo}
    (h' : contractPath inputs output shapes
      (.finder (u.finder bySize (afterROUses bySize (labelSize d) (inputs.map List.toFinset) output.toFinset uses))) mem' ub' = .ok info')
    (h : contractPath inputs output shapes (.finder (u'.finder bySize
      (afterROUses bySize (labelSize d) (inputs.map List.toFinset) output.toFinset (uses ++ [u] ++ more)))) mem ub = .ok info) :
    (NoLoneLabels (inputs.map List.toFinset) output.toFinset →
      ¬ LexLess bySize info'.optCost info'.largestIntermediate info.optCost info.largestIntermediate) ∧
    (bySize = true → info.largestIntermediate ≤ info'.largestIntermediate) := by
  have hl : (inputs.map List.toFinset).length = inputs.length := List.length_map _
  obtain ⟨hd1, -, m, -, hp⟩ := contractPath_chosen_args h
  obtain ⟨hd2, -, m', -, hp'⟩ := contractPath_chosen_args h'
  have e1 : info.sizeDict = d := by rw [hd] at hd1; exact (Except.ok.inj hd1).symm
  have e2 : info'.sizeDict = d := by rw [hd] at hd2; exact (Except.ok.inj hd2).symm
  simp only [choosePath, if_neg (not_le.mpr hn), ROUse.finder] at hp hp'
  rw [e1] at hp
  rw [e2] at hp'
  obtain ⟨hist0, a1, a2⟩ := custom_uses (bySize := bySize) (size := labelSize d) (ins := inputs.map List.toFinset) (out := output.toFinset) uses
  obtain ⟨new, b1, b2⟩ := custom_run a1 a2 u
  obtain ⟨t', ht', hq', -⟩ := custom_best b1 hp'
  have b1' : Records bySize (hist0 ++ new) (afterROUses bySize (labelSize d) (inputs.map List.toFinset) output.toFinset (uses ++ [u])) := by
    unfold afterROUses at b1 ⊢
    rw [List.foldl_append]
    exact b1
  obtain ⟨new2, c1, c2⟩ := custom_more b1' b2 more
  obtain ⟨new3, d1, d2⟩ := custom_run c1 c2 u'
  obtain ⟨t, ht, hq, hbest⟩ := custom_best d1 hp
  have ht2 : t' ∈ hist0 ++ new ++ new2 ++ new3 := List.mem_append_left _ (List.mem_append_left _ ht')
  have key : ∀ t ∈ hist0 ++ new ++ new2 ++ new3, ∀ q, ssaToLinear t.path = .ok q → CompletePath inputs.length q ∧
      t.cost = searchFlops (labelSize d) output.toFinset (inputs.map List.toFinset) q ∧
      t.size = peak (labelSize d) output.toFinset (inputs.map List.toFinset) q := by
    intro t ht q hq
    obtain ⟨v, hv, r, hr⟩ := d2 t ht
    obtain ⟨c1, c2, c3⟩ := hu v hv _ _ _ hr
    obtain ⟨q', q1, q2, -⟩ := ssaPathCost_spec (size := labelSize d) (out := output.toFinset) (by omega) c1 c2
    rw [hq] at q1
    cases q1
    rw [hl] at q2
    exact ⟨q2, c3 q hq⟩
  obtain ⟨k1, k3⟩ := key t ht _ hq
  obtain ⟨j1, j3⟩ := key t' ht2 _ hq'
  rw [← e1] at k3 j3
  exact beats_reported hlen h h' k1 j1 k3 j3 (hbest t' ht2)

/-! ## Examples -/

/-- The elements in ascending order. -/
def upwards (s : Finset Nat) : List Nat := (List.range (s.sup id + 1)).filter (· ∈ s)

theorem upwards_nodup (s : Finset Nat) : (upwards s).Nodup := List.nodup_range.filter _

theorem mem_upwards {s : Finset Nat} {x : Nat} : x ∈ upwards s ↔ x ∈ s := by
  unfold upwards
  rw [List.mem_filter, List.mem_range, decide_eq_true_eq]
  exact ⟨fun h => h.2, fun h => ⟨Nat.lt_succ_of_le (Finset.le_sup (f := id) h), h⟩⟩

theorem length_upwards (s : Finset Nat) : (upwards s).length = s.card := by
  rw [← List.toFinset_card_of_nodup (upwards_nodup s)]
  congr 1
  ext x
  rw [List.mem_toFinset, mem_upwards]

/-- Draws that depend on the number of the trial: the first of the remaining ids and another one. -/
def exampleChoose (r : Nat) : Path → Finset Nat → Nat × Nat := fun _ remaining =>
  ((upwards remaining).getD 0 0, (upwards remaining).getD (1 + r % ((upwards remaining).length - 1)) 0)

/-- A use of the random optimizer of the documentation. -/
def exampleRandom (repeats : Nat) : ROUse :=
  { maxRepeats := repeats, preDispatch := none, late := fun _ => false, trial := fun size ins out r => randomPath exampleChoose 10 size ins out r }

theorem exampleChoose_two (r : Nat) : TwoOf (exampleChoose r) := by
  intro path remaining hcard
  unfold exampleChoose
  have hlen := length_upwards remaining
  have hmod : r % ((upwards remaining).length - 1) < (upwards remaining).length - 1 := Nat.mod_lt _ (by omega)
  have h0 : 0 < (upwards remaining).length := by omega
  have h1 : 1 + r % ((upwards remaining).length - 1) < (upwards remaining).length := by omega
  simp only
  rw [List.getD_eq_getElem _ _ h0, List.getD_eq_getElem _ _ h1]
  refine ⟨mem_upwards.mp (List.getElem_mem h0), mem_upwards.mp (List.getElem_mem h1), ?_⟩
  intro e
  have := (List.Nodup.getElem_inj_iff (upwards_nodup remaining)).mp e
  omega

/-- The random optimizer of the documentation meets the conditions for up to ten operands. -/
theorem exampleRandom_true (repeats : Nat) (ins : List (Finset Nat)) (out : Finset Nat) (h2 : 2 ≤ ins.length) (h10 : ins.length ≤ 10) :
    TrueTrials (exampleRandom repeats) ins out := by
  intro size r t h
  obtain ⟨t', e1, e2⟩ := C98_random_path exampleChoose_two h2 size out r
  have : t = t' := by
    have := e1 10 h10
    rw [show randomPath exampleChoose 10 size ins out r = .ok t from h] at this
    exact Except.ok.inj this
  rw [this]
  exact e2

-- 'ab,bc,cd->ad' with sizes 2, 3, 3, 1: the first trial draws (0, 1), the second one (0, 2), which is worse
example : (exampleUse (.finder ((exampleRandom 1).finder false ROSt.fresh)) 1).map (fun i => (i.path, i.optCost)) = .ok ([[0, 1], [0, 1]], 48) := by
  decide +kernel
example : ((exampleRandom 2).run false (fun c => if c = 0 then 2 else if c = 3 then 1 else 3) [{0, 1}, {1, 2}, {2, 3}] {0, 3} ROSt.fresh).2.costs = [48, 54] := by
  decide +kernel
example : (exampleUse (.finder ((exampleRandom 2).finder false ROSt.fresh)) 1).map (fun i => (i.path, i.optCost)) = .ok ([[0, 1], [0, 1]], 48) := by
  decide +kernel
example : (exampleUse (.finder firstPair) 1).map (fun i => (i.path, i.optCost)) = .ok ([[0, 1], [0, 1]], 48) := by decide +kernel

end OE.Props
