import Verif.Model.Registry
import Verif.Props.Contract2
import Verif.Props.Auto
import Verif.Props.Subgraphs

/-!
# C54, C55: `contract` with the built-in path finders; the registry of path finders
-/

namespace OE.Props
open OE OE.Py OE.Spec OE.Parser OE.Helpers OE.Blas OE.Contract OE.Paths OE.Registry
variable {R : Type} [CommSemiring R]

/-! ## Every finder answers with a complete path -/

/-- The finders that run `dynamic_programming` (`auto_hq` does for 6 to 16 inputs). -/
def UsesDp (b : Builtin) : Prop := b = .dynamicProgramming ∨ b = .autoHq

/-- The choices that a process makes are possible ones. -/
structure EnvOK (e : Env) : Prop where
  orders : OrdersOK e.orders
  pick : ∀ r, PickOK (e.pick r)

theorem builtin_complete {e : Env} (he : EnvOK e) (b : Builtin) {inputs : List (Finset Nat)} (h2 : 2 < inputs.length) (output : Finset Nat)
    (d : Dict Nat Nat) (m : Option Nat) (hpos : UsesDp b → ∀ c, 0 < labelSize d c) :
    ∃ F, ∀ fuel, F ≤ fuel →
      (∃ p, b.fn { e with fuel } inputs output d m = .ok p ∧ CompletePath inputs.length p) ∨
      (b.fn { e with fuel } inputs output d m = .error .runtime ∧ UsesDp b ∧ m ≠ none) := by
  have hne : inputs ≠ [] := by intro e; rw [e] at h2; simp at h2
  have hbr : ∀ nb, nb ≠ some 0 → ∀ fuel, inputs.length ≤ fuel → ∃ path,
      branchN nb e.orders fuel (labelSize d) m inputs output = some (.ok path) ∧ CompletePath inputs.length path := by
    intro nb hnb fuel hf
    obtain ⟨path, h1, -, h3⟩ := C15_branch_function { nbranch := nb, cutoff := 4, bySize := false, cost := costMemoryRemoved } hnb (labelSize d) output m
      he.orders.1 hne hf
    exact ⟨path, h1, h3 (by omega)⟩
  cases b with
  | auto =>
    obtain ⟨F, hF⟩ := C50_auto he.orders (labelSize d) m hne output
    refine ⟨F, fun fuel hf => Or.inl ?_⟩
    obtain ⟨p, h1, h3⟩ := hF fuel hf
    exact ⟨p, by simp only [Builtin.fn, asPathFn, h1, Option.getD_some], h3 (by omega)⟩
  | autoHq =>
    obtain ⟨h1, h3, h4⟩ := C50_auto_hq_partial he.orders e.cost he.pick (labelSize d) m hne output
    cases m with
    | none =>
      obtain ⟨F, hF⟩ := h1 (Or.inl ⟨rfl, hpos (Or.inr rfl)⟩)
      refine ⟨F, fun fuel hf => Or.inl ?_⟩
      obtain ⟨p, g1, g3⟩ := hF fuel hf
      exact ⟨p, by simp only [Builtin.fn, asPathFn, g1, Option.getD_some], g3 (by omega)⟩
    | some m =>
      obtain ⟨F, hF⟩ := h3
      obtain ⟨F', hF'⟩ := h4 (hpos (Or.inr rfl))
      refine ⟨max F F', fun fuel hf => ?_⟩
      rcases hF' fuel (by omega) with ⟨p, hp⟩ | hp
      · exact Or.inl ⟨p, by simp only [Builtin.fn, asPathFn, hp, Option.getD_some], hF fuel (by omega) p hp (by omega)⟩
      · exact Or.inr ⟨by simp only [Builtin.fn, asPathFn, hp, Option.getD_some], Or.inr rfl, by simp⟩
  | optimal =>
    refine ⟨inputs.length, fun fuel hf => Or.inl ?_⟩
    obtain ⟨p, h1, -, h3⟩ := C14_optimal_complete (labelSize d) output m he.orders.1 hne hf
    exact ⟨p, by simp only [Builtin.fn, asPathFn, h1, Option.getD_some], h3 (by omega)⟩
  | branchAll =>
    refine ⟨inputs.length, fun fuel hf => Or.inl ?_⟩
    obtain ⟨p, h1, h3⟩ := hbr none (by simp) fuel hf
    exact ⟨p, by simp only [Builtin.fn, asPathFn, h1, Option.getD_some], h3⟩
  | branch2 =>
    refine ⟨inputs.length, fun fuel hf => Or.inl ?_⟩
    obtain ⟨p, h1, h3⟩ := hbr (some 2) (by simp) fuel hf
    exact ⟨p, by simp only [Builtin.fn, asPathFn, h1, Option.getD_some], h3⟩
  | branch1 =>
    refine ⟨inputs.length, fun fuel hf => Or.inl ?_⟩
    obtain ⟨p, h1, h3⟩ := hbr (some 1) (by simp) fuel hf
    exact ⟨p, by simp only [Builtin.fn, asPathFn, h1, Option.getD_some], h3⟩
  | greedy =>
    obtain ⟨F, hF⟩ := C16_greedy_complete (labelSize d) m costMemoryRemoved (chooser := none) (fun c hc => by cases hc) he.orders.2.1 he.orders.1 hne output
    refine ⟨F, fun fuel hf => Or.inl ?_⟩
    obtain ⟨p, h1, h3⟩ := hF fuel hf
    exact ⟨p, by simp only [Builtin.fn, asPathFn, h1, Option.getD_some], h3 (by omega)⟩
  | dynamicProgramming =>
    have hP : Positive ⟨.flops, .increase, false⟩ (labelSize d) := ⟨hpos (Or.inl rfl), fun n h => by cases h⟩
    have hfin : ∀ {path}, Complete1 inputs.length path → CompletePath inputs.length path := fun h => h.resolve_right (by omega)
    cases m with
    | none =>
      obtain ⟨F, hF⟩ := (C17_dp_complete_partial he.orders.2.2 ⟨.flops, .increase, false⟩ (labelSize d) inputs hne output).1 hP
      refine ⟨F, fun fuel hf => Or.inl ?_⟩
      obtain ⟨p, h1, h3⟩ := hF fuel hf
      exact ⟨p, by simp only [Builtin.fn, asPathFn, h1, Option.getD_some], hfin h3⟩
    | some m =>
      obtain ⟨F, hF⟩ := (C22_dp_memory_partial he.orders.2.2 ⟨.flops, .increase, false⟩ (labelSize d) (some m) inputs hne output).2 (Or.inl rfl) hP
      refine ⟨F, fun fuel hf => ?_⟩
      rcases hF fuel hf with ⟨p, hp⟩ | ⟨hp, -⟩
      · exact Or.inl ⟨p, by simp only [Builtin.fn, asPathFn, hp, Option.getD_some], hfin ((C17_dp_complete_partial he.orders.2.2 _ (labelSize d) inputs hne output).2 _ _ _ hp)⟩
      · exact Or.inr ⟨by simp only [Builtin.fn, asPathFn, hp, Option.getD_some], Or.inl rfl, by simp⟩
  | randomGreedy =>
    obtain ⟨F, hF⟩ := C53_random_greedy_function (maxRepeats := 32) (nbranch := 8) (by omega) (by omega) e.cost he.pick he.orders.2.1 (labelSize d)
      (by omega : 2 ≤ inputs.length) output
    refine ⟨F, fun fuel hf => Or.inl ?_⟩
    obtain ⟨p, h1, h3⟩ := hF fuel hf
    exact ⟨p, by simp only [Builtin.fn, asPathFn, h1, Option.getD_some], h3⟩
  | randomGreedy128 =>
    obtain ⟨F, hF⟩ := C53_random_greedy_function (maxRepeats := 128) (nbranch := 8) (by omega) (by omega) e.cost he.pick he.orders.2.1 (labelSize d)
      (by omega : 2 ≤ inputs.length) output
    refine ⟨F, fun fuel hf => Or.inl ?_⟩
    obtain ⟨p, h1, h3⟩ := hF fuel hf
    exact ⟨p, by simp only [Builtin.fn, asPathFn, h1, Option.getD_some], h3⟩

/-! ## `contract_path` with a finder is `contract_path` with the path found -/

/-- Memory limits that do not limit. -/
def Unlimited (mem : MemLimit) : Prop := mem = .none ∨ mem = .num (-1)

theorem contractPath_finder {size : Nat → Nat} {inputs : List Str} {output : Str} {shapes : List Shape}
    (h : WellPosed size inputs output shapes) {mem : MemLimit} (hmem : ValidMemory mem) (h2 : 2 < inputs.length) :
    ∃ (d : Dict Nat Nat) (m : Option Nat), (∀ c k, d.get? c = some k → (∃ t ∈ inputs, c ∈ t) ∧ k = size c) ∧
      (Unlimited mem → m = none) ∧
      ∀ f useBlas, contractPath inputs output shapes (.finder f) mem useBlas =
        (f (inputs.map List.toFinset) output.toFinset d m).bind (fun p => contractPath inputs output shapes (.path p) mem useBlas) := by
  obtain ⟨d, hd1, hd2⟩ := sizeLoop_wellPosed h
  have hsome : ∀ c, (∃ t ∈ inputs, c ∈ t) → (d.get? c).isSome := fun c hc => by rw [hd2 c hc]; rfl
  have hsz : (inputs ++ [output]).mapM (fun t => computeSizeByDict t d) =
      .ok ((inputs ++ [output]).map (fun t => (t.map (dsize d)).prod)) := by
    apply mapM_ok
    intro t ht
    apply computeSize_ok
    intro c hc
    rw [List.mem_append, List.mem_singleton] at ht
    rcases ht with ht | rfl
    · exact hsome c ⟨t, ht, hc⟩
    · exact hsome c (h.sub c hc)
  obtain ⟨m, hm⟩ := chooseMemoryArg_ok hmem (sizes := (inputs ++ [output]).map (fun t => (t.map (dsize d)).prod)) (by simp)
  have hflop : ∀ inner : Bool, flopCount (enum inputs.flatten inputs.flatten.toFinset) inner inputs.length d =
      .ok ((∏ c ∈ inputs.flatten.toFinset, dsize d c) * opFactor inner inputs.length) := by
    intro inner
    apply flopCount_enum
    · intro c hc; exact List.mem_toFinset.mp hc
    · intro c hc
      apply hsome
      rw [List.mem_toFinset, List.mem_flatten] at hc
      exact hc
  refine ⟨d, m, ?_, ?_, ?_⟩
  · intro c k hk
    obtain ⟨d', h1, h3⟩ := (C06_size_dict inputs shapes h.len).1 (compatible_of_wellPosed h)
    rw [hd1] at h1
    cases h1
    obtain ⟨i, j, t, s, e1, e2, e3, e4⟩ := ((h3 c k).mp hk).1
    have hocc : ∃ t ∈ inputs, c ∈ t := ⟨t, List.mem_of_getElem? e1, List.mem_of_getElem? e3⟩
    refine ⟨hocc, ?_⟩
    rw [hd2 c hocc] at hk
    exact (Option.some.inj hk).symm
  · rintro (rfl | rfl)
    · simp only [chooseMemoryArg, Except.ok.injEq] at hm
      exact hm.symm
    · simp only [chooseMemoryArg] at hm
      norm_num at hm
      exact hm.symm
  · intro f ub
    unfold contractPath
    simp only [bind, Except.bind]
    rw [hd1]
    simp only
    rw [hsz]
    simp only
    rw [hm]
    simp only
    rw [hflop]
    simp only [choosePath]
    rw [if_neg (by omega)]

/-! ## C54 -/

/-- The registered functions, from the table of finders. -/
def optionFns (e : Env) (t : Dict Str Builtin) : Dict Str PathFn := t.map (fun p => (p.1, p.2.fn e))

/-- Under which (lower-case) names the documentation lists the finders. -/
def documentedName (n : Str) : Option Builtin :=
  if n = S "auto" then some .auto
  else if n = S "auto-hq" then some .autoHq
  else if n = S "optimal" then some .optimal
  else if n = S "branch-all" then some .branchAll
  else if n = S "branch-2" then some .branch2
  else if n = S "branch-1" then some .branch1
  else if n = S "greedy" ∨ n = S "eager" ∨ n = S "opportunistic" then some .greedy
  else if n = S "dp" ∨ n = S "dynamic-programming" then some .dynamicProgramming
  else if n = S "random-greedy" then some .randomGreedy
  else if n = S "random-greedy-128" then some .randomGreedy128
  else none

/-- Python's `str.lower`, of which only the effect on ASCII strings is needed. -/
def LowerOK (lower : Str → Str) : Prop := ∀ s : Str, (∀ c ∈ s, c < 128) → lower s = s.map (fun c => if 65 ≤ c ∧ c ≤ 90 then c + 32 else c)

theorem importedOptions_ok {lower : Str → Str} (hl : LowerOK lower) :
    importedOptions lower = .ok (pathOptions ++ [(S "random-greedy", .randomGreedy), (S "random-greedy-128", .randomGreedy128)]) := by
  have h1 : lower (S "random-greedy") = S "random-greedy" := by rw [hl _ (by decide)]; decide
  have h2 : lower (S "random-greedy-128") = S "random-greedy-128" := by rw [hl _ (by decide)]; decide
  unfold importedOptions registerPathFn
  rw [h1, h2]
  decide

theorem importedOptions_get {lower : Str → Str} (hl : LowerOK lower) {t : Dict Str Builtin} (ht : importedOptions lower = .ok t) (n : Str) :
    t.get? n = documentedName n := by
  rw [importedOptions_ok hl] at ht
  cases ht
  unfold documentedName pathOptions
  have split3 : ∀ (p q r : Prop) [Decidable p] [Decidable q] [Decidable r] (x y : Option Builtin),
      (if p ∨ q ∨ r then x else y) = if p then x else if q then x else if r then x else y := by
    intro p q r _ _ _ x y
    by_cases p <;> by_cases q <;> by_cases r <;> simp [*]
  have split2 : ∀ (p q : Prop) [Decidable p] [Decidable q] (x y : Option Builtin),
      (if p ∨ q then x else y) = if p then x else if q then x else y := by
    intro p q _ _ x y
    by_cases p <;> by_cases q <;> simp [*]
  rw [split3, split2]
  simp only [List.cons_append, List.nil_append, Dict.get?, eq_comm (a := n)]

theorem optionFns_get (e : Env) (t : Dict Str Builtin) (n : Str) : (optionFns e t).get? n = (t.get? n).map (fun b => b.fn e) := by
  induction t with
  | nil => rfl
  | cons p t ih =>
    obtain ⟨k, b⟩ := p
    simp only [optionFns, List.map_cons, Dict.get?] at ih ⊢
    split
    · rfl
    · exact ih

theorem getPathFn_eq {F : Type} (lower : Str → Str) (o : Dict Str F) (n : Str) :
    getPathFn lower o n = match o.get? (lower n) with | some f => .ok f | none => .error .key := by
  unfold getPathFn Dict.has Dict.get!
  cases o.get? (lower n) <;> rfl

theorem choosesComplete_small {lower : Str → Str} {o : Dict Str PathFn} {name : Str} {size : Nat → Nat} {inputs : List Str} {output : Str}
    (h : inputs.length ≤ 2) : ChoosesComplete (resolve lower o (.name name)) size inputs output := by
  intro h'
  omega

/-- **C54.** `contract(eq, *ops, optimize=name, memory_limit=..., use_blas=...)` for a name under which `import opt_einsum` registers a
finder, in any capitals: for operands that fit the equation (with at most 52 labels), whatever the set orders and random draws, the call
ends, and returns the Einstein summation; only `dp` and `auto-hq` may raise `RuntimeError` instead, if there is a
memory limit and there are three operands or more. For these two all sizes must be at least 1. -/
theorem C54_contract_named {lower : Str → Str} (hl : LowerOK lower) {t : Dict Str Builtin} (ht : importedOptions lower = .ok t)
    {e : Env} (he : EnvOK e) {name : Str} {b : Builtin} (hname : documentedName (lower name) = some b)
    (size : Nat → Nat) (eq : Str) (ops : List (Tensor R)) (inp out : Str)
    (hparse : parseEinsum eq (ops.map Tensor.shape) = .ok (inp, out)) (hcomma : cComma ∉ out)
    (hfit : OperandsFit size (splitOn cComma inp) (ops.map Tensor.shape))
    (hlab : (splitOn cComma inp).flatten.toFinset.card ≤ 52)
    (mem : MemLimit) (hmem : ValidMemory mem) (useBlas : Bool)
    (hpos : UsesDp b → ∀ c ∈ (splitOn cComma inp).flatten, 0 < size c) :
    ∃ F, ∀ fuel, F ≤ fuel →
      (∃ T, contract false eq ops (resolve lower (optionFns { e with fuel } t) (.name name)) mem useBlas = .ok T ∧
        IsEinsum size (splitOn cComma inp) out ops T) ∨
      (contract false eq ops (resolve lower (optionFns { e with fuel } t) (.name name)) mem useBlas = .error .runtime ∧
        UsesDp b ∧ ¬ Unlimited mem ∧ 2 < ops.length) := by
  have hw := wellPosed_of_parse hparse hcomma hfit
  have hlen : (splitOn cComma inp).length = ops.length := by simpa using hw.len
  by_cases h2 : 2 < (splitOn cComma inp).length
  · obtain ⟨d, m, hd, hm, hp⟩ := contractPath_finder hw hmem h2
    obtain ⟨F, hF⟩ := builtin_complete he b (inputs := (splitOn cComma inp).map List.toFinset) (by simpa using h2) out.toFinset d m (by
      intro hb c
      unfold labelSize
      cases hc : d.get? c with
      | none => simp
      | some k =>
        obtain ⟨⟨u, hu, hcu⟩, rfl⟩ := hd c k hc
        exact hpos hb c (List.mem_flatten.mpr ⟨u, hu, hcu⟩))
    refine ⟨F, fun fuel hf => ?_⟩
    have hfn : ∀ s o z m, (do (← getPathFn lower (optionFns { e with fuel } t) name) s o z m : Except PyErr _) = b.fn { e with fuel } s o z m := by
      intro s o z m
      rw [getPathFn_eq, optionFns_get, importedOptions_get hl ht, hname]
      rfl
    have hcall : contract false eq ops (resolve lower (optionFns { e with fuel } t) (.name name)) mem useBlas =
        (b.fn { e with fuel } ((splitOn cComma inp).map List.toFinset) out.toFinset d m).bind
          (fun p => contract false eq ops (.path p) mem useBlas) := by
      simp only [resolve, hfn]
      simp only [contract, bind, Except.bind]
      rw [hparse]
      simp only
      rw [hp]
      cases b.fn { e with fuel } ((splitOn cComma inp).map List.toFinset) out.toFinset d m with
      | error err => rfl
      | ok p => rfl
    rw [hcall]
    rcases hF fuel hf with ⟨p, h1, h3⟩ | ⟨h1, h3, h4⟩
    · rw [h1]
      exact Or.inl (C01_contract size eq ops inp out hparse hcomma hfit hlab (.path p) mem hmem (by simpa [ChoosesComplete] using h3) useBlas)
    · rw [h1]
      exact Or.inr ⟨rfl, h3, fun hu => h4 (hm hu), by omega⟩
  · refine ⟨0, fun fuel _ => Or.inl ?_⟩
    exact C01_contract size eq ops inp out hparse hcomma hfit hlab _ mem hmem (choosesComplete_small (by omega)) useBlas

/-- **C54, the default.** `optimize="auto"` (the default), `True` and `None`: the call ends and returns the Einstein summation, for any sizes
and memory limit. -/
theorem C54_contract_default {lower : Str → Str} (hl : LowerOK lower) {t : Dict Str Builtin} (ht : importedOptions lower = .ok t)
    {e : Env} (he : EnvOK e) (size : Nat → Nat) (eq : Str) (ops : List (Tensor R)) (inp out : Str)
    (hparse : parseEinsum eq (ops.map Tensor.shape) = .ok (inp, out)) (hcomma : cComma ∉ out)
    (hfit : OperandsFit size (splitOn cComma inp) (ops.map Tensor.shape))
    (hlab : (splitOn cComma inp).flatten.toFinset.card ≤ 52)
    (mem : MemLimit) (hmem : ValidMemory mem) (useBlas : Bool) {arg : OptimizeArg} (harg : arg = .name (S "auto") ∨ arg = .bool true ∨ arg = .none) :
    ∃ F, ∀ fuel, F ≤ fuel →
      ∃ T, contract false eq ops (resolve lower (optionFns { e with fuel } t) arg) mem useBlas = .ok T ∧
        IsEinsum size (splitOn cComma inp) out ops T := by
  have hauto : lower (S "auto") = S "auto" := by rw [hl _ (by decide)]; decide
  obtain ⟨F, hF⟩ := C54_contract_named hl ht he (name := S "auto") (b := .auto) (by rw [hauto]; rfl) size eq ops inp out hparse hcomma hfit hlab mem hmem
    useBlas (by rintro (h | h) <;> cases h)
  refine ⟨F, fun fuel hf => ?_⟩
  have hr : resolve lower (optionFns { e with fuel } t) arg = resolve lower (optionFns { e with fuel } t) (.name (S "auto")) := by
    rcases harg with rfl | rfl | rfl <;> rfl
  rw [hr]
  rcases hF fuel hf with h | ⟨-, h | h, -⟩
  · exact h
  · cases h
  · cases h

/-- **C54, unknown names.** A name that is not registered makes `contract` raise `KeyError` for three operands or more; for fewer operands the
name is not looked at. -/
theorem C54_unknown_name {lower : Str → Str} (hl : LowerOK lower) {t : Dict Str Builtin} (ht : importedOptions lower = .ok t)
    (e : Env) {name : Str} (hname : documentedName (lower name) = none) (size : Nat → Nat) (eq : Str) (ops : List (Tensor R)) (inp out : Str)
    (hparse : parseEinsum eq (ops.map Tensor.shape) = .ok (inp, out)) (hcomma : cComma ∉ out)
    (hfit : OperandsFit size (splitOn cComma inp) (ops.map Tensor.shape))
    (hlab : (splitOn cComma inp).flatten.toFinset.card ≤ 52) (mem : MemLimit) (hmem : ValidMemory mem) (useBlas : Bool) :
    (2 < ops.length → contract false eq ops (resolve lower (optionFns e t) (.name name)) mem useBlas = .error .key) ∧
    (ops.length ≤ 2 → ∃ T, contract false eq ops (resolve lower (optionFns e t) (.name name)) mem useBlas = .ok T ∧
      IsEinsum size (splitOn cComma inp) out ops T) := by
  have hw := wellPosed_of_parse hparse hcomma hfit
  have hlen : (splitOn cComma inp).length = ops.length := by simpa using hw.len
  constructor
  · intro h2
    obtain ⟨d, m, hd, hm, hp⟩ := contractPath_finder hw hmem (by omega)
    simp only [resolve, contract, bind, Except.bind]
    rw [hparse]
    simp only
    rw [hp]
    rw [getPathFn_eq, optionFns_get, importedOptions_get hl ht, hname]
    rfl
  · intro h2
    exact C01_contract size eq ops inp out hparse hcomma hfit hlab _ mem hmem (choosesComplete_small (by omega)) useBlas

theorem contractPath_chosen {inputs : List Str} {output : Str} {shapes : List Shape} {opt : Optimize} {mem : MemLimit} {ub : Bool} {info : PathInfo}
    (h : contractPath inputs output shapes opt mem ub = .ok info) :
    ∃ d m, choosePath opt inputs.length (inputs.map List.toFinset) output.toFinset d m = .ok info.path := by
  unfold contractPath at h
  simp only [bind, Except.bind] at h
  split at h
  · cases h
  rename_i d hd
  split at h
  · cases h
  split at h
  · cases h
  rename_i m hm
  split at h
  · cases h
  split at h
  · cases h
  rename_i p hp
  split at h
  · cases h
  cases h
  exact ⟨_, _, hp⟩

/-- **C54, no search.** `optimize=False` hands the call as it is to the `einsum` of numpy, whatever the backend, and `contract_path` reports one step with all operands; a path
given by the user is the path reported. -/
theorem C54_no_search (lower : Str → Str) (options : Dict Str PathFn) (eq : Str) (ops : List (Tensor R)) (mem : MemLimit) (useBlas noEinsum : Bool) :
    contract noEinsum eq ops (resolve lower options (.bool false)) mem useBlas = einsumCall false eq ops ∧
    (∀ inputs output shapes info, contractPath inputs output shapes (resolve lower options (.bool false)) mem useBlas = .ok info →
      info.path = [List.range inputs.length]) ∧
    (∀ inputs output shapes info p, contractPath inputs output shapes (resolve lower options (.path p)) mem useBlas = .ok info → info.path = p) := by
  refine ⟨rfl, ?_, ?_⟩
  · intro inputs output shapes info h
    obtain ⟨d, m, hp⟩ := contractPath_chosen h
    exact (Except.ok.inj hp).symm
  · intro inputs output shapes info p h
    obtain ⟨d, m, hp⟩ := contractPath_chosen h
    exact (Except.ok.inj hp).symm

/-! ## Concrete cases -/

-- C54: four steps of 'ab,bc,cd->ad' in one
example : (contractPath (splitOn cComma (S "ab,bc,cd")) (S "ad") [[2, 3], [3, 4], [4, 5]] (resolve asciiLower [] (.bool false)) .none true).map
    PathInfo.path = .ok [[0, 1, 2]] := by decide +kernel

/-- A process for the examples. -/
def exampleEnv : Env := ⟨⟨ascending, gAscending, ascendingPop⟩, fun _ => costMemoryRemoved, fun _ _ _ => 0, 30⟩

theorem exampleEnv_ok : EnvOK exampleEnv :=
  ⟨⟨ascending_ok, gAscending_ok, ascendingPop_ok⟩, fun _ _ _ h => List.length_pos_iff.mpr h⟩

theorem asciiLower_ok : LowerOK asciiLower := fun _ _ => rfl

-- C54: four operands, a broadcast axis, an ellipsis, with "Branch-2"
example : ∃ F, ∀ fuel, F ≤ fuel → ∃ T, contract false (S "...c,bb, dc,->d...") [ones [2, 3, 4], ones [3, 3], ones [5, 1], ones []]
      (resolve asciiLower (optionFns { exampleEnv with fuel } (pathOptions ++ [(S "random-greedy", .randomGreedy), (S "random-greedy-128", .randomGreedy128)]))
        (.name (S "Branch-2"))) .maxInput true = .ok T ∧
    IsEinsum (fun c => if c = 98 then 3 else if c = 99 then 4 else if c = 100 then 5 else if c = 102 then 3 else 2)
      (splitOn cComma (S "efc,bb,dc,")) (S "def") [ones [2, 3, 4], ones [3, 3], ones [5, 1], ones []] T := by
  have h := C54_contract_named asciiLower_ok (importedOptions_ok asciiLower_ok) exampleEnv_ok (name := S "Branch-2") (b := .branch2) (by decide +kernel)
    (fun c => if c = 98 then 3 else if c = 99 then 4 else if c = 100 then 5 else if c = 102 then 3 else 2) (S "...c,bb, dc,->d...")
    [ones [2, 3, 4], ones [3, 3], ones [5, 1], ones []] (S "efc,bb,dc,") (S "def") (by decide +kernel) (by decide +kernel)
    (operandsFit_of_list (by decide +kernel) (by decide +kernel) (by decide +kernel) (by decide +kernel) (by decide +kernel)) (by decide +kernel)
    .maxInput trivial true (by rintro (h | h) <;> cases h)
  obtain ⟨F, hF⟩ := h
  refine ⟨F, fun fuel hf => ?_⟩
  rcases hF fuel hf with h | ⟨-, h | h, -⟩
  · exact h
  · cases h
  · cases h

/-- The exception of `C54_contract_named` occurs: a chain of six matrices with a memory limit of 1 and "dp" or "auto-hq" raises
`RuntimeError`; without limit the product is returned. -/
theorem C54_runtime_error :
    (∀ n ∈ [S "dp", S "auto-hq"], (contract false (S "ab,bc,cd,de,ef,fg->ag") (List.replicate 6 (ones [2, 2]))
      (resolve asciiLower (optionFns exampleEnv pathOptions) (.name n)) (.num 1) true).map (fun T => (T.shape, T.val [0, 1])) = .error .runtime) ∧
    (∀ n ∈ [S "dp", S "auto-hq"], (contract false (S "ab,bc,cd,de,ef,fg->ag") (List.replicate 6 (ones [2, 2]))
      (resolve asciiLower (optionFns exampleEnv pathOptions) (.name n)) .none true).map (fun T => (T.shape, T.val [0, 1])) = .ok ([2, 2], 32)) := by
  constructor <;> decide +kernel

end OE.Props
