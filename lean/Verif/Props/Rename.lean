import Verif.Lemmas.RenameOutput
import Verif.Lemmas.RenameParse
import Verif.Model.DpSymbols
import Verif.Props.Registry
import Verif.Props.Greedy2
import Mathlib.SetTheory.Cardinal.Arithmetic

/-!
# C76: the plan does not depend on the names of the labels, nor on the hash seed
-/

namespace OE.Props
open OE OE.Py OE.Paths OE.Contract OE.Parser OE.Spec OE.Registry OE.Rename

/-! ## Renamings as permutations -/

/-- An injective renaming of finitely many labels extends to a permutation of all labels. -/
theorem exists_perm {f : Nat → Nat} (S : Finset Nat) (hf : Set.InjOn f S) : ∃ σ : Nat ≃ Nat, ∀ c ∈ S, σ c = f c := by
  obtain ⟨g, hg⟩ := Cardinal.extend_function_of_lt (α := Nat) (β := Nat) (s := (S : Set Nat)) ⟨fun c => f c.1, fun a b h => Subtype.ext (hf a.2 b.2 h)⟩
    (by rw [Cardinal.mk_nat]; exact Cardinal.lt_aleph0_of_finite _) ⟨Equiv.refl _⟩
  exact ⟨g, fun c hc => hg ⟨c, hc⟩⟩

/-- A renaming extends to a permutation that takes any given fresh labels to any given fresh labels. -/
theorem renaming_perm_fresh {f : Nat → Nat} {eq : Str} (h : Renaming f eq) {E E' : Str} (hl : E.length = E'.length) (hn : E.Nodup) (hn' : E'.Nodup)
    (hE : ∀ c ∈ E, c ∉ eq ∧ ¬ IsPunct c) (hE' : ∀ c ∈ E', c ∉ eq.map f ∧ ¬ IsPunct c) :
    ∃ σ : Nat ≃ Nat, Fixes σ ∧ σ cDot = cDot ∧ (∀ c ∈ eq, σ c = f c) ∧ E.map σ = E' := by
  have hP : ∀ c, c ∈ [cDot, cComma, cDash, cGt] ↔ IsPunct c := by
    intro c; unfold IsPunct; simp
  have hidx : ∀ c ∈ E, E.idxOf c < E'.length := fun c hc => by rw [← hl]; exact List.idxOf_lt_length_iff.mpr hc
  have hgetE : ∀ c ∈ E, E'.getD (E.idxOf c) 0 ∈ E' := by
    intro c hc
    rw [List.getD_eq_getElem?_getD, List.getElem?_eq_getElem (hidx c hc)]
    exact List.getElem_mem _
  have hinj : Set.InjOn (fun c => if c ∈ E then E'.getD (E.idxOf c) 0 else f c) ((eq ++ [cDot, cComma, cDash, cGt] ++ E).toFinset : Finset Nat) := by
    have hmem : ∀ x, x ∈ (((eq ++ [cDot, cComma, cDash, cGt] ++ E).toFinset : Finset Nat) : Set Nat) → x ∉ E → IsPunct x ∨ x ∈ labelSet eq := by
      intro x hx hxE
      simp only [List.coe_toFinset, List.mem_append, Set.mem_ofPred_eq, hP] at hx
      by_cases hp : IsPunct x
      · exact Or.inl hp
      · rcases hx with (hx | hx) | hx
        · exact Or.inr ⟨hx, hp⟩
        · exact Or.inl hx
        · exact absurd hx hxE
    have hnot : ∀ x, (IsPunct x ∨ x ∈ labelSet eq) → f x ∉ E' := by
      rintro x (hx | hx) hm
      · rw [h.fixes x hx] at hm; exact (hE' x hm).2 hx
      · exact (hE' _ hm).1 (List.mem_map_of_mem hx.1)
    intro a ha b hb hab
    by_cases haE : a ∈ E <;> by_cases hbE : b ∈ E <;> simp only [haE, hbE, if_true, if_false] at hab
    · rw [List.getD_eq_getElem?_getD, List.getD_eq_getElem?_getD, List.getElem?_eq_getElem (hidx a haE), List.getElem?_eq_getElem (hidx b hbE)] at hab
      have hi := (List.Nodup.getElem_inj_iff hn').mp hab
      have h1 := List.getElem?_idxOf haE
      rw [hi, List.getElem?_idxOf hbE] at h1
      exact (Option.some.inj h1).symm
    · exact absurd (hab ▸ hgetE a haE) (hnot b (hmem b hb hbE))
    · exact absurd (hab ▸ hgetE b hbE) (hnot a (hmem a ha haE))
    · rcases hmem a ha haE with hpa | hpa <;> rcases hmem b hb hbE with hpb | hpb
      · rw [h.fixes a hpa, h.fixes b hpb] at hab; exact hab
      · exfalso
        apply h.labels b hpb
        rw [← hab, h.fixes a hpa]; exact hpa
      · exfalso
        apply h.labels a hpa
        rw [hab, h.fixes b hpb]; exact hpb
      · exact h.inj hpa hpb hab
  obtain ⟨σ, hσ⟩ := exists_perm _ hinj
  have hfix : ∀ c, IsPunct c → σ c = c := by
    intro c hc
    rw [hσ c (by simp only [List.toFinset_append, Finset.mem_union, List.mem_toFinset, hP]; exact Or.inl (Or.inr hc))]
    simp only [show c ∉ E from fun h => (hE c h).2 hc, if_false, h.fixes c hc]
  refine ⟨σ, ⟨hfix _ (Or.inr (Or.inl rfl)), hfix _ (Or.inr (Or.inr (Or.inl rfl))), hfix _ (Or.inr (Or.inr (Or.inr rfl)))⟩, hfix _ (Or.inl rfl),
    fun c hc => ?_, ?_⟩
  · rw [hσ c (by simp [hc])]
    simp only [show c ∉ E from fun h => (hE c h).1 hc, if_false]
  · apply List.ext_getElem
    · rw [List.length_map, hl]
    · intro i h1 h2
      rw [List.length_map] at h1
      rw [List.getElem_map, hσ _ (by simp)]
      simp only [List.getElem_mem, if_true]
      rw [List.Nodup.idxOf_getElem hn i h1, List.getD_eq_getElem?_getD, List.getElem?_eq_getElem h2]
      rfl

theorem renaming_perm {f : Nat → Nat} {eq : Str} (h : Renaming f eq) : ∃ σ : Nat ≃ Nat, Fixes σ ∧ ∀ c ∈ eq, σ c = f c := by
  obtain ⟨σ, h1, _, h2, _⟩ := renaming_perm_fresh h (E := []) (E' := []) rfl List.nodup_nil List.nodup_nil (by simp) (by simp)
  exact ⟨σ, h1, h2⟩

theorem renaming_sub {f : Nat → Nat} {s t : Str} (h : Renaming f s) (hs : ∀ c ∈ t, c ∈ s) : Renaming f t :=
  ⟨h.fixes, fun c hc => h.labels c ⟨hs c hc.1, hc.2⟩, fun a ha b hb hab => h.inj ⟨hs a ha.1, ha.2⟩ ⟨hs b hb.1, hb.2⟩ hab⟩

theorem renaming_dot {f : Nat → Nat} {eq : Str} (h : Renaming f eq) (hd : cDot ∉ eq) : cDot ∉ eq.map f := by
  rw [List.mem_map]
  rintro ⟨c, hc, hfc⟩
  by_cases hp : IsPunct c
  · rw [h.fixes c hp] at hfc; subst hfc; exact hd hc
  · apply h.labels c ⟨hc, hp⟩
    rw [hfc]; exact Or.inl rfl

/-! ## The path finders -/

variable {σ : Nat ≃ Nat}

theorem renOrder_ok {o : GOrder} (h : GOrderOK o) : GOrderOK (renOrder σ o) := by
  refine ⟨fun s => ⟨(h.1 _).1.map σ.injective, fun x => ?_⟩, fun p s => ⟨(h.2 _ _).1.map (ren_injective σ), fun x => ?_⟩⟩
  · simp only [renOrder, List.mem_map, (h.1 _).2]
    constructor
    · rintro ⟨a, ha, rfl⟩
      have := mem_ren (σ := σ) (s := ren σ.symm s) (c := a)
      rw [ren_symm] at this
      exact this.mpr ha
    · intro hx
      refine ⟨σ.symm x, ?_, by simp⟩
      exact mem_ren.mpr hx
  · simp only [renOrder, List.mem_map, (h.2 _ _).2]
    constructor
    · rintro ⟨a, ha, rfl⟩
      rw [mem_renKeys'] at ha
      exact ha
    · intro hx
      refine ⟨ren σ.symm x, ?_, ren_symm x⟩
      exact mem_renKeys.mpr hx

theorem sameSize_labelSize (d : Dict Nat Nat) : SameSize σ (labelSize d) (labelSize (renSizes σ d)) := by
  intro c
  unfold labelSize
  rw [renSizes_get?]

/-- The finders that draw random numbers. -/
def Random (b : Builtin) : Prop := b = .autoHq ∨ b = .randomGreedy ∨ b = .randomGreedy128

/-- Two processes that agree on how they iterate over sets of positions, but not on how they iterate over sets of labels. -/
structure SamePositions (e e' : Env) : Prop where
  set : e'.orders.set = e.orders.set
  pop : e'.orders.pop = e.orders.pop
  fuel : e'.fuel = e.fuel
  greedy : GOrderOK e.orders.greedy
  greedy' : GOrderOK e'.orders.greedy

theorem greedy_any {e e' : Env} (h : SamePositions e e') {size size' : Nat → Nat} (hs : SameSize σ size size') (mem : Option Nat)
    (inputs : List (Finset Nat)) (output : Finset Nat) :
    greedy e'.fuel size' mem costMemoryRemoved none e'.orders.greedy e'.orders.set (inputs.map (ren σ)) (ren σ output) =
      greedy e.fuel size mem costMemoryRemoved none e.orders.greedy e.orders.set inputs output := by
  rw [h.fuel, h.set, ← greedy_ren hs mem costMemoryRemoved_nameless (fun _ h => by cases h) e.orders.greedy e.orders.set e.fuel inputs output]
  cases mem with
  | none => exact C23_greedy_order size' costMemoryRemoved_deterministic h.greedy' (renOrder_ok h.greedy) _ _ _ _ _
  | some m => rfl

/-- **C76, finders.** The deterministic finders return the same path for the same network with other labels, in another process. -/
theorem C76_finders {b : Builtin} (hb : ¬ Random b) {e e' : Env} (h : SamePositions e e') (sets : List (Finset Nat)) (output : Finset Nat)
    (d : Dict Nat Nat) (mem : Option Nat) :
    b.fn e' (sets.map (Finset.image σ)) (output.image σ) (d.map (fun p => (σ p.1, p.2))) mem = b.fn e sets output d mem := by
  have hi : Finset.image σ = ren σ := by funext s; rw [ren_eq_image]
  rw [hi, show d.map (fun p => (σ p.1, p.2)) = renSizes σ d from rfl]
  have hs := sameSize_labelSize (σ := σ) d
  have hg := fun mem => greedy_any h hs mem sets output
  cases b with
  | autoHq => exact absurd (Or.inl rfl) hb
  | randomGreedy => exact absurd (Or.inr (Or.inl rfl)) hb
  | randomGreedy128 => exact absurd (Or.inr (Or.inr rfl)) hb
  | auto =>
    simp only [Builtin.fn, asPathFn, Paths.auto, branchN, List.length_map, hg]
    simp only [optimal_ren hs, h.fuel, h.set]
    rw [branch_ren hs costMemoryRemoved_nameless, branch_ren hs costMemoryRemoved_nameless, branch_ren hs costMemoryRemoved_nameless]
  | optimal => simp only [Builtin.fn, asPathFn, optimal_ren hs, h.fuel, h.set]
  | branchAll => simp only [Builtin.fn, asPathFn, branchN, h.fuel, h.set]; rw [branch_ren hs costMemoryRemoved_nameless]
  | branch2 => simp only [Builtin.fn, asPathFn, branchN, h.fuel, h.set]; rw [branch_ren hs costMemoryRemoved_nameless]
  | branch1 => simp only [Builtin.fn, asPathFn, branchN, h.fuel, h.set]; rw [branch_ren hs costMemoryRemoved_nameless]
  | greedy => simp only [Builtin.fn, asPathFn, hg]
  | dynamicProgramming => simp only [Builtin.fn, asPathFn, dpCall_ren hs, h.fuel, h.pop]

/-- A cost function that looks at the sizes and at the random numbers only. -/
def IgnoresNames (cost : CostFn) : Prop :=
  ∀ (τ : Nat ≃ Nat) p a b c k12 k1 k2, cost p a b c (k12.image τ) (k1.image τ) (k2.image τ) = cost p a b c k12 k1 k2

/-- The iteration orders of a process in which the renamed labels are met where the old ones were met. -/
def transported (σ : Nat ≃ Nat) (e : Env) : Env :=
  { e with orders := { e.orders with greedy :=
      { dims := fun s => (e.orders.greedy.dims (s.image σ.symm)).map σ
        keys := fun p s => (e.orders.greedy.keys p (s.image (Finset.image σ.symm))).map (Finset.image σ) } } }

theorem transported_orders (σ : Nat ≃ Nat) (e : Env) : (transported σ e).orders = renOrders σ e.orders := by
  have hi : ∀ τ : Nat ≃ Nat, Finset.image τ = ren τ := by intro τ; funext s; rw [ren_eq_image]
  have hk : ∀ (τ : Nat ≃ Nat) (s : Finset (Finset Nat)), s.image (ren τ) = renKeys τ s := by
    intro τ s; rw [renKeys, Finset.map_eq_image]; rfl
  simp only [transported, renOrders, renOrder, hi, hk]

/-- **C76, all finders.** With the same random numbers and the iteration orders transported along the renaming, the random finders return the
same path too. -/
theorem C76_random_finders (b : Builtin) {e : Env} (hc : ∀ r, IgnoresNames (e.cost r)) (sets : List (Finset Nat)) (output : Finset Nat)
    (d : Dict Nat Nat) (mem : Option Nat) :
    b.fn (transported σ e) (sets.map (Finset.image σ)) (output.image σ) (d.map (fun p => (σ p.1, p.2))) mem = b.fn e sets output d mem := by
  have hi : Finset.image σ = ren σ := by funext s; rw [ren_eq_image]
  have hc' : ∀ r, Nameless (e.cost r) := by
    intro r τ p a b c k12 k1 k2
    rw [ren_eq_image, ren_eq_image, ren_eq_image]
    exact hc r τ p a b c k12 k1 k2
  rw [hi, show d.map (fun p => (σ p.1, p.2)) = renSizes σ d from rfl]
  have hs := sameSize_labelSize (σ := σ) d
  have ho := transported_orders σ e
  have hf : (transported σ e).fuel = e.fuel := rfl
  have hco : (transported σ e).cost = e.cost := rfl
  have hp : (transported σ e).pick = e.pick := rfl
  have hg : (renOrders σ e.orders).greedy = renOrder σ e.orders.greedy := rfl
  have hst : (renOrders σ e.orders).set = e.orders.set := rfl
  have hpo : (renOrders σ e.orders).pop = e.orders.pop := rfl
  cases b with
  | autoHq => simp only [Builtin.fn, asPathFn, ho, hf, hco, hp, autoHq_ren hs hc']
  | randomGreedy => simp only [Builtin.fn, asPathFn, ho, hf, hco, hp, hg, randomGreedy_ren hs _ _ hc']
  | randomGreedy128 => simp only [Builtin.fn, asPathFn, ho, hf, hco, hp, hg, randomGreedy_ren hs _ _ hc']
  | auto => simp only [Builtin.fn, asPathFn, ho, hf, auto_ren hs]
  | optimal => simp only [Builtin.fn, asPathFn, ho, hf, hst, optimal_ren hs]
  | branchAll => simp only [Builtin.fn, asPathFn, branchN, ho, hf, hst]; rw [branch_ren hs costMemoryRemoved_nameless]
  | branch2 => simp only [Builtin.fn, asPathFn, branchN, ho, hf, hst]; rw [branch_ren hs costMemoryRemoved_nameless]
  | branch1 => simp only [Builtin.fn, asPathFn, branchN, ho, hf, hst]; rw [branch_ren hs costMemoryRemoved_nameless]
  | greedy =>
    simp only [Builtin.fn, asPathFn, ho, hf, hst, hg]
    rw [greedy_ren hs mem costMemoryRemoved_nameless (fun _ h => by cases h)]
  | dynamicProgramming => simp only [Builtin.fn, asPathFn, ho, hf, hpo, dpCall_ren hs]

/-! ## `contract_path` -/

/-- Values of `optimize` that mean the same for the old and for the new names: no optimization, the same explicit path, or finders that answer
alike. -/
inductive SameOptimize (σ : Nat ≃ Nat) : Optimize → Optimize → Prop
  | off : SameOptimize σ .off .off
  | path (p : List (List Nat)) : SameOptimize σ (.path p) (.path p)
  | finder (f f' : PathFn) (h : ∀ sets out d m,
      f' (sets.map (Finset.image σ)) (out.image σ) (d.map (fun p => (σ p.1, p.2))) m = f sets out d m) : SameOptimize σ (.finder f) (.finder f')

theorem sameOptimize_choose {opt opt' : Optimize} (h : SameOptimize σ opt opt') (n : Nat) (sets : List (Finset Nat)) (out : Finset Nat)
    (d : Dict Nat Nat) (m : Option Nat) :
    choosePath opt' n (sets.map (ren σ)) (ren σ out) (renSizes σ d) m = choosePath opt n sets out d m := by
  have hi : Finset.image σ = ren σ := by funext s; rw [ren_eq_image]
  cases h with
  | off => rfl
  | path p => rfl
  | finder f f' h =>
    rw [hi] at h
    have := h sets out d m
    unfold choosePath
    simp only
    split
    · rfl
    · exact this

theorem sameOptimize_builtin {b : Builtin} (hb : ¬ Random b) {e e' : Env} (h : SamePositions e e') (σ : Nat ≃ Nat) :
    SameOptimize σ (.finder (b.fn e)) (.finder (b.fn e')) :=
  .finder _ _ (fun sets out d m => C76_finders hb h sets out d m)

theorem map_congr_perm {f : Nat → Nat} {eq : Str} (h : ∀ c ∈ eq, σ c = f c) : eq.map f = eq.map σ :=
  List.map_congr_left (fun c hc => (h c hc).symm)

theorem samePlan_rename (f : Nat → Nat) (i : PathInfo) : SamePlan i (renameInfo f i) := by
  refine ⟨rfl, ?_, ?_, rfl, rfl, rfl, rfl, rfl⟩
  · simp only [renameInfo, List.map_map]; rfl
  · simp only [renameInfo, List.map_map]; rfl

/-- **C76, reports.** For an equation with an explicit output, without ellipses and spaces, `contract_path` reports for the renamed equation the
renamed report: the same path, the same costs and sizes, the same kinds of calls, the renamed einsum strings, and the same error if there is one. -/
theorem C76_contract_path {f : Nat → Nat} {eq : Str} (hr : Renaming f eq) (hdot : cDot ∉ eq) (hsp : cSpace ∉ eq) (hsp' : cSpace ∉ eq.map f)
    (hgt : cGt ∈ eq) :
    ∃ σ : Nat ≃ Nat, (∀ c ∈ eq, σ c = f c) ∧
      ∀ (shapes : List Shape) (opt opt' : Optimize) (mem : MemLimit) (useBlas : Bool), SameOptimize σ opt opt' →
        contractPathStr (eq.map f) shapes opt' mem useBlas = (contractPathStr eq shapes opt mem useBlas).map (renameReport σ) := by
  obtain ⟨σ, hσ, hf⟩ := renaming_perm hr
  refine ⟨σ, hf, fun shapes opt opt' mem useBlas ho => ?_⟩
  have hm := map_congr_perm hf
  have hdot' := renaming_dot hr hdot
  rw [hm] at hsp' hdot' ⊢
  exact contractPathStr_ren hσ hdot hdot' hsp hsp' hgt shapes opt opt' mem useBlas (sameOptimize_choose ho)

/-- The plan of two equations that parse to the same network. -/
theorem plan_of_parse (hσ : Fixes σ) {eq eq' inp out out' : Str} {shapes : List Shape} (h : parseEinsum eq shapes = .ok (inp, out))
    (h' : parseEinsum eq' shapes = .ok (inp.map σ, out')) (hp : out'.Perm (out.map σ)) {opt opt' : Optimize} (ho : SameOptimize σ opt opt')
    {mem : MemLimit} {useBlas : Bool} {r : Report} (hr : contractPathStr eq shapes opt mem useBlas = .ok r) :
    ∃ r', contractPathStr eq' shapes opt' mem useBlas = .ok r' ∧ SamePlan r.info r'.info := by
  unfold contractPathStr at hr ⊢
  rw [h] at hr
  rw [h']
  simp only [bind, Except.bind, splitOn_map hσ.comma] at hr ⊢
  cases h1 : contractPath (splitOn cComma inp) out shapes opt mem useBlas with
  | error e => rw [h1] at hr; cases hr
  | ok info =>
    rw [h1] at hr
    simp only at hr
    have h2 := contractPath_ren hσ (splitOn cComma inp) out shapes opt opt' mem useBlas (fun d m _ => sameOptimize_choose ho _ _ _ d m)
    rw [h1] at h2
    obtain ⟨info', h3, h4, h5⟩ := contractPath_output hp h2
    have hd : info'.sizeDict = renSizes σ info.sizeDict := h5
    rw [h3]
    simp only [hd, reported_ren]
    cases h6 : (splitOn cComma inp).mapM (fun ks => ks.mapM (sizeAt info.sizeDict)) with
    | error e => rw [h6] at hr; cases hr
    | ok sh =>
      rw [h6] at hr
      simp only [Except.ok.injEq] at hr
      subst hr
      refine ⟨_, rfl, ?_⟩
      have hs := samePlan_rename σ info
      exact ⟨h4.path.trans hs.path, h4.positions.trans hs.positions, h4.calls.trans hs.calls, h4.scale.trans hs.scale, h4.naive.trans hs.naive,
        h4.cost.trans hs.cost, h4.sizes.trans hs.sizes, h4.largest.trans hs.largest⟩

/-- **C76, plans.** If `contract_path` succeeds for an equation, with or without ellipses, spaces and an explicit output, then it succeeds for
the renamed equation with the same plan: with `optimize=False`, with an explicit path, and with finders that answer alike. -/
theorem C76_same_plan {f : Nat → Nat} {eq : Str} (hr : Renaming f eq) (hsp : ∀ c ∈ eq, f c = cSpace ↔ c = cSpace) {opt opt' : Optimize}
    (ho : ∀ σ, SameOptimize σ opt opt') {shapes : List Shape} {mem : MemLimit} {useBlas : Bool} {r : Report}
    (h : contractPathStr eq shapes opt mem useBlas = .ok r) :
    ∃ r', contractPathStr (eq.map f) shapes opt' mem useBlas = .ok r' ∧ SamePlan r.info r'.info := by
  set t := removeChar cSpace eq with ht
  have hnt : cSpace ∉ t := fun h => (mem_removeChar.mp h).2 rfl
  have hrt : Renaming f t := renaming_sub hr (fun c hc => (mem_removeChar.mp hc).1)
  have ht' : removeChar cSpace (eq.map f) = t.map f := by
    rw [ht]
    unfold removeChar
    rw [List.filter_map]
    congr 1
    apply List.filter_congr
    intro c hc
    simp only [Function.comp, ne_eq, hsp c hc]
  have hnt' : cSpace ∉ t.map f := by rw [← ht']; exact fun h => (mem_removeChar.mp h).2 rfl
  have hpar : ∀ s : Str, parseEinsum (removeChar cSpace s) shapes = parseEinsum s shapes := by
    intro s
    unfold parseEinsum
    rw [removeChar_of_not_mem (s := removeChar cSpace s) (fun h => (mem_removeChar.mp h).2 rfl)]
  cases hparse : parseEinsum eq shapes with
  | error e => unfold contractPathStr at h; rw [hparse] at h; cases h
  | ok p =>
    obtain ⟨inp, out⟩ := p
    generalize hm : ((shapes.map List.length).max?.getD 0) = m
    obtain ⟨f1, f2, f3⟩ := freshFor_spec t m
    obtain ⟨g1, g2, g3⟩ := freshFor_spec (t.map f) m
    obtain ⟨σ, hσ, hd, hf, hEE⟩ := renaming_perm_fresh hrt (f1.trans g1.symm) f2 g2 f3 g3
    have hmap := map_congr_perm hf
    rw [hmap] at hEE hnt'
    rw [← hpar eq, ← ht] at hparse
    obtain ⟨out', h1, h2⟩ := parse_ren hσ hd hnt hnt' (fun m' hm' => by
      rw [hm', Option.getD_some] at hm; subst hm; exact hEE) hparse
    rw [← hmap, ← ht', hpar] at h1
    rw [ht, hpar] at hparse
    exact plan_of_parse hσ hparse h1 h2 (ho σ) h

/-- **C76, plans by name.** Under every deterministic finder, and whatever the hash seed of the two processes is. -/
theorem C76_same_plan_builtin {f : Nat → Nat} {eq : Str} (hr : Renaming f eq) (hsp : ∀ c ∈ eq, f c = cSpace ↔ c = cSpace) {b : Builtin}
    (hb : ¬ Random b) {e e' : Env} (he : SamePositions e e') {shapes : List Shape} {mem : MemLimit} {useBlas : Bool} {r : Report}
    (h : contractPathStr eq shapes (.finder (b.fn e)) mem useBlas = .ok r) :
    ∃ r', contractPathStr (eq.map f) shapes (.finder (b.fn e')) mem useBlas = .ok r' ∧ SamePlan r.info r'.info :=
  C76_same_plan hr hsp (sameOptimize_builtin hb he) h

/-- **C76, networks.** More generally, two equations (with ellipses and spaces, if need be) that parse to the same network up to the names of
the labels and the order of the output have the same plan. -/
theorem C76_same_network {g : Nat → Nat} {eq eq' inp out out' : Str} {shapes : List Shape} (h : parseEinsum eq shapes = .ok (inp, out))
    (hg : Renaming g inp) (h' : parseEinsum eq' shapes = .ok (inp.map g, out')) (hp : out'.Perm (out.map g)) {b : Builtin} (hb : ¬ Random b)
    {e e' : Env} (he : SamePositions e e') {mem : MemLimit} {useBlas : Bool} {r : Report}
    (hr : contractPathStr eq shapes (.finder (b.fn e)) mem useBlas = .ok r) :
    ∃ r', contractPathStr eq' shapes (.finder (b.fn e')) mem useBlas = .ok r' ∧ SamePlan r.info r'.info := by
  obtain ⟨σ, hσ, hf⟩ := renaming_perm hg
  have hsub := (parse_labels h).2.2.1
  rw [map_congr_perm hf] at h'
  rw [map_congr_perm (fun c hc => hf c (hsub c hc))] at hp
  exact plan_of_parse hσ h h' hp (sameOptimize_builtin hb he σ) hr

/-! ## The conversion of labels to integers in `DynamicProgramming` -/

theorem idxOf_injOn (l : List Nat) : Set.InjOn (symbol2int l) (l.toFinset : Finset Nat) := by
  intro a ha b hb hab
  simp only [List.coe_toFinset, Set.mem_ofPred_eq] at ha hb
  unfold symbol2int at hab
  have h1 := List.getElem?_idxOf ha
  have h2 := List.getElem?_idxOf hb
  rw [hab, h2] at h1
  exact (Option.some.inj h1).symm

theorem canonical_get? {l : List Nat} (d : Dict Nat Nat) {c : Nat} (hc : c ∈ l) :
    (sizeCanonical l d).get? (symbol2int l c) = d.get? c := by
  unfold sizeCanonical
  induction d with
  | nil => rfl
  | cons p d ih =>
    obtain ⟨k, v⟩ := p
    by_cases hp : k ∈ l
    · rw [List.filter_cons_of_pos (by simpa using hp), List.map_cons]
      by_cases hpc : k = c
      · subst hpc
        simp [Dict.get?]
      · have hne : symbol2int l k ≠ symbol2int l c := fun h => hpc (idxOf_injOn l (by simpa using hp) (by simpa using hc) h)
        simp only [Dict.get?, hne, hpc, if_false]
        exact ih
    · rw [List.filter_cons_of_neg (by simpa using hp)]
      have hpc : k ≠ c := by rintro rfl; exact hp hc
      simp only [Dict.get?, hpc, if_false]
      exact ih

theorem filter_get? {l : List Nat} (d : Dict Nat Nat) (c : Nat) :
    Dict.get? (d.filter (fun p => p.1 ∈ l)) c = if c ∈ l then d.get? c else none := by
  induction d with
  | nil => simp [Dict.get?]
  | cons p d ih =>
    obtain ⟨k, v⟩ := p
    by_cases hp : k ∈ l
    · rw [List.filter_cons_of_pos (by simpa using hp)]
      simp only [Dict.get?, ih]
      by_cases hkc : k = c
      · subst hkc; simp [hp]
      · simp [hkc]
    · rw [List.filter_cons_of_neg (by simpa using hp), ih]
      by_cases hc : c ∈ l
      · have : k ≠ c := by rintro rfl; exact hp hc
        simp [hc, Dict.get?, this]
      · simp [hc]

theorem canonical_length {l : List Nat} (hl : l.Nodup) {d : Dict Nat Nat} (hd : (d.map Prod.fst).Nodup) (hk : ∀ c ∈ l, (d.get? c).isSome) :
    (sizeCanonical l d).length = l.length := by
  have hp : ((d.filter (fun p => p.1 ∈ l)).map Prod.fst).Perm l := by
    rw [List.perm_ext_iff_of_nodup (hd.sublist (List.filter_sublist.map _)) hl]
    intro c
    simp only [List.mem_map, List.mem_filter, decide_eq_true_eq]
    constructor
    · rintro ⟨p, ⟨_, h⟩, rfl⟩; exact h
    · intro hc
      have hs := hk c hc
      have : ∀ e : Dict Nat Nat, (e.get? c).isSome → ∃ p ∈ e, p.1 = c := by
        intro e
        induction e with
        | nil => intro h; cases h
        | cons p e ih =>
          obtain ⟨k, v⟩ := p
          intro h
          by_cases hkc : k = c
          · exact ⟨(k, v), by simp, hkc⟩
          · simp only [Dict.get?, hkc, if_false] at h
            obtain ⟨p, hp, hpc⟩ := ih h
            exact ⟨p, by simp [hp], hpc⟩
      obtain ⟨p, hp, hpc⟩ := this d hs
      exact ⟨p, ⟨hp, by rw [hpc]; exact hc⟩, hpc⟩
  unfold sizeCanonical
  rw [List.length_map, ← List.length_map (f := Prod.fst), hp.length_eq]

theorem sizeListOf_ok {l : List Nat} (hl : l.Nodup) {d : Dict Nat Nat} (hd : (d.map Prod.fst).Nodup) (hk : ∀ c ∈ l, (d.get? c).isSome) :
    sizeListOf (sizeCanonical l d) = .ok (l.map (labelSize d)) := by
  unfold sizeListOf
  rw [canonical_length hl hd hk]
  have : l.map (labelSize d) = (List.range l.length).map (fun j => labelSize d (l.getD j 0)) := by
    apply List.ext_getElem
    · simp
    · intro i h1 h2
      simp only [List.length_map] at h1
      simp [h1]
  rw [this]
  apply mapM_ok
  intro j hj
  rw [List.mem_range] at hj
  have hm : l[j] ∈ l := List.getElem_mem hj
  have hi : symbol2int l l[j] = j := by unfold symbol2int; exact List.Nodup.idxOf_getElem hl j hj
  have hg := canonical_get? d hm
  rw [hi] at hg
  unfold Dict.get! labelSize
  rw [hg]
  have hs := hk _ hm
  cases hv : d.get? l[j] with
  | none => rw [hv] at hs; cases hs
  | some v =>
    simp only [List.getD_eq_getElem?_getD, List.getElem?_eq_getElem hj, Option.getD_some, hv]

/-- **C76, integers for labels.** `DynamicProgramming` numbers the labels as it meets them, in the order of sets. Whatever the order, it returns
the path that it would return without the conversion. -/
theorem C76_dp_symbols (cfg : DPCfg) (order : PopOrder) {allInds : List Nat} (hl : allInds.Nodup) {d : Dict Nat Nat} (hd : (d.map Prod.fst).Nodup)
    (hk : ∀ c ∈ allInds, (d.get? c).isSome) (limit : Option Nat) {inputs : List (Finset Nat)} (hi : ∀ i ∈ inputs, ∀ c ∈ i, c ∈ allInds)
    {output : Finset Nat} (ho : ∀ c ∈ output, c ∈ allInds) (fuel : Nat) :
    dpCallSymbols cfg order allInds d limit inputs output fuel =
      dpCall cfg order (labelSize (d.filter (fun p => p.1 ∈ allInds))) limit inputs output fuel := by
  obtain ⟨σ, hσ⟩ := exists_perm _ (idxOf_injOn allInds)
  have himg : ∀ s : Finset Nat, (∀ c ∈ s, c ∈ allInds) → s.image (symbol2int allInds) = ren σ s := by
    intro s hs
    rw [ren_eq_image]
    exact Finset.image_congr (fun c hc => (hσ c (by simpa using hs c hc)).symm)
  unfold dpCallSymbols
  rw [sizeListOf_ok hl hd hk]
  simp only
  rw [himg output ho, List.map_congr_left (g := ren σ) (fun i h => himg i (hi i h))]
  apply dpCall_ren
  intro c
  unfold labelSize
  rw [filter_get?]
  by_cases hc : c ∈ allInds
  · have h1 : σ c = allInds.idxOf c := hσ c (by simpa using hc)
    have h2 : allInds.idxOf c < allInds.length := List.idxOf_lt_length_iff.mpr hc
    rw [h1]
    beta_reduce
    rw [List.getD_eq_getElem?_getD, List.getElem?_map, List.getElem?_idxOf hc, if_pos hc]
    rfl
  · rw [if_neg hc]
    have : allInds.length ≤ σ c := by
      by_contra hlt
      rw [not_le] at hlt
      have hm : allInds[σ c] ∈ allInds := List.getElem_mem hlt
      have h1 : σ allInds[σ c] = σ c := by
        rw [hσ _ (by simp)]
        exact List.Nodup.idxOf_getElem hl _ hlt
      have h2 := σ.injective h1
      rw [h2] at hm
      exact hc hm
    beta_reduce
    rw [List.getD_eq_getElem?_getD, List.getElem?_eq_none (by simpa using this)]

/-! ## Examples -/

/-- The letters in reverse order. -/
def flipLetters (c : Nat) : Nat := if 97 ≤ c ∧ c ≤ 122 then 219 - c else c

theorem flipLetters_renaming (eq : Str) : Renaming flipLetters eq := by
  refine ⟨?_, ?_, ?_⟩
  · rintro c (rfl | rfl | rfl | rfl) <;> decide
  · intro c hc hp
    apply hc.2
    unfold flipLetters IsPunct at *
    split at hp <;> omega
  · intro a _ b _ hab
    simp only [flipLetters] at hab
    split at hab <;> split at hab <;> omega

/-- Another process: sets of labels are met in the opposite order. -/
def otherEnv : Env := { exampleEnv with orders := { exampleEnv.orders with greedy := gDescending } }

theorem otherEnv_same : SamePositions exampleEnv otherEnv := ⟨rfl, rfl, rfl, gAscending_ok, gDescending_ok⟩

-- four operands, an ellipsis, spaces, an implicit output
example : (contractPathStr (S "...a, ab ,bc,cd") [[5, 6, 2], [2, 3], [3, 4], [4, 2]] (.finder (Builtin.optimal.fn exampleEnv)) .none true).map
      (fun r => (r.info.path, r.info.optCost, r.eq)) = .ok ([[2, 3], [1, 2], [0, 1]], 312, S "fga,ab,bc,cd->fgd") ∧
    (contractPathStr ((S "...a, ab ,bc,cd").map flipLetters) [[5, 6, 2], [2, 3], [3, 4], [4, 2]] (.finder (Builtin.optimal.fn otherEnv)) .none true).map
      (fun r => (r.info.path, r.info.optCost, r.eq)) = .ok ([[2, 3], [1, 2], [0, 1]], 312, S "bcz,zy,yx,xw->bcw") := by
  constructor <;> decide +kernel

example (r : Report) (h : contractPathStr (S "...a, ab ,bc,cd") [[5, 6, 2], [2, 3], [3, 4], [4, 2]] (.finder (Builtin.greedy.fn exampleEnv)) .none true = .ok r) :
    ∃ r', contractPathStr (S "...z, zy ,yx,xw") [[5, 6, 2], [2, 3], [3, 4], [4, 2]] (.finder (Builtin.greedy.fn otherEnv)) .none true = .ok r' ∧
      SamePlan r.info r'.info := by
  have := C76_same_plan_builtin (flipLetters_renaming _) (by decide) (b := .greedy) (by rintro (h | h | h) <;> cases h) otherEnv_same h
  rwa [show (S "...a, ab ,bc,cd").map flipLetters = S "...z, zy ,yx,xw" by decide] at this

-- the implicit output is sorted by name, so the result of the renamed equation can be transposed
example : (contractPathStr (S "ab,bc") [[2, 3], [3, 4]] .off .none true).map Report.eq = .ok (S "ab,bc->ac") ∧
    (contractPathStr ((S "ab,bc").map flipLetters) [[2, 3], [3, 4]] .off .none true).map Report.eq = .ok (S "zy,yx->xz") := by
  constructor <;> decide +kernel

-- labels numbered in two orders
example : dpCallSymbols ⟨.flops, .increase, false⟩ ascendingPop [0, 1, 2, 3] [(0, 2), (1, 3), (2, 4), (3, 5)] none [{0, 1}, {1, 2}, {2, 3}] {0, 3} 30 =
    dpCallSymbols ⟨.flops, .increase, false⟩ ascendingPop [3, 0, 2, 1] [(0, 2), (1, 3), (2, 4), (3, 5)] none [{0, 1}, {1, 2}, {2, 3}] {0, 3} 30 := by
  rw [C76_dp_symbols _ _ (by decide) (by decide) (by decide) _ (by decide) (by decide), C76_dp_symbols _ _ (by decide) (by decide) (by decide) _ (by decide) (by decide)]
  rfl

end OE.Props
