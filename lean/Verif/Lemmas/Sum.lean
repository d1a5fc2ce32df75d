import Verif.Model.Tensor
import Mathlib.Algebra.BigOperators.Group.Finset.Sigma
import Mathlib.Data.List.Dedup
import Mathlib.Data.List.Perm.Basic

/-! Algebra of `sumOver` and `prodVal`. -/

namespace OE
variable {R : Type}

theorem upd_same (env : Nat → Nat) (c i : Nat) : upd env c i c = i := by simp [upd]
theorem upd_ne (env : Nat → Nat) (c i x : Nat) (h : x ≠ c) : upd env c i x = env x := by simp [upd, h]
theorem upd_comm (env : Nat → Nat) (a b i j : Nat) (h : a ≠ b) :
    upd (upd env a i) b j = upd (upd env b j) a i := by
  funext x; simp only [upd]; split <;> split <;> simp_all

section Add
variable [AddCommMonoid R]

theorem sumOver_append (size : Nat → Nat) (l₁ l₂ : List Nat) (f : (Nat → Nat) → R) (env : Nat → Nat) :
    sumOver size (l₁ ++ l₂) f env = sumOver size l₁ (fun e => sumOver size l₂ f e) env := by
  induction l₁ generalizing env with
  | nil => rfl
  | cons c cs ih => simp only [List.cons_append, sumOver, ih]

/-- Two environments agree on the labels satisfying `P`. -/
def AgreeOn (P : Nat → Prop) (e₁ e₂ : Nat → Nat) : Prop := ∀ c, P c → e₁ c = e₂ c

/-- General congruence: sizes agree on the summed labels; the summands agree on environments related by
agreeing on `P`. -/
theorem sumOver_congr {size size' : Nat → Nat} {l : List Nat} {f g : (Nat → Nat) → R} {P : Nat → Prop}
    {e₁ e₂ : Nat → Nat}
    (hs : ∀ c ∈ l, size c = size' c)
    (hfg : ∀ e e', (∀ c, P c → c ∉ l → e c = e₁ c ∧ e' c = e₂ c) → AgreeOn P e e' → f e = g e')
    (he : ∀ c, P c → c ∉ l → e₁ c = e₂ c) :
    sumOver size l f e₁ = sumOver size' l g e₂ := by
  induction l generalizing e₁ e₂ P with
  | nil => exact hfg e₁ e₂ (fun c _ _ => ⟨rfl, rfl⟩) (fun c hc => he c hc (by simp))
  | cons a t ih =>
    simp only [sumOver]
    rw [hs a (by simp)]
    apply Finset.sum_congr rfl
    intro i hi
    apply ih (P := P)
    · intro c hc; exact hs c (by simp [hc])
    · intro e e' h1 h2
      apply hfg e e' _ h2
      intro c hc hcl
      simp only [List.mem_cons, not_or] at hcl
      have := h1 c hc hcl.2
      rw [upd_ne _ _ _ _ hcl.1, upd_ne _ _ _ _ hcl.1] at this
      exact this
    · intro c hc hct
      by_cases hca : c = a
      · subst hca; rw [upd_same, upd_same]
      · rw [upd_ne _ _ _ _ hca, upd_ne _ _ _ _ hca]
        exact he c hc (by simp [hca, hct])

/-- Congruence for a pointwise reflexive relation of label values. -/
theorem sumOver_rel {size size' : Nat → Nat} {l : List Nat} {f g : (Nat → Nat) → R} {P : Nat → Prop}
    {ρ : Nat → Nat → Nat → Prop} (hρ : ∀ c i, ρ c i i) {e₁ e₂ : Nat → Nat}
    (hs : ∀ c ∈ l, size c = size' c)
    (hfg : ∀ e e', (∀ c, P c → ρ c (e c) (e' c)) → f e = g e')
    (he : ∀ c, P c → c ∉ l → ρ c (e₁ c) (e₂ c)) :
    sumOver size l f e₁ = sumOver size' l g e₂ := by
  induction l generalizing e₁ e₂ with
  | nil => exact hfg e₁ e₂ (fun c hc => he c hc (by simp))
  | cons a t ih =>
    simp only [sumOver]
    rw [hs a (by simp)]
    apply Finset.sum_congr rfl
    intro i hi
    apply ih
    · intro c hc; exact hs c (by simp [hc])
    · intro c hc hct
      by_cases hca : c = a
      · subst hca; rw [upd_same, upd_same]; exact hρ _ _
      · rw [upd_ne _ _ _ _ hca, upd_ne _ _ _ _ hca]
        exact he c hc (by simp [hca, hct])

theorem sumOver_congr_fun {size : Nat → Nat} {l : List Nat} {f g : (Nat → Nat) → R} {env : Nat → Nat}
    (h : ∀ e, f e = g e) : sumOver size l f env = sumOver size l g env := by
  have : f = g := funext h
  rw [this]

/-- The sum only depends on the environment through the labels the summand depends on. -/
theorem sumOver_env {size : Nat → Nat} {l : List Nat} {f : (Nat → Nat) → R} {P : Nat → Prop} {e₁ e₂ : Nat → Nat}
    (hf : ∀ e e', AgreeOn P e e' → f e = f e') (he : ∀ c, P c → c ∉ l → e₁ c = e₂ c) :
    sumOver size l f e₁ = sumOver size l f e₂ :=
  sumOver_congr (P := P) (fun _ _ => rfl) (fun e e' _ h => hf e e' h) he

theorem sumOver_perm {size : Nat → Nat} {l₁ l₂ : List Nat} (h : l₁.Perm l₂) (hn : l₁.Nodup) (f : (Nat → Nat) → R)
    (env : Nat → Nat) : sumOver size l₁ f env = sumOver size l₂ f env := by
  induction h generalizing env with
  | nil => rfl
  | cons a h ih =>
    simp only [sumOver]
    exact Finset.sum_congr rfl (fun i _ => ih (List.nodup_cons.mp hn).2 _)
  | swap a b l =>
    simp only [sumOver]
    have hne : b ≠ a := by
      intro e
      subst e
      simp at hn
    rw [Finset.sum_comm]
    refine Finset.sum_congr rfl (fun i _ => Finset.sum_congr rfl (fun j _ => ?_))
    rw [upd_comm _ _ _ _ _ hne]
  | trans h1 h2 ih1 ih2 => rw [ih1 hn, ih2 (h1.nodup_iff.mp hn)]

/-- Values of the summed labels stay below their size. -/
theorem sumOver_congr_range {size : Nat → Nat} {l : List Nat} {f g : (Nat → Nat) → R} {env : Nat → Nat}
    (h : ∀ e, (∀ c ∈ l, e c < size c) → (∀ c, c ∉ l → e c = env c) → f e = g e) :
    sumOver size l f env = sumOver size l g env := by
  induction l generalizing env with
  | nil => exact h env (by simp) (by simp)
  | cons a t ih =>
    simp only [sumOver]
    apply Finset.sum_congr rfl
    intro i hi
    rw [Finset.mem_range] at hi
    by_cases hat : a ∈ t
    · apply ih
      intro e h1 h2
      apply h e
      · intro c hc
        rcases List.mem_cons.mp hc with rfl | hc
        · exact h1 _ hat
        · exact h1 c hc
      · intro c hc
        simp only [List.mem_cons, not_or] at hc
        rw [h2 c hc.2, upd_ne _ _ _ _ hc.1]
    · apply ih
      intro e h1 h2
      apply h e
      · intro c hc
        rcases List.mem_cons.mp hc with rfl | hc
        · rw [h2 _ hat, upd_same]; exact hi
        · exact h1 c hc
      · intro c hc
        simp only [List.mem_cons, not_or] at hc
        rw [h2 c hc.2, upd_ne _ _ _ _ hc.1]

end Add

section Mul
variable [CommSemiring R]

theorem sumOver_mul_left {size : Nat → Nat} {l : List Nat} {f g : (Nat → Nat) → R} {P : Nat → Prop} {env : Nat → Nat}
    (hg : ∀ e e', AgreeOn P e e' → g e = g e') (hP : ∀ c ∈ l, ¬ P c) :
    sumOver size l (fun e => g e * f e) env = g env * sumOver size l f env := by
  induction l generalizing env with
  | nil => rfl
  | cons a t ih =>
    simp only [sumOver]
    rw [Finset.mul_sum]
    apply Finset.sum_congr rfl
    intro i _
    rw [ih (fun c hc => hP c (by simp [hc]))]
    congr 1
    apply hg
    intro c hc
    rw [upd_ne]
    rintro rfl
    exact hP c (by simp) hc

theorem prodVal_nil (env : Nat → Nat) : prodVal ([] : List (Str × Tensor R)) env = 1 := rfl

theorem prodVal_cons (p : Str × Tensor R) (ops : List (Str × Tensor R)) (env : Nat → Nat) :
    prodVal (p :: ops) env = p.2.get (p.1.map env) * prodVal ops env := by
  simp [prodVal]

theorem prodVal_append (a b : List (Str × Tensor R)) (env : Nat → Nat) :
    prodVal (a ++ b) env = prodVal a env * prodVal b env := by
  simp [prodVal]

theorem prodVal_perm {a b : List (Str × Tensor R)} (h : a.Perm b) (env : Nat → Nat) : prodVal a env = prodVal b env := by
  unfold prodVal
  exact (h.map _).prod_eq

/-- Labels occurring in some operand. -/
def Occurs (ops : List (Str × Tensor R)) (c : Nat) : Prop := ∃ p ∈ ops, c ∈ p.1

theorem prodVal_env (ops : List (Str × Tensor R)) (e e' : Nat → Nat) (h : AgreeOn (Occurs ops) e e') :
    prodVal ops e = prodVal ops e' := by
  unfold prodVal
  congr 1
  apply List.map_congr_left
  intro p hp
  congr 1
  apply List.map_congr_left
  intro c hc
  exact h c ⟨p, hp, hc⟩

omit [CommSemiring R] in
theorem Occurs_append (a b : List (Str × Tensor R)) (c : Nat) : Occurs (a ++ b) c ↔ Occurs a c ∨ Occurs b c := by
  simp [Occurs, or_and_right, exists_or]

omit [CommSemiring R] in
theorem Occurs_perm {a b : List (Str × Tensor R)} (h : a.Perm b) (c : Nat) : Occurs a c ↔ Occurs b c := by
  simp [Occurs, h.mem_iff]

/-- The nested form used when one step replaces the operands `P` by their contraction over `rm`. -/
theorem sumOver_contract {size : Nat → Nat} {inner inner' rm : List Nat} {P Q : List (Str × Tensor R)}
    (hperm : inner.Perm (inner' ++ rm)) (hn : inner.Nodup) (hQ : ∀ c ∈ rm, ¬ Occurs Q c) (env : Nat → Nat) :
    sumOver size inner (prodVal (Q ++ P)) env =
      sumOver size inner' (fun e => prodVal Q e * sumOver size rm (prodVal P) e) env := by
  rw [sumOver_perm hperm hn, sumOver_append]
  apply sumOver_congr_fun
  intro e
  have : (prodVal (Q ++ P)) = fun e => prodVal Q e * prodVal P e := funext (fun e => prodVal_append Q P e)
  rw [this]
  exact sumOver_mul_left (P := Occurs Q) (fun e e' h => prodVal_env Q e e' h) hQ

end Mul
end OE
