import Mathlib.Data.List.Basic

/-! An invariant rule for loops that may stop. -/

namespace OE.Paths

/-- If every iteration succeeds, keeps `Inv`, moves along the preorder `R` and establishes `P x`, which is stable under
`R`, then the loop succeeds, keeps `Inv`, moves along `R` and establishes `P x` for all `x`. -/
theorem foldlM_rule {σ β : Type} {f : σ → β → Option σ} (Inv : σ → Prop) (R : σ → σ → Prop) (P : β → σ → Prop)
    (hrefl : ∀ s, R s s) (htrans : ∀ s t u, R s t → R t u → R s u) (hP : ∀ x s t, R s t → P x s → P x t)
    (l : List β) (hstep : ∀ s, ∀ x ∈ l, Inv s → ∃ s', f s x = some s' ∧ Inv s' ∧ R s s' ∧ P x s')
    (s : σ) (hs : Inv s) : ∃ s', l.foldlM f s = some s' ∧ Inv s' ∧ R s s' ∧ ∀ x ∈ l, P x s' := by
  induction l generalizing s with
  | nil => exact ⟨s, rfl, hs, hrefl s, by simp⟩
  | cons a t ih =>
    obtain ⟨s1, h1, h2, h3, h4⟩ := hstep s a (by simp) hs
    obtain ⟨s2, g1, g2, g3, g4⟩ := ih (fun s x hx => hstep s x (List.mem_cons_of_mem _ hx)) s1 h2
    refine ⟨s2, ?_, g2, htrans _ _ _ h3 g3, ?_⟩
    · rw [List.foldlM_cons, h1]; exact g1
    · intro x hx
      rcases List.mem_cons.mp hx with rfl | hx
      · exact hP _ _ _ g3 h4
      · exact g4 x hx

theorem foldlM_inv {σ β : Type} {f : σ → β → Option σ} (Inv : σ → Prop) (l : List β)
    (hstep : ∀ s, ∀ x ∈ l, Inv s → ∃ s', f s x = some s' ∧ Inv s') (s : σ) (hs : Inv s) :
    ∃ s', l.foldlM f s = some s' ∧ Inv s' := by
  obtain ⟨s', h1, h2, _⟩ := foldlM_rule Inv (fun _ _ => True) (fun _ _ => True) (by simp) (by simp) (by simp) l
    (fun s x hx hs => by obtain ⟨s', h⟩ := hstep s x hx hs; exact ⟨s', h.1, h.2, trivial, trivial⟩) s hs
  exact ⟨s', h1, h2⟩

end OE.Paths
