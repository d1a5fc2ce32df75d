import Verif.Model.Contract
import Verif.Lemmas.DictLemmas
import Verif.Lemmas.Strings

/-! The labels that `contract_path` has sizes for are those of the input terms. -/

namespace OE
open OE.Py OE.Parser OE.Contract OE.Helpers

theorem sizeTerm_keys {d d' : Dict Nat Nat} {ps : List (Nat × Nat)} (h : sizeTerm d ps = .ok d') {c : Nat}
    (hc : (d'.get? c).isSome) : (d.get? c).isSome ∨ c ∈ ps.map Prod.fst := by
  induction ps generalizing d with
  | nil => simp only [sizeTerm, Except.ok.injEq] at h; subst h; exact Or.inl hc
  | cons p t ih =>
    obtain ⟨a, dim⟩ := p
    have hset : ∀ v, ((d.set a v).get? c).isSome → (d.get? c).isSome ∨ c = a := by
      intro v hv
      by_cases hca : c = a
      · exact Or.inr hca
      · rw [OE.Py.Dict.get?_set_ne hca] at hv; exact Or.inl hv
    have hfin : ∀ v, sizeTerm (d.set a v) t = .ok d' → (d.get? c).isSome ∨ c ∈ ((a, dim) :: t).map Prod.fst := by
      intro v hv
      rcases ih hv with h1 | h1
      · rcases hset v h1 with h2 | h2
        · exact Or.inl h2
        · right; simp [h2]
      · right; simp only [List.map_cons, List.mem_cons]; exact Or.inr h1
    rw [sizeTerm] at h
    split at h
    · split at h
      · exact hfin _ h
      · split at h
        · cases h
        · rcases ih h with h1 | h1
          · exact Or.inl h1
          · right; simp only [List.map_cons, List.mem_cons]; exact Or.inr h1
    · exact hfin _ h

theorem sizeLoop_keys {d d' : Dict Nat Nat} {terms : List Str} {shapes : List Shape} (h : sizeLoop d terms shapes = .ok d') {c : Nat}
    (hc : (d'.get? c).isSome) : (d.get? c).isSome ∨ ∃ t ∈ terms, c ∈ t := by
  induction terms generalizing d shapes with
  | nil => simp only [sizeLoop, Except.ok.injEq] at h; subst h; exact Or.inl hc
  | cons t ts ih =>
    cases shapes with
    | nil => cases h
    | cons sh shs =>
      rw [sizeLoop] at h
      split at h
      · cases h
      · simp only [bind, Except.bind] at h
        split at h
        · cases h
        · rename_i d1 hd1
          rcases ih h with h1 | ⟨u, hu, h1⟩
          · rcases sizeTerm_keys hd1 h1 with h2 | h2
            · exact Or.inl h2
            · right
              obtain ⟨p, hp, rfl⟩ := List.mem_map.mp h2
              exact ⟨t, by simp, (List.of_mem_zip hp).1⟩
          · right; exact ⟨u, by simp [hu], h1⟩

theorem computeSize_keys {d : Dict Nat Nat} {l : List Nat} {acc v : Nat}
    (h : l.foldlM (fun ret i => do let x ← d.get! i; pure (ret * x)) acc = (.ok v : Except PyErr Nat)) :
    ∀ c ∈ l, (d.get? c).isSome := by
  induction l generalizing acc with
  | nil => simp
  | cons a t ih =>
    rw [List.foldlM_cons] at h
    simp only [Dict.get!, bind, Except.bind] at h
    cases ha : d.get? a with
    | none => rw [ha] at h; cases h
    | some x =>
      rw [ha] at h
      simp only [pure, Except.pure] at h
      intro c hc
      rcases List.mem_cons.mp hc with rfl | hc
      · rw [ha]; rfl
      · exact ih (acc := acc * x) h c hc

theorem mapM_ok_mem {α β : Type} {f : α → Except PyErr β} {l : List α} {r : List β} (h : l.mapM f = .ok r) :
    ∀ x ∈ l, ∃ y, f x = .ok y := by
  induction l generalizing r with
  | nil => simp
  | cons a t ih =>
    rw [List.mapM_cons] at h
    simp only [bind, Except.bind] at h
    cases ha : f a with
    | error e => rw [ha] at h; cases h
    | ok y =>
      rw [ha] at h
      simp only at h
      cases ht : t.mapM f with
      | error e => rw [ht] at h; cases h
      | ok ys =>
        intro x hx
        rcases List.mem_cons.mp hx with rfl | hx
        · exact ⟨y, ha⟩
        · exact ih ht x hx

namespace Props

/-- Once `contract_path` has accepted an equation, its output holds no comma. -/
theorem no_comma_of_path {inp out : Str} {shapes : List Shape} {opt : Optimize} {mem : MemLimit} {ub : Bool} {info : PathInfo}
    (h : contractPath (splitOn cComma inp) out shapes opt mem ub = .ok info) : cComma ∉ out := by
  unfold contractPath at h
  simp only [bind, Except.bind] at h
  split at h
  · cases h
  rename_i d hd
  split at h
  · cases h
  rename_i sl hsl
  intro hc
  obtain ⟨b, hb⟩ := mapM_ok_mem hsl out (by simp)
  have := computeSize_keys hb _ hc
  rcases sizeLoop_keys hd this with h1 | ⟨t, ht, h1⟩
  · simp [Dict.get?] at h1
  · exact splitOn_mem_free cComma inp t ht h1

end Props

end OE
