import Verif.Model.Random
import Verif.Props.Greedy2

/-!
# C49: `thermal_chooser`
-/

namespace OE.Props
open OE OE.Py OE.Spec OE.Paths

variable {remaining : Dict (Finset Nat) Nat}

/-- What the first loop has done: the choices are live and sorted, no later candidate is smaller, and only candidates that are
not live have been dropped. -/
structure Popped (remaining : Dict (Finset Nat) Nat) (nbranch : Nat) (queue : List GCand) (r : List GCand × List GCand) : Prop where
  perm : (queue.filter (live remaining)).Perm (r.1 ++ r.2.filter (live remaining))
  sub : ∀ c ∈ r.2, c ∈ queue
  len : r.1.length + r.2.length ≤ queue.length
  alive : ∀ c ∈ r.1, live remaining c = true
  mem : ∀ c ∈ r.1, c ∈ queue
  short : r.1.length ≤ nbranch
  all : r.1.length < nbranch → r.2 = []
  sorted : r.1.Pairwise (fun a b => GCand.le a b = true)
  small : ∀ a ∈ r.1, ∀ b ∈ r.2, GCand.le a b = true

theorem popMin_none {α : Type} {le : α → α → Bool} {l : List α} (h : popMin le l = none) : l = [] := by
  by_contra hne
  obtain ⟨a, r, ha⟩ := popMin_ne_none (le := le) hne
  rw [h] at ha; cases ha

theorem popChoices_spec (fuel nbranch : Nat) (queue : List GCand) (hf : queue.length ≤ fuel) :
    Popped remaining nbranch queue (popChoices remaining fuel nbranch queue) := by
  induction fuel generalizing nbranch queue with
  | zero =>
    have : queue = [] := List.length_eq_zero_iff.mp (by omega)
    subst this
    simp only [popChoices]
    constructor <;> simp
  | succ fuel ih =>
    cases nbranch with
    | zero =>
      simp only [popChoices]
      constructor <;> simp
    | succ nbranch =>
      simp only [popChoices]
      cases hp : popMin GCand.le queue with
      | none =>
        have := popMin_none hp
        subst this
        constructor <;> simp
      | some cq =>
        obtain ⟨c, q⟩ := cq
        have hperm := popMin_perm hp
        have hmin := popMin_le gcand_le_total gcand_le_trans hp
        have hlen := hperm.length_eq
        simp only [List.length_cons] at hlen
        have hsub : ∀ x ∈ q, x ∈ queue := fun x hx => hperm.mem_iff.mpr (by simp [hx])
        simp only
        split
        · rename_i hl
          have h := ih nbranch q (by omega)
          generalize popChoices remaining fuel nbranch q = r at *
          refine ⟨?_, fun x hx => hsub x (h.sub x hx), ?_, ?_, ?_, ?_, ?_, ?_, ?_⟩
          · refine (hperm.filter _).trans ?_
            rw [List.filter_cons_of_pos hl]
            exact h.perm.cons c
          · have := h.len
            simp only [List.length_cons]; omega
          · intro x hx
            rcases List.mem_cons.mp hx with rfl | hx
            · exact hl
            · exact h.alive x hx
          · intro x hx
            rcases List.mem_cons.mp hx with rfl | hx
            · exact hperm.mem_iff.mpr (by simp)
            · exact hsub x (h.mem x hx)
          · have := h.short
            simp only [List.length_cons]; omega
          · intro hlt
            apply h.all
            simp only [List.length_cons] at hlt; omega
          · rw [List.pairwise_cons]
            exact ⟨fun x hx => hmin x (hsub x (h.mem x hx)), h.sorted⟩
          · intro a ha b hb
            rcases List.mem_cons.mp ha with rfl | ha
            · exact hmin b (hsub b (h.sub b hb))
            · exact h.small a ha b hb
        · rename_i hl
          have h := ih (nbranch + 1) q (by omega)
          generalize popChoices remaining fuel (nbranch + 1) q = r at *
          refine ⟨?_, fun x hx => hsub x (h.sub x hx), ?_, h.alive, fun x hx => hsub x (h.mem x hx), h.short, h.all, h.sorted, h.small⟩
          · refine (hperm.filter _).trans ?_
            rw [List.filter_cons_of_neg hl]
            exact h.perm
          · have := h.len
            omega

/-- The pick is one of the choices. -/
def PickOK (pick : Path → List ℚ → Nat) : Prop := ∀ path costs, costs ≠ [] → pick path costs < costs.length

/-- At temperature zero the weights of all choices with a larger cost than the first are zero. -/
def PickCold (pick : Path → List ℚ → Nat) : Prop := ∀ path costs, costs ≠ [] → costs[pick path costs]? = costs[0]?

theorem eraseIdx_perm {α : Type} {l : List α} {i : Nat} {a : α} (h : l[i]? = some a) : l.Perm (a :: l.eraseIdx i) := by
  induction l generalizing i with
  | nil => simp at h
  | cons x l ih =>
    cases i with
    | zero => simp at h; subst h; rfl
    | succ i =>
      simp only [List.getElem?_cons_succ] at h
      simp only [List.eraseIdx_cons_succ]
      exact ((ih h).cons x).trans (List.Perm.swap _ _ _)

/-- Every result of `thermal_chooser` in terms of its choices. -/
theorem thermal_cases (nbranch : Nat) {pick : Path → List ℚ → Nat} (hpick : PickOK pick) (path : Path) (queue : List GCand) :
    ∃ choices q, Popped remaining nbranch queue (choices, q) ∧
      ((choices = [] ∧ thermalChooser nbranch pick path queue remaining = (none, q)) ∨
       ∃ i c, choices[i]? = some c ∧ (choices.length = 1 ∨ i = pick path (choices.map GCand.cost)) ∧
         thermalChooser nbranch pick path queue remaining = (some c, choices.eraseIdx i ++ q)) := by
  have h := popChoices_spec (remaining := remaining) queue.length nbranch queue (le_refl _)
  unfold thermalChooser
  simp only
  generalize popChoices remaining queue.length nbranch queue = r at *
  obtain ⟨choices, q⟩ := r
  refine ⟨choices, q, h, ?_⟩
  match choices with
  | [] => exact Or.inl ⟨rfl, rfl⟩
  | [c] => exact Or.inr ⟨0, c, rfl, Or.inl rfl, rfl⟩
  | c :: c' :: cs =>
    right
    have hlt := hpick path ((c :: c' :: cs).map GCand.cost) (by simp)
    rw [List.length_map] at hlt
    have hg := List.getElem?_eq_getElem hlt
    refine ⟨_, _, hg, Or.inr rfl, ?_⟩
    simp only
    rw [hg]

/-- **C49.** Whatever is drawn, for any queue and any map of remaining terms: the candidate returned is a candidate of the queue
whose two terms both remain, and fewer than `nbranch` live candidates are smaller than it; nothing is returned only if there is
no live candidate; the new queue holds every other live candidate as many times as before, and nothing that was not in the
queue. -/
theorem C49_thermal_chooser (nbranch : Nat) (hb : 0 < nbranch) {pick : Path → List ℚ → Nat} (hpick : PickOK pick) (path : Path)
    (queue : List GCand) (remaining : Dict (Finset Nat) Nat) :
    (∀ c, (thermalChooser nbranch pick path queue remaining).1 = some c →
      c ∈ queue ∧ c.k1 ∈ remaining.keys ∧ c.k2 ∈ remaining.keys ∧
      (queue.filter (fun x => decide (x.k1 ∈ remaining.keys ∧ x.k2 ∈ remaining.keys))).Perm
        (c :: (thermalChooser nbranch pick path queue remaining).2.filter (fun x => decide (x.k1 ∈ remaining.keys ∧ x.k2 ∈ remaining.keys))) ∧
      (queue.filter (fun x => decide (x.k1 ∈ remaining.keys ∧ x.k2 ∈ remaining.keys) && !GCand.le c x)).length < nbranch) ∧
    ((thermalChooser nbranch pick path queue remaining).1 = none →
      ∀ x ∈ queue, ¬ (x.k1 ∈ remaining.keys ∧ x.k2 ∈ remaining.keys)) ∧
    ∀ x ∈ (thermalChooser nbranch pick path queue remaining).2, x ∈ queue := by
  have hlive : (fun x : GCand => decide (x.k1 ∈ remaining.keys ∧ x.k2 ∈ remaining.keys)) = live remaining := by
    funext x
    unfold live
    rw [Bool.eq_iff_iff, decide_eq_true_eq, Bool.and_eq_true, Dict.has_iff, Dict.has_iff]
  have hl' : ∀ x : GCand, live remaining x = true ↔ x.k1 ∈ remaining.keys ∧ x.k2 ∈ remaining.keys := by
    intro x
    rw [← hlive, decide_eq_true_eq]
  have hlive2 : ∀ c : GCand, (fun x : GCand => decide (x.k1 ∈ remaining.keys ∧ x.k2 ∈ remaining.keys) && !GCand.le c x) =
      fun x => live remaining x && !GCand.le c x := by
    intro c
    funext x
    rw [← hlive]
  simp only [hlive2]
  rw [hlive]
  obtain ⟨choices, q, h, ⟨h0, he⟩ | ⟨i, c, hc, _, he⟩⟩ := thermal_cases (remaining := remaining) nbranch hpick path queue
  · rw [he]
    refine ⟨by simp, fun _ x hx hx' => ?_, h.sub⟩
    have hq : q = [] := h.all (by simp only [h0, List.length_nil]; exact hb)
    have := h.perm.mem_iff.mp (List.mem_filter.mpr ⟨hx, (hl' x).mpr hx'⟩)
    simp [h0, hq] at this
  · rw [he]
    have hcm : c ∈ choices := List.mem_of_getElem? hc
    refine ⟨?_, by simp, ?_⟩
    · rintro c' ⟨⟩
      refine ⟨h.mem c hcm, ((hl' c).mp (h.alive c hcm)).1, ((hl' c).mp (h.alive c hcm)).2, ?_, ?_⟩
      · refine h.perm.trans ?_
        simp only [List.filter_append]
        rw [← List.cons_append]
        refine List.Perm.append_right _ ?_
        refine (eraseIdx_perm hc).trans ?_
        have : (choices.eraseIdx i).filter (live remaining) = choices.eraseIdx i := by
          apply List.filter_eq_self.mpr
          intro x hx
          exact h.alive x (List.mem_of_mem_eraseIdx hx)
        rw [this]
      · rw [← List.filter_filter]
        have hp2 : ((queue.filter (fun x => live remaining x)).filter (fun x => !GCand.le c x)).Perm
            ((c :: choices.eraseIdx i ++ q.filter (live remaining)).filter (fun x => !GCand.le c x)) := by
          refine List.Perm.filter _ ?_
          refine h.perm.trans ?_
          exact List.Perm.append_right _ (eraseIdx_perm hc)
        have hcomm : queue.filter (fun x => live remaining x && !GCand.le c x) =
            (queue.filter (fun x => live remaining x)).filter (fun x => !GCand.le c x) := by
          rw [List.filter_filter]
          congr 1
          funext x
          exact Bool.and_comm _ _
        rw [List.filter_filter] 
        rw [hcomm]
        rw [hp2.length_eq, List.filter_append]
        have hz : (q.filter (live remaining)).filter (fun x => !GCand.le c x) = [] := by
          rw [List.filter_eq_nil_iff]
          intro x hx
          have := h.small c hcm x (List.mem_filter.mp hx).1
          simp [this]
        have hcc : GCand.le c c = true := (gcand_le_total c c).elim id id
        rw [hz, List.append_nil, List.filter_cons_of_neg (by simp [hcc])]
        have h1 := List.length_filter_le (fun x => !GCand.le c x) (choices.eraseIdx i)
        have h2 := (eraseIdx_perm hc).length_eq
        have h3 := h.short
        simp only [List.length_cons] at h2
        simp only at h3
        omega
    · intro x hx
      rcases List.mem_append.mp hx with hx | hx
      · exact h.mem x (List.mem_of_mem_eraseIdx hx)
      · exact h.sub x hx

/-- **C49, temperature zero.** Then the candidate returned has the smallest cost of all live candidates. -/
theorem C49_thermal_cold (nbranch : Nat) {pick : Path → List ℚ → Nat} (hpick : PickOK pick) (hcold : PickCold pick)
    (path : Path) (queue : List GCand) (remaining : Dict (Finset Nat) Nat) (c : GCand)
    (hc : (thermalChooser nbranch pick path queue remaining).1 = some c) :
    ∀ x ∈ queue, x.k1 ∈ remaining.keys → x.k2 ∈ remaining.keys → c.cost ≤ x.cost := by
  intro x hx h1 h2
  obtain ⟨choices, q, h, ⟨h0, he⟩ | ⟨i, c', hc', hi, he⟩⟩ := thermal_cases (remaining := remaining) nbranch hpick path queue
  · rw [he] at hc; cases hc
  · rw [he] at hc
    cases hc
    have hcost : ∃ c0 cs, choices = c0 :: cs ∧ c.cost = c0.cost := by
      cases choices with
      | nil => simp at hc'
      | cons c0 cs =>
        refine ⟨c0, cs, rfl, ?_⟩
        rcases hi with hi | hi
        · have : cs = [] := by
            simp only [List.length_cons] at hi
            exact List.length_eq_zero_iff.mp (by omega)
          subst this
          have := List.mem_of_getElem? hc'
          rw [List.mem_singleton] at this
          rw [this]
        · have := hcold path ((c0 :: cs).map GCand.cost) (by simp)
          rw [← hi, List.getElem?_map, hc'] at this
          simpa using this
    obtain ⟨c0, cs, rfl, hc0⟩ := hcost
    rw [hc0]
    have hlx : live remaining x = true := by
      unfold live
      rw [Bool.and_eq_true, Dict.has_iff, Dict.has_iff]
      exact ⟨h1, h2⟩
    have hle : GCand.le c0 x = true := by
      have := h.perm.mem_iff.mp (List.mem_filter.mpr ⟨hx, hlx⟩)
      rcases List.mem_append.mp this with hm | hm
      · have hs := h.sorted
        rw [List.pairwise_cons] at hs
        rcases List.mem_cons.mp hm with rfl | hm
        · exact (gcand_le_total x x).elim id id
        · exact hs.1 x hm
      · exact h.small c0 (by simp) x (List.mem_filter.mp hm).1
    rcases (gcand_le_iff c0 x).mp hle with h' | h'
    · exact le_of_lt h'
    · exact le_of_eq h'.1

/-- `thermal_chooser` is a chooser in the sense of C16. -/
theorem thermal_ok (nbranch : Nat) (hb : 0 < nbranch) {pick : Path → List ℚ → Nat} (hpick : PickOK pick) :
    ChooserOK (thermalChooser nbranch pick) := by
  intro path queue remaining hq
  obtain ⟨h1, _, h3⟩ := C49_thermal_chooser nbranch hb hpick path queue remaining
  refine ⟨?_, h3, fun c hc => ⟨(h1 c hc).1, (h1 c hc).2.1, (h1 c hc).2.2.1⟩⟩
  obtain ⟨choices, q, h, ⟨h0, he⟩ | ⟨i, c, hc, _, he⟩⟩ := thermal_cases (remaining := remaining) nbranch hpick path queue
  · rw [he]
    have hq' : q = [] := h.all (by simp only [h0, List.length_nil]; exact hb)
    simp only [hq', List.length_nil]
    exact List.length_pos_iff.mpr hq
  · rw [he]
    have h2 := (eraseIdx_perm hc).length_eq
    have h4 := h.len
    simp only [List.length_cons] at h2
    simp only [List.length_append] at h4 ⊢
    omega

-- C49: three candidates, the cheapest obsolete; drawing the second of two live ones
example :
    (thermalChooser 2 (fun _ c => c.length - 1) [] [⟨5, 3, 1, {1}, {3}, {4}⟩, ⟨1, 2, 0, {7}, {3}, {4}⟩, ⟨2, 2, 1, {1}, {2}, {5}⟩]
      [({1}, 1), ({2}, 2), ({3}, 3)]) = (some ⟨5, 3, 1, {1}, {3}, {4}⟩, [⟨2, 2, 1, {1}, {2}, {5}⟩]) := by decide +kernel

end OE.Props
