import Verif.Lemmas.Sum
import Verif.Props.Parser3

/-! Shapes and values of one einsum step. -/

namespace OE
open OE.Py
variable {R : Type}

theorem zip_map_fst_snd {α β : Type} (l : List (α × β)) : (l.map Prod.fst).zip (l.map Prod.snd) = l := by
  induction l with
  | nil => rfl
  | cons a t ih => simp [ih]

theorem zip_map_map {α γ δ : Type} (l : List α) (f : α → γ) (g : α → δ) :
    (l.map f).zip (l.map g) = l.map (fun x => (f x, g x)) := by
  induction l with
  | nil => rfl
  | cons a t ih => simp [ih]

theorem mem_zip_map_right {α β : Type} {l : List α} {f : α → β} {c : α} {d : β} :
    (c, d) ∈ l.zip (l.map f) ↔ c ∈ l ∧ d = f c := by
  induction l with
  | nil => simp
  | cons a t ih =>
    simp only [List.map_cons, List.zip_cons_cons, List.mem_cons, Prod.mk.injEq, ih]
    constructor
    · rintro (⟨rfl, rfl⟩ | ⟨h1, h2⟩)
      · simp
      · exact ⟨Or.inr h1, h2⟩
    · rintro ⟨rfl | h, rfl⟩
      · simp
      · simp [h]

/-- The label `c` has dimension `d` in some operand. -/
def HasDim (ops : List (Str × Tensor R)) (c d : Nat) : Prop := ∃ p ∈ ops, (c, d) ∈ p.1.zip p.2.shape

theorem HasDim.occurs {ops : List (Str × Tensor R)} {c d : Nat} (h : HasDim ops c d) : Occurs ops c := by
  obtain ⟨p, hp, h⟩ := h
  exact ⟨p, hp, (List.of_mem_zip h).1⟩

theorem HasDim_append (a b : List (Str × Tensor R)) (c d : Nat) : HasDim (a ++ b) c d ↔ HasDim a c d ∨ HasDim b c d := by
  simp [HasDim, or_and_right, exists_or]

theorem HasDim_perm {a b : List (Str × Tensor R)} (h : a.Perm b) (c d : Nat) : HasDim a c d ↔ HasDim b c d := by
  simp [HasDim, h.mem_iff]

theorem mem_labelDims (terms : List Str) (shapes : List Shape) (c x : Nat) :
    x ∈ labelDims terms shapes c ↔ ∃ p ∈ terms.zip shapes, (c, x) ∈ p.1.zip p.2 :=
  Props.mem_dimsOf terms shapes c x

/-- Dimensions of `c` in labelled operands. -/
def opDims (ops : List (Str × Tensor R)) (c : Nat) : List Nat :=
  labelDims (ops.map Prod.fst) ((ops.map Prod.snd).map Tensor.shape) c

theorem mem_opDims (ops : List (Str × Tensor R)) (c x : Nat) : x ∈ opDims ops c ↔ HasDim ops c x := by
  unfold opDims
  rw [mem_labelDims, List.map_map, zip_map_map]
  simp [HasDim]

/-- The broadcast size of a label over some operands. -/
def localSize (ops : List (Str × Tensor R)) (c : Nat) : Nat := bdim (opDims ops c)

theorem foldl_bdim_one {dims : List Nat} {s : Nat} (h : ∀ d ∈ dims, d = 1 ∨ d = s) (acc : Nat)
    (ha : acc = 1 ∨ acc = s) :
    (dims.foldl (fun acc d => if acc = 1 then d else acc) acc = s ∧ (acc = s ∨ s ∈ dims)) ∨
    (dims.foldl (fun acc d => if acc = 1 then d else acc) acc = 1 ∧ acc = 1 ∧ ∀ d ∈ dims, d = 1) := by
  induction dims generalizing acc with
  | nil => rcases ha with rfl | rfl <;> simp
  | cons d t ih =>
    simp only [List.foldl_cons]
    have hd := h d (by simp)
    by_cases h1 : acc = 1
    · rw [if_pos h1]
      rcases ih (fun d hd => h d (by simp [hd])) d hd with ⟨e1, e2⟩ | ⟨e1, e2, e3⟩
      · left; refine ⟨e1, ?_⟩
        right; rcases e2 with e2 | e2
        · simp [e2]
        · simp [e2]
      · right; exact ⟨e1, h1, by simp [e2]; exact e3⟩
    · rw [if_neg h1]
      have has : acc = s := by rcases ha with h | h; exact absurd h h1; exact h
      rcases ih (fun d hd => h d (by simp [hd])) acc ha with ⟨e1, e2⟩ | ⟨e1, e2, e3⟩
      · left; exact ⟨e1, Or.inl has⟩
      · exact absurd e2 h1

theorem bdim_eq {dims : List Nat} {s : Nat} (h : ∀ d ∈ dims, d = 1 ∨ d = s) (hs : s ∈ dims) : bdim dims = s := by
  rcases foldl_bdim_one h 1 (Or.inl rfl) with ⟨e1, _⟩ | ⟨e1, _, e3⟩
  · exact e1
  · rw [e3 s hs]; exact e1

theorem bdim_dims {dims : List Nat} {s : Nat} (h : ∀ d ∈ dims, d = 1 ∨ d = s) : ∀ d ∈ dims, d = 1 ∨ d = bdim dims := by
  intro d hd
  rcases foldl_bdim_one h 1 (Or.inl rfl) with ⟨e1, _⟩ | ⟨e1, _, e3⟩
  · rw [show bdim dims = s from e1]; exact h d hd
  · left; exact e3 d hd

theorem bdim_mem {dims : List Nat} {s : Nat} (h : ∀ d ∈ dims, d = 1 ∨ d = s) (hne : dims ≠ []) : bdim dims ∈ dims := by
  obtain ⟨x, hx⟩ := List.exists_mem_of_ne_nil dims hne
  rcases foldl_bdim_one h 1 (Or.inl rfl) with ⟨e1, e2⟩ | ⟨e1, _, e3⟩
  · rw [show bdim dims = s from e1]
    rcases e2 with e2 | e2
    · have := h x hx
      rw [← e2] at this
      simp only [or_self] at this
      rw [← e2, ← this]; exact hx
    · exact e2
  · rw [show bdim dims = 1 from e1, ← e3 x hx]; exact hx

/-- The operands fit their terms and the label sizes. -/
structure Fits (size : Nat → Nat) (ops : List (Str × Tensor R)) : Prop where
  rank : ∀ p ∈ ops, p.1.length = p.2.shape.length
  diag : ∀ p ∈ ops, ∀ c d d', (c, d) ∈ p.1.zip p.2.shape → (c, d') ∈ p.1.zip p.2.shape → d = d'
  dims : ∀ c d, HasDim ops c d → d = 1 ∨ d = size c
  full : ∀ c, Occurs ops c → HasDim ops c (size c)

theorem Fits.perm {size : Nat → Nat} {a b : List (Str × Tensor R)} (h : Fits size a) (hp : a.Perm b) : Fits size b where
  rank := fun p hm => h.rank p (hp.mem_iff.mpr hm)
  diag := fun p hm => h.diag p (hp.mem_iff.mpr hm)
  dims := fun c d hd => h.dims c d ((HasDim_perm hp c d).mpr hd)
  full := fun c hc => (HasDim_perm hp c _).mp (h.full c ((Occurs_perm hp c).mpr hc))

theorem exists_dim_of_occurs {ops : List (Str × Tensor R)} (hr : ∀ p ∈ ops, p.1.length = p.2.shape.length) {c : Nat}
    (h : Occurs ops c) : ∃ d, HasDim ops c d := by
  obtain ⟨p, hp, hc⟩ := h
  obtain ⟨i, hi, rfl⟩ := List.getElem_of_mem hc
  refine ⟨p.2.shape[i]'(by rw [← hr p hp]; exact hi), p, hp, ?_⟩
  rw [List.mem_iff_getElem?]
  refine ⟨i, ?_⟩
  rw [List.getElem?_zip_eq_some]
  exact ⟨List.getElem?_eq_getElem hi, List.getElem?_eq_getElem _⟩

/-- A part of the operands fits its own broadcast sizes. -/
theorem Fits.sub {size : Nat → Nat} {ops P : List (Str × Tensor R)} (h : Fits size ops) (hsub : ∀ p ∈ P, p ∈ ops) :
    Fits (localSize P) P := by
  have hd : ∀ c, ∀ d ∈ opDims P c, d = 1 ∨ d = size c := by
    intro c d hd
    rw [mem_opDims] at hd
    obtain ⟨p, hp, hd⟩ := hd
    exact h.dims c d ⟨p, hsub p hp, hd⟩
  refine ⟨fun p hp => h.rank p (hsub p hp), fun p hp => h.diag p (hsub p hp), ?_, ?_⟩
  · intro c d hcd
    exact bdim_dims (hd c) d ((mem_opDims P c d).mpr hcd)
  · intro c hc
    rw [← mem_opDims]
    apply bdim_mem (hd c)
    obtain ⟨d, hd⟩ := exists_dim_of_occurs (fun p hp => h.rank p (hsub p hp)) hc
    exact List.ne_nil_of_mem ((mem_opDims P c d).mpr hd)

/-- The local size equals the global size when an operand with the global size is among the operands. -/
theorem localSize_eq {size : Nat → Nat} {ops P : List (Str × Tensor R)} (h : Fits size ops) (hsub : ∀ p ∈ P, p ∈ ops)
    {c : Nat} (hc : HasDim P c (size c)) : localSize P c = size c := by
  apply bdim_eq _ ((mem_opDims P c _).mpr hc)
  intro d hd
  rw [mem_opDims] at hd
  obtain ⟨p, hp, hd⟩ := hd
  exact h.dims c d ⟨p, hsub p hp, hd⟩

variable [CommSemiring R]

/-- `einsumCore` succeeds on fitting operands, with the expected shape and entries. -/
theorem einsumCore_ok {P : List (Str × Tensor R)} {r : Str} (h : Fits (localSize P) P) (hn : r.Nodup)
    (hr : ∀ c ∈ r, Occurs P c) :
    einsumCore (P.map Prod.fst) r (P.map Prod.snd) = .ok
      { shape := r.map (localSize P),
        val := fun coords => sumOver (localSize P) (innerLabels (P.map Prod.fst) r) (prodVal P) (envOf r coords) } := by
  have hzip : (P.map Prod.fst).zip ((P.map Prod.snd).map Tensor.shape) = P.map (fun p => (p.1, p.2.shape)) := by
    rw [List.map_map, zip_map_map]; rfl
  have hfl : ∀ c, c ∈ (P.map Prod.fst).flatten ↔ Occurs P c := by
    intro c; simp [Occurs]
  unfold einsumCore
  simp only [List.length_map, ne_eq, not_true_eq_false, if_false]
  rw [if_neg, if_neg, if_neg, if_neg]
  · rw [zip_map_fst_snd]; rfl
  · rw [not_or, not_not]
    refine ⟨hn, ?_⟩
    simp only [List.any_eq_true, decide_eq_true_eq, not_exists, not_and, not_not]
    intro c hc; exact (hfl c).mpr (hr c hc)
  · simp only [List.any_eq_true, not_exists, not_and, Bool.not_eq_true, Bool.not_eq_false']
    intro c _
    simp only [List.all_eq_true, Bool.or_eq_true, decide_eq_true_eq]
    intro d hd
    exact h.dims c d ((mem_opDims P c d).mp hd)
  · rw [hzip]
    simp only [List.any_eq_true, not_exists, not_and, Bool.not_eq_true, Bool.not_eq_false']
    intro x hx
    obtain ⟨p, hp, rfl⟩ := List.mem_map.mp hx
    simp only [List.all_eq_true, decide_eq_true_eq]
    intro c hc d hd
    have hsame : ∀ d ∈ labelDims [p.1] [p.2.shape] c, (c, d) ∈ p.1.zip p.2.shape := by
      intro d hd
      rw [mem_labelDims] at hd
      obtain ⟨q, hq, hd⟩ := hd
      simp only [List.zip_cons_cons, List.zip_nil_right, List.mem_singleton] at hq
      subst hq; exact hd
    symm
    apply bdim_eq _ hd
    intro d' hd'
    right; exact h.diag p hp c d' d (hsame d' hd') (hsame d hd)
  · rw [hzip]
    simp only [List.any_eq_true, decide_eq_true_eq, not_exists, not_and, not_not]
    intro x hx
    obtain ⟨p, hp, rfl⟩ := List.mem_map.mp hx
    exact h.rank p hp

theorem envOf_map {r : Str} {g : Nat → Nat} {c : Nat} (hc : c ∈ r) : envOf r (r.map g) c = g c := by
  unfold envOf
  have hlt : r.idxOf c < r.length := List.idxOf_lt_length_of_mem hc
  rw [List.getD_eq_getElem?_getD, List.getElem?_map, List.getElem?_eq_getElem hlt]
  simp

omit [CommSemiring R] in
/-- Entries of a fitting operand only depend on the label values up to broadcasting. -/
theorem get_bc {size : Nat → Nat} {ops : List (Str × Tensor R)} (h : Fits size ops) {p : Str × Tensor R} (hp : p ∈ ops)
    (e e' : Nat → Nat) (he : ∀ c ∈ p.1, bc (size c) (e c) = bc (size c) (e' c)) :
    p.2.get (p.1.map e) = p.2.get (p.1.map e') := by
  unfold Tensor.get
  congr 1
  apply List.ext_getElem?
  intro i
  simp only [List.getElem?_zipWith, List.getElem?_map]
  cases hs : p.2.shape[i]? with
  | none => rfl
  | some d =>
    cases ht : p.1[i]? with
    | none => rfl
    | some c =>
      simp only [Option.map_some, Option.some.injEq]
      have hz : (c, d) ∈ p.1.zip p.2.shape := by
        rw [List.mem_iff_getElem?]; exact ⟨i, by rw [List.getElem?_zip_eq_some]; exact ⟨ht, hs⟩⟩
      have hcm := (List.of_mem_zip hz).1
      have := he c hcm
      rcases h.dims c d ⟨p, hp, hz⟩ with rfl | rfl
      · simp [bc]
      · exact this

theorem prodVal_bc {size : Nat → Nat} {ops : List (Str × Tensor R)} (h : Fits size ops) (e e' : Nat → Nat)
    (he : ∀ c, Occurs ops c → bc (size c) (e c) = bc (size c) (e' c)) : prodVal ops e = prodVal ops e' := by
  unfold prodVal
  congr 1
  apply List.map_congr_left
  intro p hp
  exact get_bc h hp e e' (fun c hc => he c ⟨p, hp, hc⟩)

theorem bc_bc (d i : Nat) : bc d (bc d i) = bc d i := by
  unfold bc; split <;> rfl

theorem mem_innerLabels {terms : List Str} {out : Str} {c : Nat} :
    c ∈ innerLabels terms out ↔ (∃ t ∈ terms, c ∈ t) ∧ c ∉ out := by
  simp [innerLabels]

theorem innerLabels_nodup (terms : List Str) (out : Str) : (innerLabels terms out).Nodup :=
  (List.nodup_dedup _).filter _

/-- What a step has to deliver: the broadcast shape, and the sum over the removed labels. -/
structure IsContraction (size : Nat → Nat) (P : List (Str × Tensor R)) (r : Str) (T : Tensor R) : Prop where
  shape : T.shape = r.map (localSize P)
  get : ∀ env, T.get (r.map env) = sumOver size (innerLabels (P.map Prod.fst) r) (prodVal P) env

/-- The einsum of a step is the contraction, if the summed labels have their global size among the popped
operands. -/
theorem einsumCore_contraction {size : Nat → Nat} {P : List (Str × Tensor R)} {r : Str} (h : Fits (localSize P) P)
    (hn : r.Nodup) (hr : ∀ c ∈ r, Occurs P c) (hs : ∀ c, Occurs P c → c ∉ r → localSize P c = size c) :
    ∃ T, einsumCore (P.map Prod.fst) r (P.map Prod.snd) = .ok T ∧ IsContraction size P r T := by
  refine ⟨_, einsumCore_ok h hn hr, rfl, ?_⟩
  intro env
  have hmem : ∀ c, c ∈ innerLabels (P.map Prod.fst) r ↔ Occurs P c ∧ c ∉ r := by
    intro c; rw [mem_innerLabels]; simp [Occurs]
  unfold Tensor.get
  simp only
  have hz : List.zipWith bc (r.map (localSize P)) (r.map env) = r.map (fun c => bc (localSize P c) (env c)) := by
    rw [List.zipWith_map]; simp
  rw [hz]
  apply sumOver_rel (P := Occurs P) (ρ := fun c i j => bc (localSize P c) i = bc (localSize P c) j) (fun _ _ => rfl)
  · intro c hc
    rw [hmem] at hc
    exact hs c hc.1 hc.2
  · intro e e' he
    exact prodVal_bc h e e' he
  · intro c hc hcl
    rw [hmem] at hcl
    have hcr : c ∈ r := by by_contra hcr; exact hcl ⟨hc, hcr⟩
    rw [envOf_map hcr, bc_bc]

end OE
