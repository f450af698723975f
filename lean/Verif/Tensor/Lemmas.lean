import Verif.Tensor.Arrays
/-! Lemmas about row-major arrays. -/

namespace Verif.Tensor

/-- An array holds one element per index. -/
def Arr.WF {α : Type} (a : Arr α) : Prop := a.data.length = size a.shape

theorem inB_iff (idx sh : List Nat) : inB idx sh = true ↔ InB idx sh := by
  induction idx generalizing sh with
  | nil => cases sh <;> simp [inB, InB]
  | cons i ir ih => cases sh with
    | nil => simp [inB, InB]
    | cons d dr =>
      have := ih dr
      simp only [InB] at this
      simp [inB, InB, this]

theorem mem_ndindex (idx sh : List Nat) : idx ∈ ndindex sh ↔ InB idx sh := by
  induction sh generalizing idx with
  | nil => cases idx <;> simp [ndindex, InB]
  | cons d r ih =>
    simp only [ndindex, List.mem_flatMap, List.mem_range, List.mem_map]
    constructor
    · rintro ⟨i, hi, x, hx, rfl⟩
      exact List.Forall₂.cons hi ((ih x).1 hx)
    · intro h
      cases h with
      | cons h1 h2 => exact ⟨_, h1, _, (ih _).2 h2, rfl⟩

theorem flatMap_range_length {β : Type} (d : Nat) (f : Nat → List β) (m : Nat) (h : ∀ i, (f i).length = m) :
    ((List.range d).flatMap f).length = d * m := by
  induction d with
  | zero => simp
  | succ d ih => rw [List.range_succ, List.flatMap_append, List.length_append, ih]; simp [h]; ring

theorem ndindex_length (sh : List Nat) : (ndindex sh).length = size sh := by
  induction sh with
  | nil => rfl
  | cons d r ih =>
    simp only [ndindex, size]
    exact flatMap_range_length d _ _ (fun i => by simp [ih])

theorem flatMap_range_get {β : Type} (d : Nat) (f : Nat → List β) (m i j : Nat) (h : ∀ i, (f i).length = m)
    (hi : i < d) (hj : j < m) : ((List.range d).flatMap f)[i * m + j]? = (f i)[j]? := by
  induction d with
  | zero => omega
  | succ d ih =>
    rw [List.range_succ, List.flatMap_append]
    have hl := flatMap_range_length d f m h
    by_cases hid : i < d
    · rw [List.getElem?_append_left, ih hid]
      rw [hl]
      have : (i + 1) * m ≤ d * m := Nat.mul_le_mul_right m hid
      have : i * m + m = (i + 1) * m := by ring
      omega
    · have : i = d := by omega
      subst this
      rw [List.getElem?_append_right (by omega), hl]
      simp

theorem ravel_lt (sh idx : List Nat) (h : InB idx sh) : ravel sh idx < size sh := by
  induction sh generalizing idx with
  | nil => cases h; simp [ravel, size]
  | cons d r ih =>
    cases h with
    | cons h1 h2 =>
      rename_i i ir
      have := ih _ h2
      simp only [ravel, size]
      have : (i + 1) * size r ≤ d * size r := Nat.mul_le_mul_right _ h1
      have : (i + 1) * size r = i * size r + size r := by ring
      omega

theorem ndindex_ravel (sh idx : List Nat) (h : InB idx sh) : (ndindex sh)[ravel sh idx]? = some idx := by
  induction sh generalizing idx with
  | nil => cases h; rfl
  | cons d r ih =>
    cases h with
    | cons h1 h2 =>
      rename_i i ir
      simp only [ndindex, ravel]
      rw [flatMap_range_get d _ (size r) i _ (fun i => by simp [ndindex_length]) h1 (ravel_lt _ _ h2)]
      simp [ih _ h2]

theorem mapE_total {α β : Type} (f : α → Except Err β) (l : List α) (h : ∀ x ∈ l, ∃ y, f x = .ok y) :
    ∃ ys, mapE f l = .ok ys := by
  induction l with
  | nil => exact ⟨[], rfl⟩
  | cons x r ih =>
    obtain ⟨y, hy⟩ := h x (by simp)
    obtain ⟨ys, hys⟩ := ih (fun z hz => h z (by simp [hz]))
    exact ⟨y :: ys, by simp [mapE, hy, hys, bind, Except.bind, pure, Except.pure]⟩

theorem mapE_ok {α β : Type} (f : α → Except Err β) (l : List α) (ys : List β) (h : mapE f l = .ok ys) :
    ys.length = l.length ∧ ∀ (i : Nat) (x : α), l[i]? = some x → ∃ y, ys[i]? = some y ∧ f x = .ok y := by
  induction l generalizing ys with
  | nil => cases h; simp
  | cons x r ih =>
    simp only [mapE, bind, Except.bind, pure, Except.pure] at h
    split at h
    · cases h
    · rename_i y hy
      split at h
      · cases h
      · rename_i ys' hys
        cases h
        obtain ⟨h1, h2⟩ := ih ys' hys
        refine ⟨by simp [h1], ?_⟩
        intro i z hz
        cases i with
        | zero => simp at hz; subst hz; exact ⟨y, by simp, hy⟩
        | succ i => simpa using h2 i z (by simpa using hz)

theorem build_shape {α : Type} (sh : List Nat) (f : List Nat → Except Err α) (r : Arr α) (h : build sh f = .ok r) :
    r.shape = sh ∧ r.WF ∧ ∀ idx, InB idx sh → r.get idx = f idx := by
  simp only [build, bind, Except.bind, pure, Except.pure] at h
  split at h
  · cases h
  · rename_i d hd
    cases h
    obtain ⟨h1, h2⟩ := mapE_ok _ _ _ hd
    refine ⟨rfl, by simpa [Arr.WF, ndindex_length] using h1, ?_⟩
    intro idx hi
    obtain ⟨y, hy, hf⟩ := h2 _ _ (ndindex_ravel sh idx hi)
    simp [Arr.get, (inB_iff idx sh).2 hi, hy, hf]

theorem build_total {α : Type} (sh : List Nat) (f : List Nat → Except Err α)
    (h : ∀ idx, InB idx sh → ∃ x, f idx = .ok x) :
    ∃ r, build sh f = .ok r ∧ r.shape = sh ∧ r.WF ∧ ∀ idx, InB idx sh → r.get idx = f idx := by
  obtain ⟨ys, hy⟩ := mapE_total f (ndindex sh) (fun x hx => h x ((mem_ndindex _ _).1 hx))
  have hb : build sh f = .ok ⟨sh, ys⟩ := by simp [build, hy, bind, Except.bind, pure, Except.pure]
  exact ⟨_, hb, build_shape _ _ _ hb⟩

theorem get_total {α : Type} (a : Arr α) (h : a.WF) (idx : List Nat) (hi : InB idx a.shape) :
    ∃ x, a.get idx = .ok x := by
  have : ravel a.shape idx < a.data.length := by rw [h]; exact ravel_lt _ _ hi
  simp [Arr.get, (inB_iff _ _).2 hi, List.getElem?_eq_getElem this]

theorem get_error {α : Type} (a : Arr α) (idx : List Nat) (hi : ¬ InB idx a.shape) :
    a.get idx = .error .indexError := by
  have : inB idx a.shape = false := by
    cases hh : inB idx a.shape with
    | false => rfl
    | true => exact absurd ((inB_iff _ _).1 hh) hi
  simp [Arr.get, this]

theorem InB_iff_get (idx sh : List Nat) :
    InB idx sh ↔ idx.length = sh.length ∧ ∀ (k i d : Nat), idx[k]? = some i → sh[k]? = some d → i < d := by
  simp only [InB, List.forall₂_iff_get]
  constructor
  · rintro ⟨h1, h2⟩
    refine ⟨h1, ?_⟩
    intro k i d hi hd
    obtain ⟨a, ha⟩ := List.getElem?_eq_some_iff.1 hi
    obtain ⟨b, hb⟩ := List.getElem?_eq_some_iff.1 hd
    have := h2 k a b
    simp at this
    rw [ha, hb] at this
    exact this
  · rintro ⟨h1, h2⟩
    refine ⟨h1, ?_⟩
    intro k a b
    exact h2 k _ _ (List.getElem?_eq_getElem a) (List.getElem?_eq_getElem b)

end Verif.Tensor
