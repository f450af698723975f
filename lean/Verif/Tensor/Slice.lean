import Verif.Tensor.Transpose
/-! C55: slices. -/

namespace Verif.Tensor

theorem pySlice_ok (n : Nat) (a b c : Int) (hc : c ≠ 0) :
    ∃ l, pySliceIx n a b c = .ok l ∧ ∀ p ∈ l, p < n := by
  unfold pySliceIx
  rw [if_neg hc]
  refine ⟨_, rfl, ?_⟩
  intro p hp
  simp only [List.mem_map, List.mem_range] at hp
  obtain ⟨k, hk, rfl⟩ := hp
  rcases lt_or_gt_of_ne hc with hneg | hpos
  · simp only [if_pos hneg, if_neg (show ¬ c > 0 by omega)] at hk ⊢
    generalize hS : (if a < 0 then max (-1 : Int) (a + n) else min ((n : Int) - 1) a) = S at *
    generalize hE : (if b < 0 then max (-1 : Int) (b + n) else min ((n : Int) - 1) b) = E at *
    have hSle : S ≤ (n : Int) - 1 := by rw [← hS]; split <;> omega
    have hElo : -1 ≤ E := by rw [← hE]; split <;> omega
    split at hk
    · rename_i hlt
      have h0 : (0 : Int) ≤ (S - E - 1) / (-c) := Int.ediv_nonneg (by omega) (by omega)
      have hk' : (k : Int) ≤ (S - E - 1) / (-c) := by omega
      have h1 : (k : Int) * (-c) ≤ (S - E - 1) / (-c) * (-c) := Int.mul_le_mul_of_nonneg_right hk' (by omega)
      have h2 : (S - E - 1) / (-c) * (-c) ≤ S - E - 1 := Int.ediv_mul_le _ (by omega)
      have h3 : (k : Int) * (-c) = -(k * c) := by ring
      have h4 : (0 : Int) ≤ k * (-c) := Int.mul_nonneg (by omega) (by omega)
      omega
    · simp at hk
  · simp only [if_neg (show ¬ c < 0 by omega), if_pos hpos] at hk ⊢
    generalize hS : (if a < 0 then max (0 : Int) (a + n) else min (n : Int) a) = S at *
    generalize hE : (if b < 0 then max (0 : Int) (b + n) else min (n : Int) b) = E at *
    have hSlo : 0 ≤ S := by rw [← hS]; split <;> omega
    have hEhi : E ≤ n := by rw [← hE]; split <;> omega
    split at hk
    · rename_i hlt
      have h0 : (0 : Int) ≤ (E - S - 1) / c := Int.ediv_nonneg (by omega) (by omega)
      have hk' : (k : Int) ≤ (E - S - 1) / c := by omega
      have h1 : (k : Int) * c ≤ (E - S - 1) / c * c := Int.mul_le_mul_of_nonneg_right hk' (by omega)
      have h2 : (E - S - 1) / c * c ≤ E - S - 1 := Int.ediv_mul_le _ (by omega)
      omega
    · simp at hk

theorem pySlice_len (n : Nat) (a b c x : Int) (l : List Nat) (hn : 0 < n) (h : sliceDim n a b c = .ok x)
    (hl : pySliceIx n a b c = .ok l) : (l.length : Int) = x := by
  unfold sliceDim at h
  rw [if_neg (by omega)] at h
  by_cases hc : c ≤ 0
  · rw [if_pos hc] at h; cases h
  rw [if_neg hc] at h
  simp only at h
  unfold pySliceIx at hl
  rw [if_neg (by omega)] at hl
  simp only [if_neg (show ¬ c < 0 by omega), if_pos (show c > 0 by omega)] at hl
  cases hl
  have e1 : max 0 (min (if a < 0 then max 0 ((n : Int) + a) else a) (n : Int))
      = (if a < 0 then max (0 : Int) (a + n) else min (n : Int) a) := by split <;> omega
  have e2 : max 0 (min (if b < 0 then max 0 ((n : Int) + b) else b) (n : Int))
      = (if b < 0 then max (0 : Int) (b + n) else min (n : Int) b) := by split <;> omega
  rw [e1, e2] at h
  generalize (if a < 0 then max (0 : Int) (a + n) else min (n : Int) a) = S at *
  generalize (if b < 0 then max (0 : Int) (b + n) else min (n : Int) b) = E at *
  injection h with h
  rw [← h]
  simp only [List.length_map, List.length_range]
  by_cases hlt : S < E
  · rw [if_pos hlt, if_neg (by omega)]
    have h0 : (0 : Int) ≤ (E - S - 1) / c := Int.ediv_nonneg (by omega) (by omega)
    rw [Int.fdiv_eq_ediv_of_nonneg _ (by omega)]
    have : E - S + c - 1 = (E - S - 1) + c := by ring
    rw [this, Int.add_ediv_of_dvd_right (Int.dvd_refl c), Int.ediv_self (by omega)]
    omega
  · rw [if_neg hlt, if_pos (by omega)]
    simp

theorem slicePos_sound (rt : List Nat) (decl starts ends strides sh : List Int) (hf : Fits rt decl)
    (hv : ∀ d ∈ decl, d = -1 ∨ 0 < d)
    (h1 : starts.length = decl.length) (h2 : ends.length = decl.length) (h3 : strides.length = decl.length)
    (h0 : ∀ c ∈ strides, c ≠ 0) (h : sliceDims decl starts ends strides = .ok sh) :
    ∃ pos, slicePos rt starts ends strides = .ok pos ∧ Fits (pos.map List.length) sh ∧
      List.Forall₂ (fun (p : List Nat) (n : Nat) => ∀ x ∈ p, x < n) pos rt := by
  induction hf generalizing starts ends strides sh with
  | nil => 
    cases starts with
    | nil => 
      simp only [sliceDims] at h
      cases h
      exact ⟨[], rfl, .nil, .nil⟩
    | cons => simp at h1
  | @cons n d rt decl hd hr ih =>
    cases starts with
    | nil => simp at h1
    | cons a ar =>
    cases ends with
    | nil => simp at h2
    | cons b br =>
    cases strides with
    | nil => simp at h3
    | cons c cr =>
    simp only [sliceDims, bind, Except.bind] at h
    split at h
    · cases h
    rename_i x hx
    split at h
    · cases h
    rename_i r hr'
    cases h
    obtain ⟨pos, hp, hpf, hpb⟩ := ih ar br cr r (fun d hd => hv d (by simp [hd])) (by simpa using h1) (by simpa using h2)
      (by simpa using h3) (fun c hc => h0 c (by simp [hc])) hr'
    obtain ⟨l, hl, hlb⟩ := pySlice_ok n a b c (h0 c (by simp))
    refine ⟨l :: pos, ?_, ?_, .cons hlb hpb⟩
    · simp only [slicePos, hl, hp, bind, Except.bind, pure, Except.pure]
    · refine .cons ?_ hpf
      by_cases hd1 : d = -1
      · left
        unfold sliceDim at hx
        rw [if_pos hd1] at hx
        cases hx
        rfl
      · right
        have hdn : d = (n : Int) := hd.resolve_left hd1
        have hpos := (hv d (by simp)).resolve_left hd1
        subst hdn
        exact (pySlice_len n a b c x l (by omega) hx hl).symm

theorem zip_in (pos : List (List Nat)) (rt : List Nat)
    (h : List.Forall₂ (fun (p : List Nat) (n : Nat) => ∀ x ∈ p, x < n) pos rt) (idx : List Nat)
    (hi : InB idx (pos.map List.length)) :
    InB (List.zipWith (fun (p : List Nat) i => p.getD i 0) pos idx) rt := by
  induction h generalizing idx with
  | nil => simp [InB]
  | @cons p n pos rt hx _ ih =>
    cases hi with
    | cons h1 h2 =>
      rw [List.zipWith_cons_cons]
      refine List.Forall₂.cons ?_ (ih _ h2)
      apply hx
      simp [List.getD, List.getElem?_eq_getElem h1]

/-- **C55, slice (partial).**  If the rule accepts and no stride is zero, then for every array compatible with the
declared shape the op succeeds and the result is compatible with the computed type (a static dimension has exactly
the computed size).  Missing: stride zero on a dynamic dimension, see `slice_zero_stride_violated`. -/
theorem slice_shape_partial {α : Type} (t t' : TTy) (starts ends : List Int) (strides : Option (List Int)) (a : Arr α)
    (hv : ∀ d ∈ t.shape, d = -1 ∨ 0 < d) (h : sliceAe t starts ends strides = .ok t')
    (hst : ∀ st, strides = some st → ∀ c ∈ st, c ≠ 0) (hw : a.WF) (hf : Fits a.shape t.shape) :
    ∃ r, sliceImpl a starts ends strides = .ok r ∧ Fits r.shape t'.shape ∧ t'.elem = t.elem ∧ r.WF := by
  have key : ∀ st : List Int, starts.length = t.shape.length → ends.length = t.shape.length →
      st.length = t.shape.length → (∀ c ∈ st, c ≠ 0) → ∀ sh, sliceDims t.shape starts ends st = .ok sh →
      t' = ⟨t.elem, sh⟩ → sliceStrides starts.length strides = st →
      ∃ r, sliceImpl a starts ends strides = .ok r ∧ Fits r.shape t'.shape ∧ t'.elem = t.elem ∧ r.WF := by
    intro st h1 h2 h3 h0 sh hsh ht' hss
    obtain ⟨pos, hp, hpf, hpb⟩ := slicePos_sound a.shape t.shape starts ends st sh hf hv h1 h2 h3 h0 hsh
    obtain ⟨r, hr1, hr2, hr3, -⟩ := build_total (pos.map List.length)
      (fun idx => a.get (List.zipWith (fun (p : List Nat) i => p.getD i 0) pos idx)) (by
        intro idx hi
        apply get_total a hw
        exact zip_in pos a.shape hpb idx hi)
    refine ⟨r, ?_, ?_, by rw [ht'], hr3⟩
    · simp only [sliceImpl, hss, hp, bind, Except.bind]
      exact hr1
    · rw [hr2, ht']; exact hpf
  unfold sliceAe at h
  simp only at h
  split at h
  · cases h
  rename_i hlen
  simp only [not_or, ne_eq, not_not] at hlen
  cases strides with
  | none =>
    simp only [bind, Except.bind] at h
    split at h
    · cases h
    rename_i sh hsh
    obtain ⟨ht', -⟩ := mkTensor_ok h
    refine key _ hlen.1 hlen.2 (by simp) ?_ sh hsh ht' (by simp [sliceStrides, hlen.1])
    intro c hc
    simp at hc
    omega
  | some st =>
    simp only [bind, Except.bind] at h
    split at h
    · cases h
    rename_i hstl
    simp only [ne_eq, not_not] at hstl
    split at h
    · cases h
    rename_i sh hsh
    obtain ⟨ht', -⟩ := mkTensor_ok h
    refine key st hlen.1 hlen.2 hstl (hst st rfl) sh hsh ht' ?_
    unfold sliceStrides
    cases st with
    | nil => simp at hstl; simp [hlen.1, ← hstl]
    | cons => rfl

/-- A 5×4 array declared `(5, −1)`: rows 1, 3 and the columns from the second. -/
example : sliceAe ⟨.int 32 true, [5, -1]⟩ [1, 1] [-1, 4] (some [2, 1]) = .ok ⟨.int 32 true, [2, -1]⟩ ∧
    sliceImpl (⟨[5, 4], List.range 20⟩ : Arr Nat) [1, 1] [-1, 4] (some [2, 1])
      = .ok ⟨[2, 3], [5, 6, 7, 13, 14, 15]⟩ := by decide

/-- For fully static tensors the slice rule alone guarantees success: C55 holds without the stride hypothesis. -/
theorem slice_static_sound {α : Type} (t t' : TTy) (starts ends : List Int) (strides : Option (List Int)) (a : Arr α)
    (hv : ∀ d ∈ t.shape, 0 < d) (h : sliceAe t starts ends strides = .ok t') (hw : a.WF) (hf : Fits a.shape t.shape) :
    ∃ r, sliceImpl a starts ends strides = .ok r ∧ r.shape.map (fun n : Nat => (n : Int)) = t'.shape ∧ r.WF := by
  have hnz : ∀ (decl starts ends st sh : List Int), (∀ d ∈ decl, 0 < d) → starts.length = decl.length →
      ends.length = decl.length → st.length = decl.length → sliceDims decl starts ends st = .ok sh →
      (∀ c ∈ st, c ≠ 0) ∧ ∀ d ∈ sh, d ≠ -1 := by
    intro decl
    induction decl with
    | nil =>
      intro starts ends st sh _ h1 h2 h3 hs
      simp at h1 h2 h3
      subst h1 h2 h3
      simp [sliceDims] at hs
      subst hs
      simp
    | cons d dr ih =>
      intro starts ends st sh hd h1 h2 h3 hs
      cases starts with
      | nil => simp at h1
      | cons a ar =>
      cases ends with
      | nil => simp at h2
      | cons b br =>
      cases st with
      | nil => simp at h3
      | cons c cr =>
      simp only [sliceDims, bind, Except.bind] at hs
      split at hs
      · cases hs
      rename_i x hx
      split at hs
      · cases hs
      rename_i r hr
      cases hs
      obtain ⟨i1, i2⟩ := ih ar br cr r (fun e he => hd e (by simp [he])) (by simpa using h1) (by simpa using h2)
        (by simpa using h3) hr
      have hdp := hd d (by simp)
      unfold sliceDim at hx
      rw [if_neg (by omega)] at hx
      by_cases hc : c ≤ 0
      · rw [if_pos hc] at hx; cases hx
      rw [if_neg hc] at hx
      have hx0 : 0 ≤ x := by
        simp only at hx
        injection hx with hx
        rw [← hx]
        generalize max 0 (min (if a < 0 then max 0 (d + a) else a) d) = S
        generalize max 0 (min (if b < 0 then max 0 (d + b) else b) d) = E
        by_cases hES : E ≤ S
        · rw [if_pos hES]
        · rw [if_neg hES, Int.fdiv_eq_ediv_of_nonneg _ (by omega)]
          exact Int.ediv_nonneg (by omega) (by omega)
      constructor
      · intro e he
        simp at he
        rcases he with rfl | he
        · omega
        · exact i1 e he
      · intro e he
        rcases List.mem_cons.1 he with rfl | he
        · omega
        · exact i2 e he
  have hfin : (∀ st, strides = some st → ∀ c ∈ st, c ≠ 0) ∧ ∀ d ∈ t'.shape, d ≠ -1 := by
    have h' := h
    unfold sliceAe at h'
    simp only at h'
    split at h'
    · cases h'
    rename_i hlen
    simp only [not_or, ne_eq, not_not] at hlen
    cases strides with
    | none =>
      simp only [bind, Except.bind] at h'
      split at h'
      · cases h'
      rename_i sh hsh
      obtain ⟨rfl, -⟩ := mkTensor_ok h'
      have := hnz _ _ _ _ _ hv hlen.1 hlen.2 (by simp) hsh
      refine ⟨?_, this.2⟩
      intro st hst
      cases hst
    | some st =>
      simp only [bind, Except.bind] at h'
      split at h'
      · cases h'
      rename_i hstl
      simp only [ne_eq, not_not] at hstl
      split at h'
      · cases h'
      rename_i sh hsh
      obtain ⟨rfl, -⟩ := mkTensor_ok h'
      have := hnz _ _ _ _ _ hv hlen.1 hlen.2 hstl hsh
      refine ⟨?_, this.2⟩
      intro st' hst'
      cases hst'
      exact this.1
  obtain ⟨r, h1, h2, h3, h4⟩ := slice_shape_partial t t' starts ends strides a (fun d hd => .inr (hv d hd)) h hfin.1 hw hf
  refine ⟨r, h1, ?_, h4⟩
  have hne := hfin.2
  clear h h1 h4 hf hfin
  generalize r.shape = rs at h2
  generalize t'.shape = ts at h2 hne
  induction h2 with
  | nil => rfl
  | @cons n d l1 l2 hd _ ih =>
    simp only [List.map_cons]
    rw [ih (fun d hd => hne d (by simp [hd]))]
    have := hne d (by simp)
    rcases hd with hd | hd
    · exact absurd hd this
    · rw [hd]

example : sliceAe ⟨.int 32 true, [5, 4]⟩ [1, -3] [100, 4] none = .ok ⟨.int 32 true, [4, 3]⟩ := by decide

/-- **C55 is violated for a zero stride on a dynamic dimension**: the rule accepts it, and every run of it fails. -/
theorem slice_zero_stride_violated (n : Nat) (start stop : Int) :
    sliceAe ⟨.int 32 true, [-1]⟩ [start] [stop] (some [0]) = .ok ⟨.int 32 true, [-1]⟩ ∧ Fits [n] [-1] ∧
    sliceImpl (⟨[n], List.replicate n 0⟩ : Arr Nat) [start] [stop] (some [0]) = .error .valueError := by
  refine ⟨?_, .cons (.inl rfl) .nil, ?_⟩
  · simp [sliceAe, sliceDims, sliceDim, mkTensor, bind, Except.bind, pure, Except.pure]
  · simp [sliceImpl, sliceStrides, slicePos, pySliceIx, bind, Except.bind]

end Verif.Tensor
