import Verif.Tensor.Transpose
/-! C55/C56: reshape. -/

namespace Verif.Tensor

theorem prodI_fits (rt : List Nat) (decl : List Int) (h : Fits rt decl) (hs : isStatic decl = true) :
    ((size rt : Nat) : Int) = prodI decl := by
  induction h with
  | nil => rfl
  | cons h1 _ ih =>
    simp only [isStatic, List.all_cons, Bool.and_eq_true, decide_eq_true_eq] at hs
    simp only [size, prodI]
    rw [← ih (by simpa [isStatic] using hs.2)]
    rcases h1 with h1 | h1
    · omega
    · rw [h1]; push_cast; rfl

theorem prodI_pos (l : List Int) (h : ∀ d ∈ l, 0 < d) : 0 < prodI l := by
  induction l with
  | nil => simp [prodI]
  | cons d r ih =>
    simp only [prodI]
    exact Int.mul_pos (h d (by simp)) (ih (fun x hx => h x (by simp [hx])))

theorem size_toNat (l : List Int) (h : ∀ d ∈ l, 0 ≤ d) : ((size (l.map Int.toNat) : Nat) : Int) = prodI l := by
  induction l with
  | nil => rfl
  | cons d r ih =>
    simp only [List.map_cons, size, prodI]
    push_cast
    rw [ih (fun x hx => h x (by simp [hx]))]
    have := h d (by simp)
    rw [Int.toNat_of_nonneg this]

theorem prodI_infer (l : List Int) (x : Int) :
    prodI (l.map fun d => if d = -1 then x else d)
      = x ^ (l.countP fun d => decide (d = -1)) * prodI (l.filter fun d => decide (d ≠ -1)) := by
  induction l with
  | nil => simp [prodI]
  | cons d r ih =>
    by_cases hd : d = -1
    · simp only [List.map_cons, prodI, if_pos hd, ih, hd]
      simp [pow_succ]
      ring
    · simp only [List.map_cons, prodI, if_neg hd, ih]
      simp [hd, prodI]
      ring

theorem neg_eq (l : List Int) (h : ∀ d ∈ l, d = -1 ∨ 0 < d) (d : Int) (hd : d ∈ l) : (d < 0) ↔ (d = -1) := by
  have := h d hd
  omega

theorem countP_neg (l : List Int) (h : ∀ d ∈ l, d = -1 ∨ 0 < d) :
    l.countP (fun d => decide (d < 0)) = l.countP (fun d => decide (d = -1)) := by
  apply List.countP_congr
  intro d hd
  have := neg_eq l h d hd
  simp [this]

theorem filter_neg (l : List Int) (h : ∀ d ∈ l, d = -1 ∨ 0 < d) :
    l.filter (fun d => decide (¬ d < 0)) = l.filter (fun d => decide (d ≠ -1)) := by
  apply List.filter_congr
  intro d hd
  have := neg_eq l h d hd
  simp [this]

/-- What an accepted reshape of a fully static input looks like. -/
theorem reshapeAe_static {t t' : TTy} {ns : List Int} (h : reshapeAe t ns = .ok t') (hs : isStatic t.shape = true) :
    (∀ d ∈ ns, d = -1 ∨ 0 < d) ∧ (∀ d ∈ t'.shape, 0 < d) ∧ t'.elem = t.elem ∧ prodI t'.shape = prodI t.shape ∧
    ((ns.countP (fun d => decide (d = -1)) = 0 ∧ t'.shape = ns) ∨
     (ns.countP (fun d => decide (d = -1)) = 1 ∧
      (prodI t.shape).fmod (prodI (ns.filter fun d => decide (d ≠ -1))) = 0 ∧
      0 < prodI (ns.filter fun d => decide (d ≠ -1)) ∧
      t'.shape = ns.map fun d => if d = -1 then
        (prodI t.shape).fdiv (prodI (ns.filter fun d => decide (d ≠ -1))) else d)) := by
  simp only [reshapeAe] at h
  split at h
  · cases h
  rename_i hneg
  have hpos : 0 < prodI t.shape := prodI_pos _ (by simpa [isStatic] using hs)
  split at h
  · rename_i h0
    split at h
    · cases h
    rename_i heq
    obtain ⟨rfl, hd⟩ := mkTensor_ok h
    have hno : ∀ d ∈ ns, d ≠ -1 := by simpa [List.countP_eq_zero] using h0
    refine ⟨hd, ?_, rfl, by simp at heq; exact heq.symm, .inl ⟨h0, rfl⟩⟩
    intro d hdm
    have := hd d hdm
    have := hno d hdm
    omega
  · rename_i h0
    split at h
    · cases h
    rename_i hk0
    split at h
    · cases h
    rename_i hmod
    obtain ⟨rfl, hd⟩ := mkTensor_ok h
    have hns : ∀ d ∈ ns, d = -1 ∨ 0 < d := by
      intro d hdm
      by_cases h1 : d = -1
      · exact .inl h1
      · have := hd d (List.mem_map.2 ⟨d, hdm, by rw [if_neg h1]⟩)
        exact this
    have hkn : 0 < prodI (ns.filter fun d => decide (d ≠ -1)) := by
      apply prodI_pos
      intro d hdm
      simp only [List.mem_filter, decide_eq_true_eq] at hdm
      have := hns d hdm.1
      have := hdm.2
      omega
    have hmod' : (prodI t.shape).fmod (prodI (ns.filter fun d => decide (d ≠ -1))) = 0 := by simpa using hmod
    have hc1 : ns.countP (fun d => decide (d = -1)) = 1 := by omega
    have hmul : prodI (ns.filter fun d => decide (d ≠ -1))
        * (prodI t.shape).fdiv (prodI (ns.filter fun d => decide (d ≠ -1))) = prodI t.shape := by
      have := Int.mul_fdiv_add_fmod (prodI t.shape) (prodI (ns.filter fun d => decide (d ≠ -1)))
      rw [hmod'] at this
      simpa using this
    have hqpos : 0 < (prodI t.shape).fdiv (prodI (ns.filter fun d => decide (d ≠ -1))) := by
      by_contra hc
      have : prodI (ns.filter fun d => decide (d ≠ -1))
        * (prodI t.shape).fdiv (prodI (ns.filter fun d => decide (d ≠ -1))) ≤ 0 :=
        Int.mul_nonpos_of_nonneg_of_nonpos (le_of_lt hkn) (by omega)
      omega
    refine ⟨hns, ?_, rfl, ?_, .inr ⟨hc1, hmod', hkn, rfl⟩⟩
    · intro d hdm
      simp only [List.mem_map] at hdm
      obtain ⟨e, he, rfl⟩ := hdm
      split
      · exact hqpos
      · have := hns e he
        omega
    · simp only
      rw [prodI_infer, hc1, pow_one, mul_comm]
      exact hmul

/-- **C55, reshape of a fully static input.**  If the rule accepts the new shape, then every array of the declared
shape is reshaped without error, to the computed shape exactly, keeping its elements in row-major order. -/
theorem reshape_static_sound {α : Type} (t t' : TTy) (ns : List Int) (a : Arr α) (h : reshapeAe t ns = .ok t')
    (hs : ∀ d ∈ t.shape, 0 < d) (hw : a.WF) (hf : Fits a.shape t.shape) :
    ∃ r, reshapeImpl a ns = .ok r ∧ r.shape.map (fun n : Nat => (n : Int)) = t'.shape ∧ t'.elem = t.elem ∧
      r.data = a.data ∧ r.WF := by
  have hs' : isStatic t.shape = true := by simpa [isStatic] using hs
  obtain ⟨hns, hpos, hel, hprod, hcase⟩ := reshapeAe_static h hs'
  have hsize := prodI_fits _ _ hf hs'
  have hback : ∀ l : List Int, (∀ d ∈ l, 0 < d) → (l.map Int.toNat).map (fun n : Nat => (n : Int)) = l := by
    intro l hl
    rw [List.map_map]
    conv_rhs => rw [← List.map_id l]
    apply List.map_congr_left
    intro d hd
    have := hl d hd
    simp
    omega
  rcases hcase with ⟨h0, hsh⟩ | ⟨h1, hmod, hk, hsh⟩
  · refine ⟨⟨ns.map Int.toNat, a.data⟩, ?_, ?_, hel, rfl, ?_⟩
    · simp only [reshapeImpl, npReshape, countP_neg ns hns, h0]
      rw [if_neg (by omega), if_pos trivial, if_neg]
      rw [hsize, ← hsh, hprod]
      simp
    · simp only
      rw [hback ns (hsh ▸ hpos), hsh]
    · unfold Arr.WF
      rw [hw]
      have := size_toNat ns (fun d hd => le_of_lt ((hsh ▸ hpos) d hd))
      rw [← hsh, hprod, ← hsize, hsh] at this
      simp only
      omega
  · refine ⟨⟨t'.shape.map Int.toNat, a.data⟩, ?_, ?_, hel, rfl, ?_⟩
    · simp only [reshapeImpl, npReshape, countP_neg ns hns, h1, filter_neg ns hns, hsize]
      rw [if_neg (by omega), if_neg (by omega), if_neg (by omega), if_neg (by simpa using hmod)]
      congr 2
      rw [hsh, List.map_map]
      apply List.map_congr_left
      intro d hd
      have := neg_eq ns hns d hd
      simp only [Function.comp, this]
      split <;> rfl
    · exact hback _ hpos
    · unfold Arr.WF
      rw [hw]
      have := size_toNat t'.shape (fun d hd => le_of_lt (hpos d hd))
      rw [hprod, ← hsize] at this
      simp only
      omega

example : reshapeAe ⟨.int 32 true, [2, 3]⟩ [3, -1] = .ok ⟨.int 32 true, [3, 2]⟩ ∧
    reshapeImpl (⟨[2, 3], [1, 2, 3, 4, 5, 6]⟩ : Arr Nat) [3, -1] = .ok ⟨[3, 2], [1, 2, 3, 4, 5, 6]⟩ := by
  decide

/-- **C55, reshape of any input (partial).**  When the rule accepts and the run-time reshape succeeds, the result is
compatible with the computed type and keeps the elements.  Missing: that it succeeds for a dynamic input — see
`reshape_dynamic_violated`. -/
theorem reshape_dynamic_partial {α : Type} (t t' : TTy) (ns : List Int) (a r : Arr α) (h : reshapeAe t ns = .ok t')
    (hw : a.WF) (hf : Fits a.shape t.shape) (hr : reshapeImpl a ns = .ok r) :
    Fits r.shape t'.shape ∧ t'.elem = t.elem ∧ r.data = a.data ∧ r.WF := by
  by_cases hs' : isStatic t.shape = true
  · obtain ⟨r', h1, h2, h3, h4, h5⟩ := reshape_static_sound t t' ns a h (by simpa [isStatic] using hs') hw hf
    rw [h1] at hr
    cases hr
    refine ⟨?_, h3, h4, h5⟩
    rw [← h2]
    refine (Fits_iff _ _).2 ⟨by simp, ?_⟩
    intro k n d hn hd
    rw [List.getElem?_map, hn] at hd
    simp at hd
    exact .inr hd.symm
  · simp only [reshapeAe] at h
    split at h
    · cases h
    rename_i hcount
    obtain ⟨rfl, hns⟩ := mkTensor_ok h
    simp only [reshapeImpl, npReshape, countP_neg ns hns, filter_neg ns hns] at hr
    rw [if_neg hcount] at hr
    split at hr
    · rename_i h0
      split at hr
      · cases hr
      rename_i heq
      cases hr
      have hno : ∀ d ∈ ns, 0 < d := by
        intro d hd
        have h1 := hns d hd
        have h2 : ∀ d ∈ ns, d ≠ -1 := by simpa [List.countP_eq_zero] using h0
        have := h2 d hd
        omega
      refine ⟨?_, rfl, rfl, ?_⟩
      · refine (Fits_iff _ _).2 ⟨by simp, ?_⟩
        intro k n d hn hd
        simp only [List.getElem?_map, hd] at hn
        simp at hn
        have := hno d (List.mem_of_getElem? hd)
        right; omega
      · unfold Arr.WF
        rw [hw]
        have := size_toNat ns (fun d hd => le_of_lt (hno d hd))
        simp only [ne_eq, not_not] at heq
        simp only
        omega
    · rename_i h0
      split at hr
      · cases hr
      rename_i hk0
      split at hr
      · cases hr
      rename_i hmod
      cases hr
      refine ⟨?_, rfl, rfl, ?_⟩
      · refine (Fits_iff _ _).2 ⟨by simp, ?_⟩
        intro k n d hn hd
        simp only [List.getElem?_map, hd] at hn
        simp only [Option.map_some, Option.some.injEq] at hn
        have := hns d (List.mem_of_getElem? hd)
        rcases this with h1 | h1
        · exact .inl h1
        · right
          rw [if_neg (by omega)] at hn
          omega
      · unfold Arr.WF
        rw [hw]
        have hc1 : ns.countP (fun d => decide (d = -1)) = 1 := by omega
        have hk : 0 < prodI (ns.filter fun d => decide (d ≠ -1)) := by
          apply prodI_pos
          intro d hdm
          simp only [List.mem_filter, decide_eq_true_eq] at hdm
          have := hns d hdm.1
          have := hdm.2
          omega
        have hmul := Int.mul_fdiv_add_fmod ((size a.shape : Nat) : Int) (prodI (ns.filter fun d => decide (d ≠ -1)))
        have hmod' : ((size a.shape : Nat) : Int).fmod (prodI (ns.filter fun d => decide (d ≠ -1))) = 0 := by
          simpa using hmod
        rw [hmod'] at hmul
        have hq : 0 ≤ ((size a.shape : Nat) : Int).fdiv (prodI (ns.filter fun d => decide (d ≠ -1))) :=
          Int.fdiv_nonneg (by omega) (le_of_lt hk)
        generalize hQ : ((size a.shape : Nat) : Int).fdiv (prodI (ns.filter fun d => decide (d ≠ -1))) = Q at *
        have he : (ns.map fun d : Int => if d < 0 then Q.toNat else d.toNat)
            = (ns.map fun d => if d = -1 then Q else d).map Int.toNat := by
          rw [List.map_map]
          apply List.map_congr_left
          intro d hd
          have := neg_eq ns hns d hd
          simp only [Function.comp, this]
          split <;> rfl
        simp only
        rw [he]
        have := size_toNat (ns.map fun d => if d = -1 then Q else d) (by
          intro d hd
          simp only [List.mem_map] at hd
          obtain ⟨e, he, rfl⟩ := hd
          have := hns e he
          split <;> omega)
        rw [prodI_infer, hc1, pow_one, mul_comm] at this
        have h5 := hmul
        rw [add_zero, ← this] at h5
        exact_mod_cast h5.symm

/-- **C55 is violated for dynamic reshapes**: a `(−1,)` tensor reshaped to `(2, 3)` is accepted, and fails at run time
for every size other than 6. -/
theorem reshape_dynamic_violated (n : Nat) (hn : n ≠ 6) :
    reshapeAe ⟨.int 32 true, [-1]⟩ [2, 3] = .ok ⟨.int 32 true, [2, 3]⟩ ∧ Fits [n] [-1] ∧
    reshapeImpl (⟨[n], List.replicate n 0⟩ : Arr Nat) [2, 3] = .error .valueError := by
  refine ⟨by decide, .cons (.inl rfl) .nil, ?_⟩
  simp [reshapeImpl, npReshape, size, prodI, List.countP_cons]
  omega

/-- **C56.**  A reshape of a fully static tensor is accepted exactly when the target has at most one −1, every other
entry is positive, and there is a way to fill the −1 with a positive number so that the element counts agree; the
computed shape is that filling. -/
theorem reshape_accepts_iff (t : TTy) (ns : List Int) (hs : ∀ d ∈ t.shape, 0 < d) (sh : List Int) :
    reshapeAe t ns = .ok ⟨t.elem, sh⟩ ↔
      (ns.count (-1) ≤ 1 ∧ (∀ d ∈ ns, d = -1 ∨ 0 < d) ∧
        ∃ x : Int, 0 < x ∧ sh = ns.map (fun d => if d = -1 then x else d) ∧ prodI sh = prodI t.shape) := by
  have hs' : isStatic t.shape = true := by simpa [isStatic] using hs
  have hcnt : ns.count (-1) = ns.countP (fun d => decide (d = -1)) := by
    rw [List.count_eq_countP]
    apply List.countP_congr
    intro d _
    simp
  rw [hcnt]
  have hself : ns.countP (fun d => decide (d = -1)) = 0 → ∀ x : Int, ns.map (fun d => if d = -1 then x else d) = ns := by
    intro h0 x
    have hno : ∀ d ∈ ns, d ≠ -1 := by simpa [List.countP_eq_zero] using h0
    conv_rhs => rw [← List.map_id ns]
    apply List.map_congr_left
    intro d hd
    rw [if_neg (hno d hd)]
    rfl
  constructor
  · intro h
    obtain ⟨hns, hpos, hel, hprod, hcase⟩ := reshapeAe_static h hs'
    simp only at hpos hprod hcase
    rcases hcase with ⟨h0, hsh⟩ | ⟨h1, hmod, hk, hsh⟩
    · exact ⟨by omega, hns, 1, by omega, by rw [hself h0, hsh], hprod⟩
    · refine ⟨by omega, hns, _, ?_, hsh, hprod⟩
      have hmem : (-1 : Int) ∈ ns := by
        by_contra hc
        have : ns.countP (fun d => decide (d = -1)) = 0 := by
          simp [List.countP_eq_zero]
          intro d hd he
          exact hc (he ▸ hd)
        omega
      apply hpos
      rw [hsh]
      exact List.mem_map.2 ⟨-1, hmem, by rw [if_pos rfl]⟩
  · rintro ⟨hle, hns, x, hx, hsh, hprod⟩
    have hdims : ∀ d ∈ sh, 0 < d := by
      intro d hd
      rw [hsh, List.mem_map] at hd
      obtain ⟨e, he, rfl⟩ := hd
      have := hns e he
      split <;> omega
    have hmk : mkTensor t.elem sh = .ok ⟨t.elem, sh⟩ := by
      unfold mkTensor
      rw [if_neg]
      simp only [List.any_eq_true, not_exists, not_and, Bool.or_eq_true, decide_eq_true_eq, not_or]
      intro d hd
      have := hdims d hd
      omega
    simp only [reshapeAe]
    rw [if_neg (by omega), if_pos hs']
    by_cases h0 : ns.countP (fun d => decide (d = -1)) = 0
    · rw [if_pos h0]
      have : sh = ns := by rw [hsh, hself h0]
      subst this
      rw [if_neg (by rw [hprod]; simp)]
      exact hmk
    · rw [if_neg h0]
      have hc1 : ns.countP (fun d => decide (d = -1)) = 1 := by omega
      have hp := prodI_infer ns x
      rw [hc1, pow_one, ← hsh, hprod] at hp
      have hk : 0 < prodI (ns.filter fun d => decide (d ≠ -1)) := by
        apply prodI_pos
        intro d hdm
        simp only [List.mem_filter, decide_eq_true_eq] at hdm
        have := hns d hdm.1
        have := hdm.2
        omega
      generalize prodI (ns.filter fun d => decide (d ≠ -1)) = K at *
      rw [if_neg (by omega), hp]
      have e1 : (x * K).fmod K = 0 := by simp
      have e2 : (x * K).fdiv K = x := Int.mul_fdiv_cancel x (by omega)
      rw [e1, e2, if_neg (by simp), ← hsh]
      exact hmk

example : reshapeAe ⟨.int 32 true, [4, 6]⟩ [3, -1, 2] = .ok ⟨.int 32 true, [3, 4, 2]⟩ ∧
    reshapeAe ⟨.int 32 true, [4, 6]⟩ [-4, -6] = .error .valueError ∧
    reshapeAe ⟨.int 32 true, [4, 6]⟩ [5, -1] = .error .valueError ∧
    reshapeAe ⟨.int 32 true, [4, 6]⟩ [-1, -1] = .error .valueError := by decide

/-- **C56 for inputs with dynamic dimensions**: accepted exactly when there is at most one −1 and every other entry
is positive; the computed shape is the target itself. -/
theorem reshape_dynamic_accepts_iff (t : TTy) (ns : List Int) (hs : -1 ∈ t.shape) (sh : List Int) :
    reshapeAe t ns = .ok ⟨t.elem, sh⟩ ↔ (ns.count (-1) ≤ 1 ∧ (∀ d ∈ ns, d = -1 ∨ 0 < d) ∧ sh = ns) := by
  have hs' : ¬ isStatic t.shape = true := by
    simp only [isStatic, List.all_eq_true, decide_eq_true_eq, not_forall]
    exact ⟨-1, hs, by omega⟩
  have hcnt : ns.count (-1) = ns.countP (fun d => decide (d = -1)) := by
    rw [List.count_eq_countP]
    apply List.countP_congr
    intro d _
    simp
  rw [hcnt]
  simp only [reshapeAe]
  constructor
  · intro h
    split at h
    · cases h
    · obtain ⟨h1, h2⟩ := mkTensor_ok h
      have : sh = ns := by injection h1
      exact ⟨by omega, h2, this⟩
  · rintro ⟨h1, h2, rfl⟩
    rw [if_neg (by omega), if_neg hs']
    unfold mkTensor
    rw [if_neg]
    simp only [List.any_eq_true, not_exists, not_and, Bool.or_eq_true, decide_eq_true_eq, not_or]
    intro d hd
    have := h2 d hd
    omega

example : reshapeAe ⟨.int 32 true, [-1, 6]⟩ [3, -1, 2] = .ok ⟨.int 32 true, [3, -1, 2]⟩ := by decide

end Verif.Tensor
