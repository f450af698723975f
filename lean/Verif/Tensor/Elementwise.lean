import Verif.Tensor.Transpose
/-! C55: elementwise ops. -/

namespace Verif.Tensor

theorem liftShapes_ok (cur : Option (List Int)) (ins : List (Option (List Int))) (s : Option (List Int))
    (h : liftShapes cur ins = .ok s) :
    (∀ c, cur = some c → c ≠ [] → s = some c) ∧
    (∀ sh, some sh ∈ ins → sh ≠ [] → s = some sh) ∧
    (∀ sh, s = some sh → sh ≠ [] → cur = some sh ∨ some sh ∈ ins) := by
  induction ins generalizing cur with
  | nil =>
    simp [liftShapes] at h
    subst h
    refine ⟨fun c hc _ => hc, by simp, fun sh hs _ => .inl hs⟩
  | cons x r ih =>
    cases x with
    | none =>
      simp only [liftShapes] at h
      obtain ⟨h1, h2, h3⟩ := ih cur h
      exact ⟨h1, fun sh hm hn => h2 sh (by simpa using hm) hn, fun sh hs hn => (h3 sh hs hn).imp id (by simp [·])⟩
    | some sh0 =>
      cases cur with
      | none =>
        simp only [liftShapes] at h
        obtain ⟨h1, h2, h3⟩ := ih _ h
        refine ⟨by simp, ?_, ?_⟩
        · intro sh hm hn
          rcases List.mem_cons.1 hm with hm | hm
          · cases hm; exact h1 _ rfl hn
          · exact h2 sh hm hn
        · intro sh hs hn
          rcases h3 sh hs hn with h4 | h4
          · cases h4; simp
          · simp [h4]
      | some c =>
        simp only [liftShapes] at h
        split at h
        · rename_i hc
          subst hc
          obtain ⟨h1, h2, h3⟩ := ih _ h
          refine ⟨h1, ?_, ?_⟩
          · intro sh hm hn
            rcases List.mem_cons.1 hm with hm | hm
            · cases hm; exact h1 _ rfl hn
            · exact h2 sh hm hn
          · intro sh hs hn
            exact (h3 sh hs hn).imp id (by simp [·])
        · split at h
          · rename_i hc0
            subst hc0
            obtain ⟨h1, h2, h3⟩ := ih _ h
            refine ⟨?_, ?_, ?_⟩
            · intro c' hc' hn; cases hc'; exact absurd rfl hn
            · intro sh hm hn
              rcases List.mem_cons.1 hm with hm | hm
              · cases hm; exact h1 _ rfl hn
              · exact h2 sh hm hn
            · intro sh hs hn
              rcases h3 sh hs hn with h4 | h4
              · cases h4; simp
              · simp [h4]
          · split at h
            · rename_i hs0
              subst hs0
              obtain ⟨h1, h2, h3⟩ := ih _ h
              refine ⟨h1, ?_, ?_⟩
              · intro sh hm hn
                rcases List.mem_cons.1 hm with hm | hm
                · cases hm; exact absurd rfl hn
                · exact h2 sh hm hn
              · intro sh hs hn
                exact (h3 sh hs hn).imp id (by simp [·])
            · cases h

/-- The elementwise rule accepts exactly when all non-scalar tensor operands have one declared shape, which is then
the result shape; without such an operand the result is a scalar. -/
theorem elementwise_rule_accepts_iff (ins : List (Option (List Int))) (sh : List Int) :
    elementwiseAe ins = .ok sh ↔
      (∀ s, some s ∈ ins → s ≠ [] → s = sh) ∧ (sh ≠ [] → some sh ∈ ins) := by
  constructor
  · intro h
    simp only [elementwiseAe, bind, Except.bind, pure, Except.pure] at h
    split at h
    · cases h
    rename_i s hs
    cases h
    obtain ⟨-, h2, h3⟩ := liftShapes_ok _ _ _ hs
    constructor
    · intro s' hm hn
      rw [h2 s' hm hn]; rfl
    · intro hn
      cases s with
      | none => simp at hn
      | some c => simpa using h3 c rfl hn
  · rintro ⟨h1, h2⟩
    -- if it were rejected, two different non-scalar shapes would exist
    have key : ∀ (cur : Option (List Int)) (l : List (Option (List Int))), (∀ c, cur = some c → c ≠ [] → c = sh) →
        (∀ s, some s ∈ l → s ≠ [] → s = sh) → ∃ s, liftShapes cur l = .ok s := by
      intro cur l
      induction l generalizing cur with
      | nil => intro _ _; exact ⟨cur, by simp [liftShapes]⟩
      | cons x r ih =>
        intro hc hl
        have hl' : ∀ s, some s ∈ r → s ≠ [] → s = sh := fun s hs => hl s (by simp [hs])
        cases x with
        | none => simpa [liftShapes] using ih cur hc hl'
        | some x =>
          cases cur with
          | none =>
            simp only [liftShapes]
            exact ih _ (fun c hc' hn => by cases hc'; exact hl _ (by simp) hn) hl'
          | some c =>
            simp only [liftShapes]
            split
            · exact ih _ hc hl'
            · split
              · exact ih _ (fun c hc' hn => by cases hc'; exact hl _ (by simp) hn) hl'
              · split
                · exact ih _ hc hl'
                · rename_i e1 e2 e3
                  exact absurd ((hc c rfl e2).trans (hl x (by simp) e3).symm) e1
    obtain ⟨s, hs⟩ := key none ins (by simp) h1
    have hh := hs
    obtain ⟨-, h4, h5⟩ := liftShapes_ok _ _ _ hs
    simp only [elementwiseAe, hs, bind, Except.bind, pure, Except.pure]
    congr 1
    by_cases hsh : sh = []
    · subst hsh
      cases s with
      | none => rfl
      | some c =>
        simp
        by_contra hc
        rcases h5 c rfl hc with h6 | h6
        · cases h6
        · exact hc (h1 c h6 hc)
    · rw [h4 sh (h2 hsh) hsh]; rfl

example : elementwiseAe [none, some [], some [2, -1], some [2, -1]] = .ok [2, -1] ∧
    elementwiseAe [some [2, -1], some [2, 3]] = .error .valueError ∧ elementwiseAe [none] = .ok [] := by decide

/-- Run-time operands as the executor passes them: a non-scalar tensor operand is an array of the given shape, every
other operand is a single value. -/
def OperandOk {α : Type} (rs : List Nat) (o : Operand α) : Prop :=
  (∀ d, o.decl = some d → d ≠ [] → ∃ a, o.val = .inr a ∧ a.WF ∧ a.shape = rs ∧ Fits rs d) ∧
  ((o.decl = none ∨ o.decl = some []) → (∃ x, o.val = .inl x) ∨ ∃ a, o.val = .inr a ∧ a.WF ∧ a.shape = [])

theorem iterated_iff (d : Option (List Int)) : iterated d = true ↔ ∃ s, d = some s ∧ s ≠ [] := by
  cases d with
  | none => simp [iterated]
  | some s => cases s <;> simp [iterated]

theorem pick_total {α : Type} (rs : List Nat) (o : Operand α) (h : OperandOk rs o) (idx : List Nat) (hi : InB idx rs) :
    ∃ x, pick o idx = .ok x := by
  unfold pick
  by_cases hit : iterated o.decl = true
  · obtain ⟨s, hs, hn⟩ := (iterated_iff _).1 hit
    obtain ⟨a, ha, hw, hsh, -⟩ := h.1 s hs hn
    rw [ha]
    simp only [hit, if_true]
    exact get_total a hw idx (hsh ▸ hi)
  · have : o.decl = none ∨ o.decl = some [] := by
      cases hd : o.decl with
      | none => exact .inl rfl
      | some s =>
        right
        by_contra hc
        exact hit ((iterated_iff _).2 ⟨s, hd, fun he => hc (by rw [he])⟩)
    rcases h.2 this with ⟨x, hx⟩ | ⟨a, ha, hw, hsh⟩
    · rw [hx]; simp [hit]
    · rw [ha]
      simp only [hit]
      exact get_total a hw [] (by rw [hsh]; exact .nil)

theorem runShape_eq {α : Type} (rs : List Nat) (ops : List (Operand α)) (h : ∀ o ∈ ops, OperandOk rs o) :
    (∃ o ∈ ops, iterated o.decl = true) → runShape ops = rs := by
  induction ops with
  | nil => simp
  | cons o r ih =>
    rintro ⟨o', hm, hi⟩
    unfold runShape
    by_cases hit : iterated o.decl = true
    · obtain ⟨s, hs, hn⟩ := (iterated_iff _).1 hit
      obtain ⟨a, ha, -, hsh, -⟩ := (h o (by simp)).1 s hs hn
      simp [hit, ha, hsh]
    · rw [if_neg hit]
      apply ih (fun o ho => h o (by simp [ho]))
      rcases List.mem_cons.1 hm with rfl | hm
      · exact absurd hi hit
      · exact ⟨o', hm, hi⟩

theorem runShape_nil {α : Type} (ops : List (Operand α)) (h : ∀ o ∈ ops, ¬ iterated o.decl = true) :
    runShape ops = [] := by
  induction ops with
  | nil => rfl
  | cons o r ih =>
    unfold runShape
    rw [if_neg (h o (by simp)), ih (fun o ho => h o (by simp [ho]))]

/-- **C55, elementwise (partial).**  If the rule accepts the declared shapes, all non-scalar operands have one
run-time shape, and the element function never fails and returns one value per output, then the op succeeds; every
output is an array compatible with the computed shape, and element `idx` of output `i` is the `i`-th result of the
element function on the operands' elements at `idx` (whole values for scalar operands).  Missing: operands declared
with the same dynamic shape may differ in size at run time, see `elementwise_truncates_violated`. -/
theorem elementwise_partial {α : Type} (nOut : Nat) (f : List α → Except Err (List α)) (ops : List (Operand α))
    (rs : List Nat) (sh : List Int) (h : elementwiseAe (ops.map Operand.decl) = .ok sh)
    (hrs : sh = [] → rs = []) (hop : ∀ o ∈ ops, OperandOk rs o)
    (hfn : ∀ xs : List α, xs.length = ops.length → ∃ ys, f xs = .ok ys ∧ ys.length = nOut) :
    ∃ outs : List (Arr α), elementwiseImpl nOut f ops = .ok outs ∧ outs.length = nOut ∧
      ∀ (i : Nat) (out : Arr α), outs[i]? = some out → out.shape = rs ∧ Fits out.shape sh ∧ out.WF ∧
        ∀ idx, InB idx rs → ∃ xs ys y, mapE (fun o => pick o idx) ops = .ok xs ∧ f xs = .ok ys ∧
          ys[i]? = some y ∧ out.get idx = .ok y := by
  obtain ⟨r1, r2⟩ := (elementwise_rule_accepts_iff _ _).1 h
  have hfits : Fits rs sh := by
    by_cases hsh : sh = []
    · rw [hsh, hrs hsh]; exact .nil
    · have := r2 hsh
      rw [List.mem_map] at this
      obtain ⟨o, ho, hd⟩ := this
      obtain ⟨a, -, -, -, hf⟩ := (hop o ho).1 sh hd hsh
      exact hf
  have hrun : runShape ops = rs := by
    by_cases hsh : sh = []
    · rw [hrs hsh]
      apply runShape_nil
      intro o ho hit
      obtain ⟨s, hs, hn⟩ := (iterated_iff _).1 hit
      exact hn ((r1 s (List.mem_map.2 ⟨o, ho, hs⟩) hn).trans hsh)
    · apply runShape_eq rs ops hop
      have := r2 hsh
      rw [List.mem_map] at this
      obtain ⟨o, ho, hd⟩ := this
      exact ⟨o, ho, (iterated_iff _).2 ⟨sh, hd, hsh⟩⟩
  have hrow : ∀ idx, InB idx rs → ∃ xs ys, mapE (fun o => pick o idx) ops = .ok xs ∧ f xs = .ok ys ∧ ys.length = nOut := by
    intro idx hi
    obtain ⟨xs, hxs⟩ := mapE_total (fun o => pick o idx) ops (fun o ho => pick_total rs o (hop o ho) idx hi)
    obtain ⟨ys, hys, hyl⟩ := hfn xs (mapE_ok _ _ _ hxs).1
    exact ⟨xs, ys, hxs, hys, hyl⟩
  obtain ⟨rows, hrows⟩ := mapE_total (fun idx => do
      let xs ← mapE (fun o => pick o idx) ops
      f xs) (ndindex rs) (by
    intro idx hidx
    obtain ⟨xs, ys, h1, h2, -⟩ := hrow idx ((mem_ndindex _ _).1 hidx)
    exact ⟨ys, by simp only [h1, bind, Except.bind]; exact h2⟩)
  obtain ⟨hrl, hrg⟩ := mapE_ok _ _ _ hrows
  have hrowlen : ∀ row ∈ rows, row.length = nOut := by
    intro row hr
    obtain ⟨k, hk⟩ := List.mem_iff_getElem?.1 hr
    have hkl : k < (ndindex rs).length := by
      have := (List.getElem?_eq_some_iff.1 hk).1
      omega
    obtain ⟨y, hy, hf⟩ := hrg k _ (List.getElem?_eq_getElem hkl)
    rw [hk] at hy
    cases hy
    obtain ⟨xs, ys, h1, h2, h3⟩ := hrow _ ((mem_ndindex _ _).1 (List.getElem_mem hkl))
    simp only [h1, bind, Except.bind] at hf
    rw [h2] at hf
    cases hf
    exact h3
  obtain ⟨cols, hcols⟩ := mapE_total (fun i => mapE (rowGet (α := α) i) rows) (List.range nOut) (by
    intro i hi
    apply mapE_total
    intro row hr
    have := hrowlen row hr
    have hil : i < row.length := by simp at hi; omega
    exact ⟨row[i], by simp [rowGet, List.getElem?_eq_getElem hil]⟩)
  obtain ⟨hcl, hcg⟩ := mapE_ok _ _ _ hcols
  refine ⟨cols.map fun c => ⟨rs, c⟩, ?_, by simp [hcl], ?_⟩
  · simp only [elementwiseImpl, hrun, bind, Except.bind, pure, Except.pure]
    simp only [bind, Except.bind] at hrows
    rw [hrows]
    simp only [hcols]
  · intro i out hout
    rw [List.getElem?_map] at hout
    cases hc : cols[i]? with
    | none => rw [hc] at hout; simp at hout
    | some c =>
      rw [hc] at hout
      simp at hout
      subst hout
      have hil : i < nOut := by
        have := (List.getElem?_eq_some_iff.1 hc).1
        simp at hcl
        omega
      obtain ⟨c', hc', hce⟩ := hcg i i (List.getElem?_range hil)
      rw [hc] at hc'
      cases hc'
      obtain ⟨k1, k2⟩ := mapE_ok _ _ _ hce
      have hwf : (⟨rs, c⟩ : Arr α).WF := by
        unfold Arr.WF
        simp only
        rw [k1, hrl, ndindex_length]
      refine ⟨rfl, hfits, hwf, ?_⟩
      intro idx hi
      obtain ⟨row, hrow1, hrow2⟩ := hrg _ _ (ndindex_ravel rs idx hi)
      obtain ⟨y, hy1, hy2⟩ := k2 _ _ hrow1
      obtain ⟨xs, ys, h1, h2, h3⟩ := hrow idx hi
      simp only [h1, bind, Except.bind] at hrow2
      rw [h2] at hrow2
      injection hrow2 with hrow2
      subst hrow2
      refine ⟨xs, ys, y, h1, h2, ?_, ?_⟩
      · unfold rowGet at hy2
        cases hh : ys[i]? with
        | none => simp only [hh] at hy2; cases hy2
        | some z => simp only [hh] at hy2; cases hy2; rfl
      · simp [Arr.get, (inB_iff _ _).2 hi, hy1]

/-- Adding a scalar and two arrays of a dynamic size 3. -/
example : elementwiseImpl 1 (fun xs : List Nat => .ok [xs.sum])
    [⟨none, .inl 10⟩, ⟨some [-1], .inr ⟨[3], [1, 2, 3]⟩⟩, ⟨some [-1], .inr ⟨[3], [4, 5, 6]⟩⟩]
      = .ok [⟨[3], [15, 17, 19]⟩] ∧ elementwiseAe [none, some [-1], some [-1]] = .ok [-1] := by decide

/-- **C55 is violated for dynamic elementwise operands**: with run-time sizes `n < m` behind the same declared shape
`(−1,)`, the longer second operand is silently cut to `n` elements, and with the operands swapped the op fails with an
index error. -/
theorem elementwise_truncates_violated (n m : Nat) (h : n < m) :
    elementwiseAe [some [-1], some [-1]] = .ok [-1] ∧ Fits [n] [-1] ∧ Fits [m] [-1] ∧
    elementwiseImpl 1 (fun xs : List Nat => .ok [xs.sum])
      [⟨some [-1], .inr ⟨[n], List.replicate n 1⟩⟩, ⟨some [-1], .inr ⟨[m], List.replicate m 1⟩⟩]
        = .ok [⟨[n], List.replicate n 2⟩] ∧
    elementwiseImpl 1 (fun xs : List Nat => .ok [xs.sum])
      [⟨some [-1], .inr ⟨[m], List.replicate m 1⟩⟩, ⟨some [-1], .inr ⟨[n], List.replicate n 1⟩⟩]
        = .error .indexError := by
  refine ⟨by decide, .cons (.inl rfl) .nil, .cons (.inl rfl) .nil, ?_, ?_⟩
  · have hnd : ndindex [n] = (List.range n).map (fun i => [i]) := by
      simp only [ndindex, List.map_cons, List.map_nil]
      induction (List.range n) with
      | nil => rfl
      | cons a l ih => simp [List.flatMap_cons, ih]
    have hpick : ∀ (k i : Nat), i < k → (⟨[k], List.replicate k 1⟩ : Arr Nat).get [i] = .ok 1 := by
      intro k i hi
      simp [Arr.get, inB, ravel, size, hi, List.getElem?_replicate]
    have hrows : ∀ l : List Nat, (∀ i ∈ l, i < n) → mapE (fun idx => do
        let xs ← mapE (fun o => pick o idx)
          [(⟨some [-1], .inr ⟨[n], List.replicate n 1⟩⟩ : Operand Nat), ⟨some [-1], .inr ⟨[m], List.replicate m 1⟩⟩]
        (fun xs : List Nat => (.ok [xs.sum] : Except Err (List Nat))) xs) (l.map fun i => [i])
          = .ok (List.replicate l.length [2]) := by
      intro l
      induction l with
      | nil => intro _; rfl
      | cons i r ih =>
        intro hl
        have hi := hl i (by simp)
        have e := ih (fun j hj => hl j (by simp [hj]))
        simp only [List.map_cons, mapE]
        have h1 : pick (⟨some [-1], .inr ⟨[n], List.replicate n 1⟩⟩ : Operand Nat) [i] = .ok 1 := by
          simp [pick, iterated, hpick n i hi]
        have h2 : pick (⟨some [-1], .inr ⟨[m], List.replicate m 1⟩⟩ : Operand Nat) [i] = .ok 1 := by
          simp [pick, iterated, hpick m i (by omega)]
        simp only [h1, h2, bind, Except.bind, pure, Except.pure] at e ⊢
        simp only [mapE, bind, Except.bind, pure, Except.pure] at e
        rw [e]
        simp [List.replicate_succ]
    simp only [elementwiseImpl, runShape, iterated, if_true, hnd]
    rw [hrows (List.range n) (by simp)]
    simp only [bind, Except.bind, pure, Except.pure, List.length_range]
    have hcol : ∀ k : Nat, mapE (rowGet (α := Nat) 0) (List.replicate k [2]) = .ok (List.replicate k 2) := by
      intro k
      induction k with
      | zero => rfl
      | succ k ih => simp [List.replicate_succ, mapE, ih, rowGet, bind, Except.bind, pure, Except.pure]
    simp [List.range_succ, mapE, hcol, bind, Except.bind, pure, Except.pure]
  · have hfail : ∀ l : List (List Nat), [n] ∈ l → (∀ x ∈ l, ∃ i, x = [i] ∧ i < m) →
      mapE (fun idx => do
        let xs ← mapE (fun o => pick o idx)
          [(⟨some [-1], .inr ⟨[m], List.replicate m 1⟩⟩ : Operand Nat), ⟨some [-1], .inr ⟨[n], List.replicate n 1⟩⟩]
        (fun xs : List Nat => (.ok [xs.sum] : Except Err (List Nat))) xs) l = .error .indexError := by
      intro l
      induction l with
      | nil => simp
      | cons x r ih =>
        intro hm hl
        obtain ⟨i, rfl, hi⟩ := hl x (by simp)
        have h1 : pick (⟨some [-1], .inr ⟨[m], List.replicate m 1⟩⟩ : Operand Nat) [i] = .ok 1 := by
          simp [pick, iterated, Arr.get, inB, ravel, size, hi, List.getElem?_replicate]
        by_cases hin : i < n
        · have h2 : pick (⟨some [-1], .inr ⟨[n], List.replicate n 1⟩⟩ : Operand Nat) [i] = .ok 1 := by
            simp [pick, iterated, Arr.get, inB, ravel, size, hin, List.getElem?_replicate]
          have e := ih (by
            rcases List.mem_cons.1 hm with hm | hm
            · simp at hm; omega
            · exact hm) (fun y hy => hl y (by simp [hy]))
          simp only [mapE, h1, h2, bind, Except.bind, pure, Except.pure] at e ⊢
          rw [e]
        · have h2 : pick (⟨some [-1], .inr ⟨[n], List.replicate n 1⟩⟩ : Operand Nat) [i] = .error .indexError := by
            simp [pick, iterated, Arr.get, inB, hin]
          simp only [mapE, h1, h2, bind, Except.bind, pure, Except.pure]
    have := hfail (ndindex [m]) ((mem_ndindex _ _).2 (.cons h .nil)) (by
      intro x hx
      have := (mem_ndindex _ _).1 hx
      cases this with
      | cons h1 h2 => cases h2; exact ⟨_, rfl, h1⟩)
    simp only [elementwiseImpl, runShape, iterated, if_true]
    rw [this]
    rfl

/-- **C55, scatter** The rule for `scatter` accepts exactly updates of the element type of the tensor (shapes are not looked
at) and gives the type of the tensor. -/
theorem scatter_rule_accepts_iff (t upd t' : TTy) : scatterAe t upd = .ok t' ↔ upd.elem = t.elem ∧ t' = t := by
  unfold scatterAe
  by_cases h : upd.elem = t.elem
  · rw [if_neg (not_not.mpr h)]
    simp [h, eq_comm]
  · rw [if_pos h]
    simp [h]

/-- updates of any shape are accepted -/
example : scatterAe ⟨.int 64 true, [2, 3]⟩ ⟨.int 64 true, [5]⟩ = .ok ⟨.int 64 true, [2, 3]⟩ ∧
    scatterAe ⟨.int 64 true, [2, 3]⟩ ⟨.int 32 true, [2, 3]⟩ = .error .typeError := by
  constructor <;> rfl

end Verif.Tensor
