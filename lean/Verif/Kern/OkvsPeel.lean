/-
C41: the peeling invariant, termination, and correctness of solve / decode.
-/
import Verif.Kern.OkvsProps

namespace Verif.Kern

/-! ### Specification of peelability -/

/-- A collection of rows can be peeled: either it is empty, or some row has a column that no
other row of the collection has, and the rest can be peeled. -/
inductive Peelable {α : Type} (cols : α → List Nat) : List α → Prop
  | nil : Peelable cols []
  | step (pre post : List α) (t : α) (c : Nat) : c ∈ cols t →
      (∀ u ∈ pre ++ post, c ∉ cols u) → Peelable cols (pre ++ post) →
      Peelable cols (pre ++ t :: post)

theorem Peelable.sublist {α : Type} {cols : α → List Nat} {l : List α} (h : Peelable cols l) :
    ∀ {l' : List α}, l'.Sublist l → Peelable cols l' := by
  induction h with
  | nil => intro l' hl; rw [List.sublist_nil] at hl; subst hl; exact .nil
  | step pre post t c hc hp _ ih =>
    intro l' hl
    rw [List.sublist_append_iff] at hl
    obtain ⟨a, b, rfl, ha, hb⟩ := hl
    cases hb with
    | cons _ hb => exact ih (List.Sublist.append ha hb)
    | cons_cons _ hb =>
      refine .step a _ t c hc ?_ (ih (List.Sublist.append ha hb))
      intro u hu
      exact hp u ((List.Sublist.append ha hb).subset hu)

theorem Peelable.map {α β : Type} (f : α → β) {cols : β → List Nat} {l : List α}
    (h : Peelable (fun a => cols (f a)) l) : Peelable cols (l.map f) := by
  induction h with
  | nil => exact .nil
  | step pre post t c hc hp _ ih =>
    rw [List.map_append, List.map_cons]
    rw [List.map_append] at ih
    refine .step _ _ _ c hc ?_ ih
    intro u hu
    rw [← List.map_append, List.mem_map] at hu
    obtain ⟨v, hv, rfl⟩ := hu
    exact hp v hv

theorem Peelable.of_map {α β : Type} (f : α → β) {cols : β → List Nat} {l' : List β}
    (h : Peelable cols l') : ∀ {l : List α}, l.map f = l' →
      Peelable (fun a => cols (f a)) l := by
  induction h with
  | nil => intro l hl; simp only [List.map_eq_nil_iff] at hl; subst hl; exact .nil
  | step pre post t c hc hp _ ih =>
    intro l hl
    rw [List.map_eq_append_iff] at hl
    obtain ⟨a, b, rfl, ha, hb⟩ := hl
    rw [List.map_eq_cons_iff] at hb
    obtain ⟨x, b', rfl, hx, hb'⟩ := hb
    subst hx ha hb'
    refine .step _ _ _ c hc ?_ (ih (by rw [List.map_append]))
    intro u hu
    exact hp (f u) (by rw [← List.map_append]; exact List.mem_map_of_mem hu)

/-! ### The invariant -/

/-- Active rows, in order. -/
def active (n : Nat) (s : PS) : List Nat := (List.range n).filter (fun i => !s.rowRem i)

theorem mem_active {n : Nat} {s : PS} {i : Nat} :
    i ∈ active n s ↔ i < n ∧ s.rowRem i = false := by
  unfold active; simp

structure Inv (rows : List Tri) (m : Nat) (s : PS) : Prop where
  deg : ∀ j, s.colRem j = false →
    s.deg j = (((ctrOf rows j).filter (fun i => !s.rowRem i)).length : Int)
  queued : ∀ j, j < m → s.colRem j = false → s.deg j = 1 → j ∈ s.queue
  low : ∀ j ∈ s.queue, s.colRem j = false → s.deg j ≤ 1
  gone : ∀ j, s.colRem j = true → ∀ i ∈ active rows.length s, j ∉ rowCols rows i
  peel : Peelable (rowCols rows) (active rows.length s) →
    Peelable (rowCols rows) (List.range rows.length)
  count : s.stack.length + (active rows.length s).length = rows.length
  pw : s.stack.Pairwise (fun p q => p.1 ∉ rowCols rows q.2)
  own : ∀ p ∈ s.stack, p.1 ∈ rowCols rows p.2 ∧ p.2 < rows.length ∧ s.colRem p.1 = true
  rem : ∀ i, i < rows.length → s.rowRem i = true → ∃ j, (j, i) ∈ s.stack

theorem getD_mem {rows : List Tri} {i : Nat} (h : i < rows.length) :
    rows.getD i (0, 0, 0) ∈ rows := by
  rw [List.getD_eq_getElem?_getD, List.getElem?_eq_getElem h]
  exact List.getElem_mem h

theorem inv_init (rows : List Tri) (m : Nat) : Inv rows m (peelInit m (ctrOf rows)) where
  deg := by intro j _; simp [peelInit]
  queued := by
    intro j hj _ hd
    simp only [peelInit] at hd ⊢
    rw [List.mem_filter]
    refine ⟨List.mem_range.2 hj, ?_⟩
    have : (ctrOf rows j).length = 1 := by exact_mod_cast hd
    simp [this]
  low := by
    intro j hj _
    simp only [peelInit, List.mem_filter, decide_eq_true_eq] at hj ⊢
    omega
  gone := by intro j hj; simp [peelInit] at hj
  peel := by
    intro h
    have e : active rows.length (peelInit m (ctrOf rows)) = List.range rows.length := by
      unfold active peelInit; simp
    rwa [e] at h
  count := by
    have e : active rows.length (peelInit m (ctrOf rows)) = List.range rows.length := by
      unfold active peelInit; simp
    rw [e]; simp [peelInit]
  pw := by simp [peelInit]
  own := by simp [peelInit]
  rem := by simp [peelInit]

theorem filter_upd_length {l : List Nat} (hn : l.Nodup) (f : Nat → Bool) (r : Nat)
    (hf : f r = false) :
    (l.filter (fun i => !f i)).length
      = (l.filter (fun i => !(upd f r true) i)).length + if r ∈ l then 1 else 0 := by
  induction l with
  | nil => simp
  | cons x l ih =>
    rw [List.nodup_cons] at hn
    have ih := ih hn.2
    by_cases hx : x = r
    · subst hx
      have e1 : (x :: l).filter (fun i => !f i) = x :: l.filter (fun i => !f i) := by
        simp [List.filter_cons, hf]
      have e2 : (x :: l).filter (fun i => !(upd f x true) i)
          = l.filter (fun i => !(upd f x true) i) := by
        simp [List.filter_cons, upd]
      rw [e1, e2, List.length_cons, ih]
      simp [hn.1]
    · have e0 : (upd f r true) x = f x := by simp [upd, hx]
      cases hfx : f x
      · have e1 : (x :: l).filter (fun i => !f i) = x :: l.filter (fun i => !f i) := by
          simp [List.filter_cons, hfx]
        have e2 : (x :: l).filter (fun i => !(upd f r true) i)
            = x :: l.filter (fun i => !(upd f r true) i) := by
          simp [List.filter_cons, e0, hfx]
        rw [e1, e2, List.length_cons, List.length_cons, ih]
        have : r ≠ x := fun h => hx h.symm
        simp [this]; omega
      · have e1 : (x :: l).filter (fun i => !f i) = l.filter (fun i => !f i) := by
          simp [List.filter_cons, hfx]
        have e2 : (x :: l).filter (fun i => !(upd f r true) i)
            = l.filter (fun i => !(upd f r true) i) := by
          simp [List.filter_cons, e0, hfx]
        rw [e1, e2, ih]
        have : r ≠ x := fun h => hx h.symm
        simp [this]

/-- Popping a column already removed. -/
theorem inv_pop_removed {rows : List Tri} {m : Nat} {s : PS} {j : Nat} {q : List Nat}
    (h : Inv rows m s) (hq : s.queue = j :: q) (hr : s.colRem j = true) :
    Inv rows m { s with queue := q } where
  deg := h.deg
  queued := by
    intro k hk hc hd
    have := h.queued k hk hc hd
    rw [hq, List.mem_cons] at this
    rcases this with rfl | h'
    · have hc' : s.colRem k = false := hc
      rw [hr] at hc'; cases hc'
    · exact h'
  low := by intro k hk; exact h.low k (by rw [hq]; simp [hk])
  gone := h.gone
  peel := h.peel
  count := h.count
  pw := h.pw
  own := h.own
  rem := h.rem

/-- Popping a column with no active row left. -/
theorem inv_pop_empty {rows : List Tri} {m : Nat} {s : PS} {j : Nat} {q : List Nat}
    (h : Inv rows m s) (hq : s.queue = j :: q)
    (hf : (ctrOf rows j).find? (fun r => !s.rowRem r) = none) :
    Inv rows m { s with queue := q, colRem := upd s.colRem j true } where
  deg := by
    intro k hk
    apply h.deg
    simp only [upd] at hk
    by_cases e : k = j
    · simp [e] at hk
    · simpa [e] using hk
  queued := by
    intro k hk hc hd
    simp only [upd] at hc
    by_cases e : k = j
    · simp [e] at hc
    · have hc' : s.colRem k = false := by simpa [e] using hc
      have := h.queued k hk hc' hd
      rw [hq, List.mem_cons] at this
      rcases this with h' | h'
      · exact absurd h' e
      · exact h'
  low := by
    intro k hk hc
    simp only [upd] at hc
    by_cases e : k = j
    · simp [e] at hc
    · exact h.low k (by rw [hq]; exact List.mem_cons_of_mem _ hk) (by simpa [e] using hc)
  gone := by
    intro k hk i hi
    simp only [upd] at hk
    by_cases e : k = j
    · subst e
      intro hc
      rw [List.find?_eq_none] at hf
      have hi' := mem_active.1 hi
      have := hf i ((ctr_mem rows k i).2 ⟨hi'.1, hc⟩)
      have hr : s.rowRem i = false := hi'.2
      simp [hr] at this
    · exact h.gone k (by simpa [e] using hk) i hi
  peel := h.peel
  count := h.count
  pw := h.pw
  own := by
    intro p hp
    obtain ⟨a, b, c⟩ := h.own p hp
    refine ⟨a, b, ?_⟩
    simp only [upd]
    split
    · rfl
    · exact c
  rem := h.rem


theorem filter_upd_eq (l : List Nat) (f : Nat → Bool) (r : Nat) :
    l.filter (fun i => !(upd f r true) i) = (l.filter (fun i => !f i)).filter (fun i => i ≠ r) := by
  rw [List.filter_filter]
  apply List.filter_congr
  intro x _
  unfold upd
  by_cases h : x = r <;> simp [h]

theorem filter_ne_split {pre post : List Nat} {r : Nat} (hn : (pre ++ r :: post).Nodup) :
    (pre ++ r :: post).filter (fun i => i ≠ r) = pre ++ post := by
  rw [List.nodup_append] at hn
  obtain ⟨_, h2, h3⟩ := hn
  rw [List.nodup_cons] at h2
  rw [List.filter_append, List.filter_cons]
  have e1 : pre.filter (fun i => i ≠ r) = pre := by
    rw [List.filter_eq_self]
    intro a ha
    have := h3 a ha r (by simp)
    simpa using this
  have e2 : post.filter (fun i => i ≠ r) = post := by
    rw [List.filter_eq_self]
    intro a ha
    have : a ≠ r := by rintro rfl; exact h2.1 ha
    simpa using this
  rw [e1, e2]; simp

theorem length_one_unique {l : List Nat} (h : l.length ≤ 1) {a b : Nat} (ha : a ∈ l) (hb : b ∈ l) :
    a = b := by
  match l, h with
  | [], _ => cases ha
  | [x], _ =>
    simp only [List.mem_singleton] at ha hb
    rw [ha, hb]

/-- The row found is the only active row with column `j`. -/
theorem owner_private {rows : List Tri} {m : Nat} {s : PS} {j r : Nat}
    (h : Inv rows m s) (hq : j ∈ s.queue) (hc : s.colRem j = false)
    (hf : (ctrOf rows j).find? (fun r => !s.rowRem r) = some r) :
    r < rows.length ∧ j ∈ rowCols rows r ∧ s.rowRem r = false ∧
    ∀ i ∈ active rows.length s, j ∈ rowCols rows i → i = r := by
  have hm := List.mem_of_find?_eq_some hf
  have hp := List.find?_some hf
  have hrr : s.rowRem r = false := by simpa using hp
  obtain ⟨h1, h2⟩ := (ctr_mem rows j r).1 hm
  refine ⟨h1, h2, hrr, ?_⟩
  intro i hi hij
  obtain ⟨hi1, hi2⟩ := mem_active.1 hi
  have hlen : ((ctrOf rows j).filter (fun i => !s.rowRem i)).length ≤ 1 := by
    have := h.low j hq hc
    rw [h.deg j hc] at this
    exact_mod_cast this
  apply length_one_unique hlen
  · rw [List.mem_filter]; exact ⟨(ctr_mem rows j i).2 ⟨hi1, hij⟩, by simp [hi2]⟩
  · rw [List.mem_filter]; exact ⟨hm, by simp [hrr]⟩

/-- Peeling a row. -/
theorem inv_pop_peel {rows : List Tri} {m : Nat} {s : PS} {j r : Nat} {q : List Nat}
    (hrows : ∀ t ∈ rows, t.cols.Nodup)
    (h : Inv rows m s) (hq : s.queue = j :: q) (hc : s.colRem j = false)
    (hf : (ctrOf rows j).find? (fun r => !s.rowRem r) = some r) (s' : PS)
    (hs' : s' = (rowCols rows r).foldl (relax j)
      { s with queue := q, stack := s.stack ++ [(j, r)],
               colRem := upd s.colRem j true, rowRem := upd s.rowRem r true }) :
    Inv rows m s' ∧ (active rows.length s').length + 1 = (active rows.length s).length ∧
    s'.queue.length ≤ q.length + 3 := by
  obtain ⟨hr1, hr2, hr3, hr4⟩ := owner_private h (by rw [hq]; simp) hc hf
  have hnd : (rowCols rows r).Nodup := hrows _ (getD_mem hr1)
  obtain ⟨f1, f2, f3, f4, f5, f6⟩ := relax_fold j (rowCols rows r)
    { s with queue := q, stack := s.stack ++ [(j, r)],
             colRem := upd s.colRem j true, rowRem := upd s.rowRem r true } hnd
  rw [← hs'] at f1 f2 f3 f4 f5 f6
  simp only at f1 f2 f3 f4 f5 f6
  have hact : active rows.length s' = (active rows.length s).filter (fun i => i ≠ r) := by
    unfold active; rw [f1]; exact filter_upd_eq _ _ _
  have hra : r ∈ active rows.length s := mem_active.2 ⟨hr1, hr3⟩
  obtain ⟨pre, post, hsplit⟩ := List.append_of_mem hra
  have hnda : (active rows.length s).Nodup := List.Nodup.filter _ List.nodup_range
  have hact2 : active rows.length s' = pre ++ post := by
    rw [hact, hsplit]; exact filter_ne_split (hsplit ▸ hnda)
  have hsub : ∀ i ∈ active rows.length s', i ∈ active rows.length s ∧ i ≠ r := by
    intro i hi
    rw [hact, List.mem_filter] at hi
    exact ⟨hi.1, by simpa using hi.2⟩
  have hcol : ∀ k, s'.colRem k = false → k ≠ j ∧ s.colRem k = false := by
    intro k hk
    rw [f2] at hk
    unfold upd at hk
    by_cases e : k = j
    · simp [e] at hk
    · exact ⟨e, by simpa [e] using hk⟩
  refine ⟨?_, ?_, ?_⟩
  · constructor
    · intro k hk
      obtain ⟨hkj, hkc⟩ := hcol k hk
      rw [f4 k, f1]
      have e0 : upd s.colRem j true k = false := by rw [← f2]; exact hk
      have hl := filter_upd_length (ctr_nodup rows hrows k) s.rowRem r hr3
      have hd := h.deg k hkc
      rw [hl] at hd
      by_cases hkr : k ∈ rowCols rows r
      · rw [if_pos ((ctr_mem rows k r).2 ⟨hr1, hkr⟩)] at hd
        rw [if_pos ⟨hkr, hkj, e0⟩, hd]
        push_cast; omega
      · rw [if_neg (fun h' => hkr ((ctr_mem rows k r).1 h').2)] at hd
        rw [if_neg (fun h' => hkr h'.1), hd]
        push_cast; omega
    · intro k hkm hk hd
      obtain ⟨hkj, hkc⟩ := hcol k hk
      have e0 : upd s.colRem j true k = false := by rw [← f2]; exact hk
      rw [f4 k] at hd
      rw [f5 k]
      by_cases hkr : k ∈ rowCols rows r
      · rw [if_pos ⟨hkr, hkj, e0⟩] at hd
        exact Or.inr ⟨hkr, hkj, e0, hd⟩
      · rw [if_neg (fun h' => hkr h'.1)] at hd
        have := h.queued k hkm hkc hd
        rw [hq, List.mem_cons] at this
        rcases this with h' | h'
        · exact absurd h' hkj
        · exact Or.inl h'
    · intro k hk hck
      obtain ⟨hkj, hkc⟩ := hcol k hck
      rw [f5 k] at hk
      rw [f4 k]
      rcases hk with hk | ⟨a, b, c, d⟩
      · have := h.low k (by rw [hq]; simp [hk]) hkc
        split <;> omega
      · rw [if_pos ⟨a, b, c⟩]; omega
    · intro k hk i hi
      obtain ⟨hi1, hi2⟩ := hsub i hi
      rw [f2] at hk
      unfold upd at hk
      by_cases e : k = j
      · subst e
        intro hik
        exact hi2 (hr4 i hi1 hik)
      · exact h.gone k (by simpa [e] using hk) i hi1
    · intro hp
      apply h.peel
      rw [hsplit]
      rw [hact2] at hp
      refine .step pre post r j hr2 ?_ hp
      intro u hu hju
      rw [← hact2] at hu
      obtain ⟨hu1, hu2⟩ := hsub u hu
      exact hu2 (hr4 u hu1 hju)
    · have := h.count
      rw [f3, hact2]
      rw [hsplit] at this
      simp only [List.length_append, List.length_cons, List.length_nil] at this ⊢
      omega
    · rw [f3, List.pairwise_append]
      refine ⟨h.pw, by simp, ?_⟩
      intro p hp b hb
      simp only [List.mem_singleton] at hb
      subst hb
      exact h.gone p.1 (h.own p hp).2.2 r hra
    · intro p hp
      rw [f3, List.mem_append, List.mem_singleton] at hp
      rw [f2]
      rcases hp with hp | rfl
      · obtain ⟨a, b, c⟩ := h.own p hp
        refine ⟨a, b, ?_⟩
        unfold upd; split
        · rfl
        · exact c
      · exact ⟨hr2, hr1, by simp [upd]⟩
    · intro i hi hri
      rw [f1] at hri
      rw [f3]
      unfold upd at hri
      by_cases e : i = r
      · exact ⟨j, by simp [e]⟩
      · obtain ⟨k, hk⟩ := h.rem i hi (by simpa [e] using hri)
        exact ⟨k, by simp [hk]⟩
  · rw [hact2, hsplit]; simp; omega
  · refine Nat.le_trans f6 ?_
    simp [rowCols, Tri.cols]

/-- The loop keeps the invariant and, with the fuel the solver gives it, ends. -/
theorem loop_inv {rows : List Tri} {m : Nat} (hrows : ∀ t ∈ rows, t.cols.Nodup) :
    ∀ (fuel : Nat) (s : PS), Inv rows m s →
      s.queue.length + 3 * (active rows.length s).length ≤ fuel →
      ∃ s', peelLoop rows (ctrOf rows) fuel s = some s' ∧ Inv rows m s' ∧ s'.queue = [] := by
  intro fuel
  induction fuel with
  | zero =>
    intro s h hl
    have hq : s.queue = [] := List.eq_nil_of_length_eq_zero (by omega)
    refine ⟨s, ?_, h, hq⟩
    unfold peelLoop; rw [hq]
  | succ fuel ih =>
    intro s h hl
    cases hq : s.queue with
    | nil => exact ⟨s, by unfold peelLoop; rw [hq], h, hq⟩
    | cons j q =>
      have hstep : peelLoop rows (ctrOf rows) (fuel + 1) s
          = peelLoop rows (ctrOf rows) fuel (peelOne rows (ctrOf rows) j { s with queue := q }) := by
        conv => lhs; unfold peelLoop
        rw [hq]
      rw [hstep]
      have hl' : q.length + 1 + 3 * (active rows.length s).length ≤ fuel + 1 := by
        rw [hq] at hl; simpa using hl
      by_cases hc : s.colRem j = true
      · have e : peelOne rows (ctrOf rows) j { s with queue := q } = { s with queue := q } := by
          unfold peelOne; rw [if_pos hc]
        rw [e]
        apply ih _ (inv_pop_removed h hq hc)
        have : active rows.length { s with queue := q } = active rows.length s := rfl
        rw [this]
        show q.length + _ ≤ fuel
        omega
      · have hc' : s.colRem j = false := by
          cases h' : s.colRem j
          · rfl
          · exact absurd h' hc
        cases hf : (ctrOf rows j).find? (fun r => !s.rowRem r) with
        | none =>
          have e : peelOne rows (ctrOf rows) j { s with queue := q }
              = { s with queue := q, colRem := upd s.colRem j true } := by
            unfold peelOne; rw [if_neg hc]; simp only [hf]
          rw [e]
          apply ih _ (inv_pop_empty h hq hf)
          have : active rows.length { s with queue := q, colRem := upd s.colRem j true }
              = active rows.length s := rfl
          rw [this]
          show q.length + _ ≤ fuel
          omega
        | some r =>
          have e : peelOne rows (ctrOf rows) j { s with queue := q }
              = (rowCols rows r).foldl (relax j)
                { s with queue := q, stack := s.stack ++ [(j, r)],
                         colRem := upd s.colRem j true, rowRem := upd s.rowRem r true } := by
            unfold peelOne; rw [if_neg hc]; simp only [hf]; rfl
          rw [e]
          obtain ⟨i1, i2, i3⟩ := inv_pop_peel hrows h hq hc' hf _ rfl
          exact ih _ i1 (by omega)

/-- Rows of three distinct cells of an `m`-cell table. -/
def GoodRows (rows : List Tri) (m : Nat) : Prop :=
  ∀ t ∈ rows, t.cols.Nodup ∧ ∀ c ∈ t.cols, c < m

theorem peel_ends (rows : List Tri) (m : Nat) (hg : GoodRows rows m) :
    ∃ s, peelLoop rows (ctrOf rows) (m + 3 * rows.length) (peelInit m (ctrOf rows)) = some s ∧
      Inv rows m s ∧ s.queue = [] := by
  apply loop_inv (fun t ht => (hg t ht).1) _ _ (inv_init rows m)
  have h1 : (active rows.length (peelInit m (ctrOf rows))).length ≤ rows.length := by
    unfold active
    refine Nat.le_trans (List.length_filter_le _ _) ?_
    simp
  have h2 : (peelInit m (ctrOf rows)).queue.length ≤ m := by
    unfold peelInit
    refine Nat.le_trans (List.length_filter_le _ _) ?_
    simp
  omega

/-- At the end of the loop no active row has a private column. -/
theorem stuck_end {rows : List Tri} {m : Nat} {s : PS} (hg : GoodRows rows m) (h : Inv rows m s)
    (hq : s.queue = []) (hp : Peelable (rowCols rows) (active rows.length s)) :
    active rows.length s = [] := by
  cases hp' : active rows.length s with
  | nil => rfl
  | cons a l =>
    exfalso
    have hnd : (active rows.length s).Nodup := List.Nodup.filter _ List.nodup_range
    have hne : active rows.length s ≠ [] := by rw [hp']; simp
    clear hp'
    generalize hA : active rows.length s = A at *
    cases hp with
    | nil => exact hne rfl
    | step pre post r c hc hu _ =>
      have hr : r ∈ active rows.length s := by rw [hA]; simp
      obtain ⟨hr1, hr2⟩ := mem_active.1 hr
      have hcm : c < m := (hg _ (getD_mem hr1)).2 c hc
      have hcol : s.colRem c = false := by
        cases hcr : s.colRem c
        · rfl
        · exact absurd hc (h.gone c hcr r hr)
      have hfil : (ctrOf rows c).filter (fun i => !s.rowRem i) = [r] := by
        have hsub : ∀ x ∈ (ctrOf rows c).filter (fun i => !s.rowRem i), x = r := by
          intro x hx
          rw [List.mem_filter] at hx
          obtain ⟨hx1, hx2⟩ := (ctr_mem rows c x).1 hx.1
          have hxa : x ∈ active rows.length s := mem_active.2 ⟨hx1, by simpa using hx.2⟩
          rw [hA] at hxa
          by_contra hne'
          apply hu x _ hx2
          simp only [List.mem_append, List.mem_cons] at hxa ⊢
          rcases hxa with h' | h' | h'
          · exact Or.inl h'
          · exact absurd h' hne'
          · exact Or.inr h'
        have hmem : r ∈ (ctrOf rows c).filter (fun i => !s.rowRem i) := by
          rw [List.mem_filter]
          exact ⟨(ctr_mem rows c r).2 ⟨hr1, hc⟩, by simp [hr2]⟩
        have hnd' : ((ctrOf rows c).filter (fun i => !s.rowRem i)).Nodup :=
          List.Nodup.filter _ (ctr_nodup rows (fun t ht => (hg t ht).1) c)
        generalize (ctrOf rows c).filter (fun i => !s.rowRem i) = F at *
        match F with
        | [] => cases hmem
        | [x] => rw [hsub x (by simp)]
        | x :: y :: F =>
          have e1 := hsub x (by simp)
          have e2 := hsub y (by simp)
          rw [List.nodup_cons] at hnd'
          exact absurd (by simp [e1, e2]) hnd'.1
      have hd := h.deg c hcol
      rw [hfil] at hd
      have := h.queued c hcm hcol (by simpa using hd)
      rw [hq] at this
      cases this

theorem rows_range (rows : List Tri) :
    (List.range rows.length).map (fun i => rows.getD i (0, 0, 0)) = rows := by
  apply List.ext_getElem?
  intro i
  rw [List.getElem?_map]
  by_cases h : i < rows.length
  · rw [List.getElem?_range h, List.getElem?_eq_getElem h]
    simp [List.getD_eq_getElem?_getD, List.getElem?_eq_getElem h]
  · rw [List.getElem?_eq_none (by simpa using h), List.getElem?_eq_none (by simpa using h)]
    rfl

theorem peelable_range (rows : List Tri) :
    Peelable Tri.cols rows ↔ Peelable (rowCols rows) (List.range rows.length) := by
  constructor
  · intro h
    exact Peelable.of_map (fun i => rows.getD i (0, 0, 0)) h (rows_range rows)
  · intro h
    have := Peelable.map (fun i => rows.getD i (0, 0, 0)) (cols := Tri.cols) h
    rwa [rows_range] at this

/-- What the assignment stack of a successful peeling looks like. -/
structure GoodStack (rows : List Tri) (m : Nat) (stack : List (Nat × Nat)) : Prop where
  pw : stack.Pairwise (fun p q => p.1 ∉ rowCols rows q.2)
  own : ∀ p ∈ stack, p.1 ∈ rowCols rows p.2 ∧ p.2 < rows.length
  all : ∀ i, i < rows.length → ∃ j, (j, i) ∈ stack

theorem peelAll_spec (rows : List Tri) (m : Nat) (hg : GoodRows rows m) :
    (Peelable Tri.cols rows → ∃ stack, peelAll rows m = .ok stack ∧ GoodStack rows m stack) ∧
    (¬ Peelable Tri.cols rows → peelAll rows m = .error .core) := by
  obtain ⟨s, hs, hi, hq⟩ := peel_ends rows m hg
  have hp : peelAll rows m = if s.stack.length ≠ rows.length then .error .core else .ok s.stack := by
    unfold peelAll
    show (match peelLoop rows (ctrOf rows) (m + 3 * rows.length) (peelInit m (ctrOf rows)) with
      | none => _ | some s => _) = _
    rw [hs]
  constructor
  · intro h
    rw [peelable_range] at h
    have hnil := stuck_end hg hi hq (h.sublist (List.filter_sublist))
    have hlen : s.stack.length = rows.length := by
      have := hi.count; rw [hnil] at this; simpa using this
    refine ⟨s.stack, by rw [hp, if_neg (by simp [hlen])], hi.pw,
      fun p hp => ⟨(hi.own p hp).1, (hi.own p hp).2.1⟩, ?_⟩
    intro i hil
    apply hi.rem i hil
    cases hr : s.rowRem i
    · have := (mem_active (n := rows.length) (s := s)).2 ⟨hil, hr⟩
      rw [hnil] at this; cases this
    · rfl
  · intro h
    rw [hp, if_pos]
    intro hlen
    apply h
    rw [peelable_range]
    apply hi.peel
    have hnil : active rows.length s = [] := by
      have := hi.count
      exact List.eq_nil_of_length_eq_zero (by omega)
    rw [hnil]; exact .nil

end Verif.Kern
