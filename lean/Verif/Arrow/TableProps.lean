import Verif.Arrow.VectorProps

/-
C83, whole tables: `table_to_numpy` lines the expanded columns up.
-/
namespace Verif.Arrow

variable {V : Type} [Zero V] [One V]

/-! ## Specification -/

/-- How many matrix columns a table column takes. -/
def Col.width : Col V → Nat
  | .plain _ => 1
  | .dense s _ => s.toNat
  | .sparse s _ => s.toNat
  | .oneHot s _ => s.toNat

/-- `x` is component `j` of row `r` of the column. -/
inductive CellMeans : Col V → Nat → Nat → V → Prop
  | plain (vs : List V) (r : Nat) (x : V) : vs[r]? = some x → CellMeans (.plain vs) r 0 x
  | dense (s : Int) (rows : List (Option (List V))) (r j : Nat) (l : List V) (x : V) :
      rows[r]? = some (some l) → l[j]? = some x → CellMeans (.dense s rows) r j x
  | sparse (s : Int) (rows : List (SparseRow V)) (r j : Nat) (row : SparseRow V) (x : V) :
      rows[r]? = some row → SparseMeans row j x → CellMeans (.sparse s rows) r j x
  | oneHot (s : Int) (rows : List (Option Int)) (r j : Nat) (row : Option Int) (x : V) :
      rows[r]? = some row → OneHotMeans row j x → CellMeans (.oneHot s rows) r j x

/-- A column as Arrow can store it: a positive size, dense rows of that size, and sparse rows with as many
values as indices and no index twice. -/
def Col.Sound : Col V → Prop
  | .plain _ => True
  | .dense s rows => 0 < s ∧ ∀ l, some l ∈ rows → (l.length : Int) = s
  | .sparse s rows => 0 < s ∧ ∀ row ∈ rows, SparseSound row
  | .oneHot s _ => 0 < s

/-- The null rows a dense column loses on its way to numpy. -/
def Col.lost : Col V → Nat
  | .dense _ rows => (rows.filter Option.isNone).length
  | _ => 0

/-! ## Parts -/

omit [Zero V] [One V] in
theorem filterMap_lost (rows : List (Option (List V))) :
    (rows.filterMap id).length + (rows.filter Option.isNone).length = rows.length := by
  induction rows with
  | nil => rfl
  | cons a rows ih =>
    cases a with
    | none =>
      rw [List.filterMap_cons_none rfl, List.filter_cons_of_pos rfl]
      simp only [List.length_cons]
      omega
    | some l =>
      rw [List.filterMap_cons_some (f := id) (a := some l) (b := l) rfl, List.filter_cons_of_neg (by simp)]
      simp only [List.length_cons]
      omega

/-- Every sound column converts, to rows of its width, as many as it stores minus the null dense rows. -/
theorem part_ok (c : Col V) (h : c.Sound) :
    ∃ p, c.part = .ok p ∧ p.length + c.lost = c.rows ∧ ∀ l ∈ p, l.length = c.width := by
  cases c with
  | plain vs =>
    refine ⟨_, rfl, by simp [Col.lost, Col.rows], ?_⟩
    intro l hl
    simp at hl
    obtain ⟨v, _, rfl⟩ := hl
    rfl
  | dense s rows =>
    refine ⟨_, denseNumpy_eq s h.1 rows h.2, filterMap_lost rows, ?_⟩
    intro l hl
    rw [List.mem_filterMap] at hl
    obtain ⟨a, ha, e⟩ := hl
    simp at e
    subst e
    have := h.2 l ha
    show l.length = s.toNat
    omega
  | sparse s rows =>
    obtain ⟨m, h1, h2, h3⟩ := sparseMatrix_shape s rows h.2
    refine ⟨m, h1, by simp [Col.lost, Col.rows, h2], ?_⟩
    intro l hl
    obtain ⟨k, hk, e⟩ := List.getElem_of_mem hl
    obtain ⟨l', e1, _, e3⟩ := h3 k (rows[k]'(h2 ▸ hk)) (List.getElem?_eq_getElem _)
    rw [List.getElem?_eq_getElem hk, e] at e1
    cases e1
    exact e3
  | oneHot s rows =>
    refine ⟨_, rfl, ?_, ?_⟩
    · rw [one_hot_numpy_pylist]; simp [oneHotPyList, Col.lost, Col.rows]
    · intro l hl
      rw [one_hot_numpy_pylist] at hl
      simp only [oneHotPyList, List.mem_map] at hl
      obtain ⟨a, _, rfl⟩ := hl
      exact oneHotAsPy_length s a

omit [Zero V] [One V] in
theorem lost_zero_map (rows : List (Option (List V))) (h : (rows.filter Option.isNone).length = 0) :
    rows = (rows.filterMap id).map some := by
  induction rows with
  | nil => rfl
  | cons a rows ih =>
    cases a with
    | none => simp at h
    | some l => simp at h ⊢; exact ih (by simpa using h)

theorem part_cell (c : Col V) (h : c.Sound) (hz : c.lost = 0) (p : List (List V)) (hp : c.part = .ok p)
    (r j : Nat) (hj : j < c.width) (x : V) (hx : CellMeans c r j x) :
    ∃ l, p[r]? = some l ∧ l[j]? = some x := by
  cases hx with
  | plain vs r x hv =>
    simp only [Col.part, Except.ok.injEq] at hp
    subst hp
    exact ⟨[x], by simp [hv], rfl⟩
  | dense s rows r j l x h1 h2 =>
    have := denseNumpy_eq s h.1 rows h.2
    simp only [Col.part] at hp
    rw [this] at hp
    cases hp
    refine ⟨l, ?_, h2⟩
    have e := lost_zero_map rows hz
    rw [e, List.getElem?_map] at h1
    cases hq : (rows.filterMap id)[r]? with
    | none => rw [hq] at h1; simp at h1
    | some q => rw [hq] at h1; simp at h1; rw [h1]
  | sparse s rows r j row x h1 h2 =>
    obtain ⟨m, e1, _, e3⟩ := sparseMatrix_shape s rows h.2
    simp only [Col.part] at hp
    rw [e1] at hp
    cases hp
    obtain ⟨l, f1, f2, _⟩ := e3 r row h1
    obtain ⟨l', g1, _, g3, _⟩ := sparse_item_agrees_partial s row (h.2 row (List.mem_of_getElem? h1))
    rw [f2] at g1
    cases g1
    have hjs : j < s.toNat := hj
    exact ⟨l, f1, (g3 j (by omega) x h2).1⟩
  | oneHot s rows r j row x h1 h2 =>
    simp only [Col.part, Except.ok.injEq] at hp
    subst hp
    have hjs : j < s.toNat := hj
    refine ⟨oneHotAsPy s row, ?_, ((one_hot_item_agrees s row).2.1 j (by omega) x h2).1⟩
    rw [one_hot_numpy_pylist]
    simp [oneHotPyList, h1]

/-! ## Joining -/

omit [Zero V] [One V] in
theorem hcat_ok (n : Nat) : ∀ (ps : List (List (List V))) (ws : List Nat), ps ≠ [] →
    List.Forall₂ (fun p w => p.length = n ∧ ∀ l ∈ p, l.length = w) ps ws →
    ∃ m, hcat ps = .ok m ∧ m.length = n ∧ (∀ row ∈ m, row.length = ws.sum) ∧
      ∀ (c r j : Nat) (p : List (List V)) (l : List V) (x : V), ps[c]? = some p → p[r]? = some l → l[j]? = some x →
        ∃ row, m[r]? = some row ∧ row[(ws.take c).sum + j]? = some x
  | [], _, h, _ => absurd rfl h
  | [p], ws, _, h => by
      cases h with
      | cons h1 h2 =>
        cases h2
        refine ⟨p, rfl, h1.1, by simpa using h1.2, ?_⟩
        intro c r j q l x e1 e2 e3
        cases c with
        | zero => simp at e1; subst e1; exact ⟨l, e2, by simpa using e3⟩
        | succ c => simp at e1
  | p :: q :: rest, ws, _, h => by
      cases h with
      | @cons _ w _ ws' h1 h2 =>
        obtain ⟨m, e1, e2, e3, e4⟩ := hcat_ok n (q :: rest) ws' (by simp) h2
        have hl : p.length = m.length := by rw [h1.1, e2]
        refine ⟨List.zipWith (· ++ ·) p m, by rw [hcat, e1]; simp [hl], by simp [h1.1, e2], ?_, ?_⟩
        · intro row hr
          rw [List.mem_iff_getElem] at hr
          obtain ⟨k, hk, e⟩ := hr
          simp at hk
          rw [List.getElem_zipWith] at e
          subst e
          rw [List.length_append, h1.2 _ (List.getElem_mem _), e3 _ (List.getElem_mem _), List.sum_cons]
        · intro c r j p' l x f1 f2 f3
          cases c with
          | zero =>
            simp at f1
            subst f1
            have hr : r < p.length := (List.getElem?_eq_some_iff.1 f2).1
            have hr' : r < m.length := hl ▸ hr
            refine ⟨l ++ m[r], ?_, ?_⟩
            · rw [List.getElem?_zipWith, f2, List.getElem?_eq_getElem hr']
            · simp only [List.take_zero, List.sum_nil, Nat.zero_add]
              rw [List.getElem?_append_left (List.getElem?_eq_some_iff.1 f3).1]
              exact f3
          | succ c =>
            simp only [List.getElem?_cons_succ] at f1
            obtain ⟨row, g1, g2⟩ := e4 c r j p' l x f1 f2 f3
            have hr' : r < m.length := (List.getElem?_eq_some_iff.1 g1).1
            have hr : r < p.length := hl ▸ hr'
            refine ⟨p[r] ++ row, ?_, ?_⟩
            · rw [List.getElem?_zipWith, g1, List.getElem?_eq_getElem hr]
            · have hw := h1.2 _ (List.getElem_mem hr)
              rw [List.take_succ_cons, List.sum_cons, List.getElem?_append_right (by omega), ← g2]
              congr 1
              omega

omit [Zero V] [One V] in
/-- Joining succeeds exactly when all parts have as many rows. -/
theorem hcat_len : ∀ (ps : List (List (List V))), ps ≠ [] →
    ((∃ m, hcat ps = .ok m ∧ ∀ p ∈ ps, m.length = p.length) ∨
      (hcat ps = .error .valueError ∧ ∃ p ∈ ps, ∃ q ∈ ps, p.length ≠ q.length))
  | [], h => absurd rfl h
  | [p], _ => .inl ⟨p, rfl, by simp⟩
  | p :: q :: rest, _ => by
      rcases hcat_len (q :: rest) (by simp) with ⟨m, h1, h2⟩ | ⟨h1, a, ha, b, hb, hab⟩
      · by_cases hl : p.length = m.length
        · refine .inl ⟨List.zipWith (· ++ ·) p m, by rw [hcat, h1]; simp [hl], ?_⟩
          intro x hx
          simp only [List.length_zipWith, hl, Nat.min_self]
          rcases List.mem_cons.1 hx with rfl | hx
          · exact hl.symm
          · exact h2 x hx
        · refine .inr ⟨by rw [hcat, h1]; simp [hl], p, by simp, q, by simp, ?_⟩
          rw [← h2 q List.mem_cons_self]
          exact hl
      · exact .inr ⟨by rw [hcat, h1], a, List.mem_cons_of_mem _ ha, b, List.mem_cons_of_mem _ hb, hab⟩

theorem parts_ok : ∀ (t : List (Col V)), (∀ c ∈ t, c.Sound) →
    ∃ ps, t.mapM Col.part = .ok ps ∧ List.Forall₂ (fun c p => c.part = .ok p ∧ p.length + c.lost = c.rows ∧
      ∀ l ∈ p, l.length = c.width) t ps
  | [], _ => ⟨[], rfl, .nil⟩
  | c :: t, h => by
      obtain ⟨ps, h1, h2⟩ := parts_ok t fun x hx => h x (List.mem_cons_of_mem _ hx)
      obtain ⟨p, e1, e2, e3⟩ := part_ok c (h c List.mem_cons_self)
      exact ⟨p :: ps, mapM_except.2 (.cons e1 (mapM_except.1 h1)), .cons ⟨e1, e2, e3⟩ h2⟩

theorem tableToNumpy_eq (t : List (Col V)) (hne : t ≠ []) (ps : List (List (List V)))
    (h : t.mapM Col.part = .ok ps) : tableToNumpy t = hcat ps := by
  unfold tableToNumpy
  rw [h]
  cases t with
  | nil => exact absurd rfl hne
  | cons c t => split <;> simp

/-- **C83.** A table of `n` rows whose columns are as Arrow stores them, without null dense rows, becomes a
matrix of `n` rows and as many columns as the widths of the table's columns add up to; the component `j` of
row `r` of the table's column `c` stands at row `r`, after the widths of the columns before `c`, plus `j`.
Nothing is dropped, moved to another row or shared between columns. -/
theorem table_matrix_partial (t : List (Col V)) (n : Nat) (hne : t ≠ []) (hn : ∀ c ∈ t, c.rows = n)
    (hs : ∀ c ∈ t, c.Sound) (hz : ∀ c ∈ t, c.lost = 0) :
    ∃ m, tableToNumpy t = .ok m ∧ m.length = n ∧ (∀ row ∈ m, row.length = (t.map Col.width).sum) ∧
      ∀ (c r j : Nat) (col : Col V) (x : V), t[c]? = some col → j < col.width → CellMeans col r j x →
        ∃ row, m[r]? = some row ∧ row[((t.map Col.width).take c).sum + j]? = some x := by
  obtain ⟨ps, h1, h2⟩ := parts_ok t hs
  have hps : ps ≠ [] := by
    intro e
    subst e
    cases h2
    exact hne rfl
  have hf : List.Forall₂ (fun p w => p.length = n ∧ ∀ l ∈ p, l.length = w) ps (t.map Col.width) := by
    clear h1 hps hne
    induction h2 with
    | nil => exact .nil
    | @cons c p t ps hh _ ih =>
      refine .cons ⟨?_, hh.2.2⟩ (ih (fun x hx => hn x (List.mem_cons_of_mem _ hx))
        (fun x hx => hs x (List.mem_cons_of_mem _ hx)) (fun x hx => hz x (List.mem_cons_of_mem _ hx)))
      have e1 := hn c List.mem_cons_self
      have e2 := hz c List.mem_cons_self
      have e3 := hh.2.1
      omega
  obtain ⟨m, e1, e2, e3, e4⟩ := hcat_ok n ps _ hps hf
  refine ⟨m, by rw [tableToNumpy_eq t hne ps h1, e1], e2, e3, ?_⟩
  intro c r j col x hc hj hx
  have hp : ∃ p, ps[c]? = some p ∧ col.part = .ok p := by
    clear e4 e3 e2 e1 hf hps h1 hne hn hs hz
    induction h2 generalizing c with
    | nil => simp at hc
    | @cons c' p t ps hh _ ih =>
      cases c with
      | zero => simp at hc; subst hc; exact ⟨p, rfl, hh.1⟩
      | succ c => simp only [List.getElem?_cons_succ] at hc ⊢; exact ih c hc
  obtain ⟨p, f1, f2⟩ := hp
  have hmem := List.mem_of_getElem? hc
  obtain ⟨l, g1, g2⟩ := part_cell col (hs col hmem) (hz col hmem) p f2 r j hj x hx
  exact e4 c r j p l x f1 g1 g2

/-- A table with one column of each kind. -/
def toyTable : List (Col Int) :=
  [.plain [10, 20], .dense 2 [some [1, 2], some [3, 4]], .sparse 3 [none, some ([2, 0], [5, 6])],
    .oneHot 2 [some 1, some 0]]

/-- The hypotheses of `table_matrix_partial` are met by a table with one column of each kind. -/
example : toyTable ≠ [] ∧ (∀ c ∈ toyTable, c.rows = 2) ∧ (∀ c ∈ toyTable, c.Sound) ∧ (∀ c ∈ toyTable, c.lost = 0) ∧
    tableToNumpy toyTable = .ok [[10, 1, 2, 0, 0, 0, 0, 1], [20, 3, 4, 6, 0, 5, 1, 0]] := by
  refine ⟨by simp [toyTable], by simp [toyTable, Col.rows], ?_, by simp [toyTable, Col.lost], by decide⟩
  intro c hc
  simp only [toyTable, List.mem_cons, List.not_mem_nil, or_false] at hc
  rcases hc with rfl | rfl | rfl | rfl
  · trivial
  · refine ⟨by decide, fun l hl => ?_⟩
    simp at hl
    rcases hl with rfl | rfl <;> rfl
  · refine ⟨by decide, fun row hr => ?_⟩
    simp at hr
    rcases hr with rfl | rfl
    · intro is vs h; cases h
    · intro is vs h; simp at h; obtain ⟨rfl, rfl⟩ := h; simp
  · show (0 : Int) < 2; decide

/-- **C83, refusals.** A table with sound columns, all of `n` rows, converts exactly when every column
loses equally many null rows; otherwise it is refused with a ValueError. In particular a dense column with
a null row beside any column without one is refused. -/
theorem table_null_refused (t : List (Col V)) (n : Nat) (hn : ∀ c ∈ t, c.rows = n)
    (hs : ∀ c ∈ t, c.Sound) (a b : Col V) (ha : a ∈ t) (hb : b ∈ t) (hab : a.lost ≠ b.lost) :
    tableToNumpy t = .error .valueError := by
  obtain ⟨ps, h1, h2⟩ := parts_ok t hs
  have hne : t ≠ [] := List.ne_nil_of_mem ha
  have hps : ps ≠ [] := by
    intro e
    subst e
    cases h2
    exact hne rfl
  have find : ∀ c ∈ t, ∃ p ∈ ps, p.length + c.lost = n := by
    intro c hc
    clear h1 hps hne ha hb hs
    induction h2 with
    | nil => cases hc
    | @cons c' p t ps hh _ ih =>
      rcases List.mem_cons.1 hc with rfl | hc
      · exact ⟨p, List.mem_cons_self, by rw [hh.2.1]; exact hn _ List.mem_cons_self⟩
      · obtain ⟨q, hq, e⟩ := ih (fun x hx => hn x (List.mem_cons_of_mem _ hx)) hc
        exact ⟨q, List.mem_cons_of_mem _ hq, e⟩
  rw [tableToNumpy_eq t hne ps h1]
  obtain ⟨p, hp, e1⟩ := find a ha
  obtain ⟨q, hq, e2⟩ := find b hb
  rcases hcat_len ps hps with ⟨m, _, h⟩ | ⟨h, _⟩
  · have h1 := h p hp
    have h2 := h q hq
    omega
  · exact h

example : (Col.dense 1 [some [1], none] : Col Int).lost ≠ (Col.plain [1, 2] : Col Int).lost := by decide

/-- **C83 does not hold when two dense columns lose equally many null rows**: the table is accepted, and the
first row of the matrix joins the first column's second row with the second column's first row. -/
theorem table_null_misaligned_violated :
    ∃ t : List (Col Int), (∀ c ∈ t, c.rows = 2) ∧ tableToNumpy t = .ok [[7, 8]] ∧
      t = [.dense 1 [none, some [7]], .dense 1 [some [8], none]] :=
  ⟨_, by simp [Col.rows], by decide, rfl⟩

end Verif.Arrow
