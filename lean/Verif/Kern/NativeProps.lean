/-
The native kernels stay inside their arrays and compute what `Verif.Kern.Okvs` says (C99).
-/
import Verif.Kern.Native

namespace Verif.Kern.Native

open Verif.Kern

/-! ### Checked accesses -/

theorem rd_ok {α : Type} {a : List α} {i : Nat} {v : α} : rd a i = .ok v ↔ a[i]? = some v := by
  unfold rd
  cases h : a[i]? <;> simp

theorem rd_lt {α : Type} {a : List α} {i : Nat} (h : i < a.length) : rd a i = .ok a[i] := by
  rw [rd_ok]; exact List.getElem?_eq_getElem h

theorem rd_oob {α : Type} {a : List α} {i : Nat} (h : a.length ≤ i) : rd a i = .error .oob := by
  unfold rd; rw [List.getElem?_eq_none h]

theorem wr_lt {α : Type} {a : List α} {i : Nat} {v : α} (h : i < a.length) :
    wr a i v = .ok (a.set i v) := by
  unfold wr; rw [if_pos h]

theorem bind_ok {α β : Type} {x : Except Fault α} {v : α} (h : x = .ok v)
    (f : α → Except Fault β) : (x >>= f) = f v := by rw [h]; rfl

/-- A buffer of words that begins with the blocks `bs`. -/
def Holds (w : List Nat) (bs : List Blk) : Prop :=
  ∀ i b, bs[i]? = some b → w[2 * i]? = some b.1 ∧ w[2 * i + 1]? = some b.2

theorem load_holds {w : List Nat} {bs : List Blk} (h : Holds w bs) {i : Nat} {b : Blk}
    (hi : bs[i]? = some b) : load w i = .ok b := by
  obtain ⟨h1, h2⟩ := h i b hi
  unfold load
  rw [bind_ok (rd_ok.2 h1), bind_ok (rd_ok.2 h2)]
  rfl

/-- The blocks a buffer of words spells. -/
def spellBlocks (w : List Nat) (n : Nat) : List Blk :=
  (List.range n).map (fun i => (w.getD (2 * i) 0, w.getD (2 * i + 1) 0))

theorem holds_spell {w : List Nat} {n : Nat} (h : 2 * n ≤ w.length) : Holds w (spellBlocks w n) := by
  intro i b hi
  unfold spellBlocks at hi
  rw [List.getElem?_map] at hi
  have hlt : i < n := by
    by_contra hc
    rw [List.getElem?_eq_none (by simpa using hc)] at hi
    cases hi
  rw [List.getElem?_range hlt] at hi
  simp only [Option.map_some, Option.some.injEq] at hi
  subst hi
  have h1 : 2 * i < w.length := by omega
  have h2 : 2 * i + 1 < w.length := by omega
  simp [List.getElem?_eq_getElem h1, List.getElem?_eq_getElem h2, List.getD_eq_getElem?_getD]

/-! ### The rows -/

theorem hashRows_ok (words : Nat → Nat × Nat) (keys : List Nat) {m : Nat} (hm : 0 < m) :
    ∀ (k i : Nat), i + k ≤ keys.length →
      hashRows words keys m i k
        = .ok (((keys.drop i).take k).map (fun key => indices m (words key))) := by
  intro k
  induction k with
  | zero => intro i _; simp [hashRows]
  | succ k ih =>
    intro i h
    have hi : i < keys.length := by omega
    rw [hashRows, bind_ok (rd_lt hi), if_neg (by omega), bind_ok (ih (i + 1) (by omega))]
    rw [List.drop_eq_getElem_cons hi, List.take_succ_cons, List.map_cons]
    rfl

/-! ### Edges, degrees, prefix sums -/

/-- Rows of column `j` among a list of edges, in order. -/
def rowsAt (es : List (Nat × Nat)) (j : Nat) : List Nat :=
  (es.filter (fun e => e.1 = j)).map (·.2)

/-- How many edges meet column `j`. -/
def cnt (es : List (Nat × Nat)) (j : Nat) : Nat := (rowsAt es j).length

theorem rowsAt_append (a b : List (Nat × Nat)) (j : Nat) :
    rowsAt (a ++ b) j = rowsAt a j ++ rowsAt b j := by
  simp [rowsAt]

theorem rowsAt_cons (c i : Nat) (es : List (Nat × Nat)) (j : Nat) :
    rowsAt ((c, i) :: es) j = if c = j then i :: rowsAt es j else rowsAt es j := by
  unfold rowsAt
  by_cases h : c = j <;> simp [h]

theorem cnt_append (a b : List (Nat × Nat)) (j : Nat) : cnt (a ++ b) j = cnt a j + cnt b j := by
  simp [cnt, rowsAt_append]

theorem cnt_cons (c i : Nat) (es : List (Nat × Nat)) (j : Nat) :
    cnt ((c, i) :: es) j = (if c = j then 1 else 0) + cnt es j := by
  unfold cnt
  rw [rowsAt_cons]
  by_cases h : c = j <;> simp [h]; omega

theorem pushAll_rowsAt (i : Nat) : ∀ (l : List Nat) (d : Nat → List Nat) (j : Nat),
    l.foldl (pushRow i) d j = d j ++ rowsAt (l.map (fun c => (c, i))) j := by
  intro l
  induction l with
  | nil => intro d j; simp [rowsAt]
  | cons c l ih =>
    intro d j
    rw [List.foldl_cons, ih, List.map_cons, rowsAt_cons]
    unfold pushRow upd
    by_cases h : j = c
    · subst h; simp
    · rw [if_neg h, if_neg (fun e => h e.symm)]

theorem colToRows_rowsAt : ∀ (ts : List Tri) (i : Nat) (d : Nat → List Nat) (j : Nat),
    colToRows ts i d j = d j ++ rowsAt (edgesFrom ts i) j := by
  intro ts
  induction ts with
  | nil => intro i d j; simp [colToRows, edgesFrom, rowsAt]
  | cons t ts ih =>
    intro i d j
    rw [colToRows, ih, pushAll_rowsAt, edgesFrom, rowsAt_append, List.append_assoc]

theorem ctr_rowsAt (rows : List Tri) (j : Nat) : ctrOf rows j = rowsAt (edgesFrom rows 0) j := by
  unfold ctrOf; rw [colToRows_rowsAt]; simp

theorem edges_length : ∀ (ts : List Tri) (i : Nat), (edgesFrom ts i).length = 3 * ts.length := by
  intro ts
  induction ts with
  | nil => intro i; rfl
  | cons t ts ih => intro i; rw [edgesFrom]; simp [ih, Tri.cols]; omega

theorem edges_lt {m : Nat} : ∀ (ts : List Tri) (i : Nat), (∀ t ∈ ts, ∀ c ∈ t.cols, c < m) →
    ∀ e ∈ edgesFrom ts i, e.1 < m ∧ e.2 < i + ts.length := by
  intro ts
  induction ts with
  | nil => intro i _ e he; simp [edgesFrom] at he
  | cons t ts ih =>
    intro i h e he
    rw [edgesFrom, List.mem_append] at he
    rcases he with he | he
    · rw [List.mem_map] at he
      obtain ⟨c, hc, rfl⟩ := he
      exact ⟨h t (List.mem_cons_self ..) c hc, by simp⟩
    · have := ih (i + 1) (fun u hu => h u (List.mem_cons_of_mem _ hu)) e he
      exact ⟨this.1, by simp; omega⟩

theorem countDeg_ok {m : Nat} : ∀ (es : List (Nat × Nat)) (deg : List Nat), deg.length = m →
    (∀ e ∈ es, e.1 < m) →
    ∃ deg', countDeg es deg = .ok deg' ∧ deg'.length = m ∧
      ∀ j, j < m → deg'.getD j 0 = deg.getD j 0 + cnt es j := by
  intro es
  induction es with
  | nil => intro deg hl _; exact ⟨deg, rfl, hl, by simp [cnt, rowsAt]⟩
  | cons e es ih =>
    obtain ⟨c, i⟩ := e
    intro deg hl h
    have hc : c < deg.length := by rw [hl]; exact h (c, i) (List.mem_cons_self ..)
    obtain ⟨d', h1, h2, h3⟩ := ih (deg.set c (deg[c] + 1)) (by simpa using hl)
      (fun e he => h e (List.mem_cons_of_mem _ he))
    refine ⟨d', ?_, h2, ?_⟩
    · rw [countDeg, bind_ok (rd_lt hc), bind_ok (wr_lt hc)]; exact h1
    · intro j hj
      rw [h3 j hj, cnt_cons]
      have hj' : j < deg.length := by omega
      by_cases e : c = j
      · subst e; simp [List.getD_eq_getElem?_getD, hc]; omega
      · simp [List.getD_eq_getElem?_getD, hj', e]

/-- Where column `j` begins in the flat array. -/
def start (es : List (Nat × Nat)) : Nat → Nat
  | 0 => 0
  | j + 1 => start es j + cnt es j

theorem start_mono (es : List (Nat × Nat)) {a b : Nat} (h : a ≤ b) : start es a ≤ start es b := by
  induction h with
  | refl => exact Nat.le_refl _
  | step _ ih => exact Nat.le_trans ih (Nat.le_add_right _ _)

theorem start_cons (c i : Nat) (es : List (Nat × Nat)) (j : Nat) :
    start ((c, i) :: es) j = start es j + if c < j then 1 else 0 := by
  induction j with
  | zero => rfl
  | succ j ih =>
    rw [start, start, ih, cnt_cons]
    by_cases h1 : c < j
    · rw [if_pos h1, if_neg (by omega), if_pos (by omega)]; omega
    · by_cases h2 : c = j
      · rw [if_neg h1, if_pos h2, if_pos (by omega)]; omega
      · rw [if_neg h1, if_neg h2, if_neg (by omega)]; omega

theorem start_top {m : Nat} : ∀ (es : List (Nat × Nat)), (∀ e ∈ es, e.1 < m) →
    start es m = es.length := by
  intro es
  induction es with
  | nil =>
    intro _
    have : ∀ j, start [] j = 0 := by
      intro j
      induction j with
      | zero => rfl
      | succ j ih => rw [start, ih]; rfl
    exact this m
  | cons e es ih =>
    obtain ⟨c, i⟩ := e
    intro h
    rw [start_cons, ih (fun e he => h e (List.mem_cons_of_mem _ he)),
      if_pos (h (c, i) (List.mem_cons_self ..))]
    rfl

theorem prefixLoop_ok {m : Nat} (es : List (Nat × Nat)) (deg : List Nat) (hl : deg.length = m)
    (hd : ∀ j, j < m → deg.getD j 0 = cnt es j) :
    ∀ (k j : Nat) (cs : List Nat), j + k = m → cs.length = m + 1 →
      (∀ x, x ≤ j → cs.getD x 0 = start es x) →
      ∃ cs', prefixLoop deg j k cs = .ok cs' ∧ cs'.length = m + 1 ∧
        ∀ x, x ≤ m → cs'.getD x 0 = start es x := by
  intro k
  induction k with
  | zero =>
    intro j cs hj hcs hx
    exact ⟨cs, rfl, hcs, fun x h => hx x (by omega)⟩
  | succ k ih =>
    intro j cs hj hcs hx
    have h1 : j < cs.length := by omega
    have h2 : j < deg.length := by omega
    have h3 : j + 1 < cs.length := by omega
    have e1 : cs[j] = start es j := by
      have := hx j (Nat.le_refl _)
      simpa [List.getD_eq_getElem?_getD, h1] using this
    have e2 : deg[j] = cnt es j := by
      have := hd j (by omega)
      simpa [List.getD_eq_getElem?_getD, h2] using this
    obtain ⟨cs', g1, g2, g3⟩ := ih (j + 1) (cs.set (j + 1) (cs[j] + deg[j])) (by omega)
      (by simpa using hcs) (by
        intro x hx'
        by_cases e : j + 1 = x
        · subst e
          simp [List.getD_eq_getElem?_getD, h3, e1, e2, start]
        · have : x ≤ j := by omega
          rw [← hx x this]
          simp [List.getD_eq_getElem?_getD, e])
    refine ⟨cs', ?_, g2, g3⟩
    rw [prefixLoop, bind_ok (rd_lt h1), bind_ok (rd_lt h2), bind_ok (wr_lt h3)]
    exact g1

/-! ### Filling the flat array -/

theorem fill_ok {m : Nat} (es : List (Nat × Nat)) (hes : ∀ e ∈ es, e.1 < m) :
    ∀ (post pre : List (Nat × Nat)) (fill flat : List Nat), es = pre ++ post →
      fill.length = m + 1 → flat.length = es.length →
      (∀ j, j < m → fill.getD j 0 = start es j + cnt pre j) →
      (∀ j, j < m → ∀ k, k < cnt pre j → flat[start es j + k]? = (rowsAt pre j)[k]?) →
      ∃ flat', fillLoop post fill flat = .ok flat' ∧ flat'.length = es.length ∧
        ∀ j, j < m → ∀ k, k < cnt es j → flat'[start es j + k]? = (rowsAt es j)[k]? := by
  intro post
  induction post with
  | nil =>
    intro pre fill flat he hf hl h1 h2
    simp only [List.append_nil] at he
    subst he
    exact ⟨flat, rfl, hl, h2⟩
  | cons e post ih =>
    obtain ⟨c, i⟩ := e
    intro pre fill flat he hf hl h1 h2
    have hc : c < m := hes (c, i) (by rw [he]; simp)
    have hcf : c < fill.length := by omega
    have hp : fill[c] = start es c + cnt pre c := by
      have := h1 c hc
      simpa [List.getD_eq_getElem?_getD, hcf] using this
    have hlt : cnt pre c < cnt es c := by
      rw [he, cnt_append, cnt_cons, if_pos rfl]; omega
    have hend : start es c + cnt es c ≤ es.length := by
      rw [← start_top es hes]
      exact start_mono es (show c + 1 ≤ m from hc)
    have hpl : fill[c] < flat.length := by omega
    have key : ∀ j, j < m → ∀ k, k < cnt es j → j ≠ c → start es j + k ≠ fill[c] := by
      intro j hj k hk hne e
      rcases Nat.lt_or_gt_of_ne hne with h | h
      · have := start_mono es (show j + 1 ≤ c from h)
        rw [start] at this
        omega
      · have := start_mono es (show c + 1 ≤ j from h)
        rw [start] at this
        omega
    obtain ⟨flat', g1, g2, g3⟩ := ih (pre ++ [(c, i)]) (fill.set c (fill[c] + 1))
      (flat.set fill[c] i) (by rw [he]; simp) (by simpa using hf) (by simpa using hl)
      (by
        intro j hj
        have hj' : j < fill.length := by omega
        rw [cnt_append, cnt_cons]
        by_cases e : c = j
        · subst e
          simp [List.getD_eq_getElem?_getD, hcf, hp, cnt, rowsAt]
          omega
        · have := h1 j hj
          simp only [List.getD_eq_getElem?_getD] at this ⊢
          rw [List.getElem?_set_ne e, this, if_neg e]
          simp [cnt, rowsAt])
      (by
        intro j hj k hk
        rw [rowsAt_append, rowsAt_cons]
        rw [cnt_append, cnt_cons] at hk
        have hnil : rowsAt [] j = [] := rfl
        have hcn : cnt [] j = 0 := rfl
        by_cases e : c = j
        · subst e
          rw [if_pos rfl, hcn] at hk
          rw [if_pos rfl, hnil]
          by_cases hk' : k < cnt pre c
          · have hne : fill[c] ≠ start es c + k := by omega
            rw [List.getElem?_set_ne hne, h2 c hj k hk', List.getElem?_append_left hk']
          · have hk2 : k = cnt pre c := by omega
            have : start es c + k = fill[c] := by omega
            rw [this, List.getElem?_set_self hpl, hk2]
            unfold cnt
            rw [List.getElem?_append_right (Nat.le_refl _)]
            simp
        · rw [if_neg e, hcn] at hk
          rw [if_neg e, hnil, List.append_nil]
          have hk' : k < cnt pre j := by omega
          have hk2 : k < cnt es j := by rw [he, cnt_append]; omega
          have hne : fill[c] ≠ start es j + k := fun x => key j hj k hk2 (fun y => e y.symm) x.symm
          rw [List.getElem?_set_ne hne, h2 j hj k hk'])
    refine ⟨flat', ?_, g2, g3⟩
    rw [fillLoop, bind_ok (rd_lt hcf), bind_ok (wr_lt hpl), bind_ok (wr_lt hcf)]
    exact g1

/-- What the CSR arrays mean: `flat_rows[col_start[j] .. col_start[j+1]]` are the rows of
column `j`, in order. -/
structure Csr (rows : List Tri) (m : Nat) (cs flat : List Nat) : Prop where
  len : cs.length = m + 1
  seg : ∀ j, j < m → ∃ a b, cs[j]? = some a ∧ cs[j + 1]? = some b ∧ a ≤ b ∧ b ≤ flat.length ∧
    (flat.drop a).take (b - a) = ctrOf rows j

theorem buildCsr_ok (rows : List Tri) (m : Nat) (h : ∀ t ∈ rows, ∀ c ∈ t.cols, c < m) :
    ∃ cs flat deg, buildCsr rows m = .ok (cs, flat, deg) ∧ Csr rows m cs flat ∧
      deg.length = m ∧ ∀ j, j < m → deg[j]? = some (ctrOf rows j).length := by
  have hes := fun e he => (edges_lt rows 0 h e he).1
  obtain ⟨deg, d1, d2, d3⟩ := countDeg_ok (edgesFrom rows 0) (List.replicate m 0) (by simp) hes
  have d3' : ∀ j, j < m → deg.getD j 0 = cnt (edgesFrom rows 0) j := by
    intro j hj
    rw [d3 j hj]
    simp [List.getD_eq_getElem?_getD, hj]
  obtain ⟨cs, c1, c2, c3⟩ := prefixLoop_ok (edgesFrom rows 0) deg d2 d3' m 0
    (List.replicate (m + 1) 0) (by omega) (by simp) (by
      intro x hx
      have : x = 0 := by omega
      subst this
      simp [List.getD_eq_getElem?_getD, start])
  obtain ⟨flat, f1, f2, f3⟩ := fill_ok (edgesFrom rows 0) hes (edgesFrom rows 0) [] cs
    (List.replicate (3 * rows.length) 0) rfl c2 (by simp [edges_length])
    (by intro j hj; rw [c3 j (by omega)]; simp [cnt, rowsAt])
    (by intro j hj k hk; simp [cnt, rowsAt] at hk)
  refine ⟨cs, flat, deg, ?_, ⟨c2, ?_⟩, d2, ?_⟩
  · unfold buildCsr
    simp only []
    rw [bind_ok d1, bind_ok c1, bind_ok f1]
    rfl
  · intro j hj
    have e1 := c3 j (by omega)
    have e2 := c3 (j + 1) (by omega)
    have l1 : j < cs.length := by omega
    have l2 : j + 1 < cs.length := by omega
    have hb : start (edgesFrom rows 0) (j + 1) ≤ flat.length := by
      rw [f2, ← start_top _ hes]
      exact start_mono _ (show j + 1 ≤ m from hj)
    refine ⟨start (edgesFrom rows 0) j, start (edgesFrom rows 0) (j + 1), ?_, ?_,
      start_mono _ (Nat.le_succ j), hb, ?_⟩
    · rw [List.getElem?_eq_getElem l1]
      simpa [List.getD_eq_getElem?_getD, l1] using e1
    · rw [List.getElem?_eq_getElem l2]
      simpa [List.getD_eq_getElem?_getD, l2] using e2
    · rw [ctr_rowsAt]
      have hw : start (edgesFrom rows 0) (j + 1) - start (edgesFrom rows 0) j
          = cnt (edgesFrom rows 0) j := by rw [start]; omega
      rw [hw]
      apply List.ext_getElem?
      intro k
      by_cases hk : k < cnt (edgesFrom rows 0) j
      · rw [List.getElem?_take_of_lt hk, List.getElem?_drop, f3 j hj k hk]
      · have h1 : (List.take (cnt (edgesFrom rows 0) j)
            (List.drop (start (edgesFrom rows 0) j) flat)).length ≤ k := by
          rw [List.length_take]; omega
        rw [List.getElem?_eq_none h1, List.getElem?_eq_none (by unfold cnt at hk; omega)]
  · intro j hj
    have l : j < deg.length := by omega
    have := d3' j hj
    rw [ctr_rowsAt, List.getElem?_eq_getElem l]
    simpa [List.getD_eq_getElem?_getD, l, cnt] using this

theorem initQueue_ok {m : Nat} (f : Nat → Nat) (deg : List Nat)
    (hd : ∀ j, j < m → deg[j]? = some (f j)) :
    ∀ (k j : Nat), j + k = m →
      initQueue deg j k = .ok ((List.range' j k).filter (fun j => f j = 1)) := by
  intro k
  induction k with
  | zero => intro j _; rfl
  | succ k ih =>
    intro j h
    rw [initQueue, bind_ok (rd_ok.2 (hd j (by omega))), bind_ok (ih (j + 1) (by omega)),
      List.range'_succ, List.filter_cons]
    by_cases e : f j = 1 <;> simp [e] <;> rfl

/-! ### The peeling loop -/

/-- The arrays say what the abstract peeling state says. -/
structure Sim (n m : Nat) (a : NS) (s : PS) : Prop where
  degLen : a.deg.length = m
  deg : ∀ j, j < m → a.deg[j]? = some (s.deg j)
  rowLen : a.rowRem.length = n
  row : ∀ i, i < n → a.rowRem[i]? = some (s.rowRem i)
  colLen : a.colRem.length = m
  col : ∀ j, j < m → a.colRem[j]? = some (s.colRem j)
  queue : a.queue = s.queue
  stack : a.stack = s.stack
  inQ : ∀ j ∈ a.queue, j < m
  inS : ∀ p ∈ a.stack, p.1 < m ∧ p.2 < n

theorem set_upd {α : Type} {l : List α} {f : Nat → α} {N k : Nat} (v : α)
    (hl : l.length = N) (h : ∀ j, j < N → l[j]? = some (f j)) (hk : k < N) :
    ∀ j, j < N → (l.set k v)[j]? = some (upd f k v j) := by
  intro j hj
  unfold upd
  by_cases e : j = k
  · subst e
    rw [if_pos rfl, List.getElem?_set_self (by omega)]
  · rw [if_neg e, List.getElem?_set_ne (fun x => e x.symm), h j hj]

theorem relaxN_sim {n m : Nat} {a : NS} {s : PS} (h : Sim n m a s) (j : Nat) {nb : Nat}
    (hnb : nb < m) : ∃ a', relaxN j a nb = .ok a' ∧ Sim n m a' (relax j s nb) := by
  unfold relaxN relax
  by_cases e : nb = j
  · rw [if_pos e, if_pos (Or.inl e)]
    exact ⟨a, rfl, h⟩
  · rw [if_neg e, bind_ok (rd_ok.2 (h.col nb hnb))]
    by_cases c : s.colRem nb = true
    · rw [if_pos c, if_pos (Or.inr c)]
      exact ⟨a, rfl, h⟩
    · rw [if_neg c, if_neg (by intro x; rcases x with x | x <;> contradiction),
        bind_ok (rd_ok.2 (h.deg nb hnb)), bind_ok (wr_lt (by rw [h.degLen]; exact hnb))]
      refine ⟨_, rfl, ?_⟩
      refine ⟨by simpa using h.degLen, set_upd _ h.degLen h.deg hnb, h.rowLen, h.row, h.colLen,
        h.col, ?_, h.stack, ?_, h.inS⟩
      · simp only [h.queue]
      · simp only
        intro x hx
        split at hx
        · rw [List.mem_append] at hx
          rcases hx with hx | hx
          · exact h.inQ x hx
          · simp at hx; omega
        · exact h.inQ x hx

theorem relaxAll_sim {n m : Nat} (j : Nat) : ∀ (l : List Nat) (a : NS) (s : PS), Sim n m a s →
    (∀ c ∈ l, c < m) → ∃ a', relaxAll j l a = .ok a' ∧ Sim n m a' (l.foldl (relax j) s) := by
  intro l
  induction l with
  | nil => intro a s h _; exact ⟨a, rfl, h⟩
  | cons c l ih =>
    intro a s h hl
    obtain ⟨a1, h1, h2⟩ := relaxN_sim h j (hl c (List.mem_cons_self ..))
    obtain ⟨a2, h3, h4⟩ := ih a1 _ h2 (fun x hx => hl x (List.mem_cons_of_mem _ hx))
    exact ⟨a2, by rw [relaxAll, bind_ok h1]; exact h3, h4⟩

theorem findOwner_ok {n : Nat} {flat : List Nat} {rr : List Bool} {f : Nat → Bool}
    (hrr : ∀ i, i < n → rr[i]? = some (f i)) : ∀ (w k : Nat), k + w ≤ flat.length →
    (∀ r ∈ (flat.drop k).take w, r < n) →
    findOwner flat rr k w = .ok (((flat.drop k).take w).find? (fun r => !f r)) := by
  intro w
  induction w with
  | zero => intro k _ _; simp [findOwner]
  | succ w ih =>
    intro k h hr
    have hk : k < flat.length := by omega
    rw [List.drop_eq_getElem_cons hk, List.take_succ_cons] at hr ⊢
    rw [findOwner, bind_ok (rd_lt hk),
      bind_ok (rd_ok.2 (hrr flat[k] (hr _ (List.mem_cons_self ..))))]
    rw [List.find?_cons]
    by_cases c : f flat[k] = true
    · rw [if_pos c, ih (k + 1) (by omega) (fun r hr' => hr r (List.mem_cons_of_mem _ hr'))]
      simp [c]
    · rw [if_neg c]
      simp [c]
      rfl

theorem roundN_sim {rows : List Tri} {m : Nat} {cs flat : List Nat} {a : NS} {s : PS}
    (hrows : ∀ t ∈ rows, ∀ c ∈ t.cols, c < m) (hcsr : Csr rows m cs flat)
    (h : Sim rows.length m a s) {j : Nat} (hj : j < m) :
    ∃ a', roundN rows cs flat j a = .ok a' ∧
      Sim rows.length m a' (peelOne rows (ctrOf rows) j s) := by
  unfold roundN peelOne
  rw [bind_ok (rd_ok.2 (h.col j hj))]
  by_cases c : s.colRem j = true
  · rw [if_pos c, if_pos c]
    exact ⟨a, rfl, h⟩
  · rw [if_neg c, if_neg c]
    obtain ⟨x, y, hx, hy, hxy, hyl, hseg⟩ := hcsr.seg j hj
    have hown := findOwner_ok (flat := flat) h.row (y - x) x (by omega) (by
      intro r hr
      rw [hseg, ctr_mem] at hr
      exact hr.1)
    rw [hseg] at hown
    rw [bind_ok (rd_ok.2 hx), bind_ok (rd_ok.2 hy), bind_ok hown]
    cases hf : (ctrOf rows j).find? (fun r => !s.rowRem r) with
    | none =>
      unfold takeOwner
      simp only []
      rw [bind_ok (wr_lt (by rw [h.colLen]; exact hj))]
      exact ⟨_, rfl, h.degLen, h.deg, h.rowLen, h.row, by simpa using h.colLen,
        set_upd _ h.colLen h.col hj, h.queue, h.stack, h.inQ, h.inS⟩
    | some r =>
      have hr : r < rows.length := by
        have := List.mem_of_find?_eq_some hf
        rw [ctr_mem] at this
        exact this.1
      unfold takeOwner
      simp only []
      rw [bind_ok (wr_lt (by rw [h.colLen]; exact hj)),
        bind_ok (wr_lt (by rw [h.rowLen]; exact hr)), bind_ok (rd_lt hr)]
      have hg : rows.getD r (0, 0, 0) = rows[r] := by simp [List.getD_eq_getElem?_getD, hr]
      rw [hg]
      apply relaxAll_sim
      · refine ⟨h.degLen, h.deg, by simpa using h.rowLen, set_upd _ h.rowLen h.row hr,
          by simpa using h.colLen, set_upd _ h.colLen h.col hj, h.queue, ?_, h.inQ, ?_⟩
        · simp only [h.stack]
        · intro p hp
          simp only [List.mem_append, List.mem_singleton] at hp
          rcases hp with hp | hp
          · exact h.inS p hp
          · subst hp; exact ⟨hj, hr⟩
      · exact hrows _ (List.getElem_mem hr)

theorem sim_pop {n m : Nat} {a : NS} {s : PS} (h : Sim n m a s) {j : Nat} {q : List Nat}
    (hq : a.queue = j :: q) : Sim n m { a with queue := q } { s with queue := q } :=
  ⟨h.degLen, h.deg, h.rowLen, h.row, h.colLen, h.col, rfl, h.stack,
    fun x hx => h.inQ x (by rw [hq]; exact List.mem_cons_of_mem _ hx), h.inS⟩

theorem loopN_sim {rows : List Tri} {m : Nat} {cs flat : List Nat}
    (hrows : ∀ t ∈ rows, ∀ c ∈ t.cols, c < m) (hcsr : Csr rows m cs flat) :
    ∀ (fuel : Nat) (a : NS) (s : PS), Sim rows.length m a s →
      (∀ s', peelLoop rows (ctrOf rows) fuel s = some s' →
        ∃ a', loopN rows cs flat fuel a = .ok a' ∧ Sim rows.length m a' s') := by
  intro fuel
  induction fuel with
  | zero =>
    intro a s h s' hs
    unfold peelLoop at hs
    unfold loopN
    rw [h.queue]
    cases hq : s.queue with
    | nil => rw [hq] at hs; simp only [Option.some.injEq] at hs; subst hs; exact ⟨a, rfl, h⟩
    | cons j q => rw [hq] at hs; cases hs
  | succ fuel ih =>
    intro a s h s' hs
    unfold peelLoop at hs
    unfold loopN
    cases hq : s.queue with
    | nil =>
      rw [hq] at hs
      simp only [Option.some.injEq] at hs
      subst hs
      rw [h.queue, hq]
      exact ⟨a, rfl, h⟩
    | cons j q =>
      rw [hq] at hs
      have hqa : a.queue = j :: q := h.queue.trans hq
      rw [hqa]
      simp only at hs ⊢
      have hj : j < m := h.inQ j (by rw [hqa]; exact List.mem_cons_self ..)
      obtain ⟨a1, h1, h2⟩ := roundN_sim hrows hcsr (sim_pop h hqa) hj
      rw [bind_ok h1]
      exact ih a1 _ h2 s' hs

/-! ### The loop always ends -/

theorem relax_queue (j : Nat) (s : PS) (nb : Nat) :
    (relax j s nb).queue.length ≤ s.queue.length + 1 ∧ (relax j s nb).rowRem = s.rowRem := by
  unfold relax
  split
  · exact ⟨by omega, rfl⟩
  · constructor
    · simp only
      split <;> simp
    · rfl

theorem relaxFold_queue (j : Nat) : ∀ (l : List Nat) (s : PS),
    (l.foldl (relax j) s).queue.length ≤ s.queue.length + l.length ∧
      (l.foldl (relax j) s).rowRem = s.rowRem := by
  intro l
  induction l with
  | nil => intro s; exact ⟨by simp, rfl⟩
  | cons c l ih =>
    intro s
    obtain ⟨h1, h2⟩ := ih (relax j s c)
    obtain ⟨h3, h4⟩ := relax_queue j s c
    rw [List.foldl_cons]
    exact ⟨by simp only [List.length_cons]; omega, h2.trans h4⟩

/-- The loop ends within `m + 3n` rounds whatever the rows are (also with repeated cells). -/
theorem loop_ends (rows : List Tri) : ∀ (fuel : Nat) (s : PS),
    s.queue.length + 3 * (active rows.length s).length ≤ fuel →
    ∃ s', peelLoop rows (ctrOf rows) fuel s = some s' := by
  intro fuel
  induction fuel with
  | zero =>
    intro s h
    have hq : s.queue = [] := List.eq_nil_of_length_eq_zero (by omega)
    exact ⟨s, by unfold peelLoop; rw [hq]⟩
  | succ fuel ih =>
    intro s h
    cases hq : s.queue with
    | nil => exact ⟨s, by unfold peelLoop; rw [hq]⟩
    | cons j q =>
      have hstep : peelLoop rows (ctrOf rows) (fuel + 1) s
          = peelLoop rows (ctrOf rows) fuel (peelOne rows (ctrOf rows) j { s with queue := q }) := by
        conv => lhs; unfold peelLoop
        rw [hq]
      rw [hstep]
      rw [hq] at h
      simp only [List.length_cons] at h
      apply ih
      unfold peelOne
      by_cases c : s.colRem j = true
      · rw [if_pos c]
        show q.length + 3 * (active rows.length s).length ≤ fuel
        omega
      · rw [if_neg c]
        cases hf : (ctrOf rows j).find? (fun r => !s.rowRem r) with
        | none =>
          show q.length + 3 * (active rows.length s).length ≤ fuel
          omega
        | some r =>
          simp only
          have hr : r < rows.length := by
            have := List.mem_of_find?_eq_some hf
            rw [ctr_mem] at this
            exact this.1
          have hr' : s.rowRem r = false := by
            have := List.find?_some hf
            simpa using this
          obtain ⟨h1, h2⟩ := relaxFold_queue j (rows.getD r (0, 0, 0)).cols
            { s with queue := q, stack := s.stack ++ [(j, r)],
                     colRem := upd s.colRem j true, rowRem := upd s.rowRem r true }
          have h3 : (active rows.length ((rows.getD r (0, 0, 0)).cols.foldl (relax j)
              { s with queue := q, stack := s.stack ++ [(j, r)],
                       colRem := upd s.colRem j true, rowRem := upd s.rowRem r true })).length + 1
              = (active rows.length s).length := by
            unfold active
            rw [h2]
            have := filter_upd_length (l := List.range rows.length) List.nodup_range s.rowRem r
              hr'
            simpa [hr] using this.symm
          have h4 : (rows.getD r (0, 0, 0)).cols.length = 3 := rfl
          rw [h4] at h1
          simp only at h1
          omega

end Verif.Kern.Native
