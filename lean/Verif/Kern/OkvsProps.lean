/-
C41 (OKVS solve / decode), C42 (index triples), C43 (LDPC encoder).
-/
import Verif.Kern.Okvs
import Mathlib.Data.List.Nodup
import Mathlib.Data.List.Basic
import Mathlib.Tactic.Tauto

namespace Verif.Kern

/-! ### C42: index triples -/

theorem succ_mod_ne {m a : Nat} (hm : 2 ≤ m) (ha : a < m) : (a + 1) % m ≠ a := by
  by_cases h : a + 1 = m
  · rw [h, Nat.mod_self]; omega
  · rw [Nat.mod_eq_of_lt (by omega)]; omega

theorem succ_mod_inj {m a b : Nat} (ha : a < m) (hb : b < m) (h : (a + 1) % m = (b + 1) % m) :
    a = b := by
  by_cases h1 : a + 1 = m <;> by_cases h2 : b + 1 = m
  · omega
  · rw [h1, Nat.mod_self, Nat.mod_eq_of_lt (by omega)] at h; omega
  · rw [h2, Nat.mod_self, Nat.mod_eq_of_lt (by omega)] at h; omega
  · rw [Nat.mod_eq_of_lt (by omega), Nat.mod_eq_of_lt (by omega)] at h; omega

/-- **C42**: for a table of at least three cells, every key is sent to three distinct cells of
the table, whatever the hash words are (so for the Python and for the native hash). -/
theorem indices_distinct (m : Nat) (hm : 3 ≤ m) (v : Nat × Nat) :
    (indices m v).cols.Nodup ∧ ∀ c ∈ (indices m v).cols, c < m := by
  have hpos : 0 < m := by omega
  have h1 : v.1 % m < m := Nat.mod_lt _ hpos
  have hb2 : bump2 m (v.1 % m) (v.2 % m) < m ∧ bump2 m (v.1 % m) (v.2 % m) ≠ v.1 % m := by
    unfold bump2
    by_cases h : v.2 % m = v.1 % m
    · rw [if_pos h]
      refine ⟨Nat.mod_lt _ hpos, ?_⟩
      rw [h]; exact succ_mod_ne (by omega) h1
    · rw [if_neg h]; exact ⟨Nat.mod_lt _ hpos, h⟩
  have h3 : (v.1 ^^^ v.2) % m < m := Nat.mod_lt _ hpos
  generalize hg1 : v.1 % m = i1 at *
  generalize hg2 : bump2 m i1 (v.2 % m) = i2 at *
  generalize hg3 : (v.1 ^^^ v.2) % m = i3 at *
  have hb3 : bump3 m i1 i2 i3 < m ∧ bump3 m i1 i2 i3 ≠ i1 ∧ bump3 m i1 i2 i3 ≠ i2 := by
    unfold bump3
    by_cases h : i3 = i1 ∨ i3 = i2
    · rw [if_pos h]
      have hlt : (i3 + 1) % m < m := Nat.mod_lt _ hpos
      by_cases h' : (i3 + 1) % m = i1 ∨ (i3 + 1) % m = i2
      · rw [if_pos h']
        have hlt2 : ((i3 + 1) % m + 1) % m < m := Nat.mod_lt _ hpos
        have n1 : (i3 + 1) % m ≠ i3 := succ_mod_ne (by omega) h3
        have n2 : ((i3 + 1) % m + 1) % m ≠ (i3 + 1) % m := succ_mod_ne (by omega) hlt
        have n3 : ((i3 + 1) % m + 1) % m ≠ i3 := by
          by_cases e : i3 + 1 = m
          · rw [e, Nat.mod_self, Nat.mod_eq_of_lt (by omega)]; omega
          · rw [Nat.mod_eq_of_lt (a := i3 + 1) (by omega)]
            by_cases e2 : i3 + 1 + 1 = m
            · rw [e2, Nat.mod_self]; omega
            · rw [Nat.mod_eq_of_lt (by omega)]; omega
        refine ⟨hlt2, ?_, ?_⟩ <;> rcases h with h | h <;> rcases h' with h' | h' <;> omega
      · rw [if_neg h']
        exact ⟨hlt, fun e => h' (Or.inl e), fun e => h' (Or.inr e)⟩
    · rw [if_neg h]
      exact ⟨h3, fun e => h (Or.inl e), fun e => h (Or.inr e)⟩
  have he : (indices m v).cols = [i1, i2, bump3 m i1 i2 i3] := by
    unfold indices Tri.cols
    simp only [hg1, hg2, hg3]
  rw [he]
  constructor
  · simp only [List.nodup_cons, List.mem_cons, List.not_mem_nil, or_false, not_or, not_false_iff,
      List.nodup_nil, and_true]
    exact ⟨⟨fun e => hb2.2 e.symm, fun e => hb3.2.1 e.symm⟩, fun e => hb3.2.2 e.symm⟩
  · intro c hc
    simp only [List.mem_cons, List.not_mem_nil, or_false] at hc
    rcases hc with rfl | rfl | rfl
    · exact h1
    · exact hb2.1
    · exact hb3.1

/-- The bound `3 ≤ m` is needed: two cells cannot hold three distinct indices. -/
theorem indices_two_cells (v : Nat × Nat) : ¬ (indices 2 v).cols.Nodup := by
  intro h
  have hlt : ∀ c ∈ (indices 2 v).cols, c < 2 := by
    intro c hc
    unfold indices Tri.cols at hc
    simp only [List.mem_cons, List.not_mem_nil, or_false] at hc
    have hmod : ∀ x : Nat, x % 2 < 2 := fun x => Nat.mod_lt _ (by decide)
    rcases hc with rfl | rfl | rfl
    · exact hmod _
    · unfold bump2; split <;> exact hmod _
    · unfold bump3; split
      · split <;> exact hmod _
      · exact hmod _
  generalize indices 2 v = t at *
  simp only [Tri.cols, List.nodup_cons, List.mem_cons, List.not_mem_nil, or_false, not_or,
    not_false_iff, List.nodup_nil, and_true] at h hlt
  have := hlt t.1 (by simp)
  have := hlt t.2.1 (by simp)
  have := hlt t.2.2 (by simp)
  omega

/-- **C42**: without collisions the cells are the hash words (and their xor) modulo the size. -/
theorem indices_no_collision (m : Nat) (v : Nat × Nat) (h12 : v.2 % m ≠ v.1 % m)
    (h13 : (v.1 ^^^ v.2) % m ≠ v.1 % m) (h23 : (v.1 ^^^ v.2) % m ≠ v.2 % m) :
    indices m v = (v.1 % m, v.2 % m, (v.1 ^^^ v.2) % m) := by
  unfold indices bump2 bump3
  simp only [if_neg h12]
  rw [if_neg (by simp [h13, h23])]

/-- A collision is bumped to the next cell; and three cells suffice. -/
example : (indices 5 (7, 12)).cols = [2, 3, 1] ∧ (indices 3 (0, 0)).cols = [0, 1, 2] ∧
    (indices 7 (1, 2)) = (1, 2, 3) := by decide

/-! ### Columns to rows -/

/-- `cols` of row `i`. -/
def rowCols (rows : List Tri) (i : Nat) : List Nat := (rows.getD i (0, 0, 0)).cols

theorem pushAll_mem (i : Nat) : ∀ (l : List Nat) (d : Nat → List Nat) (j x : Nat),
    x ∈ l.foldl (pushRow i) d j ↔ x ∈ d j ∨ (x = i ∧ j ∈ l)
  | [], d, j, x => by simp
  | c :: l, d, j, x => by
    rw [List.foldl_cons, pushAll_mem i l]
    unfold pushRow upd
    by_cases h : j = c
    · subst h; simp; tauto
    · simp [h]

theorem pushAll_nodup (i : Nat) : ∀ (l : List Nat) (d : Nat → List Nat) (j : Nat),
    l.Nodup → (d j).Nodup → (j ∈ l → i ∉ d j) → (l.foldl (pushRow i) d j).Nodup
  | [], d, j, _, h, _ => by simpa using h
  | c :: l, d, j, hl, h, hi => by
    rw [List.foldl_cons]
    rw [List.nodup_cons] at hl
    apply pushAll_nodup i l _ j hl.2
    · unfold pushRow upd
      by_cases hc : j = c
      · subst hc
        simp only [if_true]
        rw [List.nodup_append]
        refine ⟨h, by simp, ?_⟩
        intro a ha b hb
        simp only [List.mem_singleton] at hb
        subst hb
        intro e; subst e
        exact hi (by simp) ha
      · simpa [hc] using h
    · intro hj
      unfold pushRow upd
      by_cases hc : j = c
      · subst hc; exact absurd hj hl.1
      · simpa [hc] using hi (by simp [hj])

theorem colToRows_mem : ∀ (ts : List Tri) (i : Nat) (d : Nat → List Nat) (j x : Nat),
    x ∈ colToRows ts i d j ↔ x ∈ d j ∨ (i ≤ x ∧ x < i + ts.length ∧ j ∈ rowCols ts (x - i))
  | [], i, d, j, x => by
    simp only [colToRows, List.length_nil]
    constructor
    · exact Or.inl
    · rintro (h | h)
      · exact h
      · omega
  | t :: ts, i, d, j, x => by
    rw [colToRows, colToRows_mem ts, pushAll_mem]
    constructor
    · rintro ((h | ⟨rfl, h⟩) | ⟨h1, h2, h3⟩)
      · exact Or.inl h
      · right; refine ⟨Nat.le_refl _, by simp, ?_⟩
        rw [Nat.sub_self]; exact h
      · right
        refine ⟨by omega, by simp only [List.length_cons]; omega, ?_⟩
        have e : x - i = (x - (i + 1)) + 1 := by omega
        rw [e]
        unfold rowCols at h3 ⊢
        simpa using h3
    · rintro (h | ⟨h1, h2, h3⟩)
      · exact Or.inl (Or.inl h)
      · by_cases hx : x = i
        · subst hx
          rw [Nat.sub_self] at h3
          exact Or.inl (Or.inr ⟨rfl, h3⟩)
        · right
          refine ⟨by omega, by simp only [List.length_cons] at h2; omega, ?_⟩
          have e : x - i = (x - (i + 1)) + 1 := by omega
          rw [e] at h3
          unfold rowCols at h3 ⊢
          simpa using h3

theorem colToRows_nodup : ∀ (ts : List Tri) (i : Nat) (d : Nat → List Nat) (j : Nat),
    (∀ t ∈ ts, t.cols.Nodup) → (d j).Nodup → (∀ x ∈ d j, x < i) →
    (colToRows ts i d j).Nodup
  | [], _, _, _, _, h, _ => h
  | t :: ts, i, d, j, ht, h, hlt => by
    rw [colToRows]
    apply colToRows_nodup ts
    · exact fun t' h' => ht t' (by simp [h'])
    · apply pushAll_nodup i _ d j (ht t (by simp)) h
      intro _ hi
      exact absurd (hlt i hi) (by omega)
    · intro x hx
      rw [pushAll_mem] at hx
      rcases hx with hx | ⟨rfl, _⟩
      · have := hlt x hx; omega
      · omega

/-- The row lists as the solver builds them. -/
def ctrOf (rows : List Tri) : Nat → List Nat := colToRows rows 0 (fun _ => [])

theorem ctr_mem (rows : List Tri) (j x : Nat) :
    x ∈ ctrOf rows j ↔ x < rows.length ∧ j ∈ rowCols rows x := by
  unfold ctrOf
  rw [colToRows_mem]
  simp

theorem ctr_nodup (rows : List Tri) (h : ∀ t ∈ rows, t.cols.Nodup) (j : Nat) :
    (ctrOf rows j).Nodup :=
  colToRows_nodup rows 0 _ j h (by simp) (by simp)

/-! ### One relaxation sweep -/

theorem relax_fold (j : Nat) : ∀ (l : List Nat) (s : PS), l.Nodup →
    (l.foldl (relax j) s).rowRem = s.rowRem ∧ (l.foldl (relax j) s).colRem = s.colRem ∧
    (l.foldl (relax j) s).stack = s.stack ∧
    (∀ k, (l.foldl (relax j) s).deg k
      = if k ∈ l ∧ k ≠ j ∧ s.colRem k = false then s.deg k - 1 else s.deg k) ∧
    (∀ k, k ∈ (l.foldl (relax j) s).queue ↔
      k ∈ s.queue ∨ (k ∈ l ∧ k ≠ j ∧ s.colRem k = false ∧ s.deg k - 1 = 1)) ∧
    (l.foldl (relax j) s).queue.length ≤ s.queue.length + l.length
  | [], s, _ => by simp
  | c :: l, s, hl => by
    rw [List.nodup_cons] at hl
    rw [List.foldl_cons]
    obtain ⟨h1, h2, h3, h4, h5, h6⟩ := relax_fold j l (relax j s c) hl.2
    by_cases hc : c = j ∨ s.colRem c = true
    · have e : relax j s c = s := by unfold relax; rw [if_pos hc]
      rw [e] at h1 h2 h3 h4 h5 h6 ⊢
      refine ⟨h1, h2, h3, ?_, ?_, by simp only [List.length_cons]; omega⟩
      · intro k
        rw [h4 k]
        by_cases hk : k = c
        · subst hk
          have : ¬ (k ≠ j ∧ s.colRem k = false) := by
            rintro ⟨a, b⟩; rcases hc with hc | hc
            · exact a hc
            · rw [hc] at b; cases b
          rw [if_neg (fun h => this h.2), if_neg (fun h => this h.2)]
        · simp [hk]
      · intro k
        rw [h5 k]
        by_cases hk : k = c
        · subst hk
          have : ¬ (k ≠ j ∧ s.colRem k = false) := by
            rintro ⟨a, b⟩; rcases hc with hc | hc
            · exact a hc
            · rw [hc] at b; cases b
          constructor
          · rintro (h | h)
            · exact Or.inl h
            · exact absurd ⟨h.2.1, h.2.2.1⟩ this
          · rintro (h | h)
            · exact Or.inl h
            · exact absurd ⟨h.2.1, h.2.2.1⟩ this
        · simp [hk]
    · have e : relax j s c = { s with
          deg := upd s.deg c (s.deg c - 1),
          queue := if s.deg c - 1 = 1 then s.queue ++ [c] else s.queue } := by
        unfold relax; rw [if_neg hc]
      have hcj : c ≠ j := fun h => hc (Or.inl h)
      have hcr : s.colRem c = false := by
        cases h : s.colRem c
        · rfl
        · exact absurd (Or.inr h) hc
      rw [e] at h1 h2 h3 h4 h5 h6 ⊢
      simp only at h1 h2 h3 h4 h5 h6 ⊢
      refine ⟨h1, h2, h3, ?_, ?_, ?_⟩
      · intro k
        rw [h4 k]
        unfold upd
        by_cases hk : k = c
        · subst hk
          simp [hl.1, hcj, hcr]
        · simp [hk]
      · intro k
        rw [h5 k]
        unfold upd
        by_cases hk : k = c
        · subst hk
          by_cases hd : s.deg k - 1 = 1
          · simp [hd, hcj, hcr]
          · simp [hd, hl.1]
        · by_cases hd : s.deg c - 1 = 1
          · simp [hd, hk]
          · simp [hd, hk]
      · refine Nat.le_trans h6 ?_
        by_cases hd : s.deg c - 1 = 1
        · simp [hd]; omega
        · simp [hd]

end Verif.Kern
