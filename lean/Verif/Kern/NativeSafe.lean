/-
Memory safety and refinement of the native kernels (C99), and the wrappers that call them
(/repo/mplang/backends/field_impl.py, /repo/mplang/dialects/field.py; C100).
-/
import Verif.Kern.NativeProps

namespace Verif.Kern.Native

open Verif.Kern

/-! ## The OKVS solver -/

theorem indices_lt {m : Nat} (hm : 0 < m) (v : Nat × Nat) : ∀ c ∈ (indices m v).cols, c < m := by
  intro c hc
  have l : ∀ x, x % m < m := fun x => Nat.mod_lt x hm
  simp only [indices, Tri.cols, List.mem_cons, List.not_mem_nil, or_false] at hc
  rcases hc with rfl | rfl | rfl
  · exact l _
  · unfold bump2
    split
    · exact l _
    · exact l _
  · unfold bump3
    split
    · split
      · exact l _
      · exact l _
    · exact l _

theorem keyRows_lt (words : Nat → Nat × Nat) (keys : List Nat) {m : Nat} (hm : 0 < m) :
    ∀ t ∈ keyRows words keys m, ∀ c ∈ t.cols, c < m := by
  intro t ht
  unfold keyRows at ht
  rw [List.mem_map] at ht
  obtain ⟨k, _, rfl⟩ := ht
  exact indices_lt hm _

theorem rd_getD {out : List Blk} {i : Nat} (h : i < out.length) :
    rd out i = .ok (out.getD i (0, 0)) := by
  rw [rd_lt h]; simp [List.getD_eq_getElem?_getD, h]

theorem backSubN_ok {rows : List Tri} {m : Nat} {values : List Nat} {vs : List Blk}
    (hrows : ∀ t ∈ rows, ∀ c ∈ t.cols, c < m) (hv : Holds values vs)
    (hn : rows.length ≤ vs.length) :
    ∀ (L : List (Nat × Nat)) (out : List Blk), out.length = m →
      (∀ p ∈ L, p.1 < m ∧ p.2 < rows.length) →
      ∃ out', backSubN rows values L out = .ok out' ∧ backSub rows vs L out = .ok out' ∧
        out'.length = m := by
  intro L
  induction L with
  | nil => intro out hl _; exact ⟨out, rfl, rfl, hl⟩
  | cons p L ih =>
    obtain ⟨col, row⟩ := p
    intro out hl hp
    have hr : row < rows.length := (hp (col, row) (List.mem_cons_self ..)).2
    have hc : col < m := (hp (col, row) (List.mem_cons_self ..)).1
    have hvr : vs[row]? = some (vs[row]'(by omega)) := List.getElem?_eq_getElem (by omega)
    have ht := hrows rows[row] (List.getElem_mem hr)
    have h1 : rows[row].1 < out.length := by rw [hl]; exact ht _ (by simp [Tri.cols])
    have h2 : rows[row].2.1 < out.length := by rw [hl]; exact ht _ (by simp [Tri.cols])
    have h3 : rows[row].2.2 < out.length := by rw [hl]; exact ht _ (by simp [Tri.cols])
    have hg : rows.getD row (0, 0, 0) = rows[row] := by simp [List.getD_eq_getElem?_getD, hr]
    obtain ⟨o, g1, g2, g3⟩ := ih
      (out.set col (mmXor (vs[row]'(by omega)) (cell3 out (rows.getD row (0, 0, 0)))))
      (by simpa using hl) (fun p hp' => hp p (List.mem_cons_of_mem _ hp'))
    refine ⟨o, ?_, ?_, g3⟩
    · rw [backSubN, bind_ok (rd_lt hr), bind_ok (rd_getD h1), bind_ok (rd_getD h2),
        bind_ok (rd_getD h3), bind_ok (load_holds hv hvr), bind_ok (wr_lt (by omega))]
      rw [hg] at g1
      exact g1
    · rw [backSub, hvr]
      exact g2

/-- The state the peeling stage of the native kernel starts from agrees with the abstract one. -/
theorem sim_init (rows : List Tri) (m : Nat) (deg : List Nat) (hl : deg.length = m)
    (hd : ∀ j, j < m → deg[j]? = some (ctrOf rows j).length) :
    Sim rows.length m
      { deg := deg.map Int.ofNat,
        queue := (List.range' 0 m).filter (fun j => (ctrOf rows j).length = 1),
        rowRem := List.replicate rows.length false,
        colRem := List.replicate m false, stack := [] } (peelInit m (ctrOf rows)) := by
  refine ⟨by simpa using hl, ?_, by simp, ?_, by simp, ?_, ?_, rfl, ?_, ?_⟩
  · intro j hj
    simp only [List.getElem?_map, hd j hj]
    rfl
  · intro i hi; simp [peelInit, hi]
  · intro j hj; simp [peelInit, hj]
  · simp [peelInit, List.range_eq_range']
  · intro j hj
    simp only [List.mem_filter, List.mem_range'_1] at hj
    omega
  · intro p hp; cases hp

/-- **C99**: for a table of at least one cell, and buffers holding at least the `n` keys and `n`
values announced, the native solver never leaves an array, ends, fills exactly the `m` cells of
its output, and computes the table the Python kernel's algorithm computes (zeros when the keys
cannot be peeled). -/
theorem native_solve_safe (words : Nat → Nat × Nat) (keys values : List Nat) (n m : Nat)
    (hm : 0 < m) (hk : n ≤ keys.length) (hv : 2 * n ≤ values.length) :
    ∃ out, solve words keys values n m = .ok out ∧ out.length = m ∧
      okvsSolveNative words (keys.take n) (spellBlocks values n) m = .ok out := by
  have hrows : hashRows words keys m 0 n = .ok (keyRows words (keys.take n) m) := by
    rw [hashRows_ok words keys hm n 0 (by omega)]; rfl
  have hlen : (keyRows words (keys.take n) m).length = n := by simp [keyRows]; omega
  have hlt := keyRows_lt words (keys.take n) hm
  generalize hR : keyRows words (keys.take n) m = rows at hrows hlen hlt
  obtain ⟨cs, flat, deg, hcsr, hC, hdl, hd⟩ := buildCsr_ok rows m hlt
  have hq := initQueue_ok (fun j => (ctrOf rows j).length) deg hd m 0 (by omega)
  have hsim := sim_init rows m deg hdl hd
  have hend : ∃ s, peelLoop rows (ctrOf rows) (m + 3 * n) (peelInit m (ctrOf rows)) = some s := by
    apply loop_ends
    have h1 : (active rows.length (peelInit m (ctrOf rows))).length ≤ rows.length := by
      unfold active
      refine Nat.le_trans (List.length_filter_le _ _) ?_
      simp
    have h2 : (peelInit m (ctrOf rows)).queue.length ≤ m := by
      unfold peelInit
      refine Nat.le_trans (List.length_filter_le _ _) ?_
      simp
    omega
  obtain ⟨s, hs⟩ := hend
  obtain ⟨a, ha, hsa⟩ := loopN_sim hlt hC (m + 3 * n) _ _ hsim s hs
  have hpeel : peelAll rows m
      = if s.stack.length ≠ rows.length then .error .core else .ok s.stack := by
    unfold peelAll
    show (match peelLoop rows (ctrOf rows) (m + 3 * rows.length) (peelInit m (ctrOf rows)) with
      | none => _ | some s => _) = _
    rw [hlen, hs]
  have hsolve : okvsSolve words (keys.take n) (spellBlocks values n) m
      = match peelAll rows m with
        | .error e => .error e
        | .ok stack => backSub rows (spellBlocks values n) stack.reverse
            (List.replicate m (0, 0)) := by
    rw [← hR]
    unfold okvsSolve
    rw [if_neg (by omega)]
    rfl
  have hnat : solve words keys values n m
      = if a.stack.length ≠ n then .ok (List.replicate m (0, 0))
        else backSubN rows values a.stack.reverse (List.replicate m (0, 0)) := by
    unfold solve
    rw [bind_ok hrows, bind_ok hcsr]
    simp only []
    rw [bind_ok hq]
    rw [hlen] at ha
    rw [bind_ok ha]
    rfl
  rw [hnat, hsa.stack]
  unfold okvsSolveNative
  rw [hsolve, hpeel, hlen]
  by_cases hf : s.stack.length ≠ n
  · rw [if_pos hf, if_pos hf]
    exact ⟨_, rfl, by simp, rfl⟩
  · rw [if_neg hf, if_neg hf]
    obtain ⟨o, g1, g2, g3⟩ := backSubN_ok hlt (holds_spell hv) (vs := spellBlocks values n)
      (by simp [spellBlocks, hlen]) s.stack.reverse (List.replicate m (0, 0)) (by simp) (by
        intro p hp
        rw [List.mem_reverse, ← hsa.stack] at hp
        exact hsa.inS p hp)
    refine ⟨o, g1, g3, ?_⟩
    simp only [g2]

/-- A small hash for concrete cases. /repo/mplang/kernels/okvs.cpp:34-41 -/
def toyWords (k : Nat) : Nat × Nat := (k, k + 1)

/-- Non-vacuity: three keys in eight cells are stored; in four cells they cannot be peeled. -/
example : solve toyWords [0, 1, 5] [7, 0, 9, 0, 4, 4] 3 8
    = .ok [(14, 0), (9, 0), (0, 0), (0, 0), (0, 0), (4, 4), (0, 0), (0, 0)] ∧
    solve toyWords [0, 1, 5] [7, 0, 9, 0, 4, 4] 3 4
    = .ok [(0, 0), (0, 0), (0, 0), (0, 0)] := by decide +kernel

/-- **C99**, seen from the user: with at least three cells and enough memory, the table the native
solver leaves decodes, with the native decoder, to the value of every key -- or the keys cannot be
peeled and the table is all zeros. -/
theorem native_store_decodes (words : Nat → Nat × Nat) (keys : List Nat) (values : List Nat)
    (m : Nat) (hm : 3 ≤ m) (hv : values.length = 2 * keys.length) :
    ∃ out, solve words keys values keys.length m = .ok out ∧ out.length = m ∧
      ((Peelable Tri.cols (keyRows words keys m) ∧
          okvsDecode words keys out m = spellBlocks values keys.length) ∨
        (¬ Peelable Tri.cols (keyRows words keys m) ∧ out = List.replicate m (0, 0))) := by
  obtain ⟨out, h1, h2, h3⟩ := native_solve_safe words keys values keys.length m (by omega)
    (Nat.le_refl _) (by omega)
  rw [List.take_length] at h3
  refine ⟨out, h1, h2, ?_⟩
  by_cases hp : Peelable Tri.cols (keyRows words keys m)
  · left
    refine ⟨hp, ?_⟩
    obtain ⟨st, g1, g2, g3⟩ := solve_peelable words keys (spellBlocks values keys.length) m hm
      (by simp [spellBlocks]) hp
    unfold okvsSolveNative at h3
    rw [g1] at h3
    simp only [Except.ok.injEq] at h3
    subst h3
    rw [g3]
    exact List.take_of_length_le (by simp [spellBlocks])
  · right
    refine ⟨hp, ?_⟩
    have := solve_not_peelable words keys (spellBlocks values keys.length) m hm hp
    unfold okvsSolveNative at h3
    rw [this] at h3
    simp only [Except.ok.injEq] at h3
    exact h3.symm

/-- With no cell to hash into, the first key already divides by zero. -/
theorem native_solve_no_cells (words : Nat → Nat × Nat) (keys values : List Nat) (n : Nat)
    (hn : 0 < n) (hk : n ≤ keys.length) :
    solve words keys values n 0 = .error .zeroDiv := by
  obtain ⟨k, rfl⟩ : ∃ k, n = k + 1 := ⟨n - 1, by omega⟩
  have h0 : 0 < keys.length := by omega
  unfold solve
  rw [hashRows, bind_ok (rd_lt h0), if_pos rfl]
  rfl

theorem load_short {w : List Nat} {i : Nat} (h : w.length < 2 * i + 2) :
    load w i = .error .oob := by
  unfold load
  by_cases h1 : 2 * i < w.length
  · rw [bind_ok (rd_lt h1), rd_oob (by omega)]; rfl
  · rw [rd_oob (by omega)]; rfl

theorem load_enough {w : List Nat} {i : Nat} (h : 2 * i + 2 ≤ w.length) :
    load w i = .ok (w.getD (2 * i) 0, w.getD (2 * i + 1) 0) := by
  have h1 : 2 * i < w.length := by omega
  have h2 : 2 * i + 1 < w.length := by omega
  unfold load
  rw [bind_ok (rd_lt h1), bind_ok (rd_lt h2)]
  simp [List.getD_eq_getElem?_getD, h1, h2]
  rfl

theorem bind_oob {α β : Type} {x : Except Fault α} (h : x = .error .oob)
    (f : α → Except Fault β) : (x >>= f) = .error .oob := by rw [h]; rfl

/-- Back substitution over a stack that mentions a row whose value lies outside the buffer. -/
theorem backSubN_short {rows : List Tri} {m : Nat} {values : List Nat}
    (hrows : ∀ t ∈ rows, ∀ c ∈ t.cols, c < m) :
    ∀ (L : List (Nat × Nat)) (out : List Blk), out.length = m →
      (∀ p ∈ L, p.1 < m ∧ p.2 < rows.length) →
      (∃ p ∈ L, values.length < 2 * p.2 + 2) →
      backSubN rows values L out = .error .oob := by
  intro L
  induction L with
  | nil => intro out _ _ h; obtain ⟨p, hp, _⟩ := h; cases hp
  | cons p L ih =>
    obtain ⟨col, row⟩ := p
    intro out hl hp hex
    have hr : row < rows.length := (hp (col, row) (List.mem_cons_self ..)).2
    have hc : col < m := (hp (col, row) (List.mem_cons_self ..)).1
    have ht := hrows rows[row] (List.getElem_mem hr)
    have h1 : rows[row].1 < out.length := by rw [hl]; exact ht _ (by simp [Tri.cols])
    have h2 : rows[row].2.1 < out.length := by rw [hl]; exact ht _ (by simp [Tri.cols])
    have h3 : rows[row].2.2 < out.length := by rw [hl]; exact ht _ (by simp [Tri.cols])
    rw [backSubN, bind_ok (rd_lt hr), bind_ok (rd_getD h1), bind_ok (rd_getD h2),
      bind_ok (rd_getD h3)]
    by_cases hs : values.length < 2 * row + 2
    · exact bind_oob (load_short hs) _
    · rw [bind_ok (load_enough (by omega)), bind_ok (wr_lt (by omega))]
      apply ih _ (by simpa using hl) (fun p hp' => hp p (List.mem_cons_of_mem _ hp'))
      obtain ⟨p, hp', hlt⟩ := hex
      rcases List.mem_cons.1 hp' with rfl | hp'
      · exact absurd hlt hs
      · exact ⟨p, hp', hlt⟩

/-- The value buffer is needed in full: whenever the keys can be peeled, a buffer of fewer than
`2 n` words is read past its end. -/
theorem native_solve_needs_values (words : Nat → Nat × Nat) (keys values : List Nat) (m : Nat)
    (hm : 3 ≤ m) (hp : Peelable Tri.cols (keyRows words keys m))
    (hv : values.length < 2 * keys.length) :
    solve words keys values keys.length m = .error .oob := by
  have hrows : hashRows words keys m 0 keys.length = .ok (keyRows words keys m) := by
    rw [hashRows_ok words keys (by omega) keys.length 0 (by omega)]
    simp [keyRows]
  have hlen : (keyRows words keys m).length = keys.length := by simp [keyRows]
  have hlt := keyRows_lt words keys (show 0 < m by omega)
  have hg := goodRows_keys words keys m hm
  generalize hR : keyRows words keys m = rows at hrows hlen hlt hp hg
  obtain ⟨cs, flat, deg, hcsr, hC, hdl, hd⟩ := buildCsr_ok rows m hlt
  have hq := initQueue_ok (fun j => (ctrOf rows j).length) deg hd m 0 (by omega)
  have hsim := sim_init rows m deg hdl hd
  obtain ⟨stack, hs1, hs2⟩ := (peelAll_spec rows m hg).1 hp
  unfold peelAll at hs1
  change (match peelLoop rows (ctrOf rows) (m + 3 * rows.length) (peelInit m (ctrOf rows)) with
      | none => _ | some s => _) = _ at hs1
  rw [hlen] at hs1
  cases hs : peelLoop rows (ctrOf rows) (m + 3 * keys.length) (peelInit m (ctrOf rows)) with
  | none => rw [hs] at hs1; cases hs1
  | some s =>
    rw [hs] at hs1
    simp only at hs1
    split at hs1
    · cases hs1
    · rename_i hsl
      cases hs1
      obtain ⟨a, ha, hsa⟩ := loopN_sim hlt hC (m + 3 * keys.length) _ _ hsim s hs
      have hnat : solve words keys values keys.length m
          = if a.stack.length ≠ keys.length then .ok (List.replicate m (0, 0))
            else backSubN rows values a.stack.reverse (List.replicate m (0, 0)) := by
        unfold solve
        rw [bind_ok hrows, bind_ok hcsr]
        simp only []
        rw [bind_ok hq]
        rw [hlen] at ha
        rw [bind_ok ha]
        rfl
      rw [hnat, hsa.stack, if_neg hsl]
      apply backSubN_short hlt _ _ (by simp)
      · intro p hp'
        rw [List.mem_reverse, ← hsa.stack] at hp'
        exact hsa.inS p hp'
      · obtain ⟨j, hj⟩ := hs2.all (keys.length - 1) (by omega)
        exact ⟨_, List.mem_reverse.2 hj, by simp only; omega⟩

/-! ## The decoder -/

theorem decode_ok (words : Nat → Nat × Nat) (keys storage : List Nat) {m : Nat} (hm : 0 < m)
    (hs : 2 * m ≤ storage.length) : ∀ (k i : Nat), i + k ≤ keys.length →
      decode words keys storage m i k
        = .ok (okvsDecode words ((keys.drop i).take k) (spellBlocks storage m) m) := by
  intro k
  induction k with
  | zero => intro i _; simp [decode, okvsDecode]
  | succ k ih =>
    intro i h
    have hi : i < keys.length := by omega
    have hl := indices_lt hm (words keys[i])
    have hcell : ∀ c ∈ (indices m (words keys[i])).cols,
        load storage c = .ok ((spellBlocks storage m).getD c (0, 0)) := by
      intro c hc
      have : c < m := hl c hc
      rw [load_enough (by omega)]
      simp [spellBlocks, List.getD_eq_getElem?_getD, this]
    rw [decode, bind_ok (rd_lt hi), if_neg (by omega)]
    simp only []
    rw [bind_ok (hcell _ (by simp [Tri.cols])), bind_ok (hcell _ (by simp [Tri.cols])),
      bind_ok (hcell _ (by simp [Tri.cols])), bind_ok (ih (i + 1) (by omega)),
      List.drop_eq_getElem_cons hi, List.take_succ_cons]
    rfl

/-- **C99**: the native decoder stays inside a storage buffer of `m ≥ 1` cells and computes the
table look-ups of the model. -/
theorem native_decode_safe (words : Nat → Nat × Nat) (keys storage : List Nat) (n m : Nat)
    (hm : 0 < m) (hk : n ≤ keys.length) (hs : 2 * m ≤ storage.length) :
    decode words keys storage m 0 n
      = .ok (okvsDecode words (keys.take n) (spellBlocks storage m) m) := by
  simpa using decode_ok words keys storage hm hs n 0 (by omega)

example : decode toyWords [0, 1] [1, 2, 3, 4, 5, 6] 3 0 2
    = .ok [(1 ^^^ 3 ^^^ 5, 2 ^^^ 4 ^^^ 6), (1 ^^^ 3 ^^^ 5, 2 ^^^ 4 ^^^ 6)] := by decide +kernel

/-! ## The other kernels: exactly when they stay inside their buffers -/

/-- **C99**: batch multiplication of `k` elements is safe exactly when both buffers hold `k`
blocks; it then multiplies block by block. -/
theorem native_mul_safe_iff (mul : Blk → Blk → Blk) (a b : List Nat) (k : Nat) :
    ((∃ r, mulBatch mul a b 0 k = .ok r) ↔ k = 0 ∨ (2 * k ≤ a.length ∧ 2 * k ≤ b.length)) ∧
    (2 * k ≤ a.length → 2 * k ≤ b.length →
      mulBatch mul a b 0 k
        = .ok (List.zipWith mul (spellBlocks a k) (spellBlocks b k))) ∧
    (∀ f, mulBatch mul a b 0 k = .error f → f = .oob) := by
  have good : ∀ (k i : Nat), 2 * (i + k) ≤ a.length → 2 * (i + k) ≤ b.length →
      mulBatch mul a b i k = .ok ((List.range' i k).map (fun j =>
        mul (a.getD (2 * j) 0, a.getD (2 * j + 1) 0) (b.getD (2 * j) 0, b.getD (2 * j + 1) 0))) := by
    intro k
    induction k with
    | zero => intro i _ _; rfl
    | succ k ih =>
      intro i h1 h2
      rw [mulBatch, bind_ok (load_enough (by omega)), bind_ok (load_enough (by omega)),
        bind_ok (ih (i + 1) (by omega) (by omega)), List.range'_succ, List.map_cons]
      rfl
  have bad : ∀ (k i : Nat), (a.length < 2 * (i + k) ∨ b.length < 2 * (i + k)) → 0 < k →
      mulBatch mul a b i k = .error .oob := by
    intro k
    induction k with
    | zero => intro i _ h; omega
    | succ k ih =>
      intro i h _
      rw [mulBatch]
      by_cases ha : a.length < 2 * i + 2
      · exact bind_oob (load_short ha) _
      · rw [bind_ok (load_enough (by omega))]
        by_cases hb : b.length < 2 * i + 2
        · exact bind_oob (load_short hb) _
        · rw [bind_ok (load_enough (by omega))]
          by_cases hk : 0 < k
          · exact bind_oob (ih (i + 1) (by omega) hk) _
          · omega
  refine ⟨⟨?_, ?_⟩, ?_, ?_⟩
  · rintro ⟨r, hr⟩
    by_contra hc
    rw [not_or] at hc
    have := bad k 0 (by omega) (by omega)
    rw [hr] at this
    cases this
  · rintro (rfl | ⟨h1, h2⟩)
    · exact ⟨[], rfl⟩
    · exact ⟨_, good k 0 (by omega) (by omega)⟩
  · intro h1 h2
    rw [good k 0 (by omega) (by omega)]
    simp [spellBlocks, List.range_eq_range', List.zipWith_map, List.zipWith_self]
  · intro f hf
    by_cases hk : 0 < k
    · by_cases hs : 2 * k ≤ a.length ∧ 2 * k ≤ b.length
      · rw [good k 0 (by omega) (by omega)] at hf; cases hf
      · rw [bad k 0 (by omega) hk] at hf; cases hf; rfl
    · have : k = 0 := by omega
      subst this
      cases hf

example : mulBatch mmXor [1, 2, 3, 4] [5, 6, 7, 8] 0 2 = .ok [(4, 4), (4, 12)] := by decide +kernel

/-- **C99**: seed expansion of `k` seeds is safe exactly when the seed buffer holds `k` blocks. -/
theorem native_expand_safe_iff (block : Blk → Nat → Blk) (seeds : List Nat) (length k : Nat) :
    ((∃ r, expand block seeds length 0 k = .ok r) ↔ 2 * k ≤ seeds.length ∨ k = 0) ∧
    (2 * k ≤ seeds.length → expand block seeds length 0 k
      = .ok ((spellBlocks seeds k).map (fun s => (List.range length).map (block s)))) ∧
    (∀ f, expand block seeds length 0 k = .error f → f = .oob) := by
  have good : ∀ (k i : Nat), 2 * (i + k) ≤ seeds.length →
      expand block seeds length i k = .ok ((List.range' i k).map (fun j =>
        (List.range length).map (block (seeds.getD (2 * j) 0, seeds.getD (2 * j + 1) 0)))) := by
    intro k
    induction k with
    | zero => intro i _; rfl
    | succ k ih =>
      intro i h1
      rw [expand, bind_ok (load_enough (by omega)), bind_ok (ih (i + 1) (by omega)),
        List.range'_succ, List.map_cons]
      rfl
  have bad : ∀ (k i : Nat), seeds.length < 2 * (i + k) → 0 < k →
      expand block seeds length i k = .error .oob := by
    intro k
    induction k with
    | zero => intro i _ h; omega
    | succ k ih =>
      intro i h _
      rw [expand]
      by_cases ha : seeds.length < 2 * i + 2
      · exact bind_oob (load_short ha) _
      · rw [bind_ok (load_enough (by omega))]
        by_cases hk : 0 < k
        · exact bind_oob (ih (i + 1) (by omega) hk) _
        · omega
  refine ⟨⟨?_, ?_⟩, ?_, ?_⟩
  · rintro ⟨r, hr⟩
    by_contra hc
    rw [not_or] at hc
    have := bad k 0 (by omega) (by omega)
    rw [hr] at this
    cases this
  · rintro (h1 | rfl)
    · exact ⟨_, good k 0 (by omega)⟩
    · exact ⟨[], rfl⟩
  · intro h1
    rw [good k 0 (by omega)]
    simp [spellBlocks, List.range_eq_range']
  · intro f hf
    by_cases hk : 0 < k
    · by_cases hs : 2 * k ≤ seeds.length
      · rw [good k 0 (by omega)] at hf; cases hf
      · rw [bad k 0 (by omega) hk] at hf; cases hf; rfl
    · have : k = 0 := by omega
      subst this
      cases hf

example : expand (fun s j => mmXor s (j, 0)) [1, 2, 3, 4] 2 0 2
    = .ok [[(1, 2), (0, 2)], [(3, 4), (2, 4)]] := by decide +kernel

/-! ### The sparse encoder -/

theorem ldpcSum_ok (message idx : List Nat) (msg : List Blk) (hm : message.length = 2 * msg.length)
    (hh : Holds message msg) : ∀ (f k : Nat) (acc : Blk), k + f ≤ idx.length →
    ldpcSum message idx k f acc
      = match ldpcRow msg ((idx.drop k).take f) acc with
        | some x => .ok x
        | none => .error .oob := by
  intro f
  induction f with
  | zero => intro k acc _; simp [ldpcSum, ldpcRow]
  | succ f ih =>
    intro k acc h
    have hk : k < idx.length := by omega
    rw [ldpcSum, bind_ok (rd_lt hk), List.drop_eq_getElem_cons hk, List.take_succ_cons, ldpcRow]
    by_cases hj : idx[k] < msg.length
    · have e : msg[idx[k]]? = some msg[idx[k]] := List.getElem?_eq_getElem hj
      rw [bind_ok (load_holds hh e), ih (k + 1) _ (by omega), e]
    · rw [bind_oob (load_short (by omega)), List.getElem?_eq_none (by omega)]

/-- **C99**: the native sparse encoder agrees with the Python one whenever the row pointers stay
within the index array: it computes the same blocks, and reads outside the message exactly when
the Python kernel would raise an index error. -/
theorem native_ldpc_agrees (message idx indptr : List Nat) (msg : List Blk)
    (hm : message.length = 2 * msg.length) (hh : Holds message msg)
    (hp : ∀ p ∈ indptr, p ≤ idx.length) : ∀ (k i : Nat),
    ldpc message idx indptr i k
      = match ldpcEncode msg idx indptr i k with
        | some x => .ok x
        | none => .error .oob := by
  intro k
  induction k with
  | zero => intro i; rfl
  | succ k ih =>
    intro i
    rw [ldpc, ldpcEncode]
    unfold csrRow
    cases h1 : indptr[i]? with
    | none =>
      have : rd indptr i = .error .oob := by unfold rd; rw [h1]
      rw [bind_oob this]
    | some a =>
      rw [bind_ok (rd_ok.2 h1)]
      cases h2 : indptr[i + 1]? with
      | none =>
        have : rd indptr (i + 1) = .error .oob := by unfold rd; rw [h2]
        rw [bind_oob this]
      | some b =>
        have hb : b ≤ idx.length := hp b (List.mem_of_getElem? h2)
        rw [bind_ok (rd_ok.2 h2)]
        have ha : a ≤ idx.length := hp a (List.mem_of_getElem? h1)
        simp only []
        rw [ldpcSum_ok message idx msg hm hh (b - a) a (0, 0) (by omega), ih (i + 1),
          ← List.drop_take]
        cases ldpcRow msg ((idx.take b).drop a) (0, 0) with
        | none => rfl
        | some x =>
          cases ldpcEncode msg idx indptr (i + 1) k with
          | none => rfl
          | some xs => rfl

example : ldpc [1, 2, 3, 4, 5, 6] [0, 2, 1] [0, 2, 3] 0 2 = .ok [(4, 4), (3, 4)] := by
  decide +kernel

end Verif.Kern.Native
