import Verif.Kern.OkvsOpt
/-! # C79 — the binned OKVS (`field.solve_okvs_opt` / `field.decode_okvs_opt`)
Model: Verif.Kern.OkvsOpt, /repo/mplang/kernels/okvs_opt.cpp and
/repo/mplang/backends/field_impl.py:141-285. -/
namespace Verif.Kern

/-! ### Cells -/

theorem bump_distinct {m i1 j2 j3 : Nat} (hm : 3 ≤ m) (h1 : i1 < m) (h2 : j2 < m) (h3 : j3 < m) :
    (Tri.cols (i1, bump2 m i1 j2, bump3 m i1 (bump2 m i1 j2) j3)).Nodup ∧
    ∀ c ∈ Tri.cols (i1, bump2 m i1 j2, bump3 m i1 (bump2 m i1 j2) j3), c < m := by
  have hpos : 0 < m := by omega
  have hb2 : bump2 m i1 j2 < m ∧ bump2 m i1 j2 ≠ i1 := by
    unfold bump2
    by_cases h : j2 = i1
    · rw [if_pos h]
      refine ⟨Nat.mod_lt _ hpos, ?_⟩
      rw [h]; exact succ_mod_ne (by omega) h1
    · rw [if_neg h]; exact ⟨h2, h⟩
  generalize bump2 m i1 j2 = i2 at *
  have hb3 : bump3 m i1 i2 j3 < m ∧ bump3 m i1 i2 j3 ≠ i1 ∧ bump3 m i1 i2 j3 ≠ i2 := by
    unfold bump3
    by_cases h : j3 = i1 ∨ j3 = i2
    · rw [if_pos h]
      have hlt : (j3 + 1) % m < m := Nat.mod_lt _ hpos
      by_cases h' : (j3 + 1) % m = i1 ∨ (j3 + 1) % m = i2
      · rw [if_pos h']
        have hlt2 : ((j3 + 1) % m + 1) % m < m := Nat.mod_lt _ hpos
        have n1 : (j3 + 1) % m ≠ j3 := succ_mod_ne (by omega) h3
        have n2 : ((j3 + 1) % m + 1) % m ≠ (j3 + 1) % m := succ_mod_ne (by omega) hlt
        have n3 : ((j3 + 1) % m + 1) % m ≠ j3 := by
          by_cases e : j3 + 1 = m
          · rw [e, Nat.mod_self, Nat.mod_eq_of_lt (by omega)]; omega
          · rw [Nat.mod_eq_of_lt (a := j3 + 1) (by omega)]
            by_cases e2 : j3 + 1 + 1 = m
            · rw [e2, Nat.mod_self]; omega
            · rw [Nat.mod_eq_of_lt (by omega)]; omega
        refine ⟨hlt2, ?_, ?_⟩ <;> rcases h with h | h <;> rcases h' with h' | h' <;> omega
      · rw [if_neg h']
        exact ⟨hlt, fun e => h' (Or.inl e), fun e => h' (Or.inr e)⟩
    · rw [if_neg h]
      exact ⟨h3, fun e => h (Or.inl e), fun e => h (Or.inr e)⟩
  simp only [Tri.cols]
  constructor
  · simp only [List.nodup_cons, List.mem_cons, List.not_mem_nil, or_false, not_or, not_false_iff,
      List.nodup_nil, and_true]
    exact ⟨⟨fun e => hb2.2 e.symm, fun e => hb3.2.1 e.symm⟩, fun e => hb3.2.2 e.symm⟩
  · intro c hc
    simp only [List.mem_cons, List.not_mem_nil, or_false] at hc
    rcases hc with rfl | rfl | rfl
    · exact h1
    · exact hb2.1
    · exact hb3.1

theorem localIdx_distinct (m : Nat) (hm : 3 ≤ m) (r : Nat) :
    (localIdx m r).cols.Nodup ∧ ∀ c ∈ (localIdx m r).cols, c < m :=
  bump_distinct hm (Nat.mod_lt _ (by omega)) (Nat.mod_lt _ (by omega)) (Nat.mod_lt _ (by omega))

/-! ### Bin boundaries -/

theorem binOffset_eq (m b : Nat) : binOffset m b = b * (m / numBins) + min b (m % numBins) := by
  induction b with
  | zero => simp [binOffset]
  | succ b ih =>
    rw [binOffset, ih, binSize, Nat.succ_mul]
    split <;> omega

/-- The bins cover the table exactly. -/
theorem binOffset_end (m : Nat) : binOffset m numBins = m := by
  rw [binOffset_eq, Nat.min_eq_right (Nat.le_of_lt (Nat.mod_lt _ (by decide))), Nat.mul_comm]
  rw [Nat.mul_comm]
  exact Nat.div_add_mod m numBins

theorem binOffset_mono {m a b : Nat} (h : a ≤ b) : binOffset m a ≤ binOffset m b := by
  induction h with
  | refl => exact Nat.le_refl _
  | step _ ih => exact Nat.le_trans ih (by rw [binOffset]; omega)

theorem bin_end_le {m b : Nat} (h : b < numBins) : binOffset m b + binSize m b ≤ m := by
  have := binOffset_mono (m := m) (a := b + 1) (b := numBins) h
  rw [binOffset_end, binOffset] at this
  exact this

theorem bins_disjoint {m a b : Nat} (h : a < b) : binOffset m a + binSize m a ≤ binOffset m b := by
  have := binOffset_mono (m := m) (a := a + 1) (b := b) h
  rw [binOffset] at this
  exact this

theorem binSize_ge {m : Nat} (h : 3 * numBins ≤ m) (b : Nat) : 3 ≤ binSize m b := by
  have : 3 ≤ m / numBins := (Nat.le_div_iff_mul_le (by decide)).2 h
  unfold binSize
  omega

theorem binView_length {m b : Nat} {t : List Blk} (ht : t.length = m) (hb : b < numBins) :
    (binView m b t).length = binSize m b := by
  have := bin_end_le (m := m) hb
  simp [binView]; omega

theorem putBin_length {m b : Nat} {t new : List Blk} (ht : t.length = m) (hb : b < numBins)
    (hn : new.length = binSize m b) : (putBin m b t new).length = m := by
  have := bin_end_le (m := m) hb
  simp [putBin]; omega

theorem view_put_same {m b : Nat} {t new : List Blk} (ht : t.length = m) (hb : b < numBins)
    (hn : new.length = binSize m b) : binView m b (putBin m b t new) = new := by
  have := bin_end_le (m := m) hb
  unfold binView putBin
  have hl : (t.take (binOffset m b)).length = binOffset m b := by simp; omega
  rw [List.append_assoc, List.drop_append_of_le_length (by omega), List.drop_of_length_le (by omega),
    List.nil_append, List.take_append_of_le_length (by omega), List.take_of_length_le (by omega)]

theorem view_put_other {m a b : Nat} {t new : List Blk} (ht : t.length = m) (ha : a < numBins)
    (hb : b < numBins) (hab : a ≠ b) (hn : new.length = binSize m b) :
    binView m a (putBin m b t new) = binView m a t := by
  have h1 := bin_end_le (m := m) ha
  have h2 := bin_end_le (m := m) hb
  apply List.ext_getElem?
  intro i
  unfold binView putBin
  rw [List.getElem?_take, List.getElem?_take]
  by_cases hi : i < binSize m a
  · rw [if_pos hi, if_pos hi, List.getElem?_drop, List.getElem?_drop, List.append_assoc]
    have hl : (t.take (binOffset m b)).length = binOffset m b := by simp; omega
    rcases Nat.lt_or_gt_of_ne hab with h | h
    · have := bins_disjoint (m := m) h
      rw [List.getElem?_append_left (by omega), List.getElem?_take, if_pos (by omega)]
    · have := bins_disjoint (m := m) h
      rw [List.getElem?_append_right (by omega), List.getElem?_append_right (by omega),
        List.getElem?_drop]
      congr 1
      omega
  · rw [if_neg hi, if_neg hi]

/-! ### One bin -/

/-- The zero cells of a bin. -/
theorem view_zero {m b : Nat} (hb : b < numBins) :
    binView m b (List.replicate m (0, 0)) = List.replicate (binSize m b) (0, 0) := by
  have := bin_end_le (m := m) hb
  simp [binView]
  congr 1
  omega

/-- What the task of a bin writes when it finds its cells zero. -/
def binResult (H : BinHash) (words : Nat → Nat × Nat) (items : List (Nat × Blk)) (m b : Nat) :
    List Blk :=
  binView m b (binTask H words items m (List.replicate m (0, 0)) b)

/-- Rows of the items of one bin. -/
def binRows (H : BinHash) (items : List (Nat × Blk)) (m b : Nat) : List Tri :=
  (binItems H items b).map fun p => localIdx (binSize m b) (H.loc p.1)

theorem goodRows_bin (H : BinHash) (items : List (Nat × Blk)) (m b : Nat) (h : 3 * numBins ≤ m) :
    GoodRows (binRows H items m b) (binSize m b) := by
  intro t ht
  unfold binRows at ht
  rw [List.mem_map] at ht
  obtain ⟨p, _, rfl⟩ := ht
  exact localIdx_distinct _ (binSize_ge h b) _

theorem solveBin_peelable {rows : List Tri} {values : List Blk} {size : Nat}
    (hg : GoodRows rows size) (hv : values.length = rows.length) (hp : Peelable Tri.cols rows) :
    ∃ out, solveBin rows values size (List.replicate size (0, 0)) = some out ∧
      out.length = size ∧ ∀ i, i < rows.length → some (cell3 out (rows.getD i (0, 0, 0))) = values[i]? := by
  obtain ⟨stack, hs, hgs⟩ := (peelAll_spec _ _ hg).1 hp
  obtain ⟨out, ho, hol, hov, _⟩ := backSub_spec rows values size hg (by omega) stack.reverse
    (List.replicate size (0, 0)) (by simp) (by
      rw [List.pairwise_reverse]; exact hgs.pw)
    (by intro p hp; exact hgs.own p (List.mem_reverse.1 hp))
    (by intro p _; rw [List.getD_eq_getElem?_getD, List.getElem?_replicate]; split <;> rfl)
  refine ⟨out, ?_, hol, ?_⟩
  · unfold solveBin; rw [hs]; simp only [ho]
  · intro i hi
    obtain ⟨j, hj⟩ := hgs.all i hi
    exact hov (j, i) (List.mem_reverse.2 hj)

theorem solveBin_core {rows : List Tri} {values view : List Blk} {size : Nat}
    (hg : GoodRows rows size) (hp : ¬ Peelable Tri.cols rows) :
    solveBin rows values size view = none := by
  unfold solveBin
  rw [(peelAll_spec _ _ hg).2 hp]

theorem backSub_length {rows : List Tri} {values : List Blk} :
    ∀ {L : List (Nat × Nat)} {out out' : List Blk}, backSub rows values L out = .ok out' →
      out'.length = out.length := by
  intro L
  induction L with
  | nil => intro out out' h; cases h; rfl
  | cons p L ih =>
    obtain ⟨c, r⟩ := p
    intro out out' h
    rw [backSub] at h
    split at h
    · cases h
    · rw [ih h, List.length_set]

theorem native_length {words : Nat → Nat × Nat} {keys : List Nat} {values out : List Blk} {m : Nat}
    (h : okvsSolveNative words keys values m = .ok out) : out.length = m := by
  unfold okvsSolveNative at h
  split at h
  · cases h; simp
  · unfold okvsSolve at h
    split at h
    · cases h
    · simp only at h
      split at h
      · cases h
      · rw [backSub_length h]; simp

/-- A task only changes the cells of its own bin, and what it writes depends only on what it found
there. -/
theorem binTask_spec (H : BinHash) (words : Nat → Nat × Nat) (items : List (Nat × Blk)) (m : Nat)
    {t : List Blk} {b : Nat} (ht : t.length = m) (hb : b < numBins)
    (hz : binView m b t = List.replicate (binSize m b) (0, 0)) :
    (binTask H words items m t b).length = m ∧
    binView m b (binTask H words items m t b) = binResult H words items m b ∧
    ∀ a, a < numBins → a ≠ b → binView m a (binTask H words items m t b) = binView m a t := by
  have hz0 := view_zero (m := m) hb
  have ht0 : (List.replicate m ((0, 0) : Blk)).length = m := by simp
  unfold binResult binTask
  simp only
  split
  · exact ⟨ht, by rw [hz, hz0], fun _ _ _ => rfl⟩
  · rw [hz, hz0]
    split
    · rename_i out hs
      have hl : out.length = binSize m b := by
        unfold solveBin at hs
        split at hs
        · cases hs
        · split at hs
          · rename_i o ho
            cases hs
            rw [backSub_length ho]; simp
          · cases hs
      exact ⟨putBin_length ht hb hl, by rw [view_put_same ht hb hl, view_put_same ht0 hb hl],
        fun a ha hab => view_put_other ht ha hb hab hl⟩
    · split
      · rename_i out hs
        have hl := native_length hs
        exact ⟨putBin_length ht hb hl, by rw [view_put_same ht hb hl, view_put_same ht0 hb hl],
          fun a ha hab => view_put_other ht ha hb hab hl⟩
      · exact ⟨ht, by rw [hz, hz0], fun _ _ _ => rfl⟩

theorem fold_spec (H : BinHash) (words : Nat → Nat × Nat) (items : List (Nat × Blk)) (m : Nat) :
    ∀ (order : List Nat) (t : List Blk), t.length = m → order.Nodup → (∀ b ∈ order, b < numBins) →
      (∀ b ∈ order, binView m b t = List.replicate (binSize m b) (0, 0)) →
      (order.foldl (binTask H words items m) t).length = m ∧
      ∀ a, a < numBins → binView m a (order.foldl (binTask H words items m) t)
        = if a ∈ order then binResult H words items m a else binView m a t := by
  intro order
  induction order with
  | nil => intro t ht _ _ _; exact ⟨ht, fun a _ => by simp⟩
  | cons b order ih =>
    intro t ht hnd hlt hz
    rw [List.nodup_cons] at hnd
    obtain ⟨h1, h2, h3⟩ := binTask_spec H words items m ht (hlt b (by simp)) (hz b (by simp))
    obtain ⟨i1, i2⟩ := ih _ h1 hnd.2 (fun c hc => hlt c (by simp [hc])) (by
      intro c hc
      rw [h3 c (hlt c (by simp [hc])) (fun e => hnd.1 (e ▸ hc))]
      exact hz c (by simp [hc]))
    refine ⟨i1, ?_⟩
    intro a ha
    rw [List.foldl_cons, i2 a ha]
    by_cases hab : a = b
    · subst hab
      rw [if_neg hnd.1, if_pos (by simp), h2]
    · by_cases hao : a ∈ order
      · rw [if_pos hao, if_pos (by simp [hao])]
      · rw [if_neg hao, if_neg (by simp [hab, hao]), h3 a ha hab]

/-- **C79, schedule independence**: in whatever order the threads take the bins, the table is the
same: each bin holds what its own task computes from zero cells. -/
theorem solveOpt_views (H : BinHash) (words : Nat → Nat × Nat) (keys : List Nat) (values : List Blk)
    (m : Nat) (order : List Nat) (ho : order.Perm (List.range numBins)) :
    (solveOpt H words keys values m order).length = m ∧
    ∀ a, a < numBins → binView m a (solveOpt H words keys values m order)
      = binResult H words (keys.zip values) m a := by
  have hmem : ∀ b, b ∈ order ↔ b < numBins := fun b => by rw [ho.mem_iff, List.mem_range]
  obtain ⟨h1, h2⟩ := fold_spec H words (keys.zip values) m order (List.replicate m (0, 0)) (by simp)
    (ho.nodup_iff.2 List.nodup_range) (fun b hb => (hmem b).1 hb)
    (fun b hb => view_zero ((hmem b).1 hb))
  refine ⟨h1, fun a ha => ?_⟩
  unfold solveOpt
  rw [h2 a ha, if_pos ((hmem a).2 ha)]

theorem view_cell {m b : Nat} {t : List Blk} (c : Nat) (hc : c < binSize m b) :
    t.getD (binOffset m b + c) (0, 0) = (binView m b t).getD c (0, 0) := by
  unfold binView
  rw [List.getD_eq_getElem?_getD, List.getD_eq_getElem?_getD, List.getElem?_take, if_pos hc,
    List.getElem?_drop]

/-- The value of a key is read from the cells of its bin. -/
theorem decode_view {H : BinHash} {m : Nat} (h3 : 3 * numBins ≤ m) (t : List Blk) (k : Nat) :
    cell3 t (optRow H m k)
      = cell3 (binView m (H.binOf k) t) (localIdx (binSize m (H.binOf k)) (H.loc k)) := by
  have hd := (localIdx_distinct (binSize m (H.binOf k)) (binSize_ge h3 _) (H.loc k)).2
  unfold cell3 optRow
  simp only
  rw [view_cell _ (hd _ (by simp [Tri.cols])), view_cell _ (hd _ (by simp [Tri.cols])),
    view_cell _ (hd _ (by simp [Tri.cols]))]

/-- Peeling the whole table restricts to each bin. -/
theorem bin_peelable {H : BinHash} {keys : List Nat} {values : List Blk} {m : Nat}
    (hv : values.length = keys.length) (hp : Peelable Tri.cols (keys.map (optRow H m))) (b : Nat) :
    Peelable Tri.cols (binRows H (keys.zip values) m b) := by
  have hkeys : (keys.zip values).map Prod.fst = keys := List.map_fst_zip (by omega)
  have h1 : Peelable (fun p : Nat × Blk => (optRow H m p.1).cols) (keys.zip values) := by
    refine Peelable.of_map (fun p : Nat × Blk => optRow H m p.1) hp ?_
    rw [← hkeys, List.map_map]
    rw [hkeys]
    rfl
  have h2 := h1.sublist (List.filter_sublist (p := fun p => H.binOf p.1 == b))
  refine Peelable.map (fun p : Nat × Blk => localIdx (binSize m b) (H.loc p.1)) ?_
  have key : ∀ {l : List (Nat × Blk)}, Peelable (fun p : Nat × Blk => (optRow H m p.1).cols) l →
      (∀ p ∈ l, H.binOf p.1 = b) →
      Peelable (fun p : Nat × Blk => (localIdx (binSize m b) (H.loc p.1)).cols) l := by
    intro l hl
    induction hl with
    | nil => intro _; exact .nil
    | step pre post t c hc hq _ ih =>
      intro hb
      have hbt : H.binOf t.1 = b := hb t (by simp)
      have hcol : ∀ p : Nat × Blk, H.binOf p.1 = b →
          (optRow H m p.1).cols
            = ((localIdx (binSize m b) (H.loc p.1)).cols).map (binOffset m b + ·) := by
        intro p hp
        simp only [optRow, Tri.cols, hp, List.map_cons, List.map_nil]
      rw [hcol t hbt, List.mem_map] at hc
      obtain ⟨d, hd, rfl⟩ := hc
      refine .step pre post t d hd ?_ (ih fun p hp => hb p (by
        rw [List.mem_append] at hp
        rcases hp with hp | hp <;> simp [hp]))
      intro u hu hdu
      apply hq u hu
      rw [hcol u (hb u (by
        rw [List.mem_append] at hu
        rcases hu with hu | hu <;> simp [hu]))]
      exact List.mem_map_of_mem hdu
  refine key h2 ?_
  intro p hp
  simpa using (List.mem_filter.1 hp).2

/-- The result of the task of a bin whose rows can be peeled answers every item of the bin. -/
theorem binResult_decodes {H : BinHash} {words : Nat → Nat × Nat} {items : List (Nat × Blk)}
    {m b : Nat} (h3 : 3 * numBins ≤ m) (hb : b < numBins)
    (hp : Peelable Tri.cols (binRows H items m b)) {k : Nat} {v : Blk} (hk : (k, v) ∈ items)
    (hkb : H.binOf k = b) :
    cell3 (binResult H words items m b) (localIdx (binSize m b) (H.loc k)) = v := by
  have hmem : (k, v) ∈ binItems H items b := by
    unfold binItems; rw [List.mem_filter]; exact ⟨hk, by simp [hkb]⟩
  obtain ⟨i, hi, hie⟩ := List.mem_iff_getElem.1 hmem
  obtain ⟨out, ho, hol, hov⟩ := solveBin_peelable (goodRows_bin H items m b h3)
    (values := (binItems H items b).map (·.2)) (by simp [binRows]) hp
  have hne : (binItems H items b).isEmpty = false := by
    cases hz : binItems H items b with
    | nil => rw [hz] at hmem; cases hmem
    | cons _ _ => rfl
  have hres : binResult H words items m b = out := by
    unfold binResult binTask
    simp only [hne, Bool.false_eq_true, if_false, view_zero hb]
    unfold binRows at ho
    simp only [ho]
    exact view_put_same (by simp) hb hol
  have := hov i (by simpa [binRows] using hi)
  rw [hres]
  have hrow : (binRows H items m b).getD i (0, 0, 0) = localIdx (binSize m b) (H.loc k) := by
    rw [List.getD_eq_getElem?_getD]
    unfold binRows
    rw [List.getElem?_map, List.getElem?_eq_getElem hi, hie]
    rfl
  rw [hrow, List.getElem?_map, List.getElem?_eq_getElem hi, hie] at this
  exact Option.some.inj this

theorem binOf_lt (H : BinHash) (k : Nat) : H.binOf k < numBins := Nat.mod_lt _ (by decide)

/-- The binned solver answers every encoded key when the rows of the keys can be peeled. -/
theorem opt_decodes (H : BinHash) (words : Nat → Nat × Nat) (keys : List Nat) (values : List Blk)
    (m : Nat) (h3 : 3 * numBins ≤ m) (hv : values.length = keys.length) (order : List Nat)
    (ho : order.Perm (List.range numBins)) (hp : Peelable Tri.cols (keys.map (optRow H m)))
    (i : Nat) (k : Nat) (v : Blk) (hk : keys[i]? = some k) (hvi : values[i]? = some v) :
    cell3 (solveOpt H words keys values m order) (optRow H m k) = v := by
  obtain ⟨_, h2⟩ := solveOpt_views H words keys values m order ho
  rw [decode_view h3, h2 _ (binOf_lt H k)]
  refine binResult_decodes h3 (binOf_lt H k) (bin_peelable hv hp _) ?_ rfl
  refine List.mem_iff_getElem?.2 ⟨i, ?_⟩
  rw [List.getElem?_zip_eq_some]
  exact ⟨hk, hvi⟩

/-- The three cells of a key, for a call with `n` keys: by the back end's choice of kernel. -/
def fieldRow (E : OkvsEnv) (n m k : Nat) : Tri :=
  if E.native = false then indices m (E.pyWords k)
  else if naiveFor n m then indices m (E.natWords k) else optRow E.bins m k

/-- **C79, the part that holds**: for every environment, every thread schedule and every table size,
if the rows of the keys can be peeled, `solve_okvs_opt` succeeds and `decode_okvs_opt` of any list of
queries whose length selects the same kernel returns, for each queried key, its value. -/
theorem okvs_opt_decodes_partial (E : OkvsEnv) (order : List Nat)
    (ho : order.Perm (List.range numBins)) (keys : List Nat) (values : List Blk) (m : Nat)
    (h3 : 3 ≤ m) (hv : values.length = keys.length)
    (hp : Peelable Tri.cols (keys.map (fieldRow E keys.length m))) :
    ∃ st, fieldSolve E order keys values m = .ok st ∧ st.length = m ∧
      ∀ (qs : List Nat), (E.native = false ∨ naiveFor qs.length m = naiveFor keys.length m) →
        (fieldDecode E qs st m).length = qs.length ∧
        ∀ (i j k : Nat) (v : Blk), keys[i]? = some k → values[i]? = some v → qs[j]? = some k →
          (fieldDecode E qs st m)[j]? = some v := by
  have naive : ∀ (words : Nat → Nat × Nat), Peelable Tri.cols (keys.map fun k => indices m (words k)) →
      ∃ st, okvsSolve words keys values m = .ok st ∧ st.length = m ∧
        ∀ (i k : Nat) (v : Blk), keys[i]? = some k → values[i]? = some v →
          cell3 st (indices m (words k)) = v := by
    intro words hp
    obtain ⟨st, h1, h2, h4⟩ := solve_peelable words keys values m h3 (by omega) hp
    refine ⟨st, h1, h2, ?_⟩
    intro i k v hk hvi
    rw [← hv, List.take_length] at h4
    have := congrArg (fun l => l[i]?) h4
    simp only [okvsDecode, List.getElem?_map, hk, hvi, Option.map_some, Option.some.injEq] at this
    exact this
  unfold fieldRow at hp
  by_cases hn : E.native = false
  · simp only [hn, if_true] at hp
    obtain ⟨st, h1, h2, h4⟩ := naive _ hp
    refine ⟨st, by simp only [fieldSolve, hn, if_true]; exact h1, h2, ?_⟩
    intro qs _
    simp only [fieldDecode, hn, if_true, okvsDecode, List.length_map, true_and]
    intro i j k v hk hvi hq
    rw [List.getElem?_map, hq, Option.map_some, h4 i k v hk hvi]
  · have hn' : E.native = true := by simpa using hn
    by_cases hf : naiveFor keys.length m = true
    · simp only [hn', hf, Bool.true_eq_false, if_true, if_false] at hp
      obtain ⟨st, h1, h2, h4⟩ := naive _ hp
      refine ⟨st, by simp only [fieldSolve, hn', hf, Bool.true_eq_false, if_true, if_false, okvsSolveNative, h1], h2, ?_⟩
      intro qs hq
      have hq' : naiveFor qs.length m = true := by rcases hq with h | h; exacts [absurd h hn, h.trans hf]
      simp only [fieldDecode, hn', hq', Bool.true_eq_false, if_true, if_false, okvsDecode, List.length_map, true_and]
      intro i j k v hk hvi hq
      rw [List.getElem?_map, hq, Option.map_some, h4 i k v hk hvi]
    · have hm : 3 * numBins ≤ m := by
        simp only [naiveFor, Bool.or_eq_true, decide_eq_true_eq, not_or] at hf
        show 3 * 1024 ≤ m
        omega
      simp only [hn', hf, Bool.true_eq_false, Bool.false_eq_true, if_false] at hp
      refine ⟨solveOpt E.bins E.natWords keys values m order,
        by simp only [fieldSolve, hn', hf, Bool.true_eq_false, Bool.false_eq_true, if_false], (solveOpt_views _ _ _ _ _ _ ho).1, ?_⟩
      intro qs hq
      have hq' : ¬ naiveFor qs.length m = true := by
        rcases hq with h | h
        · exact absurd h hn
        · rw [h]; exact hf
      simp only [fieldDecode, hn', hq', Bool.true_eq_false, Bool.false_eq_true, if_false, decodeOpt, List.length_map, true_and]
      intro i j k v hk hvi hq
      rw [List.getElem?_map, hq, Option.map_some,
        opt_decodes E.bins E.natWords keys values m hm hv order ho hp i k v hk hvi]

/-- **C79**: decoding is linear in the table, whatever kernel is chosen. -/
theorem okvs_opt_decode_linear (E : OkvsEnv) (qs : List Nat) (a b : List Blk) (m : Nat)
    (h : a.length = b.length) :
    fieldDecode E qs (xorTables a b) m
      = List.zipWith mmXor (fieldDecode E qs a m) (fieldDecode E qs b m) := by
  unfold fieldDecode
  split
  · exact okvs_decode_linear _ _ _ _ _ h
  · split
    · exact okvs_decode_linear _ _ _ _ _ h
    · unfold decodeOpt
      rw [List.zipWith_map, List.zipWith_self]
      refine List.map_congr_left ?_
      intro k _
      unfold cell3
      simp only [getD_xorTables h]
      ac_rfl

/-- **C79**: the three cells of a key are distinct cells of the table (any hash, any size of at
least three cells per bin), and they lie inside the key's own bin. -/
theorem optRow_distinct (H : BinHash) (m : Nat) (h3 : 3 * numBins ≤ m) (k : Nat) :
    (optRow H m k).cols.Nodup ∧
      ∀ c ∈ (optRow H m k).cols, c < m ∧ binOffset m (H.binOf k) ≤ c ∧
        c < binOffset m (H.binOf k) + binSize m (H.binOf k) := by
  obtain ⟨h1, h2⟩ := localIdx_distinct (binSize m (H.binOf k)) (binSize_ge h3 _) (H.loc k)
  have hend := bin_end_le (m := m) (binOf_lt H k)
  simp only [Tri.cols, List.nodup_cons, List.mem_cons, List.not_mem_nil, or_false, not_or,
    not_false_iff, List.nodup_nil, and_true] at h1
  constructor
  · simp only [optRow, Tri.cols, List.nodup_cons, List.mem_cons, List.not_mem_nil, or_false, not_or,
      not_false_iff, List.nodup_nil, and_true]
    omega
  · intro c hc
    simp only [optRow, Tri.cols, List.mem_cons, List.not_mem_nil, or_false] at hc
    have a1 := h2 _ (show (localIdx (binSize m (H.binOf k)) (H.loc k)).1 ∈ _ by simp [Tri.cols])
    have a2 := h2 _ (show (localIdx (binSize m (H.binOf k)) (H.loc k)).2.1 ∈ _ by simp [Tri.cols])
    have a3 := h2 _ (show (localIdx (binSize m (H.binOf k)) (H.loc k)).2.2 ∈ _ by simp [Tri.cols])
    omega

/-! ### Where it fails -/

/-- A bin that neither the binned nor the naive solver can peel stays zero, and no error is raised. -/
theorem bin_core_zero (H : BinHash) (words : Nat → Nat × Nat) (keys : List Nat) (values : List Blk)
    (m : Nat) (h3 : 3 * numBins ≤ m) (order : List Nat) (ho : order.Perm (List.range numBins))
    (k : Nat) (h1 : ¬ Peelable Tri.cols (binRows H (keys.zip values) m (H.binOf k)))
    (h2 : ¬ Peelable Tri.cols (keyRows words ((binItems H (keys.zip values) (H.binOf k)).map (·.1))
      (binSize m (H.binOf k)))) :
    cell3 (solveOpt H words keys values m order) (optRow H m k) = (0, 0) := by
  rw [decode_view h3, (solveOpt_views H words keys values m order ho).2 _ (binOf_lt H k)]
  have hres : binResult H words (keys.zip values) m (H.binOf k)
      = List.replicate (binSize m (H.binOf k)) (0, 0) := by
    unfold binResult binTask
    simp only [view_zero (binOf_lt H k)]
    split
    · exact view_zero (binOf_lt H k)
    · have := solveBin_core (values := (binItems H (keys.zip values) (H.binOf k)).map (·.2))
        (view := List.replicate (binSize m (H.binOf k)) (0, 0)) (goodRows_bin H _ m _ h3) h1
      unfold binRows at this
      simp only [this]
      unfold okvsSolveNative
      rw [solve_not_peelable _ _ _ _ (binSize_ge h3 _) h2]
      exact view_put_same (by simp) (binOf_lt H k) (by simp)
  rw [hres]
  unfold cell3
  simp only [List.getD_eq_getElem?_getD, List.getElem?_replicate]
  split <;> split <;> split <;> rfl

theorem getD_replicate_blk (n i : Nat) (v : Blk) (h : i < n) : (List.replicate n v)[i]? = some v := by
  rw [List.getElem?_replicate, if_pos h]

/-- **C79 is violated when a bin cannot be peeled**: 200000 different keys are encoded without an
error (the fallback for the bin fails silently too), and decoding the very same list returns a wrong
value for every key. -/
theorem okvs_opt_fallback_violated :
    ∃ (E : OkvsEnv) (keys : List Nat) (values st : List Blk) (m : Nat), keys.Nodup ∧
      values.length = keys.length ∧
      fieldSolve E (List.range numBins) keys values m = .ok st ∧
      ∀ (i k : Nat) (v : Blk), keys[i]? = some k → values[i]? = some v → (fieldDecode E keys st m)[i]? ≠ some v := by
  let E : OkvsEnv := ⟨true, fun _ => (0, 1), fun _ => (0, 1), ⟨fun _ => 0, fun _ => 0⟩⟩
  let keys := List.range 200000
  let values : List Blk := List.replicate 200000 (1, 0)
  have hlen : keys.length = 200000 := List.length_range
  have hf : naiveFor keys.length 270000 = false := by rw [hlen]; decide
  refine ⟨E, keys, values, solveOpt E.bins E.natWords keys values 270000 (List.range numBins), 270000,
    List.nodup_range, by rw [hlen]; exact List.length_replicate, ?_, ?_⟩
  · simp only [fieldSolve, hf, E]
    rfl
  · intro i k v hk hv
    have hi : i < 200000 := by
      have := (List.getElem?_eq_some_iff.1 hk).1
      rwa [hlen] at this
    have hv1 : v = (1, 0) := by
      rw [show values[i]? = some (1, 0) from getD_replicate_blk _ _ _ hi] at hv
      exact (Option.some.inj hv).symm
    have hdec : fieldDecode E keys (solveOpt E.bins E.natWords keys values 270000 (List.range numBins))
        270000 = decodeOpt E.bins keys
          (solveOpt E.bins E.natWords keys values 270000 (List.range numBins)) 270000 := by
      unfold fieldDecode
      rw [if_neg (by simp [E]), hf]
      rfl
    have hitems : binItems E.bins (keys.zip values) (E.bins.binOf k) = keys.zip values := by
      unfold binItems
      rw [List.filter_eq_self]
      intro p _
      rfl
    have hsub : ∀ {β : Type} (f : Nat × Blk → β), [f (0, (1, 0)), f (1, (1, 0))].Sublist
        ((keys.zip values).map f) := by
      intro β f
      have hz : [((0, (1, 0)) : Nat × Blk), (1, (1, 0))].Sublist (keys.zip values) := by
        have e1 : keys = 0 :: 1 :: (List.range 199998).map (· + 2) := by
          show List.range (199998 + 2) = _
          rw [List.range_succ_eq_map, List.range_succ_eq_map]
          simp
        have e2 : values = (1, 0) :: (1, 0) :: List.replicate 199998 (1, 0) := by
          show List.replicate (199998 + 2) _ = _
          rw [List.replicate_succ, List.replicate_succ]
        rw [e1, e2, List.zip_cons_cons, List.zip_cons_cons]
        exact ((List.nil_sublist _).cons_cons _).cons_cons _
      exact hz.map f
    have hz := bin_core_zero E.bins E.natWords keys values 270000 (by decide) (List.range numBins)
      (List.Perm.refl _) k
      (by
        intro hp
        unfold binRows at hp
        rw [hitems] at hp
        exact peelable_dup hp _ _ (by rfl) (hsub _))
      (by
        intro hp
        unfold keyRows at hp
        rw [hitems, List.map_map] at hp
        exact peelable_dup hp _ _ (by rfl) (hsub _))
    rw [hdec, decodeOpt, List.getElem?_map, hk, Option.map_some, hz, hv1]
    intro h
    cases h

/-- Rows that each own a private cell can be peeled. -/
theorem peelable_of_private {α : Type} {cols : α → List Nat} : ∀ {l : List α}, l.Nodup →
    (∀ t ∈ l, ∃ c ∈ cols t, ∀ u ∈ l, u ≠ t → c ∉ cols u) → Peelable cols l := by
  intro l
  induction l with
  | nil => intro _ _; exact .nil
  | cons t l ih =>
    intro hnd h
    rw [List.nodup_cons] at hnd
    obtain ⟨c, hc, hp⟩ := h t (by simp)
    refine .step [] l t c hc ?_ (ih hnd.2 ?_)
    · intro u hu
      exact hp u (by simp at hu; simp [hu]) (fun e => hnd.1 (e ▸ by simpa using hu))
    · intro s hs
      obtain ⟨d, hd, hq⟩ := h s (by simp [hs])
      exact ⟨d, hd, fun u hu => hq u (by simp [hu])⟩

/-- Environment for the witness below: keys spread over the bins 1 to 1023, naive cells in bin 0. -/
def spreadEnv : OkvsEnv :=
  ⟨true, fun _ => (0, 1), fun _ => (0, 1), ⟨fun k => 1 + k % 1023, fun k => k / 1023⟩⟩

/-- In a bin of `2^20` cells the second and third cell of the first 196 rows are not among the first
196 cells. -/
theorem spread_cells : ∀ j, j < 196 →
    (localIdx (2 ^ 20) j).1 = j ∧ 196 ≤ (localIdx (2 ^ 20) j).2.1 ∧ 196 ≤ (localIdx (2 ^ 20) j).2.2 := by
  decide +kernel

theorem spread_size (b : Nat) : binSize (2 ^ 30) b = 2 ^ 20 := by
  unfold binSize
  rw [if_neg (by show ¬ b < 2 ^ 30 % 1024; omega)]
  rfl

theorem spread_bin (k : Nat) : spreadEnv.bins.binOf k = 1 + k % 1023 := by
  show (1 + k % 1023) % 1024 = _
  omega

theorem spread_offset (b : Nat) : binOffset (2 ^ 30) b = b * 2 ^ 20 := by
  rw [binOffset_eq]
  show b * 1048576 + min b 0 = _
  omega

theorem spread_peelable :
    Peelable Tri.cols ((List.range 200000).map (optRow spreadEnv.bins (2 ^ 30))) := by
  refine Peelable.map (optRow spreadEnv.bins (2 ^ 30)) (peelable_of_private List.nodup_range ?_)
  intro k hk
  rw [List.mem_range] at hk
  obtain ⟨a1, _, _⟩ := spread_cells (k / 1023) (by omega)
  refine ⟨(1 + k % 1023) * 2 ^ 20 + k / 1023, ?_, ?_⟩
  · simp only [optRow, spread_size, spread_bin, spread_offset, Tri.cols, List.mem_cons]
    left
    show _ = (1 + k % 1023) * 2 ^ 20 + (localIdx (2 ^ 20) (k / 1023)).1
    rw [a1]
  · intro u hu hne
    rw [List.mem_range] at hu
    obtain ⟨b1, b2, b3⟩ := spread_cells (u / 1023) (by omega)
    have hd := (localIdx_distinct (2 ^ 20) (by decide) (u / 1023)).2
    have d2 := hd _ (show (localIdx (2 ^ 20) (u / 1023)).2.1 ∈ _ by simp [Tri.cols])
    have d3 := hd _ (show (localIdx (2 ^ 20) (u / 1023)).2.2 ∈ _ by simp [Tri.cols])
    simp only [optRow, spread_size, spread_bin, spread_offset, Tri.cols, List.mem_cons,
      List.not_mem_nil, or_false]
    show ¬ (_ = (1 + u % 1023) * 2 ^ 20 + (localIdx (2 ^ 20) (u / 1023)).1 ∨
      _ = (1 + u % 1023) * 2 ^ 20 + (localIdx (2 ^ 20) (u / 1023)).2.1 ∨
      _ = (1 + u % 1023) * 2 ^ 20 + (localIdx (2 ^ 20) (u / 1023)).2.2)
    rw [b1]
    have e : (2 : Nat) ^ 20 = 1048576 := by decide
    generalize (localIdx (2 ^ 20) (u / 1023)).2.1 = x2 at *
    generalize (localIdx (2 ^ 20) (u / 1023)).2.2 = x3 at *
    have q1 : k / 1023 < 196 := by omega
    have q2 : u / 1023 < 196 := by omega
    have q3 : ¬ (k / 1023 = u / 1023 ∧ k % 1023 = u % 1023) := by omega
    rw [e] at d2 d3 ⊢
    clear a1 b1 hd hne e
    generalize k / 1023 = kq at *
    generalize k % 1023 = kr at *
    generalize u / 1023 = uq at *
    generalize u % 1023 = ur at *
    clear hk hu
    rcases Nat.lt_trichotomy kr ur with h | h | h <;> omega

/-- **C79 is violated for queries that are fewer than the encoded keys**: 200000 keys are encoded
properly (every key decodes to its value when all are decoded together), but decoding one of the keys
alone uses the other kernel's cells and returns a wrong value. -/
theorem okvs_opt_subset_violated :
    ∃ (E : OkvsEnv) (keys : List Nat) (values st : List Blk) (m k : Nat) (v : Blk), keys.Nodup ∧
      values.length = keys.length ∧
      fieldSolve E (List.range numBins) keys values m = .ok st ∧
      fieldDecode E keys st m = values ∧
      keys[0]? = some k ∧ values[0]? = some v ∧ fieldDecode E [k] st m ≠ [v] := by
  have hlen : (List.range 200000).length = 200000 := List.length_range
  have hf : naiveFor (List.range 200000).length (2 ^ 30) = false := by rw [hlen]; decide
  have hrow : ∀ k, fieldRow spreadEnv (List.range 200000).length (2 ^ 30) k
      = optRow spreadEnv.bins (2 ^ 30) k := by
    intro k
    unfold fieldRow
    rw [hf, if_neg (by simp [spreadEnv])]
    rfl
  have hvl : (List.replicate 200000 ((1, 0) : Blk)).length = (List.range 200000).length := by
    rw [List.length_replicate, List.length_range]
  obtain ⟨st, h1, h2, h3⟩ := okvs_opt_decodes_partial spreadEnv (List.range numBins) (List.Perm.refl _)
    (List.range 200000) (List.replicate 200000 (1, 0)) (2 ^ 30) (by decide) hvl (by
      have : fieldRow spreadEnv (List.range 200000).length (2 ^ 30)
          = optRow spreadEnv.bins (2 ^ 30) := funext hrow
      rw [this]
      exact spread_peelable)
  obtain ⟨hl, hdec⟩ := h3 (List.range 200000) (.inr rfl)
  refine ⟨spreadEnv, List.range 200000, List.replicate 200000 (1, 0), st, 2 ^ 30, 0, (1, 0),
    List.nodup_range, hvl, h1, ?_, ?_, ?_, ?_⟩
  · apply List.ext_getElem?
    intro i
    by_cases hi : i < 200000
    · rw [hdec i i i (1, 0) (by rw [List.getElem?_range hi]) (getD_replicate_blk _ _ _ hi)
        (by rw [List.getElem?_range hi]), getD_replicate_blk _ _ _ hi]
    · rw [List.getElem?_eq_none (by rw [hl, hlen]; omega), List.getElem?_eq_none (by rw [List.length_replicate]; omega)]
  · exact List.getElem?_range (by decide)
  · exact getD_replicate_blk _ _ _ (by decide)
  · have hst : st = solveOpt spreadEnv.bins spreadEnv.natWords (List.range 200000)
        (List.replicate 200000 (1, 0)) (2 ^ 30) (List.range numBins) := by
      unfold fieldSolve at h1
      rw [hf, if_neg (by simp [spreadEnv])] at h1
      simp only [Bool.false_eq_true, if_false] at h1
      exact (Except.ok.inj h1).symm
    have hview := (solveOpt_views spreadEnv.bins spreadEnv.natWords (List.range 200000)
      (List.replicate 200000 (1, 0)) (2 ^ 30) (List.range numBins) (List.Perm.refl _)).2 0 (by decide)
    rw [← hst] at hview
    have hempty : binItems spreadEnv.bins ((List.range 200000).zip (List.replicate 200000 ((1, 0) : Blk))) 0
        = [] := by
      unfold binItems
      rw [List.filter_eq_nil_iff]
      intro p _
      rw [spread_bin]
      simp
    have hres : binResult spreadEnv.bins spreadEnv.natWords
        ((List.range 200000).zip (List.replicate 200000 ((1, 0) : Blk))) (2 ^ 30) 0
        = List.replicate (2 ^ 20) (0, 0) := by
      unfold binResult binTask
      simp only [hempty, List.isEmpty_nil, if_true]
      rw [view_zero (by decide), spread_size]
    rw [hres] at hview
    have hcell : ∀ c, c < 2 ^ 20 → st.getD c (0, 0) = (0, 0) := by
      intro c hc
      have := view_cell (m := 2 ^ 30) (b := 0) (t := st) c (by rw [spread_size]; exact hc)
      rw [hview] at this
      rw [show binOffset (2 ^ 30) 0 + c = c by simp [binOffset]] at this
      rw [this, List.getD_eq_getElem?_getD, List.getElem?_replicate]
      split <;> rfl
    have hq : naiveFor [0].length (2 ^ 30) = true := by decide
    unfold fieldDecode
    rw [if_neg (by simp [spreadEnv]), hq]
    simp only [if_true, okvsDecode, List.map_cons, List.map_nil]
    have hi : indices (2 ^ 30) (spreadEnv.natWords 0) = (0, 1, 2) := by decide +kernel
    rw [hi]
    unfold cell3
    simp only
    rw [hcell 0 (by decide), hcell 1 (by decide), hcell 2 (by decide)]
    decide

/-- The hypotheses of `okvs_opt_decodes_partial` are met by 200000 keys spread over the bins. -/
example : Peelable Tri.cols ((List.range 200000).map
    (fieldRow spreadEnv (List.range 200000).length (2 ^ 30))) := by
  have : fieldRow spreadEnv (List.range 200000).length (2 ^ 30) = optRow spreadEnv.bins (2 ^ 30) := by
    funext k
    unfold fieldRow
    rw [show naiveFor (List.range 200000).length (2 ^ 30) = false by rw [List.length_range]; decide,
      if_neg (by simp [spreadEnv])]
    rfl
  rw [this]
  exact spread_peelable

/-- **C41**: a table without cells raises a division error for any key. -/
theorem okvs_empty_table (words : Nat → Nat × Nat) (keys : List Nat) (values : List Blk)
    (h : keys ≠ []) : okvsSolve words keys values 0 = .error .zeroDiv := by
  unfold okvsSolve
  rw [if_pos ⟨rfl, h⟩]

end Verif.Kern
