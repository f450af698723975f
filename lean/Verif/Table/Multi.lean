import Verif.Table.ReaderProps
/-! C58: reading several tables side by side, and writing them (backends/table_impl.py:774-911). -/

namespace Verif.Table

variable {R : Type}

/-- Every reader delivers the given batches. -/
def AllDrain (rs : List (Rd R)) (outs : List (List (List R))) : Prop := List.Forall₂ Drains rs outs

/-- One round of `multiRead` when every reader still has a batch. -/
theorem multiRead_heads (rs : List (Rd R)) (heads : List (List R)) (tails : List (List (List R))) (n : Option Nat)
    (h : List.Forall₂ Drains rs (List.zipWith List.cons heads tails)) (hl : heads.length = tails.length) :
    (∃ rs', multiRead rs n = (.ok heads, rs') ∧ AllDrain rs' tails ∧ rs'.length = rs.length ∧
      (∀ k, n = some k → ∀ b ∈ heads, b.length = k) ∧ (∀ b ∈ heads, ∀ c ∈ heads, b.length = c.length)) ∨
    ((∃ rs', multiRead rs n = (.error .valueError, rs')) ∧
      ((∃ k, n = some k ∧ ∃ b ∈ heads, b.length ≠ k) ∨ ∃ b ∈ heads, ∃ c ∈ heads, b.length ≠ c.length)) := by
  induction heads generalizing rs tails n with
  | nil =>
    simp only [List.zipWith_nil_left] at h
    cases h
    cases tails with
    | nil => left; exact ⟨[], rfl, .nil, rfl, by simp, by simp⟩
    | cons => simp at hl
  | cons b bs ih =>
    cases tails with
    | nil => simp at hl
    | cons t ts =>
      simp only [List.zipWith_cons_cons] at h
      cases h with
      | @cons r _ rs' _ h1 h2 =>
        cases h1 with
        | @step _ r' _ _ hr hd =>
        have hl' : bs.length = ts.length := by simpa using hl
        cases n with
        | none =>
          rcases ih rs' ts (some b.length) h2 hl' with ⟨x, e1, e2, e2', e3, e4⟩ | ⟨⟨x, e1⟩, e2⟩
          · left
            refine ⟨r' :: x, ?_, .cons hd e2, by simp [e2'], by simp, ?_⟩
            · simp [multiRead, hr, e1, Except.map]
            · have hb : ∀ c ∈ b :: bs, c.length = b.length := by
                intro c hc
                rcases List.mem_cons.1 hc with rfl | hc
                · rfl
                · exact e3 _ rfl c hc
              intro c hc d hd'
              rw [hb c hc, hb d hd']
          · right
            refine ⟨⟨r' :: x, by simp [multiRead, hr, e1, Except.map]⟩, .inr ?_⟩
            rcases e2 with ⟨k, hk, c, hc, hne⟩ | ⟨c, hc, d, hd', hne⟩
            · cases hk
              exact ⟨c, by simp [hc], b, by simp, hne⟩
            · exact ⟨c, by simp [hc], d, by simp [hd'], hne⟩
        | some k =>
          by_cases hk : k = b.length
          · rcases ih rs' ts (some k) h2 hl' with ⟨x, e1, e2, e2', e3, e4⟩ | ⟨⟨x, e1⟩, e2⟩
            · left
              have hb : ∀ c ∈ b :: bs, c.length = k := by
                intro c hc
                rcases List.mem_cons.1 hc with rfl | hc
                · exact hk.symm
                · exact e3 _ rfl c hc
              refine ⟨r' :: x, ?_, .cons hd e2, by simp [e2'], ?_, ?_⟩
              · subst hk; simp [multiRead, hr, e1, Except.map]
              · intro k' hk'; cases hk'; exact hb
              · intro c hc d hd'
                rw [hb c hc, hb d hd']
            · right
              refine ⟨⟨r' :: x, by subst hk; simp [multiRead, hr, e1, Except.map]⟩, ?_⟩
              rcases e2 with ⟨k', hk', c, hc, hne⟩ | ⟨c, hc, d, hd', hne⟩
              · cases hk'
                exact .inl ⟨k, rfl, c, by simp [hc], hne⟩
              · exact .inr ⟨c, by simp [hc], d, by simp [hd'], hne⟩
          · right
            refine ⟨⟨r' :: rs', by simp [multiRead, hr, hk]⟩, .inl ⟨k, rfl, b, by simp, fun h => hk h.symm⟩⟩

/-- `MultiTableReader` on readers that all deliver the same number `m` of batches: column `j` of batch `k` is the
`k`-th batch of reader `j`. -/
def columnsOf (outs : List (List (List R))) (m : Nat) : List (List (List R)) :=
  (List.range m).map fun k => outs.map fun o => o.getD k []

theorem multi_same_count (m : Nat) (rs : List (Rd R)) (outs : List (List (List R))) (hne : rs ≠ [])
    (h : AllDrain rs outs) (hm : ∀ o ∈ outs, o.length = m) :
    MDrains rs (columnsOf outs m) none ∨ ∃ got, MDrains rs got (some .valueError) := by
  induction m generalizing rs outs with
  | zero =>
    left
    cases h with
    | nil => exact absurd rfl hne
    | @cons r o rs' os h1 h2 =>
      have ho : o = [] := List.length_eq_zero_iff.1 (hm o (by simp))
      subst ho
      cases h1 with
      | @stop _ s' hs =>
        exact .stop (s' := s' :: rs') (by simp [multiRead, hs])
  | succ m ih =>
    have hsplit : outs = List.zipWith List.cons (outs.map fun o => o.getD 0 []) (outs.map List.tail) := by
      clear h hne ih
      induction outs with
      | nil => rfl
      | cons o os ih2 =>
        simp only [List.map_cons, List.zipWith_cons_cons]
        rw [← ih2 (fun x hx => hm x (by simp [hx]))]
        congr 1
        have := hm o (by simp)
        cases o with
        | nil => simp at this
        | cons a as => rfl
    have h' := h
    unfold AllDrain at h'
    rw [hsplit] at h'
    rcases multiRead_heads rs _ _ none h' (by simp) with ⟨rs', e1, e2, e3, -, -⟩ | ⟨⟨rs', e1⟩, -⟩
    · have hne' : rs' ≠ [] := by
        intro h0
        rw [h0] at e3
        simp at e3
        exact hne (List.length_eq_zero_iff.1 (by omega))
      rcases ih rs' _ hne' e2 (by
        intro o ho
        rw [List.mem_map] at ho
        obtain ⟨o', ho', rfl⟩ := ho
        have := hm o' ho'
        simp
        omega) with hd | ⟨got, hd⟩
      · left
        have : columnsOf outs (m + 1) = (outs.map fun o => o.getD 0 []) :: columnsOf (outs.map List.tail) m := by
          unfold columnsOf
          rw [List.range_succ_eq_map]
          simp only [List.map_cons, List.map_map]
          congr 1
          apply List.map_congr_left
          intro k _
          apply List.map_congr_left
          intro o ho
          simp
        rw [this]
        exact .step e1 hd
      · exact .inr ⟨_, .step e1 hd⟩
    · exact .inr ⟨[], .fail e1 (by simp)⟩

theorem mdrains_unique {s : List (Rd R)} {a b : List (List (List R))} {o p : Option Err} (ha : MDrains s a o)
    (hb : MDrains s b p) : a = b ∧ o = p := by
  induction ha generalizing b p with
  | stop h =>
    cases hb with
    | stop => exact ⟨rfl, rfl⟩
    | fail h' he => rw [h] at h'; cases h'; exact absurd rfl he
    | step h' => rw [h] at h'; cases h'
  | fail h he =>
    cases hb with
    | stop h' => rw [h] at h'; cases h'; exact absurd rfl he
    | fail h' => rw [h] at h'; cases h'; exact ⟨rfl, rfl⟩
    | step h' => rw [h] at h'; cases h'
  | step h _ ih =>
    cases hb with
    | stop h' => rw [h] at h'; cases h'
    | fail h' => rw [h] at h'; cases h'
    | step h' hr =>
      rw [h] at h'
      cases h'
      obtain ⟨e1, e2⟩ := ih hr
      exact ⟨by rw [e1], e2⟩

/-- The rows of table `j` found in the joined output. -/
def columnRows (got : List (List (List R))) (j : Nat) : List R := (got.map fun b => b.getD j []).flatten

/-- **C58 (partial).**  When the readers deliver the same number of batches, joining them either raises `ValueError`
or yields every batch of every table: the rows of table `j` in the output are all the rows reader `j` delivers.
Missing: readers with different numbers of batches, see `multi_drops_rows_violated`. -/
theorem multi_table_partial (m : Nat) (rs : List (Rd R)) (outs : List (List (List R))) (hne : rs ≠ [])
    (h : AllDrain rs outs) (hm : ∀ o ∈ outs, o.length = m) (got : List (List (List R))) (e : Option Err)
    (hg : MDrains rs got e) :
    e = some .valueError ∨
    (e = none ∧ ∀ (j : Nat) (o : List (List R)), outs[j]? = some o → columnRows got j = o.flatten) := by
  rcases multi_same_count m rs outs hne h hm with hd | ⟨g, hd⟩
  · right
    obtain ⟨e1, e2⟩ := mdrains_unique hg hd
    subst e1 e2
    refine ⟨rfl, ?_⟩
    intro j o ho
    unfold columnRows columnsOf
    congr 1
    rw [List.map_map]
    have hol := hm o (List.mem_of_getElem? ho)
    apply List.ext_getElem?
    intro k
    rw [List.getElem?_map]
    by_cases hk : k < m
    · rw [List.getElem?_range hk, List.getElem?_eq_getElem (show k < o.length by omega)]
      simp [List.getD, ho, List.getElem?_eq_getElem (show k < o.length by omega)]
    · rw [List.getElem?_eq_none (by simp; omega), List.getElem?_eq_none (by omega)]
      rfl
  · left
    exact (mdrains_unique hg hd).2

example : MDrains [open' [[1, 2], [3]] (-1), open' [[4, 5], [6]] (-1)] [[[1, 2], [4, 5]], [[3], [6]]] none := by
  rcases multi_same_count 2 [open' [[1, 2], [3]] (-1), open' [[4, 5], [6]] (-1)] [[[1, 2], [3]], [[4, 5], [6]]] (by simp)
    (.cons (table_reader_native _ _ (by decide)).1 (.cons (table_reader_native _ _ (by decide)).1 .nil)) (by simp) with h | h
  · exact h
  · refine .step (s' := [open' [[3]] (-1), open' [[6]] (-1)]) rfl (.step (s' := [open' [] (-1), open' [] (-1)]) rfl
      (.stop (s' := [{ open' [] (-1) with eof := true }, open' [] (-1)]) rfl))

/-- **C58 is violated**: when one table has exactly the rows of its batches and the other one has a further batch,
the further batch is dropped without an error — whichever of the two is listed first. -/
theorem multi_drops_rows_violated (a b : List R) (hab : a.length = b.length) (extra : List R) :
    MDrains [open' [a] (-1), open' [b, extra] (-1)] [[a, b]] none ∧
    MDrains [open' [b, extra] (-1), open' [a] (-1)] [[b, a]] none := by
  constructor
  · refine .step (s' := [open' [] (-1), open' [extra] (-1)]) ?_
      (.stop (s' := [{ open' [] (-1) with eof := true }, open' [extra] (-1)]) rfl)
    simp [multiRead, readNext, readInner, open', hab, Except.map]
  · refine .step (s' := [open' [extra] (-1), open' [] (-1)]) ?_
      (.stop (s' := [open' [] (-1), { open' [] (-1) with eof := true }]) rfl)
    simp [multiRead, readNext, readInner, open', hab, Except.map]

/-! ### Writing (backends/table_impl.py:814-911) -/

/-- Output formats (backends/table_impl.py:873-881). -/
inductive Fmt where
  | parquet | csv | json
  deriving DecidableEq, Repr

/-- The target file after `_do_write`: `none` when it does not exist.  `parquet` and `csv` writers put each batch in
the file as it comes; the JSON writer keeps the batches and writes the file in `close` (backends/table_impl.py:856-868);
on an exception the file is removed *before* `close` runs (backends/table_impl.py:888-896).  Closing a Parquet or CSV
writer whose file was removed does not create it again.  `before` is what was at the path.  Simplification: closing the
JSON writer without a batch raises in `pa.Table.from_batches([])` and leaves no new file. -/
def fileAfter (fmt : Fmt) (before : Option (List (List (List R)))) (got : List (List (List R))) (e : Option Err) :
    Option (List (List (List R))) :=
  match fmt, e with
  | .json, none => if got = [] then before else some got
  | .json, some _ => if got = [] then none else some got
  | _, none => some got
  | _, some _ => none

/-- **Failed writes (partial).**  A Parquet or CSV write that fails leaves no file; one that succeeds holds exactly the
batches read. -/
theorem failed_write_partial (fmt : Fmt) (hf : fmt ≠ .json) (before : Option (List (List (List R))))
    (rs : List (Rd R)) (got : List (List (List R))) (e : Option Err) (_h : MDrains rs got e) :
    (e ≠ none → fileAfter fmt before got e = none) ∧ (e = none → fileAfter fmt before got e = some got) := by
  cases fmt with
  | json => exact absurd rfl hf
  | parquet => cases e <;> simp [fileAfter]
  | csv => cases e <;> simp [fileAfter]

/-- **Failed writes (partial, JSON).**  A JSON write that fails before its first batch leaves no file at the path. -/
theorem failed_json_first_partial (before : Option (List (List (List R)))) (rs : List (Rd R)) (e : Err)
    (_h : MDrains rs [] (some e)) : fileAfter .json before [] (some e) = none := rfl

example : MDrains [open' [[1]] (-1), open' [[2, 3]] (-1)] ([] : List (List (List Nat))) (some .valueError) :=
  .fail (s' := [open' [] (-1), open' [] (-1)]) rfl (by simp)

/-- **Violated for JSON**: a write that fails in its second batch leaves a file holding the first batch only. -/
theorem failed_json_write_violated :
    ∃ (rs : List (Rd Nat)) (got : List (List (List Nat))), MDrains rs got (some .valueError) ∧
      fileAfter .json none got (some .valueError) = some [[[1], [2]]] := by
  refine ⟨[open' [[1], [3, 4]] (-1), open' [[2], [5]] (-1)], [[[1], [2]]], ?_, rfl⟩
  exact .step (s' := [open' [[3, 4]] (-1), open' [[5]] (-1)]) rfl
    (.fail (s' := [open' [] (-1), open' [] (-1)]) rfl (by simp))

end Verif.Table
