import Verif.Table.Files
/-!
# C89: tables kept in files
-/
namespace Verif.Table.Files
open Verif.Table (Fmt)

variable {R : Type}

/-! ## Writing and reading back -/

/-- **C89.** A write that succeeds, of a table in memory or of a table read from another file, leaves exactly its
rows in the file, in the requested format, where a read finds them; no other file changes.  (Missing: a table read
lazily from the very file that is written, `write_back_destroys_violated`.) -/
theorem write_read_back_partial (k : Ahead) (d : Disk R) (v : Val R) (path : String) (fmt : Fmt)
    (hne : ∀ p f, v = .file p f → p ≠ path) (rows : List R) (hv : rowsOf d v = some rows)
    (hok : (writeVal k d v path fmt).2 = true) :
    rowsOf (writeVal k d v path fmt).1 (.file path fmt) = some rows ∧
      ∀ q, q ≠ path → (writeVal k d v path fmt).1 q = d q := by
  have main : writeVal k d v path fmt = finish d path fmt (some rows) := by
    cases v with
    | table r =>
      simp only [rowsOf, Option.some.injEq] at hv
      subst hv
      rfl
    | file p f =>
      have hp := hne p f rfl
      simp only [rowsOf] at hv
      have hb : (p == path) = false := by simp [hp]
      simp only [writeVal, hv, streamed, hb, true_or, if_true]
  rw [main] at hok ⊢
  unfold finish at hok ⊢
  simp only at hok ⊢
  by_cases hj : fmt = .json ∧ rows = []
  · rw [if_pos hj] at hok; simp at hok
  · simp only [if_neg hj]
    refine ⟨?_, ?_⟩
    · simp [rowsOf, openRows]
    · intro q hq
      rw [Function.update_of_ne hq]

/-- **C89.** When a write of such a value succeeds: always, except that JSON refuses a table without rows, and a lazily
read table must still be readable. -/
theorem write_succeeds_iff (k : Ahead) (d : Disk R) (v : Val R) (path : String) (fmt : Fmt)
    (hne : ∀ p f, v = .file p f → p ≠ path) :
    (writeVal k d v path fmt).2 = true ↔ ∃ rows, rowsOf d v = some rows ∧ ¬ (fmt = .json ∧ rows = []) := by
  have fin : ∀ rows, (finish d path fmt (some rows)).2 = true ↔ ¬ (fmt = .json ∧ rows = []) := by
    intro rows
    unfold finish
    by_cases hj : fmt = .json ∧ rows = []
    · simp [hj]
    · simp [hj]
  cases v with
  | table r =>
    rw [show writeVal k d (.table r) path fmt = finish d path fmt (some r) from rfl, fin]
    simp [rowsOf]
  | file p f =>
    have hp := hne p f rfl
    have hb : (p == path) = false := by simp [hp]
    cases ho : openRows d p f with
    | none => simp [writeVal, ho, rowsOf]
    | some rows =>
      have hs : streamed k (p == path) fmt f rows = some rows := by
        simp only [streamed, hb, true_or, if_true]
      simp only [writeVal, ho, hs, fin, rowsOf, Option.some.injEq, exists_eq_left']

/-- **C89.** A write touches no file but its target, whatever happens. -/
theorem write_frame (k : Ahead) (d : Disk R) (v : Val R) (path : String) (fmt : Fmt) (q : String) (hq : q ≠ path) :
    (writeVal k d v path fmt).1 q = d q := by
  have fin : ∀ o, (finish d path fmt o).1 q = d q := by
    intro o
    unfold finish
    cases o with
    | none => simp [Function.update_of_ne hq]
    | some rows =>
      by_cases hj : fmt = .json ∧ rows = []
      · simp [hj]
      · simp [hj, Function.update_of_ne hq]
  cases v with
  | table r => exact fin _
  | file p f =>
    simp only [writeVal]
    split
    · rfl
    · exact fin _

/-- a disk with two files -/
def toyDisk : Disk Nat := fun p =>
  if p = "a.parquet" then some (.parquet, [1, 2, 3]) else if p = "b.csv" then some (.csv, [4, 5, 6]) else none

example : rowsOf toyDisk (.file "b.csv" .csv) = some [4, 5, 6] ∧
    (writeVal 0 toyDisk (.file "b.csv" .csv) "c" .parquet).2 = true ∧
    rowsOf (writeVal 0 toyDisk (.file "b.csv" .csv) "c" .parquet).1 (.file "c" .parquet) = some [4, 5, 6] := by
  decide

/-- **C89 does not hold for a table written back to the file it is read from**: writing the writer's target empties
the file before its rows are read.  Parquet: the write fails and the file is deleted, for every non-empty table; CSV:
the write succeeds and keeps only what had been read ahead (table_impl.py:889-943). -/
theorem write_back_destroys_violated (k : Ahead) (d : Disk R) (path : String) (rows : List R) (fmt : Fmt)
    (hf : fmt ≠ .json) :
    (d path = some (.parquet, rows) → rows ≠ [] →
      (writeVal k d (.file path .parquet) path fmt).2 = false ∧
      (writeVal k d (.file path .parquet) path fmt).1 path = none) ∧
    (d path = some (.csv, rows) →
      (writeVal k d (.file path .csv) path fmt).2 = true ∧
      (writeVal k d (.file path .csv) path fmt).1 path = some (fmt, rows.take k)) := by
  refine ⟨?_, ?_⟩
  · intro h hne
    have ho : openRows d path .parquet = some rows := by simp [openRows, h]
    simp [writeVal, ho, streamed, hf, hne, finish]
  · intro h
    have ho : openRows d path .csv = some rows := by simp [openRows, h]
    simp [writeVal, ho, streamed, hf, finish]

example : (writeVal 1 toyDisk (.file "a.parquet" .parquet) "a.parquet" .parquet).1 "a.parquet" = none ∧
    (writeVal 1 toyDisk (.file "b.csv" .csv) "b.csv" .csv).1 "b.csv" = some (.csv, [4]) := by decide

/-- JSON files survive being written back: the file is read on opening. -/
theorem write_back_json (k : Ahead) (d : Disk R) (path : String) (rows : List R) (fmt : Fmt) (hne : rows ≠ [])
    (h : d path = some (.json, rows)) :
    writeVal k d (.file path .json) path fmt = (Function.update d path (some (fmt, rows)), true) := by
  have ho : openRows d path .json = some rows := by simp [openRows, h]
  have hs : streamed k (path == path) fmt .json rows = some rows := by
    unfold streamed
    split <;> rfl
  unfold writeVal
  simp only [ho]
  simp only [hs]
  simp [finish, hne]

/-! ## Values over time -/

theorem step_vals (w : World R) (op : Op R) (v : Nat) (x : Val R) (h : w.vals[v]? = some x) :
    (step w op).vals[v]? = some x ∨ ∃ rows, rowsOf w.disk x = some rows ∧ (step w op).vals[v]? = some (.table rows) := by
  have hlt : v < w.vals.length := by
    by_contra hc
    rw [List.getElem?_eq_none (by omega)] at h
    cases h
  cases op with
  | const rows => left; simp [step, List.getElem?_append_left hlt, h]
  | read p f =>
    left
    simp only [step]
    split
    · simp [List.getElem?_append_left hlt, h]
    · exact h
  | data u =>
    simp only [step]
    split
    · left; exact h
    · rename_i rows hr
      by_cases huv : u = v
      · subst huv
        right
        rw [h] at hr
        refine ⟨rows, by simpa using hr, ?_⟩
        simp [List.getElem?_set_self hlt]
      · left
        simp [List.getElem?_set_ne huv, h]
  | write u p f k =>
    left
    simp only [step]
    split <;> exact h

theorem step_disk (w : World R) (op : Op R) (q : String) (h : op.target ≠ some q) : (step w op).disk q = w.disk q := by
  cases op with
  | const rows => rfl
  | read p f => simp only [step]; split <;> rfl
  | data v => simp only [step]; split <;> rfl
  | write v p f k =>
    have hp : q ≠ p := by
      rintro rfl
      exact h rfl
    simp only [step]
    split
    · rfl
    · exact write_frame _ _ _ _ _ _ hp

theorem rowsOf_stable (d d' : Disk R) (x : Val R) (h : ∀ p f, x = .file p f → d' p = d p) : rowsOf d' x = rowsOf d x := by
  cases x with
  | table _ => rfl
  | file p f => simp [rowsOf, openRows, h p f rfl]

/-- **C89.** A table value keeps its rows through every history in which nobody writes the file it was read from, and, once
it is in memory, through every history. -/
theorem value_stable_partial (ops : List (Op R)) (w : World R) (v : Nat) (x : Val R) (rows : List R)
    (hx : w.vals[v]? = some x) (hr : rowsOf w.disk x = some rows)
    (hw : ∀ p f, x = .file p f → ∀ op ∈ ops, op.target ≠ some p) :
    (runOps w ops).show v = some rows := by
  induction ops generalizing w x with
  | nil => simp [runOps, World.show, hx, hr]
  | cons op ops ih =>
    have hd : rowsOf (step w op).disk x = some rows := by
      rw [rowsOf_stable w.disk (step w op).disk x ?_, hr]
      intro p f e
      exact step_disk w op p (hw p f e op (by simp))
    rcases step_vals w op v x hx with h | ⟨r, h1, h2⟩
    · exact ih (step w op) x h hd (fun p f e o ho => hw p f e o (by simp [ho]))
    · rw [hr] at h1
      cases h1
      exact ih (step w op) (.table rows) h2 rfl (fun p f e => by cases e)

/-- the demonstration world: one file, one value read from it -/
def toyWorld : World Nat := ⟨toyDisk, [.file "a.parquet" .parquet, .table [7]]⟩

example : toyWorld.vals[0]? = some (.file "a.parquet" .parquet) ∧ rowsOf toyWorld.disk (.file "a.parquet" .parquet) = some [1, 2, 3] ∧
    (runOps toyWorld [.write 1 "c" .csv 0, .data 1, .write 0 "c" .parquet 0]).show 0 = some [1, 2, 3] := by
  decide

/-- **C89 does not hold for lazily read tables**: a table obtained from `read` changes when another table is written to
that path afterwards, and an explicit materialisation in between makes the difference. -/
theorem lazy_value_changes_violated :
    toyWorld.show 0 = some [1, 2, 3] ∧
    (runOps toyWorld [.write 1 "a.parquet" .parquet 0]).show 0 = some [7] ∧
    (runOps toyWorld [.data 0, .write 1 "a.parquet" .parquet 0]).show 0 = some [1, 2, 3] ∧
    (runOps toyWorld [.write 1 "a.parquet" .csv 0]).show 0 = none := by
  decide

/-! ## Formats -/

/-- **C89.** With the same format hint at both ends the reader uses the format the writer used. -/
theorem same_hint_roundtrip (k : Ahead) (d : Disk R) (rows : List R) (path : String) (h : Hint)
    (hok : (writeVal k d (.table rows) path (inferFormat path.toList h)).2 = true) :
    rowsOf (writeVal k d (.table rows) path (inferFormat path.toList h)).1 (.file path (inferFormat path.toList h)) = some rows :=
  (write_read_back_partial k d (.table rows) path _ (fun _ _ e => by cases e) rows rfl hok).1

example : inferFormat "data.CSV".toList .auto = .csv ∧ inferFormat "x.jsonl".toList .auto = .json ∧
    inferFormat "x.pq".toList .auto = .parquet ∧ inferFormat "noext".toList .auto = .parquet ∧
    inferFormat "x.csv".toList (.fmt .json) = .json := by decide +kernel

/-- **C89 does not hold with the default formats**: `write` defaults to Parquet whatever the extension, `read` goes by the
extension, so a table written to a `.csv` path with the defaults cannot be read back with the defaults. -/
theorem default_formats_violated (k : Ahead) (d : Disk R) (rows : List R) :
    let w := writeVal k d (.table rows) "t.csv" (inferFormat "t.csv".toList writeDefault)
    w.2 = true ∧ rowsOf w.1 (.file "t.csv" (inferFormat "t.csv".toList readDefault)) = none := by
  have e1 : inferFormat "t.csv".toList writeDefault = .parquet := rfl
  have e2 : inferFormat "t.csv".toList readDefault = .csv := by decide +kernel
  simp only [e1, e2]
  simp [writeVal, finish, rowsOf, openRows]

/-! ## Names in SQL -/

theorem scan_escaped (s rest : List Char) (hr : rest.head? ≠ some '"') :
    scanQuoted ((s.flatMap fun c => if c = '"' then ['"', '"'] else [c]) ++ '"' :: rest) = some (s, rest) := by
  induction s with
  | nil =>
    cases rest with
    | nil => rfl
    | cons c r =>
      have hc : c ≠ '"' := by
        rintro rfl
        exact hr rfl
      simp only [List.flatMap_nil, List.nil_append]
      unfold scanQuoted
      split
      · rename_i heq
        simp only [List.cons.injEq] at heq
        exact absurd heq.2.1 hc
      · rename_i heq
        simp only [List.cons.injEq, true_and] at heq
        rw [heq]
      · rename_i h1 h2 heq
        simp only [List.cons.injEq] at heq
        exact absurd heq.1.symm (by intro e; subst e; simp_all)
      · rename_i heq
        cases heq
  | cons c s ih =>
    simp only [List.flatMap_cons, List.append_assoc]
    by_cases hc : c = '"'
    · subst hc
      simp only [if_true, List.cons_append, List.nil_append]
      rw [scanQuoted, ih]
      rfl
    · simp only [if_neg hc, List.cons_append, List.nil_append]
      rw [scanQuoted.eq_def]
      split
      · rename_i heq
        simp only [List.cons.injEq] at heq
        exact absurd heq.1 hc
      · rename_i heq
        simp only [List.cons.injEq] at heq
        exact absurd heq.1 hc
      · rename_i heq
        simp only [List.cons.injEq] at heq
        rw [← heq.1, ← heq.2, ih]
        rfl
      · rename_i heq
        cases heq

/-- **C89, no injection through column names.** Whatever characters a column name contains, SQL reads the quoted name back as
exactly that name, and the text after it is untouched (it cannot begin with a quote, as in every projection built here). -/
theorem quoted_name_read (s rest : List Char) (hr : rest.head? ≠ some '"') :
    readIdent (quoteIdent s ++ rest) = some (s, rest) := by
  have h := scan_escaped s rest hr
  simp only [quoteIdent, List.cons_append, List.append_assoc, List.nil_append]
  exact h

example : readIdent (quoteIdent "a\" AS x, 1 --".toList ++ " AS BIGINT".toList) =
    some ("a\" AS x, 1 --".toList, " AS BIGINT".toList) := by decide +kernel

/-- **C89.** Different names are quoted differently. -/
theorem quote_injective (s t : List Char) (h : quoteIdent s = quoteIdent t) : s = t := by
  have h1 := quoted_name_read s [] (by simp)
  have h2 := quoted_name_read t [] (by simp)
  rw [List.append_nil] at h1 h2
  rw [h, h2] at h1
  simpa using h1.symm

/-! ## The two ways to use a file -/

/-- **C89.** SQL over a file with a declared schema selects exactly the declared columns in the declared order, the same as
opening the file does, provided no column is `f16`; a file that lacks a declared column is refused by both. -/
theorem sql_and_open_agree_partial (fileCols : List (List Char)) (schema : List (List Char × CTy))
    (h16 : ∀ p ∈ schema, p.2 ≠ .f16) :
    (projections fileCols schema).map (List.map Prod.fst) = (openCols fileCols schema).map (List.map quoteIdent) := by
  induction schema with
  | nil => simp [projections, openCols]
  | cons p rest ih =>
    obtain ⟨n, t⟩ := p
    have ih := ih (fun q hq => h16 q (by simp [hq]))
    have ht : ∃ s, duckdbName t = some s := by
      have := h16 (n, t) (by simp)
      cases t <;> first | exact ⟨_, rfl⟩ | exact absurd rfl this
    obtain ⟨s, hs⟩ := ht
    unfold projections
    by_cases hn : n ∈ fileCols
    · rw [if_pos hn, hs]
      simp only
      unfold openCols at ih ⊢
      simp only [List.all_cons, hn, decide_true, Bool.true_and, List.map_cons]
      cases hp : projections fileCols rest with
      | none =>
        rw [hp] at ih
        split at ih
        · simp at ih
        · rename_i hf
          simp [hf]
      | some r =>
        rw [hp] at ih
        split at ih
        · rename_i hf
          simp only [hf, if_true, Option.map_some, List.map_cons, Option.some.injEq, List.cons.injEq, true_and] at ih ⊢
          exact ih
        · simp at ih
    · rw [if_neg hn]
      simp [openCols, hn]

/-- **C89 does not hold for `f16` columns**: the file opens, but no SQL query can use it. -/
theorem sql_f16_violated (n : List Char) :
    openCols [n] [(n, .f16)] = some [n] ∧ projections [n] [(n, .f16)] = none := by
  simp [openCols, projections, duckdbName]

/-- different column types have different SQL types -/
theorem duckdb_names_distinct (s t : CTy) (x : String) (h1 : duckdbName s = some x) (h2 : duckdbName t = some x) : s = t := by
  revert h1 h2
  cases s <;> cases t <;> simp only [duckdbName, Option.some.injEq, reduceCtorEq, false_implies, implies_true, forall_const] <;>
    (intro h1 h2; rw [← h2] at h1; revert h1; decide)

/-! ## The type rule of `write` -/

theorem writeAe_iff (ts : List Schema) (acc s : Schema) (hacc : acc.Nodup) (hts : ∀ t ∈ ts, t.Nodup) :
    writeAe ts acc = some s ↔ (acc ++ ts.flatten).Nodup ∧ s = acc ++ ts.flatten := by
  induction ts generalizing acc with
  | nil =>
    simp only [writeAe, List.flatten_nil, List.append_nil, Option.some.injEq, hacc, true_and]
    exact eq_comm
  | cons t ts ih =>
    unfold writeAe
    by_cases hc : t.any fun c => decide (c ∈ acc)
    · rw [if_pos hc]
      simp only [List.any_eq_true, decide_eq_true_eq] at hc
      obtain ⟨c, h1, h2⟩ := hc
      simp only [reduceCtorEq, List.flatten_cons, false_iff, not_and]
      intro hn
      exact absurd rfl ((List.nodup_append.1 hn).2.2 c h2 c (by simp [h1]))
    · rw [if_neg hc]
      have hc' : ∀ c ∈ t, c ∉ acc := by
        intro c h1 h2
        apply hc
        simp only [List.any_eq_true, decide_eq_true_eq]
        exact ⟨c, h1, h2⟩
      rw [ih (acc ++ t) (List.nodup_append.2 ⟨hacc, hts t (by simp), by
        intro a ha b hb e
        subst e
        exact hc' a hb ha⟩) (fun u hu => hts u (by simp [hu]))]
      simp [List.append_assoc]

/-- **C89.** `write` accepts exactly a non-empty list of tables without a common column name; its declared result has all the
columns, in order. -/
theorem write_rule_iff (ts : List Schema) (s : Schema) (hts : ∀ t ∈ ts, t.Nodup) :
    writeRule ts = some s ↔ ts ≠ [] ∧ ts.flatten.Nodup ∧ s = ts.flatten := by
  unfold writeRule
  cases ts with
  | nil => simp
  | cons t ts =>
    rw [if_neg (by simp), writeAe_iff (t :: ts) [] s (by simp) hts]
    simp

example : writeRule [["a", "b"], ["c"]] = some ["a", "b", "c"] ∧ writeRule [["a"], ["a"]] = none ∧ writeRule [] = none := by decide

end Verif.Table.Files
