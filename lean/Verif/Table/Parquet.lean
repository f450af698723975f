/-!
# Reading Parquet files with a declared schema (`ParquetReader`, backends/table_impl.py:274-356, and `FileTableSource.open`, 474-512)

PyArrow's `ParquetFile` is a contract: `iter_batches(columns)` delivers the row groups in order, with the columns that were asked for,
in the order in which they were asked for, leaving out those that the file does not have; `RecordBatch.cast` converts the values of
every column whose type changes with a function `conv` of the value and the two types, which may raise.
-/
namespace Verif.Table.Parquet

variable {T V : Type} [DecidableEq T]

/-- a field of a `pa.Schema` -/
abbrev Field (T : Type) := String × T

/-- a column of a record batch: name, type, values -/
abbrev Col (T V : Type) := String × T × List V

/-- a Parquet file: its schema and its row groups -/
structure File (T V : Type) where
  fields : List (Field T)
  batches : List (List (Col T V))

/-- a file as PyArrow gives it: distinct column names, and every batch has the columns of the schema -/
def File.Ok (f : File T V) : Prop := (f.fields.map Prod.fst).Nodup ∧ ∀ b ∈ f.batches, (b.map fun c => (c.1, c.2.1)) = f.fields

/-- a `ParquetReader` that is open: `_schema`, `_cast`, and the batches `_iter` will deliver -/
structure Reader (T V : Type) where
  schema : List (Field T)
  cast : Bool
  iter : List (List (Col T V))

/-- the first entry with a name -/
def field {X : Type} (n : String) (l : List (String × X)) : Option (String × X) := l.find? fun p => p.1 == n

/-- `ParquetReader.__init__(source, columns)` (table_impl.py:277-299); no columns or an empty list: all columns -/
def mkReader (f : File T V) (columns : List String) : Reader T V :=
  if columns = [] then ⟨f.fields, false, f.batches⟩
  else ⟨columns.filterMap fun n => field n f.fields, false, f.batches.map fun b => columns.filterMap fun n => field n b⟩

/-- the loop of `cast` (table_impl.py:317-331): raises if a name differs, answers whether a type differs -/
def changes : List (Field T) → List (Field T) → Option Bool
  | [], [] => some false
  | t :: ts, c :: cs => if t.1 = c.1 then (changes ts cs).map fun b => decide (t.2 ≠ c.2) || b else none
  | _, _ => none

/-- `ParquetReader.cast` (table_impl.py:308-337) -/
def Reader.castTo (r : Reader T V) (target : List (Field T)) : Option (Reader T V) :=
  if target.length ≠ r.schema.length then none
  else match changes target r.schema with
    | none => none
    | some true => some { r with schema := target, cast := true }
    | some false => some r

/-- `RecordBatch.cast` of one column (contract) -/
def castCol (conv : T → T → V → Option V) (t : T) (c : Col T V) : Option (Col T V) :=
  if c.2.1 = t then some c else (c.2.2.mapM (conv c.2.1 t)).map fun vs => (c.1, t, vs)

/-- `RecordBatch.cast` (contract): the same names in the same order -/
def castBatch (conv : T → T → V → Option V) : List (Field T) → List (Col T V) → Option (List (Col T V))
  | [], [] => some []
  | t :: ts, c :: cs => if t.1 = c.1 then (castCol conv t.2 c).bind fun c' => (castBatch conv ts cs).map fun r => c' :: r else none
  | _, _ => none

/-- `read_next_batch` (table_impl.py:351-356) until the end, as in `read_all` (339-349) -/
def Reader.readAll (conv : T → T → V → Option V) (r : Reader T V) : Option (List (List (Col T V))) :=
  r.iter.mapM fun b => if r.cast then castBatch conv r.schema b else some b

/-- `FileTableSource(path, "parquet", schema).open()` (table_impl.py:474-512); no schema is the empty one -/
def openFile (f : File T V) (schema : List (Field T)) : Option (Reader T V) :=
  let r := mkReader f (schema.map Prod.fst)
  if schema ≠ [] ∧ schema ≠ r.schema then r.castTo schema else some r

/-! ## Specification -/

/-- the batch that the declared schema asks for: its columns in its order, each the file's column of that name converted to the
declared type -/
def Asked (conv : T → T → V → Option V) (schema : List (Field T)) (b : List (Col T V)) : Option (List (Col T V)) :=
  schema.mapM fun p => (field p.1 b).bind (castCol conv p.2)

/-! ## Proofs -/

theorem field_some {X : Type} {n : String} {l : List (String × X)} {p : String × X} (h : field n l = some p) : p.1 = n ∧ p ∈ l := by
  refine ⟨?_, List.mem_of_find?_eq_some h⟩
  have := List.find?_some h
  simpa using this

theorem field_none_iff {X : Type} {n : String} {l : List (String × X)} : field n l = none ↔ n ∉ l.map Prod.fst := by
  simp only [field, List.find?_eq_none, beq_iff_eq, List.mem_map, not_exists, not_and]

/-- looking up names gives entries with these names, as many as there are names, just if all are there -/
theorem lookup_len {X : Type} (l : List (String × X)) : ∀ (ns : List String),
    (ns.filterMap fun n => field n l).length = ns.length ↔ ∀ n ∈ ns, n ∈ l.map Prod.fst
  | [] => by simp
  | n :: ns => by
    have hle : (ns.filterMap fun n => field n l).length ≤ ns.length := List.length_filterMap_le _ _
    have ih := lookup_len l ns
    rw [List.filterMap_cons]
    cases hf : field n l with
    | none =>
      have : n ∉ l.map Prod.fst := field_none_iff.mp hf
      simp only [List.length_cons, List.mem_cons, forall_eq_or_imp, this, false_and, iff_false]
      omega
    | some p =>
      have : n ∈ l.map Prod.fst := by
        have := field_some hf
        rw [← this.1]
        exact List.mem_map_of_mem this.2
      simp only [List.length_cons, List.mem_cons, forall_eq_or_imp, this, true_and, Nat.add_right_cancel_iff]
      exact ih

theorem lookup_names {X : Type} (l : List (String × X)) : ∀ (ns : List String), (∀ n ∈ ns, n ∈ l.map Prod.fst) →
    (ns.filterMap fun n => field n l).map Prod.fst = ns
  | [], _ => rfl
  | n :: ns, h => by
    rw [List.filterMap_cons]
    cases hf : field n l with
    | none => exact absurd (h n List.mem_cons_self) (field_none_iff.mp hf)
    | some p =>
      simp only [List.map_cons, lookup_names l ns (fun m hm => h m (List.mem_cons_of_mem _ hm)), (field_some hf).1]

theorem changes_total : ∀ (t c : List (Field T)), t.map Prod.fst = c.map Prod.fst →
    ∃ b, changes t c = some b ∧ (b = false → t = c)
  | [], [], _ => ⟨false, rfl, fun _ => rfl⟩
  | [], _ :: _, h => by simp at h
  | _ :: _, [], h => by simp at h
  | t :: ts, c :: cs, h => by
    simp only [List.map_cons, List.cons.injEq] at h
    obtain ⟨b, hb, e⟩ := changes_total ts cs h.2
    refine ⟨decide (t.2 ≠ c.2) || b, by simp [changes, h.1, hb], fun hf => ?_⟩
    simp only [Bool.or_eq_false_iff, decide_eq_false_iff_not, ne_eq, Decidable.not_not] at hf
    rw [e hf.2, Prod.ext h.1 hf.1]

theorem changes_false : ∀ (t c : List (Field T)), changes t c = some false → t = c
  | [], [], _ => rfl
  | [], _ :: _, h => by simp [changes] at h
  | _ :: _, [], h => by simp [changes] at h
  | t :: ts, c :: cs, h => by
    simp only [changes] at h
    split at h
    · rename_i hn
      cases hc : changes ts cs with
      | none => rw [hc] at h; simp at h
      | some b =>
        rw [hc] at h
        simp only [Option.map_some, Option.some.injEq, Bool.or_eq_false_iff, decide_eq_false_iff_not, ne_eq, Decidable.not_not] at h
        obtain ⟨h1, rfl⟩ := h
        rw [changes_false ts cs hc, Prod.ext hn h1]
    · simp at h

/-- a batch restricted to the schema's columns and then cast is the batch asked for -/
theorem asked_cast (conv : T → T → V → Option V) (b : List (Col T V)) : ∀ (sch : List (Field T)), (∀ p ∈ sch, p.1 ∈ b.map Prod.fst) →
    castBatch conv sch (sch.filterMap fun p => field p.1 b) = Asked conv sch b
  | [], _ => rfl
  | p :: sch, h => by
    have ih := asked_cast conv b sch (fun q hq => h q (List.mem_cons_of_mem _ hq))
    cases hf : field p.1 b with
    | none => exact absurd (h p List.mem_cons_self) (field_none_iff.mp hf)
    | some c =>
      have hn := (field_some hf).1
      rw [List.filterMap_cons]
      simp only [hf, castBatch, if_pos hn.symm, ih, Asked, List.mapM_cons, Option.bind_some]
      cases castCol conv p.2 c with
      | none => rfl
      | some c' =>
        cases (sch.mapM fun p => (field p.1 b).bind (castCol conv p.2)) with
        | none => rfl
        | some r => rfl

theorem asked_same (conv : T → T → V → Option V) (b : List (Col T V)) : ∀ (sch : List (Field T)),
    (∀ p ∈ sch, ∃ c, field p.1 b = some c ∧ c.2.1 = p.2) → Asked conv sch b = some (sch.filterMap fun p => field p.1 b)
  | [], _ => rfl
  | p :: sch, h => by
    obtain ⟨c, hc, ht⟩ := h p List.mem_cons_self
    have ih := asked_same conv b sch (fun q hq => h q (List.mem_cons_of_mem _ hq))
    rw [List.filterMap_cons]
    simp only [Asked] at ih
    simp only [Asked, List.mapM_cons, hc, Option.bind_some, castCol, ht, if_true, ih]
    rfl

/-- the types of a batch's columns are those of the file -/
theorem field_batch {f : File T V} (h : f.Ok) {b : List (Col T V)} (hb : b ∈ f.batches) (n : String) :
    (field n b).map (fun c => (c.1, c.2.1)) = field n f.fields := by
  rw [← h.2 b hb, field, field, List.find?_map]
  rfl

theorem names_batch {f : File T V} (h : f.Ok) {b : List (Col T V)} (hb : b ∈ f.batches) : b.map Prod.fst = f.fields.map Prod.fst := by
  rw [← h.2 b hb, List.map_map]; rfl

theorem names_mem {f : File T V} {sch : List (Field T)} : (∀ n ∈ sch.map Prod.fst, n ∈ f.fields.map Prod.fst) ↔
    ∀ p ∈ sch, p.1 ∈ f.fields.map Prod.fst := by
  constructor
  · intro h p hp; exact h _ (List.mem_map_of_mem hp)
  · intro h n hn
    obtain ⟨p, hp, rfl⟩ := List.mem_map.mp hn
    exact h p hp

/-! ## Properties -/

/-- **C89**: A Parquet file opens with a declared schema just if it has all the declared columns (whatever else it has, and in whatever
order), and the reader then has the declared schema. -/
theorem parquet_open (f : File T V) (sch : List (Field T)) (hs : sch ≠ []) :
    ((∃ r, openFile f sch = some r) ↔ ∀ p ∈ sch, p.1 ∈ f.fields.map Prod.fst) ∧ ∀ r, openFile f sch = some r → r.schema = sch := by
  have hne : sch.map Prod.fst ≠ [] := by simpa using hs
  have hr : (mkReader f (sch.map Prod.fst)).schema = (sch.map Prod.fst).filterMap fun n => field n f.fields := by
    simp only [mkReader, if_neg hne]
  constructor
  · constructor
    · rintro ⟨r, h⟩
      rw [← names_mem, ← lookup_len]
      simp only [openFile] at h
      split at h
      · rename_i hc
        simp only [Reader.castTo] at h
        split at h
        · cases h
        · rename_i hl
          rw [hr] at hl
          simp only [ne_eq, Decidable.not_not] at hl
          rw [← hl, List.length_map]
      · rename_i hc
        simp only [hs, ne_eq, not_false_eq_true, true_and, Decidable.not_not] at hc
        rw [← hr, ← hc, List.length_map]
    · intro h
      have hn := lookup_names f.fields (sch.map Prod.fst) (names_mem.mpr h)
      rw [← hr] at hn
      obtain ⟨b, hb, _⟩ := changes_total sch (mkReader f (sch.map Prod.fst)).schema hn.symm
      have hlen : sch.length = (mkReader f (sch.map Prod.fst)).schema.length := by
        have := congrArg List.length hn
        simpa using this.symm
      simp only [openFile]
      split
      · simp only [Reader.castTo, hlen, ne_eq, not_true_eq_false, if_false, hb]
        cases b <;> exact ⟨_, rfl⟩
      · exact ⟨_, rfl⟩
  · intro r h
    simp only [openFile] at h
    split at h
    · rename_i hc
      simp only [Reader.castTo] at h
      split at h
      · cases h
      · split at h
        · cases h
        · cases h; rfl
        · rename_i hch
          cases h
          exact (changes_false _ _ hch).symm
    · rename_i hc
      cases h
      simp only [hs, ne_eq, not_false_eq_true, true_and, Decidable.not_not] at hc
      exact hc.symm

/-- **C89**: Reading a Parquet file with a declared schema gives, for every row group in order, exactly the declared columns in the
declared order: the file's column of that name, converted to the declared type where the file's type differs, and unchanged where it
does not.  Without a schema everything is delivered unchanged. -/
theorem parquet_read (conv : T → T → V → Option V) (f : File T V) (h : f.Ok) (sch : List (Field T)) :
    (sch ≠ [] → (∀ p ∈ sch, p.1 ∈ f.fields.map Prod.fst) →
      (openFile f sch).bind (Reader.readAll conv) = f.batches.mapM (Asked conv sch)) ∧
    (openFile f []).bind (Reader.readAll conv) = some f.batches := by
  have mapM_congr : ∀ {X Y : Type} (l : List X) (g g' : X → Option Y), (∀ x ∈ l, g x = g' x) → l.mapM g = l.mapM g' := by
    intro X Y l g g' hg
    induction l with
    | nil => rfl
    | cons x l ih =>
      rw [List.mapM_cons, List.mapM_cons, hg x List.mem_cons_self, ih fun y hy => hg y (List.mem_cons_of_mem _ hy)]
  have mapM_some : ∀ {X : Type} (l : List X), l.mapM some = some l := by
    intro X l
    induction l with
    | nil => rfl
    | cons x l ih => rw [List.mapM_cons, ih]; rfl
  have mapM_map : ∀ {X Y Z : Type} (l : List X) (k : X → Y) (g : Y → Option Z), (l.map k).mapM g = l.mapM fun x => g (k x) := by
    intro X Y Z l k g
    induction l with
    | nil => rfl
    | cons x l ih => rw [List.map_cons, List.mapM_cons, List.mapM_cons, ih]
  refine ⟨fun hs hp => ?_, ?_⟩
  · have hne : sch.map Prod.fst ≠ [] := by simpa using hs
    obtain ⟨r, hr⟩ := (parquet_open f sch hs).1.mpr hp
    rw [hr, Option.bind_some]
    have hsch := (parquet_open f sch hs).2 r hr
    have hiter : r.iter = f.batches.map fun b => sch.filterMap fun p => field p.1 b := by
      have e : (mkReader f (sch.map Prod.fst)).iter = f.batches.map fun b => sch.filterMap fun p => field p.1 b := by
        simp only [mkReader, if_neg hne, List.filterMap_map, Function.comp_def]
      simp only [openFile] at hr
      split at hr
      · simp only [Reader.castTo] at hr
        split at hr
        · cases hr
        · split at hr
          · cases hr
          · cases hr; exact e
          · cases hr; exact e
      · cases hr; exact e
    unfold Reader.readAll
    rw [hiter, mapM_map, hsch]
    apply mapM_congr
    intro b hb
    cases hc : r.cast with
    | true =>
      simp only [if_true]
      exact asked_cast conv b sch (fun p hq => by rw [names_batch h hb]; exact hp p hq)
    | false =>
      simp only [Bool.false_eq_true, if_false]
      refine (asked_same conv b sch ?_).symm
      have hsame : (mkReader f (sch.map Prod.fst)).schema = sch := by
        simp only [openFile] at hr
        split at hr
        · simp only [Reader.castTo] at hr
          split at hr
          · cases hr
          · split at hr
            · cases hr
            · cases hr; simp at hc
            · rename_i hch; exact (changes_false _ _ hch).symm
        · rename_i hq
          simp only [hs, ne_eq, not_false_eq_true, true_and, Decidable.not_not] at hq
          exact hq.symm
      simp only [mkReader, if_neg hne, List.filterMap_map, Function.comp_def] at hsame
      have each : ∀ (l : List (Field T)), (∀ p ∈ l, p.1 ∈ f.fields.map Prod.fst) → (l.filterMap fun p => field p.1 f.fields) = l →
          ∀ p ∈ l, field p.1 f.fields = some p := by
        intro l
        induction l with
        | nil => intro _ _ p hp; cases hp
        | cons q l ih =>
          intro hl e
          rw [List.filterMap_cons] at e
          cases hf : field q.1 f.fields with
          | none => exact absurd (hl q List.mem_cons_self) (field_none_iff.mp hf)
          | some c =>
            rw [hf] at e
            simp only [List.cons.injEq] at e
            intro p hp
            rcases List.mem_cons.mp hp with rfl | hp
            · rw [hf, e.1]
            · exact ih (fun x hx => hl x (List.mem_cons_of_mem _ hx)) e.2 p hp
      intro p hq
      have h1 := each sch hp hsame p hq
      rw [← field_batch h hb] at h1
      cases hf : field p.1 b with
      | none => rw [hf] at h1; cases h1
      | some c =>
        rw [hf] at h1
        simp only [Option.map_some, Option.some.injEq] at h1
        exact ⟨c, rfl, by rw [← h1]⟩
  · show (Reader.readAll conv ⟨f.fields, false, f.batches⟩) = some f.batches
    simp only [Reader.readAll, Bool.false_eq_true, if_false]
    exact mapM_some _

/-- a file with two row groups, read with two of its three columns, reordered and one of them converted -/
def exFile : File Nat Nat := ⟨[("a", 8), ("b", 8), ("c", 16)],
  [[("a", 8, [1, 2]), ("b", 8, [3, 4]), ("c", 16, [5, 6])], [("a", 8, [7]), ("b", 8, [8]), ("c", 16, [9])]]⟩

/-- a conversion that raises when the value does not fit -/
def exConv (_ t v : Nat) : Option Nat := if v < 2 ^ t then some v else none

example : exFile.Ok := ⟨by decide, by decide⟩
example : ∀ p ∈ [("c", 16), ("a", 32)], p.1 ∈ exFile.fields.map Prod.fst := by decide
example : (openFile exFile [("c", 16), ("a", 32)]).bind (Reader.readAll exConv) =
    some [[("c", 16, [5, 6]), ("a", 32, [1, 2])], [("c", 16, [9]), ("a", 32, [7])]] := by decide
example : (openFile exFile [("c", 3)]).bind (Reader.readAll exConv) = none := by decide
example : (openFile exFile [("d", 16)]).isNone = true := by decide

end Verif.Table.Parquet
