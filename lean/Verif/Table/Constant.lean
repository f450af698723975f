import Verif.Tensor.Dtypes
import Mathlib.Data.List.Sort
/-!
# C128 — tables given as constants (dialects/table.py:182-258, backends/table_impl.py:777-790, dialects/simp.py:791-836, edsl/serde.py:200-232)

The type of a table constant is read off pandas, its value is built by pyarrow, and on its way to a worker it is a JSON value.
What pandas and pyarrow make of lists is modelled for lists of `None`, booleans, integers of at most 53 bits, floats, strings and bytes of one
family; everything else is an arbitrary function.
-/
namespace Verif.Table.Constant
open Verif.Tensor Verif.Serde

/-- a Python value in a column -/
inductive Cell where
  | none
  | bool (b : Bool)
  | int (i : Int)
  | flt (bits : Nat)
  | str (s : String)
  | bytes (b : List Nat)
  deriving DecidableEq

/-- `None` -/
def Cell.isNone : Cell → Bool | .none => true | _ => false
/-- a `bool` -/
def Cell.isBool : Cell → Bool | .bool _ => true | _ => false
/-- an `int` that a double holds exactly -/
def Cell.isInt : Cell → Bool | .int i => decide (i.natAbs ≤ 2 ^ 53) | _ => false
/-- a `float` -/
def Cell.isFlt : Cell → Bool | .flt _ => true | _ => false
/-- a `str` -/
def Cell.isStr : Cell → Bool | .str _ => true | _ => false
/-- a `bytes` -/
def Cell.isBytes : Cell → Bool | .bytes _ => true | _ => false

/-- what the libraries do outside of the modelled lists -/
structure Libs where
  pandas : List Cell → String
  arrow : List Cell → Option Arrow

/-- one family of values, with `None` -/
def Pure (cells : List Cell) : Prop :=
  (∀ c ∈ cells, c.isNone = true ∨ c.isBool = true) ∨ (∀ c ∈ cells, c.isNone = true ∨ c.isInt = true ∨ c.isFlt = true) ∨
  (∀ c ∈ cells, c.isNone = true ∨ c.isStr = true) ∨ (∀ c ∈ cells, c.isNone = true ∨ c.isBytes = true)

instance (cells : List Cell) : Decidable (Pure cells) := by unfold Pure; infer_instance

/-- dtype of the column `pd.DataFrame` makes of a list (pandas, used in table.py:213-217).  (pandas 3 says `str` for strings, which
`from_pandas` reads like `object`.) -/
def pdDtype (L : Libs) (cells : List Cell) : String :=
  if Pure cells then
    if cells.all Cell.isBool && !cells.isEmpty then "bool"
    else if cells.all Cell.isInt && !cells.isEmpty then "int64"
    else if cells.all (fun c => c.isNone || c.isInt || c.isFlt) && cells.any (fun c => c.isInt || c.isFlt) then "float64"
    else "object"
  else L.pandas cells

/-- type of the column `pa.table` makes of a list (pyarrow, used in table_impl.py:790); `none`: it raises -/
def paType (L : Libs) (cells : List Cell) : Option Arrow :=
  if Pure cells then
    if cells.all Cell.isNone then some .null
    else if cells.all (fun c => c.isNone || c.isBool) then some .bool
    else if cells.all (fun c => c.isNone || c.isInt) then some .int64
    else if cells.all (fun c => c.isNone || c.isInt || c.isFlt) then some .float64
    else if cells.all (fun c => c.isNone || c.isStr) then some .string
    else some .binary
  else L.arrow cells

/-- a column of the dictionary: a Python list, or an array whose dtype fixes the types -/
inductive Column where
  | list (cells : List Cell)
  | array (dtype : String) (arrow : Arrow) (cells : List Cell)

/-- the values -/
def Column.cells : Column → List Cell
  | .list c => c
  | .array _ _ c => c

/-- dtype in the DataFrame -/
def Column.dtype (L : Libs) : Column → String
  | .list c => pdDtype L c
  | .array d _ _ => d

/-- type in the Arrow table -/
def Column.arrow (L : Libs) : Column → Option Arrow
  | .list c => paType L c
  | .array _ a _ => some a

/-- a column of an Arrow table -/
structure PaCol where
  name : String
  type : Arrow
  cells : List Cell

/-- a column of a DataFrame: dtype, and type under `pa.Table.from_pandas` -/
structure PdCol where
  name : String
  dtype : String
  type : Arrow
  cells : List Cell

/-- the column that `from_pandas` makes of it -/
def PdCol.toPa (c : PdCol) : PaCol := ⟨c.name, c.type, c.cells⟩

/-- what can be given to `table.constant`; `index`: the index of the frame if it is not the default one -/
inductive Data where
  | dict (cols : List (String × Column))
  | frame (cols : List PdCol) (index : Option PdCol)
  | table (cols : List PaCol)

/-- errors -/
inductive Err where
  | value | type | attribute
  deriving DecidableEq

/-- error of a conversion -/
def lift : Except DtErr Ty → Except Err Ty
  | .ok t => .ok t
  | .error .value => .error .value
  | .error .type => .error .type

/-- `schema[name] = type` for a list of columns with different names, stopping at the first that has no type (table.py:201-204, 215-217) -/
def schemaOf : List (String × Except DtErr Ty) → Except Err (List (String × Ty))
  | [] => .ok []
  | (n, t) :: rest =>
    match lift t with
    | .error e => .error e
    | .ok t =>
      match schemaOf rest with
      | .error e => .error e
      | .ok s => .ok ((n, t) :: s)

/-- all columns have the same number of rows -/
def SameLength (cols : List (List Cell)) : Prop := ∀ c ∈ cols, ∀ d ∈ cols, c.length = d.length

instance (cols : List (List Cell)) : Decidable (SameLength cols) := by unfold SameLength; infer_instance

/-- `_constant_ae` (table.py:182-219).  Simplified: column names differ (a frame in which they do not has no `dtype`: AttributeError). -/
def declared (L : Libs) : Data → Except Err (List (String × Ty))
  | .dict cols =>
    if SameLength (cols.map (·.2.cells)) then schemaOf (cols.map fun c => (c.1, fromPandas (c.2.dtype L))) else .error .value
  | .frame cols _ => if (cols.map PdCol.name).Nodup then schemaOf (cols.map fun c => (c.name, fromPandas c.dtype)) else .error .attribute
  | .table cols => schemaOf (cols.map fun c => (c.name, fromArrow c.type))

/-- columns of `pa.table(dict)` -/
def paCols (L : Libs) : List (String × Column) → Except Err (List PaCol)
  | [] => .ok []
  | (n, c) :: rest =>
    match c.arrow L with
    | none => .error .type
    | some a =>
      match paCols L rest with
      | .error e => .error e
      | .ok r => .ok (⟨n, a, c.cells⟩ :: r)

/-- `constant_impl` (table_impl.py:777-790): `pa.table` of a frame keeps an index that is not the default one as a last column -/
def value (L : Libs) : Data → Except Err (List PaCol)
  | .dict cols => if SameLength (cols.map (·.2.cells)) then paCols L cols else .error .value
  | .frame cols none => .ok (cols.map PdCol.toPa)
  | .frame cols (some i) => .ok (cols.map PdCol.toPa ++ [i.toPa])
  | .table cols => .ok cols

/-- the attribute as a worker receives it: `to_json`, `from_json` (serde.py:200-232, 240-252; C02).  A frame arrives as an Arrow table, without index. -/
def sent : Data → Data
  | .dict cols => .dict cols
  | .frame cols _ => .table (cols.map PdCol.toPa)
  | .table cols => .table cols

/-- the data as `table.constant` sees it inside of `simp.constant(parties, data)` (simp.py:791-836): a dictionary is taken apart and put together by
`jax.tree_util`, which orders its keys (func_utils.py:92-105); an Arrow table is refused -/
def onParties : Data → Except Err Data
  | .dict cols => .ok (.dict (cols.mergeSort fun a b => decide (a.1 ≤ b.1)))
  | .frame cols i => .ok (.frame cols i)
  | .table _ => .error .type

/-! ## Specification -/

/-- a list whose values have one type: booleans; integers; numbers with a float, possibly missing; strings, possibly missing -/
def Regular (cells : List Cell) : Prop :=
  cells ≠ [] ∧ ((∀ c ∈ cells, c.isBool = true) ∨ (∀ c ∈ cells, c.isInt = true) ∨
    ((∃ c ∈ cells, c.isFlt = true) ∧ ∀ c ∈ cells, c.isNone = true ∨ c.isInt = true ∨ c.isFlt = true) ∨
    ((∃ c ∈ cells, c.isStr = true) ∧ ∀ c ∈ cells, c.isNone = true ∨ c.isStr = true))

/-- a column whose types are fixed: a regular list, or an array of a dtype that both readers know -/
def Column.Typed : Column → Prop
  | .list c => Regular c
  | .array d a _ => PandasArrow d a ∧ (∃ t, fromPandas d = .ok t) ∧ ∃ t, fromArrow a = .ok t

/-- table `t` has the schema `s`: the same columns in the same order, each of its declared type -/
def HasSchema (t : List PaCol) (s : List (String × Ty)) : Prop :=
  List.Forall₂ (fun c e => c.name = e.1 ∧ fromArrow c.type = .ok e.2) t s

/-- the columns of the table are those given -/
def HasColumns (t : List PaCol) (cols : List (String × List Cell)) : Prop := t.map (fun c => (c.name, c.cells)) = cols

/-! ## Lists -/

theorem families (c : Cell) : (c.isBool = true → c.isInt = false ∧ c.isFlt = false ∧ c.isStr = false ∧ c.isNone = false ∧ c.isBytes = false) ∧
    (c.isInt = true → c.isFlt = false ∧ c.isStr = false ∧ c.isNone = false ∧ c.isBytes = false) ∧
    (c.isFlt = true → c.isStr = false ∧ c.isNone = false ∧ c.isBytes = false) ∧ (c.isStr = true → c.isNone = false ∧ c.isBytes = false) ∧
    (c.isBytes = true → c.isNone = false) := by
  cases c <;> simp [Cell.isBool, Cell.isInt, Cell.isFlt, Cell.isStr, Cell.isNone, Cell.isBytes]

theorem regular_pure {cells : List Cell} (h : Regular cells) : Pure cells := by
  rcases h.2 with h | h | h | h
  · exact .inl fun c hc => .inr (h c hc)
  · exact .inr (.inl fun c hc => .inr (.inl (h c hc)))
  · exact .inr (.inl h.2)
  · exact .inr (.inr (.inl h.2))

/-- a cell of one of the families -/
def Cell.known (c : Cell) : Bool := c.isNone || c.isBool || c.isInt || c.isFlt || c.isStr || c.isBytes

/-- a test that depends on the family only -/
def byFamily (n b i f s y : Bool) (c : Cell) : Bool :=
  (c.isNone && n) || (c.isBool && b) || (c.isInt && i) || (c.isFlt && f) || (c.isStr && s) || (c.isBytes && y)

theorem all_family (n b i f s y : Bool) : ∀ cells : List Cell, (∀ c ∈ cells, c.known = true) →
    cells.all (byFamily n b i f s y) = ((!cells.any Cell.isNone || n) && (!cells.any Cell.isBool || b) && (!cells.any Cell.isInt || i) &&
      (!cells.any Cell.isFlt || f) && (!cells.any Cell.isStr || s) && (!cells.any Cell.isBytes || y))
  | [], _ => by simp
  | c :: cells, h => by
    have ih := all_family n b i f s y cells fun c hc => h c (.tail _ hc)
    have hc := h c (.head _)
    rw [List.all_cons, ih]
    simp only [List.any_cons]
    generalize cells.any Cell.isNone = e1, cells.any Cell.isBool = e2, cells.any Cell.isInt = e3, cells.any Cell.isFlt = e4,
      cells.any Cell.isStr = e5, cells.any Cell.isBytes = e6
    have hf := families c
    revert hc hf
    unfold byFamily Cell.known
    generalize c.isNone = d1, c.isBool = d2, c.isInt = d3, c.isFlt = d4, c.isStr = d5, c.isBytes = d6
    intro hc hf
    clear ih h
    cases d1 <;> cases d2 <;> cases d3 <;> cases d4 <;> cases d5 <;> cases d6 <;> first
      | (simp at hc; done) | (simp at hf; done) | (cases n <;> cases b <;> cases i <;> cases f <;> cases s <;> cases y <;> simp)

theorem all_eq {P : Cell → Bool} (n b i f s y : Bool) (cells : List Cell) (hk : ∀ c ∈ cells, c.known = true)
    (h : ∀ c, c.known = true → P c = byFamily n b i f s y c) :
    cells.all P = ((!cells.any Cell.isNone || n) && (!cells.any Cell.isBool || b) && (!cells.any Cell.isInt || i) &&
      (!cells.any Cell.isFlt || f) && (!cells.any Cell.isStr || s) && (!cells.any Cell.isBytes || y)) := by
  rw [← all_family n b i f s y cells hk]
  rw [Bool.eq_iff_iff, List.all_eq_true, List.all_eq_true]
  exact ⟨fun g c hc => (h c (hk c hc)) ▸ g c hc, fun g c hc => (h c (hk c hc)).symm ▸ g c hc⟩

theorem pure_known {cells : List Cell} (h : Pure cells) : ∀ c ∈ cells, c.known = true := by
  intro c hc
  unfold Cell.known
  rcases h with h | h | h | h <;> rcases h c hc with h | h <;> first | (simp [h]; done) | (rcases h with h | h <;> simp [h])

/-- **C128, which lists**: for a list of one family, the declared type is the type of the values exactly if the list is regular. -/
theorem list_type_iff (L : Libs) (cells : List Cell) (hp : Pure cells) :
    ∃ a t, paType L cells = some a ∧ fromPandas (pdDtype L cells) = .ok t ∧ (fromArrow a = .ok t ↔ Regular cells) := by
  have hk := pure_known hp
  have fam : ∀ c : Cell, _ := families
  have hE : cells.isEmpty = cells.all (fun _ => false) := by cases cells <;> rfl
  have e0 := all_eq (P := fun _ => false) false false false false false false cells hk (by intro c _; simp [byFamily])
  have eN := all_eq (P := Cell.isNone) true false false false false false cells hk (by intro c _; simp [byFamily])
  have eB := all_eq (P := Cell.isBool) false true false false false false cells hk (by intro c _; simp [byFamily])
  have eI := all_eq (P := Cell.isInt) false false true false false false cells hk (by intro c _; simp [byFamily])
  have eNB := all_eq (P := fun c => c.isNone || c.isBool) true true false false false false cells hk (by intro c _; simp [byFamily])
  have eNI := all_eq (P := fun c => c.isNone || c.isInt) true false true false false false cells hk (by intro c _; simp [byFamily])
  have eNIF := all_eq (P := fun c => c.isNone || c.isInt || c.isFlt) true false true true false false cells hk (by intro c _; simp [byFamily])
  have eNS := all_eq (P := fun c => c.isNone || c.isStr) true false false false true false cells hk (by intro c _; simp [byFamily])
  have eNY := all_eq (P := fun c => c.isNone || c.isBytes) true false false false false true cells hk (by intro c _; simp [byFamily])
  have eIF : cells.any (fun c => c.isInt || c.isFlt) = (cells.any Cell.isInt || cells.any Cell.isFlt) := by
    rw [Bool.eq_iff_iff]; simp only [List.any_eq_true, Bool.or_eq_true]
    constructor
    · rintro ⟨c, hc, h | h⟩
      · exact .inl ⟨c, hc, h⟩
      · exact .inr ⟨c, hc, h⟩
    · rintro (⟨c, hc, h⟩ | ⟨c, hc, h⟩)
      · exact ⟨c, hc, .inl h⟩
      · exact ⟨c, hc, .inr h⟩
  have hpB : (cells.all (fun c => c.isNone || c.isBool) || cells.all (fun c => c.isNone || c.isInt || c.isFlt) ||
      cells.all (fun c => c.isNone || c.isStr) || cells.all (fun c => c.isNone || c.isBytes)) = true := by
    simp only [Bool.or_eq_true, List.all_eq_true]
    rcases hp with h | h | h | h
    · exact .inl (.inl (.inl h))
    · exact .inl (.inl (.inr fun c hc => by simpa [or_assoc] using h c hc))
    · exact .inl (.inr h)
    · exact .inr h
  have hR : Regular cells ↔ ((!cells.isEmpty && (cells.all Cell.isBool || cells.all Cell.isInt ||
      (cells.any Cell.isFlt && cells.all (fun c => c.isNone || c.isInt || c.isFlt)) || (cells.any Cell.isStr && cells.all (fun c => c.isNone || c.isStr)))) = true) := by
    unfold Regular
    simp only [Bool.and_eq_true, Bool.or_eq_true, List.all_eq_true, List.any_eq_true, Bool.not_eq_true', List.isEmpty_eq_false_iff, or_assoc]
  simp only [paType, pdDtype, if_pos hp, hE, hR]
  rw [hE] at hR
  simp only [e0, eN, eB, eI, eNB, eNI, eNIF, eNS, eNY, eIF] at hpB ⊢
  generalize cells.any Cell.isNone = n, cells.any Cell.isBool = b, cells.any Cell.isInt = i, cells.any Cell.isFlt = f,
    cells.any Cell.isStr = s, cells.any Cell.isBytes = y at *
  have p1 : fromPandas "bool" = .ok (.int 1 true) := rfl
  have p2 : fromPandas "int64" = .ok (.int 64 true) := rfl
  have p3 : fromPandas "float64" = .ok (.float 64) := rfl
  have p4 : fromPandas "object" = .ok (.custom "string") := rfl
  clear eN eB eI eNB eNI eNIF eNS eNY eIF hR hE e0 fam
  cases n <;> cases b <;> cases i <;> cases f <;> cases s <;> cases y <;>
    first
    | (exact absurd hpB (by decide))
    | (simp [p1, p2, p3, p4, fromArrow])

/-! ## Tables -/

theorem column_typed (L : Libs) (c : Column) (h : c.Typed) :
    ∃ a t, c.arrow L = some a ∧ fromPandas (c.dtype L) = .ok t ∧ fromArrow a = .ok t := by
  match c, h with
  | .list cells, h =>
    obtain ⟨a, t, h1, h2, h3⟩ := list_type_iff L cells (regular_pure h)
    exact ⟨a, t, h1, h2, h3.2 h⟩
  | .array d a cells, ⟨hp, ⟨t, ht⟩, u, hu⟩ =>
    have := column_types_agree_partial d a t u hp ht hu
    subst this
    exact ⟨a, t, rfl, ht, hu⟩

theorem dict_cols (L : Libs) : ∀ cols : List (String × Column), (∀ c ∈ cols, c.2.Typed) →
    ∃ s t, schemaOf (cols.map fun c => (c.1, fromPandas (c.2.dtype L))) = .ok s ∧ paCols L cols = .ok t ∧ HasSchema t s ∧
      HasColumns t (cols.map fun c => (c.1, c.2.cells))
  | [], _ => ⟨[], [], rfl, rfl, .nil, rfl⟩
  | (n, c) :: cols, h => by
    obtain ⟨a, t, h1, h2, h3⟩ := column_typed L c (h _ (.head _))
    obtain ⟨s, r, g1, g2, g3, g4⟩ := dict_cols L cols fun c hc => h c (.tail _ hc)
    refine ⟨(n, t) :: s, ⟨n, a, c.cells⟩ :: r, ?_, ?_, .cons ⟨rfl, h3⟩ g3, ?_⟩
    · simp only [List.map_cons, schemaOf, h2, lift, g1]
    · simp only [paCols, h1, g2]
    · unfold HasColumns at *
      rw [List.map_cons, g4]; rfl

/-- **C128, dictionaries (partial)**: a dictionary of columns of one length whose types are fixed has a declared schema; the value has exactly the given
columns, in the given order, and the declared types, here and on a worker that receives it. -/
theorem dict_constant_partial (L : Libs) (cols : List (String × Column)) (hl : SameLength (cols.map (·.2.cells))) (ht : ∀ c ∈ cols, c.2.Typed) :
    ∃ s t, declared L (.dict cols) = .ok s ∧ value L (.dict cols) = .ok t ∧ value L (sent (.dict cols)) = .ok t ∧ HasSchema t s ∧
      HasColumns t (cols.map fun c => (c.1, c.2.cells)) := by
  obtain ⟨s, t, h1, h2, h3, h4⟩ := dict_cols L cols ht
  refine ⟨s, t, ?_, ?_, ?_, h3, h4⟩
  · simp only [declared, if_pos hl]; exact h1
  · simp only [value, if_pos hl]; exact h2
  · simp only [sent, value, if_pos hl]; exact h2

/-- a dictionary whose columns have different lengths is refused, when traced and when evaluated -/
theorem ragged_refused (L : Libs) (cols : List (String × Column)) (hl : ¬ SameLength (cols.map (·.2.cells))) :
    declared L (.dict cols) = .error .value ∧ value L (.dict cols) = .error .value := by
  simp only [declared, value, if_neg hl]
  exact ⟨trivial, trivial⟩

theorem frame_cols : ∀ cols : List PdCol, (∀ c ∈ cols, PandasArrow c.dtype c.type ∧ (∃ t, fromPandas c.dtype = .ok t) ∧ ∃ t, fromArrow c.type = .ok t) →
    ∃ s, schemaOf (cols.map fun c => (c.name, fromPandas c.dtype)) = .ok s ∧ HasSchema (cols.map PdCol.toPa) s
  | [], _ => ⟨[], rfl, .nil⟩
  | c :: cols, h => by
    obtain ⟨hp, ⟨t, ht⟩, u, hu⟩ := h c (.head _)
    have := column_types_agree_partial c.dtype c.type t u hp ht hu
    subst this
    obtain ⟨s, g1, g2⟩ := frame_cols cols fun c hc => h c (.tail _ hc)
    exact ⟨(c.name, t) :: s, by simp only [List.map_cons, schemaOf, ht, lift, g1], .cons ⟨rfl, hu⟩ g2⟩

/-- **C128, frames (partial)**: a DataFrame with the default index and known dtypes has its columns and the declared types, here and on a worker. -/
theorem frame_constant_partial (L : Libs) (cols : List PdCol) (hn : (cols.map PdCol.name).Nodup)
    (ht : ∀ c ∈ cols, PandasArrow c.dtype c.type ∧ (∃ t, fromPandas c.dtype = .ok t) ∧ ∃ t, fromArrow c.type = .ok t) :
    ∃ s t, declared L (.frame cols none) = .ok s ∧ value L (.frame cols none) = .ok t ∧ value L (sent (.frame cols none)) = .ok t ∧ HasSchema t s ∧
      HasColumns t (cols.map fun c => (c.name, c.cells)) := by
  obtain ⟨s, h1, h2⟩ := frame_cols cols ht
  refine ⟨s, cols.map PdCol.toPa, ?_, rfl, rfl, h2, ?_⟩
  · simp only [declared, if_pos hn]; exact h1
  · simp [HasColumns, PdCol.toPa, Function.comp_def]

/-- **C128, the same everywhere**: what a worker that receives the constant makes of it is what the process that made it makes of it, exactly if it is
no DataFrame with an index of its own. -/
theorem sent_same_iff (L : Libs) (d : Data) : value L (sent d) = value L d ↔ ∀ cols i, d ≠ .frame cols (some i) := by
  cases d with
  | dict cols => simp [sent]
  | table cols => simp [sent]
  | frame cols i =>
    cases i with
    | none => simp [sent, value]
    | some i =>
      simp only [sent, value, ne_eq, Except.ok.injEq]
      constructor
      · intro h
        have := congrArg List.length h
        simp at this
      · intro h; exact absurd rfl (h cols i)

/-- **C128 violated, index**: a DataFrame with an index of its own gets a column more than declared in a simulator, and loses it on a cluster. -/
theorem index_violated (L : Libs) (cols : List PdCol) (i : PdCol) (s : List (String × Ty)) (h : declared L (.frame cols (some i)) = .ok s) :
    ∃ t u, value L (.frame cols (some i)) = .ok t ∧ value L (sent (.frame cols (some i))) = .ok u ∧ t.length = s.length + 1 ∧ u.length = s.length ∧
      ¬ HasSchema t s := by
  have hl : s.length = cols.length := by
    have : ∀ (l : List (String × Except DtErr Ty)) (s : List (String × Ty)), schemaOf l = .ok s → s.length = l.length := by
      intro l
      induction l with
      | nil => intro s h; cases h; rfl
      | cons e l ih =>
        intro s h
        simp only [schemaOf] at h
        split at h
        · cases h
        · split at h
          · cases h
          · next g => cases h; simp [ih _ g]
    simp only [declared] at h
    split at h
    · simpa using this _ _ h
    · cases h
  refine ⟨_, _, rfl, rfl, by simp [hl], by simp [hl], fun hs => ?_⟩
  have := hs.length_eq
  simp [hl] at this

/-- **C128, constants on parties**: a dictionary given to `simp.constant` becomes a table of the same columns, ordered by name. -/
theorem party_columns (cols : List (String × Column)) :
    ∃ cols', onParties (.dict cols) = .ok (.dict cols') ∧ cols'.Perm cols ∧ (cols'.map Prod.fst).Pairwise (· ≤ ·) := by
  refine ⟨_, rfl, List.mergeSort_perm _ _, ?_⟩
  have := List.pairwise_mergeSort (le := fun (a b : String × Column) => decide (a.1 ≤ b.1))
    (fun a b c h1 h2 => by simp only [decide_eq_true_eq] at *; exact String.le_trans h1 h2)
    (fun a b => by simpa using String.le_total a.1 b.1) cols
  rw [List.pairwise_map]
  simpa using this

/-- … so it has the given columns in the given order exactly if their names were in order. -/
theorem party_order_iff (cols : List (String × Column)) :
    onParties (.dict cols) = .ok (.dict cols) ↔ (cols.map Prod.fst).Pairwise (· ≤ ·) := by
  constructor
  · intro h
    obtain ⟨cols', h1, _, h3⟩ := party_columns cols
    rw [h] at h1
    cases h1
    exact h3
  · intro h
    rw [List.pairwise_map] at h
    simp only [onParties]
    rw [List.mergeSort_of_pairwise]
    exact h.imp fun h => by simpa using h

/-- **C128 violated, order**: `simp.constant` (and `mp.put`) of `{"b": …, "a": …}` has the column `a` first, unlike `table.constant`. -/
theorem party_order_violated (L : Libs) (x y : Column) (hx : x.Typed) (hy : y.Typed) (hl : x.cells.length = y.cells.length) :
    ∃ d t u, onParties (.dict [("b", x), ("a", y)]) = .ok d ∧ value L (.dict [("b", x), ("a", y)]) = .ok t ∧ value L d = .ok u ∧
      t.map PaCol.name = ["b", "a"] ∧ u.map PaCol.name = ["a", "b"] := by
  have hm : onParties (.dict [("b", x), ("a", y)]) = .ok (.dict [("a", y), ("b", x)]) := by
    obtain ⟨cols', h1, h2, h3⟩ := party_columns [("b", x), ("a", y)]
    rw [h1]
    have h4 : cols'.Perm [("a", y), ("b", x)] := h2.trans (.swap _ _ _)
    rw [List.pairwise_map] at h3
    have : cols' = [("a", y), ("b", x)] := by
      refine List.Perm.eq_of_pairwise ?_ h3 (by simp) h4
      intro e f he hf h5 h6
      have h7 : e.1 = f.1 := String.le_antisymm h5 h6
      have he' := h4.subset he
      simp only [List.mem_cons, List.not_mem_nil, or_false] at he' hf
      rcases he' with rfl | rfl <;> rcases hf with rfl | rfl <;> first | rfl | (exact absurd h7 (by simp))
    rw [this]
  have h1 := dict_constant_partial L [("b", x), ("a", y)] (by simp [SameLength, hl]) (by simp [hx, hy])
  have h2 := dict_constant_partial L [("a", y), ("b", x)] (by simp [SameLength, hl]) (by simp [hx, hy])
  obtain ⟨_, t, _, g1, _, _, g2⟩ := h1
  obtain ⟨_, u, _, k1, _, _, k2⟩ := h2
  refine ⟨_, t, u, hm, g1, k1, ?_, ?_⟩
  · have := congrArg (List.map Prod.fst) g2
    simpa [Function.comp_def] using this
  · have := congrArg (List.map Prod.fst) k2
    simpa [Function.comp_def] using this

/-- **C128 violated, types**: lists with missing booleans or integers, of nothing but `None`, of bytes, and empty lists are declared with another type
than their values have. -/
theorem list_types_violated (L : Libs) :
    (fromPandas (pdDtype L [.int 1, .none]) = .ok (.float 64) ∧ (paType L [.int 1, .none]).map fromArrow = some (.ok (.int 64 true))) ∧
    (fromPandas (pdDtype L [.bool true, .none]) = .ok (.custom "string") ∧ (paType L [.bool true, .none]).map fromArrow = some (.ok (.int 1 true))) ∧
    (fromPandas (pdDtype L [.bytes [7]]) = .ok (.custom "string") ∧ (paType L [.bytes [7]]).map fromArrow = some (.ok (.custom "binary"))) ∧
    (fromPandas (pdDtype L []) = .ok (.custom "string") ∧ (paType L []).map fromArrow = some (.error .value)) :=
  ⟨⟨rfl, rfl⟩, ⟨rfl, rfl⟩, ⟨rfl, rfl⟩, ⟨rfl, rfl⟩⟩

/-- **C128 violated, Arrow tables**: `table.constant` takes an Arrow table, `simp.constant` and `mp.put` refuse it. -/
theorem arrow_table_violated (L : Libs) (cols : List PaCol) : value L (.table cols) = .ok cols ∧ onParties (.table cols) = .error .type := ⟨rfl, rfl⟩

/-! ## Examples -/

/-- a name, an age that may be missing, a flag -/
def exCols : List (String × Column) :=
  [("name", .list [.str "ann", .none]), ("age", .list [.none, .flt 40]), ("ok", .array "bool" .bool [.bool true, .bool false])]

theorem exCols_typed : ∀ c ∈ exCols, c.2.Typed := by
  intro c hc
  simp only [exCols, List.mem_cons, List.not_mem_nil, or_false] at hc
  rcases hc with rfl | rfl | rfl
  · exact ⟨by simp, .inr (.inr (.inr ⟨⟨.str "ann", .head _, rfl⟩, by decide⟩))⟩
  · exact ⟨by simp, .inr (.inr (.inl ⟨⟨.flt 40, .tail _ (.head _), rfl⟩, by decide⟩))⟩
  · exact ⟨.bool, ⟨_, rfl⟩, _, rfl⟩

example (L : Libs) : ∃ s t, declared L (.dict exCols) = .ok s ∧ value L (.dict exCols) = .ok t ∧ HasSchema t s :=
  let ⟨s, t, h1, h2, _, h3, _⟩ := dict_constant_partial L exCols (by decide) exCols_typed
  ⟨s, t, h1, h2, h3⟩

example : ¬ SameLength ([("a", Column.list [.int 1]), ("b", .list [])].map (·.2.cells)) := by decide

example : Pure [.int 1, .none, .flt 2] ∧ Regular [.int 1, .none, .flt 2] :=
  ⟨by decide, by simp, .inr (.inr (.inl ⟨⟨.flt 2, by simp, rfl⟩, by decide⟩))⟩

/-- the integers a double holds include both bounds -/
example : Cell.isInt (.int (2 ^ 53)) = true ∧ Cell.isInt (.int (-2 ^ 53)) = true ∧ Cell.isInt (.int (2 ^ 53 + 1)) = false := by decide

example (L : Libs) : declared L (.frame [⟨"x", "int64", .int64, [.int 1]⟩] (some ⟨"__index_level_0__", "object", .string, [.str "r"]⟩)) =
    .ok [("x", .int 64 true)] := rfl

end Verif.Table.Constant
