import Mathlib.Data.List.Basic

/-
C86: SQL over tables. `run_sql` builds a lazy relation inside a DuckDB connection; the relation refers to
its input tables by name, and is evaluated when somebody reads it.
Models mplang/backends/table_impl.py:527-571 (DuckDBState, QueryTableSource, TableValue.data) and 657-708
(run_sql_impl).

Simplifications:
* `T` is the set of table contents and `Q` the set of queries; `den q env` is what DuckDB answers to `q`
  when the visible names are `env` (`none`: an error). It is only assumed monotone: a name that was not
  visible before does not change a query that already had an answer.
* objects have identities (positions in `objs`); a `TableValue` is a mutable cell holding one.
* the connection's catalog is `state.tables` (both are written together, table_impl.py:692-702); a view is
  re-evaluated by name whenever it is read.
* file sources are not part of this model.
-/
namespace Verif.Table.Sql

/-- What a `TableValue` may hold here (table_impl.py:527-548, 558): an Arrow table, or a relation of a
DuckDB state. -/
inductive Obj (T Q : Type)
  | table (t : T)
  | query (st : Nat) (q : Q)

/-- The heap: Python objects, the cells of the `TableValue`s, and `tables` of each `DuckDBState`
(table_impl.py:527-530). -/
structure Heap (T Q : Type) where
  objs : List (Obj T Q) := []
  vals : List Nat := []
  states : List (List (String × Nat)) := []

/-- A dictionary lookup. -/
def find (n : String) : List (String × Nat) → Option Nat
  | [] => none
  | (k, o) :: rest => if k = n then some o else find n rest

variable {T Q : Type} (den : Q → (String → Option T) → Option T)

/-- The catalog of a connection: what a name stands for in state `st`. -/
def Heap.look (h : Heap T Q) (st : Nat) (n : String) : Option Nat := find n (h.states.getD st [])

/-- Reading an object (table_impl.py:544-548, 571): a table is there; a relation is evaluated by DuckDB,
which looks its names up in the catalog at that moment and evaluates the views behind them. By fuel. -/
def eval (h : Heap T Q) : Nat → Nat → Option T
  | 0, _ => none
  | f + 1, o =>
    match h.objs[o]? with
    | none => none
    | some (.table t) => some t
    | some (.query st q) => den q fun n => (h.look st n).bind (eval h f)

/-- What the holder of a `TableValue` sees in it now. -/
def read (h : Heap T Q) (v : Nat) : Option T := (h.vals[v]?).bind (eval den h h.objs.length)

/-- `TableValue.data` (table_impl.py:565-573): a lazy source is read in full and replaced by the table in
the cell. Returns the object now in the cell. -/
def materialise (h : Heap T Q) (v : Nat) : Option (Heap T Q × Nat) :=
  match h.vals[v]? with
  | none => none
  | some o =>
    match h.objs[o]? with
    | none => none
    | some (.table _) => some (h, o)
    | some (.query _ _) =>
      (eval den h h.objs.length o).map fun t =>
        ({ h with objs := h.objs ++ [.table t], vals := h.vals.set v h.objs.length }, h.objs.length)

/-- A new Arrow table in a new cell (`table.constant`, `TableValue.wrap`). -/
def newTable (h : Heap T Q) (t : T) : Heap T Q × Nat :=
  ({ h with objs := h.objs ++ [.table t], vals := h.vals ++ [h.objs.length] }, h.vals.length)

/-- The choice of the state (table_impl.py:674-683): that of the first argument that is a relation. -/
def pickState (h : Heap T Q) : List (String × Nat) → Option Nat
  | [] => none
  | (_, v) :: rest =>
    match (h.vals[v]?).bind (h.objs[·]?) with
    | some (.query st _) => some st
    | _ => pickState h rest

/-- `data = tbl.unwrap()`, materialised when it is a relation of another state (table_impl.py:692-694). -/
def dataOf (h : Heap T Q) (st v : Nat) : Option (Heap T Q × Nat) :=
  match h.vals[v]? with
  | none => none
  | some o =>
    match h.objs[o]? with
    | some (.query st' _) => if st' ≠ st then materialise den h v else some (h, o)
    | some (.table _) => some (h, o)
    | none => none

/-- The registration loop (table_impl.py:691-705): a name already used in the state must stand for the
very same object. Returns the heap reached, and whether the loop completed. -/
def register (st : Nat) : Heap T Q → List (String × Nat) → Heap T Q × Bool
  | h, [] => (h, true)
  | h, (n, v) :: rest =>
    match dataOf den h st v with
    | none => (h, false)
    | some (h1, o) =>
      match h1.look st n with
      | some o2 => if o2 ≠ o then (h1, false) else register st h1 rest
      | none => register st { h1 with states := h1.states.set st ((n, o) :: h1.states.getD st []) } rest

/-- The state a call registers its tables in: that of the first relation among its arguments, or a new
connection (table_impl.py:674-687). -/
def startState (h : Heap T Q) (tables : List (String × Nat)) : Heap T Q × Nat :=
  match pickState h tables with
  | some st => (h, st)
  | none => ({ h with states := h.states ++ [[]] }, h.states.length)

/-- `run_sql_impl` (table_impl.py:657-708). Returns the heap reached and the cell of the result, if any.
`conn.sql(query)` binds the query against the catalog and fails when it cannot. -/
def runSql (h : Heap T Q) (q : Q) (tables : List (String × Nat)) : Heap T Q × Option Nat :=
  let s := startState h tables
  let r := register den s.2 s.1 tables
  if r.2 then
    match den q fun n => (r.1.look s.2 n).bind (eval den r.1 r.1.objs.length) with
    | none => (r.1, none)
    | some _ =>
      ({ r.1 with objs := r.1.objs ++ [.query s.2 q], vals := r.1.vals ++ [r.1.objs.length] }, some r.1.vals.length)
  else (r.1, none)

/-- Everything a program can do with tables here. -/
inductive Op (T Q : Type)
  | const (t : T)
  | sql (q : Q) (tables : List (String × Nat))
  | data (v : Nat)

/-- One operation; a failed operation leaves the heap it reached. -/
def stepOp (h : Heap T Q) : Op T Q → Heap T Q
  | .const t => (newTable h t).1
  | .sql q tables => (runSql den h q tables).1
  | .data v => ((materialise den h v).map Prod.fst).getD h

/-- A history of operations. -/
def run (h : Heap T Q) : List (Op T Q) → Heap T Q
  | [] => h
  | op :: ops => run (stepOp den h op) ops

/-! ## Specification -/

/-- A name that becomes visible does not change an answer already given. -/
def Monotone : Prop :=
  ∀ q env env' t, den q env = some t → (∀ n x, env n = some x → env' n = some x) → den q env' = some t

/-- The tables passed to a call, by name: what their holders see in them now. -/
def passed (h : Heap T Q) (tables : List (String × Nat)) (n : String) : Option T :=
  (find n tables).bind (read den h)

/-! ## Invariant -/

/-- Every cell and every registered name holds an object; a relation was answered from names that stand for
older objects. -/
structure Inv (h : Heap T Q) : Prop where
  vals : ∀ (v o : Nat), h.vals[v]? = some o → o < h.objs.length
  names : ∀ (st : Nat) (n : String) (o : Nat), h.look st n = some o → o < h.objs.length
  query : ∀ (o st : Nat) (q : Q), h.objs[o]? = some (.query st q) → st < h.states.length ∧
    ∃ (env : String → Option T) (t : T), den q env = some t ∧
      ∀ n x, env n = some x → ∃ o', h.look st n = some o' ∧ o' < o ∧ eval den h (o' + 1) o' = some x

/-- A later heap: objects are kept, and names keep their meaning. -/
structure Ext (h h' : Heap T Q) : Prop where
  objs : ∀ (o : Nat) (x : Obj T Q), h.objs[o]? = some x → h'.objs[o]? = some x
  states : h.states.length ≤ h'.states.length
  names : ∀ (st : Nat) (n : String) (o : Nat), h.look st n = some o → h'.look st n = some o

theorem Ext.refl (h : Heap T Q) : Ext h h := ⟨fun _ _ e => e, Nat.le_refl _, fun _ _ _ e => e⟩

theorem Ext.trans {a b c : Heap T Q} (h1 : Ext a b) (h2 : Ext b c) : Ext a c :=
  ⟨fun o x e => h2.objs o x (h1.objs o x e), Nat.le_trans h1.states h2.states,
    fun st n o e => h2.names st n o (h1.names st n o e)⟩

/-- The heart: every object has a value, and it is the same in every later heap, however it is read. -/
theorem eval_stable (hm : Monotone den) (h : Heap T Q) (hi : Inv den h) : ∀ (o : Nat), o < h.objs.length →
    ∃ t, ∀ (h' : Heap T Q), Ext h h' → ∀ f, o < f → eval den h' f o = some t := by
  intro o
  induction o using Nat.strongRecOn with
  | ind o ih =>
    intro ho
    have hox : h.objs[o]? = some h.objs[o] := List.getElem?_eq_getElem ho
    cases hob : h.objs[o] with
    | table t =>
      rw [hob] at hox
      refine ⟨t, fun h' he f hf => ?_⟩
      cases f with
      | zero => omega
      | succ f => rw [eval, he.objs o _ hox]
    | query st q =>
      rw [hob] at hox
      obtain ⟨hst, env, t, hd, henv⟩ := hi.query o st q hox
      refine ⟨t, fun h' he f hf => ?_⟩
      cases f with
      | zero => omega
      | succ f =>
        rw [eval, he.objs o _ hox]
        refine hm q env _ t hd fun n x hx => ?_
        obtain ⟨o', h1, h2, h3⟩ := henv n x hx
        obtain ⟨t', h4⟩ := ih o' h2 (by omega)
        rw [he.names st n o' h1]
        have h5 := h4 h (Ext.refl h) (o' + 1) (by omega)
        rw [h3] at h5
        cases h5
        exact h4 h' he f (by omega)

theorem eval_ext (hm : Monotone den) {h h' : Heap T Q} (hi : Inv den h) (he : Ext h h') (o : Nat)
    (ho : o < h.objs.length) (f f' : Nat) (hf : o < f) (hf' : o < f') :
    eval den h' f' o = eval den h f o ∧ (eval den h f o).isSome := by
  obtain ⟨t, ht⟩ := eval_stable den hm h hi o ho
  rw [ht h' he f' hf', ht h (Ext.refl h) f hf]
  exact ⟨rfl, rfl⟩

/-- What is true of a heap `h'` reached from `h`. -/
structure Later (h h' : Heap T Q) : Prop where
  ext : Ext h h'
  inv : Inv den h'
  vals : h.vals.length ≤ h'.vals.length
  keep : ∀ v, v < h.vals.length → read den h' v = read den h v

theorem Later.refl {h : Heap T Q} (hi : Inv den h) : Later den h h :=
  ⟨Ext.refl h, hi, Nat.le_refl _, fun _ _ => rfl⟩

theorem Later.trans {a b c : Heap T Q} (h1 : Later den a b) (h2 : Later den b c) : Later den a c :=
  ⟨h1.ext.trans h2.ext, h2.inv, Nat.le_trans h1.vals h2.vals,
    fun v hv => by rw [h2.keep v (Nat.lt_of_lt_of_le hv h1.vals), h1.keep v hv]⟩

theorem look_congr {h h' : Heap T Q} (e : h'.states = h.states) (st : Nat) (n : String) :
    h'.look st n = h.look st n := by rw [Heap.look, Heap.look, e]

/-- Adding an object. -/
theorem ext_push (h : Heap T Q) (x : Obj T Q) (vs : List Nat) :
    Ext h { h with objs := h.objs ++ [x], vals := vs } :=
  ⟨fun o y e => by
      show (h.objs ++ [x])[o]? = some y
      rw [List.getElem?_append_left (List.getElem?_eq_some_iff.1 e).1, e],
    Nat.le_refl _, fun _ _ _ e => e⟩

theorem inv_push (hm : Monotone den) (h : Heap T Q) (hi : Inv den h) (x : Obj T Q) (vs : List Nat)
    (hv : ∀ (v o : Nat), vs[v]? = some o → o < h.objs.length + 1)
    (hx : ∀ st q, x = .query st q → st < h.states.length ∧ ∃ (env : String → Option T) (t : T), den q env = some t ∧
      ∀ n y, env n = some y → ∃ o', h.look st n = some o' ∧ o' < h.objs.length ∧ eval den h (o' + 1) o' = some y) :
    Inv den { h with objs := h.objs ++ [x], vals := vs } := by
  have he := ext_push h x vs
  refine ⟨fun v o e => by simpa using hv v o e, fun st n o e => ?_, fun o st q e => ?_⟩
  · have := hi.names st n o e
    simp
    omega
  · have lift : ∀ o', o' < h.objs.length → ∀ y, eval den h (o' + 1) o' = some y →
        eval den { h with objs := h.objs ++ [x], vals := vs } (o' + 1) o' = some y := by
      intro o' ho' y hy
      rw [(eval_ext den hm hi he o' ho' (o' + 1) (o' + 1) (by omega) (by omega)).1, hy]
    by_cases ho : o < h.objs.length
    · have e' : h.objs[o]? = some (.query st q) := by
        have : (h.objs ++ [x])[o]? = some (.query st q) := e
        rwa [List.getElem?_append_left ho] at this
      obtain ⟨h1, env, t, h2, h3⟩ := hi.query o st q e'
      refine ⟨h1, env, t, h2, fun n y hy => ?_⟩
      obtain ⟨o', g1, g2, g3⟩ := h3 n y hy
      exact ⟨o', g1, g2, lift o' (by omega) y g3⟩
    · have e2 : (h.objs ++ [x])[o]? = some (.query st q) := e
      rw [List.getElem?_append_right (by omega)] at e2
      have hoo : o = h.objs.length := by
        by_contra hne
        rw [List.getElem?_eq_none (by simp; omega)] at e2
        cases e2
      subst hoo
      simp at e2
      obtain ⟨h1, env, t, h2, h3⟩ := hx st q e2
      refine ⟨h1, env, t, h2, fun n y hy => ?_⟩
      obtain ⟨o', g1, g2, g3⟩ := h3 n y hy
      exact ⟨o', g1, g2, lift o' g2 y g3⟩

theorem read_some (hm : Monotone den) (h : Heap T Q) (hi : Inv den h) (v : Nat) (hv : v < h.vals.length) :
    ∃ t, read den h v = some t := by
  have e : h.vals[v]? = some h.vals[v] := List.getElem?_eq_getElem hv
  have ho := hi.vals v _ e
  obtain ⟨t, ht⟩ := eval_stable den hm h hi _ ho
  exact ⟨t, by rw [read, e]; exact ht h (Ext.refl h) _ ho⟩

theorem read_ext (hm : Monotone den) {h h' : Heap T Q} (hi : Inv den h) (he : Ext h h')
    (v : Nat) (o : Nat) (h1 : h.vals[v]? = some o) (h2 : h'.vals[v]? = some o) :
    read den h' v = read den h v := by
  have ho := hi.vals v o h1
  have ho' : o < h'.objs.length := by
    have e : h.objs[o]? = some h.objs[o] := List.getElem?_eq_getElem ho
    exact (List.getElem?_eq_some_iff.1 (he.objs o _ e)).1
  rw [read, read, h1, h2]
  exact (eval_ext den hm hi he o ho _ _ ho ho').1

/-- Reading a table in full keeps everything, and leaves in the cell an object with the value it had. -/
theorem materialise_later (hm : Monotone den) (h : Heap T Q) (hi : Inv den h) (v : Nat) (h' : Heap T Q) (o : Nat)
    (e : materialise den h v = some (h', o)) :
    Later den h h' ∧ h'.vals[v]? = some o ∧ h'.states = h.states ∧ h'.vals.length = h.vals.length := by
  unfold materialise at e
  split at e
  · cases e
  · rename_i o0 hv0
    have ho0 := hi.vals v o0 hv0
    split at e
    · cases e
    · simp only [Option.some.injEq, Prod.mk.injEq] at e
      obtain ⟨rfl, rfl⟩ := e
      exact ⟨Later.refl den hi, hv0, rfl, rfl⟩
    · rename_i st q hq
      obtain ⟨t, ht⟩ := eval_stable den hm h hi o0 ho0
      rw [ht h (Ext.refl h) _ ho0] at e
      simp only [Option.map_some, Option.some.injEq, Prod.mk.injEq] at e
      obtain ⟨rfl, rfl⟩ := e
      have hvl : v < h.vals.length := (List.getElem?_eq_some_iff.1 hv0).1
      have he := ext_push h (.table t) (h.vals.set v h.objs.length)
      have hi' : Inv den { h with objs := h.objs ++ [.table t], vals := h.vals.set v h.objs.length } := by
        refine inv_push den hm h hi _ _ ?_ ?_
        · intro w o hw
          rw [List.getElem?_set] at hw
          split at hw
          · cases hw; omega
          · have := hi.vals w o hw
            omega
        · intro st q hh; cases hh
      have hself : (h.vals.set v h.objs.length)[v]? = some h.objs.length := by
        rw [List.getElem?_set_self hvl]
      refine ⟨⟨he, hi', by simp, ?_⟩, hself, rfl, by simp⟩
      intro w hw
      by_cases hwv : w = v
      · subst hwv
        have e1 : read den h w = some t := by
          rw [read, hv0]; exact ht h (Ext.refl h) _ ho0
        rw [e1, read]
        show (((h.vals.set w h.objs.length)[w]?).bind _) = some t
        rw [hself]
        simp [eval]
      · have e1 : h.vals[w]? = some h.vals[w] := List.getElem?_eq_getElem hw
        refine read_ext den hm hi he w _ e1 ?_
        show (h.vals.set v h.objs.length)[w]? = _
        rw [List.getElem?_set_ne (fun e => hwv e.symm), e1]

theorem dataOf_later (hm : Monotone den) (h : Heap T Q) (hi : Inv den h) (st v : Nat) (h' : Heap T Q) (o : Nat)
    (e : dataOf den h st v = some (h', o)) :
    Later den h h' ∧ h'.vals[v]? = some o ∧ h'.states = h.states ∧ h'.vals.length = h.vals.length := by
  unfold dataOf at e
  split at e
  · cases e
  · rename_i o0 hv0
    split at e
    · split at e
      · exact materialise_later den hm h hi v h' o e
      · simp only [Option.some.injEq, Prod.mk.injEq] at e
        obtain ⟨rfl, rfl⟩ := e
        exact ⟨Later.refl den hi, hv0, rfl, rfl⟩
    · simp only [Option.some.injEq, Prod.mk.injEq] at e
      obtain ⟨rfl, rfl⟩ := e
      exact ⟨Later.refl den hi, hv0, rfl, rfl⟩
    · cases e

theorem look_bind (h : Heap T Q) (st : Nat) (n : String) (o : Nat) (hst : st < h.states.length)
    (st' : Nat) (n' : String) :
    ({ h with states := h.states.set st ((n, o) :: h.states.getD st []) } : Heap T Q).look st' n' =
      if st' = st ∧ n = n' then some o else h.look st' n' := by
  by_cases hs : st' = st
  · subst hs
    simp only [Heap.look, List.getD_eq_getElem?_getD, List.getElem?_set_self hst, Option.getD_some, find, true_and]
  · rw [if_neg (fun c => hs c.1)]
    simp only [Heap.look, List.getD_eq_getElem?_getD]
    rw [List.getElem?_set_ne (fun e => hs e.symm)]

theorem register_later (hm : Monotone den) (st : Nat) : ∀ (tables : List (String × Nat)) (h : Heap T Q),
    Inv den h → st < h.states.length →
    Later den h (register den st h tables).1 ∧
    ((register den st h tables).2 = true → ∀ n v, (n, v) ∈ tables →
      ∃ o, (register den st h tables).1.look st n = some o ∧
        eval den (register den st h tables).1 (register den st h tables).1.objs.length o = read den h v ∧
        v < h.vals.length)
  | [], h, hi, _ => ⟨Later.refl den hi, fun _ n v hm => by cases hm⟩
  | (n, v) :: rest, h, hi, hst => by
      rw [register]
      cases hd : dataOf den h st v with
      | none => exact ⟨Later.refl den hi, fun hf => by cases hf⟩
      | some p =>
        obtain ⟨h1, o⟩ := p
        obtain ⟨hl, hv1, hss, hlen⟩ := dataOf_later den hm h hi st v h1 o hd
        have hv : v < h.vals.length := by
          unfold dataOf at hd
          cases hx : h.vals[v]? with
          | none => rw [hx] at hd; cases hd
          | some _ => exact (List.getElem?_eq_some_iff.1 hx).1
        have ho1 := hl.inv.vals v o hv1
        simp only
        -- the value of `o` in any later heap is what the argument shows
        have hval : ∀ h2 : Heap T Q, Later den h1 h2 → eval den h2 h2.objs.length o = read den h v := by
          intro h2 hl2
          have hlt : o < h2.objs.length := by
            have e : h1.objs[o]? = some h1.objs[o] := List.getElem?_eq_getElem ho1
            exact (List.getElem?_eq_some_iff.1 (hl2.ext.objs o _ e)).1
          rw [← hl.keep v hv, read, hv1]
          exact (eval_ext den hm hl.inv hl2.ext o ho1 _ _ ho1 hlt).1
        cases hlk : h1.look st n with
        | some o2 =>
          simp only
          by_cases hoo : o2 = o
          · subst hoo
            rw [if_neg (by simp)]
            have hst1 : st < h1.states.length := by rw [hss]; exact hst
            obtain ⟨ih1, ih2⟩ := register_later hm st rest h1 hl.inv hst1
            refine ⟨hl.trans den ih1, fun hok m w hmem => ?_⟩
            rcases List.mem_cons.1 hmem with e | hmem
            · cases e
              exact ⟨o2, ih1.ext.names st n o2 hlk, hval _ ih1, hv⟩
            · obtain ⟨o', g1, g2, g3⟩ := ih2 hok m w hmem
              exact ⟨o', g1, by rw [g2, hl.keep w (by omega)], by omega⟩
          · rw [if_pos hoo]
            exact ⟨hl, fun hf => by cases hf⟩
        | none =>
          simp only
          have hst1 : st < h1.states.length := by rw [hss]; exact hst
          generalize hh2 : ({ h1 with states := h1.states.set st ((n, o) :: h1.states.getD st []) } : Heap T Q) = h2
          have hlook : ∀ st' n', h2.look st' n' = if st' = st ∧ n = n' then some o else h1.look st' n' := by
            intro st' n'
            rw [← hh2]
            exact look_bind h1 st n o hst1 st' n'
          have he2 : Ext h1 h2 := by
            refine ⟨fun _ _ e => by rw [← hh2]; exact e, by rw [← hh2]; simp, fun st' n' o' e => ?_⟩
            rw [hlook]
            by_cases hc : st' = st ∧ n = n'
            · obtain ⟨rfl, rfl⟩ := hc
              rw [hlk] at e
              cases e
            · rw [if_neg hc, e]
          have hobj : h2.objs = h1.objs := by rw [← hh2]
          have hvv : h2.vals = h1.vals := by rw [← hh2]
          have hi2 : Inv den h2 := by
            refine ⟨fun w o' e => ?_, fun st' n' o' e => ?_, fun o' st' q e => ?_⟩
            · rw [hobj]; rw [hvv] at e; exact hl.inv.vals w o' e
            · rw [hobj]
              rw [hlook] at e
              split at e
              · cases e; exact ho1
              · exact hl.inv.names st' n' o' e
            · rw [hobj] at e
              obtain ⟨g1, env, t, g2, g3⟩ := hl.inv.query o' st' q e
              refine ⟨Nat.lt_of_lt_of_le g1 he2.states, env, t, g2, fun m x hx => ?_⟩
              obtain ⟨o'', f1, f2, f3⟩ := g3 m x hx
              refine ⟨o'', he2.names st' m o'' f1, f2, ?_⟩
              have hlt := hl.inv.names st' m o'' f1
              rw [(eval_ext den hm hl.inv he2 o'' hlt (o'' + 1) (o'' + 1) (by omega) (by omega)).1, f3]
          have hl2 : Later den h1 h2 := by
            refine ⟨he2, hi2, by rw [hvv]; exact Nat.le_refl _, fun w hw => ?_⟩
            have e1 : h1.vals[w]? = some h1.vals[w] := List.getElem?_eq_getElem hw
            exact read_ext den hm hl.inv he2 w _ e1 (by rw [hvv, e1])
          obtain ⟨ih1, ih2⟩ := register_later hm st rest h2 hi2 (Nat.lt_of_lt_of_le hst1 he2.states)
          refine ⟨(hl.trans den hl2).trans den ih1, fun hok m w hmem => ?_⟩
          rcases List.mem_cons.1 hmem with e | hmem
          · cases e
            refine ⟨o, ih1.ext.names st n o (by rw [hlook, if_pos ⟨rfl, rfl⟩]), hval _ (hl2.trans den ih1), hv⟩
          · obtain ⟨o', g1, g2, g3⟩ := ih2 hok m w hmem
            rw [hvv] at g3
            exact ⟨o', g1, by rw [g2, hl2.keep w (by omega), hl.keep w (by omega)], by omega⟩

end Verif.Table.Sql
