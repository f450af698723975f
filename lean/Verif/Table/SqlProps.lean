import Verif.Table.Sql

/-
C86: a SQL result is a function of the query and of the tables passed, whenever it is read.
-/
namespace Verif.Table.Sql

variable {T Q : Type} (den : Q → (String → Option T) → Option T)

theorem find_mem {n : String} {v : Nat} : ∀ {l : List (String × Nat)}, find n l = some v → (n, v) ∈ l
  | (k, o) :: l, h => by
      rw [find] at h
      split at h
      · rename_i hk
        cases h
        subst hk
        exact List.mem_cons_self
      · exact List.mem_cons_of_mem _ (find_mem h)

theorem pickState_lt (h : Heap T Q) (hi : Inv den h) : ∀ (tables : List (String × Nat)) (st : Nat),
    pickState h tables = some st → st < h.states.length
  | [], _, e => by cases e
  | (n, v) :: rest, st, e => by
      rw [pickState] at e
      split at e
      · rename_i st' q hq
        cases e
        cases ho : h.vals[v]? with
        | none => rw [ho] at hq; cases hq
        | some o =>
          rw [ho] at hq
          exact (hi.query o _ q hq).1
      · exact pickState_lt h hi rest st e

theorem addState_later (hm : Monotone den) (h : Heap T Q) (hi : Inv den h) :
    Later den h { h with states := h.states ++ [[]] } := by
  have hlook : ∀ st n, ({ h with states := h.states ++ [[]] } : Heap T Q).look st n = h.look st n := by
    intro st n
    simp only [Heap.look, List.getD_eq_getElem?_getD]
    by_cases hs : st < h.states.length
    · rw [List.getElem?_append_left hs]
    · rw [List.getElem?_append_right (by omega), List.getElem?_eq_none (l := h.states) (by omega)]
      by_cases h0 : st = h.states.length
      · subst h0; simp
      · rw [List.getElem?_eq_none (by simp; omega)]
  have he : Ext h { h with states := h.states ++ [[]] } :=
    ⟨fun _ _ e => e, by simp, fun st n o e => by rw [hlook]; exact e⟩
  refine ⟨he, ⟨hi.vals, fun st n o e => ?_, fun o st q e => ?_⟩, Nat.le_refl _, fun v hv => ?_⟩
  · rw [hlook] at e
    exact hi.names st n o e
  · obtain ⟨h1, env, t, h2, h3⟩ := hi.query o st q e
    refine ⟨by simp; omega, env, t, h2, fun n x hx => ?_⟩
    obtain ⟨o', g1, g2, g3⟩ := h3 n x hx
    refine ⟨o', by rw [hlook]; exact g1, g2, ?_⟩
    rw [(eval_ext den hm hi he o' (hi.names st n o' g1) (o' + 1) (o' + 1) (by omega) (by omega)).1, g3]
  · have e1 : h.vals[v]? = some h.vals[v] := List.getElem?_eq_getElem hv
    exact read_ext den hm hi he v _ e1 e1

/-- The heap and state `run_sql` starts registering in. -/
theorem start_later (hm : Monotone den) (h : Heap T Q) (hi : Inv den h) (tables : List (String × Nat)) :
    Later den h (startState h tables).1 ∧ (startState h tables).2 < (startState h tables).1.states.length := by
  unfold startState
  cases hp : pickState h tables with
  | some st => exact ⟨Later.refl den hi, pickState_lt den h hi tables st hp⟩
  | none => exact ⟨addState_later den hm h hi, by simp⟩

/-- `run_sql`: everything held before is kept, and a result, if there is one, is a new cell that shows the
answer of the query on the tables passed. -/
theorem runSql_later (hm : Monotone den) (h : Heap T Q) (hi : Inv den h) (q : Q) (tables : List (String × Nat)) :
    Later den h (runSql den h q tables).1 ∧
    ∀ r, (runSql den h q tables).2 = some r → r < (runSql den h q tables).1.vals.length ∧
      ∀ t, den q (passed den h tables) = some t → read den (runSql den h q tables).1 r = some t := by
  unfold runSql
  obtain ⟨hl0, hst⟩ := start_later den hm h hi tables
  generalize startState h tables = s at *
  obtain ⟨hl1, hreg⟩ := register_later den hm s.2 tables s.1 hl0.inv hst
  simp only
  generalize register den s.2 s.1 tables = r at *
  have hl := hl0.trans den hl1
  cases hb : r.2 with
  | false => exact ⟨hl, fun r hr => by cases hr⟩
  | true =>
    simp only [if_true]
    cases hd : den q fun n => (r.1.look s.2 n).bind (eval den r.1 r.1.objs.length) with
    | none => exact ⟨hl, fun r hr => by cases hr⟩
    | some t =>
      simp only
      have hst' : s.2 < r.1.states.length := Nat.lt_of_lt_of_le hst hl1.ext.states
      have he := ext_push r.1 (.query s.2 q) (r.1.vals ++ [r.1.objs.length])
      have henv : ∀ n y, (r.1.look s.2 n).bind (eval den r.1 r.1.objs.length) = some y →
          ∃ o', r.1.look s.2 n = some o' ∧ o' < r.1.objs.length ∧ eval den r.1 (o' + 1) o' = some y := by
        intro n y hy
        cases hlk : r.1.look s.2 n with
        | none => rw [hlk] at hy; cases hy
        | some o' =>
          rw [hlk] at hy
          have ho' := hl.inv.names s.2 n o' hlk
          refine ⟨o', rfl, ho', ?_⟩
          rw [← hy]
          exact (eval_ext den hm hl.inv (Ext.refl _) o' ho' _ _ ho' (by omega)).1
      have hi' : Inv den { r.1 with objs := r.1.objs ++ [.query s.2 q], vals := r.1.vals ++ [r.1.objs.length] } := by
        refine inv_push den hm r.1 hl.inv _ _ ?_ ?_
        · intro v o e
          by_cases hv : v < r.1.vals.length
          · rw [List.getElem?_append_left hv] at e
            have := hl.inv.vals v o e
            omega
          · rw [List.getElem?_append_right (by omega)] at e
            by_cases h0 : v - r.1.vals.length = 0
            · rw [h0] at e; simp at e; omega
            · rw [List.getElem?_eq_none (by simp; omega)] at e; cases e
        · intro st q' e
          cases e
          exact ⟨hst', _, t, hd, henv⟩
      have hlast : Later den r.1 { r.1 with objs := r.1.objs ++ [.query s.2 q], vals := r.1.vals ++ [r.1.objs.length] } := by
        refine ⟨he, hi', by simp, fun v hv => ?_⟩
        have e1 : r.1.vals[v]? = some r.1.vals[v] := List.getElem?_eq_getElem hv
        refine read_ext den hm hl.inv he v _ e1 ?_
        show (r.1.vals ++ [r.1.objs.length])[v]? = _
        rw [List.getElem?_append_left hv, e1]
      refine ⟨hl.trans den hlast, fun rr hr => ?_⟩
      cases hr
      refine ⟨by simp, fun t' ht' => ?_⟩
      have hv : ({ r.1 with objs := r.1.objs ++ [.query s.2 q], vals := r.1.vals ++ [r.1.objs.length] } : Heap T Q).vals[r.1.vals.length]? = some r.1.objs.length := by
        show (r.1.vals ++ [r.1.objs.length])[r.1.vals.length]? = _
        simp
      have hob : ({ r.1 with objs := r.1.objs ++ [.query s.2 q], vals := r.1.vals ++ [r.1.objs.length] } : Heap T Q).objs[r.1.objs.length]? = some (.query s.2 q) := by
        show (r.1.objs ++ [.query s.2 q])[r.1.objs.length]? = _
        simp
      rw [read, hv]
      simp only [Option.bind_some]
      have hlen : ({ r.1 with objs := r.1.objs ++ [.query s.2 q], vals := r.1.vals ++ [r.1.objs.length] } : Heap T Q).objs.length = r.1.objs.length + 1 := by simp
      rw [hlen, eval, hob]
      refine hm q _ _ t' ht' fun n x hx => ?_
      unfold passed at hx
      cases hf : find n tables with
      | none => rw [hf] at hx; cases hx
      | some v =>
        rw [hf] at hx
        obtain ⟨o, g1, g2, g3⟩ := hreg hb n v (find_mem hf)
        have ho := hl.inv.names s.2 n o g1
        have hlk : ({ r.1 with objs := r.1.objs ++ [.query s.2 q], vals := r.1.vals ++ [r.1.objs.length] } : Heap T Q).look s.2 n = some o := g1
        rw [hlk]
        simp only [Option.bind_some] at hx ⊢
        rw [(eval_ext den hm hl.inv he o ho r.1.objs.length r.1.objs.length ho ho).1, g2]
        by_cases hvl : v < h.vals.length
        · rw [hl0.keep v hvl, hx]
        · rw [read, List.getElem?_eq_none (by omega)] at hx
          cases hx

theorem stepOp_later (hm : Monotone den) (h : Heap T Q) (hi : Inv den h) (op : Op T Q) :
    Later den h (stepOp den h op) := by
  cases op with
  | const t =>
    have he := ext_push h (.table t) (h.vals ++ [h.objs.length])
    refine ⟨he, ?_, by simp [stepOp, newTable], fun v hv => ?_⟩
    · refine inv_push den hm h hi _ _ ?_ ?_
      · intro v o e
        by_cases hv : v < h.vals.length
        · rw [List.getElem?_append_left hv] at e
          have := hi.vals v o e
          omega
        · rw [List.getElem?_append_right (by omega)] at e
          by_cases h0 : v - h.vals.length = 0
          · rw [h0] at e; simp at e; omega
          · rw [List.getElem?_eq_none (by simp; omega)] at e; cases e
      · intro st q e; cases e
    · have e1 : h.vals[v]? = some h.vals[v] := List.getElem?_eq_getElem hv
      refine read_ext den hm hi he v _ e1 ?_
      show (h.vals ++ [h.objs.length])[v]? = _
      rw [List.getElem?_append_left hv, e1]
  | sql q tables => exact (runSql_later den hm h hi q tables).1
  | data v =>
    have es : stepOp den h (.data v) = ((materialise den h v).map Prod.fst).getD h := rfl
    rw [es]
    cases hm' : materialise den h v with
    | none => exact Later.refl den hi
    | some p =>
      obtain ⟨h', o⟩ := p
      exact (materialise_later den hm h hi v h' o hm').1

theorem run_later (hm : Monotone den) : ∀ (ops : List (Op T Q)) (h : Heap T Q), Inv den h → Later den h (run den h ops)
  | [], h, hi => Later.refl den hi
  | op :: ops, h, hi => by
      have h1 := stepOp_later den hm h hi op
      exact h1.trans den (run_later hm ops _ h1.inv)

theorem inv_empty : Inv den ({} : Heap T Q) :=
  ⟨fun v o e => (by simp at e), fun st n o e => (by simp [Heap.look, find] at e), fun o st q e => (by simp at e)⟩

/-- **C86.** After any history of operations, whoever holds a table sees the same contents in it after any
further history: of new tables, of queries (whatever names they use, and whether they succeed or fail) and
of tables read in full. No query changes what an earlier lazy result stands for. -/
theorem held_tables_stable (hm : Monotone den) (before after : List (Op T Q)) (v : Nat)
    (hv : v < (run den {} before).vals.length) :
    ∃ t, read den (run den {} before) v = some t ∧ read den (run den (run den {} before) after) v = some t := by
  have h1 := run_later den hm before {} (inv_empty den)
  have h2 := run_later den hm after _ h1.inv
  obtain ⟨t, ht⟩ := read_some den hm _ h1.inv v hv
  exact ⟨t, ht, by rw [h2.keep v hv, ht]⟩

/-- **C86.** A query that returns a result returns the answer of the query on the tables passed to it, as
they are at the call, and this is what is read from it at any later time. (The hypothesis that the query has
an answer on the tables passed excludes queries that name other tables; see
`hidden_table_violated`.) -/
theorem sql_result_partial (hm : Monotone den) (before after : List (Op T Q)) (q : Q) (tables : List (String × Nat))
    (t : T) (ht : den q (passed den (run den {} before) tables) = some t) (r : Nat)
    (hr : (runSql den (run den {} before) q tables).2 = some r) :
    read den (run den (runSql den (run den {} before) q tables).1 after) r = some t := by
  have h1 := run_later den hm before {} (inv_empty den)
  obtain ⟨h2, h3⟩ := runSql_later den hm _ h1.inv q tables
  obtain ⟨h4, h5⟩ := h3 r hr
  have h6 := run_later den hm after _ h2.inv
  rw [h6.keep r h4, h5 t ht]

/-! ## A toy SQL -/

/-- Queries of the examples: select a table by name, or join two. -/
inductive ToyQ
  | from' (n : String)
  | join (a b : String)
  deriving DecidableEq

/-- Their answers. -/
def toyDen : ToyQ → (String → Option (List Nat)) → Option (List Nat)
  | .from' n, env => env n
  | .join a b, env => (env a).bind fun x => (env b).map fun y => x ++ y

theorem toyDen_mono : Monotone toyDen := by
  intro q env env' t h he
  cases q with
  | from' n => exact he n t h
  | join a b =>
    simp only [toyDen, Option.bind_eq_some_iff, Option.map_eq_some_iff] at h
    obtain ⟨x, hx, y, hy, rfl⟩ := h
    simp [toyDen, he a x hx, he b y hy]

/-- The hypotheses of `sql_result_partial` are met: a query on a query, joined with a table. -/
example :
    let before : List (Op (List Nat) ToyQ) := [.const [1, 2], .sql (.from' "t") [("t", 0)], .const [3]]
    toyDen (.join "x" "u") (passed toyDen (run toyDen {} before) [("x", 1), ("u", 2)]) = some [1, 2, 3] ∧
    (runSql toyDen (run toyDen {} before) (.join "x" "u") [("x", 1), ("u", 2)]).2 = some 3 := by
  decide

/-- **C86 does not hold for a query that names a table it was not given**: it is answered from the tables of
an earlier query in the same connection (here `t`, which was given to the query whose result is passed), and
refused when that earlier result happens to have been read in full before. So whether it has an answer
depends on what else the program did, or in which order. -/
theorem hidden_table_violated :
    let h : List (Op (List Nat) ToyQ) := [.const [1, 2], .sql (.from' "t") [("t", 0)]]
    (runSql toyDen (run toyDen {} h) (.from' "t") [("x", 1)]).2 = some 2 ∧
    (runSql toyDen (run toyDen {} (h ++ [.data 1])) (.from' "t") [("x", 1)]).2 = none ∧
    toyDen (.from' "t") (passed toyDen (run toyDen {} h) [("x", 1)]) = none := by
  decide

/-- **C86 does not hold for two queries that use one name for different tables** over a common lazy input:
the second is refused, although each alone is answered. -/
theorem name_clash_violated :
    let h : List (Op (List Nat) ToyQ) :=
      [.const [1], .sql (.from' "a") [("a", 0)], .const [2], .const [3]]
    (runSql toyDen (run toyDen {} h) (.join "x" "t") [("x", 1), ("t", 3)]).2 = some 4 ∧
    (runSql toyDen (run toyDen {} (h ++ [.sql (.join "x" "t") [("x", 1), ("t", 2)]])) (.join "x" "t")
      [("x", 1), ("t", 3)]).2 = none := by
  decide

/-- **C86 does not hold when a table is read in full between two queries that use it under one name**: the
cell then holds another object, and the second query is refused although it is given the same table under
the same name. Reading in full is done by independent operations (`table2tensor`, sending the table), so
under the asynchronous executor the outcome depends on the schedule. -/
theorem read_between_violated :
    let h : List (Op (List Nat) ToyQ) :=
      [.const [1], .sql (.from' "a") [("a", 0)], .sql (.from' "x") [("x", 1)]]
    (runSql toyDen (run toyDen {} h) (.join "y" "x") [("y", 2), ("x", 1)]).2 = some 3 ∧
    (runSql toyDen (run toyDen {} (h ++ [.data 1])) (.join "y" "x") [("y", 2), ("x", 1)]).2 = none := by
  decide

/-! ## When a query is refused -/

/-- **C86**: a query whose tables are all Arrow tables (nothing lazy), under distinct names, is never
refused for reasons of naming: it has a result exactly when it has an answer on the tables passed. -/
theorem fresh_query_answered (hm : Monotone den) (before : List (Op T Q)) (q : Q) (tables : List (String × Nat))
    (hn : (tables.map Prod.fst).Nodup)
    (ht : ∀ n v, (n, v) ∈ tables → ∃ (o : Nat) (x : T), (run den {} before).vals[v]? = some o ∧
      (run den {} before).objs[o]? = some (Obj.table x)) :
    (∃ r, (runSql den (run den {} before) q tables).2 = some r) ↔
      ∃ t, den q (passed den (run den {} before) tables) = some t := by
  generalize hh : run den {} before = h at *
  have hi : Inv den h := by
    rw [← hh]
    exact (run_later den hm before {} (inv_empty den)).inv
  have hp : pickState h tables = none := by
    clear hn
    induction tables with
    | nil => rfl
    | cons p rest ih =>
      obtain ⟨n, v⟩ := p
      obtain ⟨o, x, h1, h2⟩ := ht n v List.mem_cons_self
      rw [pickState, h1]
      simp only [Option.bind_some, h2]
      exact ih fun n v hm => ht n v (List.mem_cons_of_mem _ hm)
  -- registering Arrow tables under fresh names succeeds and touches the catalog only
  have reg : ∀ (l : List (String × Nat)) (c : List (String × Nat)), (l.map Prod.fst).Nodup →
      (∀ n ∈ l.map Prod.fst, find n c = none) →
      (∀ n v, (n, v) ∈ l → ∃ (o : Nat) (x : T), h.vals[v]? = some o ∧ h.objs[o]? = some (Obj.table x)) →
      ∃ c', register den h.states.length { h with states := h.states ++ [c] } l =
        ({ h with states := h.states ++ [c'] }, true) ∧
        ∀ n, find n c' = match find n l with
          | some v => h.vals[v]?
          | none => find n c := by
    intro l
    induction l with
    | nil => intro c _ _ _; exact ⟨c, rfl, fun n => rfl⟩
    | cons p rest ih =>
      intro c hn hc hl
      obtain ⟨n, v⟩ := p
      obtain ⟨o, x, h1, h2⟩ := hl n v List.mem_cons_self
      rw [List.map_cons, List.nodup_cons] at hn
      have hlk : ({ h with states := h.states ++ [c] } : Heap T Q).look h.states.length n = none := by
        simp only [Heap.look, List.getD_eq_getElem?_getD]
        simpa using hc n (by simp)
      have hd : dataOf den { h with states := h.states ++ [c] } h.states.length v =
          some ({ h with states := h.states ++ [c] }, o) := by
        simp only [dataOf, h1, h2]
      have hset : (h.states ++ [c]).set h.states.length ((n, o) :: (h.states ++ [c]).getD h.states.length []) =
          h.states ++ [(n, o) :: c] := by
        rw [List.set_append_right _ _ (Nat.le_refl _)]
        simp [List.getD_eq_getElem?_getD]
      obtain ⟨c', e1, e2⟩ := ih ((n, o) :: c) hn.2 (by
        intro m hm
        have hne : ¬ n = m := by
          intro e
          subst e
          exact hn.1 hm
        rw [find, if_neg hne]
        exact hc m (by simp at hm ⊢; exact .inr hm)) (fun m w hm => hl m w (List.mem_cons_of_mem _ hm))
      refine ⟨c', ?_, ?_⟩
      · rw [register, hd]
        simp only [hlk, hset]
        exact e1
      · intro m
        rw [e2 m, find]
        by_cases hmn : n = m
        · subst hmn
          rw [if_pos rfl]
          have hfr : find n rest = none := by
            cases hf : find n rest with
            | none => rfl
            | some w => exact absurd (List.mem_map_of_mem (f := Prod.fst) (find_mem hf)) hn.1
          simp [hfr, find, h1]
        · rw [if_neg hmn, find, if_neg hmn]
  obtain ⟨c', e1, e2⟩ := reg tables [] hn (fun n _ => rfl) ht
  have henv : (fun n => (({ h with states := h.states ++ [c'] } : Heap T Q).look h.states.length n).bind
      (eval den { h with states := h.states ++ [c'] } h.objs.length)) = passed den h tables := by
    funext n
    have hlk : ({ h with states := h.states ++ [c'] } : Heap T Q).look h.states.length n = find n c' := by
      simp [Heap.look, List.getD_eq_getElem?_getD]
    rw [hlk, e2 n, passed]
    cases hf : find n tables with
    | none => simp [find]
    | some v =>
      obtain ⟨o, x, h1, h2⟩ := ht n v (find_mem hf)
      simp only [h1, read, Option.bind_some]
      have ho : o < h.objs.length := (List.getElem?_eq_some_iff.1 h2).1
      cases hlen : h.objs.length with
      | zero => omega
      | succ k => rw [eval, eval]; simp only [h2]
  unfold runSql startState
  rw [hp]
  simp only [e1, if_true]
  have hobj : ({ h with states := h.states ++ [c'] } : Heap T Q).objs.length = h.objs.length := rfl
  rw [show (den q fun n => (({ h with states := h.states ++ [c'] } : Heap T Q).look h.states.length n).bind
      (eval den { h with states := h.states ++ [c'] } h.objs.length)) = den q (passed den h tables) from by rw [henv]]
  cases hd : den q (passed den h tables) with
  | none => simp
  | some t => simp

example :
    let before : List (Op (List Nat) ToyQ) := [.const [1, 2], .const [3]]
    ((run toyDen {} before).vals[0]? = some 0) ∧
    (runSql toyDen (run toyDen {} before) (.join "a" "b") [("a", 0), ("b", 1)]).2 = some 2 := by decide

end Verif.Table.Sql
