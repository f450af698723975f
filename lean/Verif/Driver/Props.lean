import Verif.Driver.Model
import Mathlib.Data.List.Forall2
/-!
# C32 — the driver collects one value per party per output
-/
namespace Verif.Driver
variable {V E : Type}

/-! ## Specification: vectors of values, no URIs and no stores -/

/-- A distributed value: what each party holds (`none`: nothing). -/
abbrev Vec (V : Type) := List (Option V)

/-- The inputs of party `i`: the i-th component of every argument. -/
def inputsOf (args : List (Vec V)) (i : Nat) : List (Option V) := args.map (fun a => (a[i]?).join)

/-- The i-th party's results for `m` outputs, as `m` vectors. -/
def vectors (m : Nat) (rows : List (List (Option V))) : List (Vec V) :=
  (List.range m).map (fun j => rows.map (fun row => (row[j]?).join))

/-- All returned, or the first exception. -/
def allOk : List (Except E (List (Option V))) → Except E (List (List (Option V)))
  | [] => .ok []
  | .error e :: _ => .error e
  | .ok r :: rest => (allOk rest).map (fun rs => r :: rs)

/-- One operation on vectors for `n` parties. -/
def applyOp (n : Nat) (op : Op V E) (env : List (Vec V)) : Except E (List (Vec V)) :=
  (allOk (op.body ((List.range n).map (inputsOf (op.args.map (fun a => env.getD a [])))))).map
    (vectors op.numOutputs)

/-- The program on vectors. -/
def specRun (n : Nat) : List (Op V E) → List (Vec V) → Except E (List (Vec V))
  | [], env => .ok env
  | op :: ops, env => match applyOp n op env with
    | .error e => .error e
    | .ok outs => specRun n ops (env ++ outs)

/-- The workers behave: as many outcomes as parties, as many results as outputs. -/
def Op.WF (n : Nat) (op : Op V E) : Prop :=
  ∀ ins : List (List (Option V)), ins.length = n → (op.body ins).length = n ∧
    ∀ r ∈ op.body ins, ∀ rs, r = .ok rs → rs.length = op.numOutputs

/-! ## Proof -/

/-- A variable's URIs are all present in their stores. -/
def Valid (stores : List (Store V)) (x : DriverVar) : Prop :=
  x.length = stores.length ∧ ∀ (i : Nat) (u : Uri) (st : Store V), x[i]? = some (some u) → stores[i]? = some st → u < st.length

/-- The stores only grow. -/
def Grow (a b : List (Store V)) : Prop := List.Forall₂ (fun s t => ∃ l, t = s ++ l) a b

theorem putAll_grow (st : Store V) (vs : List (Option V)) : ∃ l, (putAll st vs).1 = st ++ l := by
  induction vs generalizing st with
  | nil => exact ⟨[], by simp [putAll]⟩
  | cons v vs ih =>
    cases v with
    | none => exact ih st
    | some v =>
      obtain ⟨l, hl⟩ := ih (st ++ [v])
      exact ⟨v :: l, by simp [putAll, hl]⟩

/-- Reading a stored result back. -/
def readU (st : Store V) (u : Option Uri) : Option V := match u with
  | none => none
  | some u => st[u]?

theorem readU_grow {st : Store V} {u : Option Uri} (l : List V) (h : ∀ k, u = some k → k < st.length) :
    readU (st ++ l) u = readU st u := by
  cases u with
  | none => rfl
  | some k => simp only [readU]; rw [List.getElem?_append_left (h k rfl)]

theorem putAll_read (st : Store V) (vs : List (Option V)) :
    (putAll st vs).2.map (readU (putAll st vs).1) = vs ∧ (∀ k, some k ∈ (putAll st vs).2 → k < (putAll st vs).1.length) := by
  induction vs generalizing st with
  | nil => simp [putAll]
  | cons v vs ih =>
    cases v with
    | none =>
      obtain ⟨h1, h2⟩ := ih st
      refine ⟨by simp only [putAll, List.map_cons, h1]; rfl, fun k hk => h2 k ?_⟩
      simpa [putAll] using hk
    | some v =>
      obtain ⟨h1, h2⟩ := ih (st ++ [v])
      obtain ⟨l, hl⟩ := putAll_grow (st ++ [v]) vs
      constructor
      · simp only [putAll, List.map_cons, h1]
        congr 1
        simp only [readU]
        rw [hl]; simp
      · intro k hk
        simp only [putAll, List.mem_cons, Option.some.injEq] at hk
        rcases hk with rfl | hk
        · show _ < (putAll (st ++ [v]) vs).1.length
          rw [hl]; simp
        · exact h2 k hk

theorem resolve_ok (st : Store V) (us : List (Option Uri)) (h : ∀ k, some k ∈ us → k < st.length) :
    resolve (E := E) st us = .ok (us.map (readU st)) := by
  induction us with
  | nil => rfl
  | cons u us ih =>
    have ih := ih (fun k hk => h k (by simp [hk]))
    cases u with
    | none => simp [resolve, ih, Except.map, readU]
    | some k =>
      have hk := h k (by simp)
      simp [resolve, List.getElem?_eq_getElem hk, ih, Except.map, readU]

theorem fetch_eq (stores : List (Store V)) (x : DriverVar) : fetch stores x = List.zipWith readU stores x := rfl

theorem fetch_get (stores : List (Store V)) (x : DriverVar) (h : x.length = stores.length) (i : Nat) (st : Store V)
    (hs : stores[i]? = some st) : ((fetch stores x)[i]?).join = readU st ((x[i]?).join) := by
  rw [fetch_eq, List.getElem?_zipWith, hs]
  have hi : i < x.length := by
    rw [h]; exact (List.getElem?_eq_some_iff.1 hs).1
  rw [List.getElem?_eq_getElem hi]
  simp [readU]

theorem zipIdx_get (l : List (Store V)) : l.zipIdx.map (fun p => p.2) = List.range l.length := by
  apply List.ext_getElem <;> simp

/-- With valid arguments every rank finds its inputs, and they are the components of the fetched arguments. -/
theorem allInputs_ok (stores : List (Store V)) (args : List DriverVar) (h : ∀ a ∈ args, Valid stores a) :
    allInputs (E := E) stores args =
      ((List.range stores.length).map (inputsOf (args.map (fetch stores)))).map Except.ok := by
  apply List.ext_getElem
  · simp [allInputs]
  · intro i h1 h2
    simp only [allInputs, List.length_map, List.length_zipIdx] at h1
    simp only [allInputs, List.getElem_map, List.getElem_zipIdx, List.getElem_range, Nat.zero_add]
    have hst : stores[i]? = some stores[i] := List.getElem?_eq_getElem h1
    rw [resolve_ok]
    · simp only [partyInputs, inputsOf, List.map_map, Except.ok.injEq]
      apply List.map_congr_left
      intro a ha
      simp only [Function.comp]
      exact (fetch_get stores a (h a ha).1 i _ hst).symm
    · intro k hk
      obtain ⟨a, ha, hak⟩ := List.mem_map.1 hk
      have : a[i]? = some (some k) := by
        cases hx : a[i]? with
        | none => rw [hx] at hak; simp at hak
        | some y => rw [hx] at hak; simp at hak; rw [hak]
      exact (h a ha).2 i k _ this hst

theorem given_ok (l : List (List (Option V))) : given (E := E) (l.map Except.ok) = l := by
  unfold given
  rw [List.map_map]
  exact (List.map_congr_left (fun _ _ => rfl)).trans (List.map_id l)

theorem attach_ok (l : List (List (Option V))) (outs : List (Except E (List (Option V)))) (h : outs.length = l.length) :
    attach (l.map Except.ok) outs = outs.map (fun o => match o with
      | .ok r => .ok r
      | .error e => .error (.worker e)) := by
  induction l generalizing outs with
  | nil => simp at h; subst h; rfl
  | cons x l ih =>
    cases outs with
    | nil => simp at h
    | cons o outs =>
      simp only [List.length_cons, Nat.add_right_cancel_iff] at h
      cases o <;> simp [attach, ih outs h]

/-- The shape after storing the results of all workers. -/
theorem finishAll_spec (m : Nat) (stores : List (Store V)) (outs : List (Except E (List (Option V))))
    (hlen : outs.length = stores.length) (hm : ∀ r ∈ outs, ∀ rs, r = .ok rs → rs.length = m) :
    let fin := finishAll m stores (outs.map (fun o => match o with
      | .ok r => .ok r
      | .error e => (.error (.worker e) : Except (Exn E) (List (Option V)))))
    Grow stores fin.1 ∧
    (∀ rows, allOk outs = .ok rows → ∃ as, collect fin.2 = .ok as ∧
      List.Forall₂ (fun (p : Store V × Answer) row => row.length = m ∧ (m ≠ 0 → ∃ us, p.2 = some us ∧ us.map (readU p.1) = row ∧
        ∀ k, some k ∈ us → k < p.1.length)) (fin.1.zip as) rows ∧ as.length = stores.length) ∧
    (∀ e, allOk outs = .error e → collect fin.2 = .error (.worker e)) := by
  induction stores generalizing outs with
  | nil =>
    simp at hlen; subst hlen
    refine ⟨List.Forall₂.nil, ?_, ?_⟩
    · intro rows h
      simp only [allOk, Except.ok.injEq] at h; subst h
      exact ⟨[], rfl, List.Forall₂.nil, rfl⟩
    · intro e h; simp [allOk] at h
  | cons st stores ih =>
    cases outs with
    | nil => simp at hlen
    | cons o outs =>
      simp only [List.length_cons, Nat.add_right_cancel_iff] at hlen
      obtain ⟨g, hok, herr⟩ := ih outs hlen (fun r hr => hm r (by simp [hr]))
      cases o with
      | error e =>
        refine ⟨List.Forall₂.cons ⟨[], by simp [finish]⟩ g, ?_, ?_⟩
        · intro rows h; simp [allOk] at h
        · intro e' h
          simp only [allOk, Except.error.injEq] at h; subst h
          rfl
      | ok r =>
        have hr := hm (.ok r) (by simp) r rfl
        by_cases hm0 : m = 0
        · refine ⟨List.Forall₂.cons ⟨[], by simp [finish, hm0]⟩ g, ?_, ?_⟩
          · intro rows h
            cases hall : allOk outs with
            | error e => simp [allOk, hall, Except.map] at h
            | ok rs =>
              simp only [allOk, hall, Except.map, Except.ok.injEq] at h
              subst h
              obtain ⟨as, h1, h2, h3⟩ := hok rs hall
              refine ⟨none :: as, ?_, ?_, by simp [h3]⟩
              · simp only [List.map_cons, finishAll, finish, if_pos hm0, collect, h1, Except.map]
              · refine List.Forall₂.cons ⟨hr, fun h => absurd hm0 h⟩ h2
          · intro e h
            cases hall : allOk outs with
            | ok rs => simp [allOk, hall, Except.map] at h
            | error e' =>
              simp only [allOk, hall, Except.map, Except.error.injEq] at h
              subst h
              simp only [List.map_cons, finishAll, finish, if_pos hm0, collect, herr _ hall, Except.map]
        · obtain ⟨hread, hbound⟩ := putAll_read st r
          refine ⟨List.Forall₂.cons (by
            obtain ⟨l, hl⟩ := putAll_grow st r
            exact ⟨l, by simp only [finish, if_neg hm0, hl]⟩) g, ?_, ?_⟩
          · intro rows h
            cases hall : allOk outs with
            | error e => simp [allOk, hall, Except.map] at h
            | ok rs =>
              simp only [allOk, hall, Except.map, Except.ok.injEq] at h
              subst h
              obtain ⟨as, h1, h2, h3⟩ := hok rs hall
              refine ⟨some (putAll st r).2 :: as, ?_, ?_, by simp [h3]⟩
              · simp only [List.map_cons, finishAll, finish, if_neg hm0, collect, h1, Except.map]
              · refine List.Forall₂.cons ⟨hr, fun _ => ⟨(putAll st r).2, rfl, ?_⟩⟩ h2
                simp only [finish, if_neg hm0]
                exact ⟨hread, hbound⟩
          · intro e h
            cases hall : allOk outs with
            | ok rs => simp [allOk, hall, Except.map] at h
            | error e' =>
              simp only [allOk, hall, Except.map, Except.error.injEq] at h
              subst h
              simp only [List.map_cons, finishAll, finish, if_neg hm0, collect, herr _ hall, Except.map]

theorem Grow.length {a b : List (Store V)} (h : Grow a b) : b.length = a.length := (List.Forall₂.length_eq h).symm

theorem Grow.get {a b : List (Store V)} (h : Grow a b) {i : Nat} {t : Store V} (ht : b[i]? = some t) :
    ∃ s l, a[i]? = some s ∧ t = s ++ l := by
  induction h generalizing i with
  | nil => simp at ht
  | cons h1 h2 ih =>
    cases i with
    | zero => simp at ht; obtain ⟨l, hl⟩ := h1; exact ⟨_, l, rfl, by rw [← ht, hl]⟩
    | succ i => simp at ht; simpa using ih ht

theorem Grow.refl (a : List (Store V)) : Grow a a := by
  induction a with
  | nil => exact .nil
  | cons x xs ih => exact .cons ⟨[], by simp⟩ ih

/-- Old variables keep their values when the stores grow. -/
theorem Valid.grow {a b : List (Store V)} {x : DriverVar} (hx : Valid a x) (h : Grow a b) :
    Valid b x ∧ fetch b x = fetch a x := by
  refine ⟨⟨by rw [hx.1, h.length], ?_⟩, ?_⟩
  · intro i u t hu ht
    obtain ⟨s, l, hs, rfl⟩ := h.get ht
    have := hx.2 i u s hu hs
    rw [List.length_append]; exact Nat.lt_of_lt_of_le this (Nat.le_add_right _ _)
  · rw [fetch_eq, fetch_eq]
    apply List.ext_getElem?
    intro i
    rw [List.getElem?_zipWith, List.getElem?_zipWith]
    cases hb : b[i]? with
    | none =>
      have : a[i]? = none := by
        rw [List.getElem?_eq_none_iff] at hb ⊢; rw [h.length] at hb; exact hb
      rw [this]
    | some t =>
      obtain ⟨s, l, hs, rfl⟩ := h.get hb
      rw [hs]
      cases hxi : x[i]? with
      | none => rfl
      | some u =>
        simp only [Option.some.injEq]
        exact readU_grow l (fun k hk => hx.2 i k s (by rw [hxi, hk]) hs)

theorem zip_hostvars (m : Nat) (stores : List (Store V)) (as : List Answer) (rows : List (List (Option V)))
    (h : List.Forall₂ (fun (p : Store V × Answer) row => row.length = m ∧ (m ≠ 0 → ∃ us, p.2 = some us ∧
      us.map (readU p.1) = row ∧ ∀ k, some k ∈ us → k < p.1.length)) (stores.zip as) rows)
    (hlen : as.length = stores.length) (j : Nat) (hj : j < m) :
    let x : DriverVar := as.map (fun res => match res with
      | none => none
      | some l => (l[j]?).join)
    Valid stores x ∧ fetch stores x = rows.map (fun row => (row[j]?).join) := by
  induction stores generalizing as rows with
  | nil =>
    simp at hlen; subst hlen
    cases h
    exact ⟨⟨rfl, by simp⟩, rfl⟩
  | cons st stores ih =>
    cases as with
    | nil => simp at hlen
    | cons a as =>
      cases h with
      | cons h1 h2 =>
        rename_i row rows
        simp only [List.length_cons, Nat.add_right_cancel_iff] at hlen
        obtain ⟨hv, hf⟩ := ih as rows h2 hlen
        obtain ⟨hrow, h1⟩ := h1
        obtain ⟨us, hus, hread, hb⟩ := h1 (by omega)
        simp only at hus hread hb
        subst hus
        have hlu : us.length = m := by rw [← hrow, ← hread]; simp
        refine ⟨⟨by simp [hlen], ?_⟩, ?_⟩
        · intro i u s hu hs
          cases i with
          | zero =>
            simp at hu hs
            subst hs
            exact hb u (List.mem_of_getElem? (by
              cases hx : us[j]? with
              | none => rw [hx] at hu; simp at hu
              | some y => rw [hx] at hu; simp at hu; rw [hu] : us[j]? = some (some u)))
          | succ i => simp at hu hs; exact hv.2 i u s (by simpa using hu) hs
        · rw [fetch_eq] at hf ⊢
          simp only [List.map_cons, List.zipWith_cons_cons, hf]
          congr 1
          rw [← hread]
          simp only [List.getElem?_map]
          have : us[j]? = some us[j] := List.getElem?_eq_getElem (by omega)
          rw [this]; simp

/-- **C32 (one operation).** Dispatching an operation on all workers and collecting gives, for each output, a variable
whose fetched value is the vector of what worker `i` returned for that output, in rank order and output order; it
raises exactly when some worker raised; values held before are untouched. -/
theorem dispatch_correct (stores : List (Store V)) (op : Op V E) (args : List DriverVar)
    (hop : op.WF stores.length) (hargs : ∀ a ∈ args, Valid stores a) :
    let ins := (List.range stores.length).map (inputsOf (args.map (fetch stores)))
    let r := dispatch op.body op.numOutputs stores args
    Grow stores r.1 ∧
    (∀ rows, allOk (op.body ins) = .ok rows → ∃ outs, r.2 = .ok outs ∧ (∀ x ∈ outs, Valid r.1 x) ∧
      outs.map (fetch r.1) = vectors op.numOutputs rows) ∧
    (∀ e, allOk (op.body ins) = .error e → r.2 = .error (.worker e)) := by
  intro ins r
  have hlen : ins.length = stores.length := by simp [ins]
  obtain ⟨hb1, hb2⟩ := hop ins hlen
  have hall := allInputs_ok (E := E) stores args hargs
  have hr : r = ((finishAll op.numOutputs stores ((op.body ins).map (fun o => match o with
      | .ok r => .ok r
      | .error e => (.error (.worker e) : Except (Exn E) (List (Option V)))))).1,
      (collect (finishAll op.numOutputs stores ((op.body ins).map (fun o => match o with
      | .ok r => .ok r
      | .error e => (.error (.worker e) : Except (Exn E) (List (Option V)))))).2).map
        (fun rs => collectToHostvars rs op.numOutputs)) := by
    show dispatch op.body op.numOutputs stores args = _
    unfold dispatch
    simp only
    rw [hall, given_ok, attach_ok _ _ (by rw [hb1, hlen])]
  obtain ⟨g, hok, herr⟩ := finishAll_spec op.numOutputs stores (op.body ins) hb1 hb2
  rw [hr]
  refine ⟨g, ?_, ?_⟩
  · intro rows hrows
    obtain ⟨as, h1, h2, h3⟩ := hok rows hrows
    refine ⟨collectToHostvars as op.numOutputs, by simp only [h1, Except.map], ?_, ?_⟩
    · intro x hx
      obtain ⟨j, hj, rfl⟩ := List.mem_map.1 hx
      exact (zip_hostvars op.numOutputs _ as rows h2 (by rw [h3, g.length]) j (List.mem_range.1 hj)).1
    · unfold collectToHostvars vectors
      rw [List.map_map]
      apply List.map_congr_left
      intro j hj
      exact (zip_hostvars op.numOutputs _ as rows h2 (by rw [h3, g.length]) j (List.mem_range.1 hj)).2
  · intro e he
    simp only [herr e he, Except.map]

/-- Every operation refers to variables that exist when it runs (the graph builder guarantees it, C07). -/
def Scoped (n : Nat) : List (Op V E) → Prop
  | [] => True
  | op :: ops => (∀ a ∈ op.args, a < n) ∧ Scoped (n + op.numOutputs) ops

/-- **C32.** Running any straight-line program through the driver — every operation sent to all workers, results stored
there, only URIs kept by the driver — and fetching gives what the program computes on vectors of party values; it raises
exactly when some worker raises. -/
theorem driver_correct (ops : List (Op V E)) (stores : List (Store V)) (env : List DriverVar)
    (hops : ∀ op ∈ ops, op.WF stores.length) (henv : ∀ x ∈ env, Valid stores x) (hsc : Scoped env.length ops) :
    (∀ env', specRun stores.length ops (env.map (fetch stores)) = .ok env' →
      ∃ outs, (exec ops stores env).2 = .ok outs ∧ outs.map (fetch (exec ops stores env).1) = env') ∧
    (∀ e, specRun stores.length ops (env.map (fetch stores)) = .error e →
      (exec ops stores env).2 = .error (.worker e)) := by
  induction ops generalizing stores env with
  | nil =>
    refine ⟨fun env' h => ⟨env, rfl, ?_⟩, fun e h => by simp [specRun] at h⟩
    simp only [specRun, Except.ok.injEq] at h; exact h
  | cons op ops ih =>
    obtain ⟨hs1, hs2⟩ := hsc
    have hargs : ∀ a ∈ op.args.map (fun a => env.getD a []), Valid stores a := by
      intro x hx
      obtain ⟨a, ha, rfl⟩ := List.mem_map.1 hx
      have hlt := hs1 a ha
      have : env.getD a [] = env[a] := by simp [List.getD, List.getElem?_eq_getElem hlt]
      rw [this]; exact henv _ (List.getElem_mem _)
    have hd := dispatch_correct stores op _ (hops op (by simp)) hargs
    simp only at hd
    have heq : (op.args.map (fun a => env.getD a [])).map (fetch stores) =
        op.args.map (fun a => (env.map (fetch stores)).getD a []) := by
      rw [List.map_map]
      apply List.map_congr_left
      intro a ha
      have hlt := hs1 a ha
      simp [List.getD, List.getElem?_eq_getElem hlt]
    rw [heq] at hd
    obtain ⟨g, hok, herr⟩ := hd
    unfold specRun applyOp exec
    rcases hx : dispatch op.body op.numOutputs stores (op.args.map (fun a => env.getD a [])) with ⟨stores', res⟩
    rw [hx] at g hok herr
    simp only at g hok herr
    cases hall : allOk (op.body ((List.range stores.length).map (inputsOf (op.args.map
        (fun a => (env.map (fetch stores)).getD a []))))) with
    | error e =>
      rw [herr e hall]
      simp [Except.map]
    | ok rows =>
      obtain ⟨outs, h1, h2, h3⟩ := hok rows hall
      rw [h1]
      simp only [Except.map]
      have hold : env.map (fetch stores) = env.map (fetch stores') :=
        List.map_congr_left (fun x hx => ((henv x hx).grow g).2.symm)
      rw [← h3, hold, ← List.map_append, ← g.length]
      have hol : outs.length = op.numOutputs := by
        have := congrArg List.length h3; simpa [vectors] using this
      refine ih stores' (env ++ outs) (fun o ho => by rw [g.length]; exact hops o (by simp [ho])) ?_ ?_
      · intro x hx
        rcases List.mem_append.1 hx with hx | hx
        · exact ((henv x hx).grow g).1
        · exact h2 x hx
      · rw [List.length_append, hol]; exact hs2

/-- Three parties: a source, a two-output operation and an operation that shifts its input by one party. -/
def demo : List (Op Nat String) :=
  [⟨[], 1, fun ins => (List.range ins.length).map (fun i => .ok [some (10 * i)])⟩,
   ⟨[0], 2, fun ins => ins.map (fun l => .ok [l.head?.join.map (· + 1), none])⟩,
   ⟨[1], 1, fun ins => (ins.drop 1 ++ ins.take 1).map (fun l => .ok [l.head?.join])⟩]

example : (exec demo [[], [], []] []).2.toOption.map (fun o => o.map (fetch (exec demo [[], [], []] []).1)) =
    some [[some 0, some 10, some 20], [some 1, some 11, some 21], [none, none, none], [some 11, some 21, some 1]] := rfl

example : Scoped 0 demo := by simp [demo, Scoped]
example : ∀ op ∈ demo, op.WF 3 := by
  intro op hop
  simp only [demo, List.mem_cons, List.not_mem_nil, or_false] at hop
  rcases hop with rfl | rfl | rfl
  · intro ins h
    refine ⟨by simp [h], ?_⟩
    intro r hr rs hrs
    obtain ⟨i, _, rfl⟩ := List.mem_map.1 hr
    simp only [Except.ok.injEq] at hrs; rw [← hrs]; rfl
  · intro ins h
    refine ⟨by simp [h], ?_⟩
    intro r hr rs hrs
    obtain ⟨i, _, rfl⟩ := List.mem_map.1 hr
    simp only [Except.ok.injEq] at hrs; rw [← hrs]; rfl
  · intro ins h
    refine ⟨by simp [h], ?_⟩
    intro r hr rs hrs
    obtain ⟨i, _, rfl⟩ := List.mem_map.1 hr
    simp only [Except.ok.injEq] at hrs; rw [← hrs]; rfl

end Verif.Driver
