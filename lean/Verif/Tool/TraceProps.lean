import Mathlib.Data.List.Count
import Mathlib.Data.List.Forall2
import Mathlib.Tactic.Common
import Verif.Tool.Trace
/-!
# Properties of execution traces (C121)
-/
namespace Verif.Tool.Trace

/-! ## Recording -/

/-- One run of an operation: scheduled, started and finished at some times on some thread. -/
structure Run where
  op : Op
  ns : Option Nat
  t1 : Nat
  t2 : Nat
  t3 : Nat
  thread : Nat
  deriving DecidableEq

/-- the calls an interpreter makes for a run (interpreter.py:1099, 1152-1156, 1173-1177, 1190) -/
def Run.acts (r : Run) : List Act := [.schedule r.op r.ns r.t1, .start r.op r.ns r.t2, .finish r.op r.ns r.t2 r.t3 r.thread]

/-- the operation and interpreter a run belongs to -/
def Run.key (r : Run) : Key := (r.op.id, r.ns)

/-- which operation and interpreter a call is about -/
def Act.key : Act → Option Key
  | .schedule op ns _ => some (op.id, ns)
  | .start op ns _ => some (op.id, ns)
  | .finish op ns _ _ _ => some (op.id, ns)
  | .custom .. => none

/-- the events a run should leave: the time in the queue and the time running -/
def Run.events (osPid : Nat) (r : Run) : List Event :=
  [⟨some (.int ((r.ns.getD osPid : Nat) : Int)), none, ⟨"Queue: " ++ r.op.opcode, "scheduler", r.t1, (r.t2 : Int) - r.t1, none⟩⟩,
   ⟨some (.int ((r.ns.getD osPid : Nat) : Int)), some (.dict [("opcode", .str r.op.opcode)]), ⟨r.op.opcode, "op", r.t2, (r.t3 : Int) - r.t2, some r.thread⟩⟩]

/-- the events of the custom calls -/
def Act.customs (osPid : Nat) : Act → List Event
  | .custom name cat t0 t1 args thread => [⟨some (.int (osPid : Int)), some (.dict args), ⟨name, cat, t0, (t1 : Int) - t0, some thread⟩⟩]
  | _ => []

/-- The events of a history with their keys. -/
def ghost (osPid : Nat) : List (Key × Nat) → List Act → List (Option Key × Event)
  | _, [] => []
  | s, .schedule op ns t :: h => ghost osPid (((op.id, ns), t) :: drop (op.id, ns) s) h
  | s, .start op ns t :: h => match find (op.id, ns) s with
    | none => ghost osPid s h
    | some t0 => (some (op.id, ns), queueEvent osPid op ns t0 t) :: ghost osPid (drop (op.id, ns) s) h
  | s, .finish op ns st t th :: h => (some (op.id, ns), opEvent osPid op ns st t th) :: ghost osPid s h
  | s, .custom name cat t0 t1 args th :: h => (none, customEvent osPid name cat t0 t1 args th) :: ghost osPid s h

theorem logAll_ghost (p : Nat) (h : List Act) (s : List (Key × Nat)) (ev : List Event) :
    ((Tracer.mk p true s ev).logAll h).events = ev ++ (ghost p s h).map Prod.snd := by
  induction h generalizing s ev with
  | nil => simp [Tracer.logAll, ghost]
  | cons a h ih =>
    have e : (Tracer.mk p true s ev).logAll (a :: h) = ((Tracer.mk p true s ev).log a).logAll h := rfl
    rw [e]
    cases a with
    | schedule op ns t => simp only [Tracer.log, ghost, Bool.true_eq_false, if_false]; exact ih _ _
    | start op ns t =>
      simp only [Tracer.log, ghost, Bool.true_eq_false, if_false]
      cases hf : find (op.id, ns) s with
      | none => exact ih _ _
      | some t0 => simp only [List.map_cons]; rw [ih]; simp
    | finish op ns st t th => simp only [Tracer.log, ghost, Bool.true_eq_false, if_false, List.map_cons]; rw [ih]; simp
    | custom n c t0 t1 ar th => simp only [Tracer.log, ghost, Bool.true_eq_false, if_false, List.map_cons]; rw [ih]; simp

theorem find_drop_ne {k k' : Key} (h : k ≠ k') (s : List (Key × Nat)) : find k (drop k' s) = find k s := by
  induction s with
  | nil => rfl
  | cons e s ih =>
    unfold drop at ih ⊢
    by_cases he : e.1 = k'
    · rw [List.filter_cons_of_neg (by simp [he]), ih]
      simp only [find]
      rw [if_neg (by rw [he]; exact fun x => h x.symm)]
    · rw [List.filter_cons_of_pos (by simp [he])]
      simp only [find]
      rw [ih]

theorem find_drop_self (k : Key) (s : List (Key × Nat)) : find k (drop k s) = none := by
  induction s with
  | nil => rfl
  | cons e s ih =>
    unfold drop at ih ⊢
    by_cases he : e.1 = k
    · rw [List.filter_cons_of_neg (by simp [he]), ih]
    · rw [List.filter_cons_of_pos (by simp [he])]
      simp only [find]
      rw [if_neg he, ih]

/-- the events of one key depend on the calls about this key only -/
theorem ghost_proj (p : Nat) (k : Key) (h : List Act) (s s' : List (Key × Nat)) (hs : find k s = find k s') :
    (ghost p s h).filter (fun e => e.1 = some k) = ghost p s' (h.filter fun a => a.key = some k) := by
  induction h generalizing s s' with
  | nil => rfl
  | cons a h ih =>
    cases a with
    | schedule op ns t =>
      by_cases hk : (op.id, ns) = k
      · rw [List.filter_cons_of_pos (by simp [Act.key, hk])]
        simp only [ghost]
        exact ih _ _ (by simp [find, hk])
      · rw [List.filter_cons_of_neg (by simp [Act.key, hk])]
        simp only [ghost]
        exact ih _ _ (by simp only [find]; rw [if_neg hk, find_drop_ne (Ne.symm hk), hs])
    | start op ns t =>
      by_cases hk : (op.id, ns) = k
      · rw [List.filter_cons_of_pos (by simp [Act.key, hk])]
        simp only [ghost]
        rw [hk, ← hs]
        cases find k s with
        | none => exact ih _ _ hs
        | some t0 =>
          simp only
          rw [List.filter_cons_of_pos (by simp)]
          rw [ih _ (drop k s') (by rw [find_drop_self, find_drop_self])]
      · rw [List.filter_cons_of_neg (by simp [Act.key, hk])]
        simp only [ghost]
        cases find (op.id, ns) s with
        | none => exact ih _ _ hs
        | some t0 =>
          simp only
          rw [List.filter_cons_of_neg (by simp [hk])]
          exact ih _ _ (by rw [find_drop_ne (Ne.symm hk), hs])
    | finish op ns st t th =>
      by_cases hk : (op.id, ns) = k
      · rw [List.filter_cons_of_pos (by simp [Act.key, hk])]
        simp only [ghost]
        rw [List.filter_cons_of_pos (by simp [hk]), ih _ _ hs]
      · rw [List.filter_cons_of_neg (by simp [Act.key, hk])]
        simp only [ghost]
        rw [List.filter_cons_of_neg (by simp [hk]), ih _ _ hs]
    | custom n c t0 t1 ar th =>
      rw [List.filter_cons_of_neg (by simp [Act.key])]
      simp only [ghost]
      rw [List.filter_cons_of_neg (by simp), ih _ _ hs]

theorem ghost_customs (p : Nat) (h : List Act) (s : List (Key × Nat)) :
    (ghost p s h).filter (fun e => e.1 = none) = (h.flatMap (Act.customs p)).map fun e => (none, e) := by
  induction h generalizing s with
  | nil => rfl
  | cons a h ih =>
    cases a with
    | schedule op ns t => simp only [ghost, List.flatMap_cons, Act.customs, List.nil_append]; exact ih _
    | start op ns t =>
      simp only [ghost, List.flatMap_cons, Act.customs, List.nil_append]
      cases find (op.id, ns) s with
      | none => exact ih _
      | some t0 => simp only; rw [List.filter_cons_of_neg (by simp)]; exact ih _
    | finish op ns st t th =>
      simp only [ghost, List.flatMap_cons, Act.customs, List.nil_append]
      rw [List.filter_cons_of_neg (by simp)]; exact ih _
    | custom n c t0 t1 ar th =>
      simp only [ghost, List.flatMap_cons, Act.customs, List.map_append, List.map_cons, List.map_nil]
      rw [List.filter_cons_of_pos (by simp), ih]
      rfl

theorem ghost_runs (p : Nat) (k : Key) (rs : List Run) (hk : ∀ r ∈ rs, r.key = k) (s : List (Key × Nat)) :
    ghost p s (rs.flatMap Run.acts) = (rs.flatMap (Run.events p)).map fun e => (some k, e) := by
  induction rs generalizing s with
  | nil => rfl
  | cons r rs ih =>
    have hr : (r.op.id, r.ns) = k := hk r (by simp)
    simp only [List.flatMap_cons, Run.acts, List.cons_append, List.nil_append, ghost, find, if_true, Run.events, List.map_cons, List.map_append, List.map_nil]
    rw [ih fun r h => hk r (by simp [h])]
    rw [hr]
    rfl

theorem perm_of_filters {α β : Type} [DecidableEq α] [DecidableEq β] (l m : List (α × β)) (h : ∀ k, l.filter (fun e => e.1 = k) = m.filter (fun e => e.1 = k)) :
    l.Perm m := by
  rw [List.perm_iff_count]
  intro a
  have := congrArg (List.count a) (h a.1)
  rw [List.count_filter (by simp), List.count_filter (by simp)] at this
  exact this

theorem expected_filter (p : Nat) (k : Key) (rs : List Run) :
    (rs.flatMap fun r => (r.events p).map fun e => (some r.key, e)).filter (fun e => e.1 = some k) =
      ((rs.filter fun r => r.key = k).flatMap (Run.events p)).map fun e => (some k, e) := by
  induction rs with
  | nil => rfl
  | cons r rs ih =>
    rw [List.flatMap_cons, List.filter_append, ih]
    by_cases h : r.key = k
    · rw [List.filter_cons_of_pos (by simp [h]), List.flatMap_cons, List.map_append]
      congr 1
      rw [List.filter_eq_self.2]
      · rw [h]
      · intro e he
        obtain ⟨x, _, rfl⟩ := List.mem_map.1 he
        simp [h]
    · rw [List.filter_cons_of_neg (by simp [h])]
      rw [List.filter_eq_nil_iff.2, List.nil_append]
      intro e he
      obtain ⟨x, _, rfl⟩ := List.mem_map.1 he
      simp [h]

/-- **C121, every run of an operation is recorded.**  Take any interleaving of the tracer calls of any number of runs of operations on any
number of threads and interpreters sharing the tracer, and of custom events, in which the runs of one operation by one interpreter do not
overlap.  The enabled tracer then holds, for every run, exactly one event for its time in the queue and one for its time running, with its
opcode, its times and its process, and every custom event, and nothing else. -/
theorem runs_are_recorded (osPid : Nat) (h : List Act) (runs : List Run)
    (hrun : ∀ k : Key, (h.filter fun a => a.key = some k) = (runs.filter fun r => r.key = k).flatMap Run.acts) :
    ((Tracer.mk osPid true [] []).logAll h).events.Perm (runs.flatMap (Run.events osPid) ++ h.flatMap (Act.customs osPid)) := by
  rw [logAll_ghost, List.nil_append]
  have key : (ghost osPid [] h).Perm ((runs.flatMap fun r => (r.events osPid).map fun e => (some r.key, e)) ++ (h.flatMap (Act.customs osPid)).map fun e => (none, e)) := by
    apply perm_of_filters
    intro k
    rw [List.filter_append]
    cases k with
    | none =>
      rw [ghost_customs]
      rw [List.filter_eq_nil_iff.2, List.nil_append, List.filter_eq_self.2]
      · intro e he
        obtain ⟨x, _, rfl⟩ := List.mem_map.1 he
        simp
      · intro e he
        obtain ⟨r, _, he⟩ := List.mem_flatMap.1 he
        obtain ⟨x, _, rfl⟩ := List.mem_map.1 he
        simp
    | some k =>
      rw [ghost_proj osPid k h [] [] rfl, hrun k, expected_filter, ghost_runs osPid k _ (by simp)]
      conv_lhs => rw [← List.append_nil (List.map _ _)]
      congr 1
      symm
      rw [List.filter_eq_nil_iff]
      intro e he
      obtain ⟨x, _, rfl⟩ := List.mem_map.1 he
      simp
  have := key.map Prod.snd
  rw [List.map_append] at this
  refine this.trans (List.Perm.of_eq ?_)
  congr 1
  · rw [List.map_flatMap]
    rfl
  · rw [List.map_map]
    exact List.map_id _

/-- Two operations on two threads, interleaved, with a custom event: the hypothesis holds and the events are recorded. -/
example : let r1 : Run := ⟨⟨1, "tensor.add"⟩, some 0, 10, 12, 20, 7⟩
    let r2 : Run := ⟨⟨2, "tensor.mul"⟩, some 0, 11, 13, 15, 8⟩
    let h : List Act := [.schedule r1.op (some 0) 10, .schedule r2.op (some 0) 11, .start r1.op (some 0) 12, .start r2.op (some 0) 13,
      .custom "JAX Exec" "jax" 13 14 [] 8, .finish r2.op (some 0) 13 15 8, .finish r1.op (some 0) 12 20 7]
    (∀ k : Key, (h.filter fun a => a.key = some k) = ([r1, r2].filter fun r => r.key = k).flatMap Run.acts) ∧
    ((Tracer.mk 99 true [] []).logAll h).events.length = 5 := by
  refine ⟨fun k => ?_, rfl⟩
  by_cases h1 : k = (1, some 0)
  · subst h1; decide
  · by_cases h2 : k = (2, some 0)
    · subst h2; decide
    · simp [Act.key, Run.key, Ne.symm h1, Ne.symm h2]

/-- **C121, a disabled tracer records and writes nothing.** -/
theorem disabled_records_nothing (tr : Tracer) (ht : tr.enabled = false) (h : List Act) (job : String) (rank : Option Nat) :
    tr.logAll h = tr ∧ (tr.logAll h).save job rank = none := by
  have e : tr.logAll h = tr := by
    unfold Tracer.logAll
    induction h with
    | nil => rfl
    | cons a h ih => rw [List.foldl_cons, show tr.log a = tr by unfold Tracer.log; rw [if_pos ht], ih]
  exact ⟨e, by rw [e]; simp [Tracer.save, ht]⟩

/-! ## File names -/

/-- **C121, the rank in a file name.**  Whatever the job id, the rank read from the name of a file saved for a rank is that rank. -/
theorem rank_read_back (dir job : String) (r : Nat) : rankOf (dir ++ fileName job (some r)) = some r := by
  unfold rankOf fileName
  have e : (dir ++ ("trace_" ++ job ++ ("_rank_" ++ r.repr) ++ ".json")).toList.reverse =
      ".json".toList.reverse ++ (r.repr.toList.reverse ++ ("_rank_".toList.reverse ++ ((dir ++ ("trace_" ++ job)).toList.reverse))) := by
    simp [String.toList_append, List.append_assoc]
  simp only
  rw [e]
  have hd : (".json".toList.reverse ++ (r.repr.toList.reverse ++ ("_rank_".toList.reverse ++ ((dir ++ ("trace_" ++ job)).toList.reverse)))).drop 5 =
      r.repr.toList.reverse ++ ("_rank_".toList.reverse ++ ((dir ++ ("trace_" ++ job)).toList.reverse)) := rfl
  rw [hd]
  have hall : ∀ c ∈ r.repr.toList.reverse, c.isDigit = true := fun c hc => Base.repr_isDigit (List.mem_reverse.1 hc)
  have ht : (r.repr.toList.reverse ++ ("_rank_".toList.reverse ++ ((dir ++ ("trace_" ++ job)).toList.reverse))).takeWhile Char.isDigit = r.repr.toList.reverse := by
    rw [List.takeWhile_append_of_pos hall]
    conv_rhs => rw [← List.append_nil r.repr.toList.reverse]
    rfl
  have hw : (r.repr.toList.reverse ++ ("_rank_".toList.reverse ++ ((dir ++ ("trace_" ++ job)).toList.reverse))).dropWhile Char.isDigit =
      "_rank_".toList.reverse ++ ((dir ++ ("trace_" ++ job)).toList.reverse) := by
    rw [List.dropWhile_append_of_pos hall]
    rfl
  rw [ht, hw]
  rw [if_pos (by rw [List.isPrefixOf_iff_prefix]; exact List.prefix_append _ _)]
  rw [if_pos ⟨by rw [Ne, List.reverse_eq_nil_iff]; exact Base.repr_ne_nil r, by rw [List.isPrefixOf_iff_prefix]; exact List.prefix_append _ _⟩]
  rw [List.reverse_reverse, Nat.toList_repr, Nat.ofDigitChars_toDigits (by decide) (by decide)]

/-- **C121, only such names have a rank.** -/
theorem rank_only_from_name (name : String) (r : Nat) (h : rankOf name = some r) :
    ∃ pre ds : List Char, name.toList = pre ++ "_rank_".toList ++ ds ++ ".json".toList ∧ ds ≠ [] ∧ (∀ c ∈ ds, c.isDigit = true) ∧ r = Nat.ofDigitChars 10 ds 0 := by
  unfold rankOf at h
  split at h
  · next hj =>
    split at h
    · next hr =>
      obtain ⟨h1, h2⟩ := hr
      rw [List.isPrefixOf_iff_prefix] at hj h2
      obtain ⟨x, hx⟩ := hj
      obtain ⟨y, hy⟩ := h2
      have hd : name.toList.reverse.drop 5 = x := by rw [← hx]; rfl
      rw [hd] at h h1 hy
      have hsplit := List.takeWhile_append_dropWhile (p := Char.isDigit) (l := x)
      refine ⟨y.reverse, (x.takeWhile Char.isDigit).reverse, ?_, by rw [Ne, List.reverse_eq_nil_iff]; exact h1, ?_, (Option.some.inj h).symm⟩
      · have : name.toList = name.toList.reverse.reverse := by rw [List.reverse_reverse]
        rw [this, ← hx, List.reverse_append]
        conv_lhs => rw [← hsplit, List.reverse_append, ← hy, List.reverse_append, List.reverse_reverse, List.reverse_reverse]
      · intro c hc
        exact List.all_eq_true.1 List.all_takeWhile c (List.mem_reverse.1 hc)
    · cases h
  · cases h

/-! ## Merging -/

/-- an event as the tracer writes it -/
def WellFormed (e : Event) : Prop := e.pid ≠ some .other ∧ e.args ≠ some .other

/-- what a merged event should be -/
structure Merged (rank : Option Nat) (e e' : Event) : Prop where
  body : e'.body = e.body
  pid : ∀ n, e.pid = some (.int n) → e'.pid = some (.int ((match rank with | none => 0 | some r => ((r : Int) + 1) * 10000) + n % 10000))
  nopid : e.pid = none → e'.pid = none
  args : ∀ r, rank = some r → ∃ l, e'.args = some (.dict l) ∧ ("rank", .num r) ∈ l ∧
    ∀ k v, k ≠ "rank" → ((k, v) ∈ l ↔ ∃ l₀, e.args = some (.dict l₀) ∧ (k, v) ∈ l₀)
  same : rank = none → e'.args = e.args

theorem setRank_mem (r : Nat) (l : List (String × Val)) : ("rank", .num r) ∈ setRank r l ∧ ∀ k v, k ≠ "rank" → ((k, v) ∈ setRank r l ↔ (k, v) ∈ l) := by
  induction l with
  | nil => exact ⟨by simp [setRank], fun k v hk => by simp [setRank, hk]⟩
  | cons e l ih =>
    obtain ⟨k0, v0⟩ := e
    unfold setRank
    by_cases h : k0 = "rank"
    · rw [if_pos h]
      subst h
      exact ⟨by simp, fun k v hk => by simp [hk]⟩
    · rw [if_neg h]
      exact ⟨by simp [ih.1], fun k v hk => by simp [ih.2 k v hk]⟩

theorem remap_spec {rank : Option Nat} {e e' : Event} (h : remap rank e = some e') : Merged rank e e' := by
  unfold remap at h
  cases hp : newPid rank e.pid with
  | none => rw [hp] at h; cases h
  | some p =>
    rw [hp] at h
    simp only at h
    cases ha : newArgs rank e.args with
    | none => rw [ha] at h; cases h
    | some a =>
      rw [ha] at h
      cases h
      refine ⟨rfl, ?_, ?_, ?_, ?_⟩
      · intro n hn
        rw [hn] at hp
        simp only [newPid, Option.some.injEq] at hp
        subst hp
        cases rank with
        | none => simp [offset]
        | some r => simp [offset]
      · intro hn
        rw [hn] at hp
        exact (Option.some.inj hp).symm
      · intro r hr
        subst hr
        unfold newArgs at ha
        simp only at ha
        cases hargs : e.args with
        | none =>
          rw [hargs] at ha
          cases ha
          exact ⟨_, rfl, by simp, fun k v hk => by simp [hk]⟩
        | some x =>
          cases x with
          | other => rw [hargs] at ha; cases ha
          | dict l =>
            rw [hargs] at ha
            cases ha
            exact ⟨_, rfl, (setRank_mem r l).1, fun k v hk => by
              rw [(setRank_mem r l).2 k v hk]
              exact ⟨fun h => ⟨l, rfl, h⟩, fun ⟨l0, h0, h1⟩ => by cases h0; exact h1⟩⟩
      · intro hr
        subst hr
        exact (Option.some.inj ha).symm

theorem remap_total (rank : Option Nat) (e : Event) (h : WellFormed e) : ∃ e', remap rank e = some e' := by
  obtain ⟨h1, h2⟩ := h
  unfold remap
  have hp : ∃ p, newPid rank e.pid = some p := by
    match hp : e.pid with
    | none => exact ⟨_, rfl⟩
    | some (.int n) => exact ⟨_, rfl⟩
    | some .other => exact absurd hp h1
  have ha : ∃ a, newArgs rank e.args = some a := by
    unfold newArgs
    cases rank with
    | none => exact ⟨_, rfl⟩
    | some r => match ha : e.args with
      | none => exact ⟨_, rfl⟩
      | some (.dict l) => exact ⟨_, rfl⟩
      | some .other => exact absurd ha h2
  obtain ⟨p, hp⟩ := hp
  obtain ⟨a, ha⟩ := ha
  rw [hp, ha]
  exact ⟨_, rfl⟩

theorem mergeFile_spec (rank : Option Nat) (es : List Event) (h : ∀ e ∈ es, WellFormed e) : List.Forall₂ (Merged rank) es (mergeFile rank es) := by
  induction es with
  | nil => exact .nil
  | cons e es ih =>
    obtain ⟨e', he⟩ := remap_total rank e (h e (by simp))
    simp only [mergeFile, he]
    exact .cons (remap_spec he) (ih fun x hx => h x (by simp [hx]))

/-- **C121, merging keeps every event (partial).**  When every file is readable and its events are as the tracer writes them, the merged
trace is the concatenation, file by file, of the events, each in its place with the same contents, tagged with the rank in the file's name and with
the process number of that rank. -/
theorem merge_keeps_events_partial (files : List (String × List Event)) (h : ∀ f ∈ files, ∀ e ∈ f.2, WellFormed e) :
    ∃ parts, merge (files.map fun f => (f.1, some f.2)) = parts.flatten ∧
      List.Forall₂ (fun (f : String × List Event) part => List.Forall₂ (Merged (rankOf f.1)) f.2 part) files parts := by
  refine ⟨files.map fun f => mergeFile (rankOf f.1) f.2, ?_, ?_⟩
  · unfold merge
    rw [List.flatMap_map, List.flatMap_def]
  · rw [List.forall₂_map_right_iff, List.forall₂_same]
    exact fun f hf => mergeFile_spec _ _ (h f hf)

/-- Two files with a rank, events with and without `args`. -/
example : let e : Event := ⟨some (.int 4242), none, ⟨"Queue: a", "scheduler", 1, 2, none⟩⟩
    WellFormed e ∧ merge [("d/trace_j_rank_0.json", some [e]), ("d/trace_j_rank_12.json", some [e, ⟨some (.int 5), some (.dict [("k", .str "v")]), e.body⟩])] =
      [⟨some (.int 14242), some (.dict [("rank", .num 0)]), e.body⟩, ⟨some (.int 134242), some (.dict [("rank", .num 12)]), e.body⟩,
       ⟨some (.int 130005), some (.dict [("k", .str "v"), ("rank", .num 12)]), e.body⟩] := by
  refine ⟨⟨by decide, by decide⟩, by decide +kernel⟩

/-- The events the tracer holds are as merging needs them, after any history. -/
theorem recorded_wellFormed (osPid : Nat) (h : List Act) : ∀ e ∈ ((Tracer.mk osPid true [] []).logAll h).events, WellFormed e := by
  rw [logAll_ghost, List.nil_append]
  suffices ∀ s, ∀ e ∈ (ghost osPid s h).map Prod.snd, WellFormed e from this []
  induction h with
  | nil => intro s e he; simp [ghost] at he
  | cons a h ih =>
    intro s e he
    cases a with
    | schedule op ns t => exact ih _ e (by simpa only [ghost] using he)
    | start op ns t =>
      simp only [ghost] at he
      cases hf : find (op.id, ns) s with
      | none => rw [hf] at he; exact ih _ e he
      | some t0 =>
        rw [hf] at he
        simp only [List.map_cons, List.mem_cons] at he
        rcases he with rfl | he
        · exact ⟨by simp [queueEvent, pidOf], by simp [queueEvent]⟩
        · exact ih _ e he
    | finish op ns st t th =>
      simp only [ghost, List.map_cons, List.mem_cons] at he
      rcases he with rfl | he
      · exact ⟨by simp [opEvent, pidOf], by simp [opEvent]⟩
      · exact ih _ e he
    | custom n c t0 t1 ar th =>
      simp only [ghost, List.map_cons, List.mem_cons] at he
      rcases he with rfl | he
      · exact ⟨by simp [customEvent, pidOf], by simp [customEvent]⟩
      · exact ih _ e he

/-- **C121, ranks stay apart.**  In a merged trace, events from files of two different ranks, or from a file with a rank and one without,
never have the same process number. -/
theorem ranks_apart {r s : Option Nat} {e f e' f' : Event} {p q : Pid} (he : Merged r e e') (hf : Merged s f f') (hrs : r ≠ s)
    (hne : WellFormed e) (hnf : WellFormed f) (hp : e'.pid = some p) (hq : f'.pid = some q) : p ≠ q := by
  have num : ∀ {r : Option Nat} {e e' : Event} {p : Pid}, Merged r e e' → WellFormed e → e'.pid = some p →
      ∃ n : Int, p = .int ((match r with | none => 0 | some r => ((r : Int) + 1) * 10000) + n % 10000) := by
    intro r e e' p he hne hp
    match h : e.pid with
    | none => rw [he.nopid h] at hp; cases hp
    | some (.int n) => rw [he.pid n h] at hp; cases hp; exact ⟨n, rfl⟩
    | some .other => exact absurd h hne.1
  obtain ⟨n, rfl⟩ := num he hne hp
  obtain ⟨m, rfl⟩ := num hf hnf hq
  intro h
  have h := Pid.int.inj h
  cases r with
  | none =>
    cases s with
    | none => exact hrs rfl
    | some s => simp only at h; omega
  | some r =>
    cases s with
    | none => simp only at h; omega
    | some s =>
      simp only at h
      apply hrs
      congr 1
      omega

/-- **C121, one process stays one process (partial).**  Events of one file with the same process number get the same number, and if they get the
same number then theirs differed by a multiple of 10000. -/
theorem processes_kept_partial {r : Option Nat} {e f e' f' : Event} {n m : Int} (he : Merged r e e') (hf : Merged r f f')
    (hn : e.pid = some (.int n)) (hm : f.pid = some (.int m)) : e'.pid = f'.pid ↔ (n - m) % 10000 = 0 := by
  rw [he.pid n hn, hf.pid m hm]
  simp only [Option.some.injEq, Pid.int.injEq]
  omega

/-- Two merged events of rank 0 and one of rank 1 to which the two theorems apply. -/
example : let e : Event := ⟨some (.int 4242), none, ⟨"a", "op", 1, 2, none⟩⟩
    let f : Event := ⟨some (.int 14242), none, ⟨"b", "op", 1, 2, none⟩⟩
    (∃ e' f', Merged (some 0) e e' ∧ Merged (some 0) f f' ∧ e'.pid = f'.pid) ∧ ∃ f', Merged (some 1) f f' ∧ f'.pid = some (.int 24242) :=
  ⟨⟨_, _, remap_spec (by rfl), remap_spec (by rfl), by decide⟩, _, remap_spec (by rfl), by decide⟩

/-- **C121, one process stays one process (violated).**  Two processes in one file become one when their numbers agree modulo 10000 (the
operations of rank 0 and the custom events of process 10000, say). -/
theorem processes_kept_violated : ∃ e f : Event, e.pid ≠ f.pid ∧ WellFormed e ∧ WellFormed f ∧
    (merge [("trace_j_rank_0.json", some [e, f])]).map (·.pid) = [some (.int 10000), some (.int 10000)] :=
  ⟨⟨some (.int 0), none, ⟨"a", "op", 0, 0, none⟩⟩, ⟨some (.int 20000), none, ⟨"b", "jax", 0, 0, none⟩⟩, by decide, ⟨by decide, by decide⟩, ⟨by decide, by decide⟩, by decide +kernel⟩

/-- **C121, merging keeps every event (violated).**  (1) An event that cannot be changed drops itself and the rest of its file, but what came before
is kept; (2) merging a second time with a pattern that also matches the output duplicates every event. -/
theorem merge_keeps_events_violated :
    (∃ a b c : Event, WellFormed a ∧ WellFormed c ∧ merge [("x.json", some [a, b, c])] = [a]) ∧
    ∃ a : Event, WellFormed a ∧ merge [("merged.json", some (merge [("x.json", some [a])])), ("x.json", some [a])] = [a, a] := by
  refine ⟨⟨⟨some (.int 1), none, ⟨"a", "op", 0, 0, none⟩⟩, ⟨some .other, none, ⟨"b", "op", 0, 0, none⟩⟩, ⟨some (.int 1), none, ⟨"c", "op", 0, 0, none⟩⟩,
    ⟨by decide, by decide⟩, ⟨by decide, by decide⟩, by decide +kernel⟩, ⟨⟨some (.int 1), none, ⟨"a", "op", 0, 0, none⟩⟩, ⟨by decide, by decide⟩, by decide +kernel⟩⟩

/-! ## Saving -/

/-- **C121, the saved file (partial).**  A tracer with at least 100 events saves exactly its events. -/
theorem saved_events_partial (tr : Tracer) (job : String) (rank : Option Nat) (he : tr.enabled = true) (hn : 100 ≤ tr.events.length) :
    tr.save job rank = some (fileName job rank, tr.events) := by
  unfold Tracer.save
  rw [if_neg]
  rintro (h | h | h)
  · rw [he] at h; cases h
  · rw [h] at hn; simp at hn
  · omega

/-- **C121, the saved file (violated).**  A job with fewer than 100 events leaves no file, and the file of a later job contains the events of
the earlier ones: saving never empties the tracer. -/
theorem saved_events_violated :
    (∀ (tr : Tracer) (job : String) (rank : Option Nat), tr.events.length < 100 → tr.save job rank = none) ∧
    ∀ (osPid : Nat) (first second : List Act) (job : String) (rank : Option Nat) (f : String × List Event),
      ((Tracer.mk osPid true [] []).logAll (first ++ second)).save job rank = some f →
      ∃ rest, f.2 = ((Tracer.mk osPid true [] []).logAll first).events ++ rest := by
  refine ⟨fun tr job rank h => ?_, fun osPid first second job rank f h => ?_⟩
  · unfold Tracer.save
    rw [if_pos (.inr (.inr h))]
  · unfold Tracer.save at h
    split at h
    · cases h
    · cases h
      have e : (Tracer.mk osPid true [] []).logAll (first ++ second) = ((Tracer.mk osPid true [] []).logAll first).logAll second := by
        unfold Tracer.logAll
        rw [List.foldl_append]
      rw [e]
      generalize (Tracer.mk osPid true [] []).logAll first = tr
      suffices ∀ (h : List Act) (tr : Tracer), ∃ rest, (tr.logAll h).events = tr.events ++ rest from this second tr
      intro h
      induction h with
      | nil => exact fun tr => ⟨[], by simp [Tracer.logAll]⟩
      | cons a h ih =>
        intro tr
        obtain ⟨r, hr⟩ := ih (tr.log a)
        have e2 : tr.logAll (a :: h) = (tr.log a).logAll h := rfl
        rw [e2, hr]
        suffices ∃ r', (tr.log a).events = tr.events ++ r' by
          obtain ⟨r', h'⟩ := this
          exact ⟨r' ++ r, by rw [h', List.append_assoc]⟩
        unfold Tracer.log
        split
        · exact ⟨[], by simp⟩
        · cases a with
          | schedule op ns t => exact ⟨[], by simp⟩
          | start op ns t =>
            simp only
            cases find (op.id, ns) tr.sched with
            | none => exact ⟨[], by simp⟩
            | some t0 => exact ⟨_, rfl⟩
          | finish op ns st t th => exact ⟨_, rfl⟩
          | custom n c t0 t1 ar th => exact ⟨_, rfl⟩

/-! ## Clusters -/

/-- a history of a hundred custom events on rank 0 and one on rank 1 -/
def sampleHistory : History := (List.replicate 100 (0, Act.custom "JAX Exec" "jax" 5 6 [] 1)) ++ [(1, Act.custom "JAX Prep" "jax" 7 9 [] 2)]

/-- **C121, ranks in the traces of a cluster (violated).**  In the simulated cluster all workers write into one tracer, so every event appears once per
rank, tagged with each rank: the event of rank 1 is in the merged trace also as an event of rank 0.  Behind HTTP the files carry no rank: events of two
workers whose processes have the same number (on two machines) are merged into one process without any rank. -/
theorem cluster_ranks_violated :
    (∃ e ∈ merge (memFiles 4000 sampleHistory "job" 2), e.body.name = "JAX Prep" ∧ e.args = some (.dict [("rank", .num 0)])) ∧
    (merge (memFiles 4000 sampleHistory "job" 2)).length = 2 * sampleHistory.length ∧
    (∀ e ∈ merge (httpFiles (fun _ => 4000) ((List.replicate 100 (0, Act.custom "JAX Exec" "jax" 5 6 [] 1)) ++ List.replicate 100 (1, Act.custom "JAX Prep" "jax" 7 9 [] 2)) "job" 2),
      e.pid = some (.int 4000) ∧ e.args = some (.dict [])) ∧
    (merge (httpFiles (fun _ => 4000) ((List.replicate 100 (0, Act.custom "JAX Exec" "jax" 5 6 [] 1)) ++ List.replicate 100 (1, Act.custom "JAX Prep" "jax" 7 9 [] 2)) "job" 2)).length = 200 := by
  refine ⟨?_, by decide +kernel, by decide +kernel, by decide +kernel⟩
  decide +kernel

end Verif.Tool.Trace
