import Mathlib.Data.List.Sort
import Mathlib.Data.List.Dedup
/-!
# C127 — the operation profiler (edsl/registry.py:37-230)

An execution is a tree of calls of operations (an implementation may evaluate nested graphs and switch the profiler); `tick d` lets
`d` units of time pass, `raise` raises, `attempt` catches.
-/
namespace Verif.Tool.Profiler

/-- what happens while operations execute -/
inductive Act where
  | tick (d : Nat)
  | raise
  | enable
  | disable
  | reset
  | attempt (body : List Act)
  | call (op : String) (body : List Act)

/-- the clock and the profiler: `timings` as one list in the order of `record` (registry.py:41-55) -/
structure St where
  clock : Nat
  enabled : Bool
  log : List (String × Nat)

/-- `record` (registry.py:52-55) -/
def record (s : St) (op : String) (d : Nat) : St := if s.enabled then { s with log := s.log ++ [(op, d)] } else s

mutual
/-- one action; `false`: an exception leaves it.  `call`: `get_impl` decides by the switch at the start whether the implementation is wrapped, the wrapper
records after the implementation has returned (registry.py:205-230). -/
def run : Act → St → Bool × St
  | .tick d, s => (true, { s with clock := s.clock + d })
  | .raise, s => (false, s)
  | .enable, s => (true, { s with enabled := true, log := [] })     -- registry.py:165-168
  | .disable, s => (true, { s with enabled := false })              -- registry.py:171-173
  | .reset, s => (true, { s with log := [] })                       -- registry.py:48-50
  | .attempt body, s => (true, (runL body s).2)
  | .call op body, s =>
    if (runL body s).1 = true then
      (true, if s.enabled then record (runL body s).2 op ((runL body s).2.clock - s.clock) else (runL body s).2)
    else runL body s
/-- a sequence of actions -/
def runL : List Act → St → Bool × St
  | [], s => (true, s)
  | a :: as, s => if (run a s).1 = true then runL as (run a s).2 else run a s
end

/-- the operations `print_leaf_summary` leaves out (registry.py:110-117) -/
def containers : List String :=
  ["simp.pcall_static", "simp.pcall_dynamic", "simp.shuffle_static", "simp.shuffle", "simp.uniform_cond", "simp.while_loop"]

/-- statistics of one operation (registry.py:60-66) -/
structure Stats where
  count : Nat
  total : Nat
  min : Nat
  max : Nat
  deriving DecidableEq

/-- `timings[op]` -/
def timesOf (log : List (String × Nat)) (op : String) : List Nat := (log.filter (·.1 = op)).map Prod.snd

/-- statistics of a list of times (registry.py:60-66) -/
def statsOf (ts : List Nat) : Stats := ⟨ts.length, ts.sum, ts.foldl Nat.min (ts.headD 0), ts.foldl Nat.max 0⟩

/-- `summary` (registry.py:57-67): the recorded operations in order of their names -/
def summary (log : List (String × Nat)) : List (String × Stats) :=
  ((log.map Prod.fst).dedup.mergeSort (fun a b => decide (a ≤ b))).map fun op => (op, statsOf (timesOf log op))

/-- the operations of `print_leaf_summary` (registry.py:119-120) -/
def leafSummary (log : List (String × Nat)) : List (String × Stats) := (summary log).filter fun e => decide (e.1 ∉ containers)

/-- the line "TOTAL" (registry.py:84, 136) -/
def total (rows : List (String × Stats)) : Nat := (rows.map (·.2.total)).sum

/-- the rows printed: the `n` with the largest totals, and how many are left out (registry.py:86-97) -/
def printed (rows : List (String × Stats)) (n : Nat) : List (String × Stats) × Nat :=
  ((rows.mergeSort (fun a b => decide (b.2.total ≤ a.2.total))).take n, rows.length - n)

/-! ## Specification: the calls that end -/

mutual
/-- outcome, clock after, and the calls that return, in the order in which they return, with their durations -/
def calls : Act → Nat → Bool × Nat × List (String × Nat)
  | .tick d, t => (true, t + d, [])
  | .raise, t => (false, t, [])
  | .attempt body, t => (true, (callsL body t).2)
  | .call op body, t =>
    if (callsL body t).1 = true then (true, (callsL body t).2.1, (callsL body t).2.2 ++ [(op, (callsL body t).2.1 - t)]) else callsL body t
  | _, t => (true, t, [])
/-- of a sequence -/
def callsL : List Act → Nat → Bool × Nat × List (String × Nat)
  | [], t => (true, t, [])
  | a :: as, t =>
    if (calls a t).1 = true then ((callsL as (calls a t).2.1).1, (callsL as (calls a t).2.1).2.1, (calls a t).2.2 ++ (callsL as (calls a t).2.1).2.2)
    else calls a t
end

mutual
/-- the execution does not touch the profiler -/
def plain : Act → Bool
  | .enable | .disable | .reset => false
  | .attempt body => plainL body
  | .call _ body => plainL body
  | _ => true
/-- of a sequence -/
def plainL : List Act → Bool
  | [] => true
  | a :: as => plain a && plainL as
end

mutual
/-- **Transparency.** -/
theorem run_same (a : Act) (s : St) : (run a s).1 = (calls a s.clock).1 ∧ (run a s).2.clock = (calls a s.clock).2.1 := by
  match a with
  | .tick d => exact ⟨rfl, rfl⟩
  | .raise => exact ⟨rfl, rfl⟩
  | .enable => exact ⟨rfl, rfl⟩
  | .disable => exact ⟨rfl, rfl⟩
  | .reset => exact ⟨rfl, rfl⟩
  | .attempt body => exact ⟨rfl, (runL_same body s).2⟩
  | .call op body =>
    obtain ⟨h1, h2⟩ := runL_same body s
    simp only [run, calls]
    by_cases h : (runL body s).1 = true
    · have h' : (callsL body s.clock).1 = true := h1 ▸ h
      simp only [h, h', if_true]
      refine ⟨trivial, ?_⟩
      simp only [record]
      split
      · split
        · exact h2
        · exact h2
      · exact h2
    · have h' : ¬ (callsL body s.clock).1 = true := h1 ▸ h
      simp only [h, h', if_false]
      exact ⟨h1, h2⟩
theorem runL_same (as : List Act) (s : St) : (runL as s).1 = (callsL as s.clock).1 ∧ (runL as s).2.clock = (callsL as s.clock).2.1 := by
  match as with
  | [] => exact ⟨rfl, rfl⟩
  | a :: as =>
    obtain ⟨h1, h2⟩ := run_same a s
    simp only [runL, callsL]
    by_cases h : (run a s).1 = true
    · have h' : (calls a s.clock).1 = true := h1 ▸ h
      simp only [h, h', if_true]
      obtain ⟨g1, g2⟩ := runL_same as (run a s).2
      rw [h2] at g1 g2
      exact ⟨g1, g2⟩
    · have h' : ¬ (calls a s.clock).1 = true := h1 ▸ h
      simp only [h, h', if_false]
      exact ⟨h1, h2⟩
end

mutual
theorem run_log (a : Act) (s : St) (hp : plain a = true) :
    (run a s).2.enabled = s.enabled ∧ (run a s).2.log = if s.enabled then s.log ++ (calls a s.clock).2.2 else s.log := by
  match a with
  | .tick d => exact ⟨rfl, by simp [run, calls]⟩
  | .raise => exact ⟨rfl, by simp [run, calls]⟩
  | .enable => simp [plain] at hp
  | .disable => simp [plain] at hp
  | .reset => simp [plain] at hp
  | .attempt body => exact runL_log body s hp
  | .call op body =>
    obtain ⟨h1, h2⟩ := runL_log body s hp
    obtain ⟨g1, g2⟩ := runL_same body s
    simp only [run, calls]
    by_cases h : (runL body s).1 = true
    · have h' : (callsL body s.clock).1 = true := g1 ▸ h
      simp only [h, h', if_true]
      simp only [record]
      by_cases he : s.enabled = true
      · rw [he] at h1
        simp only [he, h1, if_true] at h2 ⊢
        exact ⟨trivial, by rw [h2, g2, List.append_assoc]⟩
      · simp only [he] at h1 h2 ⊢
        simp only [Bool.false_eq_true, if_false] at h2 ⊢
        exact ⟨h1, h2⟩
    · have h' : ¬ (callsL body s.clock).1 = true := g1 ▸ h
      simp only [h, h', if_false]
      exact ⟨h1, h2⟩
theorem runL_log (as : List Act) (s : St) (hp : plainL as = true) :
    (runL as s).2.enabled = s.enabled ∧ (runL as s).2.log = if s.enabled then s.log ++ (callsL as s.clock).2.2 else s.log := by
  match as with
  | [] => exact ⟨rfl, by simp [runL, callsL]⟩
  | a :: as =>
    simp only [plainL, Bool.and_eq_true] at hp
    obtain ⟨h1, h2⟩ := run_log a s hp.1
    obtain ⟨g1, g2⟩ := run_same a s
    simp only [runL, callsL]
    by_cases h : (run a s).1 = true
    · have h' : (calls a s.clock).1 = true := g1 ▸ h
      simp only [h, h', if_true]
      obtain ⟨k1, k2⟩ := runL_log as (run a s).2 hp.2
      refine ⟨k1.trans h1, ?_⟩
      rw [k2, h1, h2, g2]
      by_cases he : s.enabled = true <;> simp [he]
    · have h' : ¬ (calls a s.clock).1 = true := g1 ▸ h
      simp only [h, h', if_false]
      exact ⟨h1, h2⟩
end

/-- **C127, transparency**: profiling changes neither the outcome nor the course of an execution, whatever is switched when. -/
theorem profiling_transparent (as : List Act) (s s' : St) (h : s.clock = s'.clock) :
    (runL as s).1 = (runL as s').1 ∧ (runL as s).2.clock = (runL as s').2.clock := by
  obtain ⟨h1, h2⟩ := runL_same as s
  obtain ⟨g1, g2⟩ := runL_same as s'
  rw [h1, h2, g1, g2, h]
  exact ⟨rfl, rfl⟩

/-- **C127, what is recorded**: from `enable_profiling` on, every call that returns, with its duration, once; a call that raises is not recorded. -/
theorem recorded_exactly (as : List Act) (s : St) (hp : plainL as = true) :
    (runL (.enable :: as) s).2.log = (callsL as s.clock).2.2 ∧
    (s.enabled = false → (runL as s).2.log = s.log) ∧ (runL (.disable :: as) s).2.log = s.log := by
  refine ⟨?_, ?_, ?_⟩
  · have := (runL_log as { s with enabled := true, log := [] } hp).2
    simpa [runL, run] using this
  · intro he
    have := (runL_log as s hp).2
    simpa [he] using this
  · have := (runL_log as { s with enabled := false } hp).2
    simpa [runL, run] using this

/-- **C127, switching during a call**: a call that returns is recorded exactly if profiling was on when it started and is on when it returns. -/
theorem call_recorded_iff (op : String) (body : List Act) (s : St) (h : (runL body s).1 = true) :
    (run (.call op body) s).2.log = if s.enabled = true ∧ (runL body s).2.enabled = true then (runL body s).2.log ++ [(op, (runL body s).2.clock - s.clock)]
      else (runL body s).2.log := by
  simp only [run, if_pos h, record]
  by_cases h1 : s.enabled = true <;> by_cases h2 : (runL body s).2.enabled = true <;> simp [h1, h2]

/-! ## Summaries -/

theorem mem_summary (log : List (String × Nat)) (op : String) (st : Stats) :
    (op, st) ∈ summary log ↔ (∃ d, (op, d) ∈ log) ∧ st = statsOf (timesOf log op) := by
  unfold summary
  simp only [List.mem_map, List.mem_mergeSort, List.mem_dedup, Prod.mk.injEq, Prod.exists, exists_and_right, exists_eq_right]
  constructor
  · rintro ⟨a, h, rfl, rfl⟩; exact ⟨h, rfl⟩
  · rintro ⟨h, rfl⟩; exact ⟨op, h, rfl, rfl⟩

theorem foldl_min_spec : ∀ (ts : List Nat) (a : Nat), (ts.foldl Nat.min a ≤ a ∧ ∀ t ∈ ts, ts.foldl Nat.min a ≤ t) ∧ (ts.foldl Nat.min a = a ∨ ts.foldl Nat.min a ∈ ts)
  | [], a => by simp
  | t :: ts, a => by
    obtain ⟨⟨h1, h2⟩, h3⟩ := foldl_min_spec ts (Nat.min a t)
    simp only [List.foldl_cons]
    refine ⟨⟨Nat.le_trans h1 (Nat.min_le_left _ _), ?_⟩, ?_⟩
    · intro x hx
      rcases List.mem_cons.1 hx with rfl | hx
      · exact Nat.le_trans h1 (Nat.min_le_right _ _)
      · exact h2 x hx
    · rcases h3 with h3 | h3
      · rw [h3]
        rcases Nat.le_total a t with h | h
        · exact .inl (Nat.min_eq_left h)
        · exact .inr (by rw [show Nat.min a t = t from Nat.min_eq_right h]; exact .head _)
      · exact .inr (.tail _ h3)

theorem foldl_max_spec : ∀ (ts : List Nat) (a : Nat), (a ≤ ts.foldl Nat.max a ∧ ∀ t ∈ ts, t ≤ ts.foldl Nat.max a) ∧ (ts.foldl Nat.max a = a ∨ ts.foldl Nat.max a ∈ ts)
  | [], a => by simp
  | t :: ts, a => by
    obtain ⟨⟨h1, h2⟩, h3⟩ := foldl_max_spec ts (Nat.max a t)
    simp only [List.foldl_cons]
    refine ⟨⟨Nat.le_trans (Nat.le_max_left _ _) h1, ?_⟩, ?_⟩
    · intro x hx
      rcases List.mem_cons.1 hx with rfl | hx
      · exact Nat.le_trans (Nat.le_max_right _ _) h1
      · exact h2 x hx
    · rcases h3 with h3 | h3
      · rw [h3]
        rcases Nat.le_total a t with h | h
        · exact .inr (by rw [show Nat.max a t = t from Nat.max_eq_right h]; exact .head _)
        · exact .inl (Nat.max_eq_left h)
      · exact .inr (.tail _ h3)

/-- **C127, the summary**: every recorded operation has one row, in order of names; its row counts its records and has their sum, the smallest and the
largest of them. -/
theorem summary_exact (log : List (String × Nat)) :
    ((summary log).map Prod.fst).Nodup ∧ ((summary log).map Prod.fst).Pairwise (· ≤ ·) ∧ (∀ op, op ∈ (summary log).map Prod.fst ↔ op ∈ log.map Prod.fst) ∧
    ∀ op st, (op, st) ∈ summary log → st.count = (timesOf log op).length ∧ st.total = (timesOf log op).sum ∧
      (st.min ∈ timesOf log op ∧ ∀ t ∈ timesOf log op, st.min ≤ t) ∧ (st.max ∈ timesOf log op ∧ ∀ t ∈ timesOf log op, t ≤ st.max) := by
  have hm : (summary log).map Prod.fst = (log.map Prod.fst).dedup.mergeSort (fun a b => decide (a ≤ b)) := by
    simp [summary, List.map_map, Function.comp_def]
  refine ⟨?_, ?_, ?_, ?_⟩
  · rw [hm]
    exact (List.mergeSort_perm _ _).nodup_iff.2 (List.nodup_dedup _)
  · rw [hm]
    have := List.pairwise_mergeSort (le := fun (a b : String) => decide (a ≤ b)) (fun a b c h1 h2 => by simp only [decide_eq_true_eq] at *; exact String.le_trans h1 h2)
      (fun a b => by simpa using String.le_total a b) (log.map Prod.fst).dedup
    simpa using this
  · intro op
    rw [hm, List.mem_mergeSort, List.mem_dedup]
  · intro op st h
    obtain ⟨⟨d, hd⟩, rfl⟩ := (mem_summary log op st).1 h
    have hne : d ∈ timesOf log op := List.mem_map.2 ⟨(op, d), List.mem_filter.2 ⟨hd, by simp⟩, rfl⟩
    refine ⟨rfl, rfl, ?_, ?_⟩
    · match ht : timesOf log op, hne with
      | t :: ts, _ =>
        obtain ⟨⟨h1, h2⟩, h3⟩ := foldl_min_spec (t :: ts) t
        refine ⟨?_, h2⟩
        rcases h3 with h3 | h3
        · show (t :: ts).foldl Nat.min t ∈ t :: ts
          rw [h3]; exact .head _
        · exact h3
    · obtain ⟨⟨h1, h2⟩, h3⟩ := foldl_max_spec (timesOf log op) 0
      refine ⟨?_, h2⟩
      rcases h3 with h3 | h3
      · have := h2 d hne
        rw [h3] at this
        have : d = 0 := by omega
        subst this
        simp only [statsOf, h3]
        exact hne
      · exact h3

theorem sum_by_op (log : List (String × Nat)) (ops : List String) (hn : ops.Nodup) :
    (ops.map fun op => (timesOf log op).sum).sum = ((log.filter fun e => decide (e.1 ∈ ops)).map Prod.snd).sum := by
  induction ops with
  | nil => simp
  | cons o ops ih =>
    obtain ⟨h1, h2⟩ := List.nodup_cons.1 hn
    rw [List.map_cons, List.sum_cons, ih h2]
    clear ih
    induction log with
    | nil => rfl
    | cons e log ihl =>
      simp only [timesOf, List.mem_cons] at ihl
      by_cases ho : e.1 = o
      · have : e.1 ∉ ops := ho ▸ h1
        simp only [timesOf, ho, List.filter_cons, List.mem_cons, true_or, decide_true, if_true, List.map_cons, List.sum_cons, h1, decide_false,
          Bool.false_eq_true, if_false]
        rw [ho] at *
        omega
      · by_cases hm : e.1 ∈ ops
        · simp only [timesOf, List.filter_cons, List.mem_cons, ho, hm, or_true, decide_true, decide_false, Bool.false_eq_true, if_true, if_false, List.map_cons, List.sum_cons]
          omega
        · simp only [timesOf, List.filter_cons, List.mem_cons, ho, hm, or_false, decide_false, Bool.false_eq_true, if_false]
          omega

/-- **C127, totals**: the printed total of the leaf summary is the time of all recorded calls of operations that are not listed as containers; without
the filter, of all recorded calls. -/
theorem totals (log : List (String × Nat)) : total (summary log) = (log.map Prod.snd).sum ∧
    total (leafSummary log) = ((log.filter fun e => decide (e.1 ∉ containers)).map Prod.snd).sum := by
  have hnd : ((log.map Prod.fst).dedup.mergeSort (fun a b => decide (a ≤ b))).Nodup := (List.mergeSort_perm _ _).nodup_iff.2 (List.nodup_dedup _)
  constructor
  · have := sum_by_op log _ hnd
    simp only [total, summary, List.map_map, Function.comp_def, statsOf]
    rw [this]
    congr 2
    rw [List.filter_eq_self]
    intro e he
    simp only [List.mem_mergeSort, List.mem_dedup, decide_eq_true_eq]
    exact List.mem_map.2 ⟨e, he, rfl⟩
  · have := sum_by_op log _ (hnd.filter fun op => decide (op ∉ containers))
    simp only [total, leafSummary, summary, List.filter_map, List.map_map, Function.comp_def, statsOf]
    rw [this]
    congr 2
    apply List.filter_congr
    intro e he
    have : e.1 ∈ List.map Prod.fst log := List.mem_map.2 ⟨e, he, rfl⟩
    by_cases hc : e.1 ∈ containers <;> simp [hc, this]

/-- **C127, the table**: the rows printed have the largest totals, in falling order, and the number of rows left out is right. -/
theorem printed_rows (rows : List (String × Stats)) (n : Nat) :
    (printed rows n).1.length = min n rows.length ∧ (printed rows n).2 = rows.length - n ∧ (printed rows n).1.Pairwise (fun a b => b.2.total ≤ a.2.total) ∧
    ∃ rest, rows.Perm ((printed rows n).1 ++ rest) ∧ rest.length = (printed rows n).2 ∧ ∀ a ∈ (printed rows n).1, ∀ b ∈ rest, b.2.total ≤ a.2.total := by
  have hs : (rows.mergeSort (fun a b => decide (b.2.total ≤ a.2.total))).Pairwise (fun a b => b.2.total ≤ a.2.total) := by
    have := List.pairwise_mergeSort (le := fun (a b : String × Stats) => decide (b.2.total ≤ a.2.total))
      (fun a b c h1 h2 => by simp only [decide_eq_true_eq] at *; omega) (fun a b => by simpa using Nat.le_total b.2.total a.2.total) rows
    simpa using this
  have hl := (List.mergeSort_perm rows (fun a b => decide (b.2.total ≤ a.2.total))).length_eq
  refine ⟨by simp [printed], rfl, ?_, (rows.mergeSort (fun a b => decide (b.2.total ≤ a.2.total))).drop n, ?_, by simp [printed], ?_⟩
  · exact hs.sublist (List.take_sublist _ _)
  · simp only [printed, List.take_append_drop]
    exact (List.mergeSort_perm _ _).symm
  · rw [← List.take_append_drop n (rows.mergeSort _), List.pairwise_append] at hs
    exact hs.2.2

/-! ## Leaf time -/

mutual
/-- no operation is called -/
def noCall : Act → Bool
  | .attempt body => noCallL body
  | .call _ _ => false
  | _ => true
/-- of a sequence -/
def noCallL : List Act → Bool
  | [] => true
  | a :: as => noCall a && noCallL as
end

mutual
/-- no call inside a call of an operation that is not a listed container -/
def leafOk : Act → Bool
  | .attempt body => leafOkL body
  | .call op body => leafOkL body && (decide (op ∈ containers) || noCallL body)
  | _ => true
/-- of a sequence -/
def leafOkL : List Act → Bool
  | [] => true
  | a :: as => leafOk a && leafOkL as
end

mutual
theorem calls_noCall (a : Act) (t : Nat) (h : noCall a = true) : (calls a t).2.2 = [] := by
  match a with
  | .tick _ => rfl
  | .raise => rfl
  | .enable => rfl
  | .disable => rfl
  | .reset => rfl
  | .attempt body => exact callsL_noCall body t h
  | .call _ _ => cases h
theorem callsL_noCall (as : List Act) (t : Nat) (h : noCallL as = true) : (callsL as t).2.2 = [] := by
  match as with
  | [] => rfl
  | a :: as =>
    simp only [noCallL, Bool.and_eq_true] at h
    simp only [callsL]
    have h1 := calls_noCall a t h.1
    split
    · simp only [h1, callsL_noCall as _ h.2]; rfl
    · exact h1
end

/-- time of the recorded calls of operations that are not listed as containers -/
def leafTime (l : List (String × Nat)) : Nat := ((l.filter fun e => decide (e.1 ∉ containers)).map Prod.snd).sum

theorem leafTime_append (l m : List (String × Nat)) : leafTime (l ++ m) = leafTime l + leafTime m := by
  simp [leafTime]

mutual
theorem leaf_bound (a : Act) (t : Nat) (h : leafOk a = true) : t ≤ (calls a t).2.1 ∧ leafTime (calls a t).2.2 ≤ (calls a t).2.1 - t := by
  match a with
  | .tick d => exact ⟨by simp [calls], by simp [calls, leafTime]⟩
  | .raise => exact ⟨by simp [calls], by simp [calls, leafTime]⟩
  | .enable => exact ⟨by simp [calls], by simp [calls, leafTime]⟩
  | .disable => exact ⟨by simp [calls], by simp [calls, leafTime]⟩
  | .reset => exact ⟨by simp [calls], by simp [calls, leafTime]⟩
  | .attempt body => exact leafL_bound body t h
  | .call op body =>
    simp only [leafOk, Bool.and_eq_true, Bool.or_eq_true, decide_eq_true_eq] at h
    obtain ⟨h1, h2⟩ := leafL_bound body t h.1
    simp only [calls]
    split
    · refine ⟨h1, ?_⟩
      simp only [leafTime_append]
      rcases h.2 with hc | hn
      · have : leafTime [(op, (callsL body t).2.1 - t)] = 0 := by simp [leafTime, hc]
        omega
      · have hb : leafTime (callsL body t).2.2 = 0 := by rw [callsL_noCall body t hn]; rfl
        have : leafTime [(op, (callsL body t).2.1 - t)] ≤ (callsL body t).2.1 - t := by
          by_cases hc : op ∈ containers <;> simp [leafTime, hc]
        omega
    · exact ⟨h1, h2⟩
theorem leafL_bound (as : List Act) (t : Nat) (h : leafOkL as = true) : t ≤ (callsL as t).2.1 ∧ leafTime (callsL as t).2.2 ≤ (callsL as t).2.1 - t := by
  match as with
  | [] => exact ⟨by simp [callsL], by simp [callsL, leafTime]⟩
  | a :: as =>
    simp only [leafOkL, Bool.and_eq_true] at h
    obtain ⟨h1, h2⟩ := leaf_bound a t h.1
    simp only [callsL]
    split
    · obtain ⟨h3, h4⟩ := leafL_bound as (calls a t).2.1 h.2
      simp only [leafTime_append]
      exact ⟨Nat.le_trans h1 h3, by omega⟩
    · exact ⟨h1, h2⟩
end

/-- **C127, no time counted twice (partial)**: if only the listed containers call other operations, the total of the leaf summary is at most the time that
passed since profiling was enabled. -/
theorem leaf_total_partial (as : List Act) (s : St) (hp : plainL as = true) (hl : leafOkL as = true) :
    total (leafSummary (runL (.enable :: as) s).2.log) ≤ (runL (.enable :: as) s).2.clock - s.clock := by
  have h1 : (runL (.enable :: as) s).2.clock = (callsL as s.clock).2.1 := by
    have := (runL_same as { s with enabled := true, log := [] }).2
    simpa [runL, run] using this
  rw [(totals _).2, (recorded_exactly as s hp).1, h1]
  exact (leafL_bound as s.clock hl).2

/-- … but function calls and element-wise operations, which evaluate graphs of their own, are not listed: the time of their inner operations is counted
twice. -/
theorem leaf_total_violated (d : Nat) (hd : 0 < d) (s : St) :
    let as := [Act.call "func.call" [.call "tensor.run_jax" [.tick d]]]
    (runL (.enable :: as) s).2.clock - s.clock = d ∧ total (leafSummary (runL (.enable :: as) s).2.log) = 2 * d := by
  intro as
  have hp : plainL as = true := rfl
  have hc : (callsL as s.clock) = (true, s.clock + d, [("tensor.run_jax", s.clock + d - s.clock), ("func.call", s.clock + d - s.clock)]) := rfl
  have h1 : (runL (.enable :: as) s).2.clock = (callsL as s.clock).2.1 := by
    have := (runL_same as { s with enabled := true, log := [] }).2
    simpa [runL, run] using this
  rw [(totals _).2, (recorded_exactly as s hp).1, h1, hc]
  refine ⟨by simp, ?_⟩
  have e1 : ("tensor.run_jax" : String) ∉ containers := by decide
  have e2 : ("func.call" : String) ∉ containers := by decide
  simp [e1, e2]
  omega

/-! ## Examples -/

/-- two matrix products and a failing call inside a parallel call -/
def exRun : List Act := [.call "simp.pcall_static" [.call "tensor.run_jax" [.tick 5], .attempt [.call "crypto.enc" [.tick 2, .raise]], .call "tensor.run_jax" [.tick 3]]]

example : plainL exRun = true ∧ leafOkL exRun = true := ⟨rfl, rfl⟩

example (s : St) : total (leafSummary (runL (.enable :: exRun) s).2.log) ≤ 10 ∧ timesOf (runL (.enable :: exRun) s).2.log "tensor.run_jax" = [5, 3] ∧
    timesOf (runL (.enable :: exRun) s).2.log "crypto.enc" = [] := by
  have h := leaf_total_partial exRun s rfl rfl
  have hc : (runL (.enable :: exRun) s).2.clock = s.clock + 5 + 2 + 3 := rfl
  rw [hc] at h
  refine ⟨by omega, ?_, ?_⟩ <;> rw [(recorded_exactly exRun s rfl).1] <;> simp [exRun, callsL, calls, timesOf]

example (s : St) (h : s.enabled = true) : (run (.call "a" [.tick 1, .disable]) s).2.log = s.log := by
  rw [call_recorded_iff _ _ _ rfl]; simp [runL, run]

end Verif.Tool.Profiler
