import Verif.Base.Names
import Mathlib.Logic.Basic
/-!
# C24 — names of communication scopes and message keys (backends/simp_worker/comm_context.py)

Strings are modelled as python strings are used here: concatenation of names, `.`, `:` and decimal numbers.
-/
namespace Verif.Comm
open Verif.Base

/-- `f"{self._id}:{seq}"` (comm_context.py:90, 103, 109) -/
def msgKey (id : String) (seq : Nat) : String := id ++ ":" ++ seq.repr

/-- id of a child scope (comm_context.py:80-83); `n` is the number of earlier `spawn`s of the parent -/
def childId (id : String) (n : Nat) : Option String → String
  | none => id ++ "." ++ n.repr
  | some s => id ++ "." ++ n.repr ++ "." ++ s

/-- A `CommContext`: id and spawn counter (comm_context.py:45-55; the per-peer counters are in `Net`) -/
structure CommCtx where
  id : String
  spawned : Nat

/-- `spawn` (comm_context.py:65-85) -/
def CommCtx.spawn (c : CommCtx) (suffix : Option String) : CommCtx × CommCtx :=
  ({ c with spawned := c.spawned + 1 }, ⟨childId c.id c.spawned suffix, 0⟩)

/-- the ids given out by a sequence of `spawn` calls on one context -/
def spawnIds (c : CommCtx) : List (Option String) → List String
  | [] => []
  | s :: ss => (c.spawn s).2.id :: spawnIds (c.spawn s).1 ss

/-- the part up to the first character outside `p`, for lists whose tails start (if at all) outside `p` -/
theorem span_eq {p : Char → Bool} {a b x y : List Char} (ha : ∀ c ∈ a, p c = true) (hb : ∀ c ∈ b, p c = true)
    (hx : ∀ c ∈ x.head?, p c = false) (hy : ∀ c ∈ y.head?, p c = false) (h : a ++ x = b ++ y) : a = b ∧ x = y := by
  induction a generalizing b with
  | nil =>
    cases b with
    | nil => exact ⟨rfl, by simpa using h⟩
    | cons c b =>
      simp only [List.nil_append, List.cons_append] at h
      have := hx c (by simp [h])
      rw [hb c (by simp)] at this
      cases this
  | cons c a ih =>
    cases b with
    | nil =>
      simp only [List.nil_append, List.cons_append] at h
      have := hy c (by simp [← h])
      rw [ha c (by simp)] at this
      cases this
    | cons d b =>
      simp only [List.cons_append, List.cons.injEq] at h
      obtain ⟨rfl, h⟩ := h
      obtain ⟨h1, h2⟩ := ih (fun c hc => ha c (by simp [hc])) (fun c hc => hb c (by simp [hc])) h
      exact ⟨by rw [h1], h2⟩

/-- **C23/C24** (keys) Different (scope, number) pairs give different message keys, for all scope names. -/
theorem key_injective {id id' : String} {n n' : Nat} (h : msgKey id n = msgKey id' n') : id = id' ∧ n = n' := by
  have h1 : (msgKey id n).toList.reverse = (msgKey id' n').toList.reverse := by rw [h]
  simp only [msgKey, String.toList_append, List.reverse_append] at h1
  have hd : ∀ m : Nat, ∀ c ∈ m.repr.toList.reverse, c.isDigit = true := by
    intro m c hc
    exact repr_isDigit (List.mem_reverse.mp hc)
  have hc : (":" : String).toList.reverse = [':'] := rfl
  rw [hc] at h1
  obtain ⟨h2, h3⟩ := span_eq (p := Char.isDigit) (hd n) (hd n') (by simp) (by simp) h1
  simp only [List.singleton_append, List.cons.injEq, true_and] at h3
  exact ⟨String.toList_inj.mp (List.reverse_inj.mp h3), repr_inj (String.toList_inj.mp (List.reverse_inj.mp h2))⟩

/-- what follows the counter in the id of a descendant -/
def tailChars : Option String → List Char → List Char
  | none, r => r
  | some s, r => '.' :: s.toList ++ r

/-- a path of spawns below a scope: at each level the counter value and the suffix used -/
def pathId (root : String) : List (Nat × Option String) → String
  | [] => root
  | (n, s) :: l => pathId (childId root n s) l

theorem pathId_prefix (root : String) (l : List (Nat × Option String)) :
    ∃ r, (pathId root l).toList = root.toList ++ r ∧ (∀ c ∈ r.head?, c = '.') ∧ (l ≠ [] → r ≠ []) := by
  induction l generalizing root with
  | nil => exact ⟨[], by simp [pathId]⟩
  | cons e l ih =>
    obtain ⟨n, s⟩ := e
    obtain ⟨r, h1, h2, _⟩ := ih (childId root n s)
    simp only [pathId]
    cases s with
    | none =>
      refine ⟨'.' :: n.repr.toList ++ r, ?_, by simp, by simp⟩
      rw [h1, childId]
      simp [String.toList_append]
    | some s =>
      refine ⟨'.' :: n.repr.toList ++ '.' :: s.toList ++ r, ?_, by simp, by simp⟩
      rw [h1, childId]
      simp [String.toList_append]

theorem child_counter {id : String} {n n' : Nat} {s s' : Option String} {r r' : List Char}
    (hr : ∀ c ∈ r.head?, c = '.') (hr' : ∀ c ∈ r'.head?, c = '.')
    (h : (childId id n s).toList ++ r = (childId id n' s').toList ++ r') : n = n' := by
  have e : ∀ (m : Nat) (t : Option String) (q : List Char), (childId id m t).toList ++ q = id.toList ++ '.' :: (m.repr.toList ++ tailChars t q) := by
    intro m t q
    cases t <;> simp [childId, tailChars, String.toList_append]
  rw [e, e, List.append_cancel_left_eq] at h
  simp only [List.cons.injEq, true_and] at h
  have ht : ∀ (t : Option String) (q : List Char), (∀ c ∈ q.head?, c = '.') → ∀ c ∈ (tailChars t q).head?, c.isDigit = false := by
    intro t q hq c hc
    cases t with
    | none => rw [hq c hc]; rfl
    | some s => simp only [tailChars, List.cons_append, List.head?_cons, Option.mem_def, Option.some.injEq] at hc; subst hc; rfl
  obtain ⟨h1, _⟩ := span_eq (p := Char.isDigit) (fun c hc => repr_isDigit hc) (fun c hc => repr_isDigit hc) (ht s r hr) (ht s' r' hr') h
  exact repr_inj (String.toList_inj.mp h1)

/-- **C24** Distinct scopes of one party never share a name: for all trees of `spawn` calls (any depth, any suffixes), two
different descendants of a scope have different ids.  With `key_injective`, messages of different scopes cannot meet. -/
theorem scopes_distinct (root : String) (p q : List (Nat × Option String))
    (hco : ∀ a n s r n' s' r', p = a ++ (n, s) :: r → q = a ++ (n', s') :: r' → n = n' → s = s')
    (h : pathId root p = pathId root q) : p = q := by
  induction p generalizing root q with
  | nil =>
    cases q with
    | nil => rfl
    | cons e q =>
      obtain ⟨r, h1, _, h3⟩ := pathId_prefix root (e :: q)
      rw [← h] at h1
      simp only [pathId, List.self_eq_append_right] at h1
      exact absurd h1 (h3 (by simp))
  | cons e p ih =>
    obtain ⟨n, s⟩ := e
    cases q with
    | nil =>
      obtain ⟨r, h1, _, h3⟩ := pathId_prefix root ((n, s) :: p)
      rw [h] at h1
      simp only [pathId, List.self_eq_append_right] at h1
      exact absurd h1 (h3 (by simp))
    | cons e' q =>
      obtain ⟨n', s'⟩ := e'
      simp only [pathId] at h
      obtain ⟨r, h1, h2, _⟩ := pathId_prefix (childId root n s) p
      obtain ⟨r', h1', h2', _⟩ := pathId_prefix (childId root n' s') q
      have hh : (pathId (childId root n s) p).toList = (pathId (childId root n' s') q).toList := by rw [h]
      rw [h1, h1'] at hh
      have hn := child_counter h2 h2' hh
      have hs := hco [] n s p n' s' q rfl rfl hn
      subst hn; subst hs
      rw [ih (childId root n s) q (fun a m t r m' t' r' e1 e2 => hco ((n, s) :: a) m t r m' t' r' (by rw [e1]; rfl) (by rw [e2]; rfl)) h]

theorem spawnIds_get (c : CommCtx) (ss : List (Option String)) (i : Nat) (s : Option String) (h : ss[i]? = some s) :
    (spawnIds c ss)[i]? = some (childId c.id (c.spawned + i) s) := by
  induction ss generalizing c i with
  | nil => simp at h
  | cons x ss ih =>
    cases i with
    | zero => simp only [List.getElem?_cons_zero, Option.some.injEq] at h; subst h; simp [spawnIds, CommCtx.spawn]
    | succ i =>
      simp only [List.getElem?_cons_succ] at h
      simp only [spawnIds, List.getElem?_cons_succ]
      rw [ih (c.spawn x).1 i h]
      simp [CommCtx.spawn]
      congr 1
      omega

/-- **C24** (proved part) Two parties that start the operations of a graph in the same order give each operation the same
scope name.  Missing: different orders, see `scope_order_violated`. -/
theorem scope_names_agree_partial (id : String) (n : Nat) (ops : List String) (i : Nat) (op : String) (h : ops[i]? = some op) :
    (spawnIds ⟨id, n⟩ (ops.map some))[i]? = some (childId id (n + i) (some op)) := by
  apply spawnIds_get
  simp [h]

/-- **C24 violated** An operation started at different positions by two parties (concurrent operations becoming ready in
different orders) gets different scope names — always, for every scope and suffix — although the documentation promises a name
independent of the call order; so no message key of the one is a message key of the other. -/
theorem scope_order_violated (id op : String) (i j : Nat) (hij : i ≠ j) (m n : Nat) :
    childId id i (some op) ≠ childId id j (some op) ∧ msgKey (childId id i (some op)) m ≠ msgKey (childId id j (some op)) n := by
  have h1 : childId id i (some op) ≠ childId id j (some op) := by
    intro h
    have : (childId id i (some op)).toList ++ [] = (childId id j (some op)).toList ++ [] := by rw [h]
    exact hij (child_counter (by simp) (by simp) this)
  exact ⟨h1, fun h => h1 (key_injective h).1⟩

/-! Non-vacuity: two operations `k.0` and `k.1` started in opposite orders. -/
example : spawnIds ⟨"job", 0⟩ [some "k.0", some "k.1"] = ["job.0.k.0", "job.1.k.1"] ∧
    spawnIds ⟨"job", 0⟩ [some "k.1", some "k.0"] = ["job.0.k.1", "job.1.k.0"] := by decide
example : pathId "job" [(0, some "k.0"), (3, none)] = "job.0.k.0.3" := by decide
end Verif.Comm
