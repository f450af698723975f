import Mathlib.Data.List.Nodup
import Verif.Tensor.Dtypes
import Verif.Tensor.Arrays
import Verif.Serde.Lemmas
/-!
# Constants in traced programs (dialects/tensor.py:207-311, backends/tensor_impl.py:256-276): property C91

`tensor.constant(data)` writes the bytes of an array into the graph, once per tracer and content, and the backend makes an array
of them again.
-/
namespace Verif.Jax
open Verif.Serde Verif.Tensor

/-- A numpy array: dtype name, whether it is stored in the other byte order than the machine's, shape, and its elements in row-major
order, each as the bytes it has in the machine's order. -/
structure NpArr where
  name : String
  swapped : Bool
  shape : List Nat
  elems : List (List Nat)
  deriving DecidableEq, Repr

/-- bytes per element -/
def itemsize (d : String) : Nat :=
  if d = "int8" ∨ d = "uint8" ∨ d = "bool" then 1
  else if d = "int16" ∨ d = "uint16" ∨ d = "float16" ∨ d = "bfloat16" then 2
  else if d = "int32" ∨ d = "uint32" ∨ d = "float32" then 4
  else if d = "complex128" then 16
  else 8

/-- an element in the other byte order; the two halves of a complex number are swapped one by one -/
def otherOrder (d : String) (e : List Nat) : List Nat :=
  if d = "complex64" ∨ d = "complex128" then (e.take (itemsize d / 2)).reverse ++ (e.drop (itemsize d / 2)).reverse
  else e.reverse

/-- `arr.tobytes()`: the bytes as stored -/
def NpArr.tobytes (a : NpArr) : List Nat := a.elems.flatMap fun e => if a.swapped then otherOrder a.name e else e

/-- `str(arr.dtype)`: names the byte order when it is not the machine's -/
def NpArr.dtypeStr (a : NpArr) : String := (if a.swapped then ">" else "") ++ a.name

/-- A real array: right number of elements, each of the right size, bytes below 256. -/
structure NpArr.Ok (a : NpArr) : Prop where
  count : a.elems.length = size a.shape
  width : ∀ e ∈ a.elems, e.length = itemsize a.name
  bytes : ∀ e ∈ a.elems, ∀ b ∈ e, b < 256

/-- operation in the graph: a constant with its output type and the attribute `value_b64`, or anything else -/
inductive GOp where
  | const (elem : Ty) (shape : List Int) (b64 : List Char)
  | other

/-- A value of a graph: the graph (each `reset` starts another one) and the index of the operation that defines it. -/
structure GVal where
  graph : Nat
  ix : Nat
  deriving DecidableEq, Repr

/-- cache key (tensor.py:301) -/
abbrev Key := String × List Nat × List Nat

/-- A tracer and its entry in `_CONSTANT_CACHE`. -/
structure Tr where
  graph : Nat
  ops : List GOp
  cache : List (Key × GVal)

/-- a new tracer -/
def Tr.new : Tr := ⟨0, [], []⟩

/-- dictionary lookup -/
def lookupKey (k : Key) : List (Key × GVal) → Option GVal
  | [] => none
  | (k', v) :: r => if k = k' then some v else lookupKey k r

/-- `inner_key` (tensor.py:285-301) -/
def NpArr.key (a : NpArr) : Key := (a.dtypeStr, a.shape, a.tobytes)

/-- `_constant_trace` (tensor.py:207-245), with the check of `TensorType` (typing.py:404-414): the operation it adds -/
def constOp (a : NpArr) : Except DtErr GOp := do
  let t ← fromDtype a.name
  let shape := a.shape.map Int.ofNat
  if shape.all dimOk then pure (.const t shape (b64enc a.tobytes)) else .error .value

/-- `constant(data)` while a tracer is active (tensor.py:254-311); `none` is an exception -/
def Tr.constant (s : Tr) (a : NpArr) : Option (GVal × Tr) :=
  match lookupKey a.key s.cache with
  | some v => some (v, s)
  | none =>
    match constOp a with
    | .error _ => none
    | .ok op =>
      let v : GVal := ⟨s.graph, s.ops.length⟩
      some (v, ⟨s.graph, s.ops ++ [op], (a.key, v) :: s.cache⟩)

/-- any other operation added to the graph -/
def Tr.emit (s : Tr) : Tr := { s with ops := s.ops ++ [.other] }

/-- `Tracer.reset` (tracer.py:100-106), also the first step of `Tracer.run`: a new graph; the constant cache is keyed by the tracer
and stays -/
def Tr.reset (s : Tr) : Tr := { s with graph := s.graph + 1, ops := [] }

/-- split bytes into elements -/
def splitEvery (w : Nat) : Nat → List Nat → List (List Nat)
  | 0, _ => []
  | n + 1, l => l.take w :: splitEvery w n (l.drop w)

/-- `constant_impl` (tensor_impl.py:256-276): `np.frombuffer(b64decode(..), dtype).reshape(shape)` -/
def constImpl (elem : Ty) (shape : List Int) (b64 : List Char) : Option NpArr :=
  match toJax elem with
  | .error _ => none
  | .ok d =>
    match b64dec b64 with
    | none => none
    | some bytes =>
      let w := itemsize d
      let sh := shape.map Int.toNat
      if bytes.length % w = 0 ∧ bytes.length / w = size sh then some ⟨d, false, sh, splitEvery w (bytes.length / w) bytes⟩ else none

/-- the array a value of the tracer's graph evaluates to -/
def Tr.eval (s : Tr) (v : GVal) : Option NpArr :=
  if v.graph = s.graph then
    match s.ops[v.ix]? with
    | some (.const t sh b) => constImpl t sh b
    | _ => none
  else none

/-- What a program does with its tracer. -/
inductive Act where
  | constant (a : NpArr)
  | emit

/-- one action; a refused constant changes nothing -/
def Tr.act (s : Tr) : Act → Tr
  | .constant a => match s.constant a with | some (_, s') => s' | none => s
  | .emit => s.emit

/-- a tracer after a sequence of actions -/
def Tr.run : Tr → List Act → Tr
  | s, [] => s
  | s, x :: xs => (s.act x).run xs

/-! ### Bytes -/

/-- The other byte order of an element has the same number of bytes, and the other order of it is the element: `tobytes`
of a swapped array is the bytes of the native one, element by element in the other order. -/
theorem otherOrder_length {d : String} {e : List Nat} (h : e.length = itemsize d) : (otherOrder d e).length = itemsize d := by
  unfold otherOrder
  split
  · simp only [List.length_append, List.length_reverse, List.length_take, List.length_drop]
    omega
  · simpa using h

theorem otherOrder_twice {d : String} {e : List Nat} (h : e.length = itemsize d) : otherOrder d (otherOrder d e) = e := by
  by_cases hc : d = "complex64" ∨ d = "complex128"
  · have hk : itemsize d / 2 + itemsize d / 2 = itemsize d := by rcases hc with rfl | rfl <;> decide
    have h1 : (e.take (itemsize d / 2)).reverse.length = itemsize d / 2 := by
      rw [List.length_reverse, List.length_take]; omega
    simp only [otherOrder, if_pos hc]
    rw [List.take_left' h1, List.drop_left' h1, List.reverse_reverse, List.reverse_reverse, List.take_append_drop]
  · simp only [otherOrder, if_neg hc, List.reverse_reverse]

example : otherOrder "complex64" [1, 2, 3, 4, 5, 6, 7, 8] = [4, 3, 2, 1, 8, 7, 6, 5] := by decide

theorem tobytes_native {a : NpArr} (h : a.swapped = false) : a.tobytes = a.elems.flatten := by
  simp [NpArr.tobytes, h, List.flatMap_id']

theorem flatten_len {w : Nat} : ∀ {l : List (List Nat)}, (∀ e ∈ l, e.length = w) → l.flatten.length = l.length * w
  | [], _ => by simp
  | e :: l, h => by
    have := flatten_len (fun x hx => h x (List.mem_cons_of_mem _ hx)) (l := l)
    simp only [List.flatten_cons, List.length_append, List.length_cons, this, h e (by simp)]
    rw [Nat.add_mul]; omega

theorem split_flatten {w : Nat} : ∀ {l : List (List Nat)}, (∀ e ∈ l, e.length = w) → splitEvery w l.length l.flatten = l
  | [], _ => rfl
  | e :: l, h => by
    have he := h e (by simp)
    simp only [List.length_cons, splitEvery, List.flatten_cons]
    rw [List.take_left' he, List.drop_left' he, split_flatten (fun x hx => h x (List.mem_cons_of_mem _ hx))]

theorem itemsize_pos (d : String) : 0 < itemsize d := by
  unfold itemsize
  repeat' split
  all_goals omega

theorem constImpl_native {a : NpArr} (hok : a.Ok) (hn : a.swapped = false) {t : Ty} (hj : toJax t = .ok a.name) :
    constImpl t (a.shape.map Int.ofNat) (b64enc a.tobytes) = some a := by
  have hb : ∀ b ∈ a.tobytes, b < 256 := by
    intro b hb
    rw [tobytes_native hn, List.mem_flatten] at hb
    obtain ⟨e, he, hbe⟩ := hb
    exact hok.bytes e he b hbe
  have hlen : a.tobytes.length = a.elems.length * itemsize a.name := by
    rw [tobytes_native hn, flatten_len hok.width]
  have hsh : (a.shape.map Int.ofNat).map Int.toNat = a.shape := by
    simp [List.map_map, Function.comp_def]
  simp only [constImpl, hj, b64dec_enc _ hb, hlen, hsh, Nat.mul_mod_left, Nat.mul_div_cancel _ (itemsize_pos a.name), hok.count,
    and_self, if_true, Option.some.injEq]
  rw [← hok.count, tobytes_native hn, split_flatten hok.width]
  cases a
  simp_all

/-! ### The tracer -/

/-- invariant: every cached value is defined in the current graph by the operation of an array with that key -/
def Tr.Inv (s : Tr) : Prop :=
  ∀ k v, (k, v) ∈ s.cache → ∃ a op, a.key = k ∧ constOp a = .ok op ∧ v.graph = s.graph ∧ s.ops[v.ix]? = some op

theorem mem_of_lookup {k : Key} {v : GVal} : ∀ {l : List (Key × GVal)}, lookupKey k l = some v → (k, v) ∈ l
  | (k', v') :: r, h => by
    simp only [lookupKey] at h
    split at h
    · next e => simp only [Option.some.injEq] at h; subst e; subst h; simp
    · exact List.mem_cons_of_mem _ (mem_of_lookup h)

theorem inv_new : Tr.new.Inv := fun _ _ h => by simp [Tr.new] at h

theorem get_append {l : List GOp} {x op : GOp} {i : Nat} (h : l[i]? = some op) : (l ++ [x])[i]? = some op := by
  rw [List.getElem?_append_left (List.getElem?_eq_some_iff.1 h).1]
  exact h

theorem Tr.Inv.constant {s : Tr} (i : s.Inv) {a : NpArr} {v : GVal} {s' : Tr} (h : s.constant a = some (v, s')) : s'.Inv := by
  unfold Tr.constant at h
  split at h
  · simp only [Option.some.injEq, Prod.mk.injEq] at h
    exact h.2 ▸ i
  · split at h
    · simp at h
    · next op ho =>
      simp only [Option.some.injEq, Prod.mk.injEq] at h
      obtain ⟨rfl, rfl⟩ := h
      intro k w hm
      rcases List.mem_cons.1 hm with e | hm
      · cases e
        exact ⟨a, op, rfl, ho, rfl, by simp⟩
      · obtain ⟨b, op', h1, h2, h3, h4⟩ := i k w hm
        exact ⟨b, op', h1, h2, h3, get_append h4⟩

theorem Tr.Inv.act {s : Tr} (i : s.Inv) (x : Act) : (s.act x).Inv := by
  cases x with
  | constant a =>
    simp only [Tr.act]
    split
    · next h => exact i.constant h
    · exact i
  | emit =>
    intro k v hm
    obtain ⟨b, op', h1, h2, h3, h4⟩ := i k v hm
    exact ⟨b, op', h1, h2, h3, get_append h4⟩

theorem Tr.Inv.run {s : Tr} (i : s.Inv) : ∀ (xs : List Act), (s.run xs).Inv
  | [] => i
  | x :: xs => (i.act x).run xs

/-- actions only add operations to the graph -/
theorem act_grows (s : Tr) (x : Act) : (s.act x).graph = s.graph ∧ ∀ (i : Nat) (op : GOp), s.ops[i]? = some op → (s.act x).ops[i]? = some op := by
  cases x with
  | constant a =>
    simp only [Tr.act]
    split
    · next v s' h =>
      unfold Tr.constant at h
      split at h
      · simp only [Option.some.injEq, Prod.mk.injEq] at h
        rw [← h.2]
        exact ⟨rfl, fun _ _ h => h⟩
      · split at h
        · simp at h
        · simp only [Option.some.injEq, Prod.mk.injEq] at h
          rw [← h.2]
          exact ⟨rfl, fun _ _ h => get_append h⟩
    · exact ⟨rfl, fun _ _ h => h⟩
  | emit => exact ⟨rfl, fun _ _ h => get_append h⟩

theorem run_grows (s : Tr) : ∀ (xs : List Act), (s.run xs).graph = s.graph ∧ ∀ (i : Nat) (op : GOp), s.ops[i]? = some op → (s.run xs).ops[i]? = some op
  | [] => ⟨rfl, fun _ _ h => h⟩
  | x :: xs => by
    have h1 := act_grows s x
    have h2 := run_grows (s.act x) xs
    exact ⟨h2.1.trans h1.1, fun i op h => h2.2 i op (h1.2 i op h)⟩

/-- an accepted constant is in the graph, as written for some array with the same key -/
theorem constant_in_graph {s : Tr} (i : s.Inv) {a : NpArr} {v : GVal} {s' : Tr} (h : s.constant a = some (v, s')) :
    ∃ b op, b.key = a.key ∧ constOp b = .ok op ∧ v.graph = s'.graph ∧ s'.ops[v.ix]? = some op := by
  unfold Tr.constant at h
  split at h
  · next hl =>
    simp only [Option.some.injEq, Prod.mk.injEq] at h
    obtain ⟨rfl, rfl⟩ := h
    exact i _ _ (mem_of_lookup hl)
  · split at h
    · simp at h
    · next op ho =>
      simp only [Option.some.injEq, Prod.mk.injEq] at h
      obtain ⟨rfl, rfl⟩ := h
      exact ⟨a, op, rfl, ho, rfl, by simp⟩

theorem dtypeStr_name {a b : NpArr} (ha : a.swapped = false) (hna : a.name ∈ scalarTable.map Prod.snd) (h : b.dtypeStr = a.dtypeStr) :
    b.name = a.name ∧ b.swapped = false := by
  simp only [NpArr.dtypeStr, ha] at h
  cases hb : b.swapped with
  | false => simp only [hb] at h; simpa using h
  | true =>
    exfalso
    simp only [hb, if_true, Bool.false_eq_true, if_false] at h
    have h := congrArg String.toList h
    simp only [String.toList_append] at h
    have : ∀ n ∈ scalarTable.map Prod.snd, n.toList.head? ≠ some '>' := by decide +kernel
    apply this _ hna
    have h2 : ("" : String).toList = [] := rfl
    rw [h2, List.nil_append] at h
    rw [← h]
    rfl

/-- **C91** (value) In a program traced so far (any constants and other operations), a constant made from an array of a documented
dtype in the machine's byte order evaluates, now and after anything the program still does, to that array: same dtype, shape and
elements.  Missing: arrays in the other byte order (`constant_byte_order_violated`), `bfloat16` (`constant_bfloat16_violated`), and
a tracer used for a second program (`constant_reset_violated`). -/
theorem constant_value_partial (xs : List Act) {a : NpArr} (hok : a.Ok) (hn : a.swapped = false)
    (hd : a.name ∈ scalarTable.map Prod.snd) {v : GVal} {s' : Tr} (h : (Tr.new.run xs).constant a = some (v, s')) (ys : List Act) :
    (s'.run ys).eval v = some a := by
  obtain ⟨b, op, hk, ho, hg, hx⟩ := constant_in_graph (inv_new.run xs) h
  obtain ⟨g1, g2⟩ := run_grows s' ys
  simp only [NpArr.key, Prod.mk.injEq] at hk
  obtain ⟨hname, _⟩ := dtypeStr_name hn hd hk.1
  simp only [constOp, bind, Except.bind, hname] at ho
  obtain ⟨t, ht, hj⟩ := dtype_roundtrip_back a.name hd
  simp only [ht, hk.2.1, hk.2.2] at ho
  split at ho
  · simp only [pure, Except.pure, Except.ok.injEq] at ho
    subst ho
    simp only [Tr.eval, hg, g1, if_true, g2 _ _ hx]
    exact constImpl_native hok hn hj
  · simp at ho

theorem lookup_some_of_mem {k : Key} {v : GVal} : ∀ {l : List (Key × GVal)}, (k, v) ∈ l → ∃ w, lookupKey k l = some w
  | (k', v') :: r, h => by
    simp only [lookupKey]
    split
    · exact ⟨_, rfl⟩
    · next hne =>
      rcases List.mem_cons.1 h with e | h
      · cases e; exact absurd rfl hne
      · exact lookup_some_of_mem h

/-- **C91** (acceptance) A constant is accepted exactly if its dtype has a scalar type and no dimension is zero (unless an equal
one was accepted before, which then met the condition). -/
theorem constant_accepted_iff (xs : List Act) (a : NpArr) :
    ((Tr.new.run xs).constant a).isSome ↔ (∃ b : NpArr, b.key = a.key ∧ (∃ t, fromDtype b.name = .ok t) ∧ ∀ d ∈ b.shape, d ≠ 0) ∧
      (lookupKey a.key (Tr.new.run xs).cache = none → (∃ t, fromDtype a.name = .ok t) ∧ ∀ d ∈ a.shape, d ≠ 0) := by
  have hop : ∀ b : NpArr, (∃ op, constOp b = .ok op) ↔ (∃ t, fromDtype b.name = .ok t) ∧ ∀ d ∈ b.shape, d ≠ 0 := by
    intro b
    simp only [constOp, bind, Except.bind]
    cases ht : fromDtype b.name with
    | error e => simp
    | ok t =>
      simp only [pure, Except.pure]
      have : (b.shape.map Int.ofNat).all dimOk = true ↔ ∀ d ∈ b.shape, d ≠ 0 := by
        simp only [List.all_map, List.all_eq_true, Function.comp_apply, dimOk]
        refine forall₂_congr fun d _ => ?_
        simp only [Int.ofNat_eq_natCast, Bool.not_eq_eq_eq_not, Bool.not_true, Bool.or_eq_false_iff, decide_eq_false_iff_not, Int.not_lt, beq_eq_false_iff_ne, ne_eq]
        omega
      split
      · next h => simpa using this.1 h
      · next h =>
        simp only [reduceCtorEq, Except.ok.injEq, exists_eq', true_and]
        exact ⟨fun hf => hf.elim fun _ hf => hf.elim, fun hh => absurd (this.2 hh) h⟩
  unfold Tr.constant
  cases hl : lookupKey a.key (Tr.new.run xs).cache with
  | some v =>
    simp only [Option.isSome_some, reduceCtorEq, false_implies, and_true, true_iff]
    obtain ⟨b, op, h1, h2, _⟩ := inv_new.run xs _ _ (mem_of_lookup hl)
    exact ⟨b, h1, (hop b).1 ⟨op, h2⟩⟩
  | none =>
    simp only []
    cases ho : constOp a with
    | error e =>
      simp only [Option.isSome_none, Bool.false_eq_true, true_implies, false_iff]
      rintro ⟨_, h⟩
      obtain ⟨op, h⟩ := (hop a).2 h
      rw [ho] at h
      simp at h
    | ok op =>
      simp only [Option.isSome_some, true_implies, true_iff]
      exact ⟨⟨a, rfl, (hop a).1 ⟨op, ho⟩⟩, (hop a).1 ⟨op, ho⟩⟩

/-- cached keys and values determine each other -/
def Tr.Inj (s : Tr) : Prop :=
  (∀ k v, (k, v) ∈ s.cache → v.ix < s.ops.length) ∧ ∀ k k' v, (k, v) ∈ s.cache → (k', v) ∈ s.cache → k = k'

theorem inj_new : Tr.new.Inj := ⟨fun _ _ h => by simp [Tr.new] at h, fun _ _ _ h => by simp [Tr.new] at h⟩

theorem Tr.Inj.constant {s : Tr} (i : s.Inj) {a : NpArr} {v : GVal} {s' : Tr} (h : s.constant a = some (v, s')) :
    s'.Inj ∧ (a.key, v) ∈ s'.cache ∧ ∀ e ∈ s.cache, e ∈ s'.cache := by
  unfold Tr.constant at h
  split at h
  · next hl =>
    simp only [Option.some.injEq, Prod.mk.injEq] at h
    obtain ⟨rfl, rfl⟩ := h
    exact ⟨i, mem_of_lookup hl, fun _ h => h⟩
  · split at h
    · simp at h
    · simp only [Option.some.injEq, Prod.mk.injEq] at h
      obtain ⟨rfl, rfl⟩ := h
      refine ⟨⟨?_, ?_⟩, by simp, fun _ h => List.mem_cons_of_mem _ h⟩
      · intro k w hm
        rcases List.mem_cons.1 hm with e | hm
        · cases e; simp
        · have := i.1 k w hm
          simp; omega
      · intro k k' w hm hm'
        rcases List.mem_cons.1 hm with e | hm <;> rcases List.mem_cons.1 hm' with e' | hm'
        · cases e; cases e'; rfl
        · cases e; exact absurd (i.1 _ _ hm') (by simp)
        · cases e'; exact absurd (i.1 _ _ hm) (by simp)
        · exact i.2 k k' w hm hm'

theorem Tr.Inj.act {s : Tr} (i : s.Inj) (x : Act) : (s.act x).Inj ∧ ∀ e ∈ s.cache, e ∈ (s.act x).cache := by
  cases x with
  | constant a =>
    simp only [Tr.act]
    split
    · next h => exact ⟨(i.constant h).1, (i.constant h).2.2⟩
    · exact ⟨i, fun _ h => h⟩
  | emit =>
    refine ⟨⟨?_, i.2⟩, fun _ h => h⟩
    intro k v hm
    have := i.1 k v hm
    simp [Tr.act, Tr.emit]; omega

theorem Tr.Inj.run {s : Tr} (i : s.Inj) : ∀ (xs : List Act), (s.run xs).Inj ∧ ∀ e ∈ s.cache, e ∈ (s.run xs).cache
  | [] => ⟨i, fun _ h => h⟩
  | x :: xs => by
    have h := (i.act x).1.run xs
    exact ⟨h.1, fun e he => h.2 e ((i.act x).2 e he)⟩

theorem lookup_unique {k : Key} {v w : GVal} {l : List (Key × GVal)} (hn : (l.map Prod.fst).Nodup) (h : (k, v) ∈ l) (hl : lookupKey k l = some w) :
    v = w := by
  have h2 := mem_of_lookup hl
  exact (Prod.mk.inj (List.inj_on_of_nodup_map hn h h2 rfl)).2

theorem lookup_none {k : Key} {l : List (Key × GVal)} (h : lookupKey k l = none) : k ∉ l.map Prod.fst := by
  intro hm
  obtain ⟨⟨k', v⟩, hm', rfl⟩ := List.mem_map.1 hm
  obtain ⟨w, hw⟩ := lookup_some_of_mem hm'
  rw [h] at hw
  simp at hw

theorem nodup_act {s : Tr} (h : (s.cache.map Prod.fst).Nodup) (x : Act) : ((s.act x).cache.map Prod.fst).Nodup := by
  cases x with
  | constant a =>
    simp only [Tr.act]
    split
    · next v s' hc =>
      unfold Tr.constant at hc
      split at hc
      · simp only [Option.some.injEq, Prod.mk.injEq] at hc
        rw [← hc.2]; exact h
      · next hl =>
        split at hc
        · simp at hc
        · simp only [Option.some.injEq, Prod.mk.injEq] at hc
          rw [← hc.2]
          simp only [List.map_cons, List.nodup_cons]
          exact ⟨lookup_none hl, h⟩
    · exact h
  | emit => exact h

theorem nodup_run {s : Tr} (h : (s.cache.map Prod.fst).Nodup) : ∀ (xs : List Act), ((s.run xs).cache.map Prod.fst).Nodup
  | [] => h
  | x :: xs => nodup_run (nodup_act h x) xs

/-- **C91** (sharing) Two constants of a program are the same value of the graph exactly if their dtypes (with byte order), shapes
and bytes are equal, whatever happens in between; in particular different constants are never merged. -/
theorem constant_shared_iff (xs ys : List Act) {a b : NpArr} {v w : GVal} {s s' : Tr}
    (h : (Tr.new.run xs).constant a = some (v, s)) (h' : (s.run ys).constant b = some (w, s')) :
    v = w ↔ a.dtypeStr = b.dtypeStr ∧ a.shape = b.shape ∧ a.tobytes = b.tobytes := by
  have i0 := (inj_new.run xs).1
  obtain ⟨i1, m1, _⟩ := i0.constant h
  obtain ⟨i2, m2⟩ := i1.run ys
  obtain ⟨i3, m3, m4⟩ := i2.constant h'
  have hn : (s'.cache.map Prod.fst).Nodup := by
    have h0 : (Tr.new.cache.map Prod.fst).Nodup := by simp [Tr.new]
    have e1 : s = (Tr.new.run xs).act (.constant a) := by simp [Tr.act, h]
    have e2 : s' = (s.run ys).act (.constant b) := by simp [Tr.act, h']
    rw [e2]
    refine nodup_act (nodup_run ?_ ys) _
    rw [e1]
    exact nodup_act (nodup_run h0 xs) _
  have ha := m4 _ (m2 _ m1)
  constructor
  · intro e
    subst e
    have := i3.2 _ _ _ ha m3
    simpa [NpArr.key] using this
  · intro e
    have hk : a.key = b.key := by simp [NpArr.key, e]
    rw [hk] at ha
    exact (Prod.mk.inj (List.inj_on_of_nodup_map hn ha m3 rfl)).2

/-- **C91, violated** (byte order) A constant made from an array in the other byte order is accepted and evaluates to other
numbers: the big-endian 32-bit integer 1 becomes 16777216 (bytes 0 0 0 1 in the machine's order). -/
theorem constant_byte_order_violated : ∃ v s', Tr.new.constant ⟨"int32", true, [1], [[1, 0, 0, 0]]⟩ = some (v, s') ∧
    s'.eval v = some ⟨"int32", false, [1], [[0, 0, 0, 1]]⟩ := ⟨_, _, rfl, by decide +kernel⟩

/-- **C91, violated** (`bfloat16`) A constant made from a `bfloat16` array is accepted and evaluates to a `float16` array with the
same bytes, which are other numbers (1.0 becomes 1.875). -/
theorem constant_bfloat16_violated : ∃ v s', Tr.new.constant ⟨"bfloat16", false, [1], [[0x80, 0x3f]]⟩ = some (v, s') ∧
    s'.eval v = some ⟨"float16", false, [1], [[0x80, 0x3f]]⟩ := ⟨_, _, rfl, by decide +kernel⟩

/-- **C91, violated** (second program) A tracer that is used again, after `reset`, answers a constant it has seen with a value of
the previous graph: it evaluates to nothing in the new one, whatever the program does. -/
theorem constant_reset_violated (xs : List Act) {a : NpArr} {v : GVal} {s : Tr} (h : (Tr.new.run xs).constant a = some (v, s))
    (ys zs : List Act) : ∃ w s', (s.reset.run ys).constant a = some (w, s') ∧ (s'.run zs).eval w = none := by
  have i0 := (inj_new.run xs).1
  obtain ⟨i1, m1, _⟩ := i0.constant h
  have i2 : s.reset.cache = s.cache := rfl
  -- the cache entry survives reset and all further actions
  have keep : ∀ (ys : List Act) (t : Tr), (a.key, v) ∈ t.cache → (t.cache.map Prod.fst).Nodup → (a.key, v) ∈ (t.run ys).cache ∧
      ((t.run ys).cache.map Prod.fst).Nodup := by
    intro ys
    induction ys with
    | nil => exact fun t h1 h2 => ⟨h1, h2⟩
    | cons y ys ih =>
      intro t h1 h2
      refine ih (t.act y) ?_ (nodup_act h2 y)
      cases y with
      | constant b =>
        simp only [Tr.act]
        split
        · next v' s'' hc =>
          unfold Tr.constant at hc
          split at hc
          · simp only [Option.some.injEq, Prod.mk.injEq] at hc; rw [← hc.2]; exact h1
          · split at hc
            · simp at hc
            · simp only [Option.some.injEq, Prod.mk.injEq] at hc; rw [← hc.2]; exact List.mem_cons_of_mem _ h1
        · exact h1
      | emit => exact h1
  have hn : (s.cache.map Prod.fst).Nodup := by
    have h0 : (Tr.new.cache.map Prod.fst).Nodup := by simp [Tr.new]
    have e1 : s = (Tr.new.run xs).act (.constant a) := by simp [Tr.act, h]
    rw [e1]
    exact nodup_act (nodup_run h0 xs) _
  obtain ⟨k1, k2⟩ := keep ys s.reset m1 hn
  obtain ⟨w, hw⟩ := lookup_some_of_mem k1
  have hvw := lookup_unique k2 k1 hw
  subst hvw
  refine ⟨v, s.reset.run ys, by simp [Tr.constant, hw], ?_⟩
  have hg : v.graph = s.graph := (constant_in_graph (inv_new.run xs) h).choose_spec.choose_spec.2.2.1
  have h1 := (run_grows (s.reset.run ys) zs).1
  have h2 := (run_grows s.reset ys).1
  have : v.graph ≠ ((s.reset.run ys).run zs).graph := by
    rw [h1, h2, hg]
    simp [Tr.reset]
  simp [Tr.eval, this]

/-- two 32-bit integers -/
def ints : NpArr := ⟨"int32", false, [2], [[1, 0, 0, 0], [2, 1, 0, 0]]⟩

theorem ints_ok : ints.Ok := ⟨rfl, by decide +kernel, by decide +kernel⟩

/-- a program with two constants, one of them twice -/
example : ∃ v w s s', (Tr.new.run [.constant ⟨"float32", false, [1], [[0, 0, 128, 63]]⟩, .emit]).constant ints = some (v, s) ∧
    (s.run [.emit]).constant ints = some (w, s') ∧ v = w ∧ (s'.run [.emit, .emit]).eval w = some ints := by
  refine ⟨⟨0, 2⟩, ⟨0, 2⟩, _, _, rfl, rfl, rfl, ?_⟩
  exact constant_value_partial _ ints_ok rfl (by decide +kernel)
    (show (Tr.new.run ([.constant ⟨"float32", false, [1], [[0, 0, 128, 63]]⟩, .emit] ++ [.constant ints, .emit])).constant ints = some (_, _) from rfl) _

/-- an empty array is refused -/
example : Tr.new.constant ⟨"int32", false, [0], []⟩ = none := rfl

end Verif.Jax
