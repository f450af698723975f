import Verif.Spu.Channel
import Verif.Jax.Run
import Verif.Trace.FuncUtils
import Mathlib.Data.List.Forall2
/-!
# C125 — a function run on the SPU (dialects/spu.py:246-439, backends/spu_impl.py:108-160, 308-359)

`spu.run_jax` inside `simp.pcall_static`: tracing, the joint execution by the members, `make_shares` and `reconstruct`.
libspu and jax are a structure of library calls with a contract.
-/
namespace Verif.Spu.Run
open Verif.Serde Verif.Tensor Verif.Trace
open Verif.Jax (plainTy)

/-- `Visibility` (dialects/spu.py:275) -/
inductive Vis where
  | secret
  | pub
  deriving DecidableEq

/-- A leaf of the arguments of `run_jax`: an EDSL object with its type, or a value (an immediate; inside the compiled function
also the array in place of an object). -/
inductive Leaf (A : Type) where
  | obj (id : Nat) (ty : Ty)
  | val (a : A)

/-- `is_variable` (dialects/spu.py:368-369) -/
def Leaf.isVar {A : Type} : Leaf A → Bool
  | .obj .. => true
  | .val _ => false

/-- type of an object leaf -/
def Leaf.ty? {A : Type} : Leaf A → Option Ty
  | .obj _ t => some t
  | .val _ => none

/-- libspu and its jax front end: `io.make_shares(x, vis)` with `n` parties, `io.reconstruct`, `spu_fe.compile`/`spu_api.compile` (code
and structure of the outputs) and the joint `runtime.run` (for each input its shares in the order of the SPU ranks).  `sem f` is the
function `f` in SPU arithmetic and `enc a` the fixed-point value stored for `a`. -/
structure Lib (S A Code : Type) where
  makeShares : Nat → Vis → A → Nat → Option (List S)
  reconstruct : List S → Option A
  compile : (List A → Option (Tree A)) → List Ty → List Vis → Option (Code × Tree Unit × Nat)
  run : Nat → Nat → Code → List (List S) → Option (List (List S))
  sem : (List A → Option (Tree A)) → List A → Option (Tree A)
  enc : A → A
  /-- `np.array(x)` of a `TensorValue`, an object without the array protocol: an array of dtype object without dimensions -/
  boxed : A → A

/-- Contract of libspu: `opens v n c a`, the `n` shares `c` stand for `a` with visibility `v`. -/
structure Lib.Ok {S A Code : Type} (L : Lib S A Code) (opens : Vis → Nat → List S → A → Prop) : Prop where
  len : ∀ v n c a, opens v n c a → c.length = n
  shared : ∀ s v a n c, L.makeShares s v a n = some c → opens v n c (L.enc a)
  opened : ∀ v n c a, 0 < n → opens v n c a → L.reconstruct c = some a
  /-- every member makes public shares on its own: its share with any other seeds of the others -/
  mixed : ∀ a n (c : List S), 0 < n → c.length = n → (∀ (i : Nat) (s : S), c[i]? = some s → ∃ seed d, L.makeShares seed .pub a n = some d ∧ d[i]? = some s) →
    opens .pub n c (L.enc a)
  /-- arrays of dtype object are refused -/
  objects : ∀ s v a n, L.makeShares s v (L.boxed a) n = none
  /-- the meaning of a function on `as` depends only on what it does with as many arguments -/
  arity : ∀ f g as, (∀ xs, xs.length = as.length → f xs = g xs) → L.sem f as = L.sem g as
  /-- the structure and the number of outputs are those of the function's results -/
  outTree : ∀ f tys vs code d k, L.compile f tys vs = some (code, d, k) → ∀ as t, as.length = vs.length → L.sem f as = some t → t.def' = d ∧ t.leaves.length = k
  /-- the compiled kernel, run on shares of the visibilities it was compiled for, computes the function -/
  runs : ∀ f tys vs code d k, L.compile f tys vs = some (code, d, k) → ∀ seed n cols as t, 0 < n →
    List.Forall₂ (fun p a => opens p.1 n p.2 a) (vs.zip cols) as → cols.length = vs.length → L.sem f as = some t →
    ∃ outs, L.run seed n code cols = some outs ∧ List.Forall₂ (fun c a => opens .secret n c a) outs t.leaves

/-- visibility of an argument by its type (dialects/spu.py:379-391); `none`: TypeError -/
def visOf : Ty → Option Vis
  | .ss (.tensor _ _) _ => some .secret
  | .tensor _ _ => some .pub
  | _ => none

/-- `dtypes.to_jax(pt_type.element_type)` succeeds (dialects/spu.py:394) -/
def jaxOk (t : Ty) : Bool := match plainTy t with
  | .tensor e _ => match toJax e with | .ok _ => true | .error _ => false
  | _ => false

/-- the `spu.exec` operation: attributes (dialects/spu.py:448-458) -/
structure ExecOp (Code : Type) where
  code : Code
  vis : List Vis
  inputNames : List String
  outputNames : List String
  outTree : Tree Unit
  inputs : List Ty

variable {S A Code : Type}

/-- `spu.run_jax` while tracing (dialects/spu.py:366-466): the variables in order, the operation; the user's function sees the
immediates in place and arrays for the objects. -/
def traceRun (L : Lib S A Code) (fn : Tree (Leaf A) → Option (Tree A)) (args : Tree (Leaf A)) : Option (List (Leaf A) × ExecOp Code) :=
  ((varMorph args Leaf.isVar).1.mapM Leaf.ty?).bind fun tys =>
  (tys.mapM visOf).bind fun vs =>
  if tys.all jaxOk = true then
    (L.compile (fun as => normalized fn (varMorph args Leaf.isVar).2 (as.map Leaf.val)) tys vs).map fun r =>
      ((varMorph args Leaf.isVar).1, ⟨r.1, vs, numbered "in" tys.length, numbered "out" r.2.2, r.2.1, tys⟩)
  else none

/-- a run-time argument of `exec_impl`: a wrapped share, a wrapped tensor, a bare numpy array (spu_impl.py:325-341) -/
inductive RtArg (S A : Type) where
  | share (s : S)
  | tensor (a : A)
  | array (a : A)

/-- the share of member `i` of `n` for one argument (spu_impl.py:325-341): only `np.ndarray`, `np.generic`, `int` and `float` are taken as
they are -/
def argShare (L : Lib S A Code) (seed i n : Nat) : RtArg S A → Option S
  | .share s => some s
  | .tensor a => (L.makeShares seed .pub (L.boxed a) n).bind (·[i]?)
  | .array a => (L.makeShares seed .pub a n).bind (·[i]?)

/-- variables of member `i` after its inputs are set (spu_impl.py:322-342) -/
def feed (L : Lib S A Code) (op : ExecOp Code) (seed i n : Nat) (args : List (RtArg S A)) (vars : String → Option S) : Option (String → Option S) :=
  if op.inputNames.length = args.length then
    (args.mapM (argShare L seed i n)).map fun sh => setVars (op.inputNames.zip sh) vars
  else none

/-- column of a list of rows -/
def col? {α : Type} (rows : List (List α)) (j : Nat) : Option (List α) := rows.mapM (·[j]?)

/-- `exec_impl` at all `n` members together (spu_impl.py:320-359): each sets its inputs in the variables `vars i` left by earlier runs, the kernel
runs jointly, each reads its outputs.  Result: for each member its output shares. -/
def jointExec (L : Lib S A Code) (op : ExecOp Code) (seed : Nat) (seeds : Nat → Nat) (n : Nat) (args : Nat → List (RtArg S A)) (vars : Nat → String → Option S) :
    Option (List (List S)) :=
  ((List.range n).mapM fun i => feed L op (seeds i) i n (args i) (vars i)).bind fun stores =>
  (op.inputNames.mapM fun x => stores.mapM fun (st : String → Option S) => st x).bind fun cols =>
  (L.run seed n op.code cols).bind fun outs =>
  (stores.zipIdx.mapM fun e => (col? outs e.2).bind fun own =>
    if own.length = op.outputNames.length then op.outputNames.mapM (setVars (op.outputNames.zip own) e.1) else none)

/-- the value of `run_jax` at one member: its output shares in the structure of the function's result (dialects/spu.py:460-466,
spu_impl.py:349-359) -/
def resultTree (op : ExecOp Code) (own : List S) : Option (Tree S) := unflatten op.outTree own

/-- `reconstruct_impl` of output `j` from the shares of all members in order (spu_impl.py:150-166) -/
def openOutput (L : Lib S A Code) (res : List (List S)) (j : Nat) : Option A := (col? res j).bind L.reconstruct

/-- `_makeshares_ae` (dialects/spu.py:251-260); `none`: TypeError -/
def makeSharesTy (t : Ty) (count : Int) : Option (List Ty) := match t with
  | .tensor e sh => some (List.replicate count.toNat (.ss (.tensor e sh) "ss"))
  | _ => none

/-- `_reconstruct_ae` (dialects/spu.py:263-274); `none`: ValueError or TypeError -/
def reconstructTy : List Ty → Option Ty
  | .ss (.tensor e sh) _ :: _ => some (.tensor e sh)
  | _ => none

/-! ## Lemmas -/

theorem mapM_total {α β : Type} (f : α → Option β) : ∀ (l : List α), (∀ x ∈ l, ∃ y, f x = some y) → ∃ r, l.mapM f = some r
  | [], _ => ⟨[], rfl⟩
  | x :: l, h => by
    obtain ⟨y, hy⟩ := h x (.head _)
    obtain ⟨r, hr⟩ := mapM_total f l fun z hz => h z (.tail _ hz)
    exact ⟨y :: r, by simp [List.mapM_cons, hy, hr]⟩

theorem mapM_len {α β : Type} (f : α → Option β) : ∀ (l : List α) (r : List β), l.mapM f = some r → r.length = l.length
  | [], r, h => by simp at h; simp [← h]
  | x :: l, r, h => by
    rw [List.mapM_cons] at h
    cases hx : f x with
    | none => simp [hx] at h
    | some y =>
      cases hl : l.mapM f with
      | none => simp [hx, hl] at h
      | some ys =>
        simp only [hx, hl, Option.bind_eq_bind, Option.bind_some, Option.pure_def, Option.some.injEq] at h
        subst h
        simp [mapM_len f l ys hl]

theorem get?_of_lt {α : Type} (l : List α) {i n : Nat} (hl : l.length = n) (h : i < n) : ∃ a, l[i]? = some a := by
  subst hl; exact ⟨l[i], List.getElem?_eq_getElem h⟩

theorem lt_of_get? {α : Type} {l : List α} {i : Nat} {a : α} (h : l[i]? = some a) : i < l.length :=
  (List.getElem?_eq_some_iff.1 h).1

theorem forall₂_get? {α β : Type} {R : α → β → Prop} {l : List α} {r : List β} (h : List.Forall₂ R l r) {i : Nat} {a : α} {b : β}
    (ha : l[i]? = some a) (hb : r[i]? = some b) : R a b := by
  obtain ⟨h1, rfl⟩ := List.getElem?_eq_some_iff.1 ha
  obtain ⟨h2, rfl⟩ := List.getElem?_eq_some_iff.1 hb
  exact (List.forall₂_iff_get.1 h).2 i h1 h2

theorem forall₂_of_get? {α β : Type} {R : α → β → Prop} {l : List α} {r : List β} (hl : l.length = r.length)
    (h : ∀ (i : Nat) a b, l[i]? = some a → r[i]? = some b → R a b) : List.Forall₂ R l r := by
  rw [List.forall₂_iff_get]
  exact ⟨hl, fun i h1 h2 => h i _ _ (List.getElem?_eq_getElem h1) (List.getElem?_eq_getElem h2)⟩

mutual
theorem unflattenAux_spec {α β : Type} (t : Tree β) (l r : List α) (h : l.length = t.leaves.length) :
    ∃ u, unflattenAux t.def' (l ++ r) = some (u, r) ∧ u.leaves = l ∧ u.def' = t.def' := by
  match t with
  | .leaf a =>
    simp only [Tree.leaves, List.length_singleton] at h
    match l, h with
    | [x], _ => exact ⟨.leaf x, by simp [Tree.def', unflattenAux], by simp [Tree.leaves], by simp [Tree.def']⟩
  | .node k ts =>
    simp only [Tree.leaves] at h
    obtain ⟨us, h1, h2, h3⟩ := unflattenL_spec' ts l r h
    exact ⟨.node k us, by simp [Tree.def', unflattenAux, h1], by simp [Tree.leaves, h2], by simp [Tree.def', h3]⟩
theorem unflattenL_spec' {α β : Type} (ts : List (Tree β)) (l r : List α) (h : l.length = (leavesL ts).length) :
    ∃ us, unflattenL (defL ts) (l ++ r) = some (us, r) ∧ leavesL us = l ∧ defL us = defL ts := by
  match ts with
  | [] =>
    simp only [leavesL, List.length_nil] at h
    have : l = [] := List.length_eq_zero_iff.mp h
    subst this
    exact ⟨[], by simp [defL, unflattenL], by simp [leavesL], rfl⟩
  | t :: ts =>
    simp only [leavesL, List.length_append] at h
    have hsplit : l = l.take t.leaves.length ++ l.drop t.leaves.length := (List.take_append_drop _ _).symm
    have hl1 : (l.take t.leaves.length).length = t.leaves.length := by simp; omega
    have hl2 : (l.drop t.leaves.length).length = (leavesL ts).length := by simp; omega
    obtain ⟨u, h1, h2, h3⟩ := unflattenAux_spec t (l.take t.leaves.length) (l.drop t.leaves.length ++ r) hl1
    obtain ⟨us, g1, g2, g3⟩ := unflattenL_spec' ts (l.drop t.leaves.length) r hl2
    refine ⟨u :: us, ?_, ?_, ?_⟩
    · simp only [defL, unflattenL]
      rw [hsplit, List.append_assoc, h1]
      simp only [g1]
    · simp only [leavesL, h2, g2, List.take_append_drop]
    · simp only [defL, h3, g3]
end

theorem unflatten_spec' {α β : Type} (t : Tree β) (l : List α) (h : l.length = t.leaves.length) :
    ∃ u, unflatten t.def' l = some u ∧ u.leaves = l ∧ u.def' = t.def' := by
  obtain ⟨u, h1, h2, h3⟩ := unflattenAux_spec t l [] h
  rw [List.append_nil] at h1
  exact ⟨u, by rw [unflatten, h1], h2, h3⟩

/-! ## C125 -/

/-- what the user's function is given: the arguments with the objects replaced, in order, by arrays -/
def withArrays [Inhabited A] (args : Tree (Leaf A)) (as : List A) : Tree (Leaf A) :=
  (args.subst Leaf.isVar (fun k => .val (as.getD k default)) 0).1

/-- **C125, the function compiled for the SPU** is the user's function: called on arrays for the objects, with every immediate in its place. -/
theorem compiled_is_call [Inhabited A] (fn : Tree (Leaf A) → Option (Tree A)) (args : Tree (Leaf A)) (as : List A)
    (hl : as.length = (varMorph args Leaf.isVar).1.length) :
    normalized fn (varMorph args Leaf.isVar).2 (as.map Leaf.val) = fn (withArrays args as) := by
  have he : as.map Leaf.val = (List.range (varMorph args Leaf.isVar).1.length).map fun k => Leaf.val (as.getD k default) := by
    apply List.ext_getElem
    · simp [hl]
    · intro i h1 h2
      simp only [List.length_map] at h1
      simp [List.getElem?_eq_getElem h1]
  rw [normalized, he, morph_replace]
  rfl

example : withArrays (.node "tuple" [.leaf (.obj 7 (.tensor (.float 32) [2])), .leaf (.val 5), .leaf (.obj 8 (.tensor (.float 32) []))]) [10, 20] =
    (.node "tuple" [.leaf (.val 10), .leaf (.val 5), .leaf (.val 20)] : Tree (Leaf Nat)) := rfl

/-- The members' arguments stand for `as`: a secret argument is a share of the value at each member, a public one the same bare array at each. -/
structure Fed (L : Lib S A Code) (opens : Vis → Nat → List S → A → Prop) (n : Nat) (vs : List Vis) (args : Nat → List (RtArg S A)) (as : List A) : Prop where
  len : as.length = vs.length
  arity : ∀ i, i < n → (args i).length = vs.length
  secret : ∀ (j : Nat) a, vs[j]? = some .secret → as[j]? = some a → ∃ c, opens .secret n c a ∧
    ∀ i, i < n → ∃ s, c[i]? = some s ∧ (args i)[j]? = some (.share s)
  pub : ∀ (j : Nat) a, vs[j]? = some .pub → as[j]? = some a → ∃ b, a = L.enc b ∧ (∀ seed, ∃ c, L.makeShares seed .pub b n = some c) ∧
    ∀ i, i < n → (args i)[j]? = some (.array b)

theorem jointExec_ok {L : Lib S A Code} {opens : Vis → Nat → List S → A → Prop} (hL : L.Ok opens)
    {f : List A → Option (Tree A)} {tys : List Ty} {vs : List Vis} {code : Code} {d : Tree Unit} {k : Nat}
    (hc : L.compile f tys vs = some (code, d, k)) {op : ExecOp Code} (hop : op.code = code ∧ op.inputNames = numbered "in" vs.length ∧ op.outputNames = numbered "out" k)
    (seed : Nat) (seeds : Nat → Nat) {n : Nat} (hn : 0 < n) (args : Nat → List (RtArg S A)) (vars : Nat → String → Option S) {as : List A}
    (hfed : Fed L opens n vs args as) {t : Tree A} (ht : L.sem f as = some t) :
    ∃ res outs, jointExec L op seed seeds n args vars = some res ∧ res.length = n ∧ List.Forall₂ (fun c a => opens .secret n c a) outs t.leaves ∧
      (∀ (i : Nat) own, res[i]? = some own → own.length = t.leaves.length) ∧
      ∀ (i j : Nat) own c s, res[i]? = some own → outs[j]? = some c → (own[j]? = some s ↔ c[i]? = some s) := by
  obtain ⟨hcode, hin, hout⟩ := hop
  -- shares of member i
  have hsh : ∀ i, i < n → ∃ sh, (args i).mapM (argShare L (seeds i) i n) = some sh := by
    intro i hi
    apply mapM_total
    intro x hx
    obtain ⟨j, hj, hget⟩ := List.getElem_of_mem hx
    have hxj : (args i)[j]? = some x := by rw [List.getElem?_eq_getElem hj, hget]
    have hjv : j < vs.length := by rw [← hfed.arity i hi]; exact hj
    obtain ⟨v, hv⟩ := get?_of_lt vs rfl hjv
    obtain ⟨a, ha⟩ := get?_of_lt as hfed.len hjv
    cases v with
    | secret =>
      obtain ⟨c, _, h2⟩ := hfed.secret j a hv ha
      obtain ⟨s, _, h3⟩ := h2 i hi
      rw [hxj] at h3
      cases Option.some.inj h3
      exact ⟨s, rfl⟩
    | pub =>
      obtain ⟨b, _, h2, h3⟩ := hfed.pub j a hv ha
      have h3 := h3 i hi
      rw [hxj] at h3
      cases Option.some.inj h3
      obtain ⟨c, hcc⟩ := h2 (seeds i)
      obtain ⟨s, hs⟩ := get?_of_lt c (hL.len _ _ _ _ (hL.shared _ _ _ _ _ hcc)) hi
      exact ⟨s, by simp [argShare, hcc, hs]⟩
  -- stores
  have hfeed : ∀ i, i < n → ∀ sh, (args i).mapM (argShare L (seeds i) i n) = some sh →
      feed L op (seeds i) i n (args i) (vars i) = some (setVars (op.inputNames.zip sh) (vars i)) := by
    intro i hi sh h
    unfold feed
    rw [if_pos (by rw [hin, hfed.arity i hi]; simp [numbered]), h]
    rfl
  obtain ⟨stores, hstores⟩ := mapM_total (fun i => feed L op (seeds i) i n (args i) (vars i)) (List.range n) (by
    intro i hi
    obtain ⟨sh, h⟩ := hsh i (List.mem_range.1 hi)
    exact ⟨_, hfeed i (List.mem_range.1 hi) sh h⟩)
  have hslen : stores.length = n := by rw [mapM_len _ _ _ hstores]; simp
  have hst : ∀ (i : Nat) st, stores[i]? = some st → ∃ sh, (args i).mapM (argShare L (seeds i) i n) = some sh ∧
      st = setVars (op.inputNames.zip sh) (vars i) := by
    intro i st h
    have hi : i < n := by rw [← hslen]; exact lt_of_get? h
    obtain ⟨b, h1, h2⟩ := mapM_get _ _ _ hstores i i (by simp [hi])
    obtain ⟨sh, h3⟩ := hsh i hi
    rw [h] at h2
    rw [hfeed i hi sh h3, ← h2] at h1
    exact ⟨sh, h3, (Option.some.inj h1).symm⟩
  have hread : ∀ (i j : Nat) st sh x, stores[i]? = some st → (args i).mapM (argShare L (seeds i) i n) = some sh →
      op.inputNames[j]? = some x → ∃ s, st x = some s ∧ sh[j]? = some s := by
    intro i j st sh x h1 h2 h3
    obtain ⟨sh', h4, rfl⟩ := hst i st h1
    rw [h2] at h4
    cases Option.some.inj h4
    have hi : i < n := by rw [← hslen]; exact lt_of_get? h1
    have hlen : op.inputNames.length = sh.length := by
      rw [mapM_len _ _ _ h2, hfed.arity i hi, hin]; simp [numbered]
    have := setVars_read op.inputNames sh (vars i) (by rw [hin]; exact numbered_nodup _ _) hlen
    exact mapM_get _ _ _ this j x h3
  -- columns
  obtain ⟨cols, hcols⟩ := mapM_total (fun x => stores.mapM fun (st : String → Option S) => st x) op.inputNames (by
    intro x hx
    obtain ⟨j, hj, hget⟩ := List.getElem_of_mem hx
    apply mapM_total
    intro st hst'
    obtain ⟨i, hi, hg⟩ := List.getElem_of_mem hst'
    have h1 : stores[i]? = some st := by rw [List.getElem?_eq_getElem hi, hg]
    obtain ⟨sh, h2, _⟩ := hst i st h1
    obtain ⟨s, h3, _⟩ := hread i j st sh x h1 h2 (by rw [List.getElem?_eq_getElem hj, hget])
    exact ⟨s, h3⟩)
  have hclen : cols.length = vs.length := by rw [mapM_len _ _ _ hcols, hin]; simp [numbered]
  have hcol : ∀ (i j : Nat) c s, cols[j]? = some c → c[i]? = some s → ∃ x, (args i)[j]? = some x ∧ argShare L (seeds i) i n x = some s := by
    intro i j c s h1 h2
    have hj : j < op.inputNames.length := by rw [← mapM_len _ _ _ hcols]; exact lt_of_get? h1
    obtain ⟨x, hx⟩ := get?_of_lt op.inputNames rfl hj
    obtain ⟨c', h3, h4⟩ := mapM_get _ _ _ hcols j x hx
    rw [h1] at h4
    cases Option.some.inj h4
    have hi : i < stores.length := by rw [← mapM_len _ _ _ h3]; exact lt_of_get? h2
    obtain ⟨st, hs⟩ := get?_of_lt stores rfl hi
    obtain ⟨s', h5, h6⟩ := mapM_get _ _ _ h3 i st hs
    rw [h2] at h6
    cases Option.some.inj h6
    obtain ⟨sh, h7, _⟩ := hst i st hs
    obtain ⟨s2, h8, h9⟩ := hread i j st sh x hs h7 hx
    rw [h5] at h8
    cases Option.some.inj h8
    have hjl : j < (args i).length := by rw [← mapM_len _ _ _ h7]; exact lt_of_get? h9
    obtain ⟨y, hy⟩ := get?_of_lt (args i) rfl hjl
    obtain ⟨s3, h10, h11⟩ := mapM_get _ _ _ h7 j y hy
    rw [h9] at h11
    cases Option.some.inj h11
    exact ⟨y, hy, h10⟩
  have hcl : ∀ (j : Nat) c, cols[j]? = some c → c.length = n := by
    intro j c h1
    have hj : j < op.inputNames.length := by rw [← mapM_len _ _ _ hcols]; exact lt_of_get? h1
    obtain ⟨x, hx⟩ := get?_of_lt op.inputNames rfl hj
    obtain ⟨c', h3, h4⟩ := mapM_get _ _ _ hcols j x hx
    rw [h1] at h4
    cases Option.some.inj h4
    rw [mapM_len _ _ _ h3, hslen]
  have hopen : List.Forall₂ (fun p a => opens p.1 n p.2 a) (vs.zip cols) as := by
    apply forall₂_of_get?
    · simp [hclen, hfed.len]
    · intro j p a hp ha
      obtain ⟨v, c⟩ := p
      have hp2 := List.getElem?_zip_eq_some.1 hp
      obtain ⟨hv, hcj⟩ := hp2
      have hl := hcl j c hcj
      cases v with
      | secret =>
        obtain ⟨c0, h1, h2⟩ := hfed.secret j a hv ha
        have : c = c0 := by
          apply List.ext_getElem?
          intro i
          by_cases hi : i < n
          · obtain ⟨s, hs⟩ := get?_of_lt c hl hi
            obtain ⟨x, hx1, hx2⟩ := hcol i j c s hcj hs
            obtain ⟨s0, h3, h4⟩ := h2 i hi
            rw [hx1] at h4
            cases Option.some.inj h4
            simp only [argShare, Option.some.injEq] at hx2
            rw [hs, h3, hx2]
          · rw [List.getElem?_eq_none (by omega), List.getElem?_eq_none (by rw [hL.len _ _ _ _ h1]; omega)]
        rw [this]; exact h1
      | pub =>
        obtain ⟨b, rfl, h1, h2⟩ := hfed.pub j a hv ha
        apply hL.mixed b n c hn hl
        intro i s hs
        obtain ⟨x, hx1, hx2⟩ := hcol i j c s hcj hs
        rw [h2 i (by rw [← hl]; exact lt_of_get? hs)] at hx1
        cases Option.some.inj hx1
        simp only [argShare] at hx2
        obtain ⟨dd, h3, h4⟩ := Option.bind_eq_some_iff.1 hx2
        exact ⟨seeds i, dd, h3, h4⟩
  obtain ⟨outs, hrun, houts⟩ := hL.runs f tys vs code d k hc seed n cols as t hn hopen hclen ht
  have hk : t.leaves.length = k := (hL.outTree f tys vs code d k hc as t hfed.len ht).2
  have holen : outs.length = k := by rw [houts.length_eq, hk]
  have hol : ∀ c ∈ outs, c.length = n := by
    intro c hcm
    obtain ⟨j, hj, hg⟩ := List.getElem_of_mem hcm
    have h1 : outs[j]? = some c := by rw [List.getElem?_eq_getElem hj, hg]
    obtain ⟨a, ha⟩ := get?_of_lt t.leaves (houts.length_eq.symm) hj
    exact hL.len _ _ _ _ (forall₂_get? houts h1 ha)
  -- outputs of one member
  have hown : ∀ (i : Nat) (st : String → Option S), i < n → ∃ own, col? outs i = some own ∧ own.length = k ∧
      ((col? outs i).bind fun own => if own.length = op.outputNames.length then op.outputNames.mapM (setVars (op.outputNames.zip own) st) else none) = some own := by
    intro i st hi
    obtain ⟨own, ho⟩ := mapM_total (fun (c : List S) => c[i]?) outs (fun c hcm => get?_of_lt c (hol c hcm) hi)
    have hl : own.length = k := by rw [mapM_len _ _ _ ho, holen]
    have hlo : own.length = op.outputNames.length := by rw [hl, hout]; simp [numbered]
    refine ⟨own, ho, hl, ?_⟩
    rw [col?, ho, Option.bind_some, if_pos hlo]
    exact setVars_read _ _ _ (by rw [hout]; exact numbered_nodup _ _) hlo.symm
  obtain ⟨res, hres⟩ := mapM_total (fun (e : (String → Option S) × Nat) => (col? outs e.2).bind fun own =>
    if own.length = op.outputNames.length then op.outputNames.mapM (setVars (op.outputNames.zip own) e.1) else none) stores.zipIdx (by
    intro e he
    have h1 := List.mem_zipIdx_iff_getElem?.1 he
    have hi : e.2 < n := by rw [← hslen]; exact lt_of_get? h1
    obtain ⟨own, _, _, h3⟩ := hown e.2 e.1 hi
    exact ⟨own, h3⟩)
  have hrl : res.length = n := by rw [mapM_len _ _ _ hres]; simp [hslen]
  have hrow : ∀ (i : Nat) own, res[i]? = some own → col? outs i = some own ∧ own.length = k := by
    intro i own h
    have hi : i < n := by rw [← hrl]; exact lt_of_get? h
    obtain ⟨st, hs⟩ := get?_of_lt stores hslen hi
    obtain ⟨b, h1, h2⟩ := mapM_get _ _ _ hres i (st, i) (by simp [List.getElem?_zipIdx, hs])
    obtain ⟨own', h3, h4, h5⟩ := hown i st hi
    simp only at h1
    rw [h5] at h1
    rw [h] at h2
    cases Option.some.inj h1
    cases Option.some.inj h2
    exact ⟨h3, h4⟩
  refine ⟨res, outs, ?_, hrl, houts, fun i own h => by rw [(hrow i own h).2, hk], ?_⟩
  · unfold jointExec
    rw [hstores, Option.bind_some, hcols, Option.bind_some, hcode, hrun, Option.bind_some]
    exact hres
  · intro i j own c s h1 h2
    obtain ⟨b, h3, h4⟩ := mapM_get _ _ _ (hrow i own h1).1 j c h2
    rw [h3, h4]

theorem traceRun_inv {L : Lib S A Code} {fn : Tree (Leaf A) → Option (Tree A)} {args : Tree (Leaf A)} {vars : List (Leaf A)} {op : ExecOp Code}
    (h : traceRun L fn args = some (vars, op)) : vars = (varMorph args Leaf.isVar).1 ∧ vars.mapM Leaf.ty? = some op.inputs ∧ op.inputs.mapM visOf = some op.vis ∧
      op.inputs.all jaxOk = true ∧ ∃ k, L.compile (fun as => normalized fn (varMorph args Leaf.isVar).2 (as.map Leaf.val)) op.inputs op.vis = some (op.code, op.outTree, k) ∧
      op.inputNames = numbered "in" op.vis.length ∧ op.outputNames = numbered "out" k := by
  unfold traceRun at h
  obtain ⟨tys, h1, h⟩ := Option.bind_eq_some_iff.1 h
  obtain ⟨vs, h2, h⟩ := Option.bind_eq_some_iff.1 h
  split at h
  · rename_i hj
    obtain ⟨⟨c, d, k⟩, h3, h⟩ := Option.map_eq_some_iff.1 h
    simp only [Prod.mk.injEq] at h
    obtain ⟨rfl, rfl⟩ := h
    exact ⟨rfl, h1, h2, hj, k, h3, by simp only; rw [mapM_len _ _ _ h2], rfl⟩
  · cases h

/-- **C125, a function on the SPU (partial).**  However many members, whatever earlier runs left in their runtimes: when the arguments of type
SS[Tensor] are given as shares of `as` (and those of type Tensor as bare arrays), every member gets a tree of shares of the shape of the
function's result, and opening the shares of an output in member order gives the function's result, in SPU arithmetic, on `as` with all
immediates in place.  (Partial: Tensor arguments as the interpreter passes them, see `public_argument_violated`.) -/
theorem spu_function_partial [Inhabited A] {L : Lib S A Code} {opens : Vis → Nat → List S → A → Prop} (hL : L.Ok opens)
    {fn : Tree (Leaf A) → Option (Tree A)} {args : Tree (Leaf A)} {vs : List (Leaf A)} {op : ExecOp Code} (h : traceRun L fn args = some (vs, op))
    (seed : Nat) (seeds : Nat → Nat) {n : Nat} (hn : 0 < n) (given : Nat → List (RtArg S A)) (vars : Nat → String → Option S) {as : List A}
    (hfed : Fed L opens n op.vis given as) {t : Tree A}
    (ht : L.sem (fun xs => fn (withArrays args xs)) as = some t) :
    ∃ res, jointExec L op seed seeds n given vars = some res ∧ res.length = n ∧
      (∀ (i : Nat) own, res[i]? = some own → ∃ tr, resultTree op own = some tr ∧ tr.def' = t.def' ∧ tr.leaves = own) ∧
      ∀ (j : Nat) a, t.leaves[j]? = some a → openOutput L res j = some a := by
  obtain ⟨hv, hty, hvis, _, k, hc, hin, hout⟩ := traceRun_inv h
  replace ht : L.sem (fun xs => normalized fn (varMorph args Leaf.isVar).2 (xs.map Leaf.val)) as = some t := by
    rw [← ht]
    refine hL.arity _ _ _ fun xs hxs => compiled_is_call fn args xs ?_
    rw [hxs, hfed.len, mapM_len _ _ _ hvis, mapM_len _ _ _ hty, hv]
  obtain ⟨res, outs, h1, h2, h3, h4, h5⟩ := jointExec_ok hL hc ⟨rfl, hin, hout⟩ seed seeds hn given vars hfed ht
  refine ⟨res, h1, h2, ?_, ?_⟩
  · intro i own ho
    have hd := (hL.outTree _ _ _ _ _ _ hc as t hfed.len ht).1
    obtain ⟨u, hu1, hu2, hu3⟩ := unflatten_spec' t own (h4 i own ho)
    exact ⟨u, by rw [resultTree, ← hd]; exact hu1, hu3, hu2⟩
  · intro j a ha
    obtain ⟨c, hcj⟩ := get?_of_lt outs h3.length_eq (lt_of_get? ha)
    have ho := forall₂_get? h3 hcj ha
    have hl := hL.len _ _ _ _ ho
    have : col? res j = some c := by
      obtain ⟨r, hr⟩ := mapM_total (fun (own : List S) => own[j]?) res (by
        intro own hm
        obtain ⟨i, hi, hg⟩ := List.getElem_of_mem hm
        exact get?_of_lt own (h4 i own (by rw [List.getElem?_eq_getElem hi, hg])) (lt_of_get? ha))
      rw [col?, hr]
      congr 1
      apply List.ext_getElem?
      intro i
      by_cases hi : i < n
      · obtain ⟨own, hown⟩ := get?_of_lt res h2 hi
        obtain ⟨s, hs1, hs2⟩ := mapM_get _ _ _ hr i own hown
        rw [hs2]
        exact ((h5 i j own c s hown hcj).1 hs1).symm
      · rw [List.getElem?_eq_none (by rw [mapM_len _ _ _ hr]; omega), List.getElem?_eq_none (by omega)]
    rw [openOutput, this, Option.bind_some, hL.opened _ _ _ _ hn ho]

theorem mapM_none {α β : Type} (f : α → Option β) : ∀ (l : List α) (x : α), x ∈ l → f x = none → l.mapM f = none
  | y :: l, x, hx, h => by
    rw [List.mapM_cons]
    rcases List.mem_cons.1 hx with rfl | hx
    · simp [h]
    · cases f y with
      | none => rfl
      | some z => simp [mapM_none f l x hx h]

/-- **C125 is violated for public arguments**: an argument of type Tensor is accepted while tracing (see `visibility_by_type`), but a tensor as the
interpreter hands it over makes the execution fail at every member that has it, so there is no result, whatever the function and the
other arguments. -/
theorem public_argument_violated {L : Lib S A Code} {opens : Vis → Nat → List S → A → Prop} (hL : L.Ok opens) (op : ExecOp Code) (seed : Nat)
    (seeds : Nat → Nat) (n : Nat) (given : Nat → List (RtArg S A)) (vars : Nat → String → Option S) {i : Nat} (hi : i < n) {a : A}
    (h : RtArg.tensor a ∈ given i) : jointExec L op seed seeds n given vars = none := by
  have h1 : feed L op (seeds i) i n (given i) (vars i) = none := by
    unfold feed
    split
    · rw [mapM_none _ _ _ h (by simp [argShare, hL.objects])]; rfl
    · rfl
  unfold jointExec
  rw [mapM_none _ _ i (List.mem_range.2 hi) h1]
  rfl

/-- **C125, what is accepted while tracing**: every object passed, in any nesting, is a share of a tensor or a tensor; shares are declared secret
and tensors public, in the order of the arguments. -/
theorem visibility_by_type {L : Lib S A Code} {fn : Tree (Leaf A) → Option (Tree A)} {args : Tree (Leaf A)} {vs : List (Leaf A)} {op : ExecOp Code}
    (h : traceRun L fn args = some (vs, op)) : vs = args.leaves.filter Leaf.isVar ∧ op.vis.length = vs.length ∧
      ∀ (j : Nat) id ty, vs[j]? = some (.obj id ty) →
        (op.vis[j]? = some .secret ∧ ∃ e sh k, ty = .ss (.tensor e sh) k) ∨ (op.vis[j]? = some .pub ∧ ∃ e sh, ty = .tensor e sh) := by
  obtain ⟨h1, h2, h3, _, _⟩ := traceRun_inv h
  refine ⟨by rw [h1]; exact morph_variables args Leaf.isVar, by rw [mapM_len _ _ _ h3, mapM_len _ _ _ h2], ?_⟩
  intro j id ty hj
  obtain ⟨t, h4, h5⟩ := mapM_get _ _ _ h2 j _ hj
  simp only [Leaf.ty?, Option.some.injEq] at h4
  subst h4
  obtain ⟨v, h6, h7⟩ := mapM_get _ _ _ h3 j _ h5
  rw [h7]
  unfold visOf at h6
  split at h6
  · cases Option.some.inj h6; exact .inl ⟨rfl, _, _, _, rfl⟩
  · cases Option.some.inj h6; exact .inr ⟨rfl, _, _, rfl⟩
  · cases h6

/-- **C125, refusal**: an object of any other type is refused, whatever the function. -/
theorem other_types_refused (L : Lib S A Code) (fn : Tree (Leaf A) → Option (Tree A)) (args : Tree (Leaf A)) {id : Nat} {ty : Ty}
    (hm : .obj id ty ∈ args.leaves) (h1 : ∀ e sh k, ty ≠ .ss (.tensor e sh) k) (h2 : ∀ e sh, ty ≠ .tensor e sh) : traceRun L fn args = none := by
  cases h : traceRun L fn args with
  | none => rfl
  | some r =>
    obtain ⟨vs, op⟩ := r
    obtain ⟨g1, _, g3⟩ := visibility_by_type h
    have : Leaf.obj id ty ∈ vs := by rw [g1]; exact List.mem_filter.2 ⟨hm, rfl⟩
    obtain ⟨j, hj, hg⟩ := List.getElem_of_mem this
    rcases g3 j id ty (by rw [List.getElem?_eq_getElem hj, hg]) with ⟨_, e, sh, k, rfl⟩ | ⟨_, e, sh, rfl⟩
    · exact absurd rfl (h1 e sh k)
    · exact absurd rfl (h2 e sh)

/-- **C125, refusal by element type**: an object whose elements have no JAX type is refused, secret or public, whatever the function. -/
theorem element_types_refused (L : Lib S A Code) (fn : Tree (Leaf A) → Option (Tree A)) (args : Tree (Leaf A)) {id : Nat} {e : Ty} {sh : List Int}
    {x : DtErr} (he : toJax e = .error x) : (.obj id (.tensor e sh) ∈ args.leaves → traceRun L fn args = none) ∧
      ∀ k, .obj id (.ss (.tensor e sh) k) ∈ args.leaves → traceRun L fn args = none := by
  have key : ∀ ty, plainTy ty = .tensor e sh → .obj id ty ∈ args.leaves → traceRun L fn args = none := by
    intro ty hp hm
    cases h : traceRun L fn args with
    | none => rfl
    | some r =>
      obtain ⟨vs, op⟩ := r
      obtain ⟨h1, h2, _, h4, _⟩ := traceRun_inv h
      have hv : Leaf.obj id ty ∈ vs := by rw [h1, morph_variables]; exact List.mem_filter.2 ⟨hm, rfl⟩
      obtain ⟨j, hj, hg⟩ := List.getElem_of_mem hv
      obtain ⟨t, h5, h6⟩ := mapM_get _ _ _ h2 j _ (by rw [List.getElem?_eq_getElem hj, hg])
      simp only [Leaf.ty?, Option.some.injEq] at h5
      subst h5
      have := List.all_eq_true.1 h4 _ (List.mem_of_getElem? h6)
      unfold jaxOk at this
      rw [hp] at this
      simp only [he] at this
      cases this
  exact ⟨key _ rfl, fun k => key _ rfl⟩

/-- **C125, secrets in and out**: shares made of a tensor, opened together, give its fixed-point value, and the types say so. -/
theorem shares_round_trip {L : Lib S A Code} {opens : Vis → Nat → List S → A → Prop} (hL : L.Ok opens) {seed n : Nat} (hn : 0 < n) {a : A} {c : List S}
    (h : L.makeShares seed .secret a n = some c) (e : Ty) (sh : List Int) :
    L.reconstruct c = some (L.enc a) ∧ ∃ tys, makeSharesTy (.tensor e sh) n = some tys ∧ tys.length = c.length ∧ reconstructTy tys = some (.tensor e sh) := by
  have ho := hL.shared _ _ _ _ _ h
  refine ⟨hL.opened _ _ _ _ hn ho, _, rfl, by simp [hL.len _ _ _ _ ho], ?_⟩
  obtain ⟨m, rfl⟩ : ∃ m, n = m + 1 := ⟨n - 1, by omega⟩
  rfl

/-- **C125, what cannot be shared or opened**: only tensors are shared; opening needs at least one argument, and the first must be a share of a
tensor. -/
theorem reconstruct_types (tys : List Ty) (t : Ty) : reconstructTy tys = some t ↔ ∃ e sh k rest, t = .tensor e sh ∧ tys = .ss (.tensor e sh) k :: rest := by
  constructor
  · intro h
    unfold reconstructTy at h
    split at h
    · cases Option.some.inj h; exact ⟨_, _, _, _, rfl, rfl⟩
    · cases h
  · rintro ⟨e, sh, k, rest, rfl, rfl⟩
    rfl

/-- … and the arguments after the first are not looked at: opening a share together with a share of another tensor, or with something that is no
share, is accepted and given the type of the first. -/
theorem reconstruct_types_violated : reconstructTy [.ss (.tensor (.float 32) [2]) "ss", .ss (.tensor (.float 64) [3]) "ss"] = some (.tensor (.float 32) [2]) ∧
    reconstructTy [.ss (.tensor (.float 32) [2]) "ss", .tensor (.float 64) [3]] = some (.tensor (.float 32) [2]) := ⟨rfl, rfl⟩

/-! ## An instance of the contract -/

/-- `n` shares of the toy scheme: additive for a secret, copies for a public value -/
def toyShares (seed : Int) (v : Vis) (x : Int) : Nat → List (Vis × Int)
  | 0 => []
  | m + 1 => match v with
    | .secret => (.secret, x - m * seed) :: List.replicate m (.secret, seed)
    | .pub => List.replicate (m + 1) (.pub, x)

/-- opening of toy shares -/
def toyOpen : List (Vis × Int) → Option Int
  | [] => none
  | (.pub, x) :: _ => some x
  | c@((.secret, _) :: _) => some (c.map Prod.snd).sum

/-- the results the toy runs: pairs of numbers -/
def toyPair : Option (Tree (Option Int)) → Option (Tree (Option Int))
  | some (.node "tuple" [.leaf (some x), .leaf (some y)]) => some (.node "tuple" [.leaf (some x), .leaf (some y)])
  | _ => none

/-- A library that meets the contract: additive shares of numbers, functions with a pair of numbers as result; `none` is an array of objects. -/
def toyLib : Lib (Vis × Int) (Option Int) (List (Option Int) → Option (Tree (Option Int))) where
  makeShares seed v a n := a.map fun x => toyShares seed v x n
  reconstruct c := (toyOpen c).map some
  compile f _ _ := some (f, .node "tuple" [.leaf (), .leaf ()], 2)
  run seed n f cols := (toyPair (f (cols.map toyOpen))).map fun t => t.leaves.map fun a => toyShares seed .secret (a.getD 0) n
  sem f as := toyPair (f as)
  enc a := a
  boxed _ := none

/-- the toy's shares stand for a value -/
def toyOpens (v : Vis) (n : Nat) (c : List (Vis × Int)) (a : Option Int) : Prop :=
  c.length = n ∧ (∀ s ∈ c, s.1 = v) ∧ ∃ x, a = some x ∧ match v with
    | .secret => 0 < n → (c.map Prod.snd).sum = x
    | .pub => ∀ s ∈ c, s.2 = x

theorem toyShares_opens (seed : Int) (v : Vis) (x : Int) (n : Nat) : toyOpens v n (toyShares seed v x n) (some x) := by
  cases n with
  | zero => exact ⟨rfl, by simp [toyShares], x, rfl, by cases v <;> simp [toyShares]⟩
  | succ m =>
    cases v with
    | secret =>
      refine ⟨by simp [toyShares], by simp [toyShares], x, rfl, fun _ => ?_⟩
      simp [toyShares, List.sum_replicate_int]
    | pub => exact ⟨by simp [toyShares], by simp [toyShares], x, rfl, by simp [toyShares]⟩

theorem toyOpens_open {v : Vis} {n : Nat} {c : List (Vis × Int)} {a : Option Int} (hn : 0 < n) (h : toyOpens v n c a) : toyOpen c = a := by
  obtain ⟨h1, h2, x, rfl, h3⟩ := h
  match c with
  | [] => simp at h1; omega
  | (w, y) :: c =>
    have : w = v := h2 (w, y) (.head _)
    subst this
    cases w with
    | secret => simp only [toyOpen]; rw [h3 hn]
    | pub => simp only [toyOpen]; exact congrArg some (h3 (.pub, y) (.head _))

theorem toyPair_inv {o : Option (Tree (Option Int))} {t : Tree (Option Int)} (h : toyPair o = some t) :
    ∃ x y, t = .node "tuple" [.leaf (some x), .leaf (some y)] := by
  unfold toyPair at h
  split at h
  · exact ⟨_, _, (Option.some.inj h).symm⟩
  · cases h

theorem toyLib_ok : toyLib.Ok toyOpens where
  len _ _ _ _ h := h.1
  shared s v a n c h := by
    obtain ⟨x, rfl, rfl⟩ := Option.map_eq_some_iff.1 h
    exact toyShares_opens _ _ _ _
  opened v n c a hn h := by
    have := toyOpens_open hn h
    obtain ⟨_, _, x, rfl, _⟩ := h
    simp [toyLib, this]
  mixed a n c hn hl h := by
    cases a with
    | none =>
      match c with
      | [] => simp at hl; omega
      | s :: c =>
        obtain ⟨_, d, h1, _⟩ := h 0 s rfl
        simp [toyLib] at h1
    | some x =>
      have : ∀ s ∈ c, s = (.pub, x) := by
        intro s hs
        obtain ⟨i, hi, hg⟩ := List.getElem_of_mem hs
        obtain ⟨_, d, h1, h2⟩ := h i s (by rw [List.getElem?_eq_getElem hi, hg])
        simp only [toyLib, Option.map_some, Option.some.injEq] at h1
        subst h1
        have := List.mem_of_getElem? h2
        cases n with
        | zero => simp [toyShares] at this
        | succ m => simpa [toyShares] using this
      exact ⟨hl, fun s hs => by rw [this s hs], x, rfl, fun s hs => by rw [this s hs]⟩
  objects _ _ _ _ := rfl
  arity f g as h := by simp only [toyLib, h as rfl]
  outTree f tys vs code d k h as t _ ht := by
    obtain ⟨x, y, rfl⟩ := toyPair_inv ht
    simp only [toyLib, Option.some.injEq, Prod.mk.injEq] at h
    obtain ⟨_, rfl, rfl⟩ := h
    exact ⟨rfl, rfl⟩
  runs f tys vs code d k h seed n cols as t hn ho hl ht := by
    simp only [toyLib, Option.some.injEq, Prod.mk.injEq] at h
    obtain ⟨rfl, _, _⟩ := h
    have : cols.map toyOpen = as := by
      apply List.ext_getElem?
      intro j
      have hlen := ho.length_eq
      simp only [List.length_zip, hl, Nat.min_self] at hlen
      by_cases hj : j < cols.length
      · obtain ⟨c, hc⟩ := get?_of_lt cols rfl hj
        obtain ⟨v, hv⟩ := get?_of_lt vs hl.symm hj
        obtain ⟨a, ha⟩ := get?_of_lt as (hlen.symm.trans hl.symm) hj
        have := forall₂_get? (a := (v, c)) ho (List.getElem?_zip_eq_some.2 ⟨hv, hc⟩) ha
        simp [hc, ha, toyOpens_open hn this]
      · rw [List.getElem?_eq_none (by simp; omega), List.getElem?_eq_none (by omega)]
    refine ⟨t.leaves.map fun a => toyShares seed .secret (a.getD 0) n, ?_, ?_⟩
    · simp only [toyLib, this] at ht ⊢
      rw [ht]; rfl
    · obtain ⟨x, y, rfl⟩ := toyPair_inv ht
      exact .cons (toyShares_opens _ _ _ _) (.cons (toyShares_opens _ _ _ _) .nil)

/-! ## Examples: three members run `f(x, 5, z) = (x + 5, x * z)` with a secret `x` and a public `z` -/

/-- the user's function -/
def exFn (t : Tree (Leaf (Option Int))) : Option (Tree (Option Int)) := match t.leaves with
  | [.val (some x), .val (some c), .val (some z)] => some (.node "tuple" [.leaf (some (x + c)), .leaf (some (x * z))])
  | _ => none

/-- its arguments -/
def exArgs : Tree (Leaf (Option Int)) :=
  .node "tuple" [.leaf (.obj 7 (.ss (.tensor (.float 32) []) "ss")), .leaf (.val (some 5)), .leaf (.obj 8 (.tensor (.float 32) []))]

/-- what the members hold -/
def exGiven (i : Nat) : List (RtArg (Vis × Int) (Option Int)) := [.share ((toyShares 9 .secret 4 3)[i]?.getD (.pub, 0)), .array (some 6)]

/-- the operation recorded -/
def exOp : ExecOp (List (Option Int) → Option (Tree (Option Int))) where
  code := fun as => normalized exFn (varMorph exArgs Leaf.isVar).2 (as.map Leaf.val)
  vis := [.secret, .pub]
  inputNames := numbered "in" 2
  outputNames := numbered "out" 2
  outTree := .node "tuple" [.leaf (), .leaf ()]
  inputs := [.ss (.tensor (.float 32) []) "ss", .tensor (.float 32) []]

theorem exTrace : traceRun toyLib exFn exArgs = some ([.obj 7 (.ss (.tensor (.float 32) []) "ss"), .obj 8 (.tensor (.float 32) [])], exOp) := rfl

theorem exFed : Fed toyLib toyOpens 3 exOp.vis exGiven [some 4, some 6] where
  len := rfl
  arity _ _ := rfl
  secret j a hj ha := by
    match j, hj with
    | 0, _ =>
      cases Option.some.inj ha
      refine ⟨_, toyShares_opens 9 .secret 4 3, fun i hi => ?_⟩
      match i, hi with
      | 0, _ => exact ⟨_, rfl, rfl⟩
      | 1, _ => exact ⟨_, rfl, rfl⟩
      | 2, _ => exact ⟨_, rfl, rfl⟩
    | 1, h => cases h
    | (_ + 2), h => cases h
  pub j a hj ha := by
    match j, hj with
    | 0, h => cases h
    | 1, _ =>
      cases Option.some.inj ha
      exact ⟨some 6, rfl, fun _ => ⟨_, rfl⟩, fun _ _ => rfl⟩
    | (_ + 2), h => cases h

example : ∃ res, jointExec toyLib exOp 2 (fun i => i) 3 exGiven (fun _ x => if x = "in0" then some (.pub, 77) else none) = some res ∧
    openOutput toyLib res 0 = some (some 9) ∧ openOutput toyLib res 1 = some (some 24) := by
  obtain ⟨res, h1, _, _, h2⟩ := spu_function_partial toyLib_ok exTrace 2 (fun i => i) (by decide : 0 < 3) exGiven
    (fun _ x => if x = "in0" then some (.pub, 77) else none) exFed (t := .node "tuple" [.leaf (some 9), .leaf (some 24)]) rfl
  exact ⟨res, h1, h2 0 _ rfl, h2 1 _ rfl⟩

/-- the same public argument as the interpreter passes it -/
example : jointExec toyLib exOp 2 (fun i => i) 3 (fun i => [(exGiven i).headD (.array none), .tensor (some 6)]) (fun _ _ => none) = none :=
  public_argument_violated toyLib_ok _ _ _ _ _ _ (by decide : 1 < 3) (.tail _ (.head _))

example : traceRun toyLib exFn (.node "tuple" [.leaf (.obj 7 (.ss (.tensor (.float 32) []) "ss")), .node "list" [.leaf (.obj 8 (.float 32))]]) = none :=
  other_types_refused _ _ _ (.tail _ (.head _)) (by simp) (by simp)

/-- 24-bit secrets are refused whatever the function -/
example (fn : Tree (Leaf (Option Int)) → Option (Tree (Option Int))) : traceRun toyLib fn (.node "list" [.leaf (.obj 7 (.ss (.tensor (.int 24 true) []) "ss"))]) = none :=
  (element_types_refused _ _ _ (e := .int 24 true) (sh := []) rfl).2 _ (.head _)

example : toyLib.reconstruct [(.secret, -14), (.secret, 9), (.secret, 9)] = some (some 4) :=
  (shares_round_trip toyLib_ok (seed := 9) (n := 3) (by decide) (a := some 4) rfl (.float 32) []).1

end Verif.Spu.Run
