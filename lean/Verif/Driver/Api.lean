import Verif.Driver.Model
import Verif.Device.Cluster
import Verif.Trace.TracerProps
/-!
# C107 — the execution boundary: `mp.evaluate`, `mp.fetch`, `mp.function` (mplang/__init__.py:102-376)

A value kept by a worker is either wrapped (`WrapValue`: `TensorValue`, `TableValue`, ...) or a bare python value.  The
host holds objects: an `InterpObject` with a runtime object and perhaps a device attribute, or a bare runtime object.
A runtime object is a `DriverVar` (one optional URI per party) or a value.  The context stack holds tracers and
interpreters.  Worker stores are those of `Verif.Driver`.
-/
namespace Verif.Driver.Api
open Verif.Trace (Tree)
open Verif.Device (Spec Device)
open Verif.Store (lookup)
variable {V J : Type}

/-- a value in a worker's store: a `WrapValue` around data, or anything else (runtime/value.py:106-150) -/
inductive SV (V : Type) where
  | wrap (v : V)
  | plain (v : V)
  deriving DecidableEq

/-- `val.data if isinstance(val, WrapValue) else val` (mplang/__init__.py:273-275, libs/device/api.py:734-738) -/
def SV.unwrap : SV V → V
  | .wrap v => v
  | .plain v => v

/-- a runtime object on the driver (backends/simp_driver/values.py:25-42): `DriverVar` or a value -/
inductive Rt (V : Type) where
  | dvar (uris : List (Option Uri))
  | val (x : SV V)
  deriving DecidableEq

/-- a leaf of the tree given to `mp.fetch`: an `InterpObject` with its runtime object and device attribute
(libs/device/api.py:91-112), something that is not an `Object`, or a `TraceObject` -/
inductive Leaf (V : Type) where
  | obj (rt : Rt V) (dev : Option String)
  | bare (rt : Rt V)
  | traced (id : Nat)
  deriving DecidableEq

/-- what the caller gets for a leaf: one value, `None`, a list with one entry per party, or the leaf itself -/
inductive Out (V : Type) where
  | one (v : V)
  | absent
  | parties (l : List (Option V))
  | same (l : Leaf V)
  deriving DecidableEq

/-- exceptions -/
inductive Err where
  | runtime | assertion | key | index | type | value | graph
  deriving DecidableEq

/-- an `Interpreter` on the driver: worker stores when the simp dialect state is set, and the `_cluster_spec` -/
structure Interp (V J : Type) where
  stores : Option (List (Store (SV V)))
  cluster : Option (Spec J)

/-- a context: `Tracer` or `Interpreter` (edsl/context.py:50-155) -/
inductive Ctx (V J : Type) where
  | tracer
  | interp (i : Interp V J)

/-- the context stack, innermost first (edsl/context.py:183-253) -/
abbrev Stack (V J : Type) := List (Ctx V J)

/-- `is_tracing` (edsl/context.py:254-262) -/
def isTracing : Stack V J → Bool
  | .tracer :: _ => true
  | _ => false

/-- `_get_context` (mplang/__init__.py:105-122) -/
def getContext (ctx : Option (Interp V J)) (s : Stack V J) : Except Err (Interp V J) :=
  match ctx with
  | some i => .ok i
  | none => match s with
    | .interp i :: _ => .ok i
    | _ => .error .runtime

/-- the `_cluster_spec` of a context, if any (libs/device/api.py:51) -/
def clusterOf : Ctx V J → Option (Spec J)
  | .tracer => none
  | .interp i => i.cluster

/-- `_resolve_cluster` (libs/device/api.py:42-58): the innermost context with a cluster -/
def resolveCluster (s : Stack V J) : Except Err (Spec J) :=
  match s.findSome? clusterOf with
  | some c => .ok c
  | none => .error .runtime

/-- `simp_state.fetch(rank, uri).result()` (backends/simp_driver/mem.py:202-205): the value in the store of that worker -/
def fetchAt (stores : List (Store (SV V))) (rank : Nat) (uri : Uri) : Except Err (SV V) :=
  match stores[rank]? with
  | none => .error .index
  | some st => match st[uri]? with
    | none => .error .key
    | some v => .ok v

/-- the loop over `enumerate(var.values)` (mplang/__init__.py:271-279), from party `r` on -/
def fetchAll (stores : List (Store (SV V))) : Nat → List (Option Uri) → Except Err (List (Option V))
  | _, [] => .ok []
  | r, none :: us => (fetchAll stores (r + 1) us).map (none :: ·)
  | r, some u :: us => match fetchAt stores r u with
    | .error e => .error e
    | .ok v => (fetchAll stores (r + 1) us).map (some v.unwrap :: ·)

/-- `resolved[0] if len(resolved) == 1 else resolved` (mplang/__init__.py:281) -/
def packParties : List (Option V) → Out V
  | [some v] => .one v
  | [none] => .absent
  | l => .parties l

/-- the part of `_fetch_single` after the device branch (mplang/__init__.py:263-288) -/
def fetchRt (i : Interp V J) : Rt V → Except Err (Out V)
  | .val x => .ok (.one x.unwrap)
  | .dvar us => match i.stores with
    | none => .error .assertion
    | some stores => (fetchAll stores 0 us).map packParties

/-- `kind.upper()` on ASCII letters (libs/device/api.py:772) -/
def upper (s : String) : List Char := s.toList.map Char.toUpper

/-- `_fetch_from_rank` (libs/device/api.py:763-767) -/
def fetchFromRank (stores : List (Store (SV V))) (us : List (Option Uri)) (rank : Nat) : Except Err (SV V) :=
  match us[rank]? with
  | none => .error .index
  | some none => .error .assertion
  | some (some u) => fetchAt stores rank u

/-- `[_fetch_from_rank(m.rank) for m in dev_info.members]` (libs/device/api.py:781) -/
def fetchShares (stores : List (Store (SV V))) (us : List (Option Uri)) : List Nat → Except Err (List (SV V))
  | [] => .ok []
  | r :: rs => match fetchFromRank stores us r with
    | .error e => .error e
    | .ok v => (fetchShares stores us rs).map (v :: ·)

/-- `device.fetch` (libs/device/api.py:715-789) for an `InterpObject` with device attribute; `s` is the stack with the
interpreter of `mp.fetch` on top.  `cluster.devices[dev_id]` of an unknown device raises KeyError. -/
def deviceFetch (s : Stack V J) (rt : Rt V) (dev : String) : Except Err (Out V) :=
  match resolveCluster s with
  | .error e => .error e
  | .ok c => match lookup dev c.devices with
    | none => .error .key
    | some d => match s with
      | .interp i :: _ => match i.stores with
        | none => .error .assertion
        | some stores => match rt with
          | .val x => .ok (.one x.unwrap)
          | .dvar us =>
            if upper d.kind = "PPU".toList ∨ upper d.kind = "TEE".toList then
              match d.members with
              | [m] => (fetchFromRank stores us m.rank).map fun v => .one v.unwrap
              | _ => .error .assertion
            else if upper d.kind = "SPU".toList then
              (fetchShares stores us (d.members.map (·.rank))).map fun sh => match sh with
                | [] => .absent
                | v :: _ => .one v.unwrap
            else .ok (.same (.bare (.dvar us)))
      | _ => .error .runtime

/-- `_fetch_single` (mplang/__init__.py:255-288); `s` is the stack with the interpreter on top -/
def fetchSingle (follow : Bool) (i : Interp V J) (s : Stack V J) : Leaf V → Except Err (Out V)
  | .obj rt dev => match follow, dev with
    | true, some d => deviceFetch s rt d
    | _, _ => fetchRt i rt
  | .bare rt => fetchRt i rt
  | .traced id => .ok (.same (.traced id))

mutual
/-- `jax.tree_util.tree_map` of a function that may raise: leaves left to right, the first exception is raised -/
def treeMapE {α β E : Type} (f : α → Except E β) : Tree α → Except E (Tree β)
  | .leaf a => (f a).map .leaf
  | .node k ts => (treesMapE f ts).map (.node k)
/-- see `treeMapE` -/
def treesMapE {α β E : Type} (f : α → Except E β) : List (Tree α) → Except E (List (Tree β))
  | [] => .ok []
  | t :: ts => match treeMapE f t with
    | .error e => .error e
    | .ok u => (treesMapE f ts).map (u :: ·)
end

/-- `mp.fetch(result, follow_device=…, context=…)` (mplang/__init__.py:197-291) -/
def fetch (follow : Bool) (ctx : Option (Interp V J)) (s : Stack V J) (t : Tree (Leaf V)) :
    Except Err (Tree (Out V)) :=
  if isTracing s then .ok (t.map .same)
  else match getContext ctx s with
    | .error e => .error e
    | .ok i => treeMapE (fetchSingle follow i (.interp i :: s)) t

/-- `ctx.get_dialect_state("simp")` with `world_size`, only interpreters have the method (mplang/__init__.py:318-322) -/
def worldSize : Ctx V J → Option Nat
  | .tracer => none
  | .interp i => i.stores.map List.length

/-- the wrapper of `mp.function` (mplang/__init__.py:324-341): the parties on which `simp.pcall_static` runs the function -/
def functionParties (s : Stack V J) : Except Err (List Nat) :=
  match s.findSome? worldSize with
  | none => .error .runtime
  | some n => .ok (List.range n)

/-- `unwrap_if_interp` (mplang/__init__.py:152-156) -/
def toRt : Leaf V → Option (Rt V)
  | .obj rt _ => some rt
  | .bare rt => some rt
  | .traced _ => none

/-- `mp.evaluate(program, *args, **kwargs)` for a `CompiledProgram` (mplang/__init__.py:167-181).  `evalGraph` is
`interp.evaluate_graph(graph, ·)`; every output is wrapped in a new `InterpObject`, which has no device attribute. -/
def evaluateCompiled (ctx : Option (Interp V J)) (s : Stack V J) (arity : Nat)
    (evalGraph : List (Rt V) → Except Err (List (Rt V))) (args : List (Leaf V)) (kwargs : Nat) :
    Except Err (List (Leaf V)) :=
  match getContext ctx s with
  | .error e => .error e
  | .ok _ =>
    if kwargs ≠ 0 then .error .type
    else if args.length ≠ arity then .error .value
    else match args.mapM toRt with
      | none => .error .graph
      | some rts => (evalGraph rts).map fun outs => outs.map fun rt => .obj rt none

/-- an argument of a traced function as `Verif.Trace` sees it: objects are replaced by their runtime object -/
def toObj : Leaf V → Trace.Obj (Rt V) (Leaf V)
  | .obj rt _ => .val rt
  | l => .const l

/-- an output of a traced function: the new `InterpObject`, or the constant that tracing kept (mplang/__init__.py:159-165) -/
def ofObj : Trace.Obj (Rt V) (Leaf V) → Leaf V
  | .val rt => .obj rt none
  | .const l => l
  | .nm _ => .traced 0

/-- `mp.evaluate(traced, *args)` for a `TracedFunction` (mplang/__init__.py:183-187); graph evaluation is C08's -/
def evaluateTraced (sem : Verif.Interp.Sem (Rt V)) (store : Nat → Rt V) (ctx : Option (Interp V J)) (s : Stack V J)
    (tf : Trace.Traced (Rt V) (Leaf V)) (args : Tree (Leaf V)) : Except Err (Tree (Leaf V)) :=
  match getContext ctx s with
  | .error e => .error e
  | .ok _ => match Trace.evaluate sem store tf (args.map toObj) with
    | none => .error .graph
    | some t => .ok (t.map ofObj)

/-! ## Specification -/

/-- what party `r` holds of a variable: `none` = nothing, otherwise the data -/
def Holds (stores : List (Store (SV V))) (us : List (Option Uri)) (r : Nat) (o : Option V) : Prop :=
  match us[r]? with
  | some (some u) => ∃ st w, stores[r]? = some st ∧ st[u]? = some w ∧ o = some w.unwrap
  | _ => o = none

/-- every URI of the variable is in the store of its worker -/
def Live (stores : List (Store (SV V))) (us : List (Option Uri)) : Prop :=
  us.length = stores.length ∧
    ∀ (r : Nat) (u : Uri) (st : Store (SV V)), us[r]? = some (some u) → stores[r]? = some st → u < st.length

mutual
/-- two trees have the same structure and related leaves -/
def SameShape {α β : Type} (R : α → β → Prop) : Tree α → Tree β → Prop
  | .leaf a, .leaf b => R a b
  | .node k ts, .node k' us => k = k' ∧ SameShapes R ts us
  | _, _ => False
/-- see `SameShape` -/
def SameShapes {α β : Type} (R : α → β → Prop) : List (Tree α) → List (Tree β) → Prop
  | [], [] => True
  | t :: ts, u :: us => SameShape R t u ∧ SameShapes R ts us
  | _, _ => False
end

/-! ## Lemmas -/

mutual
theorem treeMapE_same {α β E : Type} (f : α → Except E β) : ∀ (t : Tree α) (u : Tree β),
    treeMapE f t = .ok u ↔ SameShape (fun a b => f a = .ok b) t u
  | .leaf a, u => by
    simp only [treeMapE]
    cases h : f a with
    | error e => cases u <;> simp [SameShape, Except.map, h]
    | ok b => cases u <;> simp [SameShape, Except.map, h]
  | .node k ts, u => by
    simp only [treeMapE]
    cases u with
    | leaf b => cases h : treesMapE f ts <;> simp [SameShape, Except.map]
    | node k' us =>
      have := treesMapE_same f ts us
      simp only [SameShape]
      rw [← this]
      cases h : treesMapE f ts <;> simp [Except.map]
theorem treesMapE_same {α β E : Type} (f : α → Except E β) : ∀ (t : List (Tree α)) (u : List (Tree β)),
    treesMapE f t = .ok u ↔ SameShapes (fun a b => f a = .ok b) t u
  | [], u => by cases u <;> simp [treesMapE, SameShapes]
  | t :: ts, us => by
    simp only [treesMapE]
    cases us with
    | nil => 
      simp only [SameShapes, iff_false]
      split
      · simp
      · cases h : treesMapE f ts <;> simp [Except.map]
    | cons u us =>
      simp only [SameShapes]
      rw [← treeMapE_same f t u, ← treesMapE_same f ts us]
      cases h : treeMapE f t with
      | error e => simp
      | ok a => cases h2 : treesMapE f ts <;> simp [Except.map]
end

theorem fetchAll_get (stores : List (Store (SV V))) : ∀ (us : List (Option Uri)) (r : Nat) (l : List (Option V)),
    fetchAll stores r us = .ok l → l.length = us.length ∧ ∀ j (h : j < l.length),
      match us[j]? with
      | some (some u) => ∃ st w, stores[r + j]? = some st ∧ st[u]? = some w ∧ l[j] = some w.unwrap
      | _ => l[j] = none
  | [], r, l, h => by
    simp only [fetchAll, Except.ok.injEq] at h
    subst h; simp
  | none :: us, r, l, h => by
    simp only [fetchAll] at h
    cases h2 : fetchAll stores (r + 1) us with
    | error e => simp [h2, Except.map] at h
    | ok l' =>
      simp only [h2, Except.map, Except.ok.injEq] at h
      subst h
      obtain ⟨i1, i2⟩ := fetchAll_get stores us (r + 1) l' h2
      refine ⟨by simp [i1], fun j hj => ?_⟩
      cases j with
      | zero => simp
      | succ j =>
        have := i2 j (by simpa using hj)
        simpa [Nat.add_assoc, Nat.add_comm 1 j] using this
  | some u :: us, r, l, h => by
    simp only [fetchAll] at h
    cases h1 : fetchAt stores r u with
    | error e => simp [h1] at h
    | ok v =>
      cases h2 : fetchAll stores (r + 1) us with
      | error e => simp [h1, h2, Except.map] at h
      | ok l' =>
        simp only [h1, h2, Except.map, Except.ok.injEq] at h
        subst h
        obtain ⟨i1, i2⟩ := fetchAll_get stores us (r + 1) l' h2
        refine ⟨by simp [i1], fun j hj => ?_⟩
        cases j with
        | zero =>
          simp only [List.getElem?_cons_zero, Nat.add_zero, List.getElem_cons_zero]
          unfold fetchAt at h1
          split at h1
          · cases h1
          · next st hst =>
            split at h1
            · cases h1
            · next w hw =>
              cases h1
              exact ⟨st, _, hst, hw, rfl⟩
        | succ j =>
          have := i2 j (by simpa using hj)
          simpa [Nat.add_assoc, Nat.add_comm 1 j] using this

theorem fetchAll_total (stores : List (Store (SV V))) : ∀ (us : List (Option Uri)) (r : Nat),
    (∀ j u, us[j]? = some (some u) → ∃ st, stores[r + j]? = some st ∧ u < st.length) →
    ∃ l, fetchAll stores r us = .ok l
  | [], r, _ => ⟨[], rfl⟩
  | none :: us, r, h => by
    obtain ⟨l, hl⟩ := fetchAll_total stores us (r + 1) (fun j u hj => by
      have := h (j + 1) u (by simpa using hj)
      simpa [Nat.add_assoc, Nat.add_comm 1 j] using this)
    exact ⟨none :: l, by simp [fetchAll, hl, Except.map]⟩
  | some u :: us, r, h => by
    obtain ⟨l, hl⟩ := fetchAll_total stores us (r + 1) (fun j u hj => by
      have := h (j + 1) u (by simpa using hj)
      simpa [Nat.add_assoc, Nat.add_comm 1 j] using this)
    obtain ⟨st, h1, h2⟩ := h 0 u (by simp)
    have : fetchAt stores r u = .ok st[u] := by
      simp only [Nat.add_zero] at h1
      simp [fetchAt, h1, List.getElem?_eq_getElem h2]
    exact ⟨some (st[u]).unwrap :: l, by simp [fetchAll, this, hl, Except.map]⟩

theorem fetchAll_holds {stores : List (Store (SV V))} {us : List (Option Uri)} {l : List (Option V)}
    (h : fetchAll stores 0 us = .ok l) : l.length = us.length ∧ ∀ r (hr : r < l.length), Holds stores us r l[r] := by
  obtain ⟨a, b⟩ := fetchAll_get stores us 0 l h
  refine ⟨a, fun r hr => ?_⟩
  have := b r hr
  simpa [Holds] using this

/-! ## Properties -/

/-- a small cluster: three parties, party 1 holds two values -/
def exStores : List (Store (SV Nat)) := [[.plain 5], [.wrap 7, .wrap 8], []]
/-- cluster of the examples: `P1` is party 1, `SP` the virtual device of parties 0 and 1 -/
def exCluster : Spec Nat :=
  let nd (n : String) (r : Nat) : Device.Node Nat := ⟨n, r, "", ⟨0, 0, 0, []⟩⟩
  ⟨"c", [("a", nd "a" 0), ("b", nd "b" 1), ("c", nd "c" 2)],
    [("P1", ⟨"P1", "ppu", [nd "b" 1], 0⟩), ("SP", ⟨"SP", "SPU", [nd "a" 0, nd "b" 1], 0⟩)]⟩
/-- interpreter of the examples -/
def exInterp : Interp Nat Nat := ⟨some exStores, some exCluster⟩

/-- **C107** While tracing, `mp.fetch` returns its argument unchanged, whatever context is passed. -/
theorem fetch_tracing (follow : Bool) (ctx : Option (Interp V J)) (s : Stack V J) (t : Tree (Leaf V)) :
    ∃ u, fetch follow ctx (.tracer :: s) t = .ok u ∧ u = t.map .same := ⟨_, rfl, rfl⟩

/-- **C107** Outside tracing, `mp.fetch` without an interpreter, given or current, raises RuntimeError (and fetches
nothing); with one, it is used: the given one takes precedence over the current one. -/
theorem fetch_context (follow : Bool) (s : Stack V J) (t : Tree (Leaf V)) :
    fetch follow none ([] : Stack V J) t = .error .runtime ∧
    (∀ i, isTracing s = false → fetch follow (some i) s t = treeMapE (fetchSingle follow i (.interp i :: s)) t) ∧
    (∀ i, fetch follow none (.interp i :: s) t = fetch follow (some i) (.interp i :: s) t) := by
  refine ⟨rfl, fun i h => ?_, fun i => rfl⟩
  simp [fetch, h, getContext]

/-- **C107** `mp.fetch` keeps the structure of the result and fetches every leaf by itself: it returns `u` iff `u` has
the structure of `t` and every leaf of `u` is what `mp.fetch` of the single leaf of `t` returns. -/
theorem fetch_leafwise (follow : Bool) (ctx : Option (Interp V J)) (s : Stack V J) (t : Tree (Leaf V)) (u : Tree (Out V))
    (hs : isTracing s = false) (hc : ctx.isSome ∨ s ≠ []) :
    fetch follow ctx s t = .ok u ↔ SameShape (fun a b => fetch follow ctx s (.leaf a) = .ok (.leaf b)) t u := by
  have hi : ∃ i, getContext ctx s = .ok i := by
    cases ctx with
    | some i => exact ⟨i, rfl⟩
    | none => cases s with
      | nil => simp at hc
      | cons c s => cases c with
        | tracer => simp [isTracing] at hs
        | interp i => exact ⟨i, rfl⟩
  obtain ⟨i, hi⟩ := hi
  have e : ∀ t, fetch follow ctx s t = treeMapE (fetchSingle follow i (.interp i :: s)) t := by
    intro t; simp [fetch, hs, hi]
  rw [e, treeMapE_same]
  have : (fun a b => fetch follow ctx s (.leaf a) = .ok (.leaf b)) =
      fun a b => fetchSingle follow i (.interp i :: s) a = .ok b := by
    funext a b
    rw [e]
    simp only [treeMapE]
    cases fetchSingle follow i (.interp i :: s) a <;> simp [Except.map]
  rw [this]

/-- **C107** Fetching a variable of the driver that is not followed to a device (no device attribute, or
`follow_device=False`): one entry per party, in rank order, the data where the party holds something and `None` elsewhere;
with one party the entry itself.  It succeeds whenever every URI is in its worker's store. -/
theorem fetch_parties (i : Interp V J) (s : Stack V J) (hs : isTracing s = false) (stores : List (Store (SV V)))
    (hst : i.stores = some stores) (us : List (Option Uri)) (hl : Live stores us) (follow : Bool) (dev : Option String)
    (hd : follow = false ∨ dev = none) :
    ∃ l, l.length = stores.length ∧ (∀ r (hr : r < l.length), Holds stores us r l[r]) ∧
      fetch follow (some i) s (.leaf (.obj (.dvar us) dev)) =
        .ok (.leaf (match l with | [some v] => .one v | [none] => .absent | l => .parties l)) := by
  obtain ⟨l, hf⟩ := fetchAll_total stores us 0 (fun j u hj => by
    have hj' : j < stores.length := by
      rw [← hl.1]; exact (List.getElem?_eq_some_iff.1 hj).1
    exact ⟨stores[j], by simp [hj'], hl.2 j u _ hj (by simp [hj'])⟩)
  obtain ⟨a, b⟩ := fetchAll_holds hf
  refine ⟨l, by rw [a, hl.1], b, ?_⟩
  have e : fetchSingle follow i (.interp i :: s) (.obj (.dvar us) dev) = fetchRt i (.dvar us) := by
    rcases hd with h | h <;> subst h
    · cases dev <;> rfl
    · cases follow <;> rfl
  have : fetchRt i (.dvar us) = .ok (packParties l) := by simp [fetchRt, hst, hf, Except.map]
  simp only [fetch, hs, getContext, treeMapE, e, this, Except.map]
  rfl

example : fetch true none [.interp exInterp] (.node "dict:x,y" [.leaf (.obj (.dvar [some 0, some 1, none]) none),
    .leaf (.bare (.val (.wrap 3)))]) =
    .ok (.node "dict:x,y" [.leaf (.parties [some 5, some 8, none]), .leaf (.one 3)]) := rfl
example : Live exStores [some 0, some 1, none] := by
  refine ⟨rfl, fun r u st h1 h2 => ?_⟩
  match r with
  | 0 => cases h1; cases h2; decide
  | 1 => cases h1; cases h2; decide
  | 2 => simp at h1
  | r + 3 => simp at h1

/-- **C107** A URI that is not in the store, or a variable fetched through an interpreter without the simp state, raises:
nothing is made up. -/
theorem fetch_missing (i : Interp V J) (s : Stack V J) (hs : isTracing s = false) (us : List (Option Uri)) :
    (i.stores = none → fetch false (some i) s (.leaf (.bare (.dvar us))) = .error .assertion) ∧
    (∀ (stores : List (Store (SV V))) (u r : Nat), i.stores = some stores → us[r]? = some (some u) →
      (∀ st : Store (SV V), stores[r]? = some st → st.length ≤ u) →
      ∃ e, fetch false (some i) s (.leaf (.bare (.dvar us))) = .error e) := by
  constructor
  · intro h
    simp [fetch, hs, getContext, treeMapE, fetchSingle, fetchRt, h, Except.map]
  · intro stores u r h1 h2 h3
    cases hf : fetchAll stores 0 us with
    | error e => exact ⟨e, by simp [fetch, hs, getContext, treeMapE, fetchSingle, fetchRt, h1, hf, Except.map]⟩
    | ok l =>
      obtain ⟨a, b⟩ := fetchAll_holds hf
      have hr : r < l.length := by rw [a]; exact (List.getElem?_eq_some_iff.1 h2).1
      have := b r hr
      simp only [Holds, h2] at this
      obtain ⟨st, w, e1, e2, _⟩ := this
      have := (List.getElem?_eq_some_iff.1 e2).1
      have := h3 st e1
      omega

/-- **C107** Following the device: an object on a PPU or TEE is fetched from the member of that device, and from nobody
else; the answer is that party's data. -/
theorem fetch_device (i : Interp V J) (s : Stack V J) (hs : isTracing s = false) (stores : List (Store (SV V)))
    (hst : i.stores = some stores) (c : Spec J) (hc : i.cluster = some c) (dev : String) (d : Device J)
    (hd : lookup dev c.devices = some d) (hk : upper d.kind = "PPU".toList ∨ upper d.kind = "TEE".toList)
    (m : Device.Node J) (hm : d.members = [m]) (us : List (Option Uri)) (v : V)
    (hv : Holds stores us m.rank (some v)) :
    fetch true (some i) s (.leaf (.obj (.dvar us) (some dev))) = .ok (.leaf (.one v)) := by
  have hf : ∃ w : SV V, fetchFromRank stores us m.rank = .ok w ∧ w.unwrap = v := by
    unfold Holds at hv
    split at hv
    · next u hu =>
      obtain ⟨st, w, e1, e2, e3⟩ := hv
      exact ⟨w, by simp [fetchFromRank, hu, fetchAt, e1, e2], (Option.some.inj e3).symm⟩
    · cases hv
  obtain ⟨w, hw, hwv⟩ := hf
  have hr : resolveCluster (Ctx.interp i :: s) = .ok c := by simp [resolveCluster, clusterOf, hc]
  simp only [fetch, hs, getContext, treeMapE, fetchSingle, deviceFetch, hr, hd, hst, hm, hw, if_pos hk]
  simp [Except.map, hwv]

/-- **C107** An object on a PPU or TEE of which that party holds nothing raises; no other party's data is returned. -/
theorem fetch_device_absent (i : Interp V J) (s : Stack V J) (hs : isTracing s = false)
    (c : Spec J) (hc : i.cluster = some c) (dev : String) (d : Device J)
    (hd : lookup dev c.devices = some d) (hk : upper d.kind = "PPU".toList ∨ upper d.kind = "TEE".toList)
    (us : List (Option Uri)) (h : ∀ m, d.members = [m] → (us[m.rank]?).join = none) :
    ∃ e, fetch true (some i) s (.leaf (.obj (.dvar us) (some dev))) = .error e := by
  have hr : resolveCluster (Ctx.interp i :: s) = .ok c := by simp [resolveCluster, clusterOf, hc]
  simp only [fetch, hs, getContext, treeMapE, fetchSingle, deviceFetch, hr, hd, if_pos hk]
  cases hst : i.stores with
  | none => exact ⟨_, rfl⟩
  | some stores =>
    match hm : d.members with
    | [] => exact ⟨_, rfl⟩
    | _ :: _ :: _ => exact ⟨_, rfl⟩
    | [m] =>
      have := h m hm
      cases hu : us[m.rank]? with
      | none => exact ⟨.index, by simp [fetchFromRank, hu, Except.map]⟩
      | some o =>
        simp only [hu, Option.join_some] at this
        subst this
        exact ⟨.assertion, by simp [fetchFromRank, hu, Except.map]⟩

example : fetch true none [.interp exInterp] (.leaf (.obj (.dvar [none, some 1, none]) (some "P1"))) =
    .ok (.leaf (.one 8)) := by rfl
example : Holds exStores [none, some 1, none] 1 (some 8) := ⟨_, _, rfl, rfl, rfl⟩
example : fetch true none [.interp exInterp] (.leaf (.obj (.dvar [some 0, none, none]) (some "P1"))) =
    .error .assertion := by rfl

/-- **C107** `mp.function` runs the decorated function on all parties of the innermost context that has parties, also
below any number of tracers (compilation inside `with simulator:`); without one it raises RuntimeError. -/
theorem function_parties (s : Stack V J) :
    (∀ p, functionParties s = .ok p → ∃ pre i stores post, s = pre ++ .interp i :: post ∧ i.stores = some stores ∧
      (∀ c ∈ pre, ∀ j st, c = .interp j → j.stores ≠ some st) ∧ p = List.range stores.length) ∧
    (functionParties s = .error .runtime ↔ ∀ c ∈ s, ∀ j st, c = .interp j → j.stores ≠ some st) ∧
    (∀ e, functionParties s = .error e → e = .runtime) := by
  have key : ∀ c : Ctx V J, worldSize c = none ↔ ∀ j st, c = .interp j → j.stores ≠ some st := by
    intro c
    cases c with
    | tracer => simp [worldSize]
    | interp i =>
      cases h : i.stores with
      | none =>
        simp only [worldSize, h, Option.map_none, true_iff]
        intro j st e
        cases e
        rw [h]; simp
      | some st =>
        simp only [worldSize, h, Option.map_some, reduceCtorEq, false_iff]
        exact fun e => e i st rfl h
  refine ⟨fun p h => ?_, ?_, fun e h => ?_⟩
  · unfold functionParties at h
    split at h
    · cases h
    · next n hn =>
      cases h
      obtain ⟨pre, c, post, h1, h2, h3⟩ := List.findSome?_eq_some_iff.1 hn
      cases c with
      | tracer => simp [worldSize] at h2
      | interp i =>
        cases hs : i.stores with
        | none => simp [worldSize, hs] at h2
        | some st =>
          simp only [worldSize, hs, Option.map_some, Option.some.injEq] at h2
          exact ⟨pre, i, st, post, h1, hs, fun c hc => (key c).1 (h3 c hc), by rw [h2]⟩
  · constructor
    · intro h
      unfold functionParties at h
      split at h
      · next hn => exact fun c hc => (key c).1 (List.findSome?_eq_none_iff.1 hn c hc)
      · cases h
    · intro h
      have : s.findSome? worldSize = none := List.findSome?_eq_none_iff.2 fun c hc => (key c).2 (h c hc)
      simp [functionParties, this]
  · unfold functionParties at h
    split at h
    · cases h; rfl
    · cases h

example : functionParties [.tracer, .interp exInterp] = .ok [0, 1, 2] := rfl

/-- **C107** A compiled program takes exactly its flat positional inputs: with keyword arguments TypeError, with another
number of arguments ValueError, in both cases nothing is evaluated; otherwise one fresh object without device attribute
per output of the program, in order. -/
theorem evaluateCompiled_spec (i : Interp V J) (s : Stack V J) (arity : Nat)
    (evalGraph : List (Rt V) → Except Err (List (Rt V))) (args : List (Leaf V)) (kwargs : Nat) :
    (kwargs ≠ 0 → evaluateCompiled (some i) s arity evalGraph args kwargs = .error .type) ∧
    (kwargs = 0 → args.length ≠ arity → evaluateCompiled (some i) s arity evalGraph args kwargs = .error .value) ∧
    (∀ rts outs, kwargs = 0 → args.length = arity → args.map toRt = rts.map some → evalGraph rts = .ok outs →
      evaluateCompiled (some i) s arity evalGraph args kwargs = .ok (outs.map fun rt => .obj rt none)) := by
  refine ⟨fun h => ?_, fun h0 h => ?_, fun rts outs h0 hl hr he => ?_⟩
  · simp [evaluateCompiled, getContext, h]
  · simp [evaluateCompiled, getContext, h, h0]
  · have : args.mapM toRt = some rts := by
      clear hl he h0
      induction args generalizing rts with
      | nil => cases rts with
        | nil => rfl
        | cons r rs => simp at hr
      | cons a as ih => cases rts with
        | nil => simp at hr
        | cons r rs =>
          simp only [List.map_cons, List.cons.injEq] at hr
          simp [List.mapM_cons, hr.1, ih rs hr.2]
    simp [evaluateCompiled, getContext, h0, hl, this, he, Except.map]

example : evaluateCompiled (J := Nat) none [.interp exInterp] 1 (fun l => .ok l) [.obj (.dvar [none, some 1, none]) (some "P1")] 0 =
    .ok [.obj (.dvar [none, some 1, none]) none] := rfl

/-- **C107** Evaluating a compiled function (`mp.evaluate(mp.compile(fn, *args), *args)`) gives, leaf by leaf, the runtime
objects of calling `fn` directly (C08), as objects without device attribute. -/
theorem evaluateTraced_direct (sem : Verif.Interp.Sem (Rt V)) (store : Nat → Rt V) (i : Interp V J) (s : Stack V J)
    (fn : Tree (Option (Leaf V)) → Trace.Prog (Leaf V)) (t t' : Tree (Leaf V)) (tf : Trace.Traced (Rt V) (Leaf V))
    (hrun : Trace.run fn (t.map toObj) = some tf) (hs : Trace.shape (t'.map toObj) = Trace.shape (t.map toObj)) :
    evaluateTraced sem store (some i) s tf t' =
      match Trace.direct sem store fn (t'.map toObj) with
      | none => .error .graph
      | some r => .ok (r.map ofObj) := by
  have hv : ∀ o ∈ (t'.map toObj).leaves, Trace.isObj o = true → ∃ v, o = .val v := by
    intro o ho hob
    rw [(Trace.map_leaves _ _).1] at ho
    obtain ⟨l, _, rfl⟩ := List.mem_map.1 ho
    cases l with
    | obj rt d => exact ⟨rt, rfl⟩
    | bare rt => simp [toObj, Trace.isObj] at hob
    | traced id => simp [toObj, Trace.isObj] at hob
  simp only [evaluateTraced, getContext]
  rw [Trace.trace_then_evaluate sem store fn _ _ tf hrun hs hv]

example : let x : Leaf Nat := .obj (.dvar [none, some 1, none]) (some "P1")
    let fn : Tree (Option (Leaf Nat)) → Trace.Prog (Leaf Nat) := fun _ => ⟨[⟨[.param 0], 1⟩], .node "tuple" [.leaf (.res 0 0)]⟩
    ∃ tf, Trace.run fn ((Tree.leaf x).map toObj) = some tf ∧
      evaluateTraced (J := Nat) ⟨fun _ => true, fun _ l => l.head?, fun _ => none⟩ (fun _ => .dvar []) none [.interp exInterp] tf
        (.leaf x) = .ok (.node "tuple" [.leaf (.obj (.dvar [none, some 1, none]) none)]) := ⟨_, rfl, rfl⟩

/-- **C107 is violated** for compiled programs on devices: the same variable, computed by a direct call, carries the
device and is fetched as one value; returned by `mp.evaluate` of the compiled program it has lost the attribute and is
fetched as a list with one entry per party. -/
theorem fetch_after_compile_violated :
    let x : Rt Nat := .dvar [none, some 1, none]
    fetch true none [.interp exInterp] (.leaf (.obj x (some "P1"))) = .ok (.leaf (.one 8)) ∧
    evaluateCompiled none [.interp exInterp] 1 (fun l => .ok l) [.obj x (some "P1")] 0 = .ok [.obj x none] ∧
    fetch true none [.interp exInterp] (.leaf (.obj x none)) = .ok (.leaf (.parties [none, some 8, none])) :=
  ⟨by rfl, rfl, rfl⟩

/-- **C107** What remains: in a cluster of one party the lost device attribute makes no difference; in a larger one the
value of the device's party is in the list, at its rank. -/
theorem fetch_after_compile_partial (i : Interp V J) (s : Stack V J) (hs : isTracing s = false)
    (stores : List (Store (SV V))) (hst : i.stores = some stores) (c : Spec J) (hc : i.cluster = some c) (dev : String)
    (d : Device J) (hd : lookup dev c.devices = some d) (hk : upper d.kind = "PPU".toList ∨ upper d.kind = "TEE".toList)
    (m : Device.Node J) (hm : d.members = [m]) (us : List (Option Uri)) (hl : Live stores us) (v : V)
    (hv : Holds stores us m.rank (some v)) :
    ∃ o, fetch true (some i) s (.leaf (.obj (.dvar us) none)) = .ok (.leaf o) ∧
      (stores.length = 1 → fetch true (some i) s (.leaf (.obj (.dvar us) (some dev))) = .ok (.leaf o)) ∧
      (stores.length ≠ 1 → ∃ l, o = .parties l ∧ l.length = stores.length ∧ l[m.rank]? = some (some v)) := by
  obtain ⟨l, h1, h2, h3⟩ := fetch_parties i s hs stores hst us hl true none (Or.inr rfl)
  have hr : m.rank < l.length := by
    unfold Holds at hv
    split at hv
    · next u hu => rw [h1, ← hl.1]; exact (List.getElem?_eq_some_iff.1 hu).1
    · cases hv
  have hlv : l[m.rank] = some v := by
    have := h2 m.rank hr
    unfold Holds at this hv
    split at this
    · next u hu =>
      simp only [hu] at hv
      obtain ⟨st, w, e1, e2, e3⟩ := this
      obtain ⟨st', w', f1, f2, f3⟩ := hv
      rw [e1] at f1; cases f1
      rw [e2] at f2; cases f2
      rw [e3, f3]
    · next hn =>
      split at hv
      · next u hu => exact absurd hu (hn u)
      · cases hv
  refine ⟨_, h3, fun h => ?_, fun h => ?_⟩
  · rw [fetch_device i s hs stores hst c hc dev d hd hk m hm us v hv]
    match l, h1, hr, hlv with
    | [o], _, hr, hlv =>
      have : m.rank = 0 := by simpa using hr
      simp only [this, List.getElem_cons_zero] at hlv
      rw [hlv]
    | [], h1, _, _ => simp [h] at h1
    | _ :: _ :: _, h1, _, _ => simp [h] at h1
  · refine ⟨l, ?_, h1, by rw [List.getElem?_eq_getElem hr, hlv]⟩
    match l, h1 with
    | [], _ => rfl
    | [o], h1 => exact absurd (by simpa using h1.symm) h
    | some _ :: _ :: _, _ => rfl
    | none :: _ :: _, _ => rfl

/-- Disagreement: `device.fetch` promises the reconstructed value of an object on the SPU (libs/device/api.py:719), but
returns the first share: shares of different secrets with the same first share are fetched as the same value. -/
theorem fetch_spu_violated :
    let at' (s1 : Nat) : Interp Nat Nat := ⟨some [[.plain 5], [.plain s1], []], some exCluster⟩
    fetch true none [.interp (at' 10)] (.leaf (.obj (.dvar [some 0, some 0, none]) (some "SP"))) = .ok (.leaf (.one 5)) ∧
    fetch true none [.interp (at' 20)] (.leaf (.obj (.dvar [some 0, some 0, none]) (some "SP"))) = .ok (.leaf (.one 5)) :=
  ⟨rfl, rfl⟩

/-- **C107** What the SPU branch does: when all members hold a share the answer is the first member's share. -/
theorem fetch_spu_partial (i : Interp V J) (s : Stack V J) (hs : isTracing s = false) (stores : List (Store (SV V)))
    (hst : i.stores = some stores) (c : Spec J) (hc : i.cluster = some c) (dev : String) (d : Device J)
    (hd : lookup dev c.devices = some d) (hk : upper d.kind = "SPU".toList)
    (us : List (Option Uri)) (m : Device.Node J) (ms : List (Device.Node J)) (hm : d.members = m :: ms) (v : V)
    (hv : Holds stores us m.rank (some v)) (hall : ∀ n ∈ ms, ∃ w, Holds stores us n.rank (some w)) :
    fetch true (some i) s (.leaf (.obj (.dvar us) (some dev))) = .ok (.leaf (.one v)) := by
  have hf : ∀ (r : Nat) (v : V), Holds stores us r (some v) → ∃ w : SV V, fetchFromRank stores us r = .ok w ∧ w.unwrap = v := by
    intro r v hv
    unfold Holds at hv
    split at hv
    · next u hu =>
      obtain ⟨st, w, e1, e2, e3⟩ := hv
      exact ⟨w, by simp [fetchFromRank, hu, fetchAt, e1, e2], (Option.some.inj e3).symm⟩
    · cases hv
  have hsh : ∀ ms : List (Device.Node J), (∀ n ∈ ms, ∃ w, Holds stores us n.rank (some w)) →
      ∃ l, fetchShares stores us (ms.map (·.rank)) = .ok l := by
    intro ms
    induction ms with
    | nil => intro _; exact ⟨[], rfl⟩
    | cons n ns ih =>
      intro h
      obtain ⟨l, hl⟩ := ih fun x hx => h x (by simp [hx])
      obtain ⟨w, hw⟩ := h n (by simp)
      obtain ⟨x, hx, _⟩ := hf _ _ hw
      exact ⟨x :: l, by simp [fetchShares, hx, hl, Except.map]⟩
  obtain ⟨l, hl⟩ := hsh ms hall
  obtain ⟨x, hx, hxv⟩ := hf _ _ hv
  have hsh : fetchShares stores us (d.members.map (·.rank)) = .ok (x :: l) := by
    simp [hm, fetchShares, hx, hl, Except.map]
  have hr : resolveCluster (Ctx.interp i :: s) = .ok c := by simp [resolveCluster, clusterOf, hc]
  have hk' : ¬ (upper d.kind = "PPU".toList ∨ upper d.kind = "TEE".toList) := by
    rw [hk]; decide
  simp only [fetch, hs, getContext, treeMapE, fetchSingle, deviceFetch, hr, hd, hst, hsh, if_neg hk', if_pos hk]
  simp [Except.map, hxv]

example : fetch true none [.interp exInterp] (.leaf (.obj (.dvar [some 0, some 0, none]) (some "SP"))) =
    .ok (.leaf (.one 5)) := rfl

end Verif.Driver.Api
