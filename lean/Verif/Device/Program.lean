import Verif.Device.TransferProps
import Verif.Device.Infer
import Verif.Driver.Spmd
/-!
# C108 — programs over devices (libs/device/api.py): put, calls on a device, automatic transfers

A device program is a sequence of `put(dev, host value)`, `put(dev, x)` and `device(dev or nothing)(f)(x, …)`, run in eager
mode: every statement extends the values already held by the parties.  The operations a statement records are the ones of
`Verif.Device.Transfer`; they run at all parties under every schedule.  The SPU kernel is a joint step of the members,
abstracted by `Kernel` and its contract `KernelOk`.
-/
namespace Verif.Device
open Verif.Comm Verif.Simp
open Verif.Store (lookup)
open Verif.Driver.Spmd (pick_range' pick_length)

/-- One run of libspu: seed, function, number of members, and for every argument its shares in the order of the libspu ranks;
the shares of every result in the same order (`spu_impl.exec_impl`, backends/spu_impl.py:228-400: each member sets its share,
runs the executable, reads its output shares).  `none` = an exception. -/
abbrev Kernel (V : Type) := Nat → (List V → Option (List V)) → Nat → List (List V) → Option (List (List V))

/-- **Contract of libspu** for the sharing scheme of `P`: if the shares of every argument open to `vs` and the function is
defined there, then the run succeeds and the result shares open to the function's results. -/
def KernelOk {V : Type} (P : Prims V) (Plain : V → Prop) (K : Kernel V) : Prop :=
  ∀ seed f n cols vs ws, 0 < n → List.Forall₂ (fun c v => c.length = n ∧ P.reconstruct c = some v) cols vs → f vs = some ws →
    (∀ w ∈ ws, Plain w) → ∃ outs, K seed f n cols = some outs ∧ List.Forall₂ (fun c w => c.length = n ∧ P.reconstruct c = some w) outs ws

/-- A kernel that meets the contract: open, compute, share again. -/
def idealKernel {V : Type} (P : Prims V) : Kernel V := fun seed f n cols =>
  (cols.mapM P.reconstruct).bind fun vs => (f vs).map fun ws => ws.map (fun w => P.makeShares seed w n)

/-- The statements of a device program.  Variables are numbered in the order in which they are produced; `f` is the user's
function with all host arguments already inside (api.py:174-231 passes them on as constants). -/
inductive Stmt (V T : Type) where
  /-- `put(dev, v)` of a host value (api.py:700-730) -/
  | put (dev : String) (vt : T) (v : V)
  /-- `put(dev, x)` of a device object (api.py:697-698) -/
  | move (dev : String) (x : Nat)
  /-- `device(dev)(f)(x, …)` (api.py:261-349) -/
  | call (dev : Option String) (f : List V → Option (List V)) (outs : List T) (args : List Nat)

/-- What the host and the parties have: types of the values, the values at each party, the session cache, and for each variable
of the program its value number and device attribute (api.py:77-105). -/
structure St (V T : Type) where
  tys : List (Simp.Ty T)
  σ : Nat → List (LV V)
  cache : Cache
  vars : List (Nat × String)

section
variable {V T : Type} [DecidableEq T]

/-- `kind.upper()` -/
def kindName : Kind → String
  | .ppu => "PPU"
  | .spu => "SPU"
  | .tee => "TEE"
  | .other => "OTHER"

/-- the kinds of the cluster's devices, as `_infer_device_from_args` reads them -/
def kindMap (devs : List (String × Dev)) : List (String × String) := devs.map (fun e => (e.1, kindName e.2.kind))

/-- `DeviceContext._resolve_device` (api.py:292-296): the explicit device, or the inferred one (C35); the set of devices is
iterated in an arbitrary order. -/
def Resolves (devs : List (String × Dev)) (dev : Option String) (argDevs : List String) (d : String) : Prop :=
  match dev with
  | some d0 => d = d0
  | none => ∃ ds, Devices (argDevs.map (fun a => Arg.obj (some a))) ds ∧ inferFrom true (some (kindMap devs)) ds = .ok d

/-- `tree_map(trans, (args, kwargs))` of `_device_run` (api.py:238-246), in argument order -/
def moveArgs (P : Prims V) (names : TyNames T) (rnd : Nat → Nat) (ctx : Nat) (devs : List (String × Dev)) (toId : String) :
    List (Nat × String) → Cache → Bld V T → Option (List Nat × Cache × Bld V T)
  | [], c, b => some ([], c, b)
  | a :: as, c, b => (d2d P names rnd ctx devs toId a.2 a.1 c b).bind fun r =>
      (moveArgs P names rnd ctx devs toId as r.2.1 r.2.2).map fun q => (r.1 :: q.1, q.2)

/-- The operations of `b` run at all parties on the values `σ`: every schedule ends with party `p` holding `σ' p`. -/
def SegRuns (tr : V → Bool) (N : Nat) (b : Bld V T) (σ σ' : Nat → List (LV V)) : Prop :=
  ∀ c, Symm c → ∃ f0, ∀ fuel, f0 ≤ fuel →
    ∃ t, Always N (syncSt (fun p => regionRun tr N fuel p (.mk (toOps b.ops) (List.range b.tys.length)) (σ p)) c) t ∧
      (∀ p, p < N → t.proc p = .ret (σ' p)) ∧ ∀ p, N ≤ p → σ' p = []

/-- the shares of value `x` in the order `ms` -/
def column (σ : Nat → List (LV V)) (ms : List Nat) (x : Nat) : Option (List V) := ms.mapM (fun r => ((σ r)[x]?).join)

/-- the result shares of one party: member number `i` gets entry `i` of every column -/
def ownShares (ms : List Nat) (cols : List (List V)) (p : Nat) : List (LV V) :=
  cols.map (fun c => if p ∈ ms then c[ms.idxOf p]? else none)

/-- `_device_run_spu` (api.py:174-192): `pcall_static` sorts the parties (dialects/simp.py:410) and libspu's rank is the index
in the sorted tuple (backends/spu_impl.py:268-270). -/
def spuStep (K : Kernel V) (names : TyNames T) (rnd : Nat → Nat) (members : List Nat) (f : List V → Option (List V)) (outs : List T)
    (xs : List Nat) (tys : List (Simp.Ty T)) (σ : Nat → List (LV V)) : Option (List (Simp.Ty T) × (Nat → List (LV V))) :=
  (pick tys xs).bind fun ts =>
  if pcallCheck (sortedSet members) ts = true then
    (xs.mapM (column σ (sortedSet members))).bind fun cols =>
    (K (rnd tys.length) f (sortedSet members).length cols).bind fun res =>
    if res.length = outs.length then
      some (tys ++ outs.map (fun t => ⟨names.ss t, some (sortedSet members)⟩), fun p => σ p ++ ownShares (sortedSet members) res p)
    else none
  else none

/-- `_device_run` after the transfers, by kind of device (api.py:248-255) -/
def RunOn (K : Kernel V) (names : TyNames T) (rnd : Nat → Nat) (tr : V → Bool) (N : Nat) (dev : Dev) (f : List V → Option (List V))
    (outs : List T) (xs : List Nat) (tys : List (Simp.Ty T)) (σ : Nat → List (LV V)) (tys' : List (Simp.Ty T)) (σ' : Nat → List (LV V)) : Prop :=
  match dev.kind with
  | .spu => spuStep K names rnd dev.members f outs xs tys σ = some (tys', σ')
  | .ppu | .tee => ∃ r ys b', dev.members = [r] ∧ pcallStatic [r] (lift f) outs xs ⟨tys, []⟩ = some (ys, b') ∧ b'.tys = tys' ∧
      SegRuns tr N b' σ σ'
  | .other => False

/-- One statement. -/
inductive Step (P : Prims V) (K : Kernel V) (names : TyNames T) (rnd : Nat → Nat) (tr : V → Bool) (N ctx : Nat) (devs : List (String × Dev)) :
    Stmt V T → St V T → St V T → Prop where
  /-- host value to PPU or TEE (api.py:703-711, 719-727) -/
  | putPlain (d vt v s dev y b' σ') : lookup d devs = some dev → putHost dev vt v ⟨s.tys, []⟩ = some (y, b') → SegRuns tr N b' s.σ σ' →
      Step P K names rnd tr N ctx devs (.put d vt v) s ⟨b'.tys, σ', s.cache, s.vars ++ [(y, d)]⟩
  /-- host value to SPU: the identity function is run on the SPU with the host value as argument (api.py:713-717) -/
  | putSpu (d vt v s dev tys' σ') : lookup d devs = some dev → dev.kind = .spu →
      spuStep K names rnd dev.members (fun _ => some [v]) [vt] [] s.tys s.σ = some (tys', σ') →
      Step P K names rnd tr N ctx devs (.put d vt v) s ⟨tys', σ', s.cache, s.vars ++ [(s.tys.length, d)]⟩
  /-- device object (api.py:697-698) -/
  | move (d x s e dev y c' b' σ') : s.vars[x]? = some e → lookup d devs = some dev →
      d2d P names rnd ctx devs d e.2 e.1 s.cache ⟨s.tys, []⟩ = some (y, c', b') → SegRuns tr N b' s.σ σ' →
      Step P K names rnd tr N ctx devs (.move d x) s ⟨b'.tys, σ', c', s.vars ++ [(y, d)]⟩
  /-- `_device_run` (api.py:222-258) -/
  | call (dev f outs args s as d dv xs c' b1 σ1 tys' σ') : pick s.vars args = some as → Resolves devs dev (as.map Prod.snd) d →
      lookup d devs = some dv → moveArgs P names rnd ctx devs d as s.cache ⟨s.tys, []⟩ = some (xs, c', b1) → SegRuns tr N b1 s.σ σ1 →
      RunOn K names rnd tr N dv f outs xs b1.tys σ1 tys' σ' →
      Step P K names rnd tr N ctx devs (.call dev f outs args) s
        ⟨tys', σ', c', s.vars ++ (List.range outs.length).map (fun i => (b1.tys.length + i, d))⟩

/-- A program. -/
inductive Exec (P : Prims V) (K : Kernel V) (names : TyNames T) (rnd : Nat → Nat) (tr : V → Bool) (N ctx : Nat) (devs : List (String × Dev)) :
    List (Stmt V T) → St V T → St V T → Prop where
  | nil (s) : Exec P K names rnd tr N ctx devs [] s s
  | cons (p ps s s1 s2) : Step P K names rnd tr N ctx devs p s s1 → Exec P K names rnd tr N ctx devs ps s1 s2 →
      Exec P K names rnd tr N ctx devs (p :: ps) s s2

/-! ## Specification -/

/-- The plain meaning of a program: values only, no devices, no parties. -/
def plainStmt : Stmt V T → List V → Option (List V)
  | .put _ _ v, vs => some (vs ++ [v])
  | .move _ x, vs => (vs[x]?).map (fun v => vs ++ [v])
  | .call _ f outs args, vs => ((pick vs args).bind f).bind fun ws => if ws.length = outs.length then some (vs ++ ws) else none

/-- all statements -/
def plainProg : List (Stmt V T) → List V → Option (List V)
  | [], vs => some vs
  | p :: ps, vs => (plainStmt p vs).bind (plainProg ps)

/-- A device of the cluster that can hold values. -/
def Usable (devs : List (String × Dev)) (d : String) : Prop := ∃ dev, lookup d devs = some dev ∧ dev.kind ≠ .other

/-- A value on device `a` can be brought to device `b`. -/
def Reaches (devs : List (String × Dev)) (a b : String) : Prop :=
  a = b ∨ ∃ da db, lookup a devs = some da ∧ lookup b devs = some db ∧ Supported da.kind db.kind

/-- The device of a call: the one named, or the one determined by the devices of the arguments (C35's `Chosen`). -/
def RunsAt (devs : List (String × Dev)) (dev : Option String) (argDevs : List String) (d : String) : Prop :=
  match dev with
  | some d0 => d = d0
  | none => Chosen true (some (kindMap devs)) (argDevs.map (fun a => Arg.obj (some a))) d

/-- **Placement.** `Δ` are the devices of the variables before, `Δ'` after the statement. -/
inductive Places (devs : List (String × Dev)) : Stmt V T → List String → List String → Prop where
  | put (d vt v Δ) : Usable devs d → Places devs (.put d vt v) Δ (Δ ++ [d])
  | move (d x Δ d0) : Δ[x]? = some d0 → Usable devs d → Reaches devs d0 d → Places devs (.move d x) Δ (Δ ++ [d])
  | call (dev f outs args Δ ds d) : pick Δ args = some ds → RunsAt devs dev ds d → Usable devs d → (∀ a ∈ ds, Reaches devs a d) →
      Places devs (.call dev f outs args) Δ (Δ ++ List.replicate outs.length d)

/-- all statements -/
inductive PlacesAll (devs : List (String × Dev)) : List (Stmt V T) → List String → List String → Prop where
  | nil (Δ) : PlacesAll devs [] Δ Δ
  | cons (p ps Δ Δ1 Δ2) : Places devs p Δ Δ1 → PlacesAll devs ps Δ1 Δ2 → PlacesAll devs (p :: ps) Δ Δ2

/-- A validated cluster whose SPU member lists are in ascending rank order. -/
def ClusterOk (N : Nat) (devs : List (String × Dev)) : Prop :=
  ∀ d dev, lookup d devs = some dev → DevOk N dev ∧ (dev.kind = .spu → dev.members.Pairwise (· < ·))

/-- Variable `e` lives on its device with plaintext `v`. -/
def VarOk (P : Prims V) (names : TyNames T) (N : Nat) (devs : List (String × Dev)) (tys : List (Simp.Ty T)) (σ : Nat → List (LV V))
    (e : Nat × String) (v : V) : Prop :=
  ∃ dev vt, lookup e.2 devs = some dev ∧ OnDevice P names N ⟨tys, []⟩ σ e.1 vt dev v

/-- The state of a running program whose plain values are `vs`. -/
structure Inv (P : Prims V) (Plain : V → Prop) (names : TyNames T) (N ctx : Nat) (devs : List (String × Dev)) (s : St V T) (vs : List V) : Prop where
  len : ∀ p, p < N → (s.σ p).length = s.tys.length
  cache : CacheOk P Plain names N ctx devs s.cache ⟨s.tys, []⟩ s.σ
  vars : List.Forall₂ (VarOk P names N devs s.tys s.σ) s.vars vs

/-! ## Lemmas -/

theorem idealKernel_ok {P : Prims V} {Plain : V → Prop} (hP : Contracts P Plain) : KernelOk P Plain (idealKernel P) := by
  intro seed f n cols vs ws hn hc hf hp
  have h1 : cols.mapM P.reconstruct = some vs := by
    clear hf
    induction hc with
    | nil => rfl
    | cons h _ ih => simp [h.2, ih]
  refine ⟨ws.map (fun w => P.makeShares seed w n), by simp [idealKernel, h1, hf], ?_⟩
  clear hf
  induction ws with
  | nil => exact .nil
  | cons w ws ih =>
    exact .cons ⟨hP.shares_len _ _ _, hP.shares_open _ _ _ (hp w (by simp)) hn⟩ (ih (fun w hw => hp w (by simp [hw])))

theorem onDevice_has {P : Prims V} {names : TyNames T} {N : Nat} {b b' : Bld V T} {σ σ' : Nat → List (LV V)}
    (hk : ∀ (x : Nat) t f, Has N b σ x t f → Has N b' σ' x t f) {x : Nat} {vt : T} {d : Dev} {v : V}
    (h : OnDevice P names N b σ x vt d v) : OnDevice P names N b' σ' x vt d v := by
  obtain ⟨k, ms⟩ := d
  cases k with
  | spu => obtain ⟨f, h1, h2⟩ := h; exact ⟨f, hk _ _ _ h1, h2⟩
  | ppu => obtain ⟨r, h1, h2⟩ := h; exact ⟨r, h1, hk _ _ _ h2⟩
  | tee => obtain ⟨r, h1, h2⟩ := h; exact ⟨r, h1, hk _ _ _ h2⟩
  | other => exact h.elim

/-- nobody beyond the `N` parties -/
def trim (N : Nat) (σ : Nat → List (LV V)) : Nat → List (LV V) := fun p => if p < N then σ p else []

theorem has_base {N : Nat} {b : Bld V T} {σ : Nat → List (LV V)} (x : Nat) (t : Simp.Ty T) (f : Nat → LV V)
    (h : Has N b σ x t f) : Has N (⟨b.tys, []⟩ : Bld V T) (trim N σ) x t f := ⟨h.ty, fun p hp => by rw [trim, if_pos hp]; exact h.val p hp⟩

theorem trim_len {N : Nat} {σ : Nat → List (LV V)} {n : Nat} (h : ∀ p, p < N → (σ p).length = n) : ∀ p, p < N → (trim N σ p).length = n :=
  fun p hp => by rw [trim, if_pos hp]; exact h p hp

theorem mem_pick {α : Type} {env : List α} : ∀ {is : List Nat} {r : List α}, pick env is = some r → ∀ v ∈ r, v ∈ env
  | [], r, h, v, hv => by simp only [pick, Option.some.injEq] at h; subst h; simp at hv
  | i :: is, r, h, v, hv => by
    simp only [pick] at h
    split at h
    · next x xs h1 h2 =>
      simp only [Option.some.injEq] at h
      subst h
      rcases List.mem_cons.1 hv with rfl | hm
      · exact List.mem_of_getElem? h1
      · exact mem_pick h2 v hm
    · simp at h

theorem cacheOk_has {P : Prims V} {Plain : V → Prop} {names : TyNames T} {N ctx : Nat} {devs : List (String × Dev)} {cache : Cache} {b b' : Bld V T}
    {σ σ' : Nat → List (LV V)} (hk : ∀ (x : Nat) t f, Has N b σ x t f → Has N b' σ' x t f)
    (h : CacheOk P Plain names N ctx devs cache b σ) : CacheOk P Plain names N ctx devs cache b' σ' := by
  intro p t f s hg
  obtain ⟨dp, dt, rp, rt, k, h1, h2, h3, h4, h5, h6, h7⟩ := h p t f s hg
  exact ⟨dp, dt, rp, rt, k, h1, h2, h3, h4, hk _ _ _ h5, hk _ _ _ h6, h7⟩

theorem segRuns_of_cont {tr : V → Bool} {N : Nat} {tys : List (Simp.Ty T)} {b' : Bld V T} {σ σ' : Nat → List (LV V)}
    (hlen : ∀ p, p < N → (σ p).length = tys.length) (h : Cont tr N ⟨tys, []⟩ σ b' σ') : SegRuns tr N b' σ (trim N σ') := by
  have hrun : Run tr N b' σ σ' := h.run σ ⟨.nil _, hlen⟩
  intro c hc
  have hpc := program_correct tr N (.mk (toOps b'.ops) (List.range b'.tys.length)) σ σ' (.region _ _ _ σ' _ hrun.ev (by
    intro p hp
    rw [← hrun.len p hp]
    exact pick_range' _)) c hc
  obtain ⟨f0, hf⟩ := hpc
  refine ⟨f0, fun fuel hfu => ?_⟩
  obtain ⟨t, h1, h2⟩ := hf fuel hfu
  exact ⟨t, h1, fun p hp => by rw [trim, if_pos hp]; exact h2 p hp, fun p hp => by rw [trim, if_neg (by omega)]⟩

/-- keep across a segment, stated for the bases of the segments -/
theorem keep_seg {tr : V → Bool} {N : Nat} {tys : List (Simp.Ty T)} {b' : Bld V T} {σ σ' : Nat → List (LV V)}
    (h : Cont tr N ⟨tys, []⟩ σ b' σ') (x : Nat) (t : Simp.Ty T) (f : Nat → LV V) (hx : Has N (⟨tys, []⟩ : Bld V T) σ x t f) :
    Has N (⟨b'.tys, []⟩ : Bld V T) (trim N σ') x t f := has_base x t f (h.keep x t f hx)

theorem varOk_keep {P : Prims V} {names : TyNames T} {N : Nat} {devs : List (String × Dev)} {tys tys' : List (Simp.Ty T)} {σ σ' : Nat → List (LV V)}
    (hk : ∀ (x : Nat) t f, Has N (⟨tys, []⟩ : Bld V T) σ x t f → Has N (⟨tys', []⟩ : Bld V T) σ' x t f) {e : Nat × String} {v : V}
    (h : VarOk P names N devs tys σ e v) : VarOk P names N devs tys' σ' e v := by
  obtain ⟨dev, vt, h1, h2⟩ := h
  exact ⟨dev, vt, h1, onDevice_has hk h2⟩

/-- bringing all arguments to one device -/
theorem moveArgs_ok {P : Prims V} {Plain : V → Prop} (hP : Contracts P Plain) (names : TyNames T) (rnd : Nat → Nat) (tr : V → Bool) {N ctx : Nat}
    {devs : List (String × Dev)} (hdevs : ClusterOk N devs) {toId : String} {dst : Dev} (hdst : lookup toId devs = some dst)
    (as : List (Nat × String)) (vs : List V) : ∀ (cache : Cache) (b : Bld V T) (σ : Nat → List (LV V)),
    (∀ p, p < N → (σ p).length = b.tys.length) → CacheOk P Plain names N ctx devs cache b σ → (∀ v ∈ vs, Plain v) →
    List.Forall₂ (fun (e : Nat × String) v => ∃ dev vt, lookup e.2 devs = some dev ∧ OnDevice P names N b σ e.1 vt dev v) as vs →
    (∀ e ∈ as, Reaches devs e.2 toId) →
    ∃ xs cache' b' σ', moveArgs P names rnd ctx devs toId as cache b = some (xs, cache', b') ∧ Cont tr N b σ b' σ' ∧
      CacheOk P Plain names N ctx devs cache' b' σ' ∧ List.Forall₂ (fun x v => ∃ vt, OnDevice P names N b' σ' x vt dst v) xs vs := by
  induction as generalizing vs with
  | nil =>
    intro cache b σ _ hc _ h _
    cases h
    exact ⟨[], cache, b, σ, rfl, .refl tr N b σ, hc, .nil⟩
  | cons e as ih =>
    intro cache b σ hlen hc hpl h hre
    cases h with
    | @cons _ v _ vs' h1 h2 =>
    obtain ⟨dev, vt, hl, hon⟩ := h1
    have step : ∃ y cache1 b1 σ1, d2d P names rnd ctx devs toId e.2 e.1 cache b = some (y, cache1, b1) ∧ Cont tr N b σ b1 σ1 ∧
        OnDevice P names N b1 σ1 y vt dst v ∧ CacheOk P Plain names N ctx devs cache1 b1 σ1 := by
      by_cases hd : e.2 = toId
      · rw [hd] at hl ⊢
        rw [hdst] at hl
        cases hl
        exact ⟨e.1, cache, b, σ, transfer_same P names rnd ctx devs toId e.1 cache b, .refl tr N b σ, hon, hc⟩
      · rcases hre e (by simp) with h | ⟨da, db, ha, hb, hs⟩
        · exact absurd h hd
        · rw [hl] at ha; cases ha
          rw [hdst] at hb; cases hb
          exact transfer_preserves hP names rnd tr hlen hc hl hdst (hdevs _ _ hl).1 (hdevs _ _ hdst).1 hd hs (hpl v (by simp)) hon
    obtain ⟨y, c1, b1, σ1, e1, e2, e3, e4⟩ := step
    obtain ⟨xs, c2, b2, σ2, f1, f2, f3, f4⟩ := ih vs' c1 b1 σ1 (e2.len hlen) e4 (fun v hv => hpl v (by simp [hv]))
      (h2.imp (fun _ _ ⟨dev, vt, g1, g2⟩ => ⟨dev, vt, g1, onDevice_has e2.keep g2⟩)) (fun e he => hre e (by simp [he]))
    exact ⟨y :: xs, c2, b2, σ2, by simp [moveArgs, e1, f1], e2.trans f2, f3, .cons ⟨vt, onDevice_has f2.keep e3⟩ f4⟩

theorem sortedSet_asc {l : List Nat} (h : l.Pairwise (· < ·)) : sortedSet l = l := by
  have hn : l.Nodup := h.imp (fun h => Nat.ne_of_lt h)
  exact List.Perm.eq_of_pairwise (fun a b _ _ h1 h2 => by omega) (sortedSet_sorted l) h
    ((List.perm_ext_iff_of_nodup (sortedSet_nodup _) hn).2 (fun a => mem_sortedSet a l))

theorem pick_forall {α β : Type} {R : Nat → β → Prop} {env : List α} {Q : α → Prop} : ∀ {xs : List Nat} {vs : List β}, List.Forall₂ R xs vs →
    (∀ x v, R x v → ∃ a, env[x]? = some a ∧ Q a) → ∃ r, pick env xs = some r ∧ ∀ a ∈ r, Q a := by
  intro xs vs h hR
  induction h with
  | nil => exact ⟨[], rfl, by simp⟩
  | cons h1 _ ih =>
    obtain ⟨a, ha, hq⟩ := hR _ _ h1
    obtain ⟨r, hr, hqr⟩ := ih
    exact ⟨a :: r, by simp [pick, ha, hr], by simpa using ⟨hq, hqr⟩⟩

theorem mapM_join {f : Nat → LV V} {ms : List Nat} {shares : List V} (h : ms.map f = shares.map some) : ms.mapM f = some shares := by
  induction ms generalizing shares with
  | nil => cases shares with
    | nil => rfl
    | cons => simp at h
  | cons m ms ih => cases shares with
    | nil => simp at h
    | cons a l =>
      simp only [List.map_cons, List.cons.injEq] at h
      simp [h.1, ih h.2]

theorem mapM_congr' {α β : Type} {f g : α → Option β} {l : List α} (h : ∀ x ∈ l, f x = g x) : l.mapM f = l.mapM g := by
  induction l with
  | nil => rfl
  | cons a l ih => simp only [List.mapM_cons, h a (by simp), ih (fun x hx => h x (by simp [hx]))]

theorem ownShares_map (ms : List Nat) (hn : ms.Nodup) (c : List V) (hc : c.length = ms.length) :
    ms.map (fun p => if p ∈ ms then c[ms.idxOf p]? else none) = c.map some := by
  refine List.ext_getElem (by simp [hc]) (fun i h1 h2 => ?_)
  simp only [List.length_map] at h1 h2
  simp only [List.getElem_map, List.getElem_mem, if_true]
  rw [hn.idxOf_getElem i h1, List.getElem?_eq_getElem h2]

/-- the joint run on an SPU -/
theorem spuStep_ok {P : Prims V} {Plain : V → Prop} {K : Kernel V} (hK : KernelOk P Plain K) (names : TyNames T) (rnd : Nat → Nat) {N : Nat}
    {ms : List Nat} (hms : DevOk N ⟨.spu, ms⟩) (hasc : ms.Pairwise (· < ·)) {tys : List (Simp.Ty T)} {σ : Nat → List (LV V)}
    (hlen : ∀ p, p < N → (σ p).length = tys.length) (f : List V → Option (List V)) (outs : List T) {xs : List Nat} {vs ws : List V}
    (hx : List.Forall₂ (fun x v => ∃ vt, OnDevice P names N (⟨tys, []⟩ : Bld V T) σ x vt ⟨.spu, ms⟩ v) xs vs) (hf : f vs = some ws)
    (hw : ws.length = outs.length) (hpl : ∀ w ∈ ws, Plain w) :
    ∃ tys' σ', spuStep K names rnd ms f outs xs tys σ = some (tys', σ') ∧ (∀ p, p < N → (σ' p).length = tys'.length) ∧
      (∀ (x : Nat) t g, Has N (⟨tys, []⟩ : Bld V T) σ x t g → Has N (⟨tys', []⟩ : Bld V T) σ' x t g) ∧
      ∀ (i : Nat) w, ws[i]? = some w → ∃ vt, OnDevice P names N (⟨tys', []⟩ : Bld V T) σ' (tys.length + i) vt ⟨.spu, ms⟩ w := by
  have hs := sortedSet_asc hasc
  have hpos : 0 < ms.length := List.length_pos_of_ne_nil hms.nonempty
  obtain ⟨ts, hts, hq⟩ := pick_forall (env := tys) (Q := fun t => t.parties = some ms) hx (by
    rintro x v ⟨vt, g, hg, _⟩
    exact ⟨_, hg.ty, by simp [hs]⟩)
  have hchk : pcallCheck ms ts = true := by
    refine (pcallCheck_known ms ts (List.all_eq_true.2 (fun t ht => by simp [known, hq t ht]))).2 ?_
    intro x hx' t ht ps hps
    rw [hq t ht] at hps
    cases hps
    exact hx'
  have hcols : ∃ cols, xs.mapM (column σ ms) = some cols ∧ List.Forall₂ (fun c v => c.length = ms.length ∧ P.reconstruct c = some v) cols vs := by
    clear hf hts
    induction hx with
    | nil => exact ⟨[], rfl, .nil⟩
    | @cons x v xs' vs' h1 _ ih =>
      obtain ⟨vt, g, hg, _, shares, hsh, hrec⟩ := h1
      obtain ⟨cols, e1, e2⟩ := ih
      have hc : column σ ms x = some shares := by
        unfold column
        rw [mapM_congr' (g := g) (fun r hr => by rw [hg.val r (hms.ranks r hr)]; rfl)]
        exact mapM_join hsh
      have hl : shares.length = ms.length := by
        have := congrArg List.length hsh
        simpa using this.symm
      exact ⟨shares :: cols, by simp [hc, e1], .cons ⟨hl, hrec⟩ e2⟩
  obtain ⟨cols, hc1, hc2⟩ := hcols
  obtain ⟨res, hr1, hr2⟩ := hK (rnd tys.length) f ms.length cols vs ws hpos hc2 hf hpl
  have hrl : res.length = ws.length := hr2.length_eq
  refine ⟨tys ++ outs.map (fun t => ⟨names.ss t, some ms⟩), fun p => σ p ++ ownShares ms res p, ?_, ?_, ?_, ?_⟩
  · unfold spuStep
    rw [hts, hs]
    simp only [Option.bind_some]
    rw [if_pos hchk, hc1]
    simp only [Option.bind_some, hr1]
    rw [if_pos (by rw [hrl, hw])]
  · intro p hp
    simp [hlen p hp, ownShares, hrl, hw]
  · intro x t g hg
    constructor
    · show (tys ++ _)[x]? = _
      have := hg.ty
      simp only at this
      rw [List.getElem?_append_left (List.getElem?_eq_some_iff.1 this).1]; exact this
    · intro p hp
      show (σ p ++ _)[x]? = _
      rw [List.getElem?_append_left (List.getElem?_eq_some_iff.1 (hg.val p hp)).1]; exact hg.val p hp
  · intro i w hi
    have hil : i < ws.length := (List.getElem?_eq_some_iff.1 hi).1
    have hio : i < outs.length := hw ▸ hil
    have hir : i < res.length := hrl ▸ hil
    have hres := List.forall₂_iff_get.1 hr2 |>.2 i hir hil
    obtain ⟨hlc, hrc⟩ := hres
    have hwi : ws[i] = w := (List.getElem?_eq_some_iff.1 hi).2
    refine ⟨outs[i], fun p => if p ∈ ms then (res[i])[ms.idxOf p]? else none, ⟨?_, ?_⟩, ?_, res[i], ?_, ?_⟩
    · show (tys ++ _)[tys.length + i]? = _
      rw [List.getElem?_append_right (by omega)]
      simp [hio, hs]
    · intro p hp
      show (σ p ++ ownShares ms res p)[tys.length + i]? = _
      rw [List.getElem?_append_right (by rw [hlen p hp]; omega), hlen p hp]
      simp [ownShares, hir]
    · intro p _ hpm
      exact if_neg hpm
    · exact ownShares_map ms hms.nodup _ hlc
    · simpa [hwi] using hrc

theorem forall₂_of_get {α β : Type} {R : α → β → Prop} {l : List α} {m : List β} (hl : l.length = m.length)
    (h : ∀ (i : Nat) a b, l[i]? = some a → m[i]? = some b → R a b) : List.Forall₂ R l m := by
  refine List.forall₂_iff_get.2 ⟨hl, fun i h1 h2 => h i _ _ ?_ ?_⟩
  · simp [h1]
  · simp [h2]

theorem atAll_of_on {P : Prims V} {names : TyNames T} {N : Nat} {b : Bld V T} {σ : Nat → List (LV V)} {dev : Dev} {r : Nat} (hr : dev.members = [r])
    (hk : dev.kind = .ppu ∨ dev.kind = .tee) {xs : List Nat} {vs : List V}
    (h : List.Forall₂ (fun x v => ∃ vt, OnDevice P names N b σ x vt dev v) xs vs) : ∃ ts, AtAll N b σ r xs ts vs := by
  induction h with
  | nil => exact ⟨[], trivial⟩
  | cons h1 _ ih =>
    obtain ⟨vt, hon⟩ := h1
    obtain ⟨ts, hts⟩ := ih
    refine ⟨vt :: ts, ?_, hts⟩
    obtain ⟨k, ms⟩ := dev
    simp only at hr hk
    rcases hk with rfl | rfl
    · obtain ⟨r', h1, h2⟩ := hon; simp only at h1; rw [hr] at h1; cases h1; exact h2
    · obtain ⟨r', h1, h2⟩ := hon; simp only at h1; rw [hr] at h1; cases h1; exact h2

theorem onDevice_at {P : Prims V} {names : TyNames T} {N : Nat} {b : Bld V T} {σ : Nat → List (LV V)} {dev : Dev} {r : Nat} (hr : dev.members = [r])
    (hk : dev.kind = .ppu ∨ dev.kind = .tee) {x : Nat} {vt : T} {v : V} (h : At N b σ x vt r v) : OnDevice P names N b σ x vt dev v := by
  obtain ⟨k, ms⟩ := dev
  simp only at hr hk
  rcases hk with rfl | rfl
  · exact ⟨r, hr, h⟩
  · exact ⟨r, hr, h⟩

/-- running the function once the arguments are there -/
theorem runOn_ok {P : Prims V} {Plain : V → Prop} {K : Kernel V} (hK : KernelOk P Plain K) (names : TyNames T) (rnd : Nat → Nat) (tr : V → Bool)
    {N : Nat} {dev : Dev} (hd : DevOk N dev) (hasc : dev.kind = .spu → dev.members.Pairwise (· < ·)) (hko : dev.kind ≠ .other)
    {tys : List (Simp.Ty T)} {σ : Nat → List (LV V)} (hlen : ∀ p, p < N → (σ p).length = tys.length) (f : List V → Option (List V)) (outs : List T)
    {xs : List Nat} {vs ws : List V}
    (hx : List.Forall₂ (fun x v => ∃ vt, OnDevice P names N (⟨tys, []⟩ : Bld V T) σ x vt dev v) xs vs) (hf : f vs = some ws)
    (hw : ws.length = outs.length) (hpl : ∀ w ∈ ws, Plain w) :
    ∃ tys' σ', RunOn K names rnd tr N dev f outs xs tys σ tys' σ' ∧ (∀ p, p < N → (σ' p).length = tys'.length) ∧
      (∀ (x : Nat) t g, Has N (⟨tys, []⟩ : Bld V T) σ x t g → Has N (⟨tys', []⟩ : Bld V T) σ' x t g) ∧
      ∀ (i : Nat) w, ws[i]? = some w → ∃ vt, OnDevice P names N (⟨tys', []⟩ : Bld V T) σ' (tys.length + i) vt dev w := by
  have main : dev.kind = .ppu ∨ dev.kind = .tee → ∃ tys' σ', (∃ r ys b', dev.members = [r] ∧
      pcallStatic [r] (lift f) outs xs (⟨tys, []⟩ : Bld V T) = some (ys, b') ∧ b'.tys = tys' ∧ SegRuns tr N b' σ σ') ∧
      (∀ p, p < N → (σ' p).length = tys'.length) ∧
      (∀ (x : Nat) t g, Has N (⟨tys, []⟩ : Bld V T) σ x t g → Has N (⟨tys', []⟩ : Bld V T) σ' x t g) ∧
      ∀ (i : Nat) w, ws[i]? = some w → ∃ vt, OnDevice P names N (⟨tys', []⟩ : Bld V T) σ' (tys.length + i) vt dev w := by
    intro hk
    obtain ⟨r, hr, hrN⟩ := single_member hd hk
    obtain ⟨ts, hat⟩ := atAll_of_on hr hk hx
    obtain ⟨ys, b', σ', e1, e2, e3, e4⟩ := local_call tr (b := (⟨tys, []⟩ : Bld V T)) hlen hat f outs ws hf hw
    refine ⟨b'.tys, trim N σ', ⟨r, ys, b', hr, e1, rfl, segRuns_of_cont hlen e2⟩, trim_len (e2.len hlen), fun x t g hg => keep_seg e2 x t g hg, ?_⟩
    intro i w hi
    have hio : i < outs.length := hw ▸ (List.getElem?_eq_some_iff.1 hi).1
    have := e4 i outs[i] w (by simp [hio]) hi
    exact ⟨outs[i], onDevice_at hr hk (has_base _ _ _ this)⟩
  obtain ⟨k, ms⟩ := dev
  cases k with
  | spu => exact spuStep_ok hK names rnd hd (hasc rfl) hlen f outs hx hf hw hpl
  | ppu => exact main (.inl rfl)
  | tee => exact main (.inr rfl)
  | other => exact absurd rfl hko

theorem pick_vars {P : Prims V} {names : TyNames T} {N : Nat} {devs : List (String × Dev)} {tys : List (Simp.Ty T)} {σ : Nat → List (LV V)}
    {vars : List (Nat × String)} {vs : List V} (h : List.Forall₂ (VarOk P names N devs tys σ) vars vs) : ∀ {args : List Nat} {ws : List V},
    pick vs args = some ws → ∃ as, pick vars args = some as ∧ List.Forall₂ (VarOk P names N devs tys σ) as ws ∧
      pick (vars.map Prod.snd) args = some (as.map Prod.snd)
  | [], ws, hp => by
    simp only [pick, Option.some.injEq] at hp
    subst hp
    exact ⟨[], rfl, .nil, rfl⟩
  | i :: is, ws, hp => by
    simp only [pick] at hp
    cases h1 : vs[i]? with
    | none => rw [h1] at hp; simp at hp
    | some v =>
      cases h2 : pick vs is with
      | none => rw [h1, h2] at hp; simp at hp
      | some r =>
        rw [h1, h2] at hp
        simp only [Option.some.injEq] at hp
        subst hp
        obtain ⟨as, e1, e2, e3⟩ := pick_vars h h2
        have hil := (List.getElem?_eq_some_iff.1 h1).1
        have hil' : i < vars.length := h.length_eq ▸ hil
        have hg := (List.forall₂_iff_get.1 h).2 i hil' hil
        refine ⟨vars[i] :: as, by simp [pick, hil', e1], .cons ?_ e2, by simp [pick, hil', e3]⟩
        have : v = vs[i] := ((List.getElem?_eq_some_iff.1 h1).2).symm
        subst this
        exact hg

theorem resolves_iff (devs : List (String × Dev)) (dev : Option String) (ds : List String) (d : String) :
    Resolves devs dev ds d ↔ RunsAt devs dev ds d := by
  cases dev with
  | some d0 => exact Iff.rfl
  | none =>
    simp only [Resolves, RunsAt]
    constructor
    · rintro ⟨l, h1, h2⟩
      exact (infer_iff _ _ _ l h1 d).1 h2
    · intro h
      obtain ⟨l, hl⟩ := devices_exist (ds.map (fun a => Arg.obj (some a)))
      exact ⟨l, hl, (infer_iff _ _ _ l hl d).2 h⟩

/-- one statement, from a state that matches the plain values -/
theorem step_ok {P : Prims V} {Plain : V → Prop} (hP : Contracts P Plain) {K : Kernel V} (hK : KernelOk P Plain K) (names : TyNames T)
    (rnd : Nat → Nat) (tr : V → Bool) {N ctx : Nat} {devs : List (String × Dev)} (hdevs : ClusterOk N devs) {p : Stmt V T} {s : St V T}
    {vs vs' : List V} {Δ' : List String} (hpl : Places devs p (s.vars.map Prod.snd) Δ') (hv : plainStmt p vs = some vs')
    (hplain : ∀ v ∈ vs', Plain v) (hi : Inv P Plain names N ctx devs s vs) :
    ∃ s', Step P K names rnd tr N ctx devs p s s' ∧ Inv P Plain names N ctx devs s' vs' ∧ s'.vars.map Prod.snd = Δ' := by
  cases hpl with
  | put d vt v _ hu =>
    obtain ⟨dev, hl, hko⟩ := hu
    simp only [plainStmt, Option.some.injEq] at hv
    subst hv
    obtain ⟨hok, hasc⟩ := hdevs d dev hl
    by_cases hk : dev.kind = .spu
    · obtain ⟨k, ms⟩ := dev
      simp only at hk
      subst hk
      obtain ⟨tys', σ', e1, e2, e3, e4⟩ := spuStep_ok hK names rnd hok (hasc rfl) hi.len (fun _ => some [v]) [vt] (xs := []) (vs := []) .nil rfl rfl
        (by simpa using hplain v (by simp))
      obtain ⟨vt', hon⟩ := e4 0 v rfl
      refine ⟨_, .putSpu d vt v s _ tys' σ' hl rfl e1, ⟨e2, cacheOk_has e3 hi.cache, ?_⟩, by simp⟩
      exact List.rel_append (hi.vars.imp (fun _ _ h => varOk_keep e3 h)) (.cons ⟨_, vt', hl, hon⟩ .nil)
    · have hk' : dev.kind = .ppu ∨ dev.kind = .tee := by cases h : dev.kind <;> simp_all
      obtain ⟨y, b', σ', e1, e2, e3⟩ := put_host_ok P names tr (b := (⟨s.tys, []⟩ : Bld V T)) hi.len dev hok hk' vt v
      refine ⟨_, .putPlain d vt v s dev y b' (trim N σ') hl e1 (segRuns_of_cont hi.len e2), ⟨trim_len (e2.len hi.len), cacheOk_has (keep_seg e2) hi.cache, ?_⟩, by simp⟩
      exact List.rel_append (hi.vars.imp (fun _ _ h => varOk_keep (keep_seg e2) h))
        (.cons ⟨dev, vt, hl, onDevice_has has_base e3⟩ .nil)
  | move d x _ d0 hx hu hre =>
    obtain ⟨dev, hl, hko⟩ := hu
    simp only [plainStmt, Option.map_eq_some_iff] at hv
    obtain ⟨v, hvx, hv⟩ := hv
    subst hv
    have hil := (List.getElem?_eq_some_iff.1 hvx).1
    have hil' : x < s.vars.length := hi.vars.length_eq ▸ hil
    have hg := (List.forall₂_iff_get.1 hi.vars).2 x hil' hil
    have hve : vs[x] = v := (List.getElem?_eq_some_iff.1 hvx).2
    simp only [List.get_eq_getElem] at hg
    have hd0 : s.vars[x].2 = d0 := by
      simp only [List.getElem?_map, List.getElem?_eq_getElem hil', Option.map_some, Option.some.injEq] at hx
      exact hx
    have hpv : Plain v := hplain v (by simp)
    obtain ⟨xs, c', b', σ', e1, e2, e3, e4⟩ := moveArgs_ok hP names rnd tr hdevs hl [s.vars[x]] [v] s.cache (⟨s.tys, []⟩ : Bld V T) s.σ hi.len
      hi.cache (by simpa using hpv) (.cons (by rw [hve] at hg; exact hg) .nil) (by
        intro e he
        simp only [List.mem_singleton] at he
        rw [he, hd0]; exact hre)
    cases e4 with
    | @cons y _ _ _ h1 h2 =>
    cases h2
    obtain ⟨vt, hon⟩ := h1
    have e1' : d2d P names rnd ctx devs d s.vars[x].2 s.vars[x].1 s.cache (⟨s.tys, []⟩ : Bld V T) = some (y, c', b') := by
      simp only [moveArgs] at e1
      cases h : d2d P names rnd ctx devs d s.vars[x].2 s.vars[x].1 s.cache (⟨s.tys, []⟩ : Bld V T) with
      | none => rw [h] at e1; simp at e1
      | some r =>
        rw [h] at e1
        simp only [Option.bind_some, Option.map_some, Option.some.injEq, Prod.mk.injEq, List.cons.injEq, and_true] at e1
        obtain ⟨q1, q2, q3⟩ := r
        simp only at e1
        obtain ⟨rfl, rfl, rfl⟩ := e1
        rfl
    refine ⟨_, .move d x s s.vars[x] dev y c' b' (trim N σ') (by simp [hil']) hl e1' (segRuns_of_cont hi.len e2),
      ⟨trim_len (e2.len hi.len), cacheOk_has has_base e3, ?_⟩, by simp⟩
    exact List.rel_append (hi.vars.imp (fun _ _ h => varOk_keep (keep_seg e2) h))
      (.cons ⟨dev, vt, hl, onDevice_has has_base hon⟩ .nil)
  | call dev f outs args _ ds d hds hrun hu hre =>
    obtain ⟨dv, hl, hko⟩ := hu
    obtain ⟨hok, hasc⟩ := hdevs d dv hl
    simp only [plainStmt] at hv
    cases hpk : pick vs args with
    | none => rw [hpk] at hv; simp at hv
    | some us =>
      rw [hpk] at hv
      simp only [Option.bind_some] at hv
      cases hf : f us with
      | none => rw [hf] at hv; simp at hv
      | some ws =>
        rw [hf] at hv
        simp only [Option.bind_some] at hv
        by_cases hw : ws.length = outs.length
        · rw [if_pos hw] at hv
          simp only [Option.some.injEq] at hv
          subst hv
          obtain ⟨as, e1, e2, e3⟩ := pick_vars hi.vars hpk
          rw [hds] at e3
          simp only [Option.some.injEq] at e3
          subst e3
          have husp : ∀ v ∈ us, Plain v := by
            intro v hvm
            have : v ∈ vs := mem_pick hpk v hvm
            exact hplain v (by simp [this])
          obtain ⟨xs, c', b1, σ1, g1, g2, g3, g4⟩ := moveArgs_ok hP names rnd tr hdevs hl as us s.cache (⟨s.tys, []⟩ : Bld V T) s.σ hi.len
            hi.cache husp e2 (fun e he => hre e.2 (List.mem_map_of_mem he))
          obtain ⟨tys', σ', k1, k2, k3, k4⟩ := runOn_ok hK names rnd tr hok hasc hko (tys := b1.tys) (trim_len (g2.len hi.len)) f outs
            (g4.imp (fun _ _ ⟨vt, h⟩ => ⟨vt, onDevice_has has_base h⟩)) hf hw (fun w hwm => hplain w (by simp [hwm]))
          refine ⟨_, .call dev f outs args s as d dv xs c' b1 (trim N σ1) tys' σ' e1 ((resolves_iff _ _ _ _).2 hrun) hl g1 (segRuns_of_cont hi.len g2) k1,
            ⟨k2, cacheOk_has (fun x t f h => k3 x t f (has_base x t f h)) g3, ?_⟩, ?_⟩
          · refine List.rel_append (hi.vars.imp (fun _ _ h => varOk_keep k3 (varOk_keep (keep_seg g2) h))) ?_
            refine forall₂_of_get (by simp [hw]) (fun i a w ha hwi => ?_)
            simp only [List.getElem?_map, Option.map_eq_some_iff] at ha
            obtain ⟨j, hj, rfl⟩ := ha
            have : j = i := by
              have := (List.getElem?_eq_some_iff.1 hj).2
              simpa using this.symm
            subst this
            obtain ⟨vt, hon⟩ := k4 j w hwi
            exact ⟨dv, vt, hl, hon⟩
          · simp only [List.map_append, List.map_map, Function.comp_def]
            congr 1
            refine List.ext_getElem (by simp) (fun i h1 h2 => by simp)
        · rw [if_neg hw] at hv
          simp at hv

theorem segRuns_unique {tr : V → Bool} {N : Nat} {b : Bld V T} {σ σ1 σ2 : Nat → List (LV V)} (h1 : SegRuns tr N b σ σ1) (h2 : SegRuns tr N b σ σ2) :
    σ1 = σ2 := by
  have hc : Symm (fun _ _ => 0) := fun _ _ => rfl
  obtain ⟨f1, g1⟩ := h1 _ hc
  obtain ⟨f2, g2⟩ := h2 _ hc
  obtain ⟨t1, a1, r1, o1⟩ := g1 (max f1 f2) (by omega)
  obtain ⟨t2, a2, r2, o2⟩ := g2 (max f1 f2) (by omega)
  have ht : t1 = t2 := by
    obtain ⟨ht1, n1, e1⟩ := a1
    obtain ⟨_, n2, e2⟩ := a2
    obtain ⟨_, ⟨rest, hr, _⟩, _⟩ := e1 [] _ rfl
    exact ((e2 rest t1 hr).2.2 ht1).1
  subst ht
  funext p
  by_cases hp : p < N
  · have := (r1 p hp).symm.trans (r2 p hp)
    simpa using this
  · rw [o1 p (by omega), o2 p (by omega)]

theorem resolves_unique {devs : List (String × Dev)} {dev : Option String} {ds : List String} {d d' : String}
    (h : Resolves devs dev ds d) (h' : Resolves devs dev ds d') : d = d' := by
  cases dev with
  | some d0 => exact h.trans (Eq.symm h')
  | none =>
    obtain ⟨l, h1, h2⟩ := h
    obtain ⟨l', h1', h2'⟩ := h'
    have := infer_order true (some (kindMap devs)) _ _ l l' h1 h1' (fun _ => Iff.rfl)
    rw [h2, h2'] at this
    exact Option.some.inj this

theorem runOn_unique {K : Kernel V} {names : TyNames T} {rnd : Nat → Nat} {tr : V → Bool} {N : Nat} {dev : Dev} {f : List V → Option (List V)}
    {outs : List T} {xs : List Nat} {tys t1 t2 : List (Simp.Ty T)} {σ σ1 σ2 : Nat → List (LV V)}
    (h1 : RunOn K names rnd tr N dev f outs xs tys σ t1 σ1) (h2 : RunOn K names rnd tr N dev f outs xs tys σ t2 σ2) : t1 = t2 ∧ σ1 = σ2 := by
  obtain ⟨k, ms⟩ := dev
  have main : (∃ r ys b', ms = [r] ∧ pcallStatic [r] (lift f) outs xs (⟨tys, []⟩ : Bld V T) = some (ys, b') ∧ b'.tys = t1 ∧ SegRuns tr N b' σ σ1) →
      (∃ r ys b', ms = [r] ∧ pcallStatic [r] (lift f) outs xs (⟨tys, []⟩ : Bld V T) = some (ys, b') ∧ b'.tys = t2 ∧ SegRuns tr N b' σ σ2) →
      t1 = t2 ∧ σ1 = σ2 := by
    rintro ⟨r, ys, b, e1, e2, e3, e4⟩ ⟨r', ys', b', e1', e2', e3', e4'⟩
    rw [e1] at e1'
    cases e1'
    rw [e2] at e2'
    cases e2'
    exact ⟨e3.symm.trans e3', segRuns_unique e4 e4'⟩
  cases k with
  | spu =>
    simp only [RunOn] at h1 h2
    rw [h1] at h2
    cases h2
    exact ⟨rfl, rfl⟩
  | ppu => exact main h1 h2
  | tee => exact main h1 h2
  | other => exact h1.elim

theorem step_det {P : Prims V} {K : Kernel V} {names : TyNames T} {rnd : Nat → Nat} {tr : V → Bool} {N ctx : Nat} {devs : List (String × Dev)}
    {p : Stmt V T} {s s1 s2 : St V T} (h1 : Step P K names rnd tr N ctx devs p s s1) (h2 : Step P K names rnd tr N ctx devs p s s2) : s1 = s2 := by
  cases h1 with
  | putPlain d vt v _ dev y b' σ' e1 e2 e3 =>
    cases h2 with
    | putPlain _ _ _ _ dev2 y2 b2 σ2 f1 f2 f3 =>
      rw [e1] at f1; cases f1
      rw [e2] at f2; cases f2
      rw [segRuns_unique e3 f3]
    | putSpu _ _ _ _ dev2 tys2 σ2 f1 f2 f3 =>
      rw [e1] at f1; cases f1
      obtain ⟨k, ms⟩ := dev
      simp only at f2
      subst f2
      simp [putHost] at e2
  | putSpu d vt v _ dev tys' σ' e1 e2 e3 =>
    cases h2 with
    | putPlain _ _ _ _ dev2 y2 b2 σ2 f1 f2 f3 =>
      rw [e1] at f1; cases f1
      obtain ⟨k, ms⟩ := dev
      simp only at e2
      subst e2
      simp [putHost] at f2
    | putSpu _ _ _ _ dev2 tys2 σ2 f1 f2 f3 =>
      rw [e1] at f1; cases f1
      rw [e3] at f3; cases f3
      rfl
  | move d x _ e dev y c' b' σ' e1 e2 e3 e4 =>
    cases h2 with
    | move _ _ _ e' dev2 y2 c2 b2 σ2 f1 f2 f3 f4 =>
      rw [e1] at f1; cases f1
      rw [e3] at f3; cases f3
      rw [segRuns_unique e4 f4]
  | call dev f outs args _ as d dv xs c' b1 σ1 tys' σ' e1 e2 e3 e4 e5 e6 =>
    cases h2 with
    | call _ _ _ _ _ as2 d2 dv2 xs2 c2 b2 σ2 tys2 σ3 f1 f2 f3 f4 f5 f6 =>
      rw [e1] at f1; cases f1
      have hd := resolves_unique e2 f2
      subst hd
      rw [e3] at f3; cases f3
      rw [e4] at f4; cases f4
      have hs := segRuns_unique e5 f5
      subst hs
      obtain ⟨h1, h2⟩ := runOn_unique e6 f6
      subst h1; subst h2
      rfl

/-- what a successful transfer tells about the devices -/
theorem d2d_reaches {P : Prims V} {names : TyNames T} {rnd : Nat → Nat} {ctx : Nat} {devs : List (String × Dev)} {toId frmId : String} {x : Nat}
    {cache : Cache} {b : Bld V T} {r : Nat × Cache × Bld V T} (h : d2d P names rnd ctx devs toId frmId x cache b = some r) :
    Reaches devs frmId toId := by
  by_cases hne : frmId = toId
  · exact .inl hne
  · refine .inr ?_
    by_contra hcon
    have := transfer_rejected P names rnd ctx devs toId frmId x cache b hne (fun frm dst h1 h2 hs => hcon ⟨frm, dst, h1, h2, hs⟩)
    rw [this] at h
    simp at h

theorem moveArgs_reaches {P : Prims V} {names : TyNames T} {rnd : Nat → Nat} {ctx : Nat} {devs : List (String × Dev)} {toId : String}
    (as : List (Nat × String)) : ∀ {cache : Cache} {b : Bld V T} {r}, moveArgs P names rnd ctx devs toId as cache b = some r →
    ∀ e ∈ as, Reaches devs e.2 toId := by
  induction as with
  | nil => intro cache b r _ e he; simp at he
  | cons a as ih =>
    intro cache b r h e he
    simp only [moveArgs] at h
    cases hd : d2d P names rnd ctx devs toId a.2 a.1 cache b with
    | none => rw [hd] at h; simp at h
    | some q =>
      rw [hd] at h
      simp only [Option.bind_some] at h
      cases hm : moveArgs P names rnd ctx devs toId as q.2.1 q.2.2 with
      | none => rw [hm] at h; simp at h
      | some q2 =>
        rcases List.mem_cons.1 he with rfl | he
        · exact d2d_reaches hd
        · exact ih hm e he

theorem pick_map {α β : Type} (g : α → β) {env : List α} : ∀ {is : List Nat} {r : List α}, pick env is = some r → pick (env.map g) is = some (r.map g)
  | [], r, h => by simp only [pick, Option.some.injEq] at h; subst h; rfl
  | i :: is, r, h => by
    simp only [pick] at h
    split at h
    · next x xs h1 h2 =>
      simp only [Option.some.injEq] at h
      subst h
      simp [pick, h1, pick_map g h2]
    · simp at h

theorem step_places {P : Prims V} {K : Kernel V} {names : TyNames T} {rnd : Nat → Nat} {tr : V → Bool} {N ctx : Nat} {devs : List (String × Dev)}
    {p : Stmt V T} {s s' : St V T} (hu : ∀ d ∈ s.vars.map Prod.snd, Usable devs d) (h : Step P K names rnd tr N ctx devs p s s') :
    Places devs p (s.vars.map Prod.snd) (s'.vars.map Prod.snd) ∧ ∀ d ∈ s'.vars.map Prod.snd, Usable devs d := by
  have last : ∀ (l : List String) (d : String) (n : Nat), (∀ d ∈ l, Usable devs d) → Usable devs d → ∀ d' ∈ l ++ List.replicate n d, Usable devs d' := by
    intro l d n h1 h2 d' hd
    rcases List.mem_append.1 hd with hd | hd
    · exact h1 d' hd
    · rw [(List.mem_replicate.1 hd).2]; exact h2
  cases h with
  | putPlain d vt v _ dev y b' σ' e1 e2 e3 =>
    have hud : Usable devs d := ⟨dev, e1, by
      obtain ⟨k, ms⟩ := dev
      rintro rfl
      simp [putHost] at e2⟩
    refine ⟨?_, by simpa using last _ d 1 hu hud⟩
    simpa using Places.put d vt v (s.vars.map Prod.snd) hud
  | putSpu d vt v _ dev tys' σ' e1 e2 e3 =>
    have hud : Usable devs d := ⟨dev, e1, by rw [e2]; simp⟩
    refine ⟨?_, by simpa using last _ d 1 hu hud⟩
    simpa using Places.put d vt v (s.vars.map Prod.snd) hud
  | move d x _ e dev y c' b' σ' e1 e2 e3 e4 =>
    have hre := d2d_reaches e3
    have hem : e.2 ∈ s.vars.map Prod.snd := List.mem_map_of_mem (List.mem_of_getElem? e1)
    have hud : Usable devs d := by
      rcases hre with h | ⟨da, db, ha, hb, hs⟩
      · rw [← h]; exact hu _ hem
      · refine ⟨db, hb, ?_⟩
        intro hk
        rw [hk] at hs
        simp [Supported] at hs
    refine ⟨?_, by simpa using last _ d 1 hu hud⟩
    simpa using Places.move (T := T) (V := V) d x (s.vars.map Prod.snd) e.2 (by simp [e1]) hud hre
  | call dev f outs args _ as d dv xs c' b1 σ1 tys' σ' e1 e2 e3 e4 e5 e6 =>
    have hud : Usable devs d := ⟨dv, e3, by
      obtain ⟨k, ms⟩ := dv
      rintro rfl
      exact e6.elim⟩
    have hvs : (s.vars ++ (List.range outs.length).map (fun i => (b1.tys.length + i, d))).map Prod.snd =
        s.vars.map Prod.snd ++ List.replicate outs.length d := by
      simp only [List.map_append, List.map_map, Function.comp_def]
      congr 1
      exact List.ext_getElem (by simp) (fun i h1 h2 => by simp)
    refine ⟨?_, by rw [hvs]; exact last _ d _ hu hud⟩
    rw [hvs]
    refine Places.call dev f outs args _ (as.map Prod.snd) d (pick_map Prod.snd e1) ((resolves_iff _ _ _ _).1 e2) hud ?_
    intro a ha
    obtain ⟨e, he, rfl⟩ := List.mem_map.1 ha
    exact moveArgs_reaches as e4 e he

theorem exec_det {P : Prims V} {K : Kernel V} {names : TyNames T} {rnd : Nat → Nat} {tr : V → Bool} {N ctx : Nat} {devs : List (String × Dev)}
    {ps : List (Stmt V T)} {s s1 s2 : St V T} (h1 : Exec P K names rnd tr N ctx devs ps s s1) (h2 : Exec P K names rnd tr N ctx devs ps s s2) : s1 = s2 := by
  induction h1 with
  | nil => cases h2; rfl
  | cons p ps s a b hs _ ih =>
    cases h2 with
    | cons _ _ _ a' _ hs' h' =>
      have := step_det hs hs'
      subst this
      exact ih h'

theorem plain_mono {ps : List (Stmt V T)} : ∀ {vs vs' : List V}, plainProg ps vs = some vs' → ∀ v ∈ vs, v ∈ vs' := by
  induction ps with
  | nil => intro vs vs' h v hv; simp only [plainProg, Option.some.injEq] at h; exact h ▸ hv
  | cons p ps ih =>
    intro vs vs' h v hv
    simp only [plainProg] at h
    cases hp : plainStmt p vs with
    | none => rw [hp] at h; simp at h
    | some us =>
      rw [hp] at h
      refine ih h v ?_
      cases p with
      | put d vt w => simp only [plainStmt, Option.some.injEq] at hp; subst hp; simp [hv]
      | move d x =>
        simp only [plainStmt, Option.map_eq_some_iff] at hp
        obtain ⟨w, _, rfl⟩ := hp
        simp [hv]
      | call dev f outs args =>
        simp only [plainStmt] at hp
        cases hb : (pick vs args).bind f with
        | none => rw [hb] at hp; simp at hp
        | some ws =>
          rw [hb] at hp
          simp only [Option.bind_some] at hp
          split at hp
          · simp only [Option.some.injEq] at hp; subst hp; simp [hv]
          · simp at hp

theorem program_ok {P : Prims V} {Plain : V → Prop} (hP : Contracts P Plain) {K : Kernel V} (hK : KernelOk P Plain K) (names : TyNames T)
    (rnd : Nat → Nat) (tr : V → Bool) {N ctx : Nat} {devs : List (String × Dev)} (hdevs : ClusterOk N devs) {ps : List (Stmt V T)} :
    ∀ {s : St V T} {vs vs' : List V} {Δ' : List String}, PlacesAll devs ps (s.vars.map Prod.snd) Δ' → plainProg ps vs = some vs' →
    (∀ v ∈ vs', Plain v) → Inv P Plain names N ctx devs s vs →
    ∃ s', Exec P K names rnd tr N ctx devs ps s s' ∧ Inv P Plain names N ctx devs s' vs' ∧ s'.vars.map Prod.snd = Δ' := by
  induction ps with
  | nil =>
    intro s vs vs' Δ' h hv _ hi
    cases h
    simp only [plainProg, Option.some.injEq] at hv
    exact ⟨s, .nil s, hv ▸ hi, rfl⟩
  | cons p ps ih =>
    intro s vs vs' Δ' h hv hpl hi
    cases h with
    | cons _ _ _ Δ1 _ h1 h2 =>
      simp only [plainProg] at hv
      cases hp : plainStmt p vs with
      | none => rw [hp] at hv; simp at hv
      | some us =>
        rw [hp] at hv
        simp only [Option.bind_some] at hv
        obtain ⟨s1, e1, e2, e3⟩ := step_ok hP hK names rnd tr hdevs h1 hp (fun v hvm => hpl v (plain_mono hv v hvm)) hi
        subst e3
        obtain ⟨s', f1, f2, f3⟩ := ih h2 hv hpl e2
        exact ⟨s', .cons p ps s s1 s' e1 f1, f2, f3⟩

/-! ## C108 -/

/-- The state before the first statement: nothing held by anybody, no session cached for this context. -/
def start (cache : Cache) : St V T := ⟨[], fun _ => [], cache, []⟩

/-- **C108** (proved for clusters whose SPU member lists are ascending; otherwise see `spu_order_violated`).  A device program
whose placement is defined and whose plain meaning is defined runs to completion in every schedule, with one and the same outcome:
every variable lives on the device the placement rules give it, its plaintext there is the plain value, and fetching it (PPU, TEE)
returns the plain value. -/
theorem device_program_partial {P : Prims V} {Plain : V → Prop} (hP : Contracts P Plain) {K : Kernel V} (hK : KernelOk P Plain K) (names : TyNames T)
    (rnd : Nat → Nat) (tr : V → Bool) {N ctx : Nat} {devs : List (String × Dev)} (hdevs : ClusterOk N devs) {cache : Cache}
    (hc : ∀ k f s, cacheGet k cache ≠ some (ctx, f, s)) {ps : List (Stmt V T)} {vs : List V} {Δ : List String}
    (hplace : PlacesAll devs ps [] Δ) (hplain : plainProg ps [] = some vs) (hvs : ∀ v ∈ vs, Plain v) :
    ∃ s', Exec P K names rnd tr N ctx devs ps (start cache) s' ∧
      (∀ s'', Exec P K names rnd tr N ctx devs ps (start cache) s'' → s'' = s') ∧ s'.vars.length = vs.length ∧ s'.vars.map Prod.snd = Δ ∧
      ∀ (i : Nat) v, vs[i]? = some v → ∃ x d dev vt, s'.vars[i]? = some (x, d) ∧ Δ[i]? = some d ∧ lookup d devs = some dev ∧
        OnDevice P names N ⟨s'.tys, []⟩ s'.σ x vt dev v ∧ (dev.kind ≠ .spu → fetch dev (fun p => ((s'.σ p)[x]?).join) = some v) := by
  obtain ⟨s', e1, e2, e3⟩ := program_ok hP hK names rnd tr hdevs (s := start cache) (vs := []) hplace hplain hvs
    ⟨fun p _ => rfl, fun p t f s h => absurd h (hc _ _ _), .nil⟩
  refine ⟨s', e1, fun s'' h => exec_det h e1, e2.vars.length_eq, e3, fun i v hv => ?_⟩
  have hil := (List.getElem?_eq_some_iff.1 hv).1
  have hil' : i < s'.vars.length := e2.vars.length_eq ▸ hil
  have hg := (List.forall₂_iff_get.1 e2.vars).2 i hil' hil
  simp only [List.get_eq_getElem] at hg
  obtain ⟨dev, vt, hl, hon⟩ := hg
  rw [(List.getElem?_eq_some_iff.1 hv).2] at hon
  refine ⟨s'.vars[i].1, s'.vars[i].2, dev, vt, by simp [hil'], by rw [← e3]; simp [hil'], hl, hon, fun hk => ?_⟩
  refine fetch_plain (hdevs _ _ hl).1 hon hk _ (fun p hp => ?_)
  obtain ⟨k, ms⟩ := dev
  have hval : ∃ a, (s'.σ p)[s'.vars[i].1]? = some a := by
    cases k with
    | spu => exact absurd rfl hk
    | other => exact hon.elim
    | ppu => obtain ⟨r, _, hat⟩ := hon; exact ⟨_, hat.val p hp⟩
    | tee => obtain ⟨r, _, hat⟩ := hon; exact ⟨_, hat.val p hp⟩
  obtain ⟨a, ha⟩ := hval
  rw [ha]; rfl

/-- **C108, placement.** Conversely, a program that runs to completion obeyed the placement rules: a call whose device cannot be
determined, a transfer between kinds that are not supported and an unknown device always raise. -/
theorem placement_sound {P : Prims V} {K : Kernel V} {names : TyNames T} {rnd : Nat → Nat} {tr : V → Bool} {N ctx : Nat} {devs : List (String × Dev)}
    {cache : Cache} {ps : List (Stmt V T)} {s' : St V T} (h : Exec P K names rnd tr N ctx devs ps (start cache) s') :
    PlacesAll devs ps [] (s'.vars.map Prod.snd) := by
  have gen : ∀ s, Exec P K names rnd tr N ctx devs ps s s' → (∀ d ∈ s.vars.map Prod.snd, Usable devs d) →
      PlacesAll devs ps (s.vars.map Prod.snd) (s'.vars.map Prod.snd) := by
    intro s h hu
    clear * - h hu
    induction h with
    | nil => exact .nil _
    | cons p ps s s1 s2 hs _ ih =>
      obtain ⟨h1, h2⟩ := step_places hu hs
      exact .cons p ps _ _ _ h1 (ih h2)
  exact gen _ h (by simp [start])

end

/-! ### Concrete instances -/

/-- a cluster of the toy scheme with ascending SPU members -/
def progDevs : List (String × Dev) := [("P0", ⟨.ppu, [0]⟩), ("P1", ⟨.ppu, [1]⟩), ("SP0", ⟨.spu, [0, 1]⟩), ("T0", ⟨.tee, [2]⟩)]

/-- x on P0, y on P1, their sum on the (inferred: SP0) secure device, its double on the TEE through P1 -/
def progEx : List (Stmt Int Nat) :=
  [.put "P0" 0 20, .put "P1" 0 22, .move "SP0" 0, .call none (fun vs => some [vs.sum]) [0] [2, 1], .move "P1" 3,
   .call (some "T0") (fun vs => some [2 * vs.sum]) [0] [4]]

theorem progCluster : ClusterOk 3 progDevs := by
  intro d dev h
  simp only [progDevs, Verif.Store.lookup] at h
  repeat' split at h
  all_goals first
    | (simp at h; done)
    | (simp only [Option.some.injEq] at h; subst h
       refine ⟨⟨by simp, by simp, by simp, by simp⟩, by simp⟩)

example : plainProg progEx [] = some [20, 22, 20, 42, 42, 84] := by decide

example : PlacesAll progDevs progEx [] ["P0", "P1", "SP0", "SP0", "P1", "T0"] := by
  have u : ∀ d dev, lookup d progDevs = some dev → dev.kind ≠ .other → Usable progDevs d := fun d dev h1 h2 => ⟨dev, h1, h2⟩
  refine .cons _ _ _ _ _ (.put _ _ _ _ (u "P0" ⟨.ppu, [0]⟩ rfl (by simp))) ?_
  refine .cons _ _ _ _ _ (.put _ _ _ _ (u "P1" ⟨.ppu, [1]⟩ rfl (by simp))) ?_
  refine .cons _ _ _ _ _ (.move _ _ _ "P0" rfl (u "SP0" ⟨.spu, [0, 1]⟩ rfl (by simp)) (.inr ⟨_, _, rfl, rfl, by simp [Supported]⟩)) ?_
  refine .cons _ _ _ _ _ (.call none _ _ _ _ ["SP0", "P1"] "SP0" rfl ?_ (u "SP0" ⟨.spu, [0, 1]⟩ rfl (by simp)) ?_) ?_
  · refine (infer_iff _ _ _ ["SP0", "P1"] ⟨by decide, fun d => by simp⟩ _).1 rfl
  · intro a ha
    simp only [List.mem_cons, List.not_mem_nil, or_false] at ha
    rcases ha with rfl | rfl
    · exact .inl rfl
    · exact .inr ⟨_, _, rfl, rfl, by simp [Supported]⟩
  refine .cons _ _ _ _ _ (.move _ _ _ "SP0" rfl (u "P1" ⟨.ppu, [1]⟩ rfl (by simp)) (.inr ⟨_, _, rfl, rfl, by simp [Supported]⟩)) ?_
  refine .cons _ _ _ _ _ (.call (some "T0") _ _ _ _ ["P1"] "T0" rfl rfl (u "T0" ⟨.tee, [2]⟩ rfl (by simp)) ?_) (.nil _)
  intro a ha
  simp only [List.mem_singleton] at ha
  subst ha
  exact .inr ⟨_, _, rfl, rfl, by simp [Supported]⟩

/-- the contracts are met by the toy scheme and the ideal kernel -/
example : KernelOk toyPrims (fun _ => True) (idealKernel toyPrims) := idealKernel_ok toyContracts

/-- A sharing scheme in which the order of the shares matters: the first share minus the others. -/
def ordPrims : Prims Int :=
  { toyPrims with
    makeShares := fun s v n => match n with
      | 0 => []
      | n + 1 => (v + (List.replicate n (s : Int)).sum) :: List.replicate n (s : Int)
    reconstruct := fun l => match l with
      | [] => none
      | a :: l => some (a - l.sum) }

theorem ordContracts : Contracts ordPrims (fun _ => True) where
  shares_len s v n := by cases n <;> simp [ordPrims]
  shares_open s v n _ h := by
    cases n with
    | zero => omega
    | succ n => simp [ordPrims]
  attest_quote := toyContracts.attest_quote
  session := toyContracts.session

/-- **C108 violated** for an SPU whose members are listed in another order than by rank: the shares are dealt and gathered in member
order (api.py:505-564), but the kernel runs in rank order.  With the order-sensitive scheme above and a kernel that meets its
contract, the value 5 on the SPU with members [1, 0] is incremented to 4. -/
theorem spu_order_violated : KernelOk ordPrims (fun _ => True) (idealKernel ordPrims) ∧ DevOk 2 ⟨.spu, [1, 0]⟩ ∧
    ∃ (tys : List (Simp.Ty Nat)) (σ : Nat → List (LV Int)) (tys' : List (Simp.Ty Nat)) (σ' : Nat → List (LV Int)),
      OnDevice ordPrims toyNames 2 ⟨tys, []⟩ σ 0 0 ⟨.spu, [1, 0]⟩ 5 ∧
      spuStep (idealKernel ordPrims) toyNames (fun n => n) [1, 0] (fun vs => some [vs.sum + 1]) [0] [0] tys σ = some (tys', σ') ∧
      OnDevice ordPrims toyNames 2 ⟨tys', []⟩ σ' 1 0 ⟨.spu, [1, 0]⟩ 4 ∧ ¬ OnDevice ordPrims toyNames 2 ⟨tys', []⟩ σ' 1 0 ⟨.spu, [1, 0]⟩ 6 := by
  refine ⟨idealKernel_ok ordContracts, ⟨by simp, by simp, by simp, by simp⟩, [⟨10, some [0, 1]⟩],
    fun p => [if p = 1 then some 8 else if p = 0 then some 3 else none],
    [⟨10, some [0, 1]⟩, ⟨10, some [0, 1]⟩],
    fun p => [if p = 1 then some 8 else if p = 0 then some 3 else none] ++ ownShares [0, 1] [[-3, 1]] p, ?_, ?_, ?_, ?_⟩
  · refine ⟨fun p => if p = 1 then some 8 else if p = 0 then some 3 else none, ⟨rfl, fun p _ => rfl⟩, ?_, [8, 3], rfl, rfl⟩
    intro p hp hm
    simp only [List.mem_cons, List.not_mem_nil, or_false, not_or] at hm
    simp [hm.1, hm.2]
  · rfl
  · refine ⟨fun p => if p = 1 then some 1 else if p = 0 then some (-3) else none, ⟨rfl, fun p hp => ?_⟩, ?_, [1, -3], rfl, rfl⟩
    · have : p = 0 ∨ p = 1 := by omega
      rcases this with rfl | rfl <;> rfl
    · intro p hp hm
      simp only [List.mem_cons, List.not_mem_nil, or_false, not_or] at hm
      simp [hm.1, hm.2]
  · rintro ⟨g, hg, _, shares, hs, hr⟩
    have h1 : g 1 = some 1 := (Option.some.inj (hg.val 1 (by omega))).symm
    have h0 : g 0 = some (-3) := (Option.some.inj (hg.val 0 (by omega))).symm
    simp only [List.map_cons, List.map_nil, h1, h0] at hs
    match shares, hs with
    | [a, b], hs =>
      simp only [List.map_cons, List.map_nil, List.cons.injEq, Option.some.injEq, and_true] at hs
      obtain ⟨rfl, rfl⟩ := hs
      simp [ordPrims] at hr

end Verif.Device
