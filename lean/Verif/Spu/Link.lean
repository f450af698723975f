import Verif.Spu.Config
import Mathlib.Logic.Function.Basic
/-!
# C81 — SPU runtimes and links of one worker (backends/spu_state.py, backends/simp_worker/infra.py:82-108)

One worker process: template links shared by all requests (`WorkerInfra`) and one `SPUState` per request (`job`). A
`SPUState` without infra is the special case of one job. A link is what it was created from: its own rank, and either
the endpoint list with the brpc options, or one channel per peer, or the in-memory group. `link.spawn()` of libspu is
modelled as numbering: the n-th spawn of a template has number n, and (contract of libspu, not in the repo) messages on
a spawned link meet the peer's spawned link of the same number. Creation is under a lock (infra.py:98-101), so a call is
one atomic step here; python's `==` on keys is equality of settings.
-/
namespace Verif.Spu

/-- link mode (spu_state.py:254-259) -/
inductive Mode
  | brpc | channels | mem
deriving DecidableEq

/-- arguments of `SPUState.get_or_create` (spu_state.py:217-225); a communicator is its identity -/
structure Call (V : Type) where
  rank : Nat
  size : Nat
  cfg : Config V
  endpoints : Option (List String)
  comm : Option Nat
  parties : Option (List Nat)

/-- `if spu_endpoints` (a non-empty list), else the communicator, else memory (spu_state.py:254-259) -/
def Call.mode {V : Type} (c : Call V) : Mode :=
  match c.endpoints with
  | some (_ :: _) => .brpc
  | _ => match c.comm with
    | some _ => .channels
    | none => .mem

/-- part of the cache keys that does not depend on the own rank (spu_state.py:264-272) -/
structure KeyRest (V : Type) where
  size : Nat
  protocol : V
  field : V
  fxp : V
  mode : Mode
  endpoints : Option (List String)
  brpc : Option (Brpc V)
deriving DecidableEq

/-- `link_cache_key` (spu_state.py:264-273) -/
structure LinkKey (V : Type) where
  rank : Nat
  rest : KeyRest V
deriving DecidableEq

/-- `runtime_cache_key`: the link key and the four profiling flags (spu_state.py:274-287) -/
structure RtKey (V : Type) where
  link : LinkKey V
  flags : Bool × Bool × Bool × Bool
deriving DecidableEq

/-- `tuple(spu_endpoints) if spu_endpoints else None` -/
def Call.eps {V : Type} (c : Call V) : Option (List String) :=
  match c.endpoints with
  | some (e :: es) => some (e :: es)
  | _ => none

def Call.linkKey {V : Type} (dflt : Brpc V) (c : Call V) : LinkKey V :=
  ⟨c.rank, c.size, c.cfg.protocol, c.cfg.field, c.cfg.fxp, c.mode, c.eps,
    if c.mode = .brpc then some (effective dflt c.cfg) else none⟩

def Call.rtKey {V : Type} (dflt : Brpc V) (c : Call V) : RtKey V :=
  ⟨c.linkKey dflt, c.cfg.pphloProfile, c.cfg.halProfile, c.cfg.pphloTrace, c.cfg.actionTrace⟩

/-- `BaseChannel` (channel.py:50-73) -/
structure Channel where
  comm : Nat
  self : Nat
  peer : Nat
deriving DecidableEq

/-- a template link: what `libspu.link.create_*` was called with -/
inductive Link (V : Type)
  | brpc (rank : Nat) (endpoints : List String) (cfg : Brpc V)
  | channels (rank : Nat) (chans : List (Option Channel))
  | mem (rank size : Nat)
deriving DecidableEq

/-- `_create_channels_link` (spu_state.py:315-355): one channel per party, none for the own index; `parties[local_rank]`
and the party names raise when the list is too short -/
def channelsLink {V : Type} (rank size comm : Nat) (parties : List Nat) : Option (Link V) :=
  match parties[rank]? with
  | none => none
  | some me =>
    if size ≤ parties.length then
      some (.channels rank (parties.zipIdx.map fun p => if p.2 = rank then none else some ⟨comm, me, p.1⟩))
    else none

/-- `_create` inside `_get_template_link` (spu_state.py:195-207), with the creators at 303-312 and 357-374 -/
def Call.create {V : Type} (dflt : Brpc V) (c : Call V) : Option (Link V) :=
  match c.eps with
  | some es => some (.brpc c.rank es (effective dflt c.cfg))
  | none => match c.comm with
    | some w => match c.parties with
      | none => none
      | some ps => channelsLink c.rank c.size w ps
    | none => some (.mem c.rank c.size)

/-- an SPU runtime: the template it was spawned from, the number of the spawn, and its runtime configuration
(`to_runtime_config`, spu_impl.py:108-124) -/
structure Runtime (V : Type) where
  tmpl : LinkKey V
  link : Link V
  child : Nat
  protocol : V
  field : V
  fxp : V
  flags : Bool × Bool × Bool × Bool
deriving DecidableEq

/-- `_spu_template_links` with the number of spawns of each link, and `_runtimes` of every job's `SPUState` -/
structure Worker (V : Type) where
  links : LinkKey V → Option (Link V × Nat)
  runtimes : Nat → RtKey V → Option (Runtime V)

def Worker.empty {V : Type} : Worker V := ⟨fun _ => none, fun _ _ => none⟩

/-- the runtime built by a call on template `l` at spawn number `n` (spu_state.py:289-300) -/
def Call.build {V : Type} (dflt : Brpc V) (c : Call V) (l : Link V) (n : Nat) : Runtime V :=
  ⟨c.linkKey dflt, l, n, c.cfg.protocol, c.cfg.field, c.cfg.fxp,
    c.cfg.pphloProfile, c.cfg.halProfile, c.cfg.pphloTrace, c.cfg.actionTrace⟩

/-- the template link of a call: cached, or created now with no spawn yet (spu_state.py:209-214, infra.py:98-101) -/
def Worker.template {V : Type} (w : Worker V) (dflt : Brpc V) (c : Call V) : Option (Link V × Nat) :=
  match w.links (c.linkKey dflt) with
  | some t => some t
  | none => (c.create dflt).map fun l => (l, 0)

/-- `get_or_create` (spu_state.py:217-301) in the `SPUState` of `job`; `none` is an exception, which changes nothing -/
def Worker.getOrCreate {V : Type} [DecidableEq V] (w : Worker V) (dflt : Brpc V) (job : Nat) (c : Call V) :
    Option (Runtime V × Worker V) :=
  match w.runtimes job (c.rtKey dflt) with
  | some r => some (r, w)
  | none =>
    match w.template dflt c with
    | none => none
    | some (l, n) =>
      some (c.build dflt l n,
        { links := Function.update w.links (c.linkKey dflt) (some (l, n + 1))
          runtimes := Function.update w.runtimes job
            (Function.update (w.runtimes job) (c.rtKey dflt) (some (c.build dflt l n))) })

/-- a history of calls on one worker, by any jobs -/
def Worker.run {V : Type} [DecidableEq V] (dflt : Brpc V) : Worker V → List (Nat × Call V) → Worker V
  | w, [] => w
  | w, (job, c) :: h =>
    match w.getOrCreate dflt job c with
    | none => Worker.run dflt w h
    | some (_, w') => Worker.run dflt w' h

/-- `exec_impl`: rank of this party in the SPU, and the endpoint list in party order (spu_impl.py:250-306); `none` is a
RuntimeError -/
def execCall {V : Type} (cfg : Config V) (me : Nat) (parties : Option (List Nat)) (endpoints : Option (Nat → Option String))
    (comm : Nat) : Option (Call V) :=
  match parties with
  | none => none
  | some ps =>
    if me ∈ ps then
      match endpoints with
      | none => some ⟨ps.idxOf me, ps.length, cfg, none, some comm, some ps⟩
      | some f =>
        match ps.mapM f with
        | none => none
        | some es => some ⟨ps.idxOf me, ps.length, cfg, some es, none, some ps⟩
    else none

/-! ## The invariant of every history -/

section
variable {V : Type} [DecidableEq V]

/-- everything cached was created by a call of the history with that key -/
structure Inv (dflt : Brpc V) (h : List (Nat × Call V)) (w : Worker V) : Prop where
  links : ∀ k l n, w.links k = some (l, n) → ∃ e ∈ h, e.2.linkKey dflt = k ∧ e.2.create dflt = some l
  rts : ∀ job k r, w.runtimes job k = some r → ∃ e ∈ h, e.1 = job ∧ e.2.rtKey dflt = k ∧
    r = e.2.build dflt r.link r.child ∧ ∃ n, w.links (e.2.linkKey dflt) = some (r.link, n) ∧ r.child < n
  inj : ∀ job k r job' k' r', w.runtimes job k = some r → w.runtimes job' k' = some r' →
    r.tmpl = r'.tmpl → r.child = r'.child → job = job' ∧ k = k'

theorem Inv.mono {dflt : Brpc V} {h h' : List (Nat × Call V)} {w : Worker V} (i : Inv dflt h w)
    (hs : ∀ e ∈ h, e ∈ h') : Inv dflt h' w :=
  ⟨fun k l n hk => by obtain ⟨e, he, hr⟩ := i.links k l n hk; exact ⟨e, hs e he, hr⟩,
   fun job k r hk => by obtain ⟨e, he, hr⟩ := i.rts job k r hk; exact ⟨e, hs e he, hr⟩, i.inj⟩

theorem template_spec {dflt : Brpc V} {h : List (Nat × Call V)} {w : Worker V} (i : Inv dflt h w) (c : Call V) {job : Nat}
    (hc : (job, c) ∈ h) {l : Link V} {n : Nat} (ht : w.template dflt c = some (l, n)) :
    ∃ e ∈ h, e.2.linkKey dflt = c.linkKey dflt ∧ e.2.create dflt = some l := by
  unfold Worker.template at ht
  split at ht
  · next t heq =>
    simp only [Option.some.injEq] at ht
    subst ht
    exact i.links _ _ _ heq
  · simp only [Option.map_eq_some_iff, Prod.mk.injEq] at ht
    obtain ⟨l', h1, rfl, _⟩ := ht
    exact ⟨(job, c), hc, rfl, h1⟩

/-- the runtime numbers below the counter of their template, before a step -/
theorem rts_old {dflt : Brpc V} {h : List (Nat × Call V)} {w : Worker V} (i : Inv dflt h w) {c : Call V} {l : Link V} {n : Nat}
    (ht : w.template dflt c = some (l, n)) {job : Nat} {k : RtKey V} {r : Runtime V} (hr : w.runtimes job k = some r)
    (hk : r.tmpl = c.linkKey dflt) : r.link = l ∧ r.child < n := by
  obtain ⟨e, _, _, _, hb, m, hl, hlt⟩ := i.rts job k r hr
  have hk' : e.2.linkKey dflt = c.linkKey dflt := by
    rw [← hk, hb]
    rfl
  rw [hk'] at hl
  simp only [Worker.template, hl, Option.some.injEq, Prod.mk.injEq] at ht
  exact ⟨ht.1, ht.2 ▸ hlt⟩

theorem step_inv {dflt : Brpc V} {h : List (Nat × Call V)} {w w' : Worker V} (i : Inv dflt h w) {job : Nat} {c : Call V}
    {r : Runtime V} (hc : (job, c) ∈ h) (hs : w.getOrCreate dflt job c = some (r, w')) : Inv dflt h w' := by
  unfold Worker.getOrCreate at hs
  split at hs
  · simp only [Option.some.injEq, Prod.mk.injEq] at hs
    rw [← hs.2]
    exact i
  · next hnone =>
    split at hs
    · cases hs
    · next l n ht =>
      simp only [Option.some.injEq, Prod.mk.injEq] at hs
      obtain ⟨rfl, rfl⟩ := hs
      have hrt : ∀ job' k' r', (Function.update w.runtimes job (Function.update (w.runtimes job) (c.rtKey dflt)
          (some (c.build dflt l n)))) job' k' = some r' →
          (job' = job ∧ k' = c.rtKey dflt ∧ r' = c.build dflt l n) ∨ w.runtimes job' k' = some r' := by
        intro job' k' r' hr
        by_cases hj : job' = job
        · subst hj
          rw [Function.update_self] at hr
          by_cases hk : k' = c.rtKey dflt
          · subst hk
            rw [Function.update_self] at hr
            simp only [Option.some.injEq] at hr
            exact Or.inl ⟨rfl, rfl, hr.symm⟩
          · rw [Function.update_of_ne hk] at hr
            exact Or.inr hr
        · rw [Function.update_of_ne hj] at hr
          exact Or.inr hr
      constructor
      · intro k l' n' hk
        by_cases hkk : k = c.linkKey dflt
        · subst hkk
          simp only [Function.update_self, Option.some.injEq, Prod.mk.injEq] at hk
          obtain ⟨rfl, _⟩ := hk
          exact template_spec i c hc ht
        · simp only [Function.update_of_ne hkk] at hk
          exact i.links k l' n' hk
      · intro job' k' r' hr
        rcases hrt job' k' r' hr with ⟨rfl, rfl, rfl⟩ | ho
        · exact ⟨(job', c), hc, rfl, rfl, rfl, n + 1, by simp [Call.build], by simp [Call.build]⟩
        · obtain ⟨e, he, h1, h2, h3, m, h4, h5⟩ := i.rts job' k' r' ho
          refine ⟨e, he, h1, h2, h3, ?_⟩
          by_cases hkk : e.2.linkKey dflt = c.linkKey dflt
          · have := rts_old i ht ho (by rw [h3]; exact hkk)
            refine ⟨n + 1, ?_, by omega⟩
            rw [hkk, this.1]
            simp
          · exact ⟨m, by simpa [Function.update_of_ne hkk] using h4, h5⟩
      · intro job1 k1 r1 job2 k2 r2 h1 h2 htm hch
        rcases hrt job1 k1 r1 h1 with ⟨rfl, rfl, rfl⟩ | o1 <;> rcases hrt job2 k2 r2 h2 with ⟨rfl, rfl, rfl⟩ | o2
        · exact ⟨rfl, rfl⟩
        · have := (rts_old i ht o2 htm.symm).2
          rw [← hch] at this
          simp [Call.build] at this
        · have := (rts_old i ht o1 htm).2
          rw [hch] at this
          simp [Call.build] at this
        · exact i.inj _ _ _ _ _ _ o1 o2 htm hch

theorem run_inv {dflt : Brpc V} {h0 : List (Nat × Call V)} : ∀ (h : List (Nat × Call V)) (w : Worker V),
    (∀ e ∈ h, e ∈ h0) → Inv dflt h0 w → Inv dflt h0 (w.run dflt h)
  | [], w, _, i => i
  | (job, c) :: h, w, hs, i => by
    simp only [Worker.run]
    split
    · exact run_inv h w (fun e he => hs e (by simp [he])) i
    · next r w' heq => exact run_inv h w' (fun e he => hs e (by simp [he])) (step_inv i (hs _ (by simp)) heq)

theorem empty_inv (dflt : Brpc V) (h : List (Nat × Call V)) : Inv dflt h Worker.empty := by
  constructor <;> simp [Worker.empty]

theorem reached_inv (dflt : Brpc V) (h : List (Nat × Call V)) : Inv dflt h (Worker.empty.run dflt h) :=
  run_inv h _ (fun _ he => he) (empty_inv dflt h)

/-- what a successful call returns was built for a call of the history (or this one) with the same keys -/
theorem returned {dflt : Brpc V} {h : List (Nat × Call V)} {job : Nat} {c : Call V} {r : Runtime V} {w' : Worker V}
    (hs : (Worker.empty.run dflt h).getOrCreate dflt job c = some (r, w')) :
    ∃ e ∈ h ++ [(job, c)], e.2.linkKey dflt = c.linkKey dflt ∧ e.2.create dflt = some r.link ∧
      r.tmpl = c.linkKey dflt ∧ r = c.build dflt r.link r.child := by
  have i : Inv dflt (h ++ [(job, c)]) (Worker.empty.run dflt h) := (reached_inv dflt h).mono (by simp +contextual)
  have i' := step_inv i (job := job) (c := c) (by simp) hs
  unfold Worker.getOrCreate at hs
  split at hs
  · next r0 hr =>
    simp only [Option.some.injEq, Prod.mk.injEq] at hs
    obtain ⟨rfl, rfl⟩ := hs
    obtain ⟨e, he, h1, h2, h3, m, h4, h5⟩ := i.rts _ _ _ hr
    have hk : e.2.linkKey dflt = c.linkKey dflt := congrArg RtKey.link h2
    have hf : (e.2.rtKey dflt).flags = (c.rtKey dflt).flags := congrArg RtKey.flags h2
    obtain ⟨e', he', g1, g2⟩ := i.links _ _ _ h4
    refine ⟨e', he', g1.trans hk, g2, by rw [h3]; exact hk, ?_⟩
    rw [h3]
    have hr' := congrArg LinkKey.rest hk
    simp only [Call.linkKey, KeyRest.mk.injEq] at hr'
    simp only [Call.rtKey, Prod.mk.injEq] at hf
    unfold Call.build
    simp only [Runtime.mk.injEq, true_and]
    exact ⟨hk, hr'.2.1, hr'.2.2.1, hr'.2.2.2.1, by rw [hf.1, hf.2.1, hf.2.2.1, hf.2.2.2]⟩
  · split at hs
    · cases hs
    · next l n ht =>
      simp only [Option.some.injEq, Prod.mk.injEq] at hs
      obtain ⟨rfl, _⟩ := hs
      obtain ⟨e, he, h1, h2⟩ := template_spec i c (job := job) (by simp) ht
      exact ⟨e, he, h1, h2, rfl, rfl⟩

/-- **C81** (the right settings) After any history of calls by any jobs on this worker, the runtime returned by a call
has the protocol, field, fraction bits and profiling flags that this call asked for. -/
theorem runtime_settings {dflt : Brpc V} {h : List (Nat × Call V)} {job : Nat} {c : Call V} {r : Runtime V} {w' : Worker V}
    (hs : (Worker.empty.run dflt h).getOrCreate dflt job c = some (r, w')) :
    r.protocol = c.cfg.protocol ∧ r.field = c.cfg.field ∧ r.fxp = c.cfg.fxp ∧
    r.flags = (c.cfg.pphloProfile, c.cfg.halProfile, c.cfg.pphloTrace, c.cfg.actionTrace) := by
  obtain ⟨_, _, _, _, _, hb⟩ := returned hs
  rw [hb]
  exact ⟨rfl, rfl, rfl, rfl⟩

/-- **C81** (brpc peers) With endpoints, after any history, the runtime's link has this party's rank, exactly the
endpoints of the call in their order, and the call's own link options merged over the defaults. -/
theorem brpc_link {dflt : Brpc V} {h : List (Nat × Call V)} {job : Nat} {c : Call V} {r : Runtime V} {w' : Worker V}
    (hs : (Worker.empty.run dflt h).getOrCreate dflt job c = some (r, w')) {es : List String}
    (he : c.endpoints = some es) (hne : es ≠ []) : r.link = .brpc c.rank es (effective dflt c.cfg) := by
  obtain ⟨e, _, hk, hcr, _, _⟩ := returned hs
  obtain ⟨x, xs, rfl⟩ : ∃ x xs, es = x :: xs := by
    cases es with
    | nil => exact absurd rfl hne
    | cons x xs => exact ⟨x, xs, rfl⟩
  have hm : c.mode = .brpc := by simp [Call.mode, he]
  have hce : c.eps = some (x :: xs) := by simp [Call.eps, he]
  have hrank : e.2.rank = c.rank := congrArg LinkKey.rank hk
  have hr := congrArg LinkKey.rest hk
  simp only [Call.linkKey, KeyRest.mk.injEq, hm, if_true] at hr
  obtain ⟨_, _, _, _, hm', heps, hb⟩ := hr
  rw [hm'] at hb
  simp only [if_true, Option.some.injEq] at hb
  rw [hce] at heps
  simp only [Call.create, heps, Option.some.injEq] at hcr
  rw [← hcr, hrank, hb]

/-- **C81** (reuse) Once a call has returned a runtime, the same call by the same job returns that very runtime after any
further history, and changes nothing. -/
theorem runtime_reused {dflt : Brpc V} {w w' : Worker V} {job : Nat} {c : Call V} {r : Runtime V}
    (hs : w.getOrCreate dflt job c = some (r, w')) (h : List (Nat × Call V)) :
    (w'.run dflt h).getOrCreate dflt job c = some (r, w'.run dflt h) := by
  have key : ∀ (h : List (Nat × Call V)) (w : Worker V), w.runtimes job (c.rtKey dflt) = some r →
      (w.run dflt h).runtimes job (c.rtKey dflt) = some r := by
    intro h
    induction h with
    | nil => exact fun w hw => hw
    | cons e h ih =>
      intro w hw
      obtain ⟨j, d⟩ := e
      simp only [Worker.run]
      split
      · exact ih w hw
      · next r1 w1 heq =>
        apply ih
        unfold Worker.getOrCreate at heq
        split at heq
        · simp only [Option.some.injEq, Prod.mk.injEq] at heq
          rw [← heq.2]
          exact hw
        · next hnone =>
          split at heq
          · cases heq
          · simp only [Option.some.injEq, Prod.mk.injEq] at heq
            rw [← heq.2]
            by_cases hj : job = j
            · subst hj
              simp only [Function.update_self]
              by_cases hk : c.rtKey dflt = d.rtKey dflt
              · rw [hk, hnone] at hw
                cases hw
              · rw [Function.update_of_ne hk]
                exact hw
            · simp only [Function.update_of_ne hj]
              exact hw
  have h0 : w'.runtimes job (c.rtKey dflt) = some r := by
    unfold Worker.getOrCreate at hs
    split at hs
    · next r0 hr =>
      simp only [Option.some.injEq, Prod.mk.injEq] at hs
      obtain ⟨rfl, rfl⟩ := hs
      exact hr
    · split at hs
      · cases hs
      · simp only [Option.some.injEq, Prod.mk.injEq] at hs
        obtain ⟨rfl, rfl⟩ := hs
        simp
  unfold Worker.getOrCreate
  rw [key h w' h0]

/-- **C81** (isolation) Two different requests, or two runtime configurations of one request, never share a spawned
link: after any history, runtimes held by different (job, configuration) pairs are different spawns. -/
theorem runtimes_isolated (dflt : Brpc V) (h : List (Nat × Call V)) {job job' : Nat} {c c' : Call V} {r r' : Runtime V}
    {w : Worker V} (hw : Worker.empty.run dflt h = w) (h1 : w.getOrCreate dflt job c = some (r, w))
    (h2 : w.getOrCreate dflt job' c' = some (r', w)) (hne : job ≠ job' ∨ c.rtKey dflt ≠ c'.rtKey dflt) :
    (r.tmpl, r.child) ≠ (r'.tmpl, r'.child) := by
  have i : Inv dflt (h ++ [(job, c), (job', c')]) w := by
    rw [← hw]
    exact (reached_inv dflt h).mono (by simp +contextual)
  have hold : ∀ {j : Nat} {d : Call V} {s : Runtime V}, (j, d) ∈ h ++ [(job, c), (job', c')] →
      w.getOrCreate dflt j d = some (s, w) → w.runtimes j (d.rtKey dflt) = some s := by
    intro j d s hjd hg
    unfold Worker.getOrCreate at hg
    split at hg
    · next s0 hs0 =>
      simp only [Option.some.injEq, Prod.mk.injEq] at hg
      rw [hs0, hg.1]
    · next hnone =>
      split at hg
      · cases hg
      · simp only [Option.some.injEq, Prod.mk.injEq] at hg
        have := congrArg (fun w : Worker V => w.runtimes j (d.rtKey dflt)) hg.2
        simp [hnone] at this
  have g1 := hold (by simp) h1
  have g2 := hold (by simp) h2
  intro heq
  simp only [Prod.mk.injEq] at heq
  obtain ⟨rfl, hk⟩ := i.inj _ _ _ _ _ _ g1 g2 heq.1 heq.2
  rcases hne with hne | hne
  · exact hne rfl
  · exact hne hk

/-- **C81** (channel peers, partial) Over the worker's communicator, after any history *in which every SPU call of this
worker names the same parties in the same order*, the link has this party's rank and one channel to each other party.
The cache keys contain neither the parties nor the communicator: see `wrong_peers_violated`. -/
theorem channel_peers_partial {dflt : Brpc V} {h : List (Nat × Call V)} {job : Nat} {c : Call V} {r : Runtime V} {w' : Worker V}
    (hs : (Worker.empty.run dflt h).getOrCreate dflt job c = some (r, w')) {comm : Nat} {ps : List Nat}
    (hc : c.endpoints = none ∧ c.comm = some comm ∧ c.parties = some ps)
    (hh : ∀ e ∈ h, e.2.comm = some comm ∧ e.2.parties = some ps) :
    ∃ chans, r.link = .channels c.rank chans ∧ chans.length = ps.length ∧ ∃ me, ps[c.rank]? = some me ∧
      ∀ (i p : Nat), ps[i]? = some p → chans[i]? = some (if i = c.rank then none else some ⟨comm, me, p⟩) := by
  obtain ⟨e, he, hk, hcr, _, _⟩ := returned hs
  have hm : c.mode = .channels := by simp [Call.mode, hc.1, hc.2.1]
  have hrank : e.2.rank = c.rank := congrArg LinkKey.rank hk
  have hr := congrArg LinkKey.rest hk
  simp only [Call.linkKey, KeyRest.mk.injEq, hm] at hr
  have heps : e.2.eps = none := by
    rw [hr.2.2.2.2.2.1]
    simp [Call.eps, hc.1]
  have hcp : e.2.comm = some comm ∧ e.2.parties = some ps := by
    simp only [List.mem_append, List.mem_cons, List.not_mem_nil, or_false] at he
    rcases he with he | rfl
    · exact hh e he
    · exact ⟨hc.2.1, hc.2.2⟩
  simp only [Call.create, heps, hcp.1, hcp.2, channelsLink, hrank] at hcr
  split at hcr
  · cases hcr
  · next me hme =>
    split at hcr
    · simp only [Option.some.injEq] at hcr
      refine ⟨_, hcr.symm, by simp, me, hme, ?_⟩
      intro i p hp
      rw [List.getElem?_map, List.getElem?_zipIdx, hp]
      simp
    · cases hcr

end

/-! ## Parties, endpoints, and matching of spawned links between parties -/

theorem mapM_get {α β : Type} (f : α → Option β) : ∀ (l : List α) (r : List β), l.mapM f = some r →
    ∀ (i : Nat) (a : α), l[i]? = some a → ∃ b, f a = some b ∧ r[i]? = some b
  | [], r, h, i, a, hi => by simp at hi
  | x :: l, r, h, i, a, hi => by
    rw [List.mapM_cons] at h
    cases hx : f x with
    | none => simp [hx] at h
    | some y =>
      cases hl : l.mapM f with
      | none => simp [hx, hl] at h
      | some ys =>
        simp only [hx, hl, Option.bind_eq_bind, Option.bind_some, Option.pure_def, Option.some.injEq] at h
        subst h
        cases i with
        | zero =>
          simp only [List.getElem?_cons_zero, Option.some.injEq] at hi
          subst hi
          exact ⟨y, hx, rfl⟩
        | succ i =>
          simp only [List.getElem?_cons_succ] at hi ⊢
          exact mapM_get f l ys hl i a hi

/-- **C81** (ranks and endpoints) When SPU execution starts on party `me`, the rank it uses is `me`'s place in the party
list, the group size is the number of parties, and with endpoints configured entry `i` of the list is the endpoint of the
`i`-th party — so all parties build the same list and each finds itself at its own rank. A party that is not listed, and
a party without endpoint, are refused. -/
theorem exec_call_places {V : Type} (cfg : Config V) (me comm : Nat) (parties : Option (List Nat))
    (endpoints : Option (Nat → Option String)) (c : Call V) (h : execCall cfg me parties endpoints comm = some c) :
    ∃ ps, parties = some ps ∧ me ∈ ps ∧ c.size = ps.length ∧ c.cfg = cfg ∧ ps[c.rank]? = some me ∧ c.parties = some ps ∧
      (endpoints = none → c.endpoints = none ∧ c.comm = some comm) ∧
      (∀ f, endpoints = some f → ∃ es, c.endpoints = some es ∧ es.length = ps.length ∧
        ∀ (i p : Nat), ps[i]? = some p → ∃ e, f p = some e ∧ es[i]? = some e) := by
  unfold execCall at h
  split at h
  · cases h
  · next ps =>
    split at h
    · next hme =>
      have hidx : ps[ps.idxOf me]? = some me := by
        rw [List.getElem?_eq_getElem (List.idxOf_lt_length_of_mem hme)]
        simp
      cases endpoints with
      | none =>
        simp only [Option.some.injEq] at h
        subst h
        exact ⟨ps, rfl, hme, rfl, rfl, hidx, rfl, by simp, by simp⟩
      | some f =>
        cases hm : ps.mapM f with
        | none => simp [hm] at h
        | some es =>
          simp only [hm, Option.some.injEq] at h
          subst h
          refine ⟨ps, rfl, hme, rfl, rfl, hidx, rfl, by simp, ?_⟩
          intro g hg
          simp only [Option.some.injEq] at hg
          subst hg
          have hget := mapM_get f ps es hm
          refine ⟨es, rfl, ?_, hget⟩
          have : ∀ (l : List Nat) (r : List String), l.mapM f = some r → r.length = l.length := by
            intro l
            induction l with
            | nil => intro r hr; simp at hr; simp [← hr]
            | cons x l ih =>
              intro r hr
              rw [List.mapM_cons] at hr
              cases hx : f x with
              | none => simp [hx] at hr
              | some y =>
                cases hl : l.mapM f with
                | none => simp [hx, hl] at hr
                | some ys =>
                  simp only [hx, hl, Option.bind_eq_bind, Option.bind_some, Option.pure_def, Option.some.injEq] at hr
                  subst hr
                  simp [ih ys hl]
          exact this ps es hm
    · cases h

/-- refused: a party outside the list, no party list, a party without endpoint -/
theorem exec_call_refused {V : Type} (cfg : Config V) (me comm : Nat) (ps : List Nat) (f : Nat → Option String) :
    execCall cfg me none (some f) comm = none ∧ (me ∉ ps → execCall cfg me (some ps) (some f) comm = none) ∧
    (∀ p ∈ ps, f p = none → execCall cfg me (some ps) (some f) comm = none) := by
  refine ⟨rfl, fun h => by simp [execCall, h], ?_⟩
  intro p hp hf
  cases hx : execCall cfg me (some ps) (some f) comm with
  | none => rfl
  | some c =>
    obtain ⟨ps', h1, _, _, _, _, _, _, h2⟩ := exec_call_places _ _ _ _ _ _ hx
    simp only [Option.some.injEq] at h1
    subst h1
    obtain ⟨es, _, _, h3⟩ := h2 f rfl
    obtain ⟨i, hi⟩ := List.mem_iff_getElem?.1 hp
    obtain ⟨e, he, _⟩ := h3 i p hi
    rw [hf] at he
    cases he

/-- One party's calls for an SPU group: the same configurations and endpoints at every party, own rank `i`. -/
def callsOf {V : Type} (ps : List Nat) (comm : Nat → Nat) (i : Nat) (h : List (Nat × Config V × Option (List String))) :
    List (Nat × Call V) :=
  h.map fun e => (e.1, ⟨i, ps.length, e.2.1, e.2.2, some (comm i), some ps⟩)

/-- the spawn each call got: template (without own rank) and number; `none` for an exception -/
def spawns {V : Type} [DecidableEq V] (dflt : Brpc V) : Worker V → List (Nat × Call V) → List (Option (KeyRest V × Nat))
  | _, [] => []
  | w, (job, c) :: h =>
    match w.getOrCreate dflt job c with
    | none => none :: spawns dflt w h
    | some (r, w') => some (r.tmpl.rest, r.child) :: spawns dflt w' h

/-- the caches of two parties of one group correspond -/
structure Match {V : Type} (i j : Nat) (w v : Worker V) : Prop where
  links : ∀ k : KeyRest V, (w.links ⟨i, k⟩).map (·.2) = (v.links ⟨j, k⟩).map (·.2)
  rts : ∀ (job : Nat) (k : KeyRest V) f, (w.runtimes job ⟨⟨i, k⟩, f⟩).map (fun r => (r.tmpl.rest, r.child)) =
    (v.runtimes job ⟨⟨j, k⟩, f⟩).map (fun r => (r.tmpl.rest, r.child))

theorem match_step {V : Type} [DecidableEq V] {dflt : Brpc V} {ps : List Nat} {comm : Nat → Nat} {i j : Nat}
    (hi : i < ps.length) (hj : j < ps.length) {w v : Worker V} (m : Match i j w v) (job : Nat) (cfg : Config V)
    (es : Option (List String)) :
    ∃ r s w' v', w.getOrCreate dflt job ⟨i, ps.length, cfg, es, some (comm i), some ps⟩ = some (r, w') ∧
      v.getOrCreate dflt job ⟨j, ps.length, cfg, es, some (comm j), some ps⟩ = some (s, v') ∧
      r.tmpl.rest = s.tmpl.rest ∧ r.child = s.child ∧ Match i j w' v' := by
  obtain ⟨k, f, hk⟩ : ∃ (k : KeyRest V) (f : Bool × Bool × Bool × Bool), ∀ n : Nat,
      Call.rtKey dflt ⟨n, ps.length, cfg, es, some (comm n), some ps⟩ = ⟨⟨n, k⟩, f⟩ := by
    refine ⟨(Call.linkKey dflt ⟨0, ps.length, cfg, es, some (comm 0), some ps⟩).rest,
      (cfg.pphloProfile, cfg.halProfile, cfg.pphloTrace, cfg.actionTrace), fun n => ?_⟩
    rcases es with _ | (_ | ⟨e, es⟩) <;> rfl
  have hlk : ∀ n : Nat, Call.linkKey dflt ⟨n, ps.length, cfg, es, some (comm n), some ps⟩ = ⟨n, k⟩ := by
    intro n
    have := congrArg RtKey.link (hk n)
    exact this
  have hcr : ∀ n : Nat, n < ps.length → ∃ l, Call.create dflt ⟨n, ps.length, cfg, es, some (comm n), some ps⟩ = some l := by
    intro n hn
    unfold Call.create
    split
    · exact ⟨_, rfl⟩
    · simp only [channelsLink]
      rw [List.getElem?_eq_getElem hn]
      simp only [Nat.le_refl, if_true]
      exact ⟨_, rfl⟩
  have hr := m.rts job k f
  have hlinks := m.links k
  rcases hw : w.runtimes job ⟨⟨i, k⟩, f⟩ with _ | r
  · have hv : v.runtimes job ⟨⟨j, k⟩, f⟩ = none := by
      rw [hw] at hr
      simpa using hr.symm
    obtain ⟨li, ti⟩ := hcr i hi
    obtain ⟨lj, tj⟩ := hcr j hj
    obtain ⟨l, l', n, g1, g2⟩ : ∃ l l' n, w.template dflt ⟨i, ps.length, cfg, es, some (comm i), some ps⟩ = some (l, n) ∧
        v.template dflt ⟨j, ps.length, cfg, es, some (comm j), some ps⟩ = some (l', n) := by
      unfold Worker.template
      rw [hlk i, hlk j, ti, tj]
      cases ha : w.links ⟨i, k⟩ with
      | none =>
        have hb : v.links ⟨j, k⟩ = none := by
          rw [ha] at hlinks
          simpa using hlinks.symm
        rw [hb]
        exact ⟨li, lj, 0, rfl, rfl⟩
      | some a =>
        obtain ⟨b, hb, hab⟩ : ∃ b, v.links ⟨j, k⟩ = some b ∧ b.2 = a.2 := by
          rw [ha] at hlinks
          simp only [Option.map_some] at hlinks
          cases hb : v.links ⟨j, k⟩ with
          | none => simp [hb] at hlinks
          | some b =>
            simp only [hb, Option.map_some, Option.some.injEq] at hlinks
            exact ⟨b, rfl, hlinks.symm⟩
        rw [hb]
        exact ⟨a.1, b.1, a.2, rfl, by rw [← hab]⟩
    unfold Worker.getOrCreate
    rw [hk i, hk j, hw, hv, g1, g2, hlk i, hlk j]
    refine ⟨_, _, _, _, rfl, rfl, ?_, rfl, ?_⟩
    · simp only [Call.build, hlk]
    · constructor
      · intro k'
        by_cases hkk : k' = k
        · subst hkk
          simp
        · simp only []
          rw [Function.update_of_ne (by simpa using hkk), Function.update_of_ne (by simpa using hkk)]
          exact m.links k'
      · intro job' k' f'
        by_cases hj' : job' = job
        · subst hj'
          simp only [Function.update_self]
          by_cases hkk : k' = k ∧ f' = f
          · obtain ⟨rfl, rfl⟩ := hkk
            simp [Call.build, hlk]
          · have hne : ∀ n : Nat, (⟨⟨n, k'⟩, f'⟩ : RtKey V) ≠ ⟨⟨n, k⟩, f⟩ := by
              intro n hn
              simp only [RtKey.mk.injEq, LinkKey.mk.injEq, true_and] at hn
              exact hkk hn
            rw [Function.update_of_ne (hne i), Function.update_of_ne (hne j)]
            exact m.rts job' k' f'
        · simp only [Function.update_of_ne hj']
          exact m.rts job' k' f'
  · obtain ⟨s, hs, h1, h2⟩ : ∃ s, v.runtimes job ⟨⟨j, k⟩, f⟩ = some s ∧ s.tmpl.rest = r.tmpl.rest ∧ s.child = r.child := by
      rw [hw] at hr
      cases hb : v.runtimes job ⟨⟨j, k⟩, f⟩ with
      | none => simp [hb] at hr
      | some s =>
        simp only [hb, Option.map_some, Option.some.injEq, Prod.mk.injEq] at hr
        exact ⟨s, rfl, hr.1.symm, hr.2.symm⟩
    unfold Worker.getOrCreate
    rw [hk i, hk j, hw, hs]
    exact ⟨r, s, w, v, rfl, rfl, h1.symm, h2.symm, m⟩

/-- **C81** (links meet, partial) If the parties of one SPU group run the same jobs *in the same order*, then at every
call the runtime of party `i` is the same spawn of the same template as the runtime of party `j`: requests meet
themselves. Without that order they may not: `link_order_violated`. -/
theorem links_meet_partial {V : Type} [DecidableEq V] (dflt : Brpc V) (ps : List Nat) (comm : Nat → Nat) (i j : Nat)
    (hi : i < ps.length) (hj : j < ps.length) (h : List (Nat × Config V × Option (List String))) :
    spawns dflt Worker.empty (callsOf ps comm i h) = spawns dflt Worker.empty (callsOf ps comm j h) ∧
    ∀ x ∈ spawns dflt Worker.empty (callsOf ps comm i h), x ≠ none := by
  have key : ∀ (h : List (Nat × Config V × Option (List String))) (w v : Worker V), Match i j w v →
      spawns dflt w (callsOf ps comm i h) = spawns dflt v (callsOf ps comm j h) ∧
      ∀ x ∈ spawns dflt w (callsOf ps comm i h), x ≠ none := by
    intro h
    induction h with
    | nil => intro w v _; exact ⟨rfl, by simp [callsOf, spawns]⟩
    | cons e h ih =>
      intro w v m
      obtain ⟨job, cfg, es⟩ := e
      obtain ⟨r, s, w', v', h1, h2, h3, h4, m'⟩ := match_step (dflt := dflt) (comm := comm) hi hj m job cfg es
      simp only [callsOf, List.map_cons, spawns, h1, h2, h3, h4]
      obtain ⟨g1, g2⟩ := ih w' v' m'
      refine ⟨by rw [← callsOf, g1]; rfl, ?_⟩
      intro x hx
      simp only [List.mem_cons] at hx
      rcases hx with rfl | hx
      · simp
      · exact g2 x hx
  exact key h _ _ ⟨fun _ => rfl, fun _ _ _ => rfl⟩

/-! ## Concrete cases and violations -/

/-- a configuration with protocol `p` (settings are numbers here) -/
def cfgN (p : Nat) : Config Nat := ⟨p, 0, 18, false, false, false, false, none⟩
def brpcN : Brpc Nat := ⟨1, 2, 3, 4, none, 5, 6⟩

/-- **C81** violated (wrong peers): party 0 has two SPU devices with the same configuration, one with party 1 and one
with party 2. The second device gets the first one's link, whose only channel leads to party 1. -/
theorem wrong_peers_violated : ∃ (c1 c2 : Call Nat) (w : Worker Nat) (r1 r2 : Runtime Nat),
    execCall (cfgN 7) 0 (some [0, 1]) none 9 = some c1 ∧ execCall (cfgN 7) 0 (some [0, 2]) none 9 = some c2 ∧
    Worker.empty.getOrCreate brpcN 1 c1 = some (r1, w) ∧ w.getOrCreate brpcN 1 c2 = some (r2, w) ∧ r2 = r1 ∧
    r2.link = .channels 0 [none, some ⟨9, 0, 1⟩] := by
  exact ⟨_, _, _, _, _, rfl, rfl, rfl, rfl, rfl, rfl⟩

/-- **C81** violated (order): jobs 1 and 2 use one SPU; party 0 starts job 1 first, party 1 starts job 2 first. The
spawn of job 1 at party 0 is then the spawn of job 2 at party 1. -/
theorem link_order_violated : ∃ (x y : KeyRest Nat × Nat),
    spawns brpcN Worker.empty (callsOf [0, 1] id 0 [(1, cfgN 7, none), (2, cfgN 7, none)]) = [some x, some y] ∧
    spawns brpcN Worker.empty (callsOf [0, 1] id 1 [(2, cfgN 7, none), (1, cfgN 7, none)]) = [some x, some y] ∧ x ≠ y := by
  refine ⟨(⟨2, 7, 0, 18, .channels, none, none⟩, 0), (⟨2, 7, 0, 18, .channels, none, none⟩, 1), ?_, ?_, by decide⟩
  · decide
  · decide

/-- **C81** violated (tag names): two SPU configurations of one request have two templates, and the first spawn of each
has number 0 and channels to the same peer; no template sets `desc.id` (spu_state.py:306-312, 346-355), so whatever tag
`tag id n k` libspu gives to the k-th message of spawn `n` of a link with id `id`, both links use the same keys. -/
theorem tags_shared_violated : ∃ (w w' : Worker Nat) (r r' : Runtime Nat) (c c' : Call Nat) (ch : Channel),
    Worker.empty.getOrCreate brpcN 1 c = some (r, w) ∧ w.getOrCreate brpcN 1 c' = some (r', w') ∧ r.tmpl ≠ r'.tmpl ∧
    r.link = .channels 0 [none, some ch] ∧ r'.link = .channels 0 [none, some ch] ∧
    ∀ (tag : String → Nat → Nat → String) (k : Nat), "spu:" ++ tag "root" r.child k = "spu:" ++ tag "root" r'.child k := by
  refine ⟨_, _, _, _, ⟨0, 2, cfgN 7, none, some 9, some [0, 1]⟩, ⟨0, 2, cfgN 8, none, some 9, some [0, 1]⟩, ⟨9, 0, 1⟩,
    rfl, rfl, by decide, rfl, rfl, fun _ _ => rfl⟩

example : ∃ (c : Call Nat) (r : Runtime Nat) (w : Worker Nat),
    execCall (cfgN 7) 3 (some [5, 3]) (some fun n => some (if n = 5 then "a:1" else "b:2")) 9 = some c ∧
    (Worker.empty.run brpcN [(1, c)]).getOrCreate brpcN 2 c = some (r, w) ∧ r.link = .brpc 1 ["a:1", "b:2"] brpcN ∧
    r.child = 1 :=
  ⟨_, _, _, rfl, rfl, rfl, rfl⟩

example : ∃ (c : Call Nat) (r r' : Runtime Nat) (w : Worker Nat), execCall (cfgN 7) 3 (some [5, 3]) none 9 = some c ∧
    Worker.empty.run brpcN [(1, c), (2, c)] = w ∧ w.getOrCreate brpcN 1 c = some (r, w) ∧
    w.getOrCreate brpcN 2 c = some (r', w) ∧ r.child = 0 ∧ r'.child = 1 ∧
    r.link = .channels 1 [some ⟨9, 3, 5⟩, none] :=
  ⟨_, _, _, _, rfl, rfl, rfl, rfl, rfl, rfl, rfl⟩

end Verif.Spu
