import Verif.Driver.Spmd
import Verif.Device.Cluster
import Verif.Simp.Props
/-!
# C126 — the environment of a program: simulators, drivers and compile contexts (dialects/simp.py:860-1000,
simp_driver/mem.py:241-299, simp_driver/http.py:130-173, libs/device/api.py:42-58, mplang/__init__.py:318-343)

What tracing reads of the contexts on the stack is the cluster (for devices) and the number of parties (for `mp.function`).
-/
namespace Verif.Driver.Env
open Verif.Device Verif.Simp Verif.Driver Verif.Driver.Spmd Verif.Comm

/-- `ClusterSpec.simple(n)` / `ClusterSpec.simple(len(endpoints), endpoints)` (cluster.py:255-352) with the values it fills in -/
structure Defaults (J : Type) where
  version : J
  platform : J
  bindings : J
  spuConfig : J
  empty : J

variable {J : Type}

/-- the default cluster of `n` parties (mem.py:263-266, simp.py:978) -/
def Defaults.simple (D : Defaults J) (ep : Nat → String) (n : Nat) : Except Err (Spec J) :=
  Device.simple D.version D.platform D.bindings D.spuConfig D.empty ep n n

/-- a context as tracing sees it: the world size of its simp state and its `_cluster_spec` -/
structure Env (J : Type) where
  world : Option Nat
  cluster : Option (Spec J)

/-- `make_simulator(world_size, cluster_spec=…)` (simp.py:860-896, mem.py:241-295) -/
def makeSimulator (D : Defaults J) (ep : Nat → String) (n : Nat) (spec : Option (Spec J)) : Except Err (Env J) :=
  match spec with
  | some s => .ok ⟨some n, some s⟩
  | none => (D.simple ep n).map fun s => ⟨some n, some s⟩

/-- `make_driver(endpoints, cluster_spec=…)` (simp.py:899-921, http.py:130-173) -/
def makeDriver (D : Defaults J) (eps : List String) (spec : Option (Spec J)) : Except Err (Env J) :=
  match spec with
  | some s => .ok ⟨some eps.length, some s⟩
  | none => (D.simple (fun i => eps.getD i "") eps.length).map fun s => ⟨some eps.length, some s⟩

/-- `make_compile_context(world_size, cluster_spec=…)` (simp.py:943-992); `world_size or len(nodes)` takes 0 for "not given" -/
def makeCompile (D : Defaults J) (ep : Nat → String) (world : Option Nat) (spec : Option (Spec J)) : Except Err (Env J) :=
  match spec, world with
  | some s, w => .ok ⟨some (if w.getD 0 = 0 then s.nodes.length else w.getD 0), some s⟩
  | none, some n => (D.simple ep n).map fun s => ⟨some n, some s⟩
  | none, none => .error .valueError

/-- a context on the stack (innermost first) -/
inductive Ctx (J : Type) where
  | tracer
  | interp (e : Env J)

/-- cluster of a context -/
def Ctx.cluster? : Ctx J → Option (Spec J)
  | .tracer => none
  | .interp e => e.cluster

/-- world size of a context -/
def Ctx.world? : Ctx J → Option Nat
  | .tracer => none
  | .interp e => e.world

/-- `_resolve_cluster` (api.py:42-58) -/
def resolveCluster (s : List (Ctx J)) : Option (Spec J) := s.findSome? Ctx.cluster?

/-- the parties of `mp.function` (mplang/__init__.py:318-343) -/
def functionParties (s : List (Ctx J)) : Option (List Nat) := (s.findSome? Ctx.world?).map List.range

/-- the parties a device name stands for while tracing (api.py:174-231: `m.rank for m in dev_info.members`) -/
def deviceParties (s : List (Ctx J)) (dev : String) : Option (List Nat) :=
  (resolveCluster s).bind fun c => (Store.lookup dev c.devices).map fun d => d.members.map (·.rank)

/-! ## Properties -/

/-- An environment whose cluster is well-formed and has as many nodes as there are parties. -/
def Consistent (e : Env J) (n : Nat) : Prop := e.world = some n ∧ ∃ s, e.cluster = some s ∧ Sound s ∧ s.nodes.length = n

/-- **C126, defaults**: an environment made from a number of parties, or from endpoints, has a well-formed cluster of that many nodes. -/
theorem default_environment (D : Defaults J) (ep : Nat → String) (n : Nat) (eps : List String) :
    (∃ e, makeSimulator D ep n none = .ok e ∧ Consistent e n) ∧ (∃ e, makeDriver D eps none = .ok e ∧ Consistent e eps.length) ∧
    (∃ e, makeCompile D ep (some n) none = .ok e ∧ Consistent e n) := by
  refine ⟨?_, ?_, ?_⟩
  · obtain ⟨s, h1, h2, h3, _⟩ := simple_sound D.version D.platform D.bindings D.spuConfig D.empty ep n n (Nat.le_refl n)
    exact ⟨⟨some n, some s⟩, by simp [makeSimulator, Defaults.simple, h1, Except.map], rfl, s, rfl, h2, h3⟩
  · obtain ⟨s, h1, h2, h3, _⟩ := simple_sound D.version D.platform D.bindings D.spuConfig D.empty (fun i => eps.getD i "") eps.length _ (Nat.le_refl _)
    exact ⟨⟨some eps.length, some s⟩, by unfold makeDriver Defaults.simple; simp only [h1, Except.map], rfl, s, rfl, h2, h3⟩
  · obtain ⟨s, h1, h2, h3, _⟩ := simple_sound D.version D.platform D.bindings D.spuConfig D.empty ep n n (Nat.le_refl n)
    exact ⟨⟨some n, some s⟩, by simp [makeCompile, Defaults.simple, h1, Except.map], rfl, s, rfl, h2, h3⟩

/-- **C126, compiling without workers** sees what running sees: the compile context of a cluster with at least one node is the environment of a
simulator with one party per node, and of a driver with one endpoint per node. -/
theorem compile_context_same (D : Defaults J) (ep : Nat → String) (s : Spec J) (eps : List String) (he : eps.length = s.nodes.length) :
    makeCompile D ep none (some s) = makeSimulator D ep s.nodes.length (some s) ∧
    makeCompile D ep none (some s) = makeDriver D eps (some s) ∧
    (∀ n, 0 < n → makeCompile D ep (some n) (some s) = makeSimulator D ep n (some s)) ∧
    (∀ n, makeCompile D ep (some n) none = makeSimulator D ep n none) ∧ makeCompile D ep none none = .error .valueError := by
  refine ⟨by simp [makeCompile, makeSimulator], by simp [makeCompile, makeDriver, he], fun n hn => ?_, fun n => rfl, rfl⟩
  have : n ≠ 0 := by omega
  simp [makeCompile, makeSimulator, this]

/-- **C126, parties exist**: in a consistent environment every device stands for parties of the world, and `mp.function` for all of them. -/
theorem parties_in_world {e : Env J} {n : Nat} (h : Consistent e n) (k : Nat) (rest : List (Ctx J)) :
    let s := List.replicate k Ctx.tracer ++ .interp e :: rest
    functionParties s = some (List.range n) ∧
    (∀ dev ps, deviceParties s dev = some ps → ∀ p ∈ ps, p < n) ∧
    ∃ c, e.cluster = some c ∧ ∀ dev, (deviceParties s dev).isSome ↔ dev ∈ c.devices.map Prod.fst := by
  obtain ⟨hw, c, hc, hs, hl⟩ := h
  intro s
  have hskip : ∀ {β : Type} (f : Ctx J → Option β), f .tracer = none → ∀ l, List.findSome? f (List.replicate k .tracer ++ l) = List.findSome? f l := by
    intro β f hf l
    induction k with
    | zero => rfl
    | succ k ih => simp [List.replicate_succ, hf, ih]
  have h1 : resolveCluster s = some c := by
    unfold resolveCluster
    rw [hskip _ rfl]
    simp [Ctx.cluster?, hc]
  refine ⟨?_, ?_, c, hc, ?_⟩
  · unfold functionParties
    rw [hskip _ rfl]
    simp [Ctx.world?, hw]
  · intro dev ps hd p hp
    unfold deviceParties at hd
    rw [h1, Option.bind_some] at hd
    obtain ⟨d, hd1, rfl⟩ := Option.map_eq_some_iff.1 hd
    obtain ⟨m, hm, rfl⟩ := List.mem_map.1 hp
    have hmem : d ∈ c.devices.map Prod.snd := List.mem_map.2 ⟨(dev, d), Store.lookup_mem hd1, rfl⟩
    have := hs.members d hmem m hm
    obtain ⟨e', he', rfl⟩ := List.mem_map.1 this
    have := hs.ranks.mem_iff.1 (List.mem_map.2 ⟨e', he', rfl⟩)
    rw [← hl]
    exact List.mem_range.1 this
  · intro dev
    unfold deviceParties
    rw [h1, Option.bind_some, Option.isSome_map]
    exact lookup_isSome_iff dev c.devices

/-- the environments made by the factories carry both, a world size and a cluster -/
theorem factories_complete (D : Defaults J) (ep : Nat → String) (n : Nat) (eps : List String) (w : Option Nat) (spec : Option (Spec J)) (e : Env J)
    (h : makeSimulator D ep n spec = .ok e ∨ makeDriver D eps spec = .ok e ∨ makeCompile D ep w spec = .ok e) : e.world.isSome ∧ e.cluster.isSome := by
  have hm : ∀ (r : Except Err (Spec J)) (k : Nat), (r.map fun s => (⟨some k, some s⟩ : Env J)) = .ok e → e.world.isSome ∧ e.cluster.isSome := by
    intro r k hr
    cases r with
    | error x => cases hr
    | ok s => simp only [Except.map, Except.ok.injEq] at hr; subst hr; exact ⟨rfl, rfl⟩
  rcases h with h | h | h
  · cases spec with
    | some s => simp only [makeSimulator, Except.ok.injEq] at h; subst h; exact ⟨rfl, rfl⟩
    | none => exact hm _ _ h
  · cases spec with
    | some s => simp only [makeDriver, Except.ok.injEq] at h; subst h; exact ⟨rfl, rfl⟩
    | none => exact hm _ _ h
  · cases spec with
    | some s => simp only [makeCompile, Except.ok.injEq] at h; subst h; exact ⟨rfl, rfl⟩
    | none => cases w with
      | some k => exact hm _ _ h
      | none => simp [makeCompile] at h

/-- **C126, nesting**: however contexts are nested, devices and `mp.function` use the same one, the innermost environment, as long as the
environments come from the factories. -/
theorem same_environment (s : List (Ctx J)) (hs : ∀ e, Ctx.interp e ∈ s → e.world.isSome ∧ e.cluster.isSome) :
    (resolveCluster s = none ∧ functionParties s = none ∧ ∀ c ∈ s, c = .tracer) ∨
    ∃ k e rest n c, s = List.replicate k .tracer ++ .interp e :: rest ∧ e.world = some n ∧ e.cluster = some c ∧
      resolveCluster s = some c ∧ functionParties s = some (List.range n) := by
  induction s with
  | nil => exact .inl ⟨rfl, rfl, by simp⟩
  | cons x s ih =>
    cases x with
    | interp e =>
      obtain ⟨h1, h2⟩ := hs e (.head _)
      obtain ⟨n, hn⟩ := Option.isSome_iff_exists.1 h1
      obtain ⟨c, hc⟩ := Option.isSome_iff_exists.1 h2
      exact .inr ⟨0, e, s, n, c, rfl, hn, hc, by simp [resolveCluster, Ctx.cluster?, hc], by simp [functionParties, Ctx.world?, hn]⟩
    | tracer =>
      rcases ih fun e he => hs e (.tail _ he) with ⟨h1, h2, h3⟩ | ⟨k, e, rest, n, c, rfl, h2, h3, h4, h5⟩
      · exact .inl ⟨by simpa [resolveCluster, Ctx.cluster?] using h1, by simpa [functionParties, Ctx.world?] using h2, by simpa using h3⟩
      · exact .inr ⟨k + 1, e, rest, n, c, by simp [List.replicate_succ], h2, h3, h4, h5⟩

/-! ## A cluster and a world of different sizes -/

/-- three nodes, one device each -/
def threeNodes : Spec Nat :=
  let nd (n : String) (r : Nat) : Device.Node Nat := ⟨n, r, "", ⟨0, 0, 0, []⟩⟩
  ⟨"c", [("a", nd "a" 0), ("b", nd "b" 1), ("c", nd "c" 2)], [("P0", ⟨"P0", "ppu", [nd "a" 0], 0⟩), ("P1", ⟨"P1", "ppu", [nd "b" 1], 0⟩), ("P2", ⟨"P2", "ppu", [nd "c" 2], 0⟩)]⟩

/-- **C126 is violated when sizes differ**: a simulator, a driver and a compile context of two parties accept a cluster of three nodes; its third
device then stands for a party that does not exist. -/
theorem size_mismatch_violated (D : Defaults Nat) (ep : Nat → String) (eps : List String) (he : eps.length = 2) :
    (∃ t, Device.mk threeNodes = .ok t) ∧ ∃ e, makeSimulator D ep 2 (some threeNodes) = .ok e ∧ makeDriver D eps (some threeNodes) = .ok e ∧
      makeCompile D ep (some 2) (some threeNodes) = .ok e ∧ functionParties [.tracer, .interp e] = some [0, 1] ∧
      deviceParties [.tracer, .interp e] "P2" = some [2] := by
  refine ⟨⟨threeNodes, if_pos (by decide +kernel)⟩, ⟨some 2, some threeNodes⟩, rfl, by rw [← he]; rfl, rfl, rfl, by decide +kernel⟩

variable {V T : Type}

/-- … and its values are lost without an error: a program step placed on parties that do not exist ends on every worker, under every schedule, and
fetching its results gives nothing at every party, whatever the step computes. -/
theorem missing_party_violated [DecidableEq T] (tr : V → Bool) (N : Nat) (hN : 0 < N) (parties : List Nat) (hp : ∀ p ∈ parties, N ≤ p)
    (F : Nat → List (LV V) → Option (List (LV V))) (outs : List T) :
    ∃ f0, ∀ fuel, f0 ≤ fuel → Completes tr N fuel [Simp.Op.pcall parties F outs []] (List.replicate N []) [] (fun _ => .empty)
      (fun stores' env' => ∀ p, p < N → local_ stores' env' p = List.replicate outs.length none) := by
  have hEv : Ev tr N (.ops (opsOf [Simp.Op.pcall parties F outs []])) (fun _ => []) (fun _ => [] ++ List.replicate outs.length none) :=
    .cons _ _ _ (fun _ => List.replicate outs.length none) _
      (.pcall parties F outs [] _ _ (fun _ => []) (fun _ _ => rfl) (fun p h h' => absurd h (by have := hp p h'; omega)) (fun _ _ _ => rfl)) (.nil _)
  obtain ⟨f0, h⟩ := spmd_end_to_end tr N hN [Simp.Op.pcall parties F outs []] [] _ (by rfl) _ _ hEv
    (List.replicate N []) [] (by simp) (by simp) (by intro p _; rfl)
  refine ⟨f0, fun fuel hf => ?_⟩
  have := h fuel hf
  cases this with
  | op t rs stores' os' h1 h2 h3 h4 =>
    refine .op t rs stores' os' h1 h2 h3 ?_
    cases h4 with
    | done hpost => exact .done fun p hp => by simpa using hpost.2.2 p hp

mutual
/-- every exchange of the program is among the first `N` parties -/
def opWithin (N : Nat) : Simp.Op V T → Prop
  | .shuffle routing _ => ∀ e ∈ routing, e.1 < N ∧ e.2 < N
  | .cond _ _ _ a b => regionWithin N a ∧ regionWithin N b
  | .loop _ _ a b => regionWithin N a ∧ regionWithin N b
  | _ => True
/-- of a block -/
def regionWithin (N : Nat) : Region V T → Prop
  | .mk os _ => opsWithin N os
/-- of a list of operations -/
def opsWithin (N : Nat) : Ops V T → Prop
  | .nil => True
  | .cons o os => opWithin N o ∧ opsWithin N os
end

/-- of a task -/
def taskWithin (N : Nat) : Task V T → Prop
  | .op o => opWithin N o
  | .ops os => opsWithin N os
  | .region r => regionWithin N r
  | .loop a b _ => regionWithin N a ∧ regionWithin N b

/-- **C126, a smaller world**: a program that means something to `M` parties and exchanges only among the first `N` of them means the same to a world of
`N` parties: every party left gets the same values. -/
theorem smaller_world {tr : V → Bool} {N M : Nat} (hNM : N ≤ M) {t : Task V T} {σ ρ : Nat → List (LV V)} (h : Ev tr M t σ ρ) (hw : taskWithin N t) :
    Ev tr N t σ ρ := by
  induction h with
  | pcall parties F outs args σ ρ a h1 h2 h3 =>
    exact .pcall _ _ _ _ _ _ a (fun p hp => h1 p (by omega)) (fun p hp => h2 p (by omega)) (fun p hp => h3 p (by omega))
  | pcallDyn F outs args σ ρ a h1 h2 => exact .pcallDyn _ _ _ _ _ a (fun p hp => h1 p (by omega)) (fun p hp => h2 p (by omega))
  | shuffle routing arg σ ρ d h1 h2 h3 h4 =>
    exact .shuffle _ _ _ _ d ⟨h1.keys, hw⟩ h2 (fun p hp => h3 p (by omega)) (fun p hp => h4 p (by omega))
  | converge args σ ρ a h1 h2 => exact .converge _ _ _ a (fun p hp => h1 p (by omega)) (fun p hp => h2 p (by omega))
  | cond verify pred args thn els σ ρ a v b h1 h2 h3 _ ih =>
    exact .cond _ _ _ _ _ _ _ a v b (fun p hp => h1 p (by omega)) (fun p hp => h2 p (by omega)) (fun p hp => h3 p (by omega))
      (ih (by simp only [taskWithin, opWithin] at hw ⊢; cases b; exact hw.2; exact hw.1))
  | loopOp state caps cnd body σ ρ st cs h1 h2 _ ih =>
    exact .loopOp _ _ _ _ _ _ st cs (fun p hp => h1 p (by omega)) (fun p hp => h2 p (by omega)) (ih hw)
  | loopDone cnd body cs st cv ρ _ h2 h3 ih =>
    exact .loopDone _ _ _ _ cv _ (ih hw.1) (fun p hp => h2 p (by omega)) (fun p hp => h3 p (by omega))
  | loopStep cnd body cs st st' cv ρ _ h2 _ _ ih1 ih2 ih3 =>
    exact .loopStep _ _ _ _ st' cv _ (ih1 hw.1) (fun p hp => h2 p (by omega)) (ih2 hw.2) (ih3 hw)
  | region os outs σ σ' ρ _ h2 ih => exact .region _ _ _ σ' _ (ih hw) (fun p hp => h2 p (by omega))
  | nil σ => exact .nil σ
  | cons o os σ r σ' _ _ ih1 ih2 => exact .cons _ _ _ r _ (ih1 hw.1) (ih2 hw.2)

/-- **C126 is violated in a larger world**: a checked conditional whose predicate lives at the first `N` parties, and holds there, means its first branch to
`N` parties; run in a world with more parties it raises at every party, under every schedule, since a party without the predicate counts as
"false". -/
theorem larger_world_violated [DecidableEq T] (tr : V → Bool) {N M : Nat} (hN : 0 < N) (hNM : N < M) (fuel pred : Nat) (args : List Nat) (thn els : Region V T)
    (σ a ρ : Nat → List (LV V)) (v : Nat → V) (h1 : ∀ p, p < N → (σ p)[pred]? = some (some (v p))) (ht : ∀ p, p < N → tr (v p) = true)
    (h1' : ∀ p, N ≤ p → p < M → (σ p)[pred]? = some none) (h2 : ∀ p, p < M → pick (σ p) args = some (a p)) (hr : Ev tr N (.region thn) a ρ) :
    Ev tr N (.op (.cond true pred args thn els)) σ ρ ∧
    ∃ t, Always M (syncSt (fun p => opRun tr M fuel p (.cond true pred args thn els) (σ p)) (fun _ _ => 0)) t ∧ ∀ p, p < M → t.proc p = .fail := by
  refine ⟨.cond _ _ _ _ _ _ _ a (fun p => some (v p)) true h1 (fun p hp => ht p hp) (fun p hp => h2 p (by omega)) hr, ?_⟩
  refine uniform_cond_raises tr M fuel pred args thn els σ a (fun p => if p < N then some (v p) else none) ?_ h2 0 N (by omega) hNM ?_ _ (fun _ _ => rfl)
  · intro p hp
    by_cases h : p < N
    · simp [h, h1 p h]
    · simp [h, h1' p (by omega) hp]
  · simp [hN, truthy, ht 0 hN]

/-! ## Examples -/

example (D : Defaults Nat) (ep : Nat → String) : ∃ e, makeSimulator D ep 3 none = .ok e ∧ functionParties [.tracer, .tracer, .interp e] = some [0, 1, 2] ∧
    ∀ dev ps, deviceParties [.tracer, .tracer, .interp e] dev = some ps → ∀ p ∈ ps, p < 3 := by
  obtain ⟨⟨e, h1, h2⟩, _⟩ := default_environment D ep 3 []
  exact ⟨e, h1, (parties_in_world h2 2 []).1, (parties_in_world h2 2 []).2.1⟩

/-- an environment from elsewhere, without a cluster, inside another one: devices and `mp.function` go by different contexts -/
example : functionParties [.interp ⟨some 5, none⟩, .interp ⟨some 3, some threeNodes⟩] = some [0, 1, 2, 3, 4] ∧
    deviceParties [.interp ⟨some 5, none⟩, .interp ⟨some 3, some threeNodes⟩] "P1" = some [1] := ⟨rfl, by decide +kernel⟩

example : Ev (V := Nat) (T := Nat) (fun _ => true) 2 (.op (.shuffle [(0, 1)] 0)) (fun p => [some p]) (fun p => [routed [(0, 1)] some p]) :=
  smaller_world (M := 4) (by decide) (.shuffle _ _ _ _ some ⟨by decide, by simp⟩ (by simp [Swap]; omega) (fun _ _ => rfl) (fun _ _ => rfl))
    (by simp [taskWithin, opWithin])

example : ∃ t, Always 3 (syncSt (fun p => opRun (V := Bool) (T := Nat) id 3 9 p (.cond true 0 [0] (.mk .nil [0]) (.mk .nil [0])) (if p < 2 then [some true] else [none])) (fun _ _ => 0)) t ∧
    ∀ p, p < 3 → t.proc p = .fail :=
  (larger_world_violated id (N := 2) (by decide) (by decide) 9 0 [0] _ _ _ (fun p => if p < 2 then [some true] else [none]) (fun p => if p < 2 then [some true] else [none]) (fun _ => true)
    (by intro p hp; simp [hp]) (fun _ _ => rfl) (by intro p hp _; simp [Nat.not_lt.2 hp]) (by intro p _; by_cases h : p < 2 <;> simp [pick, h])
    (.region _ _ _ _ _ (.nil _) (by intro p hp; simp [pick, hp]))).2

end Verif.Driver.Env
