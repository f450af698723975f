import Verif.Store.Lemmas
import Verif.Base.Names
import Mathlib.Data.List.Nodup
/-!
# C33, C34 — cluster specifications (libs/device/cluster.py)

`J` stands for arbitrary JSON-like values (runtime fields, device configuration).  Python dicts are lists of pairs in
insertion order.
-/
namespace Verif.Device
open Verif.Store (lookup assign)
variable {J : Type}

/-- Exceptions. -/
inductive Err where
  | keyError | valueError
  deriving DecidableEq

/-- cluster.py:27-51 -/
structure RuntimeInfo (J : Type) where
  version : J
  platform : J
  opBindings : J
  extra : List (String × J)

/-- cluster.py:54-73 -/
structure Node (J : Type) where
  name : String
  rank : Nat
  endpoint : String
  runtimeInfo : RuntimeInfo J

/-- cluster.py:76-99 -/
structure Device (J : Type) where
  name : String
  kind : String
  members : List (Node J)
  config : J

/-- cluster.py:102-111 -/
structure Spec (J : Type) where
  clusterId : String
  nodes : List (String × Node J)
  devices : List (String × Device J)

/-- `str.lower()` on ASCII letters (cluster.py:144), as the list of its characters. -/
def lower (s : String) : List Char := s.toList.map Char.toLower

/-- cluster.py:144 `device.kind.lower() == "ppu"` -/
def isPpu (d : Device J) : Bool := lower d.kind = "ppu".toList

/-- cluster.py:118-148 `__post_init__`: true when nothing is raised. -/
def postInit (s : Spec J) : Bool :=
  s.nodes.all (fun e => e.1 = e.2.name) &&
  s.devices.all (fun e => e.1 = e.2.name) &&
  s.devices.all (fun e => e.2.members.all (fun m => (lookup m.name s.nodes).isSome)) &&
  s.devices.all (fun e => !isPpu e.2 || e.2.members.length == 1)

/-- The constructor: the frozen dataclass with its `__post_init__`. -/
def mk (s : Spec J) : Except Err (Spec J) := if postInit s then .ok s else .error .valueError

/-- cluster.py:84-86 `member_ranks` -/
def memberRanks (d : Device J) : List Nat := (d.members.map (·.rank)).mergeSort (· ≤ ·)

/-- cluster.py:182-190 `endpoints` -/
def endpoints (s : Spec J) : List String :=
  ((s.nodes.map Prod.snd).mergeSort (fun a b => a.rank ≤ b.rank)).map (·.endpoint)

/-- cluster.py:165-171 `get_node_by_rank` -/
def getNodeByRank (s : Spec J) (r : Nat) : Except Err (Node J) :=
  match (s.nodes.map Prod.snd).find? (fun n => n.rank = r) with
  | some n => .ok n
  | none => .error .keyError

/-! ### Dictionaries -/

/-- The dictionary of a node in a configuration; a missing key is `none`. -/
structure NodeCfg (J : Type) where
  name : Option String
  endpoint : Option String
  runtimeInfo : Option (List (String × J))

structure DeviceCfg (J : Type) where
  kind : Option String
  members : Option (List String)
  config : Option J

structure Config (J : Type) where
  clusterId : Option String
  nodes : Option (List (NodeCfg J))
  devices : Option (List (String × DeviceCfg J))

/-- The JSON values the code itself makes: `"N/A"`, `{}`; and python truth. -/
structure Consts (J : Type) where
  na : J
  emptyDict : J
  falsy : J → Bool

/-- `dict.update` -/
def update (d e : List (String × J)) : List (String × J) := e.foldl (fun d p => assign p.1 p.2 d) d

/-- cluster.py:44-51 `RuntimeInfo.to_dict` -/
def RuntimeInfo.toDict (r : RuntimeInfo J) : List (String × J) :=
  update [("version", r.version), ("platform", r.platform), ("op_bindings", r.opBindings)] r.extra

/-- cluster.py:67-73 -/
def Node.toDict (n : Node J) : NodeCfg J :=
  { name := some n.name, endpoint := some n.endpoint, runtimeInfo := some n.runtimeInfo.toDict }

/-- cluster.py:93-99 -/
def Device.toDict (d : Device J) : DeviceCfg J :=
  { kind := some d.kind, members := some (d.members.map (·.name)), config := some d.config }

/-- cluster.py:173-181 -/
def Spec.toDict (s : Spec J) : Config J :=
  { clusterId := some s.clusterId, nodes := some (s.nodes.map (fun e => e.2.toDict)),
    devices := some (s.devices.map (fun e => (e.1, e.2.toDict))) }

/-- cluster.py:201-203, the recognised runtime keys. -/
def known : List String := ["version", "platform", "op_bindings"]

/-- cluster.py:209-220 -/
def parseRuntime (k : Consts J) (cfg : Option (List (String × J))) : RuntimeInfo J :=
  let d := cfg.getD []
  let ob := (lookup "op_bindings" d).getD k.emptyDict
  { version := (lookup "version" d).getD k.na
    platform := (lookup "platform" d).getD k.na
    opBindings := if k.falsy ob then k.emptyDict else ob
    extra := d.filter (fun e => !known.contains e.1) }

/-- cluster.py:204-231, the loop over nodes; `i` is the index of the first one, `m` the map built so far. -/
def parseNodes (k : Consts J) : Nat → List (String × Node J) → List (NodeCfg J) → Except Err (List (String × Node J))
  | _, m, [] => .ok m
  | i, m, c :: cs => match c.name, c.endpoint with
    | some name, some ep =>
      if (lookup name m).isSome then .error .valueError
      else parseNodes k (i + 1) (m ++ [(name, ⟨name, i, ep, parseRuntime k c.runtimeInfo⟩)]) cs
    | _, _ => .error .keyError

/-- cluster.py:237-244, the members of a device. -/
def parseMembers (nodes : List (String × Node J)) : List String → Except Err (List (Node J))
  | [] => .ok []
  | n :: ns => match lookup n nodes with
    | none => .error .valueError
    | some node => (parseMembers nodes ns).map (fun l => node :: l)

/-- cluster.py:233-251, the loop over devices. -/
def parseDevices (k : Consts J) (nodes : List (String × Node J)) :
    List (String × DeviceCfg J) → Except Err (List (String × Device J))
  | [] => .ok []
  | (name, c) :: cs => match c.members with
    | none => .error .keyError
    | some ms => match parseMembers nodes ms with
      | .error e => .error e
      | .ok members => match c.kind with
        | none => .error .keyError
        | some kind => (parseDevices k nodes cs).map (fun l =>
          (name, { name := name, kind := kind, members := members, config := c.config.getD k.emptyDict }) :: l)

/-- cluster.py:192-255 `from_dict` -/
def fromDict (k : Consts J) (c : Config J) : Except Err (Spec J) :=
  match c.nodes, c.devices with
  | some ns, some ds => match parseNodes k 0 [] ns with
    | .error e => .error e
    | .ok nodes => match parseDevices k nodes ds with
      | .error e => .error e
      | .ok devices => mk ⟨c.clusterId.getD ("cluster_" ++ nodes.length.repr), nodes, devices⟩
  | _, _ => .error .valueError

/-! ## Specification -/

/-- What a user expects of an accepted specification. -/
structure Sound (s : Spec J) : Prop where
  /-- ranks are 0..n-1, one node each -/
  ranks : (s.nodes.map (fun e => e.2.rank)).Perm (List.range s.nodes.length)
  names : (s.nodes.map (fun e => e.2.name)).Nodup
  nodeKeys : ∀ e ∈ s.nodes, e.1 = e.2.name
  deviceKeys : ∀ e ∈ s.devices, e.1 = e.2.name
  /-- every device member is one of the nodes -/
  members : ∀ d ∈ s.devices.map Prod.snd, ∀ m ∈ d.members, m ∈ s.nodes.map Prod.snd
  ppu : ∀ d ∈ s.devices.map Prod.snd, lower d.kind = "ppu".toList → d.members.length = 1

/-! ## C33 -/

/-- The constructor accepts exactly the specifications whose keys are the names, whose device members are named like some
node, and whose PPUs have one member. -/
theorem accepts_iff (s : Spec J) : (∃ t, mk s = .ok t) ↔
    (∀ e ∈ s.nodes, e.1 = e.2.name) ∧ (∀ e ∈ s.devices, e.1 = e.2.name) ∧
    (∀ e ∈ s.devices, ∀ m ∈ e.2.members, ∃ n, lookup m.name s.nodes = some n) ∧
    (∀ e ∈ s.devices, lower e.2.kind = "ppu".toList → e.2.members.length = 1) := by
  unfold mk
  by_cases h : postInit s = true
  · rw [if_pos h]
    simp only [postInit, Bool.and_eq_true, List.all_eq_true, decide_eq_true_eq, Bool.or_eq_true, Bool.not_eq_true',
      beq_iff_eq, Option.isSome_iff_exists, isPpu, decide_eq_false_iff_not] at h
    refine ⟨fun _ => ⟨h.1.1.1, h.1.1.2, h.1.2, fun e he hk => (h.2 e he).resolve_left (fun hn => hn hk)⟩, fun _ => ⟨s, rfl⟩⟩
  · rw [if_neg h]
    refine ⟨fun ⟨t, ht⟩ => by simp at ht, fun ⟨h1, h2, h3, h4⟩ => absurd ?_ h⟩
    simp only [postInit, Bool.and_eq_true, List.all_eq_true, decide_eq_true_eq, Bool.or_eq_true, Bool.not_eq_true',
      beq_iff_eq, Option.isSome_iff_exists, isPpu, decide_eq_false_iff_not]
    exact ⟨⟨⟨h1, h2⟩, h3⟩, fun e he => by
      by_cases hk : lower e.2.kind = "ppu".toList
      · exact Or.inr (h4 e he hk)
      · exact Or.inl hk⟩

theorem lookup_isSome_iff {A : Type} (k : String) (l : List (String × A)) :
    (lookup k l).isSome = true ↔ k ∈ l.map Prod.fst := by
  have := Verif.Store.lookup_none (k := k) (l := l)
  cases h : lookup k l with
  | none => simpa using this.1 h
  | some v =>
    simp only [Option.isSome_some, true_iff]
    exact Classical.byContradiction (fun hn => by rw [this.2 hn] at h; simp at h)

/-- State of the loop over nodes: names unique, keys are names, ranks are the indices. -/
structure Nodes (m : List (String × Node J)) : Prop where
  keys : (m.map Prod.fst).Nodup
  named : ∀ e ∈ m, e.1 = e.2.name
  ranks : m.map (fun e => e.2.rank) = List.range m.length

theorem parseNodes_ok (k : Consts J) (cs : List (NodeCfg J)) (m out : List (String × Node J)) (hm : Nodes m)
    (h : parseNodes k m.length m cs = .ok out) :
    Nodes out ∧ out.length = m.length + cs.length ∧
    out.map (fun e => some e.2.endpoint) = m.map (fun e => some e.2.endpoint) ++ cs.map (·.endpoint) ∧
    out.map (fun e => some e.2.name) = m.map (fun e => some e.2.name) ++ cs.map (·.name) := by
  induction cs generalizing m with
  | nil => simp only [parseNodes, Except.ok.injEq] at h; subst h; simp [hm]
  | cons c cs ih =>
    unfold parseNodes at h
    cases hn : c.name with
    | none => rw [hn] at h; simp at h
    | some name =>
      cases he : c.endpoint with
      | none => rw [hn, he] at h; simp at h
      | some ep =>
        rw [hn, he] at h
        simp only at h
        by_cases hd : (lookup name m).isSome = true
        · rw [if_pos hd] at h; simp at h
        · rw [if_neg hd] at h
          rw [lookup_isSome_iff] at hd
          have hlen : (m ++ [(name, (⟨name, m.length, ep, parseRuntime k c.runtimeInfo⟩ : Node J))]).length = m.length + 1 := by simp
          rw [← hlen] at h
          have hN : Nodes (m ++ [(name, (⟨name, m.length, ep, parseRuntime k c.runtimeInfo⟩ : Node J))]) := by
            refine ⟨?_, ?_, ?_⟩
            · rw [List.map_append]
              simp only [List.map_cons, List.map_nil]
              exact List.nodup_append.2 ⟨hm.keys, by simp, by
                intro a ha b hb; simp at hb; rintro rfl; exact hd (hb ▸ ha)⟩
            · intro e he
              rcases List.mem_append.1 he with he | he
              · exact hm.named e he
              · simp only [List.mem_singleton] at he; subst he; rfl
            · rw [List.map_append, hm.ranks]
              simp [List.range_succ]
          obtain ⟨h1, h2, h3, h4⟩ := ih _ hN h
          refine ⟨h1, ?_, ?_, ?_⟩
          · rw [h2]; simp; omega
          · rw [h3]; simp [he]
          · rw [h4]; simp [hn]

theorem parseMembers_mem (nodes : List (String × Node J)) (ns : List String) (out : List (Node J))
    (h : parseMembers nodes ns = .ok out) : ∀ m ∈ out, m ∈ nodes.map Prod.snd := by
  induction ns generalizing out with
  | nil => simp only [parseMembers, Except.ok.injEq] at h; subst h; simp
  | cons n ns ih =>
    unfold parseMembers at h
    cases hl : lookup n nodes with
    | none => rw [hl] at h; simp at h
    | some node =>
      rw [hl] at h
      cases hr : parseMembers nodes ns with
      | error e => rw [hr] at h; simp [Except.map] at h
      | ok l =>
        rw [hr] at h
        simp only [Except.map, Except.ok.injEq] at h
        subst h
        intro m hm
        rcases List.mem_cons.1 hm with rfl | hm
        · exact List.mem_map.2 ⟨_, Verif.Store.lookup_mem hl, rfl⟩
        · exact ih l hr m hm

theorem parseDevices_mem (k : Consts J) (nodes : List (String × Node J)) (ds : List (String × DeviceCfg J))
    (out : List (String × Device J)) (h : parseDevices k nodes ds = .ok out) :
    ∀ e ∈ out, e.1 = e.2.name ∧ ∀ m ∈ e.2.members, m ∈ nodes.map Prod.snd := by
  induction ds generalizing out with
  | nil => simp only [parseDevices, Except.ok.injEq] at h; subst h; simp
  | cons c ds ih =>
    obtain ⟨name, c⟩ := c
    unfold parseDevices at h
    cases hm : c.members with
    | none => rw [hm] at h; simp at h
    | some ms =>
      rw [hm] at h
      simp only at h
      cases hp : parseMembers nodes ms with
      | error e => rw [hp] at h; simp at h
      | ok members =>
        rw [hp] at h
        simp only at h
        cases hk : c.kind with
        | none => rw [hk] at h; simp at h
        | some kind =>
          rw [hk] at h
          cases hr : parseDevices k nodes ds with
          | error e => rw [hr] at h; simp [Except.map] at h
          | ok l =>
            rw [hr] at h
            simp only [Except.map, Except.ok.injEq] at h
            subst h
            intro e he
            rcases List.mem_cons.1 he with rfl | he
            · exact ⟨rfl, parseMembers_mem nodes ms members hp⟩
            · exact ih l hr e he

/-- **C33 (loaded specifications).** Every specification that `from_dict` returns is sound, has one node per entry of the
configuration, and its ranks follow the order of the entries. -/
theorem fromDict_sound (k : Consts J) (c : Config J) (s : Spec J) (h : fromDict k c = .ok s) :
    Sound s ∧ ∃ ns, c.nodes = some ns ∧ s.nodes.length = ns.length ∧
      s.nodes.map (fun e => e.2.rank) = List.range ns.length ∧
      s.nodes.map (fun e => some e.2.endpoint) = ns.map (·.endpoint) := by
  unfold fromDict at h
  cases hn : c.nodes with
  | none => rw [hn] at h; simp at h
  | some ns =>
    cases hd : c.devices with
    | none => rw [hn, hd] at h; simp at h
    | some ds =>
      rw [hn, hd] at h
      simp only at h
      cases hp : parseNodes k 0 [] ns with
      | error e => rw [hp] at h; simp at h
      | ok nodes =>
        rw [hp] at h
        simp only at h
        cases hq : parseDevices k nodes ds with
        | error e => rw [hq] at h; simp at h
        | ok devices =>
          rw [hq] at h
          simp only at h
          obtain ⟨h1, h2, h3, h4⟩ := parseNodes_ok k ns [] nodes ⟨by simp, by simp, by simp⟩ hp
          have hacc := (accepts_iff _).1 ⟨s, h⟩
          have hs : s = ⟨c.clusterId.getD ("cluster_" ++ nodes.length.repr), nodes, devices⟩ := by
            unfold mk at h; split at h
            · exact (Except.ok.inj h).symm
            · simp at h
          subst hs
          simp only at hacc
          have hdev := parseDevices_mem k nodes ds devices hq
          have hlen : nodes.length = ns.length := by simpa using h2
          refine ⟨⟨?_, ?_, hacc.1, hacc.2.1, ?_, ?_⟩, ns, rfl, hlen, ?_, by simpa using h3⟩
          · show (nodes.map _).Perm _; rw [h1.ranks]
          · show (nodes.map _).Nodup
            have : nodes.map (fun e => e.2.name) = nodes.map Prod.fst :=
              List.map_congr_left (fun e he => (h1.named e he).symm)
            rw [this]; exact h1.keys
          · intro d hd m hm
            obtain ⟨e, he, rfl⟩ := List.mem_map.1 hd
            exact (hdev e he).2 m hm
          · intro d hd
            obtain ⟨e, he, rfl⟩ := List.mem_map.1 hd
            exact hacc.2.2.2 e he
          · show nodes.map _ = _; rw [h1.ranks, hlen]

/-- **C33.** In a sound specification `endpoints` has one entry per rank, in rank order: entry `r` is the endpoint of the
node with rank `r`. -/
theorem endpoints_by_rank (s : Spec J) (h : Sound s) :
    (endpoints s).length = s.nodes.length ∧
    ∀ e ∈ s.nodes, (endpoints s)[e.2.rank]? = some e.2.endpoint := by
  have hp : ((s.nodes.map Prod.snd).mergeSort (fun a b => decide (a.rank ≤ b.rank))).Perm (s.nodes.map Prod.snd) :=
    List.mergeSort_perm _ _
  have hsorted : ((s.nodes.map Prod.snd).mergeSort (fun a b => decide (a.rank ≤ b.rank))).Pairwise
      (fun a b => decide (a.rank ≤ b.rank) = true) := by
    apply List.pairwise_mergeSort
    · intro a b c hab hbc; simp at *; omega
    · intro a b; simp; omega
  have hranks : ((s.nodes.map Prod.snd).mergeSort (fun a b => decide (a.rank ≤ b.rank))).map (·.rank) =
      List.range s.nodes.length := by
    have h1 : (((s.nodes.map Prod.snd).mergeSort (fun a b => decide (a.rank ≤ b.rank))).map (·.rank)).Perm
        (List.range s.nodes.length) := by
      refine (hp.map _).trans ?_
      rw [List.map_map]; exact h.ranks
    refine List.Perm.eq_of_pairwise (le := fun a b => a ≤ b) (by intro a b _ _; omega) ?_ ?_ h1
    · rw [List.pairwise_map]; exact hsorted.imp (fun hab => by simpa using hab)
    · exact List.pairwise_le_range
  generalize hL : (s.nodes.map Prod.snd).mergeSort (fun a b => decide (a.rank ≤ b.rank)) = L at hp hranks
  have he : endpoints s = L.map (·.endpoint) := by unfold endpoints; rw [← hL]
  constructor
  · rw [he, List.length_map, hp.length_eq, List.length_map]
  · intro e hm
    have hm : e.2 ∈ L := hp.mem_iff.2 (List.mem_map_of_mem hm)
    obtain ⟨i, hi, hie⟩ := List.mem_iff_getElem.1 hm
    have : e.2.rank = i := by
      have h2 : (L.map (·.rank))[i]'(by simpa using hi) = L[i].rank := by simp
      rw [hie] at h2
      rw [← h2]; simp only [hranks, List.getElem_range]
    rw [he, this, List.getElem?_map, List.getElem?_eq_getElem hi, hie]; rfl

/-- **C33.** In a sound specification there is exactly one node per rank and `get_node_by_rank` returns it. -/
theorem node_by_rank (s : Spec J) (h : Sound s) (r : Nat) :
    (r < s.nodes.length → ∃ n, getNodeByRank s r = .ok n ∧ n ∈ s.nodes.map Prod.snd ∧ n.rank = r) ∧
    (s.nodes.length ≤ r → getNodeByRank s r = .error .keyError) := by
  have hr : ∀ x, x ∈ s.nodes.map (fun e => e.2.rank) ↔ x < s.nodes.length := by
    intro x; rw [h.ranks.mem_iff, List.mem_range]
  unfold getNodeByRank
  constructor
  · intro hlt
    obtain ⟨e, he, her⟩ := List.mem_map.1 ((hr r).2 hlt)
    cases hf : (s.nodes.map Prod.snd).find? (fun n => decide (n.rank = r)) with
    | none =>
      have := List.find?_eq_none.1 hf e.2 (List.mem_map_of_mem he)
      simp [her] at this
    | some n =>
      exact ⟨n, rfl, List.mem_of_find?_eq_some hf, by simpa using List.find?_some hf⟩
  · intro hge
    cases hf : (s.nodes.map Prod.snd).find? (fun n => decide (n.rank = r)) with
    | none => rfl
    | some n =>
      obtain ⟨e, he, hen⟩ := List.mem_map.1 (List.mem_of_find?_eq_some hf)
      have h2 : n.rank = r := by simpa using List.find?_some hf
      have h3 := (hr r).1 (List.mem_map.2 ⟨e, he, by rw [hen, h2]⟩)
      omega

/-! ### Concrete specifications -/

def nodeOf (name : String) (rank : Nat) (ep : String) : Node Nat :=
  { name := name, rank := rank, endpoint := ep, runtimeInfo := { version := 1, platform := 2, opBindings := 0, extra := [] } }

def good : Config Nat :=
  { clusterId := none
    nodes := some [⟨some "alice", some "h:1", none⟩, ⟨some "bob", some "h:2", some [("version", 7), ("gpu", 8)]⟩]
    devices := some [("P0", ⟨some "PPU", some ["alice"], none⟩), ("SP0", ⟨some "SPU", some ["bob", "alice"], some 3⟩)] }
def consts : Consts Nat := { na := 9, emptyDict := 0, falsy := fun j => j = 0 }

example : ∃ s, fromDict consts good = .ok s ∧ s.clusterId = "cluster_2" ∧
    s.nodes.map (fun e => (e.1, e.2.rank)) = [("alice", 0), ("bob", 1)] ∧
    s.devices.map (fun e => (e.1, e.2.members.map (·.name))) = [("P0", ["alice"]), ("SP0", ["bob", "alice"])] :=
  ⟨_, rfl, by decide, by decide, by decide⟩

/-- **C33, violated**: a specification built directly (not through `from_dict`) is accepted with two nodes of the same
rank, and a device may hold a member that merely has the name of a node. -/
theorem ranks_checked_violated : ∃ s : Spec Nat, mk s = .ok s ∧ ¬ Sound s := by
  refine ⟨⟨"c", [("a", nodeOf "a" 0 "h:1"), ("b", nodeOf "b" 0 "h:2")],
      [("P0", ⟨"P0", "ppu", [nodeOf "a" 5 "h:9"], 0⟩)]⟩, if_pos (by decide), ?_⟩
  intro h
  have := h.ranks.mem_iff (a := 1)
  simp [nodeOf] at this

/-! ## C34 -/

theorem update_append (d e : List (String × J)) (hd : ∀ p ∈ e, p.1 ∉ d.map Prod.fst) (hn : (e.map Prod.fst).Nodup) :
    update d e = d ++ e := by
  induction e generalizing d with
  | nil => simp [update]
  | cons p e ih =>
    have hassign : ∀ (d : List (String × J)), p.1 ∉ d.map Prod.fst → assign p.1 p.2 d = d ++ [p] := by
      intro d
      induction d with
      | nil => intro _; rfl
      | cons x d ih =>
        intro h
        simp only [List.map_cons, List.mem_cons, not_or] at h
        obtain ⟨a, w⟩ := x
        simp [assign, Ne.symm h.1, ih h.2]
    simp only [List.map_cons, List.nodup_cons] at hn
    show update (assign p.1 p.2 d) e = _
    rw [hassign d (hd p (by simp)), ih]
    · simp
    · intro q hq
      rw [List.map_append, List.mem_append]
      rintro (h | h)
      · exact hd q (by simp [hq]) h
      · simp at h
        exact hn.1 (h ▸ List.mem_map_of_mem hq)
    · exact hn.2

/-- Runtime information whose extra fields do not reuse a recognised key (as the class documents). -/
def RuntimeInfo.Clean (r : RuntimeInfo J) : Prop :=
  (∀ e ∈ r.extra, e.1 ∉ known) ∧ (r.extra.map Prod.fst).Nodup

theorem runtime_roundtrip (k : Consts J) (hk : ∀ j, k.falsy j = true → j = k.emptyDict) (r : RuntimeInfo J)
    (h : r.Clean) : parseRuntime k (some r.toDict) = r := by
  have hd : r.toDict = [("version", r.version), ("platform", r.platform), ("op_bindings", r.opBindings)] ++ r.extra :=
    update_append _ _ (fun e he => by simpa [known] using h.1 e he) h.2
  unfold parseRuntime
  simp only [Option.getD_some, hd]
  obtain ⟨v, p, ob, ex⟩ := r
  have hf : ex.filter (fun e => !known.contains e.1) = ex := by
    rw [List.filter_eq_self]
    intro e he
    have := h.1 e he
    simpa using this
  have hob : (if k.falsy ob = true then k.emptyDict else ob) = ob := by
    split
    · rename_i hx; exact (hk ob hx).symm
    · rfl
  simp [lookup, known] at hf ⊢
  exact ⟨fun hx => (hk ob hx).symm, hf⟩

theorem parseNodes_toDict (k : Consts J) (hk : ∀ j, k.falsy j = true → j = k.emptyDict)
    (l m : List (String × Node J)) (hkeys : ((m ++ l).map Prod.fst).Nodup) (hnamed : ∀ e ∈ l, e.1 = e.2.name)
    (hranks : ∀ (i : Nat) e, l[i]? = some e → e.2.rank = m.length + i) (hclean : ∀ e ∈ l, e.2.runtimeInfo.Clean) :
    parseNodes k m.length m (l.map (fun e => e.2.toDict)) = .ok (m ++ l) := by
  induction l generalizing m with
  | nil => simp [parseNodes]
  | cons e l ih =>
    obtain ⟨key, n⟩ := e
    have hname : key = n.name := hnamed (key, n) (by simp)
    subst hname
    have hnot : ¬ (lookup n.name m).isSome = true := by
      rw [lookup_isSome_iff]
      intro hmem
      rw [List.map_append, List.nodup_append] at hkeys
      exact hkeys.2.2 _ hmem n.name (by simp) rfl
    have hrank : n.rank = m.length := by simpa using hranks 0 (n.name, n) (by simp)
    simp only [List.map_cons, Node.toDict, parseNodes, if_neg hnot, runtime_roundtrip k hk _ (hclean (n.name, n) (by simp))]
    have hn : ({ name := n.name, rank := m.length, endpoint := n.endpoint, runtimeInfo := n.runtimeInfo } : Node J) = n := by
      rw [← hrank]
    rw [hn]
    have hlen : (m ++ [(n.name, n)]).length = m.length + 1 := by simp
    rw [← hlen]
    have := ih (m ++ [(n.name, n)]) (by simpa using hkeys) (fun e he => hnamed e (by simp [he])) (by
      intro i e he
      have := hranks (i + 1) e (by simpa using he)
      rw [this]; simp; omega) (fun e he => hclean e (by simp [he]))
    simp only [Node.toDict] at this
    rw [this]; simp

theorem parseMembers_names (nodes : List (String × Node J)) (ms : List (Node J))
    (h : ∀ m ∈ ms, lookup m.name nodes = some m) : parseMembers nodes (ms.map (·.name)) = .ok ms := by
  induction ms with
  | nil => rfl
  | cons m ms ih =>
    simp [parseMembers, h m (by simp), ih (fun x hx => h x (by simp [hx])), Except.map]

theorem parseDevices_toDict (k : Consts J) (nodes : List (String × Node J)) (ds : List (String × Device J))
    (h1 : ∀ e ∈ ds, e.1 = e.2.name) (h2 : ∀ e ∈ ds, ∀ m ∈ e.2.members, lookup m.name nodes = some m) :
    parseDevices k nodes (ds.map (fun e => (e.1, e.2.toDict))) = .ok ds := by
  induction ds with
  | nil => rfl
  | cons e ds ih =>
    obtain ⟨name, d⟩ := e
    have hn : name = d.name := h1 (name, d) (by simp)
    subst hn
    have hm := parseMembers_names nodes d.members (h2 (d.name, d) (by simp))
    have := ih (fun e he => h1 e (by simp [he])) (fun e he => h2 e (by simp [he]))
    simp only [List.map_cons, Device.toDict, parseDevices, hm] at this ⊢
    rw [this]; simp [Except.map]

/-- **C34, partial.** A sound specification whose nodes are listed in rank order (as every loaded one is) and whose extra
runtime fields avoid the recognised names comes back unchanged from its own dictionary. -/
theorem dict_roundtrip_partial (k : Consts J) (hk : ∀ j, k.falsy j = true → j = k.emptyDict) (s : Spec J) (h : Sound s)
    (horder : s.nodes.map (fun e => e.2.rank) = List.range s.nodes.length)
    (hclean : ∀ e ∈ s.nodes, e.2.runtimeInfo.Clean) : fromDict k s.toDict = .ok s := by
  have hkeys : (s.nodes.map Prod.fst).Nodup := by
    have : s.nodes.map Prod.fst = s.nodes.map (fun e => e.2.name) := List.map_congr_left (fun e he => h.nodeKeys e he)
    rw [this]; exact h.names
  have hn : parseNodes k 0 [] (s.nodes.map (fun e => e.2.toDict)) = .ok s.nodes := by
    have := parseNodes_toDict k hk s.nodes [] (by simpa using hkeys) h.nodeKeys (by
      intro i e he
      have hlt := (List.getElem?_eq_some_iff.1 he).1
      have h2 : (s.nodes.map (fun e => e.2.rank))[i]? = some e.2.rank := by rw [List.getElem?_map, he]; rfl
      rw [horder, List.getElem?_range hlt] at h2
      simpa using (Option.some.inj h2).symm) hclean
    simpa using this
  have hd : parseDevices k s.nodes (s.devices.map (fun e => (e.1, e.2.toDict))) = .ok s.devices := by
    refine parseDevices_toDict k s.nodes s.devices h.deviceKeys ?_
    intro e he m hm
    obtain ⟨x, hx, hxm⟩ := List.mem_map.1 (h.members e.2 (List.mem_map_of_mem he) m hm)
    have hxn := h.nodeKeys x hx
    refine Verif.Store.mem_lookup hkeys ?_
    rw [← hxm, ← hxn]; exact hx
  have hmk : mk s = .ok s := by
    obtain ⟨t, ht⟩ := (accepts_iff s).2 ⟨h.nodeKeys, h.deviceKeys, fun e he m hm => by
      obtain ⟨x, hx, hxm⟩ := List.mem_map.1 (h.members e.2 (List.mem_map_of_mem he) m hm)
      exact ⟨x.2, Verif.Store.mem_lookup hkeys (by rw [← hxm, ← h.nodeKeys x hx]; exact hx)⟩,
      fun e he => h.ppu e.2 (List.mem_map_of_mem he)⟩
    unfold mk at ht ⊢
    split at ht
    · rename_i hp; rw [if_pos hp]
    · simp at ht
  unfold fromDict
  simp only [Spec.toDict, hn, hd, Option.getD_some]
  exact hmk

/-- A loaded specification always satisfies the order and cleanness assumptions when the configuration's runtime
dictionaries are dictionaries (each key once). -/
theorem parseRuntime_clean (k : Consts J) (cfg : Option (List (String × J)))
    (h : ∀ d, cfg = some d → (d.map Prod.fst).Nodup) : (parseRuntime k cfg).Clean := by
  unfold parseRuntime RuntimeInfo.Clean
  simp only
  constructor
  · intro e he
    have := (List.mem_filter.1 he).2
    simpa using this
  · cases cfg with
    | none => simp
    | some d =>
      simp only [Option.getD_some]
      have : ((d.filter (fun e => !known.contains e.1)).map Prod.fst).Sublist (d.map Prod.fst) :=
        List.filter_sublist.map Prod.fst
      exact (h d rfl).sublist this

/-- **C34, violated**: the dictionary does not carry ranks, so a specification whose nodes are not listed in rank order
comes back with other ranks. -/
theorem dict_roundtrip_violated : ∃ s : Spec Nat, mk s = .ok s ∧ Sound s ∧
    ∃ t, fromDict consts s.toDict = .ok t ∧ (getNodeByRank t 0).toOption.map (·.name) ≠
      (getNodeByRank s 0).toOption.map (·.name) := by
  refine ⟨{ clusterId := "c", nodes := [("b", nodeOf "b" 1 "h:2"), ("a", nodeOf "a" 0 "h:1")], devices := [] },
    if_pos (by decide), ?_,
    { clusterId := "c", nodes := [("b", nodeOf "b" 0 "h:2"), ("a", nodeOf "a" 1 "h:1")], devices := [] }, rfl, by decide⟩
  constructor
  · show [1, 0].Perm [0, 1]; exact List.Perm.swap 0 1 []
  · simp [nodeOf]
  · simp [nodeOf]
  · simp
  · simp
  · simp

/-- The two halves together on a concrete specification. -/
example : ∃ s, fromDict consts good = .ok s ∧ fromDict consts s.toDict = .ok s := by
  refine ⟨_, rfl, ?_⟩
  rfl

/-! ## `ClusterSpec.simple` -/

/-- cluster.py:305-318, the nodes. -/
def simpleNodes (v p ob : J) (ep : Nat → String) (n : Nat) : List (String × Node J) :=
  (List.range n).map (fun i => ("node" ++ i.repr, ⟨"node" ++ i.repr, i, ep i, ⟨v, p, ob, []⟩⟩))

/-- cluster.py:257-350 `simple` with both kinds of devices and a common `op_bindings`; `spu` is `spu_world_size`. -/
def simple (v p ob cfg emptyCfg : J) (ep : Nat → String) (n spu : Nat) : Except Err (Spec J) :=
  let nodes := simpleNodes v p ob ep n
  if n < spu then .error .keyError
  else mk ⟨"__sim_" ++ n.repr, nodes,
       (List.range n).map (fun i => ("P" ++ i.repr,
         ⟨"P" ++ i.repr, "ppu", ((nodes.map Prod.snd).take (i + 1)).drop i, emptyCfg⟩)) ++
         [("SP0", ⟨"SP0", "SPU", (nodes.map Prod.snd).take spu, cfg⟩)]⟩

/-- **C33.** `ClusterSpec.simple` gives a sound specification of the requested size with the given endpoints in rank
order, for every size. -/
theorem simple_sound (v p ob cfg emptyCfg : J) (ep : Nat → String) (n spu : Nat) (hspu : spu ≤ n) :
    ∃ s, simple v p ob cfg emptyCfg ep n spu = .ok s ∧ Sound s ∧ s.nodes.length = n ∧
      endpoints s = (List.range n).map ep := by
  have hlen : (simpleNodes v p ob ep n).length = n := by simp [simpleNodes]
  have hnames : ((simpleNodes v p ob ep n).map (fun e => e.2.name)).Nodup := by
    simp only [simpleNodes, List.map_map]
    refine List.Nodup.map_on ?_ List.nodup_range
    intro a _ b _ hab
    exact Verif.Base.append_repr_inj hab
  have hkey : ∀ e ∈ simpleNodes v p ob ep n, e.1 = e.2.name := by
    intro e he; obtain ⟨i, _, rfl⟩ := List.mem_map.1 he; rfl
  have hkeys : ((simpleNodes v p ob ep n).map Prod.fst).Nodup := by
    rw [List.map_congr_left hkey]; exact hnames
  have hmem : ∀ m ∈ (simpleNodes v p ob ep n).map Prod.snd, ∃ x, lookup m.name (simpleNodes v p ob ep n) = some x := by
    intro m hm
    obtain ⟨e, he, rfl⟩ := List.mem_map.1 hm
    exact ⟨e.2, Verif.Store.mem_lookup hkeys (by rw [← hkey e he]; exact he)⟩
  unfold simple
  simp only
  rw [if_neg (by omega)]
  generalize hs : (⟨"__sim_" ++ n.repr, simpleNodes v p ob ep n,
       (List.range n).map (fun i => ("P" ++ i.repr,
         ⟨"P" ++ i.repr, "ppu", (((simpleNodes v p ob ep n).map Prod.snd).take (i + 1)).drop i, emptyCfg⟩)) ++
         [("SP0", ⟨"SP0", "SPU", ((simpleNodes v p ob ep n).map Prod.snd).take spu, cfg⟩)]⟩ : Spec J) = s
  have hnodes : s.nodes = simpleNodes v p ob ep n := by rw [← hs]
  have hdev : ∀ e ∈ s.devices, e.1 = e.2.name ∧ (∀ m ∈ e.2.members, m ∈ (simpleNodes v p ob ep n).map Prod.snd) ∧
      (lower e.2.kind = "ppu".toList → e.2.members.length = 1) := by
    rw [← hs]
    intro e he
    rcases List.mem_append.1 he with he | he
    · obtain ⟨i, hi, rfl⟩ := List.mem_map.1 he
      rw [List.mem_range] at hi
      refine ⟨rfl, fun m hm => List.mem_of_mem_take (List.mem_of_mem_drop hm), fun _ => ?_⟩
      simp only [List.length_drop, List.length_take, List.length_map, hlen]; omega
    · simp only [List.mem_singleton] at he; subst he
      exact ⟨rfl, fun m hm => List.mem_of_mem_take hm, fun h => absurd (show lower "SPU" = "ppu".toList from h) (by decide)⟩
  have hsound : Sound s := by
    refine ⟨?_, by rw [hnodes]; exact hnames, by rw [hnodes]; exact hkey, fun e he => (hdev e he).1, ?_, ?_⟩
    · rw [hnodes, hlen]
      simp [simpleNodes, List.map_map, Function.comp_def]
    · intro d hd m hm
      obtain ⟨e, he, rfl⟩ := List.mem_map.1 hd
      rw [hnodes]; exact (hdev e he).2.1 m hm
    · intro d hd
      obtain ⟨e, he, rfl⟩ := List.mem_map.1 hd
      exact (hdev e he).2.2
  have hmk : mk s = .ok s := by
    obtain ⟨t, ht⟩ := (accepts_iff s).2 ⟨hsound.nodeKeys, hsound.deviceKeys,
      fun e he m hm => by rw [hnodes]; exact hmem m ((hdev e he).2.1 m hm), fun e he => (hdev e he).2.2⟩
    unfold mk at ht ⊢
    split at ht
    · rename_i hp; rw [if_pos hp]
    · simp at ht
  refine ⟨s, hmk, hsound, by rw [hnodes, hlen], ?_⟩
  obtain ⟨hl, he⟩ := endpoints_by_rank s hsound
  apply List.ext_getElem?
  intro i
  by_cases hi : i < n
  · have hm : ("node" ++ i.repr, (⟨"node" ++ i.repr, i, ep i, ⟨v, p, ob, []⟩⟩ : Node J)) ∈ s.nodes := by
      rw [hnodes]; exact List.mem_map.2 ⟨i, List.mem_range.2 hi, rfl⟩
    have := he _ hm
    simp only at this
    rw [this, List.getElem?_map, List.getElem?_range hi]; rfl
  · rw [List.getElem?_eq_none (by rw [hl, hnodes, hlen]; omega), List.getElem?_eq_none (by simp; omega)]

end Verif.Device
