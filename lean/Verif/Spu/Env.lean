import Verif.Spu.Config
/-!
# C82 — from the environment and the configuration to the link libspu creates
(backends/spu_state.py:40-90, 112-119, 146-170, 290-389, backends/simp_worker/request.py:77)

Where every option of a link comes from. libspu's own defaults are a parameter.
-/
namespace Verif.Spu

/-- values of link options: strings and integers -/
inductive Val
  | str (s : String)
  | int (n : Int)
  deriving DecidableEq, Repr

/-- `os.getenv(name)` of a process (Python's os) -/
abbrev Vars := String → Option String

/-- `os.getenv(name) or default` (/repo/mplang/backends/spu_state.py:66-71) -/
def envStr (env : Vars) (name dflt : String) : Val :=
  match env name with
  | none => .str dflt
  | some s => if s = "" then .str dflt else .str s

/-- `int(os.getenv(name) or default)`; `parse` is Python's `int`, `none` its ValueError
(/repo/mplang/backends/spu_state.py:72-79, 86-93) -/
def envInt (parse : String → Option Int) (env : Vars) (name : String) (dflt : Int) : Option Val :=
  match env name with
  | none => some (.int dflt)
  | some s => if s = "" then some (.int dflt) else (parse s).map .int

/-- `_opt_int_env` (/repo/mplang/backends/spu_state.py:40-43) -/
def optIntEnv (parse : String → Option Int) (env : Vars) (name : String) : Option (Option Val) :=
  match env name with
  | none => some none
  | some s => if s = "" then some none else (parse s).map fun n => some (.int n)

/-- `BrpcLinkConfig()`; `none` is a ValueError (/repo/mplang/backends/spu_state.py:66-93) -/
def Brpc.ofEnv (parse : String → Option Int) (env : Vars) : Option (Brpc Val) :=
  let protocol := envStr env "MPLANG_BRPC_PROTOCOL" "http"
  let conn := envStr env "MPLANG_BRPC_CONN_TYPE" "pooled"
  match envInt parse env "MPLANG_BRPC_RECV_TIMEOUT_MS" 100000 with
  | none => none
  | some recv => match envInt parse env "MPLANG_BRPC_HTTP_MAX_PAYLOAD" (32 * 1024 * 1024) with
    | none => none
    | some payload => match optIntEnv parse env "MPLANG_BRPC_HTTP_TIMEOUT_MS" with
      | none => none
      | some http => match envInt parse env "MPLANG_BRPC_CONNECT_RETRY_TIMES" 60 with
        | none => none
        | some times => match envInt parse env "MPLANG_BRPC_CONNECT_RETRY_INTERVAL_MS" 1000 with
          | none => none
          | some interval => some ⟨protocol, conn, recv, payload, http, times, interval⟩

/-- attributes of `libspu.link.Desc` the code sets (/repo/mplang/backends/spu_state.py:360-368) -/
inductive Attr
  | recvTimeout | httpTimeout | maxPayload | protocol | connType | retryTimes | retryInterval
  deriving DecidableEq, Repr

/-- `libspu.link.Desc`: its attributes, and the parties added (/repo/mplang/backends/spu_state.py:360-371) -/
structure Desc where
  attr : Attr → Val
  parties : List (String × String)

/-- an assignment to an attribute (/repo/mplang/backends/spu_state.py:361) -/
def Desc.set (d : Desc) (a : Attr) (v : Val) : Desc := { d with attr := fun b => if b = a then v else d.attr b }

/-- `add_party` for a list of addresses (/repo/mplang/backends/spu_state.py:370-371) -/
def Desc.add (d : Desc) (as : List String) : Desc := { d with parties := as.mapIdx fun i a => ("P" ++ i.repr, a) }

/-- `_create_brpc_link`: the description given to libspu (/repo/mplang/backends/spu_state.py:359-371) -/
def brpcDesc (lib : Attr → Val) (cfg : Brpc Val) (endpoints : List String) : Desc :=
  let d := (⟨lib, []⟩ : Desc).set .recvTimeout cfg.recvTimeout |>.set .maxPayload cfg.maxPayload
    |>.set .protocol cfg.protocol |>.set .connType cfg.connType |>.set .retryTimes cfg.retryTimes
    |>.set .retryInterval cfg.retryInterval
  let d := match cfg.httpTimeout with
    | none => d
    | some v => d.set .httpTimeout v
  d.add endpoints

/-- `_create_mem_link` (/repo/mplang/backends/spu_state.py:298-306) -/
def memDesc (lib : Attr → Val) (size : Nat) : Desc :=
  ((⟨lib, []⟩ : Desc).set .recvTimeout (.int (30 * 1000))).add ((List.range size).map fun i => "mem:" ++ i.repr)

/-- `_create_channels_link` (/repo/mplang/backends/spu_state.py:342-350) -/
def channelsDesc (lib : Attr → Val) (parties : List Nat) : Desc :=
  ((⟨lib, []⟩ : Desc).set .recvTimeout (.int (100 * 1000))).add (parties.map fun p => "dummy_" ++ p.repr)

/-- how a link is created: endpoints first, then the communicator, else memory (/repo/mplang/backends/spu_state.py:188-199) -/
inductive How
  | brpc (endpoints : List String)
  | channels (parties : List Nat)
  | mem (size : Nat)

/-- the description of the link of an SPU call (/repo/mplang/backends/spu_state.py:188-199, 240-247) -/
def linkDesc (lib : Attr → Val) (dflt : Brpc Val) (c : Config Val) : How → Desc
  | .brpc es => brpcDesc lib (effective dflt c) es
  | .channels ps => channelsDesc lib ps
  | .mem n => memDesc lib n

/-- A request on a worker: its `SPUState`, and so `BrpcLinkConfig()`, is created before the graph is looked at; `none` is a ValueError
(/repo/mplang/backends/simp_worker/request.py:77, /repo/mplang/backends/spu_state.py:119) -/
def request {R : Type} (parse : String → Option Int) (env : Vars) (work : Brpc Val → Option R) : Option R :=
  match Brpc.ofEnv parse env with
  | none => none
  | some b => work b

/-! ## Specification -/

/-- **Specification** an option: the attribute of the link, where an SPU's `link_desc` names it, the environment variable, whether it is a
number, and what mplang uses otherwise (`none`: leave it to libspu) -/
structure Opt where
  attr : Attr
  given : LinkDesc Val → Option Val
  var : String
  number : Bool
  builtin : Option Val

/-- **Specification** the options of a link -/
def options : List Opt :=
  [⟨.protocol, LinkDesc.protocol, "MPLANG_BRPC_PROTOCOL", false, some (.str "http")⟩,
   ⟨.connType, LinkDesc.connType, "MPLANG_BRPC_CONN_TYPE", false, some (.str "pooled")⟩,
   ⟨.recvTimeout, LinkDesc.recvTimeout, "MPLANG_BRPC_RECV_TIMEOUT_MS", true, some (.int 100000)⟩,
   ⟨.maxPayload, LinkDesc.maxPayload, "MPLANG_BRPC_HTTP_MAX_PAYLOAD", true, some (.int 33554432)⟩,
   ⟨.httpTimeout, LinkDesc.httpTimeout, "MPLANG_BRPC_HTTP_TIMEOUT_MS", true, none⟩,
   ⟨.retryTimes, LinkDesc.retryTimes, "MPLANG_BRPC_CONNECT_RETRY_TIMES", true, some (.int 60)⟩,
   ⟨.retryInterval, LinkDesc.retryInterval, "MPLANG_BRPC_CONNECT_RETRY_INTERVAL_MS", true, some (.int 1000)⟩]

/-- **Specification** what a variable says: nothing if it is unset or empty -/
def said (env : Vars) (name : String) : Option String := (env name).filter (· ≠ "")

/-- **Specification** where an option comes from: the SPU's `link_desc`, else the environment, else mplang, else libspu -/
def IsSetting (parse : String → Option Int) (env : Vars) (lib : Attr → Val) (l : Option (LinkDesc Val)) (o : Opt) (v : Val) : Prop :=
  match l.bind o.given, said env o.var with
  | some x, _ => v = x
  | none, some s => if o.number then ∃ n, parse s = some n ∧ v = .int n else v = .str s
  | none, none => v = o.builtin.getD (lib o.attr)

/-! ## Proofs -/

theorem envStr_said (env : Vars) (name dflt : String) : envStr env name dflt = match said env name with
    | some s => .str s
    | none => .str dflt := by
  unfold envStr said
  cases env name with
  | none => rfl
  | some s => by_cases h : s = "" <;> simp [h, Option.filter]

theorem envInt_said (parse : String → Option Int) (env : Vars) (name : String) (dflt : Int) : envInt parse env name dflt =
    match said env name with
    | some s => (parse s).map .int
    | none => some (.int dflt) := by
  unfold envInt said
  cases env name with
  | none => rfl
  | some s => by_cases h : s = "" <;> simp [h, Option.filter]

theorem optIntEnv_said (parse : String → Option Int) (env : Vars) (name : String) : optIntEnv parse env name =
    match said env name with
    | some s => (parse s).map fun n => some (.int n)
    | none => some none := by
  unfold optIntEnv said
  cases env name with
  | none => rfl
  | some s => by_cases h : s = "" <;> simp [h, Option.filter]

theorem ofEnv_some {parse : String → Option Int} {env : Vars} {b : Brpc Val} (h : Brpc.ofEnv parse env = some b) :
    b.protocol = envStr env "MPLANG_BRPC_PROTOCOL" "http" ∧ b.connType = envStr env "MPLANG_BRPC_CONN_TYPE" "pooled" ∧
    envInt parse env "MPLANG_BRPC_RECV_TIMEOUT_MS" 100000 = some b.recvTimeout ∧
    envInt parse env "MPLANG_BRPC_HTTP_MAX_PAYLOAD" (32 * 1024 * 1024) = some b.maxPayload ∧
    optIntEnv parse env "MPLANG_BRPC_HTTP_TIMEOUT_MS" = some b.httpTimeout ∧
    envInt parse env "MPLANG_BRPC_CONNECT_RETRY_TIMES" 60 = some b.retryTimes ∧
    envInt parse env "MPLANG_BRPC_CONNECT_RETRY_INTERVAL_MS" 1000 = some b.retryInterval := by
  unfold Brpc.ofEnv at h
  simp only at h
  split at h
  · contradiction
  next h1 =>
  split at h
  · contradiction
  next h2 =>
  split at h
  · contradiction
  next h3 =>
  split at h
  · contradiction
  next h4 =>
  split at h
  · contradiction
  next h5 =>
  obtain rfl := Option.some.inj h
  exact ⟨rfl, rfl, h1, h2, h3, h4, h5⟩

theorem str_case {env : Vars} {name dflt : String} {x : Val} (h : x = envStr env name dflt) : match said env name with
    | some s => x = .str s
    | none => x = .str dflt := by
  rw [envStr_said] at h
  cases hs : said env name <;> simpa [hs] using h

theorem int_case {parse : String → Option Int} {env : Vars} {name : String} {dflt : Int} {x : Val} (h : envInt parse env name dflt = some x) :
    match said env name with
    | some s => ∃ n, parse s = some n ∧ x = .int n
    | none => x = .int dflt := by
  rw [envInt_said] at h
  cases hs : said env name with
  | none => simpa [hs, eq_comm] using h
  | some s =>
    simp only [hs, Option.map_eq_some_iff] at h
    obtain ⟨n, h1, h2⟩ := h
    exact ⟨n, h1, h2.symm⟩

theorem brpcDesc_attr (lib : Attr → Val) (cfg : Brpc Val) (es : List String) (a : Attr) : (brpcDesc lib cfg es).attr a = match a with
    | .recvTimeout => cfg.recvTimeout
    | .httpTimeout => cfg.httpTimeout.getD (lib .httpTimeout)
    | .maxPayload => cfg.maxPayload
    | .protocol => cfg.protocol
    | .connType => cfg.connType
    | .retryTimes => cfg.retryTimes
    | .retryInterval => cfg.retryInterval := by
  unfold brpcDesc
  cases h : cfg.httpTimeout <;> cases a <;> simp [Desc.set, Desc.add]

theorem brpcDesc_parties (lib : Attr → Val) (cfg : Brpc Val) (es : List String) :
    (brpcDesc lib cfg es).parties = es.mapIdx fun i a => ("P" ++ i.repr, a) := rfl

theorem setting_of {parse : String → Option Int} {env : Vars} {lib : Attr → Val} {l : Option (LinkDesc Val)} {o : Opt} {d : Val}
    (hd : match said env o.var with
      | some s => if o.number then ∃ n, parse s = some n ∧ d = .int n else d = .str s
      | none => d = o.builtin.getD (lib o.attr)) : IsSetting parse env lib l o ((l.bind o.given).getD d) := by
  unfold IsSetting
  cases l.bind o.given with
  | none => cases hs : said env o.var <;> rw [hs] at hd <;> exact hd
  | some x => rfl

/-- **C82 (every option of a brpc link)**  Each option of a brpc link is the one of the SPU's `link_desc` if it names it, else the environment's,
else mplang's, else libspu's; and the parties are the endpoints in order. -/
theorem link_settings {parse : String → Option Int} {env : Vars} {b : Brpc Val} (h : Brpc.ofEnv parse env = some b) (lib : Attr → Val)
    (c : Config Val) (es : List String) :
    (∀ o ∈ options, IsSetting parse env lib c.link o ((linkDesc lib b c (.brpc es)).attr o.attr)) ∧
    (linkDesc lib b c (.brpc es)).parties.map Prod.snd = es ∧
    ∀ (i : Nat) (a : String), es[i]? = some a → (linkDesc lib b c (.brpc es)).parties[i]? = some ("P" ++ i.repr, a) := by
  obtain ⟨h1, h2, h3, h4, h5, h6, h7⟩ := ofEnv_some h
  refine ⟨?_, ?_, ?_⟩
  · intro o ho
    show IsSetting parse env lib c.link o ((brpcDesc lib (effective b c) es).attr o.attr)
    rw [brpcDesc_attr]
    simp only [options, List.mem_cons, List.not_mem_nil, or_false] at ho
    rcases ho with rfl | rfl | rfl | rfl | rfl | rfl | rfl
    · have e : (effective b c).protocol = (c.link.bind LinkDesc.protocol).getD b.protocol := by unfold effective; cases c.link <;> rfl
      refine e.symm ▸ setting_of ?_
      exact str_case h1
    · have e : (effective b c).connType = (c.link.bind LinkDesc.connType).getD b.connType := by unfold effective; cases c.link <;> rfl
      refine e.symm ▸ setting_of ?_
      exact str_case h2
    · have e : (effective b c).recvTimeout = (c.link.bind LinkDesc.recvTimeout).getD b.recvTimeout := by unfold effective; cases c.link <;> rfl
      refine e.symm ▸ setting_of ?_
      exact int_case h3
    · have e : (effective b c).maxPayload = (c.link.bind LinkDesc.maxPayload).getD b.maxPayload := by unfold effective; cases c.link <;> rfl
      refine e.symm ▸ setting_of ?_
      exact int_case h4
    · have e : (effective b c).httpTimeout.getD (lib .httpTimeout) =
          (c.link.bind LinkDesc.httpTimeout).getD (b.httpTimeout.getD (lib .httpTimeout)) := by
        unfold effective
        cases c.link with
        | none => rfl
        | some l =>
          simp only [Option.bind_some]
          cases l.httpTimeout <;> rfl
      refine e.symm ▸ setting_of ?_
      show match said env "MPLANG_BRPC_HTTP_TIMEOUT_MS" with
        | some s => ∃ n, parse s = some n ∧ b.httpTimeout.getD (lib .httpTimeout) = .int n
        | none => b.httpTimeout.getD (lib .httpTimeout) = lib .httpTimeout
      rw [optIntEnv_said] at h5
      cases hs : said env "MPLANG_BRPC_HTTP_TIMEOUT_MS" with
      | none =>
        rw [hs] at h5
        rw [← Option.some.inj h5]
        rfl
      | some s =>
        rw [hs] at h5
        obtain ⟨n, q1, q2⟩ := Option.map_eq_some_iff.1 h5
        exact ⟨n, q1, by rw [← q2]; rfl⟩
    · have e : (effective b c).retryTimes = (c.link.bind LinkDesc.retryTimes).getD b.retryTimes := by unfold effective; cases c.link <;> rfl
      refine e.symm ▸ setting_of ?_
      exact int_case h6
    · have e : (effective b c).retryInterval = (c.link.bind LinkDesc.retryInterval).getD b.retryInterval := by
        unfold effective; cases c.link <;> rfl
      refine e.symm ▸ setting_of ?_
      exact int_case h7
  · show (brpcDesc lib (effective b c) es).parties.map Prod.snd = es
    rw [brpcDesc_parties]
    apply List.ext_getElem?
    intro i
    rw [List.getElem?_map, List.getElem?_mapIdx, Option.map_map]
    exact Option.map_id'
  · intro i a ha
    show (brpcDesc lib (effective b c) es).parties[i]? = _
    rw [brpcDesc_parties]
    simp [ha]

/-- **C82 (the environment)**  A worker can read its environment exactly if every number given there is one. -/
theorem env_ok_iff (parse : String → Option Int) (env : Vars) :
    (∃ b, Brpc.ofEnv parse env = some b) ↔ ∀ o ∈ options, o.number = true → ∀ s, said env o.var = some s → (parse s).isSome := by
  constructor
  · rintro ⟨b, h⟩ o ho hn s hs
    obtain ⟨h1, h2, h3, h4, h5, h6, h7⟩ := ofEnv_some h
    rw [envInt_said] at h3 h4 h6 h7
    rw [optIntEnv_said] at h5
    simp only [options, List.mem_cons, List.not_mem_nil, or_false] at ho
    rcases ho with rfl | rfl | rfl | rfl | rfl | rfl | rfl <;> simp only [Bool.false_eq_true] at hn <;> simp only at hs
    · cases hp : parse s <;> simp_all
    · cases hp : parse s <;> simp_all
    · cases hp : parse s <;> simp_all
    · cases hp : parse s <;> simp_all
    · cases hp : parse s <;> simp_all
  · intro h
    have key : ∀ name dflt, (∀ s, said env name = some s → (parse s).isSome) → ∃ v, envInt parse env name dflt = some v := by
      intro name dflt hk
      rw [envInt_said]
      cases hs : said env name with
      | none => exact ⟨_, rfl⟩
      | some s =>
        obtain ⟨n, e⟩ := Option.isSome_iff_exists.1 (hk s hs)
        exact ⟨.int n, by simp [e]⟩
    have key' : ∀ name, (∀ s, said env name = some s → (parse s).isSome) → ∃ v, optIntEnv parse env name = some v := by
      intro name hk
      rw [optIntEnv_said]
      cases hs : said env name with
      | none => exact ⟨_, rfl⟩
      | some s =>
        obtain ⟨n, e⟩ := Option.isSome_iff_exists.1 (hk s hs)
        exact ⟨some (.int n), by simp [e]⟩
    simp only [options, List.forall_mem_cons, List.not_mem_nil, false_implies, implies_true, and_true, forall_const, Bool.false_eq_true] at h
    obtain ⟨-, -, a3, a4, a5, a6, a7⟩ := h
    obtain ⟨v3, e3⟩ := key _ 100000 a3
    obtain ⟨v4, e4⟩ := key _ (32 * 1024 * 1024) a4
    obtain ⟨v5, e5⟩ := key' _ a5
    obtain ⟨v6, e6⟩ := key _ 60 a6
    obtain ⟨v7, e7⟩ := key _ 1000 a7
    refine ⟨⟨envStr env "MPLANG_BRPC_PROTOCOL" "http", envStr env "MPLANG_BRPC_CONN_TYPE" "pooled", v3, v4, v5, v6, v7⟩, ?_⟩
    unfold Brpc.ofEnv
    simp only [e3, e4, e5, e6, e7]

/-- **C82 is violated by a bad environment**  If one of the numbers is not one, every request fails, also those that use no SPU, no brpc, or
name the option themselves. -/
theorem bad_env_violated {R : Type} {parse : String → Option Int} {env : Vars} {o : Opt} (ho : o ∈ options) (hn : o.number = true) {s : String}
    (hs : said env o.var = some s) (hp : parse s = none) (work : Brpc Val → Option R) : request parse env work = none := by
  unfold request
  cases h : Brpc.ofEnv parse env with
  | none => rfl
  | some b =>
    have := (env_ok_iff parse env).1 ⟨b, h⟩ o ho hn s hs
    rw [hp] at this
    exact absurd this (by simp)

/-- **C82 (only brpc)**  On a link over the workers' communicator or in memory none of the options of `link_desc` and of the
environment has any effect: the time to wait is fixed and the rest is libspu's. -/
theorem options_brpc_only (lib : Attr → Val) (b b' : Brpc Val) (c c' : Config Val) (how : How) (h : ∀ es, how ≠ .brpc es) :
    linkDesc lib b c how = linkDesc lib b' c' how ∧
    ∀ a, (linkDesc lib b c how).attr a = if a = .recvTimeout then (match how with | .mem _ => .int 30000 | _ => .int 100000) else lib a := by
  cases how with
  | brpc es => exact absurd rfl (h es)
  | channels ps => exact ⟨rfl, fun a => by simp [linkDesc, channelsDesc, Desc.set, Desc.add]⟩
  | mem n => exact ⟨rfl, fun a => by simp [linkDesc, memDesc, Desc.set, Desc.add]⟩

/-! ## The hypotheses are met -/

/-- an environment with a longer wait, an HTTP timeout and an empty variable (test input) -/
def exVars : Vars := fun v =>
  if v = "MPLANG_BRPC_RECV_TIMEOUT_MS" then some "600000" else if v = "MPLANG_BRPC_HTTP_TIMEOUT_MS" then some "900000"
  else if v = "MPLANG_BRPC_PROTOCOL" then some "" else none

/-- enough of `int` for the test -/
def exParse (s : String) : Option Int := if s = "600000" then some 600000 else if s = "900000" then some 900000 else none

example : Brpc.ofEnv exParse exVars = some ⟨.str "http", .str "pooled", .int 600000, .int 33554432, some (.int 900000), .int 60, .int 1000⟩ := by
  decide

example : ∃ b, Brpc.ofEnv exParse exVars = some b ∧
    (linkDesc (fun _ => .int 0) b ⟨.str "SEMI2K", .str "FM128", .int 18, false, false, false, false,
      some ⟨some (.int 5000), none, none, some (.str "h2"), none, none, none⟩⟩ (.brpc ["a:1", "b:2"])).attr .recvTimeout = .int 5000 ∧
    (linkDesc (fun _ => .int 0) b ⟨.str "SEMI2K", .str "FM128", .int 18, false, false, false, false,
      some ⟨some (.int 5000), none, none, some (.str "h2"), none, none, none⟩⟩ (.brpc ["a:1", "b:2"])).attr .httpTimeout = .int 900000 :=
  ⟨⟨.str "http", .str "pooled", .int 600000, .int 33554432, some (.int 900000), .int 60, .int 1000⟩, by decide, by decide, by decide⟩

example {R : Type} (work : Brpc Val → Option R) :
    request exParse (fun v => if v = "MPLANG_BRPC_CONNECT_RETRY_TIMES" then some "many" else none) work = none :=
  bad_env_violated (o := ⟨.retryTimes, LinkDesc.retryTimes, "MPLANG_BRPC_CONNECT_RETRY_TIMES", true, some (.int 60)⟩)
    (by simp [options]) rfl (s := "many") (by decide) (by decide) work

example (lib : Attr → Val) (b b' : Brpc Val) (c c' : Config Val) := options_brpc_only lib b b' c c' (.channels [0, 1]) (by simp)

end Verif.Spu
