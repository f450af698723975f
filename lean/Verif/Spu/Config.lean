import Verif.Serde.Model
import Mathlib.Logic.Basic
import Mathlib.Tactic.Tauto
import Mathlib.Tactic.ByContra
/-!
# C82 — SPU configuration: JSON round trip, precedence of settings, merged link options
(dialects/spu.py:95-235, backends/spu_state.py:40-90, 148-177)

The values of string and integer settings are not checked by the code (`cast` only), so they are an arbitrary type `V`
here: `Json` in this file, any type with equality in `Verif.Spu.Link`. `None` is Lean's `none`. The defaults of
`BrpcLinkConfig` come from environment variables (spu_state.py:60-90, see Verif.Spu.Env): the merge is proved for every default.
-/
namespace Verif.Spu
open Verif.Serde (Json lookup)

/-- `SPULinkDesc` (dialects/spu.py:112-121) -/
structure LinkDesc (V : Type) where
  recvTimeout : Option V
  httpTimeout : Option V
  maxPayload : Option V
  protocol : Option V
  connType : Option V
  retryTimes : Option V
  retryInterval : Option V
deriving DecidableEq

/-- `SPUConfig` (dialects/spu.py:155-178) -/
structure Config (V : Type) where
  protocol : V
  field : V
  fxp : V
  pphloProfile : Bool
  halProfile : Bool
  pphloTrace : Bool
  actionTrace : Bool
  link : Option (LinkDesc V)
deriving DecidableEq

/-- `BrpcLinkConfig` (spu_state.py:40-90); only `http_timeout_ms` may be `None` -/
structure Brpc (V : Type) where
  protocol : V
  connType : V
  recvTimeout : V
  maxPayload : V
  httpTimeout : Option V
  retryTimes : V
  retryInterval : V
deriving DecidableEq

/-- `_effective_brpc_config` (spu_state.py:148-177): `replace` of the fields whose override is not `None` -/
def effective {V : Type} (dflt : Brpc V) (c : Config V) : Brpc V :=
  match c.link with
  | none => dflt
  | some l =>
    { protocol := l.protocol.getD dflt.protocol
      connType := l.connType.getD dflt.connType
      recvTimeout := l.recvTimeout.getD dflt.recvTimeout
      maxPayload := l.maxPayload.getD dflt.maxPayload
      httpTimeout := match l.httpTimeout with | some v => some v | none => dflt.httpTimeout
      retryTimes := l.retryTimes.getD dflt.retryTimes
      retryInterval := l.retryInterval.getD dflt.retryInterval }

/-- python truth value of a parsed JSON value (`bits` of a float are its 64-bit pattern; ±0.0 is false) -/
def truthy : Json → Bool
  | .null => false
  | .bool b => b
  | .num n => n ≠ 0
  | .flt bits => bits ≠ 0 ∧ bits ≠ 2 ^ 63
  | .str s => s ≠ ""
  | .arr xs => xs ≠ []
  | .obj fs => !fs.isEmpty

/-- `d.get(k)`: `None` for a missing key and for `null` -/
def get (fs : List (String × Json)) (k : String) : Option Json :=
  match lookup k fs with
  | none => none
  | some .null => none
  | some v => some v

/-- `d.get(a) or d.get(b)` (dialects/spu.py:132-134) -/
def getOr (fs : List (String × Json)) (a b : String) : Option Json :=
  match get fs a with
  | some v => if truthy v then some v else get fs b
  | none => get fs b

/-- `SPULinkDesc.from_dict` on a dict (dialects/spu.py:123-138) -/
def LinkDesc.fromFields (fs : List (String × Json)) : LinkDesc Json :=
  { recvTimeout := get fs "recv_timeout_ms"
    httpTimeout := get fs "http_timeout_ms"
    maxPayload := get fs "http_max_payload_size"
    protocol := getOr fs "brpc_channel_protocol" "protocol"
    connType := getOr fs "brpc_channel_connection_type" "connection_type"
    retryTimes := get fs "connect_retry_times"
    retryInterval := get fs "connect_retry_interval_ms" }

/-- `{key: value ... if value is not None}` (dialects/spu.py:140-150) -/
def keep (k : String) : Option Json → List (String × Json)
  | none => []
  | some v => [(k, v)]

/-- `SPULinkDesc.to_json` (dialects/spu.py:140-150) -/
def LinkDesc.toFields (l : LinkDesc Json) : List (String × Json) :=
  keep "recv_timeout_ms" l.recvTimeout ++ keep "http_timeout_ms" l.httpTimeout ++
  keep "http_max_payload_size" l.maxPayload ++ keep "brpc_channel_protocol" l.protocol ++
  keep "brpc_channel_connection_type" l.connType ++ keep "connect_retry_times" l.retryTimes ++
  keep "connect_retry_interval_ms" l.retryInterval

/-- `_parse_bool` (dialects/spu.py:95-107); `norm` is `str.strip().lower()` -/
def parseBool (norm : String → String) : Json → Option Bool
  | .bool b => some b
  | .str s => if norm s = "true" then some true else if norm s = "false" then some false else none
  | _ => none

/-- `runtime_config.get(name, d.get(name, default))` (dialects/spu.py:190-203): an explicit `null` is kept -/
def pick (rc d : List (String × Json)) (name : String) (dflt : Json) : Json :=
  match lookup name rc with
  | some v => v
  | none => (lookup name d).getD dflt

/-- `runtime_config = d.get("runtime_config", {})`, `None` and non-dict handling (dialects/spu.py:182-189) -/
def runtimeConfig (d : List (String × Json)) : Option (List (String × Json)) :=
  match lookup "runtime_config" d with
  | none => some []
  | some .null => some []
  | some (.obj rc) => some rc
  | some _ => none

/-- `SPULinkDesc.from_dict(link_desc) if link_desc else None` (dialects/spu.py:190, 213): `none` is the TypeError for a
true value that is not a dict -/
def parseLink (d : List (String × Json)) : Option (Option (LinkDesc Json)) :=
  match lookup "link_desc" d with
  | none => some none
  | some v =>
    if truthy v then
      match v with
      | .obj fs => some (some (LinkDesc.fromFields fs))
      | _ => none
    else some none

/-- `SPUConfig.from_dict` = `from_json` (dialects/spu.py:179-214, 233-235); `none`: TypeError or ValueError -/
def Config.fromJson (norm : String → String) : Json → Option (Config Json)
  | .obj d =>
    match runtimeConfig d with
    | none => none
    | some rc =>
      match parseBool norm (pick rc d "enable_pphlo_profile" (.bool false)),
        parseBool norm (pick rc d "enable_hal_profile" (.bool false)),
        parseBool norm (pick rc d "enable_pphlo_trace" (.bool false)),
        parseBool norm (pick rc d "enable_action_trace" (.bool false)), parseLink d with
      | some a, some b, some e, some f, some l =>
        some ⟨pick rc d "protocol" (.str "SEMI2K"), pick rc d "field" (.str "FM128"),
          pick rc d "fxp_fraction_bits" (.num 18), a, b, e, f, l⟩
      | _, _, _, _, _ => none
  | _ => none

/-- `SPUConfig.to_json` (dialects/spu.py:219-231) -/
def Config.toJson (c : Config Json) : Json :=
  .obj ([("protocol", c.protocol), ("field", c.field), ("fxp_fraction_bits", c.fxp),
    ("enable_pphlo_profile", .bool c.pphloProfile), ("enable_hal_profile", .bool c.halProfile),
    ("enable_pphlo_trace", .bool c.pphloTrace), ("enable_action_trace", .bool c.actionTrace)] ++
    match c.link with
    | none => []
    | some l => [("link_desc", .obj l.toFields)])

/-! ## Specification -/

/-- A setting that is present is a real value: never JSON `null` (python's `None` is the absent setting). -/
def LinkDesc.NonNull (l : LinkDesc Json) : Prop :=
  l.recvTimeout ≠ some .null ∧ l.httpTimeout ≠ some .null ∧ l.maxPayload ≠ some .null ∧ l.protocol ≠ some .null ∧
  l.connType ≠ some .null ∧ l.retryTimes ≠ some .null ∧ l.retryInterval ≠ some .null

/-- The JSON values python counts as false: `null`, `false`, the zeros (`-0.0` has only its sign bit set) and everything empty. -/
def Falsy (v : Json) : Prop :=
  v = .null ∨ v = .bool false ∨ v = .num 0 ∨ v = .flt 0 ∨ v = .flt 9223372036854775808 ∨ v = .str "" ∨ v = .arr [] ∨ v = .obj []

/-- no protocol or connection type is the empty string (or another false value) -/
def LinkDesc.NamesSet (l : LinkDesc Json) : Prop :=
  (∀ v, l.protocol = some v → ¬ Falsy v) ∧ (∀ v, l.connType = some v → ¬ Falsy v)

theorem truthy_iff (v : Json) : truthy v = true ↔ ¬ Falsy v := by
  cases v <;> simp [truthy, Falsy]

/-- at least one option is given -/
def LinkDesc.Some (l : LinkDesc Json) : Prop := l ≠ ⟨none, none, none, none, none, none, none⟩

theorem get_keep (k k' : String) (v : Option Json) (hv : v ≠ some .null) (r : List (String × Json)) :
    get (keep k v ++ r) k' = if k = k' ∧ v ≠ none then v else get r k' := by
  cases v with
  | none => simp [keep]
  | some v =>
    by_cases h : k = k'
    · subst h
      simp only [keep, get, lookup, List.cons_append, List.nil_append, if_true, ne_eq, reduceCtorEq, not_false_eq_true,
        and_self]
      cases v <;> simp_all
    · simp [keep, get, lookup, h]

theorem get_nil (k : String) : get [] k = none := rfl

theorem link_fields (l : LinkDesc Json) (hn : l.NonNull) :
    LinkDesc.fromFields l.toFields = { l with
      protocol := l.protocol.filter truthy
      connType := l.connType.filter truthy } := by
  obtain ⟨a, b, c, d, e, f, g⟩ := l
  obtain ⟨h1, h2, h3, h4, h5, h6, h7⟩ := hn
  simp only [] at h1 h2 h3 h4 h5 h6 h7
  have key : ∀ k : String, get (LinkDesc.toFields ⟨a, b, c, d, e, f, g⟩) k =
      if "recv_timeout_ms" = k ∧ a ≠ none then a else if "http_timeout_ms" = k ∧ b ≠ none then b
      else if "http_max_payload_size" = k ∧ c ≠ none then c else if "brpc_channel_protocol" = k ∧ d ≠ none then d
      else if "brpc_channel_connection_type" = k ∧ e ≠ none then e else if "connect_retry_times" = k ∧ f ≠ none then f
      else if "connect_retry_interval_ms" = k ∧ g ≠ none then g else none := by
    intro k
    unfold LinkDesc.toFields
    have hg := get_keep "connect_retry_interval_ms" k g h7 []
    rw [List.append_nil, get_nil] at hg
    simp only [List.append_assoc]
    rw [get_keep _ _ _ h1, get_keep _ _ _ h2, get_keep _ _ _ h3, get_keep _ _ _ h4, get_keep _ _ _ h5,
      get_keep _ _ _ h6, hg]
  unfold LinkDesc.fromFields getOr
  simp only [key]
  have sim : ∀ x : Option Json, (if x ≠ none then x else none) = x := by intro x; cases x <;> simp
  simp only [true_and, sim, String.reduceEq, false_and, if_false]
  cases d <;> cases e <;> simp [Option.filter]
  all_goals (first | (split <;> simp_all) | skip)

theorem toFields_empty (l : LinkDesc Json) : l.toFields = [] ↔ ¬ l.Some := by
  obtain ⟨a, b, c, d, e, f, g⟩ := l
  simp only [LinkDesc.toFields, LinkDesc.Some, List.append_eq_nil_iff, ne_eq, not_not, LinkDesc.mk.injEq]
  have hk : ∀ k v, keep k v = [] ↔ v = none := by intro k v; cases v <;> simp [keep]
  simp only [hk]
  tauto

theorem from_to (norm : String → String) (c : Config Json) :
    Config.fromJson norm c.toJson = some { c with
      link := match c.link with
        | none => none
        | some l => if l.toFields = [] then none else some (LinkDesc.fromFields l.toFields) } := by
  obtain ⟨p, f, x, a, b, e, g, l⟩ := c
  cases l with
  | none =>
    simp [Config.toJson, Config.fromJson, runtimeConfig, lookup, pick, parseBool, parseLink]
  | some l =>
    by_cases h : l.toFields = []
    · simp [Config.toJson, Config.fromJson, runtimeConfig, lookup, pick, parseBool, parseLink, truthy, h]
    · simp [Config.toJson, Config.fromJson, runtimeConfig, lookup, pick, parseBool, parseLink, truthy, h]

/-- **C82** (round trip, exactly) A configuration comes back equal from JSON if and only if its link description is
absent, or has at least one option and no empty protocol or connection type — whatever values the settings hold. -/
theorem config_roundtrip_iff (norm : String → String) (c : Config Json) (hn : ∀ l, c.link = some l → l.NonNull) :
    Config.fromJson norm c.toJson = some c ↔ ∀ l, c.link = some l → l.Some ∧ l.NamesSet := by
  rw [from_to]
  obtain ⟨p, f, x, a, b, e, g, l⟩ := c
  cases l with
  | none => simp
  | some l =>
    have hl := hn l rfl
    simp only [Option.some.injEq, Config.mk.injEq, true_and, forall_eq']
    by_cases h : l.toFields = []
    · have := (toFields_empty l).1 h
      simp [h, this]
    · have hs : l.Some := by
        by_contra hc
        exact h ((toFields_empty l).2 hc)
      simp only [h, if_false, Option.some.injEq, hs, true_and]
      rw [link_fields l hl]
      obtain ⟨a1, b1, c1, d1, e1, f1, g1⟩ := l
      simp only [LinkDesc.mk.injEq, true_and, and_true, LinkDesc.NamesSet]
      cases d1 <;> cases e1 <;> simp [Option.filter, truthy_iff]

/-- **C82** (meaning of the round trip) The link options an SPU ends up with are the same before and after a JSON round
trip, for every default configuration — also for a link description with no option, which comes back as `None`. -/
theorem roundtrip_effective (norm : String → String) (c : Config Json) (hn : ∀ l, c.link = some l → l.NonNull)
    (hs : ∀ l, c.link = some l → l.NamesSet) (dflt : Brpc Json) :
    ∃ c', Config.fromJson norm c.toJson = some c' ∧ effective dflt c' = effective dflt c ∧
      c'.protocol = c.protocol ∧ c'.field = c.field ∧ c'.fxp = c.fxp ∧ c'.pphloProfile = c.pphloProfile ∧
      c'.halProfile = c.halProfile ∧ c'.pphloTrace = c.pphloTrace ∧ c'.actionTrace = c.actionTrace := by
  refine ⟨_, from_to norm c, ?_, rfl, rfl, rfl, rfl, rfl, rfl, rfl⟩
  obtain ⟨p, f, x, a, b, e, g, l⟩ := c
  cases l with
  | none => rfl
  | some l =>
    by_cases h : l.toFields = []
    · have := (toFields_empty l).1 h
      simp only [LinkDesc.Some, ne_eq, not_not] at this
      subst this
      simp [effective, LinkDesc.toFields, keep]
    · have hl := hn l rfl
      obtain ⟨h1, h2⟩ := hs l rfl
      simp only [h, if_false]
      rw [link_fields l hl]
      obtain ⟨a1, b1, c1, d1, e1, f1, g1⟩ := l
      simp only [] at h1 h2
      cases d1 <;> cases e1 <;> simp_all [effective, Option.filter, truthy_iff]

/-- **C82** violated: an empty protocol name is used by the sender's own link but disappears in JSON, so the parties that
receive the configuration over the wire use their default instead. -/
theorem empty_protocol_violated : ∃ (c c' : Config Json) (dflt : Brpc Json),
    Config.fromJson id c.toJson = some c' ∧ (effective dflt c).protocol ≠ (effective dflt c').protocol := by
  refine ⟨⟨.str "SEMI2K", .str "FM128", .num 18, false, false, false, false,
      some ⟨some (.num 1), none, none, some (.str ""), none, none, none⟩⟩, _,
    ⟨.str "http", .str "pooled", .num 1, .num 1, none, .num 1, .num 1⟩, from_to _ _, ?_⟩
  simp [effective, LinkDesc.toFields, keep, LinkDesc.fromFields, getOr, get, lookup, truthy]

/-- **C82** violated: `SPULinkDesc()` comes back as `None`, so the configuration is not equal to the one sent. -/
theorem empty_link_desc_violated : ∃ c : Config Json, (∀ l, c.link = some l → l.NonNull) ∧
    Config.fromJson id c.toJson ≠ some c := by
  refine ⟨⟨.str "SEMI2K", .str "FM128", .num 18, false, false, false, false,
    some ⟨none, none, none, none, none, none, none⟩⟩, ?_, ?_⟩
  · intro l hl
    simp only [Option.some.injEq] at hl
    subst hl
    simp [LinkDesc.NonNull]
  · rw [from_to]
    simp [LinkDesc.toFields, keep]

/-- the configuration used in examples: a link description with two options -/
def exCfg : Config Json := ⟨.str "ABY3", .str "FM64", .num 20, true, false, false, true,
  some ⟨some (.num 0), none, none, some (.str "h2"), none, none, none⟩⟩

example : Config.fromJson id exCfg.toJson = some exCfg ∧
    (effective ⟨.str "http", .str "pooled", .num 1, .num 1, none, .num 1, .num 1⟩ exCfg).recvTimeout = .num 0 := by
  refine ⟨(config_roundtrip_iff _ _ ?_).2 ?_, rfl⟩
  · intro l hl
    simp only [exCfg, Option.some.injEq] at hl
    subst hl
    simp [LinkDesc.NonNull]
  · intro l hl
    simp only [exCfg, Option.some.injEq] at hl
    subst hl
    refine ⟨by simp [LinkDesc.Some], ?_, ?_⟩ <;> simp [Falsy]

/-- **C82** (merge) Every link option is the SPU's own one when given and the process default otherwise, and no other
option changes. -/
theorem merge_options {V : Type} (dflt : Brpc V) (c : Config V) (l : LinkDesc V) (hl : c.link = some l) :
    (∀ v, l.protocol = some v → (effective dflt c).protocol = v) ∧
    (l.protocol = none → (effective dflt c).protocol = dflt.protocol) ∧
    (∀ v, l.connType = some v → (effective dflt c).connType = v) ∧
    (l.connType = none → (effective dflt c).connType = dflt.connType) ∧
    (∀ v, l.recvTimeout = some v → (effective dflt c).recvTimeout = v) ∧
    (l.recvTimeout = none → (effective dflt c).recvTimeout = dflt.recvTimeout) ∧
    (∀ v, l.maxPayload = some v → (effective dflt c).maxPayload = v) ∧
    (l.maxPayload = none → (effective dflt c).maxPayload = dflt.maxPayload) ∧
    (∀ v, l.httpTimeout = some v → (effective dflt c).httpTimeout = some v) ∧
    (l.httpTimeout = none → (effective dflt c).httpTimeout = dflt.httpTimeout) ∧
    (∀ v, l.retryTimes = some v → (effective dflt c).retryTimes = v) ∧
    (l.retryTimes = none → (effective dflt c).retryTimes = dflt.retryTimes) ∧
    (∀ v, l.retryInterval = some v → (effective dflt c).retryInterval = v) ∧
    (l.retryInterval = none → (effective dflt c).retryInterval = dflt.retryInterval) := by
  unfold effective
  rw [hl]
  refine ⟨?_, ?_, ?_, ?_, ?_, ?_, ?_, ?_, ?_, ?_, ?_, ?_, ?_, ?_⟩ <;> simp +contextual

/-- **C82** (precedence) In a configuration dictionary a value under `runtime_config` wins over the same name at top
level, which wins over the default (SEMI2K, FM128, 18); `null` under `runtime_config` counts as no `runtime_config`. -/
theorem from_dict_precedence (norm : String → String) (d : List (String × Json)) (c : Config Json)
    (h : Config.fromJson norm (.obj d) = some c) (name : String) (dflt got : Json)
    (hname : (name, dflt, got) ∈ [("protocol", Json.str "SEMI2K", c.protocol), ("field", .str "FM128", c.field),
      ("fxp_fraction_bits", .num 18, c.fxp)]) :
    (∀ rc v, lookup "runtime_config" d = some (.obj rc) → lookup name rc = some v → got = v) ∧
    (∀ v, (∀ rc, lookup "runtime_config" d = some (.obj rc) → lookup name rc = none) →
      lookup name d = some v → got = v) ∧
    ((∀ rc, lookup "runtime_config" d = some (.obj rc) → lookup name rc = none) →
      lookup name d = none → got = dflt) := by
  have hp : ∀ rc, runtimeConfig d = some rc → got = pick rc d name dflt := by
    intro rc hrc
    simp only [Config.fromJson, hrc] at h
    split at h
    · simp only [Option.some.injEq] at h
      subst h
      simp only [List.mem_cons, Prod.mk.injEq, List.not_mem_nil, or_false] at hname
      rcases hname with ⟨rfl, rfl, rfl⟩ | ⟨rfl, rfl, rfl⟩ | ⟨rfl, rfl, rfl⟩ <;> rfl
    · cases h
  have hcase : (∃ rc, lookup "runtime_config" d = some (.obj rc) ∧ runtimeConfig d = some rc) ∨
      ((∀ rc, lookup "runtime_config" d ≠ some (.obj rc)) ∧ runtimeConfig d = some []) := by
    unfold runtimeConfig
    rcases hl : lookup "runtime_config" d with _ | v
    · right; simp
    · cases v with
      | obj rc => left; exact ⟨rc, rfl, rfl⟩
      | null => right; simp
      | _ => simp [Config.fromJson, runtimeConfig, hl] at h
  rcases hcase with ⟨rc, h1, h2⟩ | ⟨h1, h2⟩
  · have hpr := hp rc h2
    refine ⟨?_, ?_, ?_⟩
    · intro rc' v hr hv
      rw [h1] at hr
      simp only [Option.some.injEq, Json.obj.injEq] at hr
      subst hr
      simpa [pick, hv] using hpr
    · intro v hr hv
      simpa [pick, hr rc h1, hv] using hpr
    · intro hr hv
      simpa [pick, hr rc h1, hv] using hpr
  · have hpr := hp [] h2
    refine ⟨fun rc v hr => absurd hr (h1 rc), ?_, ?_⟩
    · intro v _ hv
      simpa [pick, lookup, hv] using hpr
    · intro _ hv
      simpa [pick, lookup, hv] using hpr

/-- **C82** (precedence of flags) The same for the four profiling flags, which are off unless given. -/
theorem from_dict_flags (norm : String → String) (d : List (String × Json)) (c : Config Json)
    (h : Config.fromJson norm (.obj d) = some c) (name : String) (got : Bool)
    (hname : (name, got) ∈ [("enable_pphlo_profile", c.pphloProfile), ("enable_hal_profile", c.halProfile),
      ("enable_pphlo_trace", c.pphloTrace), ("enable_action_trace", c.actionTrace)]) :
    (∀ rc v, lookup "runtime_config" d = some (.obj rc) → lookup name rc = some v → parseBool norm v = some got) ∧
    (∀ v, (∀ rc, lookup "runtime_config" d = some (.obj rc) → lookup name rc = none) →
      lookup name d = some v → parseBool norm v = some got) ∧
    ((∀ rc, lookup "runtime_config" d = some (.obj rc) → lookup name rc = none) →
      lookup name d = none → got = false) := by
  have hp : ∀ rc, runtimeConfig d = some rc → parseBool norm (pick rc d name (.bool false)) = some got := by
    intro rc hrc
    simp only [Config.fromJson, hrc] at h
    split at h
    · next a b e f l h1 h2 h3 h4 h5 =>
      simp only [Option.some.injEq] at h
      subst h
      simp only [List.mem_cons, Prod.mk.injEq, List.not_mem_nil, or_false] at hname
      rcases hname with ⟨rfl, rfl⟩ | ⟨rfl, rfl⟩ | ⟨rfl, rfl⟩ | ⟨rfl, rfl⟩ <;> assumption
    · cases h
  have hcase : (∃ rc, lookup "runtime_config" d = some (.obj rc) ∧ runtimeConfig d = some rc) ∨
      ((∀ rc, lookup "runtime_config" d ≠ some (.obj rc)) ∧ runtimeConfig d = some []) := by
    unfold runtimeConfig
    rcases hl : lookup "runtime_config" d with _ | v
    · right; simp
    · cases v with
      | obj rc => left; exact ⟨rc, rfl, rfl⟩
      | null => right; simp
      | _ => simp [Config.fromJson, runtimeConfig, hl] at h
  rcases hcase with ⟨rc, h1, h2⟩ | ⟨h1, h2⟩
  · have hpr := hp rc h2
    refine ⟨?_, ?_, ?_⟩
    · intro rc' v hr hv
      rw [h1] at hr
      simp only [Option.some.injEq, Json.obj.injEq] at hr
      subst hr
      simpa [pick, hv] using hpr
    · intro v hr hv
      simpa [pick, hr rc h1, hv] using hpr
    · intro hr hv
      have : false = got := by simpa [pick, hr rc h1, hv, parseBool] using hpr
      exact this.symm
  · have hpr := hp [] h2
    refine ⟨fun rc v hr => absurd hr (h1 rc), ?_, ?_⟩
    · intro v _ hv
      simpa [pick, lookup, hv] using hpr
    · intro _ hv
      have : false = got := by simpa [pick, lookup, hv, parseBool] using hpr
      exact this.symm

/-- **C82** (flags) A profiling flag is accepted only as a boolean or as text that normalises to "true" or "false": never
by truthiness. -/
theorem flag_accepted (norm : String → String) (v : Json) (b : Bool) (h : parseBool norm v = some b) :
    v = .bool b ∨ ∃ s, v = .str s ∧ norm s = (if b then "true" else "false") := by
  cases v with
  | bool a => left; simpa [parseBool] using h
  | str s =>
    right
    refine ⟨s, rfl, ?_⟩
    simp only [parseBool] at h
    split at h
    · next h1 => simp at h; subst h; simpa using h1
    · split at h
      · next h1 => simp at h; subst h; simpa using h1
      · cases h
  | _ => simp [parseBool] at h

example : (Config.fromJson id (.obj [("protocol", .str "CHEETAH"), ("runtime_config", .obj [("protocol", .str "ABY3")])])).map
    (·.protocol) = some (.str "ABY3") ∧
    Config.fromJson id (.obj [("enable_hal_profile", .num 1)]) = none ∧
    (Config.fromJson id (.obj [("enable_hal_profile", .str "true"), ("runtime_config", .null)])).map (·.halProfile) = some true := by
  refine ⟨?_, ?_, ?_⟩ <;> rfl

end Verif.Spu
