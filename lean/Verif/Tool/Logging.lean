/-!
# Logging (mplang/utils/logging.py), property C131

The logger tree of Python's `logging` is modelled as far as records of a given level reaching handlers are concerned (loggers, levels,
handlers, propagation, the handler of last resort); formatting, filters and `logging.disable` are not.
-/
namespace Verif.Tool.Logging

/-- Where records are written. `stderr` is `sys.stderr`; `app` are the application's own. (specification) -/
inductive Sink
  | stderr
  | stream (n : Nat)
  | file (n : Nat)
  | app (n : Nat)
  deriving DecidableEq, Repr

/-- A handler: its level, and where it writes; `none` is a `NullHandler` (Python's logging; /repo/mplang/utils/logging.py:106, 160) -/
structure Handler where
  level : Nat
  sink : Option Sink
  deriving DecidableEq, Repr

/-- A logger (Python's logging): level 0 is "not set" -/
structure Logger where
  level : Nat := 0
  handlers : List Handler := []
  propagate : Bool := true
  deriving DecidableEq, Repr

/-- The loggers by name: the components of the dotted name, the last first; `[]` is the root logger. A logger nobody touched is `{}`. (Python's
logging) -/
abbrev Loggers := List (List Char) → Logger

/-- `Logger.getEffectiveLevel` (Python's logging) -/
def effective (st : Loggers) : List (List Char) → Nat
  | [] => (st []).level
  | c :: q => if (st (c :: q)).level ≠ 0 then (st (c :: q)).level else effective st q

/-- the handlers `Logger.callHandlers` finds (Python's logging): the levels of the loggers above play no role -/
def found (st : Loggers) : List (List Char) → List Handler
  | [] => (st []).handlers
  | c :: q => (st (c :: q)).handlers ++ if (st (c :: q)).propagate then found st q else []

/-- what the handlers write; without any handler, the handler of last resort writes warnings to `sys.stderr` (Python's logging) -/
def write (hs : List Handler) (v : Nat) : List Sink :=
  if hs = [] then (if 30 ≤ v then [.stderr] else []) else (hs.filter fun h => h.level ≤ v).filterMap Handler.sink

/-- A record of level `v` at logger `p`: where it is written (Python's logging: `Logger.log`, `Logger.handle`) -/
def delivered (st : Loggers) (p : List (List Char)) (v : Nat) : List Sink :=
  if v < effective st p then [] else write (found st p) v

/-- `MPLANG_LOGGER_NAME` (/repo/mplang/utils/logging.py:40) -/
def mplang : List Char := ['m', 'p', 'l', 'a', 'n', 'g']

/-- the logger of that name (/repo/mplang/utils/logging.py:95) -/
abbrev top : List (List Char) := [mplang]

/-- replace one logger (models no code of its own) -/
def put (st : Loggers) (p : List (List Char)) (l : Logger) : Loggers := fun q => if q = p then l else st q

/-- `logging.NullHandler()` (/repo/mplang/utils/logging.py:160) -/
def null : Handler := ⟨0, none⟩

/-- the `stream` argument: `None`, a stream, or `False` (/repo/mplang/utils/logging.py:52, 71-72, 129-131) -/
inductive StreamArg
  | dflt
  | given (s : Sink)
  | off
  deriving DecidableEq, Repr

/-- the arguments of `setup_logging`; `level` is what `getattr(logging, level.upper())` gives, if anything; formats are not modelled
(/repo/mplang/utils/logging.py:47-55) -/
structure Args where
  level : Option Nat
  filename : Option Nat := none
  stream : StreamArg := .dflt
  force : Bool := false
  propagate : Bool := false

/-- a logger with only a `NullHandler` (/repo/mplang/utils/logging.py:104-107) -/
def onlyNull (l : Logger) : Bool := match l.handlers with
  | [h] => h.sink.isNone
  | _ => false

/-- the handlers that stay: none with `force`, which `propagate` implies if there is only a `NullHandler`
(/repo/mplang/utils/logging.py:103-113) -/
def kept (a : Args) (l : Logger) : List Handler := if a.force || (a.propagate && onlyNull l) then [] else l.handlers

/-- the stream handler (/repo/mplang/utils/logging.py:128-135) -/
def streamHandlers (v : Nat) : StreamArg → List Handler
  | .dflt => [⟨v, some .stderr⟩]
  | .given s => [⟨v, some s⟩]
  | .off => []

/-- `setup_logging`: the loggers afterwards, and whether it raised nothing; `opens` says which files can be opened
(/repo/mplang/utils/logging.py:95-142) -/
def setup (opens : Nat → Bool) (a : Args) (st : Loggers) : Loggers × Bool :=
  match a.level with
  | none => (st, false)
  | some v =>
    let k := kept a (st top)
    if a.propagate && a.filename.isNone && a.stream == .dflt then (put st top ⟨v, k, true⟩, true)
    else match a.filename with
      | none => (put st top ⟨v, k ++ streamHandlers v a.stream, a.propagate⟩, true)
      | some f =>
        if opens f then (put st top ⟨v, k ++ streamHandlers v a.stream ++ [⟨v, some (.file f)⟩], a.propagate⟩, true)
        else (put st top ⟨v, k ++ streamHandlers v a.stream, a.propagate⟩, false)

/-- `disable_logging` (/repo/mplang/utils/logging.py:155-161) -/
def disable (st : Loggers) : Loggers := put st top ⟨(st top).level, [null], false⟩

/-- what importing the library does (/repo/mplang/utils/logging.py:186-189) -/
def onImport (st : Loggers) : Loggers :=
  if (st top).handlers = [] then put st top ⟨(st top).level, [null], false⟩ else st

/-- dotted name to components, the first first (Python's logging: names are split at dots) -/
def splitDots : List Char → List (List Char)
  | [] => [[]]
  | '.' :: cs => [] :: splitDots cs
  | c :: cs => match splitDots cs with
    | [] => [[c]]
    | w :: ws => (c :: w) :: ws

/-- `get_logger`: the name asked for (/repo/mplang/utils/logging.py:170-179) -/
def loggerName (name : List Char) : List Char := if mplang.isPrefixOf name then name else mplang ++ '.' :: name

/-- `get_logger`: the logger (/repo/mplang/utils/logging.py:170-181) -/
def getLogger (name : List Char) : List (List Char) := (splitDots (loggerName name)).reverse

/-! ## Specification -/

/-- **Specification** the loggers at and below "mplang" -/
def Under (p : List (List Char)) : Prop := ∃ q, p = q ++ top

/-- **Specification** Nobody configured the loggers below "mplang" (the library never does). -/
def Clean (st : Loggers) : Prop := ∀ c q, st (c :: q ++ top) = {}

/-- **Specification** what happens to the loggers: calls of the library, or the application configures its own loggers -/
inductive Step
  | setup (opens : Nat → Bool) (a : Args)
  | disable
  | app (p : List (List Char)) (l : Logger)

/-- one step (specification) -/
def Step.run (st : Loggers) : Step → Loggers
  | .setup o a => (Logging.setup o a st).1
  | .disable => Logging.disable st
  | .app p l => put st p l

/-- the application does not configure the loggers below "mplang" (specification) -/
def Step.Proper : Step → Prop
  | .app p _ => ∀ c q, p ≠ c :: q ++ top
  | _ => True

/-! ## Proofs -/

theorem put_self (st : Loggers) (p : List (List Char)) (l : Logger) : put st p l p = l := by simp [put]

theorem put_ne {st : Loggers} {p q : List (List Char)} {l : Logger} (h : q ≠ p) : put st p l q = st q := by simp [put, h]

theorem below_ne {c : List Char} {q : List (List Char)} : c :: q ++ top ≠ top := by
  intro h
  have := congrArg List.length h
  simp [top] at this

theorem clean_put {st : Loggers} (h : Clean st) {p : List (List Char)} (l : Logger) (hp : ∀ c q, p ≠ c :: q ++ top) : Clean (put st p l) := by
  intro c q
  rw [put_ne (fun e => hp c q e.symm)]
  exact h c q

theorem clean_top {st : Loggers} (h : Clean st) (l : Logger) : Clean (put st top l) := clean_put h l fun _ _ e => below_ne e.symm

theorem setup_shape (opens : Nat → Bool) (a : Args) (st : Loggers) : (setup opens a st).1 = st ∨ ∃ l, (setup opens a st).1 = put st top l := by
  unfold setup
  split
  · exact Or.inl rfl
  · right
    simp only
    split
    · exact ⟨_, rfl⟩
    · split
      · exact ⟨_, rfl⟩
      · split <;> exact ⟨_, rfl⟩

theorem clean_step {st : Loggers} (h : Clean st) {s : Step} (hs : s.Proper) : Clean (s.run st) := by
  cases s with
  | setup o a =>
    rcases setup_shape o a st with e | ⟨l, e⟩
    · show Clean (setup o a st).1
      rw [e]; exact h
    · show Clean (setup o a st).1
      rw [e]; exact clean_top h l
  | disable => exact clean_top h _
  | app p l => exact clean_put h l hs

theorem clean_run {st : Loggers} (h : Clean st) {ss : List Step} (hs : ∀ s ∈ ss, s.Proper) : Clean (ss.foldl Step.run st) := by
  induction ss generalizing st with
  | nil => exact h
  | cons s ss ih => exact ih (clean_step h (hs s (by simp))) fun x hx => hs x (by simp [hx])

theorem effective_under {st : Loggers} (h : Clean st) : ∀ q, effective st (q ++ top) = effective st top := by
  intro q
  induction q with
  | nil => rfl
  | cons c q ih =>
    have hc : st (c :: (q ++ top)) = {} := h c q
    rw [List.cons_append, effective, hc, if_neg (by simp)]
    exact ih

theorem found_under {st : Loggers} (h : Clean st) : ∀ q, found st (q ++ top) = found st top := by
  intro q
  induction q with
  | nil => rfl
  | cons c q ih =>
    have hc : st (c :: (q ++ top)) = {} := h c q
    rw [List.cons_append, found, hc]
    exact ih

theorem delivered_under {st : Loggers} (h : Clean st) {p : List (List Char)} (hp : Under p) (v : Nat) : delivered st p v = delivered st top v := by
  obtain ⟨q, rfl⟩ := hp
  unfold delivered
  rw [effective_under h, found_under h]

theorem delivered_put {st : Loggers} {p : List (List Char)} (h : Clean st) (l : Logger) (hp : Under p) (hl : l.level ≠ 0) (v : Nat) :
    delivered (put st top l) p v = if v < l.level then [] else write (l.handlers ++ if l.propagate then (st []).handlers else []) v := by
  rw [delivered_under (clean_top h l) hp]
  unfold delivered effective found
  rw [put_self, if_pos hl]
  simp [found, put]

/-! ## Theorems -/

/-- **C131 (silence)**  After any history, `disable_logging` silences every logger of the library at every level. -/
theorem silent_after_disable {st : Loggers} (h : Clean st) {ss : List Step} (hs : ∀ s ∈ ss, s.Proper) {p : List (List Char)} (hp : Under p) (v : Nat) :
    delivered (disable (ss.foldl Step.run st)) p v = [] := by
  unfold disable
  rw [delivered_under (clean_top (clean_run h hs) _) hp]
  unfold delivered found
  rw [put_self]
  simp [write, null]

/-- **C131 (silent by default)**  After import nothing is written, unless the application configured the logger "mplang" before. -/
theorem silent_by_default {st : Loggers} (h : Clean st) (h0 : (st top).handlers = []) {p : List (List Char)} (hp : Under p) (v : Nat) :
    delivered (onImport st) p v = [] := by
  unfold onImport
  rw [if_pos h0]
  exact silent_after_disable h (ss := []) (by simp) hp v

/-- **C131 (others)**  Whatever the library does, the delivery of records of other loggers does not change. -/
theorem others_untouched {st : Loggers} {p : List (List Char)} (hp : ¬ Under p) (opens : Nat → Bool) (a : Args) (v : Nat) :
    delivered (setup opens a st).1 p v = delivered st p v ∧ delivered (disable st) p v = delivered st p v ∧
      delivered (onImport st) p v = delivered st p v := by
  have key : ∀ l q, ¬ Under q → effective (put st top l) q = effective st q ∧ found (put st top l) q = found st q := by
    intro l q
    induction q with
    | nil => intro _; simp [effective, found, put]
    | cons c q ih =>
      intro hq
      have hne : c :: q ≠ top := fun e => hq ⟨[], e⟩
      obtain ⟨e1, e2⟩ := ih fun ⟨r, hr⟩ => hq ⟨c :: r, by rw [hr]; rfl⟩
      unfold effective found
      rw [put_ne hne, e1, e2]
      exact ⟨rfl, rfl⟩
  have all : ∀ l, delivered (put st top l) p v = delivered st p v := by
    intro l
    unfold delivered
    rw [(key l p hp).1, (key l p hp).2]
  refine ⟨?_, all _, ?_⟩
  · rcases setup_shape opens a st with e | ⟨l, e⟩ <;> rw [e]
    exact all l
  · unfold onImport
    split
    · exact all _
    · rfl

/-- where `stream` and `filename` ask for output (specification) -/
def asked (a : Args) : List Sink :=
  (match a.stream with
    | .dflt => [.stderr]
    | .given s => [s]
    | .off => []) ++ (match a.filename with
    | none => []
    | some f => [.file f])

/-- what the handlers that were there write (specification) -/
def before (st : Loggers) (v : Nat) : List Sink := ((st top).handlers.filter fun h => h.level ≤ v).filterMap Handler.sink

theorem write_append {k n : List Handler} (v : Nat) (h : k ++ n ≠ []) :
    write (k ++ n) v = (k.filter fun h => h.level ≤ v).filterMap Handler.sink ++ (n.filter fun h => h.level ≤ v).filterMap Handler.sink := by
  unfold write
  rw [if_neg h, List.filter_append, List.filterMap_append]

/-- the handlers after a successful call that does not propagate -/
theorem setup_own {opens : Nat → Bool} {a : Args} {st : Loggers} {L : Nat} (hl : a.level = some L) (hp : a.propagate = false)
    (ho : ∀ f, a.filename = some f → opens f = true) :
    ∃ n, (setup opens a st).1 = put st top ⟨L, kept a (st top) ++ n, false⟩ ∧ (n = [] ↔ asked a = []) ∧
      ∀ v, L ≤ v → (n.filter fun h => h.level ≤ v).filterMap Handler.sink = asked a := by
  unfold setup
  rw [hl]
  simp only [hp, Bool.false_and, Bool.false_eq_true, if_false]
  cases hf : a.filename with
  | none =>
    refine ⟨_, rfl, ?_, fun v hv => ?_⟩
    · cases hs : a.stream <;> simp [streamHandlers, asked, hf, hs]
    · cases hs : a.stream <;> simp [streamHandlers, asked, hf, hs, hv]
  | some f =>
    simp only
    rw [if_pos (ho f hf), List.append_assoc]
    refine ⟨_, rfl, ?_, fun v hv => ?_⟩
    · cases hs : a.stream <;> simp [streamHandlers, asked, hf, hs]
    · cases hs : a.stream <;> simp [streamHandlers, asked, hf, hs, hv]

theorem setup_ok {opens : Nat → Bool} {a : Args} {st : Loggers} {L : Nat} (hl : a.level = some L)
    (ho : ∀ f, a.filename = some f → opens f = true) : (setup opens a st).2 = true := by
  unfold setup
  rw [hl]
  simp only
  split
  · rfl
  · cases hf : a.filename with
    | none => rfl
    | some f => simp only; rw [if_pos (ho f hf)]

/-- **C131 (exactly what was asked)**  With `force`, records from the level on go exactly to the stream and the file asked for, once each, and
lower ones nowhere; whatever was configured before.  `_partial`: if nothing is asked for, see `stream_false_violated`. -/
theorem setup_force_partial {opens : Nat → Bool} {a : Args} {st : Loggers} {L : Nat} (h : Clean st) (hl : a.level = some L) (hL : L ≠ 0)
    (hp : a.propagate = false) (hF : a.force = true) (ho : ∀ f, a.filename = some f → opens f = true) (hne : asked a ≠ [])
    {p : List (List Char)} (hu : Under p) (v : Nat) :
    delivered (setup opens a st).1 p v = if v < L then [] else asked a := by
  obtain ⟨n, e1, e2, e3⟩ := setup_own (st := st) hl hp ho
  rw [e1, delivered_put h _ hu hL]
  have hk : kept a (st top) = [] := by simp [kept, hF]
  simp only [hk, List.nil_append, Bool.false_eq_true, if_false, List.append_nil]
  split
  · rfl
  · have : n ≠ [] := fun e => hne (e2.1 e)
    unfold write
    rw [if_neg this, e3 v (by omega)]

/-- **C131 (added)**  Without `force`, the old handlers keep writing what their own levels admit, and what is asked for is added. -/
theorem setup_adds {opens : Nat → Bool} {a : Args} {st : Loggers} {L : Nat} (h : Clean st) (hl : a.level = some L) (hL : L ≠ 0)
    (hp : a.propagate = false) (hF : a.force = false) (ho : ∀ f, a.filename = some f → opens f = true) (hne : (st top).handlers ≠ [])
    {p : List (List Char)} (hu : Under p) (v : Nat) :
    delivered (setup opens a st).1 p v = if v < L then [] else before st v ++ asked a := by
  obtain ⟨n, e1, e2, e3⟩ := setup_own (st := st) hl hp ho
  rw [e1, delivered_put h _ hu hL]
  have hk : kept a (st top) = (st top).handlers := by simp [kept, hF, hp]
  simp only [hk, Bool.false_eq_true, if_false, List.append_nil]
  split
  · rfl
  · rw [write_append v (by simp [hne]), e3 v (by omega)]
    rfl

/-- **C131 (after import)**  On a library nobody configured, `setup_logging` gives exactly what is asked, with or without `force`. -/
theorem setup_fresh {opens : Nat → Bool} {a : Args} {st : Loggers} {L : Nat} (h : Clean st) (h0 : (st top).handlers = [])
    (hl : a.level = some L) (hL : L ≠ 0) (hp : a.propagate = false) (hF : a.force = false) (ho : ∀ f, a.filename = some f → opens f = true)
    {p : List (List Char)} (hu : Under p) (v : Nat) :
    delivered (setup opens a (onImport st)).1 p v = if v < L then [] else asked a := by
  have e : onImport st = put st top ⟨(st top).level, [null], false⟩ := by unfold onImport; rw [if_pos h0]
  rw [e, setup_adds (clean_top h _) hl hL hp hF ho (by rw [put_self]; simp) hu]
  unfold before
  rw [put_self]
  simp [null]

/-- **C131 (two calls)**  A second call without `force` adds its stream, and the first stream keeps the level it was given with. -/
theorem setup_twice {opens : Nat → Bool} {st : Loggers} (h : Clean st) (h0 : (st top).handlers = []) {L L' : Nat} (s s' : Sink) (hL : L ≠ 0)
    (hL' : L' ≠ 0) {p : List (List Char)} (hu : Under p) (v : Nat) :
    delivered (setup opens { level := some L', stream := .given s' } (setup opens { level := some L, stream := .given s } (onImport st)).1).1 p v =
      if v < L' then [] else (if L ≤ v then [s] else []) ++ [s'] := by
  have e : onImport st = put st top ⟨(st top).level, [null], false⟩ := by unfold onImport; rw [if_pos h0]
  have e2 : (setup opens { level := some L, stream := .given s } (onImport st)).1 =
      put (onImport st) top ⟨L, [null] ++ [⟨L, some s⟩], false⟩ := by
    rw [e]
    simp [setup, kept, put_self, streamHandlers, onlyNull, null]
  rw [e2, setup_adds (clean_top (by rw [e]; exact clean_top h _) _) rfl hL' rfl rfl (by simp) (by rw [put_self]; simp) hu]
  split
  · rfl
  · unfold before
    rw [put_self]
    by_cases h1 : L ≤ v <;> simp [null, asked, h1]

/-- **C131 does not hold: records are written twice**  Configuring twice (say, once in the library of an application and once in its main
program) writes every record from the second level on twice, to whatever stream. -/
theorem setup_twice_violated {opens : Nat → Bool} {st : Loggers} (h : Clean st) (h0 : (st top).handlers = []) {L L' : Nat} (s : Sink) (hL : L ≠ 0)
    (hL' : L' ≠ 0) {p : List (List Char)} (hu : Under p) (v : Nat) (h1 : L ≤ v) (h2 : L' ≤ v) :
    delivered (setup opens { level := some L', stream := .given s } (setup opens { level := some L, stream := .given s } (onImport st)).1).1 p v =
      [s, s] := by
  rw [setup_twice h h0 s s hL hL' hu, if_neg (by omega), if_pos h1]
  rfl

/-- **C131 (import)**  Importing the library leaves the logger "mplang" alone if the application has configured it. -/
theorem import_respects {st : Loggers} (h : (st top).handlers ≠ []) (p : List (List Char)) (v : Nat) :
    delivered (onImport st) p v = delivered st p v := by
  unfold onImport
  rw [if_neg h]

/-- **C131 (application's handlers)**  On a library that has only its `NullHandler`, `propagate=True` hands the records from the level on to the
application's handlers, which admit them by their own levels. -/
theorem propagate_inherits {opens : Nat → Bool} {st : Loggers} {L : Nat} (h : Clean st) (h0 : (st top).handlers = [])
    (hL : L ≠ 0) {p : List (List Char)} (hu : Under p) (v : Nat) (hr : (st []).handlers ≠ []) :
    delivered (setup opens { level := some L, propagate := true } (onImport st)).1 p v =
      if v < L then [] else ((st []).handlers.filter fun h => h.level ≤ v).filterMap Handler.sink := by
  have e : onImport st = put st top ⟨(st top).level, [null], false⟩ := by unfold onImport; rw [if_pos h0]
  have e2 : (setup opens { level := some L, propagate := true } (onImport st)).1 = put (onImport st) top ⟨L, [], true⟩ := by
    rw [e]
    simp [setup, kept, put_self, onlyNull, null]
  rw [e2, delivered_put (by rw [e]; exact clean_top h _) _ hu hL]
  have er : ((onImport st) []).handlers = (st []).handlers := by rw [e]; simp [put, top]
  simp only [er, List.nil_append, if_true]
  split
  · rfl
  · unfold write
    rw [if_neg hr]

/-- **C131 (added, with the application's handlers)**  With `propagate=True` on a configured library (not just a `NullHandler`) the old handlers
keep writing what their levels admit, an explicit stream or file is added, and the application's handlers follow. -/
theorem setup_propagate_adds {opens : Nat → Bool} {a : Args} {st : Loggers} {L : Nat} (h : Clean st) (hl : a.level = some L) (hL : L ≠ 0)
    (hp : a.propagate = true) (hF : a.force = false) (ho : ∀ f, a.filename = some f → opens f = true) (hne : (st top).handlers ≠ [])
    (hn : ∀ x, (st top).handlers = [x] → x.sink ≠ none) {p : List (List Char)} (hu : Under p) (v : Nat) :
    delivered (setup opens a st).1 p v = if v < L then [] else
      before st v ++ (if a.filename = none ∧ a.stream = .dflt then [] else asked a) ++
        ((st []).handlers.filter fun h => h.level ≤ v).filterMap Handler.sink := by
  have hk : kept a (st top) = (st top).handlers := by
    have : onlyNull (st top) = false := by
      unfold onlyNull
      split
      · next x e =>
        cases hx : x.sink with
        | none => exact absurd hx (hn x e)
        | some s => rfl
      · rfl
    simp [kept, hF, this]
  have key : ∃ n, (setup opens a st).1 = put st top ⟨L, (st top).handlers ++ n, true⟩ ∧
      ∀ v, L ≤ v → (n.filter fun h => h.level ≤ v).filterMap Handler.sink = if a.filename = none ∧ a.stream = .dflt then [] else asked a := by
    unfold setup
    rw [hl]
    simp only [hk, hp, Bool.true_and]
    cases hf : a.filename with
    | none =>
      cases hs : a.stream with
      | dflt => exact ⟨[], by simp, by simp⟩
      | given s => exact ⟨[⟨L, some s⟩], by simp [streamHandlers], fun v hv => by simp [asked, hf, hs, hv]⟩
      | off => exact ⟨[], by simp [streamHandlers], fun v hv => by simp [asked, hf, hs]⟩
    | some f =>
      have hof := ho f hf
      cases hs : a.stream with
      | dflt => exact ⟨[⟨L, some .stderr⟩, ⟨L, some (.file f)⟩], by simp [streamHandlers, hof], fun v hv => by simp [asked, hf, hs, hv]⟩
      | given s => exact ⟨[⟨L, some s⟩, ⟨L, some (.file f)⟩], by simp [streamHandlers, hof], fun v hv => by simp [asked, hf, hs, hv]⟩
      | off => exact ⟨[⟨L, some (.file f)⟩], by simp [streamHandlers, hof], fun v hv => by simp [asked, hf, hs, hv]⟩
  obtain ⟨n, e1, e2⟩ := key
  rw [e1, delivered_put h _ hu hL]
  simp only [if_true]
  split
  · rfl
  · rw [List.append_assoc, write_append v (by simp [hne]), List.filter_append, List.filterMap_append, e2 v (by omega), ← List.append_assoc]
    rfl

/-- **C131 does not hold: "inherits app config"**  The level of the application's root logger has no effect: an application that logs errors
only, with handlers that do not filter, also gets the library's records from the library's level on. -/
theorem root_level_violated {opens : Nat → Bool} {st : Loggers} {L : Nat} (h : Clean st) (h0 : (st top).handlers = []) (hL : L ≠ 0)
    {s : Sink} (hs : (st []).handlers = [⟨0, some s⟩]) {p : List (List Char)} (hu : Under p) (v : Nat) (h1 : L ≤ v) (h2 : v < (st []).level) :
    delivered st [] v = [] ∧ delivered (setup opens { level := some L, propagate := true } (onImport st)).1 p v = [s] := by
  refine ⟨by simp [delivered, effective, h2], ?_⟩
  rw [propagate_inherits h h0 hL hu v (by simp [hs]), if_neg (by omega), hs]
  simp

/-- **C131 does not hold: `stream=False`**  Output to the stream is disabled and yet warnings are written to `sys.stderr`: without any handler
Python uses its handler of last resort. -/
theorem stream_false_violated {opens : Nat → Bool} {st : Loggers} {L : Nat} (h : Clean st) (hL : L ≠ 0) {p : List (List Char)} (hu : Under p)
    (v : Nat) (h1 : L ≤ v) (h2 : 30 ≤ v) :
    delivered (setup opens { level := some L, stream := .off, force := true } st).1 p v = [.stderr] := by
  have e : (setup opens { level := some L, stream := .off, force := true } st).1 = put st top ⟨L, [], false⟩ := by
    simp [setup, kept, streamHandlers]
  rw [e, delivered_put h _ hu hL]
  simp [write, h2, h1]

/-- **C131 (errors)**  An unknown level changes nothing. -/
theorem bad_level (opens : Nat → Bool) (a : Args) (st : Loggers) (h : a.level = none) : setup opens a st = (st, false) := by
  unfold setup
  rw [h]

/-- **C131 does not hold: a file that cannot be opened**  `setup_logging` raises and has already replaced the old handlers: what was written to
`s` before goes to `sys.stderr` after the failed call. -/
theorem bad_file_violated {opens : Nat → Bool} {st : Loggers} {L f : Nat} (h : Clean st) (hL : L ≠ 0) {s : Sink}
    (hs : st top = ⟨L, [⟨L, some s⟩], false⟩) (hf : opens f = false) {p : List (List Char)} (hu : Under p) (v : Nat) (h1 : L ≤ v) :
    (setup opens { level := some L, filename := some f, force := true } st).2 = false ∧ delivered st p v = [s] ∧
      delivered (setup opens { level := some L, filename := some f, force := true } st).1 p v = [.stderr] := by
  have e : setup opens { level := some L, filename := some f, force := true } st = (put st top ⟨L, [⟨L, some .stderr⟩], false⟩, false) := by
    simp [setup, kept, streamHandlers, hf]
  rw [e]
  refine ⟨rfl, ?_, ?_⟩
  · rw [delivered_under h hu]
    unfold delivered effective found
    simp [hs, hL, write, h1]
  · rw [delivered_put h _ hu hL]
    simp [write, h1]

/-! ## Names -/

theorem split_ne : ∀ cs, splitDots cs ≠ [] := by
  intro cs
  match cs with
  | [] => simp [splitDots]
  | c :: cs =>
    by_cases hc : c = '.'
    · subst hc; simp [splitDots]
    · rw [splitDots]
      · split <;> simp
      · exact hc

theorem split_cons {c : Char} {cs : List Char} (hc : c ≠ '.') : ∃ w ws, splitDots cs = w :: ws ∧ splitDots (c :: cs) = (c :: w) :: ws := by
  cases h : splitDots cs with
  | nil => exact absurd h (split_ne cs)
  | cons w ws =>
    refine ⟨w, ws, rfl, ?_⟩
    rw [splitDots, h]
    exact hc

theorem split_word : ∀ {w : List Char}, '.' ∉ w → ∀ rest, splitDots (w ++ '.' :: rest) = w :: splitDots rest := by
  intro w
  induction w with
  | nil => intro _ rest; simp [splitDots]
  | cons c w ih =>
    intro h rest
    simp only [List.mem_cons, not_or] at h
    obtain ⟨x, xs, e1, e2⟩ := split_cons (c := c) (cs := w ++ '.' :: rest) (Ne.symm h.1)
    rw [List.cons_append, e2]
    rw [ih h.2 rest, List.cons.injEq] at e1
    rw [e1.1, e1.2]

theorem split_first : ∀ {w : List Char}, '.' ∉ w → ∀ rest, (∀ r, rest ≠ '.' :: r) → ∃ x xs, splitDots (w ++ rest) = (w ++ x) :: xs ∧
    (x = [] ↔ rest = []) := by
  intro w
  induction w with
  | nil =>
    intro _ rest hr
    cases rest with
    | nil => exact ⟨[], [], rfl, by simp⟩
    | cons c rest =>
      have hc : c ≠ '.' := fun e => hr rest (by rw [e])
      obtain ⟨x, xs, _, e2⟩ := split_cons (c := c) (cs := rest) hc
      exact ⟨c :: x, xs, e2, by simp⟩
  | cons c w ih =>
    intro h rest hr
    simp only [List.mem_cons, not_or] at h
    obtain ⟨x, xs, e, hx⟩ := ih h.2 rest hr
    obtain ⟨y, ys, e1, e2⟩ := split_cons (c := c) (cs := w ++ rest) (Ne.symm h.1)
    rw [e, List.cons.injEq] at e1
    refine ⟨x, xs, ?_, hx⟩
    rw [List.cons_append, e2, ← e1.1, ← e1.2]
    rfl

theorem under_reverse {w : List Char} {ws : List (List Char)} : Under (w :: ws).reverse ↔ w = mplang := by
  unfold Under top
  rw [List.reverse_cons]
  constructor
  · rintro ⟨q, h⟩
    have := List.append_inj_right' h rfl
    simpa using this
  · rintro rfl
    exact ⟨_, rfl⟩

/-- **C131 (names)**  `get_logger(name)` gives a logger of the library unless the name begins with "mplang" followed by something else than a
dot. -/
theorem get_logger_under_iff (name : List Char) :
    Under (getLogger name) ↔ ¬ ∃ c rest, name = mplang ++ c :: rest ∧ c ≠ '.' := by
  have hm : '.' ∉ mplang := by decide
  unfold getLogger loggerName
  split
  · next h =>
    obtain ⟨rest, rfl⟩ := List.isPrefixOf_iff_prefix.1 h
    cases rest with
    | nil =>
      have : splitDots (mplang ++ []) = [mplang] := by decide
      rw [this, under_reverse]
      simp
    | cons c rest =>
      by_cases hc : c = '.'
      · subst hc
        rw [split_word hm, under_reverse]
        simp
      · obtain ⟨x, xs, e, hx⟩ := split_first hm (c :: rest) fun r e => hc (by injection e)
        rw [e, under_reverse]
        constructor
        · intro h
          have : x = [] := by simpa using h
          exact absurd (hx.1 this) (by simp)
        · intro h
          exact absurd ⟨c, rest, rfl, hc⟩ h
  · next h =>
    rw [split_word hm, under_reverse]
    simp only [true_iff]
    rintro ⟨c, rest, rfl, _⟩
    exact h (List.isPrefixOf_iff_prefix.2 ⟨_, rfl⟩)

/-- **C131 does not hold for names such as `mplang_tools`**: `disable_logging` does not silence the logger `get_logger` gives, although the name
"will be prefixed automatically". -/
theorem get_logger_violated {st : Loggers} (s : Sink) (hs : st [] = ⟨30, [⟨0, some s⟩], true⟩) (h0 : st (getLogger "mplang_tools".toList) = {}) :
    delivered (disable st) (getLogger "mplang_tools".toList) 40 = [s] := by
  have e : getLogger "mplang_tools".toList = ["mplang_tools".toList] := by decide
  rw [e] at h0 ⊢
  have hne : ["mplang_tools".toList] ≠ top := by decide
  unfold delivered effective found disable
  rw [put_ne hne, h0]
  simp [effective, found, put, hs, top, write]

/-! ## The hypotheses are met -/

/-- Python as it starts: the root logger at `WARNING`, nothing else -/
def python : Loggers := fun p => if p = [] then { level := 30 } else {}

theorem python_clean : Clean python := fun c q => by simp [python]

theorem python_top : (python top).handlers = [] := rfl

example : Under (getLogger "mplang.runtime.interpreter".toList) ∧ Under (getLogger "my_tool.x".toList) ∧ Under (getLogger "mplang".toList) ∧
    ¬ Under (getLogger "mplang_tools".toList) := by
  refine ⟨(get_logger_under_iff _).2 ?_, (get_logger_under_iff _).2 ?_, (get_logger_under_iff _).2 ?_, fun h => (get_logger_under_iff _).1 h ?_⟩
  · rintro ⟨c, rest, h, hc⟩
    have : "mplang.runtime.interpreter".toList = mplang ++ '.' :: "runtime.interpreter".toList := by decide
    rw [this] at h
    have := List.append_cancel_left h
    injection this with h1 _
    exact hc h1.symm
  · rintro ⟨c, rest, h, _⟩
    exact absurd (List.isPrefixOf_iff_prefix.2 ⟨_, h.symm⟩ : mplang.isPrefixOf "my_tool.x".toList = true) (by decide)
  · rintro ⟨c, rest, h, _⟩
    have := congrArg List.length h
    simp [mplang] at this
  · exact ⟨'_', "tools".toList, by decide, by decide⟩

example (p : List (List Char)) (hp : Under p) : delivered (onImport python) p 50 = [] := silent_by_default python_clean python_top hp 50

example (p : List (List Char)) (hp : Under p) :
    delivered (setup (fun _ => true) { level := some 20, filename := some 7, stream := .given (.stream 1) } (onImport python)).1 p 30 =
      [.stream 1, .file 7] :=
  setup_fresh (L := 20) python_clean python_top rfl (by decide) rfl rfl (fun _ _ => rfl) hp 30

example (p : List (List Char)) (hp : Under p) :
    delivered (setup (fun _ => true) { level := some 30, force := true } (setup (fun _ => true) { level := some 10 } (onImport python)).1).1 p 20 = [] := by
  refine (setup_force_partial ?_ rfl (by decide) rfl rfl (by simp) (by simp [asked]) hp 20).trans rfl
  exact clean_run (ss := [.setup (fun _ => true) { level := some 10 }]) (clean_top python_clean _) (by simp [Step.Proper])

example (p : List (List Char)) (hp : Under p) :
    delivered (disable ([Step.setup (fun _ => true) { level := some 10 }, .app [] { level := 10, handlers := [⟨0, some (.app 1)⟩] },
      .setup (fun _ => true) { level := some 10, propagate := true }].foldl Step.run python)) p 40 = [] :=
  silent_after_disable python_clean (by simp [Step.Proper]) hp 40

/-- an application that logs errors only -/
example (p : List (List Char)) (hp : Under p) :=
  root_level_violated (opens := fun _ => true) (st := fun p => if p = [] then ⟨40, [⟨0, some (.app 1)⟩], true⟩ else {}) (L := 20) (s := .app 1)
    (fun c q => by simp) rfl (by decide) rfl hp 20 (by decide) (by decide)

example (p : List (List Char)) (hp : Under p) :=
  bad_file_violated (opens := fun _ => false) (st := put python top ⟨20, [⟨20, some (.stream 3)⟩], false⟩) (L := 20) (f := 1) (s := .stream 3)
    (clean_top python_clean _) (by decide) (put_self ..) rfl hp 20 (by decide)

example : ¬ Under [['a', 'p', 'p']] ∧ delivered (setup (fun _ => true) { level := some 10 } python).1 [['a', 'p', 'p']] 40 = delivered python [['a', 'p', 'p']] 40 := by
  have : ¬ Under [['a', 'p', 'p']] := by
    rw [show ([['a', 'p', 'p']] : List (List Char)) = [['a', 'p', 'p']].reverse from rfl, under_reverse]
    decide
  exact ⟨this, (others_untouched this _ _ _).1⟩


/-- an application that configured "mplang" before importing the library -/
example (p : List (List Char)) (hp : Under p) : delivered (onImport (put python top ⟨20, [⟨20, some (.file 1)⟩], false⟩)) p 30 = [.file 1] := by
  rw [import_respects (by rw [put_self]; simp), delivered_put python_clean _ hp (by decide)]
  rfl

/-- warnings in a file from the library's first call, everything on screen from the application's call -/
example (p : List (List Char)) (hp : Under p) (opens : Nat → Bool) :
    delivered (setup opens { level := some 10, stream := .given (.stream 2) }
      (setup opens { level := some 30, stream := .given (.stream 1) } (onImport python)).1).1 p 20 = [.stream 2] :=
  setup_twice python_clean python_top _ _ (by decide) (by decide) hp 20

/-- the library writes to a file, then the application also wants its records -/
example (p : List (List Char)) (hp : Under p) (opens : Nat → Bool) :
    delivered (setup opens { level := some 10, propagate := true }
      (put (put python [] ⟨30, [⟨0, some (.app 1)⟩], true⟩) top ⟨20, [⟨20, some (.file 1)⟩], false⟩)).1 p 30 = [.file 1, .app 1] := by
  refine (setup_propagate_adds (L := 10) (clean_top (clean_put python_clean _ (by simp [top])) _) rfl (by decide) rfl rfl (by simp)
    (by rw [put_self]; simp) (fun x hx => ?_) hp 30).trans ?_
  · rw [put_self] at hx
    obtain rfl := (List.cons.inj hx).1
    simp
  · have e : put (put python [] ⟨30, [⟨0, some (.app 1)⟩], true⟩) top ⟨20, [⟨20, some (.file 1)⟩], false⟩ [] = ⟨30, [⟨0, some (.app 1)⟩], true⟩ := by
      rw [put_ne (by simp [top]), put_self]
    unfold before
    rw [put_self, e]
    rfl

end Verif.Tool.Logging
