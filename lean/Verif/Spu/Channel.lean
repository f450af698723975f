import Verif.Spu.Link
import Verif.Comm.Scope
import Verif.Comm.Http
import Verif.Comm.Mailbox
/-!
# C81 — SPU traffic over the worker's communicator, and one SPU execution (backends/channel.py, backends/spu_impl.py:232-359)

A message of the SPU library is a tag and bytes. The mailbox of a worker is keyed by sender and text key. The SPU
library's `Runtime` is its variable table plus what running a kernel does to it (`Kernel`): it reads the variables named
as inputs and writes the variables named as outputs.
-/
namespace Verif.Spu
open Verif.Comm Verif.Comm.Http Verif.Serde

/-- `_make_key` (channel.py:75-84) with the default prefix -/
def spuKey (tag : String) : String := "spu:" ++ tag

/-- where a `Send` on channel `ch` lands: mailbox of `ch.peer`, under (sender, key) (channel.py:86-104, mem.py:58-84) -/
def Channel.sendSlot (ch : Channel) (tag : String) : Nat × (Nat × String) := (ch.peer, (ch.self, spuKey tag))

/-- what a `Recv` on channel `ch` waits for: mailbox of `ch.self`, from `ch.peer` (channel.py:106-147, mem.py:131-139) -/
def Channel.recvSlot (ch : Channel) (tag : String) : Nat × (Nat × String) := (ch.self, (ch.peer, spuKey tag))

/-- the type check of `Recv` (channel.py:131-136); `none` is the TypeError -/
def recvCheck : PyVal → Option (List Nat)
  | .bytes b => some b
  | _ => none

/-- the value put in the peer's mailbox by `Send`/`SendAsync`: `is_raw_bytes=True` on either communicator
(channel.py:104, 166; mem.py:76-83; http.py:395-463) -/
def transmit (W : WireLib) (eq : PyVal → PyVal → Bool) (http : Option Bool) (useSerde : Bool) (rank : Nat) (b : List Nat) :
    Option PyVal :=
  match http with
  | none => memDeliver W eq useSerde true (.bytes b)
  | some useBinary =>
    match encode W useBinary rank true (.bytes b) with
    | none => none
    | some m => match decode W eq m with
      | .ok (_, v) => some v
      | .error _ => none

/-- **C81** (bytes) Whatever bytes the SPU library sends on a channel, the peer's `Recv` returns exactly those bytes —
over the in-memory communicator with or without serialisation, and over HTTP in both transport modes. -/
theorem spu_bytes_delivered {W : WireLib} (hW : W.Ok) {eq : PyVal → PyVal → Bool} (hs : ∀ s, eq (.str s) (.str s) = true)
    (http : Option Bool) (useSerde : Bool) (rank : Nat) (hr : rank < 10 ^ 4300) (b : List Nat) (hb : ∀ x ∈ b, x < 256) :
    (transmit W eq http useSerde rank b).bind recvCheck = some b := by
  have hc : Carried eq (.bytes b) := ⟨by simpa [PyVal.WF] using hb, by simp [PyVal.goodFloats]⟩
  cases http with
  | none =>
    simp only [transmit]
    rw [mem_delivers hW hs useSerde true _ hc (by simp)]
    rfl
  | some ub =>
    simp only [transmit]
    cases he : encode W ub rank true (.bytes b) with
    | none => simp [encode_fails_iff] at he
    | some m =>
      simp only [http_delivers hW hs ub true rank hr _ hc m he]
      rfl

/-- **C81** (matching) Over the channels two parties of an SPU build to each other, a message with tag `t` is waited for
exactly where it lands, for every pair of parties and every tag; and messages with different tags, from different
senders or to different receivers never share a slot. -/
theorem channels_match (comm comm' : Nat) (ps : List Nat) (a b i j : Nat) (ha : ps[i]? = some a) (hb : ps[j]? = some b)
    (hij : i ≠ j) {V : Type} (l l' : Link V) (h : channelsLink i ps.length comm ps = some l)
    (h' : channelsLink j ps.length comm' ps = some l') :
    ∃ chans chans' ch ch', l = .channels i chans ∧ l' = .channels j chans' ∧ chans[j]? = some (some ch) ∧
      chans'[i]? = some (some ch') ∧ (∀ t, ch.sendSlot t = ch'.recvSlot t ∧ ch'.sendSlot t = ch.recvSlot t) ∧
      (ch.self, ch.peer) = (a, b) := by
  have key : ∀ (c i a : Nat) (l : Link V), ps[i]? = some a → channelsLink i ps.length c ps = some l →
      ∃ chans, l = .channels i chans ∧ ∀ (j b : Nat), ps[j]? = some b → i ≠ j → chans[j]? = some (some ⟨c, a, b⟩) := by
    intro c i a l ha h
    simp only [channelsLink, ha, Nat.le_refl, if_true, Option.some.injEq] at h
    refine ⟨_, h.symm, ?_⟩
    intro j b hb hij
    rw [List.getElem?_map, List.getElem?_zipIdx, hb]
    simp [Ne.symm hij]
  obtain ⟨c1, h1, g1⟩ := key comm i a l ha h
  obtain ⟨c2, h2, g2⟩ := key comm' j b l' hb h'
  exact ⟨c1, c2, _, _, h1, h2, g1 j b hb hij, g2 i a ha (Ne.symm hij), fun t => ⟨rfl, rfl⟩, rfl⟩

theorem slots_distinct (ch ch' : Channel) (t t' : String) (h : ch.sendSlot t = ch'.sendSlot t') :
    ch.peer = ch'.peer ∧ ch.self = ch'.self ∧ t = t' := by
  simp only [Channel.sendSlot, Prod.mk.injEq, spuKey] at h
  refine ⟨h.1, h.2.1, ?_⟩
  have := congrArg String.toList h.2.2
  simp only [String.toList_append, List.append_cancel_left_eq] at this
  exact String.toList_inj.1 this

/-- **C81** (no mixing) SPU traffic never shares a mailbox key with the messages of any job whose id is not "spu" and does
not start with "spu:", at any depth of communication scopes. -/
theorem spu_keys_disjoint (root : String) (h1 : root ≠ "spu") (h2 : ¬ "spu:".toList <+: root.toList)
    (p : List (Nat × Option String)) (seq : Nat) (tag : String) : spuKey tag ≠ msgKey (pathId root p) seq := by
  intro h
  obtain ⟨r, hr, hd, _⟩ := pathId_prefix root p
  have h' := congrArg String.toList h
  simp only [spuKey, msgKey, String.toList_append, hr, List.append_assoc] at h'
  obtain ⟨c, x, hx, hc⟩ : ∃ c x, r ++ (":".toList ++ seq.repr.toList) = c :: x ∧ (c = '.' ∨ c = ':') := by
    cases r with
    | nil => exact ⟨':', seq.repr.toList, rfl, Or.inr rfl⟩
    | cons c r => exact ⟨c, _, rfl, Or.inl (hd c (by simp))⟩
  rw [hx] at h'
  have e4 : "spu:".toList = ['s', 'p', 'u', ':'] := rfl
  rw [e4] at h' h2
  rcases hroot : root.toList with _ | ⟨a, _ | ⟨b, _ | ⟨d, _ | ⟨e, rest⟩⟩⟩⟩
  · rw [hroot] at h'
    simp only [List.cons_append, List.nil_append, List.cons.injEq] at h'
    obtain ⟨rfl, _⟩ := h'
    exact absurd hc (by decide)
  · rw [hroot] at h'
    simp only [List.cons_append, List.nil_append, List.cons.injEq] at h'
    obtain ⟨_, rfl, _⟩ := h'
    exact absurd hc (by decide)
  · rw [hroot] at h'
    simp only [List.cons_append, List.nil_append, List.cons.injEq] at h'
    obtain ⟨_, _, rfl, _⟩ := h'
    exact absurd hc (by decide)
  · rw [hroot] at h'
    simp only [List.cons_append, List.nil_append, List.cons.injEq] at h'
    obtain ⟨rfl, rfl, rfl, _⟩ := h'
    exact h1 (String.toList_inj.1 (by rw [hroot]; rfl))
  · rw [hroot] at h'
    simp only [List.cons_append, List.nil_append, List.cons.injEq] at h'
    obtain ⟨rfl, rfl, rfl, rfl, _⟩ := h'
    exact h2 (by rw [hroot]; exact ⟨rest, rfl⟩)

/-- both conditions are needed: a job called "spu" uses the SPU's keys -/
theorem spu_job_name_violated : ∃ (tag : String) (seq : Nat), spuKey tag = msgKey (pathId "spu" []) seq :=
  ⟨"0", 0, by decide +kernel⟩

/-- **C81** (URL) The key of an SPU message survives the URL path of the HTTP communicator when the tag has none of
`/ ? # %`. -/
theorem spu_key_survives_url (tag : String) (ht : plainChars tag) : urlSafe (spuKey tag) := by
  have hp : plainChars (spuKey tag) := by
    refine plain_append ?_ ht
    unfold plainChars
    decide +kernel
  have hmem : ':' ∈ (spuKey tag).toList := by simp [spuKey]
  refine ⟨?_, ?_, ?_, hp⟩ <;> (intro e; rw [e] at hmem; simp at hmem)

/-! ## One execution -/

/-- an argument of `spu.exec`: a share, or a public array (spu_impl.py:327-341) -/
inductive Arg (S A : Type)
  | share (s : S)
  | pub (a : A)

/-- a compiled kernel: how the values of its outputs follow from the values of its inputs (contract of
`runtime.run`, which reads the variables in `input_names` and writes those in `output_names`) -/
structure Kernel (S : Type) where
  inputs : List String
  outputs : List String
  f : List S → List S
  arity : ∀ xs, (f xs).length = outputs.length

/-- `runtime.set_var` for a list of names (spu_impl.py:342) -/
def setVars {S : Type} : List (String × S) → (String → Option S) → (String → Option S)
  | [], vars => vars
  | (n, s) :: l, vars => setVars l (Function.update vars n (some s))

/-- share of a public value for this party: `io.make_shares(x, VIS_PUBLIC)[local_rank]` -/
def argShare {S A : Type} (mk : A → List S) (rank : Nat) : Arg S A → Option S
  | .share s => some s
  | .pub a => (mk a)[rank]?

/-- `exec_impl` on a runtime with variables `vars` (spu_impl.py:320-359); `none` is an exception -/
def execute {S A : Type} (mk : A → List S) (rank : Nat) (k : Kernel S) (args : List (Arg S A)) (vars : String → Option S) :
    Option (List S × (String → Option S)) :=
  if k.inputs.length = args.length then
    match args.mapM (argShare mk rank) with
    | none => none
    | some shares =>
      let v1 := setVars (k.inputs.zip shares) vars
      match k.inputs.mapM v1 with
      | none => none
      | some xs =>
        let v2 := setVars (k.outputs.zip (k.f xs)) v1
        match k.outputs.mapM v2 with
        | none => none
        | some out => some (out, v2)
  else none

theorem setVars_of_not_mem {S : Type} : ∀ (l : List (String × S)) (vars : String → Option S) (n : String),
    (∀ e ∈ l, e.1 ≠ n) → setVars l vars n = vars n
  | [], vars, n, _ => rfl
  | (m, s) :: l, vars, n, h => by
    rw [setVars, setVars_of_not_mem l _ n (fun e he => h e (by simp [he])), Function.update_of_ne]
    exact Ne.symm (h (m, s) (by simp))

theorem setVars_read {S : Type} : ∀ (names : List String) (xs : List S) (vars : String → Option S), names.Nodup →
    names.length = xs.length → names.mapM (setVars (names.zip xs) vars) = some xs
  | [], [], vars, _, _ => rfl
  | n :: names, x :: xs, vars, hn, hl => by
    rw [List.nodup_cons] at hn
    rw [List.mapM_cons]
    have h1 : setVars ((n :: names).zip (x :: xs)) vars n = some x := by
      simp only [List.zip_cons_cons, setVars]
      rw [setVars_of_not_mem, Function.update_self]
      intro e he hc
      have := (List.of_mem_zip (a := e.1) (b := e.2) he).1
      rw [hc] at this
      exact hn.1 this
    have h2 := setVars_read names xs (Function.update vars n (some x)) hn.2 (by simpa using hl)
    rw [h1]
    simp only [List.zip_cons_cons, setVars] at h2 ⊢
    rw [h2]
    rfl
  | [], _ :: _, _, _, hl => by simp at hl
  | _ :: _, [], _, _, hl => by simp at hl

/-- **C81** (no leftovers) Executing a kernel gives the kernel's own result on this call's arguments, whatever earlier
kernels left in the reused runtime's variables, and whatever the other names in it are; a public argument enters as this
party's share of it. -/
theorem execute_result {S A : Type} (mk : A → List S) (rank : Nat) (k : Kernel S) (hi : k.inputs.Nodup) (ho : k.outputs.Nodup)
    (args : List (Arg S A)) (shares : List S) (hl : k.inputs.length = args.length)
    (hsh : args.mapM (argShare mk rank) = some shares) (vars : String → Option S) :
    ∃ vars', execute mk rank k args vars = some (k.f shares, vars') := by
  have hlen : shares.length = args.length := by
    have : ∀ (l : List (Arg S A)) (r : List S), l.mapM (argShare mk rank) = some r → r.length = l.length := by
      intro l
      induction l with
      | nil => intro r hr; simp at hr; simp [← hr]
      | cons x l ih =>
        intro r hr
        rw [List.mapM_cons] at hr
        cases hx : argShare mk rank x with
        | none => simp [hx] at hr
        | some y =>
          cases hy : l.mapM (argShare mk rank) with
          | none => simp [hx, hy] at hr
          | some ys =>
            simp only [hx, hy, Option.bind_eq_bind, Option.bind_some, Option.pure_def, Option.some.injEq] at hr
            subst hr
            simp [ih ys hy]
    exact this args shares hsh
  unfold execute
  simp only [hl, if_true, hsh]
  rw [setVars_read k.inputs shares vars hi (by omega)]
  simp only []
  rw [setVars_read k.outputs (k.f shares) _ ho (k.arity shares).symm]
  exact ⟨_, rfl⟩

/-- `input_names = [f"in{i}" ...]`, `output_names = [f"out{i}" ...]` (dialects/spu.py:423, 446, 457) -/
def numbered (pre : String) (n : Nat) : List String := (List.range n).map fun i => pre ++ i.repr

/-- the names the compiler gives to variables are distinct, for any number of them -/
theorem numbered_nodup (pre : String) (n : Nat) : (numbered pre n).Nodup := by
  unfold numbered
  rw [List.Nodup, List.pairwise_map]
  exact List.nodup_range.imp fun hab h => hab (Verif.Base.append_repr_inj h)

/-- **C81** (history) In any sequence of executions on one reused runtime, every execution returns what it would return
on a fresh runtime. -/
theorem execute_history {S A : Type} (mk : A → List S) (rank : Nat) (k : Kernel S) (hi : k.inputs.Nodup) (ho : k.outputs.Nodup)
    (args : List (Arg S A)) (vars vars' : String → Option S) :
    (execute mk rank k args vars).map (·.1) = (execute mk rank k args vars').map (·.1) := by
  by_cases hl : k.inputs.length = args.length
  · cases hsh : args.mapM (argShare mk rank) with
    | none => simp [execute, hl, hsh]
    | some shares =>
      obtain ⟨v1, h1⟩ := execute_result mk rank k hi ho args shares hl hsh vars
      obtain ⟨v2, h2⟩ := execute_result mk rank k hi ho args shares hl hsh vars'
      simp [h1, h2]
  · simp [execute, hl]

/-- a kernel with two inputs and one output -/
def addKernel : Kernel Nat := ⟨numbered "in" 2, numbered "out" 1, fun xs => [xs.sum], fun _ => rfl⟩

example : (execute (fun a : Nat => [a, a + 100]) 1 addKernel [.share 3, .pub 4] (fun _ => some 77)).map (·.1) = some [107] := by
  obtain ⟨v, h⟩ := execute_result (fun a : Nat => [a, a + 100]) 1 addKernel (numbered_nodup _ _) (numbered_nodup _ _)
    [.share 3, .pub 4] [3, 104] rfl rfl (fun _ => some 77)
  rw [h]
  rfl

example : spuKey "root-0:P2P-1:0->1" ≠ msgKey (pathId "3f2a" [(0, some "ab12.7")]) 5 :=
  spu_keys_disjoint "3f2a" (by decide) (by decide +kernel) _ _ _

end Verif.Spu
