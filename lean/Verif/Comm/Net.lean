/-!
# Model of the message layer of the SIMP workers

`CommContext` (backends/simp_worker/comm_context.py) over a communicator: the in-memory `ThreadCommunicator`
(backends/simp_worker/mem.py) or the HTTP one (backends/simp_worker/http.py).  All parties run concurrently; a schedule is a
list of labels, each label is one send, one receive or one message delivery, in any order.

Simplifications.  One communication scope (context id) is modelled here; scopes are in `Verif.Comm.Scope`.  A mailbox key is the
pair of the scope and the interaction number (the string `f"{id}:{seq}"` is an injective image of it, theorem
`Verif.Comm.key_injective`).  A message first travels (`flying`) and is then put into the mailbox by a separate step, so
messages may overtake each other as with HTTP; in memory the two steps happen together, which is one of the schedules.
A local computation between two communications is not a separate step.
-/
namespace Verif.Comm

/-- What a party still has to do: return a value, send and go on, receive and go on, or stop with an exception. -/
inductive Proc (M A : Type) where
  | ret (a : A)
  | send (to : Nat) (m : M) (k : Proc M A)
  | recv (frm : Nat) (k : M → Proc M A)
  | fail

/-- sequential composition of the code of one party -/
def Proc.bind {M A B : Type} : Proc M A → (A → Proc M B) → Proc M B
  | .ret a, f => f a
  | .send t m k, f => .send t m (k.bind f)
  | .recv t k, f => .recv t (fun m => (k m).bind f)
  | .fail, _ => .fail

/-- one mailbox slot `(from, key)` of a party: nothing, a message on its way, a message in `_mailbox` (mem.py:48-49, 145-153) -/
inductive Slot (M : Type) where
  | empty
  | flying (m : M)
  | ready (m : M)

/-- (receiver, sender, interaction number) -/
abbrev Key := Nat × Nat × Nat

/-- global state: remaining code of each party, `_seq` counters `seq p peer` (comm_context.py:54), mailboxes -/
structure Net (M A : Type) where
  proc : Nat → Proc M A
  seq : Nat → Nat → Nat
  slot : Key → Slot M

/-- function update -/
def upd {α β : Type} [DecidableEq α] (f : α → β) (a : α) (b : β) : α → β := fun x => if x = a then b else f x

/-- what can happen next: party `p` performs its next communication, or a message arrives -/
inductive Label where
  | run (p : Nat)
  | deliver (key : Key)
  deriving DecidableEq

/-- effect of one step: new code of a party, the peer whose counter it increments, the slot it writes -/
structure Eff (M A : Type) where
  party : Option (Nat × Proc M A × Option Nat)
  slot : Option (Key × Slot M)

/-- Next step with the given label, if enabled.
`CommContext.send` (comm_context.py:90-94): takes the next number for the peer and sends under that key;
`ThreadCommunicator.send` (mem.py:66-91) asserts the target is a party and `_on_receive` (145-153) raises on an occupied slot.
`CommContext.recv` (106-110): next number for the peer, blocks until the slot `(frm, key)` is filled and pops it (mem.py:122-143). -/
def plan {M A : Type} (N : Nat) (s : Net M A) : Label → Option (Eff M A)
  | .run p =>
    if p < N then
      match s.proc p with
      | .ret _ => none
      | .fail => none
      | .send to m k =>
        if to < N then
          match s.slot (to, p, s.seq p to) with
          | .empty => some ⟨some (p, k, some to), some ((to, p, s.seq p to), .flying m)⟩
          | _ => some ⟨some (p, .fail, none), none⟩
        else some ⟨some (p, .fail, none), none⟩
      | .recv frm k =>
        match s.slot (p, frm, s.seq p frm) with
        | .ready m => some ⟨some (p, k m, some frm), some ((p, frm, s.seq p frm), .empty)⟩
        | _ => none
    else none
  | .deliver key =>
    match s.slot key with
    | .flying m => some ⟨none, some (key, .ready m)⟩
    | _ => none

/-- perform an effect -/
def apply {M A : Type} (s : Net M A) (e : Eff M A) : Net M A where
  proc := match e.party with
    | none => s.proc
    | some (p, k, _) => upd s.proc p k
  seq := match e.party with
    | some (p, _, some q) => upd s.seq p (upd (s.seq p) q (s.seq p q + 1))
    | _ => s.seq
  slot := match e.slot with
    | none => s.slot
    | some (k, v) => upd s.slot k v

/-- one step of a network of `N` parties -/
def step {M A : Type} (N : Nat) (s : Net M A) (l : Label) : Option (Net M A) := (plan N s l).map (apply s)

/-- run a schedule -/
def exec {S L : Type} (st : S → L → Option S) : S → List L → Option S
  | s, [] => some s
  | s, l :: ls => match st s l with
    | none => none
    | some s' => exec st s' ls

/-- nothing can happen any more -/
def Terminal {S L : Type} (st : S → L → Option S) (s : S) : Prop := ∀ l, st s l = none

/-! ## Confluence of labelled systems with the diamond property -/

section
variable {S L : Type} (st : S → L → Option S)

theorem exec_append (s : S) (a b : List L) : exec st s (a ++ b) = (exec st s a).bind (fun s' => exec st s' b) := by
  induction a generalizing s with
  | nil => rfl
  | cons l a ih =>
    simp only [List.cons_append, exec]
    cases st s l with
    | none => rfl
    | some s' => exact ih s'

variable (Inv : S → Prop) (hinv : ∀ s l s', Inv s → st s l = some s' → Inv s')
  (hdia : ∀ s a b s1 s2, Inv s → a ≠ b → st s a = some s1 → st s b = some s2 → ∃ s', st s1 b = some s' ∧ st s2 a = some s')

include hinv hdia in
/-- any enabled step from `s` stays on the way to the terminal state and shortens it by one -/
theorem step_towards [DecidableEq L] (ls : List L) (s t s' : S) (l : L) (hi : Inv s) (h : exec st s ls = some t)
    (ht : Terminal st t) (hl : st s l = some s') : ∃ ls', ls'.length + 1 = ls.length ∧ exec st s' ls' = some t := by
  induction ls generalizing s s' with
  | nil =>
    simp only [exec, Option.some.injEq] at h
    subst h
    rw [ht l] at hl
    cases hl
  | cons a ls ih =>
    simp only [exec] at h
    cases ha : st s a with
    | none => simp [ha] at h
    | some s1 =>
      simp only [ha] at h
      by_cases hal : a = l
      · subst hal
        rw [ha] at hl
        cases hl
        exact ⟨ls, rfl, h⟩
      · obtain ⟨s2, e1, e2⟩ := hdia s a l s1 s' hi hal ha hl
        obtain ⟨ls', hlen, he⟩ := ih s1 s2 (hinv _ _ _ hi ha) h e1
        exact ⟨a :: ls', by simp [hlen], by simp only [exec, e2]; exact he⟩

include hinv hdia in
/-- **Schedule independence.**  If one schedule ends in a terminal state, every schedule can be continued to that same
state, and no schedule is longer. -/
theorem confluent [DecidableEq L] (ls ms : List L) (s t u : S) (hi : Inv s) (h : exec st s ls = some t)
    (ht : Terminal st t) (hu : exec st s ms = some u) :
    ∃ rest, ms.length + rest.length = ls.length ∧ exec st u rest = some t := by
  induction ms generalizing s ls with
  | nil =>
    simp only [exec, Option.some.injEq] at hu
    subst hu
    exact ⟨ls, by simp, h⟩
  | cons m ms ih =>
    simp only [exec] at hu
    cases hm : st s m with
    | none => simp [hm] at hu
    | some s' =>
      simp only [hm] at hu
      obtain ⟨ls', e1, e2⟩ := step_towards st Inv hinv hdia ls s t s' m hi h ht hm
      obtain ⟨rest, e3, e4⟩ := ih ls' s' (hinv _ _ _ hi hm) e2 hu
      exact ⟨rest, by simp; omega, e4⟩

include hinv hdia in
/-- a schedule that cannot be continued ends in the terminal state -/
theorem maximal_unique [DecidableEq L] (ls ms : List L) (s t u : S) (hi : Inv s) (h : exec st s ls = some t)
    (ht : Terminal st t) (hu : exec st s ms = some u) (hut : Terminal st u) : u = t ∧ ms.length = ls.length := by
  obtain ⟨rest, e1, e2⟩ := confluent st Inv hinv hdia ls ms s t u hi h ht hu
  cases rest with
  | nil => simp only [exec, Option.some.injEq] at e2; exact ⟨e2, by simpa using e1⟩
  | cons r rest => simp [exec, hut r] at e2
end

/-! ## The network has the diamond property -/

section
variable {M A : Type}

theorem upd_same {α β : Type} [DecidableEq α] (f : α → β) (a : α) (b : β) : upd f a b a = b := by simp [upd]
theorem upd_ne {α β : Type} [DecidableEq α] (f : α → β) (a : α) (b : β) (x : α) (h : x ≠ a) : upd f a b x = f x := by simp [upd, h]
theorem upd_comm {α β : Type} [DecidableEq α] (f : α → β) (a a' : α) (b b' : β) (h : a ≠ a') :
    upd (upd f a b) a' b' = upd (upd f a' b') a b := by
  funext x
  simp only [upd]
  by_cases h1 : x = a
  · subst h1; simp [h]
  · simp [h1]
theorem upd_upd {α β : Type} [DecidableEq α] (f : α → β) (a : α) (b b' : β) : upd (upd f a b) a b' = upd f a b' := by
  funext x
  simp only [upd]
  split <;> rfl
theorem upd_id {α β : Type} [DecidableEq α] (f : α → β) (a : α) : upd f a (f a) = f := by
  funext x
  simp only [upd]
  split
  · rename_i h; rw [h]
  · rfl

/-- every message in the network carries a number its sender has already used -/
def WF (s : Net M A) : Prop := ∀ to frm n, s.slot (to, frm, n) ≠ .empty → n < s.seq frm to

/-- the party and the slot a label reads and writes -/
def labelParty : Label → Option Nat
  | .run p => some p
  | .deliver _ => none

/-- see `labelParty` -/
def labelKey (s : Net M A) : Label → Option Key
  | .run p => match s.proc p with
    | .send to _ _ => some (to, p, s.seq p to)
    | .recv frm _ => some (p, frm, s.seq p frm)
    | _ => none
  | .deliver k => some k

theorem plan_party (N : Nat) (s : Net M A) (l : Label) (e : Eff M A) (h : plan N s l = some e) :
    e.party.map (·.1) = labelParty l := by
  cases l with
  | run p =>
    simp only [plan] at h
    split at h
    · split at h
      · simp at h
      · simp at h
      · split at h
        · split at h <;> (simp only [Option.some.injEq] at h; subst h; rfl)
        · simp only [Option.some.injEq] at h; subst h; rfl
      · split at h
        · simp only [Option.some.injEq] at h; subst h; rfl
        · simp at h
    · simp at h
  | deliver k =>
    simp only [plan] at h
    split at h
    · simp only [Option.some.injEq] at h; subst h; rfl
    · simp at h

theorem plan_key (N : Nat) (s : Net M A) (l : Label) (e : Eff M A) (h : plan N s l = some e) (k : Key) (v : Slot M)
    (hk : e.slot = some (k, v)) : labelKey s l = some k := by
  cases l with
  | run p =>
    simp only [plan] at h
    split at h
    · simp only [labelKey]
      split at h
      · simp at h
      · simp at h
      · rename_i hp
        split at h
        · split at h <;> (simp only [Option.some.injEq] at h; subst h; simp_all)
        · simp only [Option.some.injEq] at h; subst h; simp at hk
      · rename_i hp
        split at h
        · simp only [Option.some.injEq] at h; subst h; simp_all
        · simp at h
    · simp at h
  | deliver k =>
    simp only [plan] at h
    split at h
    · simp only [Option.some.injEq] at h; subst h; simp_all [labelKey]
    · simp at h

/-- a step does not change what another enabled label does, if it leaves that label's party and slot alone -/
theorem plan_stable (N : Nat) (s s' : Net M A) (l : Label)
    (hp : ∀ p, labelParty l = some p → s'.proc p = s.proc p ∧ s'.seq p = s.seq p)
    (hk : ∀ k, labelKey s l = some k → s'.slot k = s.slot k) : plan N s' l = plan N s l := by
  cases l with
  | run p =>
    obtain ⟨h1, h2⟩ := hp p rfl
    simp only [plan, h1, h2]
    simp only [labelKey] at hk
    split
    · split
      · rfl
      · rfl
      · rename_i hp; rw [hk _ (by rw [hp])]
      · rename_i hp; rw [hk _ (by rw [hp])]
    · rfl
  | deliver k => simp only [plan, hk k rfl]

/-- different enabled labels concern different slots -/
theorem keys_differ (N : Nat) (s : Net M A) (hwf : WF s) (a b : Label) (hab : a ≠ b) (ea eb : Eff M A)
    (ha : plan N s a = some ea) (hb : plan N s b = some eb) (k : Key) (hka : labelKey s a = some k) :
    labelKey s b ≠ some k := by
  intro hkb
  have fresh : ∀ p to, s.slot (to, p, s.seq p to) = .empty := by
    intro p to
    cases h : s.slot (to, p, s.seq p to) with
    | empty => rfl
    | flying m => exact absurd (hwf to p _ (by simp [h])) (Nat.lt_irrefl _)
    | ready m => exact absurd (hwf to p _ (by simp [h])) (Nat.lt_irrefl _)
  have rdy : ∀ p frm k e, plan N s (.run p) = some e → s.proc p = .recv frm k → ∃ m, s.slot (p, frm, s.seq p frm) = .ready m := by
    intro p frm k e h hp
    simp only [plan, hp] at h
    split at h
    · split at h
      · rename_i m hm; exact ⟨m, hm⟩
      · simp at h
    · simp at h
  have fly : ∀ k e, plan N s (.deliver k) = some e → ∃ m, s.slot k = .flying m := by
    intro k e h
    simp only [plan] at h
    split at h
    · rename_i m hm; exact ⟨m, hm⟩
    · simp at h
  have rk : ∀ p, labelKey s (.run p) = some k → (∃ to m q, s.proc p = .send to m q ∧ k = (to, p, s.seq p to)) ∨
      (∃ frm q, s.proc p = .recv frm q ∧ k = (p, frm, s.seq p frm)) := by
    intro p h
    simp only [labelKey] at h
    split at h
    · rename_i to m q hp; cases h; exact .inl ⟨to, m, q, hp, rfl⟩
    · rename_i frm q hp; cases h; exact .inr ⟨frm, q, hp, rfl⟩
    · simp at h
  cases a with
  | run p =>
    rcases rk p hka with ⟨to, m, q, hp, rfl⟩ | ⟨frm, q, hp, rfl⟩
    · cases b with
      | run p' =>
        rcases rk p' hkb with ⟨to', m', q', hp', e⟩ | ⟨frm', q', hp', e⟩
        · simp only [Prod.mk.injEq] at e
          exact hab (by rw [e.2.1])
        · obtain ⟨x, hx⟩ := rdy p' frm' q' eb hb hp'
          rw [← e, fresh p to] at hx
          cases hx
      | deliver k' =>
        cases hkb
        obtain ⟨x, hx⟩ := fly _ eb hb
        rw [fresh p to] at hx
        cases hx
    · obtain ⟨y, hy⟩ := rdy p frm q ea ha hp
      cases b with
      | run p' =>
        rcases rk p' hkb with ⟨to', m', q', hp', e⟩ | ⟨frm', q', hp', e⟩
        · rw [e, fresh p' to'] at hy
          cases hy
        · simp only [Prod.mk.injEq] at e
          exact hab (by rw [e.1])
      | deliver k' =>
        cases hkb
        obtain ⟨x, hx⟩ := fly _ eb hb
        rw [hy] at hx
        cases hx
  | deliver ka =>
    cases hka
    obtain ⟨y, hy⟩ := fly _ ea ha
    cases b with
    | run p' =>
      rcases rk p' hkb with ⟨to', m', q', hp', e⟩ | ⟨frm', q', hp', e⟩
      · rw [e, fresh p' to'] at hy
        cases hy
      · obtain ⟨x, hx⟩ := rdy p' frm' q' eb hb hp'
        rw [← e, hy] at hx
        cases hx
    | deliver k' => cases hkb; exact hab rfl

theorem parties_differ (a b : Label) (hab : a ≠ b) (p : Nat) (h1 : labelParty a = some p) : labelParty b ≠ some p := by
  cases a with
  | run q =>
    cases h1
    cases b with
    | run q' => intro h; cases h; exact hab rfl
    | deliver k => simp [labelParty]
  | deliver k => simp [labelParty] at h1

/-- effects on different parties and slots commute -/
theorem apply_comm (s : Net M A) (e f : Eff M A)
    (hp : ∀ p, e.party.map (·.1) = some p → f.party.map (·.1) ≠ some p)
    (hk : ∀ k v w, e.slot = some (k, v) → f.slot ≠ some (k, w)) :
    apply (apply s e) f = apply (apply s f) e := by
  obtain ⟨ep, es⟩ := e
  obtain ⟨fp, fs⟩ := f
  simp only [apply, Net.mk.injEq]
  refine ⟨?_, ?_, ?_⟩
  · match ep, fp with
    | none, _ => rfl
    | some _, none => rfl
    | some (p, k, _), some (q, k', _) =>
      exact upd_comm _ _ _ _ _ (fun h => hp p rfl (by simp [h]))
  · match ep, fp with
    | none, _ => rfl
    | some (_, _, none), _ => rfl
    | some (_, _, some _), none => rfl
    | some (_, _, some _), some (_, _, none) => rfl
    | some (p, k, some x), some (q, k', some y) =>
      have hne : p ≠ q := fun h => hp p rfl (by simp [h])
      simp only
      rw [upd_ne _ _ _ _ (Ne.symm hne), upd_ne _ _ _ _ hne]
      exact upd_comm _ _ _ _ _ hne
  · match es, fs with
    | none, _ => rfl
    | some _, none => rfl
    | some (k, v), some (k', w) =>
      exact upd_comm _ _ _ _ _ (fun h => hk k v w rfl (by simp [h]))

theorem apply_proc (s : Net M A) (e : Eff M A) (p : Nat) (h : e.party.map (·.1) ≠ some p) :
    (apply s e).proc p = s.proc p ∧ (apply s e).seq p = s.seq p := by
  obtain ⟨ep, es⟩ := e
  simp only [apply]
  match ep with
  | none => exact ⟨rfl, rfl⟩
  | some (q, k, none) => exact ⟨upd_ne _ _ _ _ (fun h' => h (by simp [h'])), rfl⟩
  | some (q, k, some x) =>
    exact ⟨upd_ne _ _ _ _ (fun h' => h (by simp [h'])), upd_ne _ _ _ _ (fun h' => h (by simp [h']))⟩

theorem apply_slot (s : Net M A) (e : Eff M A) (k : Key) (h : ∀ v, e.slot ≠ some (k, v)) : (apply s e).slot k = s.slot k := by
  obtain ⟨ep, es⟩ := e
  simp only [apply]
  match es with
  | none => rfl
  | some (k', v) => exact upd_ne _ _ _ _ (fun h' => h v (by simp [h']))

/-- the diamond property -/
theorem diamond (N : Nat) (s : Net M A) (a b : Label) (s1 s2 : Net M A) (hwf : WF s) (hab : a ≠ b)
    (ha : step N s a = some s1) (hb : step N s b = some s2) : ∃ s', step N s1 b = some s' ∧ step N s2 a = some s' := by
  simp only [step, Option.map_eq_some_iff] at ha hb
  obtain ⟨ea, pa, rfl⟩ := ha
  obtain ⟨eb, pb, rfl⟩ := hb
  have p1 : plan N (apply s ea) b = some eb := by
    rw [← pb]
    apply plan_stable
    · intro p hp
      exact apply_proc s ea p (by rw [plan_party N s a ea pa]; exact parties_differ b a (Ne.symm hab) p hp)
    · intro k hk
      exact apply_slot s ea k (fun v hv => keys_differ N s hwf b a (Ne.symm hab) eb ea pb pa k hk (plan_key N s a ea pa k v hv))
  have p2 : plan N (apply s eb) a = some ea := by
    rw [← pa]
    apply plan_stable
    · intro p hp
      exact apply_proc s eb p (by rw [plan_party N s b eb pb]; exact parties_differ a b hab p hp)
    · intro k hk
      exact apply_slot s eb k (fun v hv => keys_differ N s hwf a b hab ea eb pa pb k hk (plan_key N s b eb pb k v hv))
  refine ⟨apply (apply s ea) eb, by simp [step, p1], ?_⟩
  simp only [step, p2, Option.map_some, Option.some.injEq]
  refine (apply_comm s ea eb ?_ ?_).symm
  · intro p hp
    rw [plan_party N s b eb pb]
    rw [plan_party N s a ea pa] at hp
    exact parties_differ a b hab p hp
  · intro k v w hk hk'
    exact keys_differ N s hwf a b hab ea eb pa pb k (plan_key N s a ea pa k v hk) (plan_key N s b eb pb k w hk')

theorem wf_step (N : Nat) (s : Net M A) (l : Label) (s' : Net M A) (hwf : WF s) (h : step N s l = some s') : WF s' := by
  simp only [step, Option.map_eq_some_iff] at h
  obtain ⟨e, he, rfl⟩ := h
  have mono : ∀ (p : Nat) (k : Proc M A) (q : Nat) (sl), ∀ frm to, s.seq frm to ≤ (apply s ⟨some (p, k, some q), sl⟩).seq frm to := by
    intro p k q sl frm to
    simp only [apply, upd]
    split
    · rename_i h1
      subst h1
      simp only [upd]
      split
      · rename_i h2; subst h2; omega
      · exact Nat.le_refl _
    · exact Nat.le_refl _
  intro to frm n hs
  cases l with
  | run p =>
    simp only [plan] at he
    split at he
    · split at he
      · simp at he
      · simp at he
      · rename_i to' m k hp
        split at he
        · split at he
          · simp only [Option.some.injEq] at he
            subst he
            by_cases hk : (to, frm, n) = (to', p, s.seq p to')
            · simp only [Prod.mk.injEq] at hk
              obtain ⟨rfl, rfl, rfl⟩ := hk
              simp [apply, upd]
            · have : s.slot (to, frm, n) ≠ .empty := by simpa only [apply, upd, hk, if_false] using hs
              exact Nat.lt_of_lt_of_le (hwf to frm n this) (mono _ _ _ _ _ _)
          · simp only [Option.some.injEq] at he; subst he; exact hwf to frm n hs
        · simp only [Option.some.injEq] at he; subst he; exact hwf to frm n hs
      · rename_i frm' k hp
        split at he
        · rename_i m hm
          simp only [Option.some.injEq] at he
          subst he
          by_cases hk : (to, frm, n) = (p, frm', s.seq p frm')
          · simp only [apply, upd, hk, if_true] at hs
            exact absurd rfl hs
          · have : s.slot (to, frm, n) ≠ .empty := by simpa only [apply, upd, hk, if_false] using hs
            exact Nat.lt_of_lt_of_le (hwf to frm n this) (mono _ _ _ _ _ _)
        · simp at he
    · simp at he
  | deliver key =>
    simp only [plan] at he
    split at he
    · rename_i m hm
      simp only [Option.some.injEq] at he
      subst he
      by_cases hk : (to, frm, n) = key
      · subst hk
        exact hwf to frm n (by simp [hm])
      · have : s.slot (to, frm, n) ≠ .empty := by simpa only [apply, upd, hk, if_false] using hs
        exact hwf to frm n this
    · simp at he

/-- **Schedule independence of the network.** -/
theorem net_confluent (N : Nat) (ls ms : List Label) (s t u : Net M A) (hwf : WF s) (h : exec (step N) s ls = some t)
    (ht : Terminal (step N) t) (hu : exec (step N) s ms = some u) :
    ∃ rest, ms.length + rest.length = ls.length ∧ exec (step N) u rest = some t :=
  confluent (step N) WF (wf_step N) (fun s a b s1 s2 hw hab h1 h2 => diamond N s a b s1 s2 hw hab h1 h2) ls ms s t u hwf h ht hu

theorem net_maximal_unique (N : Nat) (ls ms : List Label) (s t u : Net M A) (hwf : WF s) (h : exec (step N) s ls = some t)
    (ht : Terminal (step N) t) (hu : exec (step N) s ms = some u) (hut : Terminal (step N) u) : u = t ∧ ms.length = ls.length :=
  maximal_unique (step N) WF (wf_step N) (fun s a b s1 s2 hw hab h1 h2 => diamond N s a b s1 s2 hw hab h1 h2) ls ms s t u hwf h
    ht hu hut
end
end Verif.Comm
