import Verif.Comm.Net
/-!
# Synchronised states, rendezvous, and the meaning of "every schedule"
-/
namespace Verif.Comm
section
variable {M A L : Type}

/-- no message in the network; parties have code `P` and counters `c` -/
def syncSt (P : Nat → Proc M A) (c : Nat → Nat → Nat) : Net M A := ⟨P, c, fun _ => .empty⟩

/-- both ends of every pair have counted the same number of interactions -/
def Symm (c : Nat → Nat → Nat) : Prop := ∀ p q, c p q = c q p

/-- `t` can be reached from `s` by some schedule -/
def Reach (N : Nat) (s t : Net M A) : Prop := ∃ ls, exec (step N) s ls = some t

/-- **Every schedule leads to `t`**: `t` is final, there is a number `n` such that every schedule from `s` has at most `n`
steps, can be continued, and every continuation that cannot be continued further has exactly `n` steps and ends in `t`. -/
def Always (N : Nat) (s t : Net M A) : Prop :=
  Terminal (step N) t ∧ ∃ n, ∀ ms u, exec (step N) s ms = some u →
    ms.length ≤ n ∧ (∃ rest, exec (step N) u rest = some t ∧ ms.length + rest.length = n) ∧
    (Terminal (step N) u → u = t ∧ ms.length = n)

theorem reach_refl (N : Nat) (s : Net M A) : Reach N s s := ⟨[], rfl⟩
theorem reach_trans {N : Nat} {s t u : Net M A} (h1 : Reach N s t) (h2 : Reach N t u) : Reach N s u := by
  obtain ⟨a, ha⟩ := h1
  obtain ⟨b, hb⟩ := h2
  exact ⟨a ++ b, by rw [exec_append, ha]; exact hb⟩
theorem reach_step {N : Nat} {s t : Net M A} (l : Label) (h : step N s l = some t) : Reach N s t :=
  ⟨[l], by simp [exec, h]⟩

theorem wf_sync (P : Nat → Proc M A) (c : Nat → Nat → Nat) : WF (syncSt P c) := by
  intro to frm n h; exact absurd rfl h

/-- one schedule that ends is enough -/
theorem always_of_reach {N : Nat} {s t : Net M A} (hwf : WF s) (h : Reach N s t) (ht : Terminal (step N) t) : Always N s t := by
  obtain ⟨ls, hls⟩ := h
  refine ⟨ht, ls.length, ?_⟩
  intro ms u hu
  obtain ⟨rest, h1, h2⟩ := net_confluent N ls ms s t u hwf hls ht hu
  exact ⟨by omega, ⟨rest, h2, h1⟩, fun hut => net_maximal_unique N ls ms s t u hwf hls ht hu hut⟩

/-- parties that all returned or failed -/
theorem terminal_sync {N : Nat} (P : Nat → Proc M A) (c : Nat → Nat → Nat)
    (h : ∀ p, p < N → (∃ a, P p = .ret a) ∨ P p = .fail) : Terminal (step N) (syncSt P c) := by
  intro l
  cases l with
  | run p =>
    simp only [step, plan]
    split
    · rename_i hp
      rcases h p hp with ⟨a, ha⟩ | ha
      · simp [syncSt, ha]
      · simp [syncSt, ha]
    · rfl
  | deliver k => simp [step, plan, syncSt]

/-- counters after one interaction of `p` and `q` -/
def bump (c : Nat → Nat → Nat) (p q : Nat) : Nat → Nat → Nat :=
  upd (upd c p (upd (c p) q (c p q + 1))) q (upd (upd c p (upd (c p) q (c p q + 1)) q) p (c q p + 1))

theorem bump_symm {c : Nat → Nat → Nat} (h : Symm c) {p q : Nat} (hpq : p ≠ q) : Symm (bump c p q) := by
  intro x y
  have hp := h p q
  have hxy := h x y
  simp only [bump, upd]
  by_cases x1 : x = q <;> by_cases x2 : x = p <;> by_cases y1 : y = q <;> by_cases y2 : y = p <;>
    simp_all [upd, Ne.symm hpq]

/-- **Rendezvous**: in a synchronised state a party about to send to `q` and `q` about to receive from it can complete the
transfer, reaching a synchronised state. -/
theorem rendezvous {N : Nat} (P : Nat → Proc M A) (c : Nat → Nat → Nat) (hc : Symm c) (p q : Nat) (hp : p < N) (hq : q < N)
    (hpq : p ≠ q) (m : M) (kp : Proc M A) (kq : M → Proc M A) (h1 : P p = .send q m kp) (h2 : P q = .recv p kq) :
    Reach N (syncSt P c) (syncSt (upd (upd P p kp) q (kq m)) (bump c p q)) := by
  let s0 := syncSt P c
  let s1 : Net M A := ⟨upd P p kp, upd c p (upd (c p) q (c p q + 1)), upd s0.slot (q, p, c p q) (.flying m)⟩
  let s2 : Net M A := ⟨upd P p kp, upd c p (upd (c p) q (c p q + 1)), upd s0.slot (q, p, c p q) (.ready m)⟩
  have e1 : step N s0 (.run p) = some s1 := by
    simp [step, plan, hp, hq, s0, syncSt, h1, apply, s1]
  have e2 : step N s1 (.deliver (q, p, c p q)) = some s2 := by
    simp [step, plan, s1, upd_same, apply, s2, upd_upd]
  have e3 : step N s2 (.run q) = some (syncSt (upd (upd P p kp) q (kq m)) (bump c p q)) := by
    have hq2 : (upd P p kp) q = .recv p kq := by rw [upd_ne _ _ _ _ (Ne.symm hpq)]; exact h2
    have hs2 : (upd c p (upd (c p) q (c p q + 1))) q p = c p q := by
      rw [upd_ne _ _ _ _ (Ne.symm hpq)]; exact (hc p q).symm
    simp only [step, plan, s2, hq, if_true, hq2, hs2, upd_same, Option.map_some, apply, syncSt, Option.some.injEq, Net.mk.injEq,
      true_and]
    refine ⟨by rw [bump, ← hc p q], ?_⟩
    funext k
    simp only [upd, s0, syncSt]
    split <;> rfl
  exact reach_trans (reach_step _ e1) (reach_trans (reach_step _ e2) (reach_step _ e3))

/-- a party that has failed stays failed, and one that has returned stays returned -/
theorem stuck_stays {N : Nat} (p : Nat) (x : Proc M A) (hx : x = .fail ∨ ∃ a, x = .ret a) (ms : List Label) (s u : Net M A)
    (hp : s.proc p = x) (h : exec (step N) s ms = some u) : u.proc p = x := by
  induction ms generalizing s with
  | nil => simp only [exec, Option.some.injEq] at h; subst h; exact hp
  | cons l ms ih =>
    simp only [exec] at h
    cases hs : step N s l with
    | none => simp [hs] at h
    | some s' =>
      simp only [hs] at h
      refine ih s' ?_ h
      simp only [step, Option.map_eq_some_iff] at hs
      obtain ⟨e, he, rfl⟩ := hs
      have : e.party.map (·.1) ≠ some p := by
        rw [plan_party N s l e he]
        intro hl
        cases l with
        | deliver k => simp [labelParty] at hl
        | run q =>
          simp only [labelParty, Option.some.injEq] at hl
          subst hl
          rcases hx with rfl | ⟨a, rfl⟩ <;> simp [plan, hp] at he
      rw [(apply_proc s e p this).1]
      exact hp

/-- when every schedule leads to a state where `p` returned, no schedule ever makes `p` fail -/
theorem never_fails {N : Nat} {s t : Net M A} (h : Always N s t) (p : Nat) (a : A) (ht : t.proc p = .ret a)
    (ms : List Label) (u : Net M A) (hu : exec (step N) s ms = some u) : u.proc p ≠ .fail := by
  intro hf
  obtain ⟨_, _, h2⟩ := h
  obtain ⟨_, ⟨rest, hr, _⟩, _⟩ := h2 ms u hu
  have := stuck_stays p .fail (.inl rfl) rest u t hf hr
  rw [ht] at this
  cases this

/-- when every schedule leads to `t` and `p` has returned somewhere on the way, it returned what it has in `t` -/
theorem returns_unique {N : Nat} {s t : Net M A} (h : Always N s t) (p : Nat) (a : A)
    (ms : List Label) (u : Net M A) (hu : exec (step N) s ms = some u) (hr : u.proc p = .ret a) : t.proc p = .ret a := by
  obtain ⟨_, _, h2⟩ := h
  obtain ⟨_, ⟨rest, hrest, _⟩, _⟩ := h2 ms u hu
  exact stuck_stays p (.ret a) (.inr ⟨a, rfl⟩) rest u t hr hrest

/-! ## Scripts of directed transfers -/

/-- one directed transfer of an SPMD program: the sender computes the message from its local state, the receiver updates
its local state with it -/
structure Xfer (M L : Type) where
  frm : Nat
  to : Nat
  get : L → M
  put : M → L → L

/-- code of party `p` for a script: the transfers it takes part in, in script order -/
def proj (p : Nat) : List (Xfer M L) → L → Proc M L
  | [], l => .ret l
  | x :: xs, l =>
    if p = x.frm then .send x.to (x.get l) (proj p xs l)
    else if p = x.to then .recv x.frm (fun m => proj p xs (x.put m l))
    else proj p xs l

/-- specification: perform the transfers one after the other on the vector of local states -/
def runScript : List (Xfer M L) → (Nat → L) → Nat → L
  | [], σ => σ
  | x :: xs, σ => runScript xs (upd σ x.to (x.put (x.get (σ x.frm)) (σ x.to)))

/-- transfers are between two different parties of the network -/
def ValidScript (N : Nat) (xs : List (Xfer M L)) : Prop := ∀ x ∈ xs, x.frm < N ∧ x.to < N ∧ x.frm ≠ x.to

theorem script_reach {N : Nat} (xs : List (Xfer M L)) (hv : ValidScript N xs) (σ : Nat → L) (k : Nat → L → Proc M A)
    (c : Nat → Nat → Nat) (hc : Symm c) :
    ∃ c', Symm c' ∧ Reach N (syncSt (fun p => (proj p xs (σ p)).bind (k p)) c) (syncSt (fun p => k p (runScript xs σ p)) c') := by
  induction xs generalizing σ c with
  | nil => exact ⟨c, hc, reach_refl N _⟩
  | cons x xs ih =>
    obtain ⟨h1, h2, h3⟩ := hv x (by simp)
    have hr := rendezvous (N := N) (fun p => (proj p (x :: xs) (σ p)).bind (k p)) c hc x.frm x.to h1 h2 h3 (x.get (σ x.frm))
      ((proj x.frm xs (σ x.frm)).bind (k x.frm)) (fun m => (proj x.to xs (x.put m (σ x.to))).bind (k x.to))
      (by simp [proj, Proc.bind]) (by simp [proj, Proc.bind, Ne.symm h3])
    obtain ⟨c', hc', hr'⟩ := ih (fun y hy => hv y (by simp [hy])) (upd σ x.to (x.put (x.get (σ x.frm)) (σ x.to)))
      (bump c x.frm x.to) (bump_symm hc h3)
    refine ⟨c', hc', reach_trans hr ?_⟩
    have : upd (upd (fun p => (proj p (x :: xs) (σ p)).bind (k p)) x.frm ((proj x.frm xs (σ x.frm)).bind (k x.frm))) x.to
        ((proj x.to xs (x.put (x.get (σ x.frm)) (σ x.to))).bind (k x.to)) =
        fun p => (proj p xs (upd σ x.to (x.put (x.get (σ x.frm)) (σ x.to)) p)).bind (k p) := by
      funext p
      simp only [upd]
      by_cases a1 : p = x.to
      · subst a1; simp
      · by_cases a2 : p = x.frm
        · subst a2; simp [a1]
        · simp [a1, a2, proj]
    rw [this]
    exact hr'

end
end Verif.Comm
