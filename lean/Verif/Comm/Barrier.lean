import Verif.Comm.CollectiveProps
/-!
# C25: nobody leaves a barrier before everybody has entered it
-/
namespace Verif.Comm
section
variable {V : Type}

/-- code of a non-root participant after it has announced itself -/
def waitRoot (root : Nat) : Proc (Msg V) Unit := .recv root (fun _ => .ret ())

/-- what holds as long as party `q` has not run -/
structure Held (N : Nat) (R : List Nat) (root q : Nat) (u : Net (Msg V) Unit) : Prop where
  wf : WF u
  rootp : root ≠ q → ∃ l, q ∈ l ∧ u.proc root = (recvEach (fun _ _ u => u) l ()).bind (fun _ => sendEach (.bool true) (others root R) (.ret ()))
  parts : ∀ p ∈ R, p ≠ root → p ≠ q → u.proc p = .send root (.bool true) (waitRoot root) ∨ u.proc p = waitRoot root
  rest : ∀ p, p ∉ R → ∃ a, u.proc p = .ret a
  fromRoot : ∀ p n, u.slot (p, root, n) = .empty
  fromQ : ∀ p n, u.slot (p, q, n) = .empty

theorem held_step (N : Nat) (R : List Nat) (root q : Nat) (hroot : root ∈ R) (hR : ∀ r ∈ R, r < N) (u u' : Net (Msg V) Unit)
    (l : Label) (hl : l ≠ .run q) (h : Held N R root q u) (hs : step N u l = some u') : Held N R root q u' := by
  have hwf := wf_step N u l u' h.wf hs
  simp only [step, Option.map_eq_some_iff] at hs
  obtain ⟨e, he, rfl⟩ := hs
  cases l with
  | deliver key =>
    simp only [plan] at he
    split at he
    · rename_i m hm
      simp only [Option.some.injEq] at he
      subst he
      obtain ⟨k1, k2, k3⟩ := key
      have n1 : k2 ≠ root := by rintro rfl; rw [h.fromRoot] at hm; cases hm
      have n2 : k2 ≠ q := by rintro rfl; rw [h.fromQ] at hm; cases hm
      refine ⟨hwf, h.rootp, h.parts, h.rest, ?_, ?_⟩
      · intro p n
        simp only [apply, upd]
        rw [if_neg (by simp only [Prod.mk.injEq, not_and]; intro _ h2; exact absurd h2.symm n1)]
        exact h.fromRoot p n
      · intro p n
        simp only [apply, upd]
        rw [if_neg (by simp only [Prod.mk.injEq, not_and]; intro _ h2; exact absurd h2.symm n2)]
        exact h.fromQ p n
    · simp at he
  | run x =>
    have hxq : x ≠ q := fun hx => hl (by rw [hx])
    by_cases hxR : x ∈ R
    · by_cases hxr : x = root
      · subst hxr
        obtain ⟨l, hql, hp⟩ := h.rootp hxq
        cases l with
        | nil => simp at hql
        | cons r l =>
          have hp' : u.proc x = .recv r (fun m => (recvEach (fun _ _ u => u) l ()).bind (fun _ => sendEach (.bool true) (others x R) (.ret ()))) := hp
          simp only [plan, hR x hxR, if_true, hp'] at he
          split at he
          · rename_i m hm
            simp only [Option.some.injEq] at he
            subst he
            have hrq : r ≠ q := by rintro rfl; rw [h.fromQ] at hm; cases hm
            refine ⟨hwf, fun _ => ⟨l, ?_, ?_⟩, ?_, ?_, ?_, ?_⟩
            · rcases List.mem_cons.mp hql with e | e
              · exact absurd e.symm hrq
              · exact e
            · simp [apply, upd]
            · intro p hpR h1 h2
              simp only [apply, upd, h1, if_false]
              exact h.parts p hpR h1 h2
            · intro p hpR
              have : p ≠ x := fun e => hpR (e ▸ hxR)
              simp only [apply, upd, this, if_false]
              exact h.rest p hpR
            · intro p n
              simp only [apply, upd]
              split
              · rfl
              · exact h.fromRoot p n
            · intro p n
              simp only [apply, upd]
              split
              · rfl
              · exact h.fromQ p n
          · simp at he
      · rcases h.parts x hxR hxr hxq with hp | hp
        · have hempty : u.slot (root, x, u.seq x root) = .empty := by
            cases hsl : u.slot (root, x, u.seq x root) with
            | empty => rfl
            | flying m => exact absurd (h.wf root x _ (by simp [hsl])) (Nat.lt_irrefl _)
            | ready m => exact absurd (h.wf root x _ (by simp [hsl])) (Nat.lt_irrefl _)
          simp only [plan, hR x hxR, if_true, hp, hR root hroot, hempty, Option.some.injEq] at he
          subst he
          refine ⟨hwf, ?_, ?_, ?_, ?_, ?_⟩
          · intro hq
            have : root ≠ x := Ne.symm hxr
            simp only [apply, upd, this, if_false]
            exact h.rootp hq
          · intro p hpR h1 h2
            by_cases hpx : p = x
            · subst hpx; right; simp [apply, upd]
            · simp only [apply, upd, hpx, if_false]
              exact h.parts p hpR h1 h2
          · intro p hpR
            have : p ≠ x := fun e => hpR (e ▸ hxR)
            simp only [apply, upd, this, if_false]
            exact h.rest p hpR
          · intro p n
            simp only [apply, upd]
            rw [if_neg (by simp only [Prod.mk.injEq, not_and]; intro _ h2; exact absurd h2.symm hxr)]
            exact h.fromRoot p n
          · intro p n
            simp only [apply, upd]
            rw [if_neg (by simp only [Prod.mk.injEq, not_and]; intro _ h2; exact absurd h2.symm hxq)]
            exact h.fromQ p n
        · simp only [plan, hR x hxR, if_true, hp, waitRoot, h.fromRoot] at he
          simp at he
    · obtain ⟨a, ha⟩ := h.rest x hxR
      simp only [plan, ha] at he
      split at he <;> simp at he

/-- **C25** Nobody returns from a barrier before everybody has entered it: in every schedule in which participant `q` has not
started the barrier (whatever code `X` it still has to run first), no other participant is through. -/
theorem barrier_waits (N : Nat) (ps : List Int) (h : ValidParts N ps) (c : Nat → Nat → Nat) (q : Nat) (hq : q ∈ ranks ps)
    (X : Proc (Msg V) Unit) (ms : List Label) (hms : Label.run q ∉ ms) (u : Net (Msg V) Unit)
    (hu : exec (step N) (syncSt (upd (standalone ps () (fun p => barrier N p ps)) q X) c) ms = some u)
    (p : Nat) (hp : p ∈ ranks ps) (hpq : p ≠ q) : u.proc p ≠ .ret () := by
  have hroot := root_mem h
  have h0 : Held N (ranks ps) (rootOf ps) q (syncSt (M := Msg V) (upd (standalone ps () (fun p => barrier N p ps)) q X) c) := by
    refine ⟨wf_sync _ _, ?_, ?_, ?_, fun _ _ => rfl, fun _ _ => rfl⟩
    · intro hne
      refine ⟨others (rootOf ps) (ranks ps), (mem_others ps _ q).mpr ⟨hq, Ne.symm hne⟩, ?_⟩
      simp only [syncSt, upd, hne, if_false, standalone, hroot, if_true, barrier, normalize_ok h hroot]
      simp only [rootOf, ne_eq, not_true_eq_false, if_false]
    · intro p hp h1 h2
      left
      simp only [syncSt, upd, h2, if_false, standalone, hp, if_true, barrier, normalize_ok h hp]
      simp only [rootOf] at h1
      simp only [ne_eq, h1, not_false_eq_true, if_true, rootOf, waitRoot]
    · intro p hp
      have : p ≠ q := fun e => hp (e ▸ hq)
      exact ⟨(), by simp [syncSt, upd, this, standalone, hp]⟩
  have key : ∀ (ms : List Label) (s : Net (Msg V) Unit), Label.run q ∉ ms → Held N (ranks ps) (rootOf ps) q s →
      exec (step N) s ms = some u → Held N (ranks ps) (rootOf ps) q u := by
    intro ms
    induction ms with
    | nil => intro s _ hs he; simp only [exec, Option.some.injEq] at he; subst he; exact hs
    | cons l ms ih =>
      intro s hn hs he
      simp only [exec] at he
      cases hst : step N s l with
      | none => simp [hst] at he
      | some s' =>
        simp only [hst] at he
        simp only [List.mem_cons, not_or] at hn
        exact ih s' hn.2 (held_step N _ _ q hroot (ranks_valid h) s s' l (Ne.symm hn.1) hs hst) he
  have hu' := key ms _ hms h0 hu
  by_cases hpr : p = rootOf ps
  · subst hpr
    obtain ⟨l, hl, hproc⟩ := hu'.rootp hpq
    cases l with
    | nil => simp at hl
    | cons r l => rw [hproc]; simp [recvEach, Proc.bind]
  · rcases hu'.parts p hp hpr hpq with hh | hh <;> rw [hh] <;> simp [waitRoot]

/-! Non-vacuity: a schedule of three parties in which party 2 does not run and the others go as far as they can. -/
example : ((exec (step 3) (syncSt (M := Msg Nat) (upd (standalone [0, 1, 2] () (fun p => barrier 3 p [0, 1, 2])) 2 .fail) (fun _ _ => 0))
    [.run 1, .deliver (0, 1, 0), .run 0]).isSome) = true := by decide
end
end Verif.Comm
