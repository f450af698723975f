import Verif.Comm.Sends
import Mathlib.Tactic.ByContra
import Mathlib.Data.List.Nodup
/-!
# What a worker may rely on about its sends: property C114
-/
namespace Verif.Comm.Sends

/-- what holds at every moment -/
structure Inv (n : Nat) (s : St) : Prop where
  listed : ∀ f, f ∈ s.pending ↔ ∃ j, s.jobs[f]? = some j ∧ (j.reg = .added ∨ j.reg = .hooked)
  cleaned : ∀ (f : Nat) (j : Job), s.jobs[f]? = some j → j.reg = .cleaned → isOver j.ph = true
  waits : ∀ r todo, s.reqs r = .waiting todo false →
    ∀ (f : Nat) (j : Job), s.jobs[f]? = some j → j.req = r → isOver j.ph = true ∨ f ∈ todo
  ends : ∀ r, s.reqs r = .ended false → ∀ (f : Nat) (j : Job), s.jobs[f]? = some j → j.req = r → isOver j.ph = true
  sent : ∀ (f : Nat) (j : Job), s.jobs[f]? = some j → j.ph = .over .sent → f ∈ s.mail
  unbuilt : ∀ (f : Nat) (j : Job), s.jobs[f]? = some j → j.ph = .over .unbuilt → f ∉ s.mail
  mail : ∀ f, f ∈ s.mail → ∃ j, s.jobs[f]? = some j ∧ j.ph ≠ .queued
  once : s.mail.Nodup
  listedOnce : s.pending.Nodup
  threads : count isRunning s ≤ n

theorem init_inv (n : Nat) : Inv n init := by
  constructor <;> simp [init, count]

theorem get_set {l : List Job} {f g : Nat} {a j : Job} (h : l[f]? = some a) :
    (l.set f j)[g]? = if f = g then some j else l[g]? := by
  have hf : f < l.length := by
    by_contra hc
    rw [List.getElem?_eq_none (by omega)] at h
    simp at h
  rw [List.getElem?_set]
  by_cases e : f = g
  · rw [if_pos e, if_pos e, if_pos hf]
  · rw [if_neg e, if_neg e]

theorem countP_set {p : Job → Bool} : ∀ {l : List Job} {f : Nat} {a : Job} (j : Job), l[f]? = some a →
    (l.set f j).countP p + (if p a = true then 1 else 0) = l.countP p + (if p j = true then 1 else 0)
  | [], f, a, j, h => by simp at h
  | b :: l, 0, a, j, h => by
    simp only [List.getElem?_cons_zero, Option.some.injEq] at h
    subst h
    simp only [List.set_cons_zero, List.countP_cons]
    omega
  | b :: l, f + 1, a, j, h => by
    simp only [List.getElem?_cons_succ] at h
    have ih := countP_set (p := p) j h
    simp only [List.set_cons_succ, List.countP_cons]
    omega

theorem step_inv {n : Nat} {s t : St} {e : Ev} (h : Inv n s) (hs : step n s e = some t) : Inv n t := by
  cases e with
  | submit r size =>
    simp only [step] at hs
    split at hs
    · rename_i hw
      cases hs
      have key : ∀ (f : Nat) (j : Job), (s.jobs ++ [⟨r, size, .submitted, .queued⟩])[f]? = some j →
          s.jobs[f]? = some j ∨ (f = s.jobs.length ∧ j = ⟨r, size, .submitted, .queued⟩) := by
        intro f j hj
        rw [List.getElem?_append] at hj
        split at hj
        · exact .inl hj
        · rename_i hn
          have : f - s.jobs.length = 0 := by
            by_contra hc
            rw [List.getElem?_eq_none (by simp; omega)] at hj
            simp at hj
          rw [this] at hj
          simp at hj
          exact .inr ⟨by omega, hj.symm⟩
      have old : ∀ (f : Nat) (j : Job), s.jobs[f]? = some j →
          (s.jobs ++ [⟨r, size, .submitted, .queued⟩])[f]? = some j := by
        intro f j hj
        have hf : f < s.jobs.length := by
          by_contra hc
          rw [List.getElem?_eq_none (by omega)] at hj
          simp at hj
        rw [List.getElem?_append_left hf]
        exact hj
      refine ⟨?_, ?_, ?_, ?_, ?_, ?_, ?_, h.once, h.listedOnce, ?_⟩
      · intro f
        rw [h.listed f]
        constructor
        · rintro ⟨j, hj, hr⟩
          exact ⟨j, old f j hj, hr⟩
        · rintro ⟨j, hj, hr⟩
          rcases key f j hj with hj | ⟨_, rfl⟩
          · exact ⟨j, hj, hr⟩
          · simp at hr
      · intro f j hj hr
        rcases key f j hj with hj | ⟨_, rfl⟩
        · exact h.cleaned f j hj hr
        · simp at hr
      · intro q todo hq f j hj hr
        rcases key f j hj with hj | ⟨_, rfl⟩
        · exact h.waits q todo hq f j hj hr
        · simp only at hr hq
          subst hr
          rw [hw] at hq
          cases hq
      · intro q hq f j hj hr
        rcases key f j hj with hj | ⟨_, rfl⟩
        · exact h.ends q hq f j hj hr
        · simp only at hr hq
          subst hr
          rw [hw] at hq
          cases hq
      · intro f j hj hp
        rcases key f j hj with hj | ⟨_, rfl⟩
        · exact h.sent f j hj hp
        · simp at hp
      · intro f j hj hp
        rcases key f j hj with hj | ⟨_, rfl⟩
        · exact h.unbuilt f j hj hp
        · simp at hp
      · intro f hf
        obtain ⟨j, hj, hp⟩ := h.mail f hf
        exact ⟨j, old f j hj, hp⟩
      · have := h.threads
        simp only [count, List.countP_append] at this ⊢
        simp [isRunning] at this ⊢
        exact this
    · cases hs
  | add f =>
    simp only [step] at hs
    split at hs
    · rename_i a ha
      split at hs
      · rename_i hr
        cases hs
        have hc := countP_set (p := fun j => isRunning j.ph) { a with reg := .added } ha
        refine ⟨?_, ?_, ?_, ?_, ?_, ?_, ?_, h.once, ?_, ?_⟩
        · intro g
          simp only [setJob, List.mem_append, List.mem_singleton, get_set ha, h.listed g]
          by_cases e : f = g
          · subst e
            simp
          · rw [if_neg e]
            have : ¬ g = f := fun x => e x.symm
            exact ⟨fun x => x.elim id (fun y => absurd y this), .inl⟩
        · intro g j hj hk
          simp only [setJob, get_set ha] at hj
          split at hj
          · cases hj
            simp at hk
          · exact h.cleaned g j hj hk
        · intro q todo hq g j hj hk
          simp only [setJob, get_set ha] at hj
          split at hj
          · rename_i e
            cases hj
            subst e
            exact h.waits q todo hq f a ha hk
          · exact h.waits q todo hq g j hj hk
        · intro q hq g j hj hk
          simp only [setJob, get_set ha] at hj
          split at hj
          · rename_i e
            cases hj
            subst e
            exact h.ends q hq f a ha hk
          · exact h.ends q hq g j hj hk
        · intro g j hj hk
          simp only [setJob, get_set ha] at hj
          split at hj
          · rename_i e
            cases hj
            subst e
            exact h.sent f a ha hk
          · exact h.sent g j hj hk
        · intro g j hj hk
          simp only [setJob, get_set ha] at hj
          split at hj
          · rename_i e
            cases hj
            subst e
            exact h.unbuilt f a ha hk
          · exact h.unbuilt g j hj hk
        · intro g hg
          obtain ⟨j, hj, hp⟩ := h.mail g hg
          simp only [setJob, get_set ha]
          by_cases e : f = g
          · subst e
            rw [ha] at hj
            cases hj
            exact ⟨_, if_pos rfl, hp⟩
          · exact ⟨j, by rw [if_neg e]; exact hj, hp⟩
        · simp only [setJob]
          rw [List.nodup_append]
          refine ⟨h.listedOnce, by simp, ?_⟩
          intro g hg g' hg'
          simp only [List.mem_singleton] at hg'
          subst hg'
          rintro rfl
          obtain ⟨j, hj, hk⟩ := (h.listed g).mp hg
          rw [ha] at hj
          cases hj
          rw [hr] at hk
          simp at hk
        · have := h.threads
          simp only [count, setJob] at this hc ⊢
          omega
      · cases hs
    · cases hs
  | hook f =>
    simp only [step] at hs
    split at hs
    · rename_i a ha
      split at hs
      · rename_i hr
        cases hs
        by_cases ho : isOver a.ph = true
        · unfold hooked
          rw [if_pos ho]
          have hc := countP_set (p := fun j => isRunning j.ph) { a with reg := .cleaned } ha
          refine ⟨?_, ?_, ?_, ?_, ?_, ?_, ?_, h.once, ?_, ?_⟩
          · intro g
            simp only [discard, setJob, List.mem_filter, get_set ha, h.listed g]
            by_cases e : f = g
            · subst e
              simp
            · rw [if_neg e]
              have : g ≠ f := fun x => e x.symm
              simp [this]
          · intro g j hj hk
            simp only [discard, setJob, get_set ha] at hj
            split at hj
            · cases hj
              exact ho
            · exact h.cleaned g j hj hk
          · intro q todo hq g j hj hk
            simp only [discard, setJob, get_set ha] at hj
            split at hj
            · cases hj
              exact .inl ho
            · exact h.waits q todo hq g j hj hk
          · intro q hq g j hj hk
            simp only [discard, setJob, get_set ha] at hj
            split at hj
            · cases hj
              exact ho
            · exact h.ends q hq g j hj hk
          · intro g j hj hk
            simp only [discard, setJob, get_set ha] at hj
            split at hj
            · rename_i e
              cases hj
              subst e
              exact h.sent f a ha hk
            · exact h.sent g j hj hk
          · intro g j hj hk
            simp only [discard, setJob, get_set ha] at hj
            split at hj
            · rename_i e
              cases hj
              subst e
              exact h.unbuilt f a ha hk
            · exact h.unbuilt g j hj hk
          · intro g hg
            obtain ⟨j, hj, hp⟩ := h.mail g hg
            simp only [discard, setJob, get_set ha]
            by_cases e : f = g
            · subst e
              rw [ha] at hj
              cases hj
              exact ⟨_, if_pos rfl, hp⟩
            · exact ⟨j, by rw [if_neg e]; exact hj, hp⟩
          · exact h.listedOnce.filter _
          · have := h.threads
            simp only [count, discard, setJob] at this hc ⊢
            omega
        · unfold hooked
          rw [if_neg ho]
          have hc := countP_set (p := fun j => isRunning j.ph) { a with reg := .hooked } ha
          refine ⟨?_, ?_, ?_, ?_, ?_, ?_, ?_, h.once, h.listedOnce, ?_⟩
          · intro g
            simp only [setJob, get_set ha, h.listed g]
            by_cases e : f = g
            · subst e
              simp [ha, hr]
            · rw [if_neg e]
          · intro g j hj hk
            simp only [setJob, get_set ha] at hj
            split at hj
            · cases hj
              simp at hk
            · exact h.cleaned g j hj hk
          · intro q todo hq g j hj hk
            simp only [setJob, get_set ha] at hj
            split at hj
            · rename_i e
              cases hj
              subst e
              exact h.waits q todo hq f a ha hk
            · exact h.waits q todo hq g j hj hk
          · intro q hq g j hj hk
            simp only [setJob, get_set ha] at hj
            split at hj
            · rename_i e
              cases hj
              subst e
              exact h.ends q hq f a ha hk
            · exact h.ends q hq g j hj hk
          · intro g j hj hk
            simp only [setJob, get_set ha] at hj
            split at hj
            · rename_i e
              cases hj
              subst e
              exact h.sent f a ha hk
            · exact h.sent g j hj hk
          · intro g j hj hk
            simp only [setJob, get_set ha] at hj
            split at hj
            · rename_i e
              cases hj
              subst e
              exact h.unbuilt f a ha hk
            · exact h.unbuilt g j hj hk
          · intro g hg
            obtain ⟨j, hj, hp⟩ := h.mail g hg
            simp only [setJob, get_set ha]
            by_cases e : f = g
            · subst e
              rw [ha] at hj
              cases hj
              exact ⟨_, if_pos rfl, hp⟩
            · exact ⟨j, by rw [if_neg e]; exact hj, hp⟩
          · have := h.threads
            simp only [count, setJob] at this hc ⊢
            omega
      · cases hs
    · cases hs
  | start =>
    simp only [step] at hs
    split at hs
    · rename_i hn
      split at hs
      · rename_i f hf
        split at hs
        · rename_i a ha
          cases hs
          have hq : a.ph = .queued := by
            rw [List.findIdx?_eq_some_iff_getElem] at hf
            obtain ⟨hl, hp, _⟩ := hf
            rw [List.getElem?_eq_getElem hl] at ha
            cases ha
            simpa [isQueued] using hp
          have hc := countP_set (p := fun j => isRunning j.ph) { a with ph := .running } ha
          refine ⟨?_, ?_, ?_, ?_, ?_, ?_, ?_, h.once, h.listedOnce, ?_⟩
          · intro g
            simp only [setJob, get_set ha, h.listed g]
            by_cases e : f = g
            · subst e
              simp [ha]
            · rw [if_neg e]
          · intro g j hj hk
            simp only [setJob, get_set ha] at hj
            split at hj
            · cases hj
              have := h.cleaned f a ha hk
              rw [hq] at this
              cases this
            · exact h.cleaned g j hj hk
          · intro q todo hw g j hj hk
            simp only [setJob, get_set ha] at hj
            split at hj
            · rename_i e
              cases hj
              subst e
              rcases h.waits q todo hw f a ha hk with x | x
              · rw [hq] at x
                cases x
              · exact .inr x
            · exact h.waits q todo hw g j hj hk
          · intro q hw g j hj hk
            simp only [setJob, get_set ha] at hj
            split at hj
            · cases hj
              have := h.ends q hw f a ha hk
              rw [hq] at this
              cases this
            · exact h.ends q hw g j hj hk
          · intro g j hj hk
            simp only [setJob, get_set ha] at hj
            split at hj
            · cases hj
              cases hk
            · exact h.sent g j hj hk
          · intro g j hj hk
            simp only [setJob, get_set ha] at hj
            split at hj
            · cases hj
              cases hk
            · exact h.unbuilt g j hj hk
          · intro g hg
            obtain ⟨j, hj, hp⟩ := h.mail g hg
            simp only [setJob, get_set ha]
            by_cases e : f = g
            · exact ⟨_, if_pos e, by simp⟩
            · exact ⟨j, by rw [if_neg e]; exact hj, hp⟩
          · simp only [count, setJob] at hn hc ⊢
            have e1 : isRunning a.ph = false := by rw [hq]; rfl
            have e2 : isRunning Phase.running = true := rfl
            simp only [e1, e2] at hc
            simp at hc
            omega
        · cases hs
      · cases hs
    · cases hs
  | arrive f =>
    simp only [step] at hs
    split at hs
    · rename_i a ha
      split at hs
      · rename_i hr
        cases hs
        refine ⟨h.listed, h.cleaned, h.waits, h.ends, ?_, ?_, ?_, ?_, h.listedOnce, h.threads⟩
        · intro g j hj hk
          exact List.mem_append_left _ (h.sent g j hj hk)
        · intro g j hj hk hm
          rcases List.mem_append.mp hm with hm | hm
          · exact h.unbuilt g j hj hk hm
          · simp only [List.mem_singleton] at hm
            subst hm
            rw [ha] at hj
            cases hj
            rw [hr.1] at hk
            cases hk
        · intro g hg
          rcases List.mem_append.mp hg with hm | hm
          · exact h.mail g hm
          · simp only [List.mem_singleton] at hm
            subst hm
            exact ⟨a, ha, by rw [hr.1]; simp⟩
        · simp only
          rw [List.nodup_append]
          refine ⟨h.once, by simp, ?_⟩
          intro g hg g' hg'
          simp only [List.mem_singleton] at hg'
          subst hg'
          rintro rfl
          exact hr.2 hg
      · cases hs
    · cases hs
  | finish f o =>
    simp only [step] at hs
    split at hs
    · rename_i a ha
      unfold finished at hs
      split at hs
      · rename_i hr
        obtain ⟨hr, hm1, hm2⟩ := hr
        cases hs
        have hc := countP_set (p := fun j => isRunning j.ph) { a with ph := .over o } ha
        have hj' : (record (setJob s f { a with ph := .over o }) a.size o).jobs = s.jobs.set f { a with ph := .over o } := by
          cases o <;> rfl
        have hp' : (record (setJob s f { a with ph := .over o }) a.size o).pending = s.pending := by cases o <;> rfl
        have hm' : (record (setJob s f { a with ph := .over o }) a.size o).mail = s.mail := by cases o <;> rfl
        have hq' : (record (setJob s f { a with ph := .over o }) a.size o).reqs = s.reqs := by cases o <;> rfl
        refine ⟨?_, ?_, ?_, ?_, ?_, ?_, ?_, by rw [hm']; exact h.once, by rw [hp']; exact h.listedOnce, ?_⟩
        · intro g
          rw [hp', hj']
          simp only [get_set ha, h.listed g]
          by_cases e : f = g
          · subst e
            simp [ha]
          · rw [if_neg e]
        · intro g j hj hk
          rw [hj'] at hj
          simp only [get_set ha] at hj
          split at hj
          · cases hj
            rfl
          · exact h.cleaned g j hj hk
        · intro q todo hw g j hj hk
          rw [hj'] at hj
          rw [hq'] at hw
          simp only [get_set ha] at hj
          split at hj
          · cases hj
            exact .inl rfl
          · exact h.waits q todo hw g j hj hk
        · intro q hw g j hj hk
          rw [hj'] at hj
          rw [hq'] at hw
          simp only [get_set ha] at hj
          split at hj
          · cases hj
            rfl
          · exact h.ends q hw g j hj hk
        · intro g j hj hk
          rw [hj'] at hj
          rw [hm']
          simp only [get_set ha] at hj
          split at hj
          · rename_i e
            cases hj
            subst e
            simp only [Phase.over.injEq] at hk
            exact hm1 hk
          · exact h.sent g j hj hk
        · intro g j hj hk
          rw [hj'] at hj
          rw [hm']
          simp only [get_set ha] at hj
          split at hj
          · rename_i e
            cases hj
            subst e
            simp only [Phase.over.injEq] at hk
            exact hm2 hk
          · exact h.unbuilt g j hj hk
        · intro g hg
          rw [hm'] at hg
          rw [hj']
          obtain ⟨j, hj, hp⟩ := h.mail g hg
          simp only [get_set ha]
          by_cases e : f = g
          · exact ⟨_, if_pos e, by simp⟩
          · exact ⟨j, by rw [if_neg e]; exact hj, hp⟩
        · have := h.threads
          unfold count at this ⊢
          rw [hj']
          have e1 : isRunning a.ph = true := by rw [hr]; rfl
          have e2 : isRunning (Phase.over o) = false := by simp [isRunning]
          simp only [e1, e2] at hc
          simp at hc
          omega
      · cases hs
    · cases hs
  | callback f =>
    simp only [step] at hs
    split at hs
    · rename_i a ha
      split at hs
      · rename_i hr
        obtain ⟨hr, ho⟩ := hr
        cases hs
        have hc := countP_set (p := fun j => isRunning j.ph) { a with reg := .cleaned } ha
        refine ⟨?_, ?_, ?_, ?_, ?_, ?_, ?_, h.once, ?_, ?_⟩
        · intro g
          simp only [discard, setJob, List.mem_filter, get_set ha, h.listed g]
          by_cases e : f = g
          · subst e
            simp
          · rw [if_neg e]
            have : g ≠ f := fun x => e x.symm
            simp [this]
        · intro g j hj hk
          simp only [discard, setJob, get_set ha] at hj
          split at hj
          · cases hj
            exact ho
          · exact h.cleaned g j hj hk
        · intro q todo hq g j hj hk
          simp only [discard, setJob, get_set ha] at hj
          split at hj
          · cases hj
            exact .inl ho
          · exact h.waits q todo hq g j hj hk
        · intro q hq g j hj hk
          simp only [discard, setJob, get_set ha] at hj
          split at hj
          · cases hj
            exact ho
          · exact h.ends q hq g j hj hk
        · intro g j hj hk
          simp only [discard, setJob, get_set ha] at hj
          split at hj
          · rename_i e
            cases hj
            subst e
            exact h.sent f a ha hk
          · exact h.sent g j hj hk
        · intro g j hj hk
          simp only [discard, setJob, get_set ha] at hj
          split at hj
          · rename_i e
            cases hj
            subst e
            exact h.unbuilt f a ha hk
          · exact h.unbuilt g j hj hk
        · intro g hg
          obtain ⟨j, hj, hp⟩ := h.mail g hg
          simp only [discard, setJob, get_set ha]
          by_cases e : f = g
          · subst e
            rw [ha] at hj
            cases hj
            exact ⟨_, if_pos rfl, hp⟩
          · exact ⟨j, by rw [if_neg e]; exact hj, hp⟩
        · exact h.listedOnce.filter _
        · have := h.threads
          simp only [count, discard, setJob] at this hc ⊢
          omega
      · cases hs
    · cases hs
  | snapshot r =>
    simp only [step] at hs
    split at hs
    · rename_i hr
      obtain ⟨hw, hset⟩ := hr
      cases hs
      refine ⟨h.listed, h.cleaned, ?_, ?_, h.sent, h.unbuilt, h.mail, h.once, h.listedOnce, h.threads⟩
      · intro q todo hq f j hj hk
        simp only [setReq] at hq
        split at hq
        · rename_i e
          subst e
          cases hq
          simp only [settled, List.all_eq_true] at hset
          have := hset j (List.mem_of_getElem? hj)
          simp only [Bool.or_eq_true, decide_eq_true_eq] at this
          rcases this with (x | x) | x
          · exact absurd hk x
          · exact .inr ((h.listed f).mpr ⟨j, hj, .inr x⟩)
          · exact .inl (h.cleaned f j hj x)
        · exact h.waits q todo hq f j hj hk
      · intro q hq
        simp only [setReq] at hq
        split at hq
        · cases hq
        · exact h.ends q hq
    · cases hs
  | pass r =>
    simp only [step] at hs
    split at hs
    · rename_i f todo g hw
      split at hs
      · rename_i hd
        cases hs
        refine ⟨h.listed, h.cleaned, ?_, ?_, h.sent, h.unbuilt, h.mail, h.once, h.listedOnce, h.threads⟩
        · intro q todo' hq k j hj hk
          simp only [setReq] at hq
          split at hq
          · rename_i e
            subst e
            cases hq
            rcases h.waits q _ hw k j hj hk with x | x
            · exact .inl x
            · rcases List.mem_cons.mp x with x | x
              · subst x
                simp only [isDone] at hd
                have hj2 : s.jobs[k]? = some j := hj
                rw [hj2] at hd
                exact .inl hd
              · exact .inr x
          · exact h.waits q todo' hq k j hj hk
        · intro q hq
          simp only [setReq] at hq
          split at hq
          · cases hq
          · exact h.ends q hq
      · cases hs
    · cases hs
  | giveUp r =>
    simp only [step] at hs
    split at hs
    · rename_i f todo g hw
      cases hs
      refine ⟨h.listed, h.cleaned, ?_, ?_, h.sent, h.unbuilt, h.mail, h.once, h.listedOnce, h.threads⟩
      · intro q todo' hq
        simp only [setReq] at hq
        split at hq
        · cases hq
        · exact h.waits q todo' hq
      · intro q hq
        simp only [setReq] at hq
        split at hq
        · cases hq
        · exact h.ends q hq
    · cases hs
  | finishReq r =>
    simp only [step] at hs
    split at hs
    · rename_i g hw
      cases hs
      refine ⟨h.listed, h.cleaned, ?_, ?_, h.sent, h.unbuilt, h.mail, h.once, h.listedOnce, h.threads⟩
      · intro q todo' hq
        simp only [setReq] at hq
        split at hq
        · cases hq
        · exact h.waits q todo' hq
      · intro q hq f j hj hk
        simp only [setReq] at hq
        split at hq
        · rename_i e
          subst e
          cases hq
          rcases h.waits q _ hw f j hj hk with x | x
          · exact x
          · cases x
        · exact h.ends q hq f j hj hk
    · cases hs
  | failReq r =>
    simp only [step] at hs
    split at hs
    · cases hs
      refine ⟨h.listed, h.cleaned, ?_, ?_, h.sent, h.unbuilt, h.mail, h.once, h.listedOnce, h.threads⟩
      · intro q todo' hq
        simp only [setReq] at hq
        split at hq
        · cases hq
        · exact h.waits q todo' hq
      · intro q hq
        simp only [setReq] at hq
        split at hq
        · cases hq
        · exact h.ends q hq
    · cases hs
  | reset =>
    simp only [step] at hs
    cases hs
    exact ⟨h.listed, h.cleaned, h.waits, h.ends, h.sent, h.unbuilt, h.mail, h.once, h.listedOnce, h.threads⟩

theorem run_inv {n : Nat} : ∀ {es : List Ev} {s t : St}, Inv n s → run n s es = some t → Inv n t
  | [], s, t, h, hr => by
    cases hr
    exact h
  | e :: es, s, t, h, hr => by
    simp only [run, Option.bind_eq_some_iff] at hr
    obtain ⟨u, hu, hr⟩ := hr
    exact run_inv (step_inv h hu) hr

/-- a job that has ended, however -/
def Ended (j : Job) : Prop := ∃ o, j.ph = .over o

theorem ended_of {j : Job} (h : isOver j.ph = true) : Ended j := by
  unfold Ended
  cases hp : j.ph with
  | over o => exact ⟨o, rfl⟩
  | queued => rw [hp] at h; cases h
  | running => rw [hp] at h; cases h

/-- **When a worker reports a request as executed and no wait ran into its timeout, no transfer of that request is still under
way**: every send it made has been delivered or has failed, and those that ended well are in the mailbox of their receiver. -/
theorem reported_sends_over {n : Nat} {es : List Ev} {s : St} (hr : run n init es = some s) {r : Nat}
    (he : s.reqs r = .ended false) {f : Nat} {j : Job} (hj : s.jobs[f]? = some j) (hq : j.req = r) :
    Ended j ∧ (j.ph = .over .sent → f ∈ s.mail) :=
  have h := run_inv (init_inv n) hr
  ⟨ended_of (h.ends r he f j hj hq), h.sent f j hj⟩

/-- A message is stored at most once, and only for a transfer that was started; one that could not be built never arrives. -/
theorem messages_at_most_once {n : Nat} {es : List Ev} {s : St} (hr : run n init es = some s) :
    s.mail.Nodup ∧ ∀ f ∈ s.mail, ∃ j, s.jobs[f]? = some j ∧ j.ph ≠ .queued ∧ j.ph ≠ .over .unbuilt := by
  have h := run_inv (init_inv n) hr
  refine ⟨h.once, ?_⟩
  intro f hf
  obtain ⟨j, hj, hp⟩ := h.mail f hf
  exact ⟨j, hj, hp, fun hu => h.unbuilt f j hj hu hf⟩

/-- The number of transfers under way never exceeds the number of threads of the pool. -/
theorem transfers_bounded {n : Nat} {es : List Ev} {s : St} (hr : run n init es = some s) :
    (s.jobs.filter fun j => j.ph = .running).length ≤ n := by
  have h := (run_inv (init_inv n) hr).threads
  rw [count, List.countP_eq_length_filter] at h
  exact h

/-- nothing of the bookkeeping is left to do: every `send` call has returned and the callbacks of the finished futures have run -/
def Calm (s : St) : Prop :=
  ∀ (f : Nat) (j : Job), s.jobs[f]? = some j →
    j.reg ≠ .submitted ∧ j.reg ≠ .added ∧ (j.reg = .hooked → isOver j.ph = false)

/-- The set of pending sends does not leak: when every `send` call has returned and all callbacks have run, it holds exactly
the futures that are not finished. -/
theorem pending_is_unfinished {n : Nat} {es : List Ev} {s : St} (hr : run n init es = some s) (hc : Calm s) (f : Nat) :
    f ∈ s.pending ↔ ∃ j, s.jobs[f]? = some j ∧ ¬ Ended j := by
  have h := run_inv (init_inv n) hr
  rw [h.listed f]
  constructor
  · rintro ⟨j, hj, hk⟩
    obtain ⟨h1, h2, h3⟩ := hc f j hj
    rcases hk with hk | hk
    · exact absurd hk h2
    · refine ⟨j, hj, ?_⟩
      rintro ⟨o, ho⟩
      have := h3 hk
      rw [ho] at this
      cases this
  · rintro ⟨j, hj, hk⟩
    obtain ⟨h1, h2, h3⟩ := hc f j hj
    refine ⟨j, hj, ?_⟩
    cases hreg : j.reg with
    | submitted => exact absurd hreg h1
    | added => exact absurd hreg h2
    | hooked => exact .inr rfl
    | cleaned => exact absurd (ended_of (h.cleaned f j hj hreg)) hk

end Verif.Comm.Sends
