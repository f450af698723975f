import Verif.Simp.ChorArgs
/-!
# What a party sees in two runs of a program (C111, C115)
-/
namespace Verif.Simp
open Verif.Comm

section
variable {V T : Type} [DecidableEq T] {N : Nat}

theorem start_same {ls ls' : List (Loc V T)} (h : List.Forall₂ (fun l m : Loc V T => l.ty = m.ty ∧ l.at_ = m.at_) ls ls') : start ls = start ls' := by
  unfold start
  congr 1
  induction h with
  | nil => rfl
  | cons h _ ih => simp [h.1, h.2, ih]

/-- Two runs of one program on inputs of the same types and places: the same objects, the same messages. -/
theorem runs_same {α : Type} {c : Chor V T α} {ls ls' : List (Loc V T)} {a a' : α} {S S' : Plain V T}
    (h : Runs N c ⟨ls, []⟩ a S) (h' : Runs N c ⟨ls', []⟩ a' S') (hs : List.Forall₂ (fun l m : Loc V T => l.ty = m.ty ∧ l.at_ = m.at_) ls ls') :
    a = a' ∧ S.sent = S'.sent ∧ ∀ (x : Nat) l m, S.vals[x]? = some l → S'.vals[x]? = some m → l.ty = m.ty ∧ l.at_ = m.at_ := by
  obtain ⟨b, h1, h2, h3, _⟩ := plain_reading (fun _ => false) h
  obtain ⟨b', g1, g2, g3, _⟩ := plain_reading (fun _ => false) h'
  rw [start_same hs, g1] at h1
  have h1 := Option.some.inj h1
  obtain ⟨rfl, rfl⟩ := Prod.mk.inj h1
  refine ⟨rfl, h2.symm.trans g2, fun x l m hl hm => ?_⟩
  have e := (h3 x l hl).symm.trans (g3 x m hm)
  simpa using e

/-- **Rule for views.**  Two runs on inputs that look the same to party `p`, in which every message to `p` carries a value named by its
type, the same in both runs: then `p` holds the same in both runs. -/
theorem same_view (tr : V → Bool) {α : Type} {c : Chor V T α} {ls ls' : List (Loc V T)} {msg : T → Nat → Nat → Prop} {v v' : T → V}
    {P P' : α → Plain V T → Prop} (p : Nat) (h : Spec N (fun l a b => msg l.ty a b ∧ l.val = v l.ty) c ⟨ls, []⟩ P)
    (h' : Spec N (fun l a b => msg l.ty a b ∧ l.val = v' l.ty) c ⟨ls', []⟩ P')
    (hs : List.Forall₂ (fun l m : Loc V T => l.ty = m.ty ∧ l.at_ = m.at_) ls ls')
    (hp : List.Forall₂ (fun l m : Loc V T => p ∈ l.at_ → l.val = m.val) ls ls') (hv : ∀ t a, msg t a p → v t = v' t) :
    ∃ a S S', RunsTo tr N c ls a S ∧ RunsTo tr N c ls' a S' ∧ SameAt p S S' ∧ P a S ∧ P' a S' := by
  obtain ⟨a, S, h1, ⟨m, h2, h3⟩, h4⟩ := h
  obtain ⟨a', S', g1, ⟨m', g2, g3⟩, g4⟩ := h'
  obtain ⟨rfl, hsent, hty⟩ := runs_same h1 g1 hs
  refine ⟨a, S, S', ?_, ?_, ?_, h4, g4⟩
  · exact h1.runsTo tr
  · exact g1.runsTo tr
  · refine (party_view h1 g1 hs hp fun s x l k he hl hk => ?_).2.2
    have he' := he
    rw [hsent, g2] at he'
    rw [h2] at he
    obtain ⟨l', i1, i2, i3⟩ := h3 _ (by simpa using he)
    obtain ⟨k', j1, j2, j3⟩ := g3 _ (by simpa using he')
    have e1 : l' = l := Option.some.inj (i1.symm.trans hl)
    have e2 : k' = k := Option.some.inj (j1.symm.trans hk)
    subst e1 e2
    rw [i3, j3, ← (hty x _ _ hl hk).1]
    exact hv _ _ i2

end
end Verif.Simp
