import Verif.Driver.Chor
import Verif.Simp.ChorLogic
/-!
# Rules for programs in which each party uses what it has (C111, continued)
-/
namespace Verif.Simp
open Verif.Comm

section
variable {V T : Type} {N : Nat} {ok : Loc V T → Nat → Nat → Prop}

/-- Object `x` is the value `v` of type `t`, held by party `r` alone. -/
abbrev Own (S : Plain V T) (r : Nat) (x : Nat) (t : T) (v : V) : Prop := Is S x ⟨t, [r], v⟩

/-- Party `r` can use object `x`, whose value is `v`. -/
def Uses (r : Nat) (S : Plain V T) (x : Nat) (v : V) : Prop := ∃ l, Is S x l ∧ r ∈ l.at_ ∧ l.val = v

theorem Uses.mono {r : Nat} {S S' : Plain V T} {x : Nat} {v : V} (h : Uses r S x v) (g : Le S S') : Uses r S' x v :=
  let ⟨l, h1, h2⟩ := h
  ⟨l, h1.mono g, h2⟩

theorem Is.uses {r : Nat} {S : Plain V T} {x : Nat} {t : T} {v : V} (h : Is S x ⟨t, [r], v⟩) : Uses r S x v := ⟨_, h, by simp, rfl⟩

theorem uses_objs {r : Nat} {S : Plain V T} {xs : List Nat} {vs : List V} (h : List.Forall₂ (Uses r S) xs vs) :
    ∃ ls, Objs S xs ls ∧ (∀ l ∈ ls, r ∈ l.at_) ∧ ls.map Loc.val = vs := by
  induction h with
  | nil => exact ⟨[], .nil, by simp, rfl⟩
  | cons h1 _ ih =>
    obtain ⟨l, a1, a2, a3⟩ := h1
    obtain ⟨ls, b1, b2, b3⟩ := ih
    exact ⟨l :: ls, .cons a1 b1, by simpa [a2] using b2, by simp [a3, b3]⟩

theorem uses_one {r : Nat} {f : List V → Option V} {t : T} {args : List Nat} {S : Plain V T} {vs : List V} {v : V}
    (ha : List.Forall₂ (Uses r S) args vs) (hf : f vs = some v) : Spec N ok (one r f t args) S fun y S' => Own S' r y t v := by
  obtain ⟨ls, h1, h2, rfl⟩ := uses_objs ha
  exact spec_one h1 h2 hf

theorem uses_several {r : Nat} {f : List V → Option (List V)} {ts : List T} {args : List Nat} {S : Plain V T} {vs rs : List V}
    (ha : List.Forall₂ (Uses r S) args vs) (hf : f vs = some rs) (hl : rs.length = ts.length) :
    Spec N ok (several r f ts args) S fun ys S' => Objs S' ys ((ts.zip rs).map fun e => ⟨e.1, [r], e.2⟩) := by
  obtain ⟨ls, h1, h2, rfl⟩ := uses_objs ha
  exact spec_several h1 h2 hf hl

/-- python tuple unpacking of a call's results (models no code of its own) -/
def unpack2 {β : Type} (ys : List Nat) (k : Nat → Nat → Chor V T β) : Chor V T β :=
  match ys with
  | [a, b] => k a b
  | _ => .fail
/-- the same for three results -/
def unpack3 {β : Type} (ys : List Nat) (k : Nat → Nat → Nat → Chor V T β) : Chor V T β :=
  match ys with
  | [a, b, c] => k a b c
  | _ => .fail
/-- the same for four results -/
def unpack4 {β : Type} (ys : List Nat) (k : Nat → Nat → Nat → Nat → Chor V T β) : Chor V T β :=
  match ys with
  | [a, b, c, d] => k a b c d
  | _ => .fail

/-- two results of a call -/
theorem spec_call2 {β : Type} {r : Nat} {f : List V → Option (List V)} {t1 t2 : T} {args : List Nat} {S : Plain V T} {vs : List V} {v1 v2 : V}
    {k : Nat → Nat → Chor V T β} {Q : β → Plain V T → Prop} (ha : List.Forall₂ (Uses r S) args vs) (hf : f vs = some [v1, v2])
    (hk : ∀ a b S', Le S S' → Own S' r a t1 v1 → Own S' r b t2 v2 → Spec N ok (k a b) S' Q) :
    Spec N ok ((several r f [t1, t2] args).bind fun ys => unpack2 ys k) S Q := by
  refine Spec.bind (uses_several ha hf rfl) fun ys S' le hys => ?_
  cases hys with
  | cons h1 h => cases h with
    | cons h2 h => cases h; exact hk _ _ S' le h1 h2

/-- three results of a call -/
theorem spec_call3 {β : Type} {r : Nat} {f : List V → Option (List V)} {t1 t2 t3 : T} {args : List Nat} {S : Plain V T} {vs : List V}
    {v1 v2 v3 : V} {k : Nat → Nat → Nat → Chor V T β} {Q : β → Plain V T → Prop} (ha : List.Forall₂ (Uses r S) args vs)
    (hf : f vs = some [v1, v2, v3])
    (hk : ∀ a b c S', Le S S' → Own S' r a t1 v1 → Own S' r b t2 v2 → Own S' r c t3 v3 → Spec N ok (k a b c) S' Q) :
    Spec N ok ((several r f [t1, t2, t3] args).bind fun ys => unpack3 ys k) S Q := by
  refine Spec.bind (uses_several ha hf rfl) fun ys S' le hys => ?_
  cases hys with
  | cons h1 h => cases h with
    | cons h2 h => cases h with
      | cons h3 h => cases h; exact hk _ _ _ S' le h1 h2 h3

/-- four results of a call -/
theorem spec_call4 {β : Type} {r : Nat} {f : List V → Option (List V)} {t1 t2 t3 t4 : T} {args : List Nat} {S : Plain V T} {vs : List V}
    {v1 v2 v3 v4 : V} {k : Nat → Nat → Nat → Nat → Chor V T β} {Q : β → Plain V T → Prop} (ha : List.Forall₂ (Uses r S) args vs)
    (hf : f vs = some [v1, v2, v3, v4])
    (hk : ∀ a b c d S', Le S S' → Own S' r a t1 v1 → Own S' r b t2 v2 → Own S' r c t3 v3 → Own S' r d t4 v4 → Spec N ok (k a b c d) S' Q) :
    Spec N ok ((several r f [t1, t2, t3, t4] args).bind fun ys => unpack4 ys k) S Q := by
  refine Spec.bind (uses_several ha hf rfl) fun ys S' le hys => ?_
  cases hys with
  | cons h1 h => cases h with
    | cons h2 h => cases h with
      | cons h3 h => cases h with
        | cons h4 h => cases h; exact hk _ _ _ _ S' le h1 h2 h3 h4

/-- A run of program `c` by parties `0 … N-1` on inputs `ls`: it is traced without error; the objects it makes are those of `S'`; and for
whatever objects are asked for, every schedule of parties and deliveries ends, with each party having the values it holds in `S'` and
nothing else; the messages are those of `S'`; and called from the driver, each operation a request of its own, it leaves the same in the
workers' stores. -/
def RunsTo [DecidableEq T] {α : Type} (tr : V → Bool) (N : Nat) (c : Chor V T α) (ls : List (Loc V T)) (a : α) (S' : Plain V T) : Prop :=
  ∃ b', c.trace (start ls) = some (a, b') ∧ b'.ops.flatMap opHops = S'.sent ∧
    (∀ ys out, Objs S' ys out → ∀ n, Symm n → ∃ f0, ∀ fuel, f0 ≤ fuel →
      ∃ t, Always N (syncSt (fun p => regionRun tr N fuel p (.mk (toOps b'.ops) ys) (localOf ls p)) n) t ∧
        ∀ p, p < N → t.proc p = .ret (localOf out p)) ∧
    Driver.Spmd.FromDriver tr N b'.ops ls S'

theorem Runs.runsTo [DecidableEq T] {α : Type} (tr : V → Bool) {c : Chor V T α} {ls : List (Loc V T)} {a : α} {S' : Plain V T}
    (h : Runs N c ⟨ls, []⟩ a S') : RunsTo tr N c ls a S' := by
  obtain ⟨b', g1, g2, _, g4⟩ := plain_reading tr h
  obtain ⟨b2, k1, k2⟩ := Driver.Spmd.driver_plain_reading tr h
  rw [g1] at k1
  cases k1
  exact ⟨b', g1, g2, g4, k2⟩

/-- every message satisfies `allowed type from to` -/
def Messages (allowed : T → Nat → Nat → Prop) (S : Plain V T) : Prop :=
  ∀ e ∈ S.sent, ∃ l, S.vals[e.2.2]? = some l ∧ allowed l.ty e.1 e.2.1

/-- the rules' conclusion about the parties -/
theorem Spec.runsTo [DecidableEq T] {α : Type} (tr : V → Bool) {allowed : T → Nat → Nat → Prop} {c : Chor V T α} {ls : List (Loc V T)}
    {P : α → Plain V T → Prop} (h : Spec N (fun l s d => allowed l.ty s d) c ⟨ls, []⟩ P) :
    ∃ a S', RunsTo tr N c ls a S' ∧ Messages allowed S' ∧ P a S' := by
  obtain ⟨a, S', h1, ⟨m, h2, h3⟩, h4⟩ := h
  refine ⟨a, S', ?_, fun e he => ?_, h4⟩
  · exact h1.runsTo tr
  · rw [h2] at he
    exact h3 e (by simpa using he)

end
end Verif.Simp
