import Verif.Simp.ChorArgs
/-!
# Between whom every run of a program of the parties sends messages, in order (used by C129)
-/
namespace Verif.Simp

variable {V T : Type}

/-- **Specification** The messages of a run in order: from, to. -/
def route (S : Plain V T) : List (Nat × Nat) := S.sent.map fun e => (e.1, e.2.1)

/-- Every run of `c`, from any state, sends these messages and ends with such a result. -/
def Pat (N : Nat) {α : Type} (c : Chor V T α) (R : List (Nat × Nat)) (Q : α → Prop) : Prop :=
  ∀ S a S', Runs N c S a S' → route S' = route S ++ R ∧ Q a

variable {N : Nat}

theorem Pat.ret {α : Type} {a : α} {Q : α → Prop} (h : Q a) : Pat N (.ret a : Chor V T α) [] Q := by
  intro S b S' hr
  cases hr
  exact ⟨by simp, h⟩

theorem Pat.fail {α : Type} {R : List (Nat × Nat)} {Q : α → Prop} : Pat N (.fail : Chor V T α) R Q := by
  intro S b S' hr
  cases hr

theorem Pat.weaken {α : Type} {c : Chor V T α} {R R' : List (Nat × Nat)} {P Q : α → Prop} (h : Pat N c R P) (hR : R = R') (g : ∀ a, P a → Q a) :
    Pat N c R' Q := by
  subst hR
  intro S a S' hr
  exact (h S a S' hr).imp_right (g a)

theorem pat_runs_bind {α β : Type} {f : α → Chor V T β} {S2 : Plain V T} {b : β} : ∀ {c : Chor V T α} {S : Plain V T},
    Runs N (c.bind f) S b S2 → ∃ a S1, Runs N c S a S1 ∧ Runs N (f a) S1 b S2 := by
  intro c
  induction c with
  | ret a => intro S h; exact ⟨a, S, .ret _ _, h⟩
  | fail => intro S h; cases h
  | call ps F outs args k ih =>
    intro S h
    cases h with
    | call ls rs h1 h2 h3 h4 h5 =>
      obtain ⟨a, S1, g1, g2⟩ := ih _ h5
      exact ⟨a, S1, .call ls rs h1 h2 h3 h4 g1, g2⟩
  | shuffle r x k ih =>
    intro S h
    cases h with
    | shuffle l h1 h2 h3 h4 h5 h6 =>
      obtain ⟨a, S1, g1, g2⟩ := ih _ h6
      exact ⟨a, S1, .shuffle l h1 h2 h3 h4 h5 g1, g2⟩
  | converge xs k ih =>
    intro S h
    cases h with
    | converge ls t v h1 h2 h3 h4 h5 =>
      obtain ⟨a, S1, g1, g2⟩ := ih _ h5
      exact ⟨a, S1, .converge ls t v h1 h2 h3 h4 g1, g2⟩

theorem Pat.bind {α β : Type} {c : Chor V T α} {f : α → Chor V T β} {R R' : List (Nat × Nat)} {P : α → Prop} {Q : β → Prop}
    (h : Pat N c R P) (g : ∀ a, P a → Pat N (f a) R' Q) : Pat N (c.bind f) (R ++ R') Q := by
  intro S b S2 hr
  obtain ⟨a, S1, h1, h2⟩ := pat_runs_bind hr
  obtain ⟨e1, p⟩ := h S a S1 h1
  obtain ⟨e2, q⟩ := g a p S1 b S2 h2
  exact ⟨by rw [e2, e1, List.append_assoc], q⟩

/-- A step that sends nothing. -/
theorem Pat.bind0 {α β : Type} {c : Chor V T α} {f : α → Chor V T β} {R : List (Nat × Nat)} {P : α → Prop} {Q : β → Prop}
    (h : Pat N c [] P) (g : ∀ a, P a → Pat N (f a) R Q) : Pat N (c.bind f) R Q := Pat.bind h g

theorem pat_one {r : Nat} {f : List V → Option V} {t : T} {args : List Nat} : Pat N (one r f t args) [] fun _ => True := by
  intro S a S' hr
  unfold one at hr
  cases hr with
  | call ls rs h1 h2 h3 h4 h5 =>
    simp only [List.length_cons, List.length_nil, Nat.zero_add, List.range_one, List.map_cons, Nat.add_zero, List.map_nil] at h5
    cases h5
    exact ⟨by simp [route], trivial⟩

theorem pat_several {r : Nat} {f : List V → Option (List V)} {ts : List T} {args : List Nat} :
    Pat N (several r f ts args) [] fun ys => ys.length = ts.length := by
  intro S a S' hr
  unfold several at hr
  cases hr with
  | call ls rs h1 h2 h3 h4 h5 =>
    cases h5
    exact ⟨by simp [route], by simp⟩

theorem pat_move {x src dst : Nat} (hne : src ≠ dst) : Pat N (move x src dst : Chor V T Nat) [(src, dst)] fun _ => True := by
  intro S a S' hr
  unfold move at hr
  cases hr with
  | shuffle l h1 h2 h3 h4 h5 h6 =>
    cases h6
    exact ⟨by simp [route, hops, Ne.symm hne], trivial⟩

/-- A loop. -/
theorem pat_each {A B D : Type} {f : A → Chor V T B} {g : A → List (Nat × Nat)} {φ : B → D} {ψ : A → D} : ∀ {l : List A},
    (∀ a ∈ l, Pat N (f a) (g a) fun b => φ b = ψ a) → Pat N (each f l) (l.flatMap g) fun bs => bs.map φ = l.map ψ := by
  intro l
  induction l with
  | nil => intro _; exact Pat.ret rfl
  | cons a l ih =>
    intro h
    unfold each
    rw [List.flatMap_cons]
    refine Pat.bind (h a (by simp)) fun b hb => ?_
    rw [← List.append_nil (l.flatMap g)]
    refine Pat.bind (ih fun x hx => h x (by simp [hx])) fun bs hbs => Pat.ret ?_
    rw [List.map_cons, List.map_cons, hb, hbs]

theorem pat_converge {xs : List Nat} : Pat N (.converge xs .ret : Chor V T Nat) [] fun _ => True := by
  intro S a S' hr
  cases hr with
  | converge ls t v h1 h2 h3 h4 h5 =>
    cases h5
    exact ⟨by simp [route], trivial⟩

/-- One message to every target. -/
theorem pat_share {src : Nat} {dsts : List Nat} {x : Nat} (h : ∀ d ∈ dsts, d ≠ src) :
    Pat N (share src dsts x : Chor V T Nat) (dsts.map fun d => (src, d)) fun _ => True := by
  unfold share
  split
  · next e => subst e; exact Pat.ret trivial
  · rw [← List.append_nil (dsts.map _)]
    refine Pat.bind (P := fun _ => True) (Pat.weaken (pat_each (g := fun d => [(src, d)]) (φ := fun _ => ()) (ψ := fun _ => ())
      fun d hd => Pat.weaken (pat_move (h d hd).symm) rfl fun _ _ => rfl) ?_ fun _ _ => trivial) fun ys _ => pat_converge
    rw [← List.map_eq_flatMap]

end Verif.Simp
