import Verif.Simp.ChorArgs
/-!
# What every run of a program of the parties sends (used by C129)

`Verif/Simp/ChorLogic.lean` shows that a run exists; here: a property of *every* run, in particular of its messages.
-/
namespace Verif.Simp

variable {V T : Type}

/-- **Specification** The messages of a run in order: from, to, type, and size in bytes of the value sent. -/
def traffic (size : V → Nat) (S : Plain V T) : List (Nat × Nat × T × Nat) :=
  S.sent.filterMap fun e => (S.vals[e.2.2]?).map fun l => (e.1, e.2.1, l.ty, size l.val)

/-- **Specification** bytes sent in all -/
def total (l : List (Nat × Nat × T × Nat)) : Nat := (l.map fun e => e.2.2.2).sum

/-- messages are about objects -/
def Sound (S : Plain V T) : Prop := ∀ e ∈ S.sent, e.2.2 < S.vals.length

/-- Every run of `c` from `S` ends as described. -/
def Each (N : Nat) {α : Type} (c : Chor V T α) (S : Plain V T) (Q : α → Plain V T → Prop) : Prop :=
  Sound S → ∀ a S', Runs N c S a S' → Sound S' ∧ Le S S' ∧ Q a S'

variable {N : Nat}

theorem traffic_mono (size : V → Nat) {S : Plain V T} (h : Sound S) (xs : List (Loc V T)) :
    traffic size ⟨S.vals ++ xs, S.sent⟩ = traffic size S := by
  unfold traffic
  refine List.filterMap_congr fun e he => ?_
  simp only
  rw [List.getElem?_append_left (h e he)]

theorem runs_bind_inv {α β : Type} {f : α → Chor V T β} {S2 : Plain V T} {b : β} : ∀ {c : Chor V T α} {S : Plain V T},
    Runs N (c.bind f) S b S2 → ∃ a S1, Runs N c S a S1 ∧ Runs N (f a) S1 b S2 := by
  intro c
  induction c with
  | ret a => intro S h; exact ⟨a, S, .ret _ _, h⟩
  | fail => intro S h; cases h
  | call ps F outs args k ih =>
    intro S h
    cases h with
    | call ls rs h1 h2 h3 h4 h5 =>
      obtain ⟨a, S1, g1, g2⟩ := ih _ h5
      exact ⟨a, S1, .call ls rs h1 h2 h3 h4 g1, g2⟩
  | shuffle r x k ih =>
    intro S h
    cases h with
    | shuffle l h1 h2 h3 h4 h5 h6 =>
      obtain ⟨a, S1, g1, g2⟩ := ih _ h6
      exact ⟨a, S1, .shuffle l h1 h2 h3 h4 h5 g1, g2⟩
  | converge xs k ih =>
    intro S h
    cases h with
    | converge ls t v h1 h2 h3 h4 h5 =>
      obtain ⟨a, S1, g1, g2⟩ := ih _ h5
      exact ⟨a, S1, .converge ls t v h1 h2 h3 h4 g1, g2⟩

theorem Each.bind {α β : Type} {c : Chor V T α} {f : α → Chor V T β} {S : Plain V T} {P : α → Plain V T → Prop} {Q : β → Plain V T → Prop}
    (h : Each N c S P) (g : ∀ a S', Sound S' → Le S S' → P a S' → Each N (f a) S' Q) : Each N (c.bind f) S Q := by
  intro hs b S2 hr
  obtain ⟨a, S1, h1, h2⟩ := runs_bind_inv hr
  obtain ⟨i1, i2, i3⟩ := h hs a S1 h1
  obtain ⟨j1, j2, j3⟩ := g a S1 i1 i2 i3 i1 b S2 h2
  exact ⟨j1, i2.trans j2, j3⟩

theorem Each.ret {α : Type} {a : α} {S : Plain V T} {Q : α → Plain V T → Prop} (h : Q a S) : Each N (.ret a) S Q := by
  intro hs b S' hr
  cases hr
  exact ⟨hs, Le.refl _, h⟩

theorem Each.fail {α : Type} {S : Plain V T} {Q : α → Plain V T → Prop} : Each N (.fail : Chor V T α) S Q := by
  intro _ b S' hr
  cases hr

theorem Each.weaken {α : Type} {c : Chor V T α} {S : Plain V T} {P Q : α → Plain V T → Prop} (h : Each N c S P)
    (g : ∀ a S', Sound S' → Le S S' → P a S' → Q a S') : Each N c S Q := by
  intro hs a S' hr
  obtain ⟨h1, h2, h3⟩ := h hs a S' hr
  exact ⟨h1, h2, g a S' h1 h2 h3⟩

/-- arguments of a call in a run -/
abbrev Args (S : Plain V T) (args : List Nat) (vs : List V) : Prop := ∃ ls : List (Loc V T), Objs S args ls ∧ vs = ls.map Loc.val

theorem sound_append {S : Plain V T} (h : Sound S) (xs : List (Loc V T)) : Sound (⟨S.vals ++ xs, S.sent⟩ : Plain V T) := by
  intro e he
  have := h e he
  simp only [List.length_append]
  omega

/-- A call sends nothing and adds its result. -/
theorem each_one (size : V → Nat) {α : Type} {r : Nat} {f : List V → Option V} {t : T} {args : List Nat} {S : Plain V T}
    {M : List (Nat × Nat × T × Nat)} {k : Nat → Chor V T α} {Q : α → Plain V T → Prop} (hM : traffic size S = M)
    (hk : ∀ y S' vs v, Le S S' → Args S args vs → f vs = some v → Is S' y ⟨t, [r], v⟩ → traffic size S' = M → Each N (k y) S' Q) :
    Each N ((one r f t args).bind k) S Q := by
  refine Each.bind (P := fun y S' => ∃ vs v, Args S args vs ∧ f vs = some v ∧ Is S' y ⟨t, [r], v⟩ ∧ traffic size S' = M) ?_
    fun y S' _ le ⟨vs, v, h1, h2, h3, h4⟩ => hk y S' vs v le h1 h2 h3 h4
  intro hs a S' hr
  unfold one at hr
  cases hr with
  | call ls rs h1 h2 h3 h4 h5 =>
    cases hf : f (ls.map Loc.val) with
    | none => simp [hf] at h3
    | some v =>
      simp only [hf, Option.map_some, Option.some.injEq] at h3
      subst h3
      simp only [List.length_cons, List.length_nil, Nat.zero_add, List.range_one, List.map_cons, Nat.add_zero, List.map_nil] at h5
      cases h5
      exact ⟨sound_append hs _, List.prefix_append .., _, v, ⟨ls, h1, rfl⟩, hf, by simp [Is]; rfl, by rw [traffic_mono size hs, hM]⟩

/-- A program that ends with a call. -/
theorem each_last (size : V → Nat) {r : Nat} {f : List V → Option V} {t : T} {args : List Nat} {S : Plain V T}
    {M : List (Nat × Nat × T × Nat)} {Q : Nat → Plain V T → Prop} (hM : traffic size S = M)
    (hk : ∀ y S' vs v, Le S S' → Args S args vs → f vs = some v → Is S' y ⟨t, [r], v⟩ → traffic size S' = M → Q y S') :
    Each N (one r f t args) S Q := by
  have e : one r f t args = (one r f t args).bind .ret := by
    unfold one
    simp only [Chor.bind]
    congr 1
    funext ys
    split <;> rfl
  rw [e]
  exact each_one size hM fun y S' vs v h1 h2 h3 h4 h5 => Each.ret (hk y S' vs v h1 h2 h3 h4 h5)

/-- The same for several results. -/
theorem each_several (size : V → Nat) {α : Type} {r : Nat} {f : List V → Option (List V)} {ts : List T} {args : List Nat} {S : Plain V T}
    {M : List (Nat × Nat × T × Nat)} {k : List Nat → Chor V T α} {Q : α → Plain V T → Prop} (hM : traffic size S = M)
    (hk : ∀ ys S' vs rs, Le S S' → Args S args vs → f vs = some rs → rs.length = ts.length →
      Objs S' ys ((ts.zip rs).map fun e => ⟨e.1, [r], e.2⟩) → traffic size S' = M → Each N (k ys) S' Q) :
    Each N ((several r f ts args).bind k) S Q := by
  refine Each.bind (P := fun ys S' => ∃ vs rs, Args S args vs ∧ f vs = some rs ∧ rs.length = ts.length ∧
    Objs S' ys ((ts.zip rs).map fun e => ⟨e.1, [r], e.2⟩) ∧ traffic size S' = M) ?_
    fun ys S' _ le ⟨vs, rs, h1, h2, h3, h4, h5⟩ => hk ys S' vs rs le h1 h2 h3 h4 h5
  intro hs a S' hr
  unfold several at hr
  cases hr with
  | call ls rs h1 h2 h3 h4 h5 =>
    cases h5
    refine ⟨sound_append hs _, List.prefix_append .., _, rs, ⟨ls, h1, rfl⟩, h3, h4, ?_, by rw [traffic_mono size hs, hM]⟩
    have := new_objs S.vals ((ts.zip rs).map fun e => (⟨e.1, [r], e.2⟩ : Loc V T)) S.sent
    rw [show ((ts.zip rs).map fun e => (⟨e.1, [r], e.2⟩ : Loc V T)).length = ts.length by simp [h4]] at this
    exact this

theorem each_call2 (size : V → Nat) {α : Type} {r : Nat} {f : List V → Option (List V)} {t1 t2 : T} {args : List Nat} {S : Plain V T}
    {M : List (Nat × Nat × T × Nat)} {k : Nat → Nat → Chor V T α} {Q : α → Plain V T → Prop} (hM : traffic size S = M)
    (hk : ∀ a b S' vs v1 v2, Le S S' → Args S args vs → f vs = some [v1, v2] → Is S' a ⟨t1, [r], v1⟩ → Is S' b ⟨t2, [r], v2⟩ →
      traffic size S' = M → Each N (k a b) S' Q) :
    Each N ((several r f [t1, t2] args).bind fun ys => unpack2 ys k) S Q := by
  refine each_several size hM fun ys S' vs rs le ha hf hl ho hM' => ?_
  match rs, hl, hf, ho with
  | [v1, v2], _, hf, ho =>
    cases ho with
    | cons h1 h => cases h with
      | cons h2 h => cases h; exact hk _ _ S' vs v1 v2 le ha hf h1 h2 hM'

theorem each_call3 (size : V → Nat) {α : Type} {r : Nat} {f : List V → Option (List V)} {t1 t2 t3 : T} {args : List Nat} {S : Plain V T}
    {M : List (Nat × Nat × T × Nat)} {k : Nat → Nat → Nat → Chor V T α} {Q : α → Plain V T → Prop} (hM : traffic size S = M)
    (hk : ∀ a b c S' vs v1 v2 v3, Le S S' → Args S args vs → f vs = some [v1, v2, v3] → Is S' a ⟨t1, [r], v1⟩ → Is S' b ⟨t2, [r], v2⟩ →
      Is S' c ⟨t3, [r], v3⟩ → traffic size S' = M → Each N (k a b c) S' Q) :
    Each N ((several r f [t1, t2, t3] args).bind fun ys => unpack3 ys k) S Q := by
  refine each_several size hM fun ys S' vs rs le ha hf hl ho hM' => ?_
  match rs, hl, hf, ho with
  | [v1, v2, v3], _, hf, ho =>
    cases ho with
    | cons h1 h => cases h with
      | cons h2 h => cases h with
        | cons h3 h => cases h; exact hk _ _ _ S' vs v1 v2 v3 le ha hf h1 h2 h3 hM'

theorem each_call4 (size : V → Nat) {α : Type} {r : Nat} {f : List V → Option (List V)} {t1 t2 t3 t4 : T} {args : List Nat} {S : Plain V T}
    {M : List (Nat × Nat × T × Nat)} {k : Nat → Nat → Nat → Nat → Chor V T α} {Q : α → Plain V T → Prop} (hM : traffic size S = M)
    (hk : ∀ a b c d S' vs v1 v2 v3 v4, Le S S' → Args S args vs → f vs = some [v1, v2, v3, v4] → Is S' a ⟨t1, [r], v1⟩ →
      Is S' b ⟨t2, [r], v2⟩ → Is S' c ⟨t3, [r], v3⟩ → Is S' d ⟨t4, [r], v4⟩ → traffic size S' = M → Each N (k a b c d) S' Q) :
    Each N ((several r f [t1, t2, t3, t4] args).bind fun ys => unpack4 ys k) S Q := by
  refine each_several size hM fun ys S' vs rs le ha hf hl ho hM' => ?_
  match rs, hl, hf, ho with
  | [v1, v2, v3, v4], _, hf, ho =>
    cases ho with
    | cons h1 h => cases h with
      | cons h2 h => cases h with
        | cons h3 h => cases h with
          | cons h4 h => cases h; exact hk _ _ _ _ S' vs v1 v2 v3 v4 le ha hf h1 h2 h3 h4 hM'

/-- A move sends the value it moves. -/
theorem each_move (size : V → Nat) {α : Type} {x src dst : Nat} {S : Plain V T} {l : Loc V T} {M : List (Nat × Nat × T × Nat)}
    {k : Nat → Chor V T α} {Q : α → Plain V T → Prop} (hne : src ≠ dst) (hM : traffic size S = M) (hx : Is S x l)
    (hk : ∀ y S', Le S S' → Is S' y ⟨l.ty, [dst], l.val⟩ → traffic size S' = M ++ [(src, dst, l.ty, size l.val)] → Each N (k y) S' Q) :
    Each N ((move x src dst).bind k) S Q := by
  refine Each.bind (P := fun y S' => Is S' y ⟨l.ty, [dst], l.val⟩ ∧ traffic size S' = M ++ [(src, dst, l.ty, size l.val)]) ?_
    fun y S' _ le ⟨h1, h2⟩ => hk y S' le h1 h2
  intro hs a S' hr
  unfold move at hr
  cases hr with
  | shuffle l' h1 h2 h3 h4 h5 h6 =>
    cases h6
    have hl : l' = l := Option.some.inj (h1.symm.trans hx)
    subst hl
    have hh : hops [(dst, src)] x = [(src, dst, x)] := by
      simp [hops, Ne.symm hne]
    have hlt : x < S.vals.length := (List.getElem?_eq_some_iff.1 h1).1
    refine ⟨fun e he => ?_, List.prefix_append .., by simp [Is]; rfl, ?_⟩
    · simp only [hh, List.mem_append, List.mem_singleton] at he
      simp only [List.length_append]
      rcases he with he | rfl
      · have := hs e he; omega
      · simp only; omega
    · have hm := traffic_mono size hs [(⟨l'.ty, Comm.sortedSet ([(dst, src)].map Prod.fst), l'.val⟩ : Loc V T)]
      unfold traffic at hm hM ⊢
      simp only [hh, List.filterMap_append, hm, hM, List.filterMap_cons, List.filterMap_nil]
      rw [List.getElem?_append_left hlt, h1]
      rfl

/-- The same for a list of objects. -/
theorem each_moves (size : V → Nat) {src dst : Nat} (hne : src ≠ dst) : ∀ {xs : List Nat} {ls : List (Loc V T)} {S : Plain V T}
    {M : List (Nat × Nat × T × Nat)}, traffic size S = M → Objs S xs ls →
    Each N (each (fun x => move x src dst) xs) S fun _ S' => traffic size S' = M ++ ls.map fun l => (src, dst, l.ty, size l.val) := by
  intro xs
  induction xs with
  | nil =>
    intro ls S M hM h
    cases h
    exact Each.ret (by simpa using hM)
  | cons x xs ih =>
    intro ls S M hM h
    cases h with
    | @cons _ l _ ls h1 h2 =>
      unfold each
      refine each_move size hne hM h1 fun y S1 l1 _ t1 => ?_
      refine Each.bind (ih t1 (Objs.mono h2 l1)) fun ys S2 _ _ t2 => Each.ret ?_
      rw [t2, List.map_cons, List.append_assoc, List.singleton_append]

end Verif.Simp
