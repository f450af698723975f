import Verif.Simp.Chor
/-!
# Reasoning about programs with one content per value

Helper functions that occur in the libraries (one call, a move, a broadcast, a loop over a list) and rules to establish what their
plain reading is.  `Spec` also records that every transfer satisfies a predicate.
-/
namespace Verif.Simp
open Verif.Comm

section
variable {V T : Type}

/-- `pcall_static((rank,), fn, *args)` with one result (simp.py:517-545) -/
def one (rank : Nat) (f : List V → Option V) (t : T) (args : List Nat) : Chor V T Nat :=
  .call [rank] (fun vs => (f vs).map fun v => [v]) [t] args fun ys => match ys with
    | [y] => .ret y
    | _ => .fail

/-- `pcall_static((rank,), fn, *args)` with several results (simp.py:517-545) -/
def several (rank : Nat) (f : List V → Option (List V)) (ts : List T) (args : List Nat) : Chor V T (List Nat) :=
  .call [rank] f ts args .ret

/-- `shuffle_static(x, {dst: src})` (simp.py:729-762) -/
def move (x src dst : Nat) : Chor V T Nat := .shuffle [(dst, src)] x .ret

/-- `[f(a) for a in l]` (python; models no code of its own) -/
def each {A B : Type} (f : A → Chor V T B) : List A → Chor V T (List B)
  | [] => .ret []
  | a :: as => (f a).bind fun b => (each f as).bind fun bs => .ret (b :: bs)

/-- "keep source, shuffle to each target, then converge" (libs/ml/sgb.py:1042-1047, 1063-1068, 1205-1210, 1384-1389), done only if there
are targets -/
def share (src : Nat) (dsts : List Nat) (x : Nat) : Chor V T Nat :=
  if dsts = [] then .ret x else (each (fun d => move x src d) dsts).bind fun ys => .converge (x :: ys) .ret

/-! ## Rules -/

/-- Object `x` is `l`. -/
def Is (S : Plain V T) (x : Nat) (l : Loc V T) : Prop := S.vals[x]? = some l

/-- More objects. -/
def Le (S S' : Plain V T) : Prop := S.vals <+: S'.vals

theorem Le.refl (S : Plain V T) : Le S S := List.prefix_rfl
theorem Le.trans {S1 S2 S3 : Plain V T} (h : Le S1 S2) (g : Le S2 S3) : Le S1 S3 := List.IsPrefix.trans h g
theorem Is.mono {S S' : Plain V T} {x : Nat} {l : Loc V T} (h : Is S x l) (g : Le S S') : Is S' x l := prefix_get g h

theorem Objs.mono {S S' : Plain V T} {xs : List Nat} {ls : List (Loc V T)} (h : Objs S xs ls) (g : Le S S') : Objs S' xs ls := by
  induction h with
  | nil => exact .nil
  | cons h1 _ ih => exact .cons (prefix_get g h1) ih

/-- The program has a plain reading from `S`; its transfers satisfy `ok object from to`, and `P` holds afterwards. -/
def Spec (N : Nat) (ok : Loc V T → Nat → Nat → Prop) {α : Type} (c : Chor V T α) (S : Plain V T) (P : α → Plain V T → Prop) : Prop :=
  ∃ a S', Runs N c S a S' ∧ (∃ m, S'.sent = S.sent ++ m ∧ ∀ e ∈ m, ∃ l, Is S' e.2.2 l ∧ ok l e.1 e.2.1) ∧ P a S'

theorem runs_bind {N : Nat} {α β : Type} {c : Chor V T α} {f : α → Chor V T β} {S S1 S2 : Plain V T} {a : α} {b : β}
    (h : Runs N c S a S1) (g : Runs N (f a) S1 b S2) : Runs N (c.bind f) S b S2 := by
  induction h with
  | ret => exact g
  | call ls rs h1 h2 h3 h4 _ ih => exact .call ls rs h1 h2 h3 h4 (ih g)
  | shuffle l h1 h2 h3 h4 h5 _ ih => exact .shuffle l h1 h2 h3 h4 h5 (ih g)
  | converge ls t v h1 h2 h3 h4 _ ih => exact .converge ls t v h1 h2 h3 h4 (ih g)

variable {N : Nat} {ok : Loc V T → Nat → Nat → Prop}

theorem Spec.ret {α : Type} {a : α} {S : Plain V T} {P : α → Plain V T → Prop} (h : P a S) : Spec N ok (.ret a) S P :=
  ⟨a, S, .ret a S, ⟨[], by simp, by simp⟩, h⟩

theorem Spec.bind {α β : Type} {c : Chor V T α} {f : α → Chor V T β} {S : Plain V T} {P : α → Plain V T → Prop} {Q : β → Plain V T → Prop}
    (h : Spec N ok c S P) (g : ∀ a S', Le S S' → P a S' → Spec N ok (f a) S' Q) : Spec N ok (c.bind f) S Q := by
  obtain ⟨a, S1, h1, ⟨m, h2, h3⟩, h4⟩ := h
  obtain ⟨b, S2, g1, ⟨m', g2, g3⟩, g4⟩ := g a S1 (runs_prefix h1).1 h4
  refine ⟨b, S2, runs_bind h1 g1, ⟨m ++ m', by rw [g2, h2, List.append_assoc], fun e he => ?_⟩, g4⟩
  rcases List.mem_append.1 he with he | he
  · obtain ⟨l, hl, hk⟩ := h3 e he
    exact ⟨l, hl.mono (runs_prefix g1).1, hk⟩
  · exact g3 e he

theorem Spec.weaken {α : Type} {c : Chor V T α} {S : Plain V T} {P Q : α → Plain V T → Prop} (h : Spec N ok c S P)
    (g : ∀ a S', Le S S' → P a S' → Q a S') : Spec N ok c S Q := by
  obtain ⟨a, S1, h1, h2, h3⟩ := h
  exact ⟨a, S1, h1, h2, g a S1 (runs_prefix h1).1 h3⟩

theorem new_objs (vs : List (Loc V T)) (ws : List (Loc V T)) (s : List (Nat × Nat × Nat)) :
    Objs ⟨vs ++ ws, s⟩ ((List.range ws.length).map (vs.length + ·)) ws := by
  unfold Objs
  rw [List.forall₂_iff_get]
  refine ⟨by simp, fun i h1 h2 => ?_⟩
  simp only [List.length_map, List.length_range] at h1
  simp [h1]

theorem spec_several {rank : Nat} {f : List V → Option (List V)} {ts : List T} {args : List Nat} {S : Plain V T} {ls : List (Loc V T)}
    {rs : List V} (ho : Objs S args ls) (hp : ∀ l ∈ ls, rank ∈ l.at_) (hf : f (ls.map Loc.val) = some rs) (hl : rs.length = ts.length) :
    Spec N ok (several rank f ts args) S fun ys S' => Objs S' ys ((ts.zip rs).map fun e => ⟨e.1, [rank], e.2⟩) := by
  refine ⟨_, _, .call ls rs ho (by simpa using hp) hf hl (.ret _ _), ⟨[], by simp, by simp⟩, ?_⟩
  have := new_objs S.vals ((ts.zip rs).map fun e => (⟨e.1, [rank], e.2⟩ : Loc V T)) S.sent
  rw [show ((ts.zip rs).map fun e => (⟨e.1, [rank], e.2⟩ : Loc V T)).length = ts.length by simp [hl]] at this
  exact this

theorem spec_one {rank : Nat} {f : List V → Option V} {t : T} {args : List Nat} {S : Plain V T} {ls : List (Loc V T)} {v : V}
    (ho : Objs S args ls) (hp : ∀ l ∈ ls, rank ∈ l.at_) (hf : f (ls.map Loc.val) = some v) :
    Spec N ok (one rank f t args) S fun y S' => Is S' y ⟨t, [rank], v⟩ := by
  refine ⟨S.vals.length, ⟨S.vals ++ [⟨t, [rank], v⟩], S.sent⟩, .call ls [v] ho (by simpa using hp) (by simp [hf]) rfl (.ret _ _),
    ⟨[], by simp, by simp⟩, by simp [Is]⟩

theorem spec_move {x src dst : Nat} {S : Plain V T} {l : Loc V T} (hx : Is S x l) (hs : src ∈ l.at_) (hsN : src < N) (hdN : dst < N)
    (hok : ok l src dst) : Spec N ok (move x src dst) S fun y S' => Is S' y ⟨l.ty, [dst], l.val⟩ := by
  refine ⟨S.vals.length, ⟨S.vals ++ [⟨l.ty, [dst], l.val⟩], S.sent ++ hops [(dst, src)] x⟩,
    .shuffle l hx ⟨by simp, by simp [hsN, hdN]⟩ (fun a c h => ?_) (by simp) (by simpa using hs) (.ret _ _), ⟨hops [(dst, src)] x, rfl, ?_⟩,
    by simp [Is]⟩
  · obtain ⟨h1, h2, h3⟩ := h
    simp only [List.mem_singleton, Prod.mk.injEq] at h2 h3
    omega
  · intro e he
    simp only [hops, List.mem_map, List.mem_filter, List.mem_singleton] at he
    obtain ⟨e', ⟨rfl, _⟩, rfl⟩ := he
    exact ⟨l, prefix_get (List.prefix_append ..) hx, hok⟩

/-- A loop: every round meets its postcondition, which more objects do not destroy. -/
theorem spec_each {A B : Type} {f : A → Chor V T B} {P : A → B → Plain V T → Prop}
    (hmono : ∀ a b S S', Le S S' → P a b S → P a b S') (as : List A) {S : Plain V T}
    (h : ∀ a ∈ as, ∀ S', Le S S' → Spec N ok (f a) S' (P a)) :
    Spec N ok (each f as) S fun bs S' => List.Forall₂ (fun a b => P a b S') as bs := by
  induction as generalizing S with
  | nil => exact .ret .nil
  | cons a as ih =>
    refine Spec.bind (h a (by simp) S (.refl S)) fun b S1 le1 hb => ?_
    refine Spec.bind (ih fun a' ha S' le => h a' (by simp [ha]) S' (le1.trans le)) fun bs S2 le2 hbs => ?_
    exact .ret (.cons (hmono _ _ _ _ le2 hb) hbs)

theorem forall₂_objs {A : Type} {S : Plain V T} {g : A → Loc V T} {as : List A} {ys : List Nat}
    (h : List.Forall₂ (fun a y => Is S y (g a)) as ys) : Objs S ys (as.map g) := by
  induction h with
  | nil => exact .nil
  | cons h1 _ ih => exact .cons h1 ih

theorem spec_share {src : Nat} {dsts : List Nat} {x : Nat} {S : Plain V T} {t : T} {v : V} (hx : Is S x ⟨t, [src], v⟩)
    (hn : (src :: dsts).Nodup) (hN : ∀ p ∈ src :: dsts, p < N) (hok : ∀ d ∈ dsts, ok ⟨t, [src], v⟩ src d) :
    Spec N ok (share src dsts x) S fun y S' => Is S' y ⟨t, sortedSet (src :: dsts), v⟩ := by
  unfold share
  by_cases hd : dsts = []
  · rw [if_pos hd]; subst hd; exact .ret hx
  · rw [if_neg hd]
    refine Spec.bind (spec_each (P := fun d y S' => Is S' y ⟨t, [d], v⟩) (fun _ _ _ _ le h => h.mono le) dsts fun d hm S' le =>
      spec_move (hx.mono le) (by simp) (hN _ (by simp)) (hN d (by simp [hm])) (hok d hm)) fun ys S1 le hys => ?_
    refine ⟨S1.vals.length, ⟨S1.vals ++ [⟨t, sortedSet (src :: dsts), v⟩], S1.sent⟩,
      .converge ((⟨t, [src], v⟩ : Loc V T) :: dsts.map fun d => ⟨t, [d], v⟩) t v (.cons (hx.mono le) (forall₂_objs hys)) ?_ ?_ ?_ ?_,
      ⟨[], by simp, by simp⟩, by simp [Is]⟩
    · intro l hl
      rcases List.mem_cons.1 hl with rfl | hl
      · exact ⟨rfl, rfl⟩
      · obtain ⟨d, _, rfl⟩ := List.mem_map.1 hl; exact ⟨rfl, rfl⟩
    · rw [show ((⟨t, [src], v⟩ : Loc V T) :: dsts.map fun d => ⟨t, [d], v⟩) = (src :: dsts).map fun d => ⟨t, [d], v⟩ from rfl,
        List.pairwise_map]
      exact hn.imp fun h p hp => by simp at hp ⊢; subst hp; exact h
    · simp
    · have : (((⟨t, [src], v⟩ : Loc V T) :: dsts.map fun d => ⟨t, [d], v⟩).map Loc.at_).flatten = src :: dsts := by
        simp only [List.map_cons, List.map_map, List.flatten_cons, List.singleton_append, List.cons.injEq, true_and]
        rw [show (List.map (Loc.at_ ∘ fun d => (⟨t, [d], v⟩ : Loc V T)) dsts) = dsts.map fun d => [d] from rfl, ← List.flatMap_def]
        simp
      rw [this]
      exact .ret _ _

end

/-! ## An example: party 0 adds one to its number, sends it to party 2, which doubles it and shares it with 0 and 1 -/

/-- the example program (models no code of its own) -/
def sample : Chor Nat Unit Nat :=
  (one 0 (fun l => some (l.sum + 1)) () [0]).bind fun x => (move x 0 2).bind fun y => (one 2 (fun l => some (2 * l.sum)) () [y]).bind fun z =>
  share 2 [0, 1] z

theorem sample_spec (v : Nat) : Spec 3 (fun _ _ _ => True) sample ⟨[⟨(), [0], v⟩], []⟩ fun y S' => Is S' y ⟨(), [0, 1, 2], 2 * (v + 1)⟩ := by
  unfold sample
  refine Spec.bind (spec_one (ls := [⟨(), [0], v⟩]) (.cons rfl .nil) (by simp) rfl) fun x S1 _ hx => ?_
  refine Spec.bind (spec_move hx (by simp) (by omega) (by omega) trivial) fun y S2 _ hy => ?_
  refine Spec.bind (spec_one (.cons hy .nil) (by simp) rfl) fun z S3 _ hz => ?_
  refine Spec.weaken (spec_share hz (by decide) (by decide) fun _ _ => trivial) fun w S4 _ hw => ?_
  rw [show sortedSet [2, 0, 1] = [0, 1, 2] by decide] at hw
  simpa using hw

/-- `plain_reading` applies: the example has a plain reading … -/
example : ∃ y S', Runs 3 sample ⟨[⟨(), [0], 4⟩], []⟩ y S' ∧ Is S' y ⟨(), [0, 1, 2], 10⟩ := by
  obtain ⟨y, S', h, _, g⟩ := sample_spec 4
  exact ⟨y, S', h, g⟩

/-- … and so does `party_view` for party 1, with different inputs of party 0 … -/
example : ∃ y S1 S2, Runs 3 (one 0 (fun l => some (l.sum % 2)) () [0] : Chor Nat Unit Nat) ⟨[⟨(), [0], 4⟩], []⟩ y S1 ∧
    Runs 3 (one 0 (fun l => some (l.sum % 2)) () [0] : Chor Nat Unit Nat) ⟨[⟨(), [0], 6⟩], []⟩ y S2 ∧
    SameShape (⟨[⟨(), [0], 4⟩], []⟩ : Plain Nat Unit) ⟨[⟨(), [0], 6⟩], []⟩ ∧ SameAt 1 (⟨[⟨(), [0], 4⟩], []⟩ : Plain Nat Unit) ⟨[⟨(), [0], 6⟩], []⟩ ∧
    ∀ s x, (s, 1, x) ∉ S1.sent := by
  refine ⟨1, _, _, .call [⟨(), [0], 4⟩] [0] (.cons rfl .nil) (by simp) rfl rfl (.ret _ _), .call [⟨(), [0], 6⟩] [0] (.cons rfl .nil) (by simp) rfl rfl (.ret _ _),
    .cons (by simp) .nil, .cons (by simp) .nil, by simp⟩

/-- … while the value a program sends does depend on the sender's input. -/
example : ¬ ∃ v, ∀ w y S', Runs 3 sample ⟨[⟨(), [0], w⟩], []⟩ y S' → ∀ l, Is S' y l → l.val = v := by
  rintro ⟨v, h⟩
  obtain ⟨y, S', h1, _, g1⟩ := sample_spec 4
  obtain ⟨y2, S2', h2, _, g2⟩ := sample_spec 5
  have a := h 4 y S' h1 _ g1
  have b := h 5 y2 S2' h2 _ g2
  simp at a b
  omega

end Verif.Simp
