import Mathlib.Tactic.Convert
import Mathlib.Logic.Basic
import Mathlib.Data.List.Nodup
import Verif.Comm.Sync
/-!
# Collectives (backends/simp_worker/collective_algorithms.py)
-/
namespace Verif.Comm

/-- Message payloads: a user value, a python list (allgather result), a bool. -/
inductive Msg (V : Type) where
  | val (v : V)
  | lst (l : List (Msg V))
  | bool (b : Bool)

/-- python `bool(x)`; `tr` is the truth value of a user value -/
def Msg.truth {V : Type} (tr : V → Bool) : Msg V → Bool
  | .val v => tr v
  | .lst l => !l.isEmpty
  | .bool b => b

/-- insert into a strictly increasing list -/
def sins (a : Nat) : List Nat → List Nat
  | [] => [a]
  | b :: l => if a < b then a :: b :: l else if a = b then b :: l else b :: sins a l

/-- `tuple(sorted({int(r) for r in participants}))` -/
def sortedSet (l : List Nat) : List Nat := l.foldr sins []

/-- `normalize_participants` (collective_algorithms.py:37-49).  Participants are integers; a negative one is out of range. -/
def normalize (N rank : Nat) (ps : List Int) : Option (List Nat) :=
  if ps.isEmpty then none                                            -- "participants must be non-empty"
  else if ps.any (fun r => decide (r < 0 ∨ (N : Int) ≤ r)) then none  -- "participants out of range"
  else
    let q := sortedSet (ps.map Int.toNat)
    if rank ∈ q then some q else none                                -- "rank ... is not in participants"

section
variable {V A : Type}

/-- `for r in ps: if r == root: continue; acc = f(r, ctx.recv(r), acc)` -/
def recvEach {M L : Type} (f : Nat → M → L → L) : List Nat → L → Proc M L
  | [], acc => .ret acc
  | r :: rs, acc => .recv r (fun m => recvEach f rs (f r m acc))

/-- `for r in ps: if r == root: continue; ctx.send(r, value)` then go on -/
def sendEach {M A : Type} (m : M) : List Nat → Proc M A → Proc M A
  | [], k => k
  | r :: rs, k => .send r m (sendEach m rs k)

/-- the ranks a root loop does not skip -/
def others (root : Nat) (ps : List Nat) : List Nat := ps.filter (· ≠ root)

/-- `barrier` (collective_algorithms.py:52-72); `ps[0]` is `ps.headD 0` (never empty after normalisation) -/
def barrier (N rank : Nat) (participants : List Int) : Proc (Msg V) Unit :=
  match normalize N rank participants with
  | none => .fail
  | some ps =>
    let root := ps.headD 0
    if rank ≠ root then .send root (.bool true) (.recv root (fun _ => .ret ()))
    else (recvEach (fun _ _ u => u) (others root ps) ()).bind (fun _ => sendEach (.bool true) (others root ps) (.ret ()))

/-- `broadcast` (collective_algorithms.py:75-95) -/
def broadcast (N rank : Nat) (value : Msg V) (root : Nat) (participants : List Int) : Proc (Msg V) (Msg V) :=
  match normalize N rank participants with
  | none => .fail
  | some ps =>
    if root ∉ ps then .fail
    else if rank = root then sendEach value (others root ps) (.ret value)
    else .recv root .ret

/-- `values_by_rank[r]` for a python dict given as list of bindings, latest first -/
def lookup {α : Type} (r : Nat) : List (Nat × α) → Option α
  | [] => none
  | (k, v) :: l => if k = r then some v else lookup r l

/-- `[values_by_rank[r] for r in ps]`; `none` = KeyError -/
def collect {α : Type} (d : List (Nat × α)) : List Nat → Option (List α)
  | [] => some []
  | r :: rs => match lookup r d, collect d rs with
    | some v, some vs => some (v :: vs)
    | _, _ => none

/-- `isinstance(gathered, list)` check of a non-root party -/
def expectList : Msg V → Proc (Msg V) (List (Msg V))
  | .lst l => .ret l
  | _ => .fail

/-- `allgather` (collective_algorithms.py:98-129) -/
def allgather (N rank : Nat) (value : Msg V) (participants : List Int) : Proc (Msg V) (List (Msg V)) :=
  match normalize N rank participants with
  | none => .fail
  | some ps =>
    let root := ps.headD 0
    if rank ≠ root then .send root value (.recv root expectList)
    else (recvEach (fun r m d => (r, m) :: d) (others root ps) [(root, value)]).bind fun d =>
      match collect d ps with
      | none => .fail
      | some g => sendEach (.lst g) (others root ps) (.ret g)

/-- `_allreduce_bool` (collective_algorithms.py:159-184), used with `and`, `or`, `xor` (132-156) -/
def allreduceBool (tr : V → Bool) (comb : Bool → Bool → Bool) (N rank : Nat) (value : Bool) (participants : List Int) :
    Proc (Msg V) Bool :=
  match normalize N rank participants with
  | none => .fail
  | some ps =>
    let root := ps.headD 0
    if rank ≠ root then .send root (.bool value) (.recv root (fun m => .ret (m.truth tr)))
    else (recvEach (fun _ m acc => comb acc (m.truth tr)) (others root ps) value).bind fun acc =>
      sendEach (.bool acc) (others root ps) (.ret acc)

/-! ## normalisation -/

theorem mem_sins (a x : Nat) (l : List Nat) : x ∈ sins a l ↔ x = a ∨ x ∈ l := by
  induction l with
  | nil => simp [sins]
  | cons b l ih =>
    simp only [sins]
    split
    · simp
    · split
      · rename_i h; subst h; simp
      · simp only [List.mem_cons, ih]
        constructor
        · rintro (h | h | h) <;> simp [h]
        · rintro (h | h | h) <;> simp [h]

theorem mem_sortedSet (x : Nat) (l : List Nat) : x ∈ sortedSet l ↔ x ∈ l := by
  induction l with
  | nil => simp [sortedSet]
  | cons a l ih =>
    have : sortedSet (a :: l) = sins a (sortedSet l) := rfl
    rw [this, mem_sins, ih]
    simp

theorem sins_sorted (a : Nat) (l : List Nat) (h : l.Pairwise (· < ·)) : (sins a l).Pairwise (· < ·) := by
  induction l with
  | nil => simp [sins]
  | cons b l ih =>
    simp only [List.pairwise_cons] at h
    simp only [sins]
    split
    · rename_i hab
      simp only [List.pairwise_cons, List.mem_cons, forall_eq_or_imp]
      exact ⟨⟨hab, fun x hx => Nat.lt_trans hab (h.1 x hx)⟩, h.1, h.2⟩
    · split
      · exact List.pairwise_cons.mpr h
      · rename_i h1 h2
        simp only [List.pairwise_cons]
        refine ⟨?_, ih h.2⟩
        intro x hx
        rcases (mem_sins a x l).mp hx with rfl | hx
        · omega
        · exact h.1 x hx

theorem sortedSet_sorted (l : List Nat) : (sortedSet l).Pairwise (· < ·) := by
  induction l with
  | nil => simp [sortedSet]
  | cons a l ih => exact sins_sorted a _ ih

theorem sortedSet_nodup (l : List Nat) : (sortedSet l).Nodup :=
  (sortedSet_sorted l).imp (fun h => Nat.ne_of_lt h)

/-- the set of ranks named by a participant list of valid ranks -/
def ranks (ps : List Int) : List Nat := sortedSet (ps.map Int.toNat)

theorem mem_ranks (ps : List Int) (h : ∀ r ∈ ps, 0 ≤ r) (p : Nat) : p ∈ ranks ps ↔ (p : Int) ∈ ps := by
  rw [ranks, mem_sortedSet, List.mem_map]
  constructor
  · rintro ⟨r, hr, rfl⟩
    rwa [Int.toNat_of_nonneg (h r hr)]
  · intro hp
    exact ⟨p, hp, by simp⟩

theorem normalize_eq (N rank : Nat) (ps : List Int) : normalize N rank ps =
    if ps ≠ [] ∧ (∀ r ∈ ps, 0 ≤ r ∧ r < (N : Int)) ∧ (rank : Int) ∈ ps then some (ranks ps) else none := by
  simp only [normalize]
  by_cases h1 : ps = []
  · simp [h1]
  · have h1' : ps.isEmpty = false := by cases ps with
      | nil => exact absurd rfl h1
      | cons => rfl
    simp only [h1', Bool.false_eq_true, if_false]
    by_cases h2 : ∀ r ∈ ps, 0 ≤ r ∧ r < (N : Int)
    · have : ps.any (fun r => decide (r < 0 ∨ (N : Int) ≤ r)) = false := by
        rw [List.any_eq_false]
        intro r hr
        have := h2 r hr
        simp
        omega
      simp only [this, Bool.false_eq_true, if_false]
      have hm := mem_ranks ps (fun r hr => (h2 r hr).1) rank
      simp only [ranks] at hm ⊢
      by_cases h3 : (rank : Int) ∈ ps
      · rw [if_pos (hm.mpr h3), if_pos ⟨h1, h2, h3⟩]
      · rw [if_neg (fun h => h3 (hm.mp h)), if_neg (fun h => h3 h.2.2)]
    · have : ps.any (fun r => decide (r < 0 ∨ (N : Int) ≤ r)) = true := by
        rw [List.any_eq_true]
        simp only [not_forall] at h2
        obtain ⟨r, hr, hx⟩ := h2
        exact ⟨r, hr, by simp; omega⟩
      simp only [this, if_true]
      rw [if_neg (fun h => h2 h.2.1)]

/-! ## gather and scatter phases -/

theorem gather_reach {M L : Type} {N : Nat} (root : Nat) (hroot : root < N) (rs : List Nat) (hn : rs.Nodup) (hrs : ∀ r ∈ rs, r < N ∧ r ≠ root)
    (f : Nat → M → L → L) (acc : L) (k : L → Proc M A) (m : Nat → M) (kr : Nat → Proc M A) (P : Nat → Proc M A)
    (c : Nat → Nat → Nat) (hc : Symm c) (h1 : P root = (recvEach f rs acc).bind k) (h2 : ∀ r ∈ rs, P r = .send root (m r) (kr r)) :
    ∃ c', Symm c' ∧ Reach N (syncSt P c)
      (syncSt (fun p => if p = root then k (rs.foldl (fun a r => f r (m r) a) acc) else if p ∈ rs then kr p else P p) c') := by
  induction rs generalizing acc P c with
  | nil =>
    refine ⟨c, hc, ?_⟩
    have : P = (fun p => if p = root then k ([].foldl (fun a r => f r (m r) a) acc) else if p ∈ ([] : List Nat) then kr p else P p) := by
      funext p
      by_cases hp : p = root
      · subst hp; simp [h1, recvEach, Proc.bind]
      · simp [hp]
    rw [← this]
    exact reach_refl N _
  | cons r rs ih =>
    obtain ⟨hr1, hr2⟩ := hrs r (by simp)
    rw [List.nodup_cons] at hn
    have hrv := rendezvous (N := N) P c hc r root hr1 hroot hr2 (m r) (kr r) (fun x => (recvEach f rs (f r x acc)).bind k)
      (h2 r (by simp)) (by rw [h1]; rfl)
    obtain ⟨c', hc', hr'⟩ := ih hn.2 (fun x hx => hrs x (by simp [hx])) (f r (m r) acc)
      (upd (upd P r (kr r)) root ((recvEach f rs (f r (m r) acc)).bind k)) (bump c r root) (bump_symm hc hr2) (upd_same _ _ _)
      (fun x hx => by
        have hx1 := (hrs x (by simp [hx])).2
        have hx2 : x ≠ r := fun h => hn.1 (h ▸ hx)
        rw [upd_ne _ _ _ _ hx1, upd_ne _ _ _ _ hx2]
        exact h2 x (by simp [hx]))
    refine ⟨c', hc', reach_trans hrv ?_⟩
    convert hr' using 2
    funext p
    simp only [List.foldl_cons, List.mem_cons, upd]
    by_cases hp : p = root
    · simp [hp]
    · by_cases hpr : p = r
      · subst hpr; simp [hp, hn.1]
      · simp [hp, hpr]

theorem scatter_reach {M : Type} {N : Nat} (root : Nat) (hroot : root < N) (rs : List Nat) (hn : rs.Nodup) (hrs : ∀ r ∈ rs, r < N ∧ r ≠ root)
    (m : M) (k : Proc M A) (kr : Nat → M → Proc M A) (P : Nat → Proc M A)
    (c : Nat → Nat → Nat) (hc : Symm c) (h1 : P root = sendEach m rs k) (h2 : ∀ r ∈ rs, P r = .recv root (kr r)) :
    ∃ c', Symm c' ∧ Reach N (syncSt P c)
      (syncSt (fun p => if p = root then k else if p ∈ rs then kr p m else P p) c') := by
  induction rs generalizing P c with
  | nil =>
    refine ⟨c, hc, ?_⟩
    have : P = (fun p => if p = root then k else if p ∈ ([] : List Nat) then kr p m else P p) := by
      funext p
      by_cases hp : p = root
      · subst hp; simp [h1, sendEach]
      · simp [hp]
    rw [← this]
    exact reach_refl N _
  | cons r rs ih =>
    obtain ⟨hr1, hr2⟩ := hrs r (by simp)
    rw [List.nodup_cons] at hn
    have hrv := rendezvous (N := N) P c hc root r hroot hr1 (Ne.symm hr2) m (sendEach m rs k) (kr r) h1 (h2 r (by simp))
    obtain ⟨c', hc', hr'⟩ := ih hn.2 (fun x hx => hrs x (by simp [hx]))
      (upd (upd P root (sendEach m rs k)) r (kr r m)) (bump c root r) (bump_symm hc (Ne.symm hr2))
      (by rw [upd_ne _ _ _ _ (Ne.symm hr2)]; exact upd_same _ _ _)
      (fun x hx => by
        have hx1 := (hrs x (by simp [hx])).2
        have hx2 : x ≠ r := fun h => hn.1 (h ▸ hx)
        rw [upd_ne _ _ _ _ hx2, upd_ne _ _ _ _ hx1]
        exact h2 x (by simp [hx]))
    refine ⟨c', hc', reach_trans hrv ?_⟩
    convert hr' using 2
    funext p
    simp only [List.mem_cons, upd]
    by_cases hp : p = root
    · simp [hp]
    · by_cases hpr : p = r
      · subst hpr; simp [hp, hn.1]
      · simp [hp, hpr]

theorem others_props (root : Nat) (ps : List Nat) (hn : ps.Nodup) : (others root ps).Nodup ∧ ∀ r, r ∈ others root ps ↔ r ∈ ps ∧ r ≠ root := by
  refine ⟨hn.filter _, fun r => by simp [others]⟩

theorem bind_assoc {M A B C : Type} (x : Proc M A) (f : A → Proc M B) (g : B → Proc M C) :
    (x.bind f).bind g = x.bind (fun a => (f a).bind g) := by
  induction x with
  | ret a => rfl
  | send t m k ih => simp [Proc.bind, ih]
  | recv t k ih => simp [Proc.bind, ih]
  | fail => rfl

theorem sendEach_bind {M A B : Type} (m : M) (rs : List Nat) (k : Proc M A) (f : A → Proc M B) :
    (sendEach m rs k).bind f = sendEach m rs (k.bind f) := by
  induction rs with
  | nil => rfl
  | cons r rs ih => simp [sendEach, Proc.bind, ih]

/-- gather to a root, then the root sends one message back to everybody -/
theorem gather_scatter {M L : Type} {N : Nat} (root : Nat) (hroot : root < N) (rs : List Nat) (hn : rs.Nodup)
    (hrs : ∀ r ∈ rs, r < N ∧ r ≠ root) (f : Nat → M → L → L) (acc : L) (m : Nat → M) (back : L → M) (kroot : L → Proc M A)
    (kr : Nat → M → Proc M A) (P : Nat → Proc M A) (c : Nat → Nat → Nat) (hc : Symm c)
    (h1 : P root = (recvEach f rs acc).bind (fun a => sendEach (back a) rs (kroot a)))
    (h2 : ∀ r ∈ rs, P r = .send root (m r) (.recv root (kr r))) :
    ∃ c', Symm c' ∧ Reach N (syncSt P c)
      (syncSt (fun p => if p = root then kroot (rs.foldl (fun a r => f r (m r) a) acc)
        else if p ∈ rs then kr p (back (rs.foldl (fun a r => f r (m r) a) acc)) else P p) c') := by
  obtain ⟨c1, hc1, r1⟩ := gather_reach root hroot rs hn hrs f acc _ m (fun r => .recv root (kr r)) P c hc h1 h2
  generalize hP : (fun p => if p = root then sendEach (back (rs.foldl (fun a r => f r (m r) a) acc)) rs
      (kroot (rs.foldl (fun a r => f r (m r) a) acc)) else if p ∈ rs then Proc.recv root (kr p) else P p) = P1 at r1
  obtain ⟨c2, hc2, r2⟩ := scatter_reach (N := N) root hroot rs hn hrs (back (rs.foldl (fun a r => f r (m r) a) acc))
    (kroot (rs.foldl (fun a r => f r (m r) a) acc)) kr P1 c1 hc1 (by simp [← hP])
    (fun r hr => by simp [← hP, (hrs r hr).2, hr])
  refine ⟨c2, hc2, reach_trans r1 ?_⟩
  subst hP
  convert r2 using 2
  funext p
  by_cases hp : p = root
  · simp [hp]
  · by_cases hpr : p ∈ rs <;> simp [hp, hpr]

end
end Verif.Comm
