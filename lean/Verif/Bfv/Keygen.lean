import Verif.Bfv.Model
import Mathlib.Data.List.Nodup

/-!
# C93: key generation

Model of `keygen_impl` with its process-wide cache, /repo/mplang/backends/bfv_impl.py:240-285. TenSEAL's generator is taken to give
a new key pair at every call, and a pair of one process never to occur in another.
-/

namespace Verif.Bfv

/-- The parameters of a key: degree and plaintext modulus. /repo/mplang/backends/bfv_impl.py:258-261 -/
abbrev Params := Int × Int

/-- A key pair, named by the process that made it and a serial number. -/
structure KeyPair where
  proc : Nat
  serial : Nat
  deriving DecidableEq, Repr

/-- A process: its number, the keys made so far, and `_KEYGEN_CACHE`. /repo/mplang/backends/bfv_impl.py:244-246 -/
structure Proc where
  id : Nat
  made : Nat
  cache : List (Params × KeyPair)

/-- Look up the cache. -/
def cached (p : Params) : List (Params × KeyPair) → Option KeyPair
  | [] => none
  | (q, k) :: r => if p = q then some k else cached p r

/-- `keygen_impl`: the cached pair if the parameters occurred before, else a new one. /repo/mplang/backends/bfv_impl.py:254-285 -/
def Proc.keygen (s : Proc) (p : Params) : KeyPair × Proc :=
  match cached p s.cache with
  | some k => (k, s)
  | none => (⟨s.id, s.made⟩, ⟨s.id, s.made + 1, (p, ⟨s.id, s.made⟩) :: s.cache⟩)

/-- What happens in a process: key generations, by whichever party, session or program, and `clear_keygen_cache` (which nothing in
the package calls). /repo/mplang/backends/bfv_impl.py:249-251 -/
inductive Call
  | keygen (p : Params)
  | clear
  deriving DecidableEq, Repr

/-- A history: the keys handed out, in order, and the process afterwards. -/
def Proc.calls : Proc → List Call → List (Params × KeyPair) × Proc
  | s, [] => ([], s)
  | s, .keygen p :: r =>
    let (k, s1) := s.keygen p
    let (ks, s2) := Proc.calls s1 r
    ((p, k) :: ks, s2)
  | s, .clear :: r => Proc.calls { s with cache := [] } r

/-- A new process. -/
def Proc.new (id : Nat) : Proc := ⟨id, 0, []⟩

/-- The cache maps each set of parameters to one pair, made by this process, and different sets to different pairs. -/
def Proc.Inv (s : Proc) : Prop :=
  (∀ p k, (p, k) ∈ s.cache → k.proc = s.id ∧ k.serial < s.made) ∧
  (∀ p q k, (p, k) ∈ s.cache → (q, k) ∈ s.cache → p = q)

theorem cached_mem {p : Params} {k : KeyPair} : ∀ {l : List (Params × KeyPair)}, cached p l = some k → (p, k) ∈ l
  | [], h => by simp [cached] at h
  | (q, k') :: r, h => by
    unfold cached at h
    split at h
    · next e => simp only [Option.some.injEq] at h; subst h; subst e; simp
    · exact List.mem_cons_of_mem _ (cached_mem h)

theorem cached_cons_self (p : Params) (k : KeyPair) (l : List (Params × KeyPair)) : cached p ((p, k) :: l) = some k := by simp [cached]

theorem Proc.Inv.keygen {s : Proc} (i : s.Inv) (p : Params) :
    (s.keygen p).2.Inv ∧ (s.keygen p).2.id = s.id ∧ s.made ≤ (s.keygen p).2.made ∧
      (p, (s.keygen p).1) ∈ (s.keygen p).2.cache ∧ (∀ e ∈ s.cache, e ∈ (s.keygen p).2.cache) ∧
      cached p (s.keygen p).2.cache = some (s.keygen p).1 ∧
      (∀ q k, cached q s.cache = some k → cached q (s.keygen p).2.cache = some k) := by
  unfold Proc.keygen
  cases h : cached p s.cache with
  | some k => exact ⟨i, rfl, le_refl _, cached_mem h, fun _ he => he, h, fun _ _ hq => hq⟩
  | none =>
    refine ⟨⟨?_, ?_⟩, rfl, Nat.le_succ _, by simp, fun e he => List.mem_cons_of_mem _ he, by simp [cached], ?_⟩
    · intro q k hm
      rcases List.mem_cons.1 hm with e | hm'
      · cases e; exact ⟨rfl, Nat.lt_succ_self _⟩
      · obtain ⟨h1, h2⟩ := i.1 q k hm'
        exact ⟨h1, Nat.lt_succ_of_lt h2⟩
    · intro q q' k h1 h2
      rcases List.mem_cons.1 h1 with e1 | h1'
      · cases e1
        rcases List.mem_cons.1 h2 with e2 | h2'
        · cases e2; rfl
        · exact absurd (i.1 _ _ h2').2 (Nat.lt_irrefl _)
      · rcases List.mem_cons.1 h2 with e2 | h2'
        · cases e2; exact absurd (i.1 _ _ h1').2 (Nat.lt_irrefl _)
        · exact i.2 q q' k h1' h2'
    · intro q k hq
      have : q ≠ p := fun e => by rw [e, h] at hq; simp at hq
      simp only [cached, if_neg this, hq]

/-- Everything handed out is in the cache of a history without clearing, and was made here. -/
theorem calls_cached : ∀ (cs : List Call) (s : Proc), s.Inv → Call.clear ∉ cs →
    (∀ e ∈ (s.calls cs).1, cached e.1 (s.calls cs).2.cache = some e.2) ∧ (s.calls cs).2.Inv ∧ (s.calls cs).2.id = s.id ∧
      (∀ q k, cached q s.cache = some k → cached q (s.calls cs).2.cache = some k)
  | [], s, i, _ => ⟨fun e he => by simp [Proc.calls] at he, i, rfl, fun _ _ h => h⟩
  | .clear :: r, s, i, h => absurd (List.mem_cons_self ..) h
  | .keygen p :: r, s, i, h => by
    obtain ⟨i1, h1, _, _, _, h5, h6⟩ := i.keygen p
    obtain ⟨j1, j2, j3, j4⟩ := calls_cached r (s.keygen p).2 i1 (fun hm => h (List.mem_cons_of_mem _ hm))
    refine ⟨?_, j2, j3.trans h1, fun q k hq => j4 q k (h6 q k hq)⟩
    intro e he
    simp only [Proc.calls] at he
    rcases List.mem_cons.1 he with e1 | he'
    · subst e1; exact j4 _ _ h5
    · exact j1 e he'

theorem new_inv (id : Nat) : (Proc.new id).Inv := ⟨fun _ _ h => by simp [Proc.new] at h, fun _ _ _ h => by simp [Proc.new] at h⟩

/-- **C93** (violated) Two key generations with the same parameters in one process give the same key pair, whoever asks: in the
simulator, and on a worker serving several sessions, all of them can decrypt each other's values. -/
theorem keygen_shared_violated (id : Nat) (cs : List Call) (h : Call.clear ∉ cs) (p : Params) (k k' : KeyPair)
    (h1 : (p, k) ∈ ((Proc.new id).calls cs).1) (h2 : (p, k') ∈ ((Proc.new id).calls cs).1) : k = k' := by
  obtain ⟨a, _, _, _⟩ := calls_cached cs (Proc.new id) (new_inv id) h
  have e1 := a _ h1
  have e2 := a _ h2
  simp only at e1 e2
  rw [e1] at e2
  simpa using e2

/-- **C93** What holds: pairs for different parameters, or made in different processes, are different. -/
theorem keygen_distinct_partial (id id' : Nat) (cs cs' : List Call) (h : Call.clear ∉ cs) (h' : Call.clear ∉ cs') (p q : Params) (k k' : KeyPair)
    (h1 : (p, k) ∈ ((Proc.new id).calls cs).1) (h2 : (q, k') ∈ ((Proc.new id').calls cs').1) :
    (id ≠ id' → k ≠ k') ∧ (id = id' → cs = cs' → p ≠ q → k ≠ k') := by
  obtain ⟨a, i, e, _⟩ := calls_cached cs (Proc.new id) (new_inv id) h
  obtain ⟨a', i', e', _⟩ := calls_cached cs' (Proc.new id') (new_inv id') h'
  have m1 := cached_mem (a _ h1)
  have m2 := cached_mem (a' _ h2)
  constructor
  · intro hne heq
    have x1 := (i.1 _ _ m1).1
    have x2 := (i'.1 _ _ m2).1
    rw [e] at x1
    rw [e'] at x2
    simp only at x1 x2
    rw [heq, x2] at x1
    exact hne x1.symm
  · rintro rfl rfl hpq heq
    subst heq
    exact hpq (i.2 p q k m1 m2)

/-- **C93** Clearing the cache gives a new pair for the next generation. -/
theorem keygen_after_clear (id : Nat) (cs : List Call) (h : Call.clear ∉ cs) (p : Params) (k : KeyPair) (h1 : (p, k) ∈ ((Proc.new id).calls cs).1) :
    (({ ((Proc.new id).calls cs).2 with cache := [] } : Proc).keygen p).1 ≠ k := by
  obtain ⟨a, i, e, _⟩ := calls_cached cs (Proc.new id) (new_inv id) h
  have m1 := (i.1 _ _ (cached_mem (a _ h1))).2
  simp only [Proc.keygen, cached]
  intro heq
  rw [← heq] at m1
  exact absurd m1 (Nat.lt_irrefl _)

theorem calls_append (cs ds : List Call) : ∀ s : Proc,
    s.calls (cs ++ ds) = ((s.calls cs).1 ++ ((s.calls cs).2.calls ds).1, ((s.calls cs).2.calls ds).2) := by
  induction cs with
  | nil => intro s; simp [Proc.calls]
  | cons c cs ih =>
    intro s
    cases c with
    | keygen p => simp only [List.cons_append, Proc.calls, ih]
    | clear => simp only [List.cons_append, Proc.calls, ih]

/-- Serial numbers: everything cached or handed out was made before the end, and after the beginning if the cache was. -/
theorem calls_serial (cs : List Call) : ∀ (s : Proc) (m : Nat), m ≤ s.made → (∀ e ∈ s.cache, m ≤ e.2.serial ∧ e.2.serial < s.made) →
    s.made ≤ (s.calls cs).2.made ∧ (∀ e ∈ (s.calls cs).1, m ≤ e.2.serial ∧ e.2.serial < (s.calls cs).2.made) ∧
    ∀ e ∈ (s.calls cs).2.cache, e.2.serial < (s.calls cs).2.made := by
  induction cs with
  | nil => intro s m _ h; exact ⟨le_refl _, by simp [Proc.calls], fun e he => (h e he).2⟩
  | cons c cs ih =>
    intro s m hm h
    cases c with
    | clear =>
      have := ih { s with cache := [] } m hm (by simp)
      simpa only [Proc.calls] using this
    | keygen p =>
      simp only [Proc.calls]
      have key : s.made ≤ (s.keygen p).2.made ∧ (∀ e ∈ (s.keygen p).2.cache, m ≤ e.2.serial ∧ e.2.serial < (s.keygen p).2.made) ∧
          m ≤ (s.keygen p).1.serial ∧ (s.keygen p).1.serial < (s.keygen p).2.made := by
        unfold Proc.keygen
        cases hc : cached p s.cache with
        | some k => exact ⟨le_refl _, h, h _ (cached_mem hc)⟩
        | none =>
          refine ⟨Nat.le_succ _, ?_, hm, Nat.lt_succ_self _⟩
          intro e he
          rcases List.mem_cons.1 he with rfl | he
          · exact ⟨hm, Nat.lt_succ_self _⟩
          · exact ⟨(h e he).1, Nat.lt_succ_of_lt (h e he).2⟩
      obtain ⟨k1, k2, k3, k4⟩ := key
      obtain ⟨i1, i2, i3⟩ := ih (s.keygen p).2 m (le_trans hm k1) k2
      refine ⟨le_trans k1 i1, ?_, i3⟩
      intro e he
      rcases List.mem_cons.1 he with rfl | he
      · exact ⟨k3, lt_of_lt_of_le k4 i1⟩
      · exact i2 e he

/-- **C93** Clearing the cache separates: no pair handed out before it is handed out after it, in any history. -/
theorem clear_separates (id : Nat) (cs ds : List Call) :
    ∃ later, ((Proc.new id).calls (cs ++ .clear :: ds)).1 = ((Proc.new id).calls cs).1 ++ later ∧
      ∀ e ∈ ((Proc.new id).calls cs).1, ∀ f ∈ later, e.2 ≠ f.2 := by
  rw [calls_append]
  refine ⟨_, rfl, ?_⟩
  obtain ⟨_, h2, _⟩ := calls_serial cs (Proc.new id) 0 (Nat.zero_le _) (by simp [Proc.new])
  generalize ((Proc.new id).calls cs).2 = s at *
  intro e he f hf heq
  simp only [Proc.calls] at hf
  obtain ⟨_, k2, _⟩ := calls_serial ds { s with cache := [] } s.made (le_refl _) (by simp)
  have a := (h2 e he).2
  have b := (k2 f hf).1
  rw [heq] at a
  omega

/-- two parties of one simulation (the histories met by the theorems) -/
example : ((Proc.new 0).calls [.keygen (4096, 1032193), .keygen (8192, 1032193), .keygen (4096, 1032193)]).1
    = [((4096, 1032193), ⟨0, 0⟩), ((8192, 1032193), ⟨0, 1⟩), ((4096, 1032193), ⟨0, 0⟩)] := by decide

end Verif.Bfv
