import Verif.Comm.CollectiveProps
/-!
# C19 — static shuffle (backends/simp_worker/ops.py:81-105) over the network model
-/
namespace Verif.Simp
open Verif.Comm

section
variable {V A : Type}

/-- local values: `None` = the party does not hold the value -/
abbrev LV (V : Type) := Option V
/-- messages -/
abbrev SMsg (V : Type) := Msg (Option V)

/-- `for tgt, src in routing.items(): if src == my_rank and tgt != my_rank: ctx.send(tgt, data)` (ops.py:95-97) -/
def shuffleSends (rank : Nat) (data : LV V) : List (Nat × Nat) → Proc (SMsg V) A → Proc (SMsg V) A
  | [], k => k
  | (tgt, src) :: r, k =>
    if src = rank ∧ tgt ≠ rank then .send tgt (.val data) (shuffleSends rank data r k) else shuffleSends rank data r k

/-- A received message is used as the local value.  Messages of another form (lists, bools of collectives) cannot meet this
receive; they would be handed through by the code, here they stop the party. -/
def asLocal : SMsg V → Proc (SMsg V) (LV V)
  | .val x => .ret x
  | _ => .fail

/-- `_shuffle_static_worker_impl` (ops.py:81-105); `routing` is the python dict in insertion order -/
def shuffle (rank : Nat) (routing : List (Nat × Nat)) (data : LV V) : Proc (SMsg V) (LV V) :=
  shuffleSends rank data routing
    (match lookup rank routing with
     | some src => if src = rank then .ret data else .recv src asLocal
     | none => .ret none)

/-- Specification: what party `p` must hold after the shuffle. -/
def routed (routing : List (Nat × Nat)) (data : Nat → LV V) (p : Nat) : LV V :=
  match lookup p routing with
  | some src => data src
  | none => none

/-- a routing table: a dict (distinct targets) over the ranks `0..N-1` -/
structure Routing (N : Nat) (r : List (Nat × Nat)) : Prop where
  keys : (r.map Prod.fst).Nodup
  range : ∀ e ∈ r, e.1 < N ∧ e.2 < N

/-- two different parties exchange their values -/
def Swap (r : List (Nat × Nat)) (a b : Nat) : Prop := a ≠ b ∧ (a, b) ∈ r ∧ (b, a) ∈ r

theorem lookup_mem {r : List (Nat × Nat)} (hk : (r.map Prod.fst).Nodup) (t s : Nat) : lookup t r = some s ↔ (t, s) ∈ r := by
  induction r with
  | nil => simp [lookup]
  | cons e r ih =>
    obtain ⟨t', s'⟩ := e
    simp only [List.map_cons, List.nodup_cons] at hk
    simp only [lookup, List.mem_cons, Prod.mk.injEq]
    by_cases h : t' = t
    · subst h
      simp only [if_true, Option.some.injEq]
      constructor
      · intro h; exact .inl ⟨trivial, h.symm⟩
      · rintro (⟨_, h⟩ | h)
        · exact h.symm
        · exact absurd (List.mem_map.mpr ⟨_, h, rfl⟩) hk.1
    · simp only [h, if_false, ih hk.2]
      constructor
      · exact .inr
      · rintro (⟨h', _⟩ | h')
        · exact absurd h'.symm h
        · exact h'

/-! ## network states during a shuffle -/

/-- entries of `E` have been sent and delivered, those of `D` also received; `c` are the counters before the shuffle -/
def mid (c : Nat → Nat → Nat) (data : Nat → LV V) (Q : Nat → Proc (SMsg V) A) (E D : List (Nat × Nat)) : Net (SMsg V) A where
  proc := Q
  seq := fun p q => c p q + (if (q, p) ∈ E then 1 else 0) + (if (p, q) ∈ D then 1 else 0)
  slot := fun k => if (k.1, k.2.1) ∈ E ∧ (k.1, k.2.1) ∉ D ∧ k.2.2 = c k.2.1 k.1 then .ready (.val (data k.2.1)) else .empty

theorem mid_nil (c : Nat → Nat → Nat) (data : Nat → LV V) (Q : Nat → Proc (SMsg V) A) : mid c data Q [] [] = syncSt Q c := by
  simp [mid, syncSt]

theorem mid_congr (c : Nat → Nat → Nat) (data : Nat → LV V) (Q : Nat → Proc (SMsg V) A) {E E' D D' : List (Nat × Nat)}
    (h1 : ∀ x, x ∈ E ↔ x ∈ E') (h2 : ∀ x, x ∈ D ↔ x ∈ D') : mid c data Q E D = mid c data Q E' D' := by
  simp [mid, h1, h2]

theorem send_one {N : Nat} (c : Nat → Nat → Nat) (data : Nat → LV V) (Q : Nat → Proc (SMsg V) A) (E : List (Nat × Nat)) (p t : Nat)
    (hp : p < N) (ht : t < N) (hpt : t ≠ p) (K : Proc (SMsg V) A) (hQ : Q p = .send t (.val (data p)) K) (hE : (t, p) ∉ E) :
    Reach N (mid c data Q E []) (mid c data (upd Q p K) ((t, p) :: E) []) := by
  let s1 : Net (SMsg V) A := ⟨upd Q p K, upd (mid c data Q E []).seq p (upd ((mid c data Q E []).seq p) t ((mid c data Q E []).seq p t + 1)),
    upd (mid c data Q E []).slot (t, p, c p t) (.flying (.val (data p)))⟩
  have hseq : (mid c data Q E []).seq p t = c p t := by simp [mid, hE]
  have hslot : (mid c data Q E []).slot (t, p, c p t) = .empty := by simp [mid, hE]
  have e1 : step N (mid c data Q E []) (.run p) = some s1 := by
    have hproc : (mid c data Q E []).proc p = .send t (.val (data p)) K := hQ
    simp only [step, plan, hp, if_true, hproc, ht, hseq, hslot, Option.map_some, apply, s1]
    rfl
  have e2 : step N s1 (.deliver (t, p, c p t)) = some (mid c data (upd Q p K) ((t, p) :: E) []) := by
    simp only [step, plan, s1, upd_same, Option.map_some, apply, Option.some.injEq, upd_upd]
    simp only [mid, Net.mk.injEq, true_and]
    constructor
    · funext x y
      simp only [upd]
      by_cases hx : x = p
      · subst hx
        by_cases hy : y = t
        · subst hy; simp [upd, hE]
        · simp [upd, hy]
      · simp [hx]
    · funext k
      obtain ⟨k1, k2, k3⟩ := k
      simp only [upd, Prod.mk.injEq]
      by_cases h1 : k1 = t ∧ k2 = p
      · obtain ⟨rfl, rfl⟩ := h1
        by_cases h3 : k3 = c k2 k1
        · simp [h3]
        · simp [h3]
      · have : ¬ (k1 = t ∧ k2 = p ∧ k3 = c p t) := fun h => h1 ⟨h.1, h.2.1⟩
        simp only [this, if_false, List.mem_cons, Prod.mk.injEq, h1, false_or]
  exact reach_trans (reach_step _ e1) (reach_step _ e2)

theorem send_party {N : Nat} (c : Nat → Nat → Nat) (data : Nat → LV V) (r : List (Nat × Nat)) (hk : (r.map Prod.fst).Nodup)
    (hr : ∀ e ∈ r, e.1 < N ∧ e.2 < N) (Q : Nat → Proc (SMsg V) A) (E : List (Nat × Nat)) (p : Nat) (hp : p < N)
    (K : Proc (SMsg V) A) (hQ : Q p = shuffleSends p (data p) r K) (hE : ∀ t, (t, p) ∈ E → t ∉ r.map Prod.fst) :
    ∃ E', (∀ x, x ∈ E' ↔ x ∈ E ∨ (x ∈ r ∧ x.2 = p ∧ x.1 ≠ p)) ∧ Reach N (mid c data Q E []) (mid c data (upd Q p K) E' []) := by
  induction r generalizing Q E with
  | nil =>
    refine ⟨E, by simp, ?_⟩
    have : upd Q p K = Q := by
      have h0 : Q p = K := hQ
      rw [← h0, upd_id]
    rw [this]
    exact reach_refl N _
  | cons e r ih =>
    obtain ⟨t, s⟩ := e
    simp only [List.map_cons, List.nodup_cons] at hk
    simp only [shuffleSends] at hQ
    by_cases hc : s = p ∧ t ≠ p
    · rw [if_pos hc] at hQ
      obtain ⟨rfl, htp⟩ := hc
      have htE : (t, s) ∉ E := fun h => hE t h (by simp)
      have r1 := send_one c data Q E s t hp (hr (t, s) (by simp)).1 htp _ hQ htE
      obtain ⟨E', hE', r2⟩ := ih hk.2 (fun e he => hr e (by simp [he])) (upd Q s (shuffleSends s (data s) r K)) ((t, s) :: E)
        (upd_same _ _ _) (by
          intro t' ht'
          rcases List.mem_cons.mp ht' with h | h
          · simp only [Prod.mk.injEq, and_true] at h; subst h; exact hk.1
          · exact fun hm => hE t' h (by simp only [List.map_cons, List.mem_cons]; exact .inr hm))
      rw [upd_upd] at r2
      refine ⟨E', ?_, reach_trans r1 r2⟩
      intro x
      rw [hE' x]
      constructor
      · rintro (h | h)
        · rcases List.mem_cons.mp h with rfl | h
          · exact .inr ⟨by simp, rfl, htp⟩
          · exact .inl h
        · exact .inr ⟨by simp [h.1], h.2⟩
      · rintro (h | ⟨h, h1, h2⟩)
        · exact .inl (by simp [h])
        · rcases List.mem_cons.mp h with rfl | h
          · exact .inl (by simp)
          · exact .inr ⟨h, h1, h2⟩
    · rw [if_neg hc] at hQ
      obtain ⟨E', hE', r2⟩ := ih hk.2 (fun e he => hr e (by simp [he])) Q E hQ
        (fun t' ht' hm => hE t' ht' (by simp only [List.map_cons, List.mem_cons]; exact .inr hm))
      refine ⟨E', ?_, r2⟩
      intro x
      rw [hE' x]
      constructor
      · rintro (h | h)
        · exact .inl h
        · exact .inr ⟨by simp [h.1], h.2⟩
      · rintro (h | ⟨h, h1, h2⟩)
        · exact .inl h
        · rcases List.mem_cons.mp h with rfl | h
          · exact absurd ⟨h1, h2⟩ hc
          · exact .inr ⟨h, h1, h2⟩

/-- all parties in `ps` perform their sends -/
theorem send_all {N : Nat} (c : Nat → Nat → Nat) (data : Nat → LV V) (r : List (Nat × Nat)) (hr : Routing N r)
    (K : Nat → Proc (SMsg V) A) (ps : List Nat) (hn : ps.Nodup) (hps : ∀ p ∈ ps, p < N) (Q : Nat → Proc (SMsg V) A)
    (E : List (Nat × Nat)) (hQ : ∀ p ∈ ps, Q p = shuffleSends p (data p) r (K p)) (hE : ∀ p ∈ ps, ∀ t, (t, p) ∉ E) :
    ∃ E', (∀ x, x ∈ E' ↔ x ∈ E ∨ (x ∈ r ∧ x.2 ∈ ps ∧ x.1 ≠ x.2)) ∧
      Reach N (mid c data Q E []) (mid c data (fun p => if p ∈ ps then K p else Q p) E' []) := by
  induction ps generalizing Q E with
  | nil => exact ⟨E, by simp, by simpa using reach_refl N _⟩
  | cons p ps ih =>
    rw [List.nodup_cons] at hn
    obtain ⟨E1, h1, r1⟩ := send_party c data r hr.keys hr.range Q E p (hps p (by simp)) (K p) (hQ p (by simp))
      (fun t ht => absurd ht (hE p (by simp) t))
    obtain ⟨E2, h2, r2⟩ := ih hn.2 (fun x hx => hps x (by simp [hx])) (upd Q p (K p)) E1
      (fun x hx => by
        have hxp : x ≠ p := fun h => hn.1 (h ▸ hx)
        rw [upd_ne _ _ _ _ hxp]
        exact hQ x (by simp [hx]))
      (fun x hx t ht => by
        rcases (h1 _).mp ht with h | ⟨_, h, _⟩
        · exact hE x (by simp [hx]) t h
        · exact hn.1 (h ▸ hx))
    refine ⟨E2, ?_, reach_trans r1 ?_⟩
    · intro x
      rw [h2 x, h1 x]
      constructor
      · rintro ((h | ⟨a, b, d⟩) | ⟨a, b, d⟩)
        · exact .inl h
        · exact .inr ⟨a, by simp [b], by rw [b]; exact d⟩
        · exact .inr ⟨a, by simp [b], d⟩
      · rintro (h | ⟨a, b, d⟩)
        · exact .inl (.inl h)
        · rcases List.mem_cons.mp b with b | b
          · exact .inl (.inr ⟨a, b, by rw [← b]; exact d⟩)
          · exact .inr ⟨a, b, d⟩
    · convert r2 using 2
      funext x
      simp only [List.mem_cons, upd]
      by_cases hx : x = p
      · subst hx; simp [hn.1]
      · simp [hx]

theorem recv_one {N : Nat} (c : Nat → Nat → Nat) (hc : Symm c) (data : Nat → LV V) (Q : Nat → Proc (SMsg V) A) (E D : List (Nat × Nat)) (p s : Nat)
    (hp : p < N) (hps : p ≠ s) (K : SMsg V → Proc (SMsg V) A) (hQ : Q p = .recv s K) (hE : (p, s) ∈ E) (hE' : (s, p) ∉ E) (hD : (p, s) ∉ D) :
    Reach N (mid c data Q E D) (mid c data (upd Q p (K (.val (data s)))) E ((p, s) :: D)) := by
  have hseq : (mid c data Q E D).seq p s = c p s := by simp [mid, hE', hD]
  have hslot : (mid c data Q E D).slot (p, s, c p s) = .ready (.val (data s)) := by simp [mid, hE, hD, hc p s]
  apply reach_step (.run p)
  have hproc : (mid c data Q E D).proc p = .recv s K := hQ
  simp only [step, plan, hp, if_true, hproc, hseq, hslot, Option.map_some, apply, Option.some.injEq]
  simp only [mid, Net.mk.injEq, true_and]
  constructor
  · funext x y
    simp only [upd]
    by_cases hx : x = p
    · subst hx
      by_cases hy : y = s
      · subst hy; simp [upd, hE', hD]
      · simp [upd, hy]
    · simp [hx]
  · funext k
    obtain ⟨k1, k2, k3⟩ := k
    simp only [upd, Prod.mk.injEq]
    by_cases h1 : k1 = p ∧ k2 = s
    · obtain ⟨rfl, rfl⟩ := h1
      by_cases h3 : k3 = c k1 k2
      · simp [h3]
      · have : k3 ≠ c k2 k1 := by rw [hc k2 k1]; exact h3
        simp [h3, this]
    · have : ¬ (k1 = p ∧ k2 = s ∧ k3 = c p s) := fun h => h1 ⟨h.1, h.2.1⟩
      simp only [this, if_false, List.mem_cons, Prod.mk.injEq, h1, false_or]

/-- the parties in `ps` (targets of another party, not in a swap) receive -/
theorem recv_all {N : Nat} (c : Nat → Nat → Nat) (hc : Symm c) (data : Nat → LV V) (r : List (Nat × Nat)) (hr : Routing N r)
    (E : List (Nat × Nat)) (hE : ∀ x, x ∈ E ↔ x ∈ r ∧ x.1 ≠ x.2) (K : Nat → SMsg V → Proc (SMsg V) A)
    (ps : List Nat) (hn : ps.Nodup) (hps : ∀ p ∈ ps, p < N) (src : Nat → Nat)
    (hsrc : ∀ p ∈ ps, (p, src p) ∈ r ∧ p ≠ src p ∧ (src p, p) ∉ r)
    (Q : Nat → Proc (SMsg V) A) (D : List (Nat × Nat)) (hQ : ∀ p ∈ ps, Q p = .recv (src p) (K p))
    (hD : ∀ p ∈ ps, ∀ s, (p, s) ∉ D) :
    ∃ D', (∀ x, x ∈ D' ↔ x ∈ D ∨ (x ∈ E ∧ x.1 ∈ ps)) ∧
      Reach N (mid c data Q E D) (mid c data (fun p => if p ∈ ps then K p (.val (data (src p))) else Q p) E D') := by
  induction ps generalizing Q D with
  | nil => exact ⟨D, by simp, by simpa using reach_refl N _⟩
  | cons p ps ih =>
    rw [List.nodup_cons] at hn
    obtain ⟨s1, s2, s3⟩ := hsrc p (by simp)
    have r1 := recv_one c hc data Q E D p (src p) (hps p (by simp)) s2 (K p) (hQ p (by simp)) ((hE _).mpr ⟨s1, s2⟩)
      (fun h => s3 ((hE _).mp h).1) (hD p (by simp) _)
    obtain ⟨D2, h2, r2⟩ := ih hn.2 (fun x hx => hps x (by simp [hx])) (fun x hx => hsrc x (by simp [hx]))
      (upd Q p (K p (.val (data (src p))))) ((p, src p) :: D)
      (fun x hx => by
        have hxp : x ≠ p := fun h => hn.1 (h ▸ hx)
        rw [upd_ne _ _ _ _ hxp]
        exact hQ x (by simp [hx]))
      (fun x hx s hs => by
        rcases List.mem_cons.mp hs with h | h
        · simp only [Prod.mk.injEq] at h
          exact hn.1 (h.1 ▸ hx)
        · exact hD x (by simp [hx]) s h)
    refine ⟨D2, ?_, reach_trans r1 ?_⟩
    · intro x
      obtain ⟨x1, x2⟩ := x
      rw [h2]
      simp only [List.mem_cons, Prod.mk.injEq]
      constructor
      · rintro ((⟨rfl, rfl⟩ | h) | ⟨a, b⟩)
        · exact .inr ⟨(hE _).mpr ⟨s1, s2⟩, .inl rfl⟩
        · exact .inl h
        · exact .inr ⟨a, .inr b⟩
      · rintro (h | ⟨a, b | b⟩)
        · exact .inl (.inr h)
        · subst b
          have h1 := (lookup_mem hr.keys x1 x2).mpr ((hE _).mp a).1
          have h2 := (lookup_mem hr.keys x1 (src x1)).mpr s1
          rw [h1] at h2
          cases h2
          exact .inl (.inl ⟨rfl, rfl⟩)
        · exact .inr ⟨a, b⟩
    · convert r2 using 2
      funext x
      simp only [List.mem_cons, upd]
      by_cases hx : x = p
      · subst hx; simp [hn.1]
      · simp [hx]

/-! ## the whole shuffle -/

/-- what a party does after its sends (ops.py:99-105) -/
def shuffleTail (rank : Nat) (routing : List (Nat × Nat)) (data : LV V) : Proc (SMsg V) (LV V) :=
  match lookup rank routing with
  | some src => if src = rank then .ret data else .recv src asLocal
  | none => .ret none

theorem shuffleSends_bind {B : Type} (p : Nat) (d : LV V) (r : List (Nat × Nat)) (K : Proc (SMsg V) B) (k : B → Proc (SMsg V) A) :
    (shuffleSends p d r K).bind k = shuffleSends p d r (K.bind k) := by
  induction r with
  | nil => rfl
  | cons e r ih =>
    obtain ⟨t, s⟩ := e
    simp only [shuffleSends]
    split
    · simp [Proc.bind, ih]
    · exact ih

/-- party `p` waits for another party that does not wait for it -/
def waits (r : List (Nat × Nat)) (p : Nat) : Bool :=
  match lookup p r with
  | some s => decide (s ≠ p) && decide (lookup s r ≠ some p)
  | none => false

theorem waits_iff {r : List (Nat × Nat)} (p : Nat) : waits r p = true ↔ ∃ s, lookup p r = some s ∧ s ≠ p ∧ lookup s r ≠ some p := by
  unfold waits
  cases h : lookup p r with
  | none => simp
  | some s => simp

/-- what party `p` runs once everything that can be delivered has been -/
def final (N : Nat) (r : List (Nat × Nat)) (data : Nat → LV V) (k : Nat → LV V → Proc (SMsg V) A) (P : Nat → Proc (SMsg V) A) (p : Nat) : Proc (SMsg V) A :=
  if p < N then
    match lookup p r with
    | some s => if s ≠ p ∧ lookup s r = some p then .recv s (fun m => (asLocal m).bind (k p)) else k p (data s)
    | none => k p none
  else P p

theorem shuffle_run {N : Nat} (r : List (Nat × Nat)) (hr : Routing N r) (data : Nat → LV V) (k : Nat → LV V → Proc (SMsg V) A)
    (P : Nat → Proc (SMsg V) A) (c : Nat → Nat → Nat) (hc : Symm c) (hP : ∀ p, p < N → P p = (shuffle p r (data p)).bind (k p)) :
    ∃ E D, (∀ x, x ∈ E ↔ x ∈ r ∧ x.1 ≠ x.2) ∧ (∀ x, x ∈ D ↔ x ∈ E ∧ waits r x.1 = true) ∧
      Reach N (syncSt P c) (mid c data (final N r data k P) E D) := by
  obtain ⟨E, hE, r1⟩ := send_all c data r hr (fun p => (shuffleTail p r (data p)).bind (k p)) (List.range N) List.nodup_range
    (fun p hp => List.mem_range.mp hp) P [] (fun p hp => by
      rw [hP p (List.mem_range.mp hp), shuffle, shuffleSends_bind]; rfl) (by simp)
  have hE' : ∀ x, x ∈ E ↔ x ∈ r ∧ x.1 ≠ x.2 := by
    intro x
    rw [hE x]
    constructor
    · rintro (h | ⟨a, _, b⟩)
      · simp at h
      · exact ⟨a, b⟩
    · rintro ⟨a, b⟩
      exact .inr ⟨a, List.mem_range.mpr (hr.range x a).2, b⟩
  let ps := (List.range N).filter (waits r)
  have hps : ∀ p, p ∈ ps ↔ p < N ∧ waits r p = true := by simp [ps]
  obtain ⟨D, hD, r2⟩ := recv_all c hc data r hr E hE' (fun p m => (asLocal m).bind (k p)) ps (List.nodup_range.filter _)
    (fun p hp => ((hps p).mp hp).1) (fun p => (lookup p r).getD 0) (fun p hp => by
      obtain ⟨s, h1, h2, h3⟩ := (waits_iff p).mp ((hps p).mp hp).2
      simp only [h1, Option.getD_some]
      exact ⟨(lookup_mem hr.keys _ _).mp h1, Ne.symm h2, fun h => h3 ((lookup_mem hr.keys _ _).mpr h)⟩)
    (fun p => if p ∈ List.range N then (shuffleTail p r (data p)).bind (k p) else P p) []
    (fun p hp => by
      obtain ⟨h0, hw⟩ := (hps p).mp hp
      obtain ⟨s, h1, h2, h3⟩ := (waits_iff p).mp hw
      simp only [List.mem_range, h0, if_true, shuffleTail, h1, h2, if_false, Option.getD_some, Proc.bind])
    (by simp)
  refine ⟨E, D, hE', ?_, ?_⟩
  · intro x
    rw [hD x]
    constructor
    · rintro (h | ⟨a, b⟩)
      · simp at h
      · exact ⟨a, ((hps _).mp b).2⟩
    · rintro ⟨a, b⟩
      exact .inr ⟨a, (hps _).mpr ⟨(hr.range x ((hE' x).mp a).1).1, b⟩⟩
  · rw [← mid_nil c data P]
    refine reach_trans r1 ?_
    convert r2 using 2
    funext p
    simp only [final, hps, List.mem_range]
    by_cases hp : p < N
    · simp only [hp, if_true, true_and]
      cases hl : lookup p r with
      | none =>
        have : waits r p ≠ true := by simp [waits, hl]
        simp [this, shuffleTail, hl, Proc.bind]
      | some s =>
        by_cases hs : s = p
        · have : waits r p ≠ true := by simp [waits, hl, hs]
          subst hs
          simp [this, shuffleTail, hl, Proc.bind]
        · by_cases h2 : lookup s r = some p
          · have : waits r p ≠ true := by simp [waits, hl, h2]
            simp [this, shuffleTail, hl, hs, h2, Proc.bind]
          · have : waits r p = true := by simp [waits, hl, hs, h2]
            simp [this, h2, asLocal, Proc.bind]
    · simp [hp]

/-- a shuffle without exchanges, as a step of a longer program -/
theorem shuffle_reach {N : Nat} (r : List (Nat × Nat)) (hr : Routing N r) (hns : ∀ a b, ¬ Swap r a b) (data : Nat → LV V)
    (k : Nat → LV V → Proc (SMsg V) A) (P : Nat → Proc (SMsg V) A) (c : Nat → Nat → Nat) (hc : Symm c)
    (hP : ∀ p, p < N → P p = (shuffle p r (data p)).bind (k p)) :
    ∃ c', Symm c' ∧ Reach N (syncSt P c) (syncSt (fun p => if p < N then k p (routed r data p) else P p) c') := by
  obtain ⟨E, D, hE, hD, h⟩ := shuffle_run r hr data k P c hc hP
  have hDE : ∀ x, x ∈ D ↔ x ∈ E := by
    intro x
    rw [hD x]
    refine ⟨fun h => h.1, fun h => ⟨h, ?_⟩⟩
    obtain ⟨h1, h2⟩ := (hE x).mp h
    rw [waits_iff]
    refine ⟨x.2, (lookup_mem hr.keys _ _).mpr h1, Ne.symm h2, ?_⟩
    intro h3
    exact hns x.1 x.2 ⟨h2, h1, (lookup_mem hr.keys _ _).mp h3⟩
  refine ⟨fun p q => c p q + (if (q, p) ∈ E then 1 else 0) + (if (p, q) ∈ E then 1 else 0), ?_, ?_⟩
  · intro p q
    simp only [hc p q]
    omega
  · convert h using 1
    simp only [syncSt, mid, Net.mk.injEq]
    refine ⟨?_, ?_, ?_⟩
    · funext p
      simp only [final, routed]
      by_cases hp : p < N
      · simp only [hp, if_true]
        cases hl : lookup p r with
        | none => rfl
        | some s =>
          by_cases h2 : s ≠ p ∧ lookup s r = some p
          · exact absurd ⟨h2.1.symm, (lookup_mem hr.keys _ _).mp hl, (lookup_mem hr.keys _ _).mp h2.2⟩ (hns p s)
          · simp [h2]
      · simp [hp]
    · simp [hDE]
    · funext x
      simp [hDE]
      tauto

/-- **C19** (proved part: no two parties exchange values) For every routing table over the ranks and all data, in every
schedule of the parties and of the message deliveries, the shuffle ends at every party, nobody fails, and party `tgt` holds
the value of `routing[tgt]`; parties that are not a target hold nothing.  Missing for the full property: routings in which
two parties exchange their values, see `shuffle_swap_violated`. -/
theorem shuffle_delivers_partial (N : Nat) (r : List (Nat × Nat)) (hr : Routing N r) (hns : ∀ a b, ¬ Swap r a b) (data : Nat → LV V)
    (c : Nat → Nat → Nat) (hc : Symm c) :
    ∃ t, Always N (syncSt (fun p => shuffle p r (data p)) c) t ∧ ∀ p, p < N → t.proc p = .ret (routed r data p) := by
  have bind_ret : ∀ x : Proc (SMsg V) (LV V), x.bind (fun l => .ret l) = x := by
    intro x
    induction x with
    | ret a => rfl
    | send t m k ih => simp [Proc.bind, ih]
    | recv t k ih => simp [Proc.bind, ih]
    | fail => rfl
  obtain ⟨c', _, h⟩ := shuffle_reach r hr hns data (fun _ x => .ret x) (fun p => shuffle p r (data p)) c hc
    (fun p _ => (bind_ret _).symm)
  refine ⟨_, always_of_reach (wf_sync _ _) h (terminal_sync _ _ (fun p hp => .inl ⟨_, if_pos hp⟩)), ?_⟩
  intro p hp
  simp [syncSt, hp]

/-- two parties that exchange values never get past the shuffle, whatever they do afterwards -/
theorem shuffle_swap_stuck {A : Type} (N : Nat) (r : List (Nat × Nat)) (hr : Routing N r) (a b : Nat) (hs : Swap r a b) (data : Nat → LV V)
    (g : Nat → LV V → A) (P : Nat → Proc (SMsg V) A) (hP : ∀ p, p < N → P p = (shuffle p r (data p)).bind (fun x => .ret (g p x)))
    (c : Nat → Nat → Nat) (hc : Symm c) (ms : List Label) (u : Net (SMsg V) A)
    (hu : exec (step N) (syncSt P c) ms = some u) (x : A) : u.proc a ≠ .ret x := by
  obtain ⟨E, D, hE, hD, h⟩ := shuffle_run r hr data (fun p x => .ret (g p x)) P c hc hP
  have hsl : ∀ p s, p < N → lookup p r = some s → s ≠ p → lookup s r = some p →
      (mid (A := A) c data (final N r data (fun p x => .ret (g p x)) P) E D).slot
        (p, s, (mid (A := A) c data (final N r data (fun p x => .ret (g p x)) P) E D).seq p s) = .empty := by
    intro p s hp h1 h2 h3
    have m1 : (s, p) ∈ E := (hE _).mpr ⟨(lookup_mem hr.keys _ _).mp h3, h2⟩
    simp only [mid, m1, if_true]
    rw [if_neg]
    rintro ⟨_, _, h4⟩
    rw [hc s p] at h4
    omega
  have hterm : Terminal (step N) (mid (A := A) c data (final N r data (fun p x => .ret (g p x)) P) E D) := by
    intro l
    cases l with
    | deliver k =>
      simp only [step, plan, mid]
      split <;> simp_all
      split at * <;> simp_all
    | run p =>
      simp only [step, plan]
      by_cases hp : p < N
      · simp only [hp, if_true]
        cases hl : lookup p r with
        | none => simp [mid, final, hp, hl]
        | some s =>
          by_cases h2 : s ≠ p ∧ lookup s r = some p
          · have := hsl p s hp hl h2.1 h2.2
            have hproc : (mid (A := A) c data (final N r data (fun p x => .ret (g p x)) P) E D).proc p =
              .recv s (fun m => (asLocal m).bind (fun x => .ret (g p x))) := by simp [mid, final, hp, hl, h2]
            rw [hproc]
            simp [this]
          · have hproc : (mid (A := A) c data (final N r data (fun p x => .ret (g p x)) P) E D).proc p =
              .ret (g p (data s)) := by simp [mid, final, hp, hl, h2]
            rw [hproc]
            rfl
      · simp [hp]
  intro hret
  have hA := always_of_reach (wf_sync _ _) h hterm
  have := returns_unique hA a x ms u hu hret
  have ha := (hr.range _ hs.2.1).1
  simp [mid, final, ha, (lookup_mem hr.keys _ _).mpr hs.2.1, (lookup_mem hr.keys _ _).mpr hs.2.2, hs.1.symm] at this

/-- **C19 violated** Whenever the routing makes two parties exchange their values (for instance `{0: 1, 1: 0}`), neither of
them ever gets a result, in any schedule: both sides have used one number of the common counter for their send and wait for
the next one. -/
theorem shuffle_swap_violated (N : Nat) (r : List (Nat × Nat)) (hr : Routing N r) (a b : Nat) (hs : Swap r a b) (data : Nat → LV V)
    (c : Nat → Nat → Nat) (hc : Symm c) (ms : List Label) (u : Net (SMsg V) (LV V))
    (hu : exec (step N) (syncSt (fun p => shuffle p r (data p)) c) ms = some u) (x : LV V) : u.proc a ≠ .ret x := by
  have bind_ret : ∀ x : Proc (SMsg V) (LV V), x.bind (fun l => .ret l) = x := by
    intro x
    induction x with
    | ret a => rfl
    | send t m k ih => simp [Proc.bind, ih]
    | recv t k ih => simp [Proc.bind, ih]
    | fail => rfl
  exact shuffle_swap_stuck N r hr a b hs data (fun _ x => x) _ (fun p _ => (bind_ret _).symm) c hc ms u hu x

/-! Non-vacuity: a routing with a fixed point, a fan-out and a cycle of three. -/
example : Routing 5 [(0, 0), (1, 2), (2, 3), (3, 1), (4, 2)] := ⟨by decide, by decide⟩
example : ∀ a b, ¬ Swap [(0, 0), (1, 2), (2, 3), (3, 1), (4, 2)] a b := by
  rintro a b ⟨h1, h2, h3⟩
  simp at h2 h3
  omega
example : (List.range 6).map (routed [(0, 0), (1, 2), (2, 3), (3, 1), (4, 2)] (fun p => some (10 * p))) =
    [some 0, some 20, some 30, some 10, some 20, none] := by decide
example : Swap [(0, 1), (1, 0)] 0 1 := by simp [Swap]
end
end Verif.Simp
