import Verif.Crypto.Curve
import Mathlib.Tactic.Tauto
import Mathlib.Tactic.Ring
import Mathlib.Tactic.Abel
import Mathlib.Data.ZMod.Basic
import Mathlib.Algebra.Field.ZMod
/-!
# C95: curve programs compute in the curve group
-/
namespace Verif.Crypto.Curve

variable {A : Type} [AddCommGroup A] [DecidableEq A] {L : PointLib A}

theorem bind_ok {α β : Type} {x : Except Err α} {f : α → Except Err β} {b : β} :
    x >>= f = .ok b ↔ ∃ a, x = .ok a ∧ f a = .ok b := by
  cases x <;> simp [bind, Except.bind]

theorem pure_ok {α : Type} {a b : α} : (pure a : Except Err α) = .ok b ↔ a = b := by
  simp [pure, Except.pure]

/-! ### The group -/

theorem smul_mod (hL : L.Ok) (s : Int) (a : A) : (s % (L.N : Int)) • a = s • a := by
  have e : s • a = (s % (L.N : Int)) • a + ((s / (L.N : Int)) * (L.N : Int)) • a := by
    rw [← add_zsmul]; congr 1
    rw [mul_comm]; exact (Int.emod_add_mul_ediv s L.N).symm
  rw [e, mul_zsmul, natCast_zsmul, hL.order, zsmul_zero, add_zero]

theorem smul_ne (hL : L.Ok) {s : Int} {a : A} (ha : a ≠ 0) (hs : s % (L.N : Int) ≠ 0) : (s % (L.N : Int)) • a ≠ 0 := by
  have hp : (0 : Int) < L.N := by have := hL.pos; omega
  have h0 := Int.emod_nonneg s (Int.ne_of_gt hp)
  have h1 := Int.emod_lt_of_pos s hp
  have := hL.free a (s % (L.N : Int)).toNat ha (by omega) (by omega)
  rwa [← natCast_zsmul, Int.toNat_of_nonneg h0] at this

theorem pred_smul (hL : L.Ok) (a : A) : (L.N - 1) • a = -a := by
  have h : (L.N - 1) • a + a = 0 := by
    rw [← succ_nsmul, Nat.sub_add_cancel (by have := hL.pos; omega), hL.order]
  exact eq_neg_of_add_eq_zero_left h

theorem stands_wrap (hL : L.Ok) {a : A} (ha : a ≠ 0) : L.Stands a (L.wrap a) := .inl (hL.parse_fmt _ _ ha)

theorem key_ok {b : Bytes} {a : A} : L.key b = .ok a ↔ L.parse b = some a := by
  unfold PointLib.key
  cases L.parse b <;> simp

/-- A parsed point is the one it stands for. -/
theorem stands_key (hL : L.Ok) {b : Bytes} {a a' : A} (h : L.Stands a (some b)) (hk : L.key b = .ok a') : a' = a ∧ a ≠ 0 := by
  rw [key_ok] at hk
  rcases h with h | ⟨rfl, rfl⟩
  · rw [h] at hk; cases hk; exact ⟨rfl, hL.parse_ne _ _ h⟩
  · rw [hL.parse_zeros] at hk; cases hk

theorem mul_stands (hL : L.Ok) {a : A} {p r : Option Bytes} {s : Int} (hp : L.Stands a p) (h : L.mul p s = .ok r) :
    L.Stands (s • a) r := by
  unfold PointLib.mul at h
  dsimp only at h
  by_cases hs : s % (L.N : Int) = 0
  · rw [if_pos hs] at h; cases h
    show s • a = 0
    rw [← smul_mod hL, hs, zero_zsmul]
  · rw [if_neg hs] at h
    cases p with
    | none => cases h; show s • a = 0; rw [show a = 0 from hp, zsmul_zero]
    | some b =>
      rw [bind_ok] at h
      obtain ⟨a', ha', h⟩ := h
      obtain ⟨rfl, hne⟩ := stands_key hL hp ha'
      rw [pure_ok] at h; subst h
      have := stands_wrap hL (smul_ne hL hne hs)
      rwa [smul_mod hL] at this ⊢

theorem combine_ok {a b c : A} : L.combine a b = .ok c ↔ a + b ≠ 0 ∧ c = a + b := by
  unfold PointLib.combine
  by_cases h : a + b = 0
  · rw [if_pos h]; simp [h]
  · rw [if_neg h]
    constructor
    · intro e; cases e; exact ⟨h, rfl⟩
    · rintro ⟨_, rfl⟩; rfl

theorem add_stands (hL : L.Ok) {a a' : A} {p q r : Option Bytes} (hp : L.Stands a p) (hq : L.Stands a' q) (h : L.add p q = .ok r) :
    L.Stands (a + a') r := by
  cases p with
  | none =>
    cases h; rw [show a = 0 from hp, zero_add]; exact hq
  | some b =>
    cases q with
    | none => cases h; rw [show a' = 0 from hq, add_zero]; exact hp
    | some b' =>
      simp only [PointLib.add, bind_ok, pure_ok] at h
      obtain ⟨x, hx, y, hy, z, hz, rfl⟩ := h
      obtain ⟨rfl, _⟩ := stands_key hL hp hx
      obtain ⟨rfl, _⟩ := stands_key hL hq hy
      obtain ⟨hne, rfl⟩ := combine_ok.1 hz
      exact stands_wrap hL hne

theorem sub_stands (hL : L.Ok) {a a' : A} {p q r : Option Bytes} (hp : L.Stands a p) (hq : L.Stands a' q) (h : L.sub p q = .ok r) :
    L.Stands (a - a') r := by
  cases q with
  | none =>
    have e : r = p := by cases p <;> (cases h; rfl)
    rw [e, show a' = 0 from hq, sub_zero]; exact hp
  | some b' =>
    cases p with
    | none =>
      simp only [PointLib.sub, bind_ok, pure_ok] at h
      obtain ⟨y, hy, rfl⟩ := h
      obtain ⟨rfl, hne⟩ := stands_key hL hq hy
      rw [pred_smul hL, show a = 0 from hp, zero_sub]
      exact stands_wrap hL (neg_ne_zero.2 hne)
    | some b =>
      simp only [PointLib.sub, bind_ok, pure_ok] at h
      obtain ⟨y, hy, x, hx, z, hz, rfl⟩ := h
      obtain ⟨rfl, _⟩ := stands_key hL hp hx
      obtain ⟨rfl, _⟩ := stands_key hL hq hy
      obtain ⟨hne, rfl⟩ := combine_ok.1 hz
      rw [pred_smul hL] at hne ⊢
      rw [sub_eq_add_neg]
      exact stands_wrap hL hne

theorem toBytes_rep (hL : L.Ok) {a : A} {p : Option Bytes} {b : Bytes} (hp : L.Stands a p) (h : L.toBytes p = .ok b) :
    L.Rep (.enc a) (.bytes b) := by
  cases p with
  | none => cases h; exact .inl ⟨hp, rfl⟩
  | some c =>
    simp only [PointLib.toBytes, bind_ok, pure_ok] at h
    obtain ⟨x, hx, rfl⟩ := h
    obtain ⟨rfl, hne⟩ := stands_key hL hp hx
    exact .inr ⟨hne, rfl⟩

theorem ofBytes_stands (hL : L.Ok) {a : A} {b : Bytes} (h : L.Rep (.enc a) (.bytes b)) : L.Stands a (some b) := by
  rcases h with ⟨rfl, rfl⟩ | ⟨ha, rfl⟩
  · exact .inr ⟨rfl, rfl⟩
  · exact .inl (hL.parse_fmt _ _ ha)

/-! ### Environments -/

theorem rel_get {m : List (Mean A)} {env : List Val} (h : List.Forall₂ L.Rep m env) : ∀ (i : Nat),
    (∃ x v, m[i]? = some x ∧ env[i]? = some v ∧ L.Rep x v) ∨ (m[i]? = none ∧ env[i]? = none) := by
  induction h with
  | nil => intro i; exact .inr ⟨rfl, rfl⟩
  | cons hx _ ih =>
    intro i
    cases i with
    | zero => exact .inl ⟨_, _, rfl, rfl, hx⟩
    | succ i => simpa using ih i

theorem elem_at {m : List (Mean A)} {env : List Val} (h : List.Forall₂ L.Rep m env) {i : Nat} {a : A} (hi : m[i]? = some (.elem a)) :
    ∃ p, pointAt env i = .ok p ∧ L.Stands a p := by
  rcases rel_get h i with ⟨x, v, hx, hv, hr⟩ | ⟨hn, _⟩
  · rw [hi] at hx; cases hx
    cases v with
    | point p => exact ⟨p, by unfold pointAt; rw [hv], hr⟩
    | scalar s => exact hr.elim
    | bytes b => exact hr.elim
  · rw [hi] at hn; cases hn

theorem int_at {m : List (Mean A)} {env : List Val} (h : List.Forall₂ L.Rep m env) {i : Nat} {k : Int} (hi : m[i]? = some (.int k)) :
    scalarAt env i = .ok k := by
  rcases rel_get h i with ⟨x, v, hx, hv, hr⟩ | ⟨hn, _⟩
  · rw [hi] at hx; cases hx
    cases v with
    | point p => exact hr.elim
    | scalar s => unfold scalarAt; rw [hv]; rw [show s = k from hr]
    | bytes b => exact hr.elim
  · rw [hi] at hn; cases hn

theorem enc_at {m : List (Mean A)} {env : List Val} (h : List.Forall₂ L.Rep m env) {i : Nat} {a : A} (hi : m[i]? = some (.enc a)) :
    ∃ b, bytesAt env i = .ok b ∧ L.Rep (.enc a) (.bytes b) := by
  rcases rel_get h i with ⟨x, v, hx, hv, hr⟩ | ⟨hn, _⟩
  · rw [hi] at hx; cases hx
    cases v with
    | point p => exact hr.elim
    | scalar s => exact hr.elim
    | bytes b => exact ⟨b, by unfold bytesAt; rw [hv], hr⟩
  · rw [hi] at hn; cases hn

theorem any_at {m : List (Mean A)} {env : List Val} (h : List.Forall₂ L.Rep m env) {i : Nat} {x : Mean A} (hi : m[i]? = some x) :
    ∃ v, valAt env i = .ok v ∧ L.Rep x v := by
  rcases rel_get h i with ⟨x', v, hx, hv, hr⟩ | ⟨hn, _⟩
  · rw [hi] at hx; cases hx
    exact ⟨v, by unfold valAt; rw [hv], hr⟩
  · rw [hi] at hn; cases hn

/-! ### One operation -/

/-- Inversion of the specification, one case per operation. -/
theorem step_sound (hL : L.Ok) {m : List (Mean A)} {env : List Val} (h : List.Forall₂ L.Rep m env) {i : Instr} {x : Mean A} {v : Val}
    (hs : L.spec m i = some x) (hr : L.step env i = .ok v) : L.Rep x v := by
  cases i with
  | gen _ => cases hs; cases hr; exact stands_wrap hL hL.gen
  | mul p s =>
    simp only [PointLib.spec] at hs
    split at hs
    · next a k hp hk =>
      cases hs
      obtain ⟨p', hp', hst⟩ := elem_at h hp
      have hk' := int_at h hk
      simp only [PointLib.step, bind_ok, pure_ok] at hr
      obtain ⟨p1, e1, s1, e2, r, e3, rfl⟩ := hr
      rw [hp'] at e1; cases e1
      rw [hk'] at e2; cases e2
      exact mul_stands hL hst e3
    · cases hs
  | add p q =>
    simp only [PointLib.spec] at hs
    split at hs
    · next a b hp hq =>
      cases hs
      obtain ⟨p', hp', hst⟩ := elem_at h hp
      obtain ⟨q', hq', hsq⟩ := elem_at h hq
      simp only [PointLib.step, bind_ok, pure_ok] at hr
      obtain ⟨p1, e1, s1, e2, r, e3, rfl⟩ := hr
      rw [hp'] at e1; cases e1
      rw [hq'] at e2; cases e2
      exact add_stands hL hst hsq e3
    · cases hs
  | sub p q =>
    simp only [PointLib.spec] at hs
    split at hs
    · next a b hp hq =>
      cases hs
      obtain ⟨p', hp', hst⟩ := elem_at h hp
      obtain ⟨q', hq', hsq⟩ := elem_at h hq
      simp only [PointLib.step, bind_ok, pure_ok] at hr
      obtain ⟨p1, e1, s1, e2, r, e3, rfl⟩ := hr
      rw [hp'] at e1; cases e1
      rw [hq'] at e2; cases e2
      exact sub_stands hL hst hsq e3
    · cases hs
  | toBytes p =>
    simp only [PointLib.spec] at hs
    split at hs
    · next a hp =>
      cases hs
      obtain ⟨p', hp', hst⟩ := elem_at h hp
      simp only [PointLib.step, bind_ok, pure_ok] at hr
      obtain ⟨p1, e1, b, e3, rfl⟩ := hr
      rw [hp'] at e1; cases e1
      exact toBytes_rep hL hst e3
    · cases hs
  | ofBytes p =>
    simp only [PointLib.spec] at hs
    split at hs
    · next a hp =>
      cases hs
      obtain ⟨b', hb', hst⟩ := enc_at h hp
      simp only [PointLib.step, bind_ok, pure_ok] at hr
      obtain ⟨p1, e1, rfl⟩ := hr
      rw [hb'] at e1; cases e1
      exact ofBytes_stands hL hst
    · cases hs
  | randomScalar e _ => cases hs; cases hr; exact rfl
  | fromInt k _ => cases hs; cases hr; exact rfl
  | select c t f =>
    simp only [PointLib.spec] at hs
    split at hs
    · next k a b hc ht hf =>
      cases hs
      have hc' := int_at h hc
      obtain ⟨t', ht', hrt⟩ := any_at h ht
      obtain ⟨f', hf', hrf⟩ := any_at h hf
      simp only [PointLib.step, bind_ok, pure_ok] at hr
      obtain ⟨c1, e1, t1, e2, f1, e3, rfl⟩ := hr
      rw [hc'] at e1; cases e1
      rw [ht'] at e2; cases e2
      rw [hf'] at e3; cases e3
      by_cases hk : k ≠ 0
      · rw [if_pos hk, if_pos hk]; exact hrt
      · rw [if_neg hk, if_neg hk]; exact hrf
    · cases hs
  | wire p =>
    obtain ⟨v', hv', hrv⟩ := any_at h (show m[p]? = some x from hs)
    have e : L.step env (.wire p) = .ok v' := hv'
    rw [hr] at e; cases e
    exact hrv

theorem forall₂_snoc {m : List (Mean A)} {env : List Val} (h : List.Forall₂ L.Rep m env) {x : Mean A} {v : Val} (hx : L.Rep x v) :
    List.Forall₂ L.Rep (m ++ [x]) (env ++ [v]) := by
  induction h with
  | nil => exact .cons hx .nil
  | cons h1 _ ih => exact .cons h1 ih

/-- **C95** Whenever a curve program runs to the end, every value it computed is the one the same program computes in the group:
points stand for the group elements, scalars are the integers, byte tensors are the encodings. -/
theorem curve_program_sound (hL : L.Ok) (prog : List Instr) {m m' : List (Mean A)} {env env' : List Val}
    (h : List.Forall₂ L.Rep m env) (hs : L.specRun m prog = some m') (hr : L.run env prog = .ok env') : List.Forall₂ L.Rep m' env' := by
  induction prog generalizing m env with
  | nil => cases hs; cases hr; exact h
  | cons i is ih =>
    rw [PointLib.run, bind_ok] at hr
    obtain ⟨v, hv, hr⟩ := hr
    rw [PointLib.specRun] at hs
    split at hs
    · next x hx => exact ih (forall₂_snoc h (step_sound hL h hx hv)) hs hr
    · cases hs

/-! ### When a program runs to the end -/

/-- The operation does not add opposite points, nor subtract a point from itself. -/
def Clear (m : List (Mean A)) : Instr → Prop
  | .add p q => ∀ a b, m[p]? = some (.elem a) → m[q]? = some (.elem b) → a = 0 ∨ b = 0 ∨ a + b ≠ 0
  | .sub p q => ∀ a b, m[p]? = some (.elem a) → m[q]? = some (.elem b) → a = 0 ∨ b = 0 ∨ a ≠ b
  | _ => True

/-- The operation does not read the identity from bytes. -/
def Read (m : List (Mean A)) : Instr → Prop
  | .ofBytes b => m[b]? ≠ some (.enc 0)
  | _ => True

/-- `P` holds at each operation of a program. -/
def PointLib.Each (L : PointLib A) (P : List (Mean A) → Instr → Prop) : List (Mean A) → List Instr → Prop
  | _, [] => True
  | m, i :: is => P m i ∧ ∀ x, L.spec m i = some x → L.Each P (m ++ [x]) is

/-- The bytes of a point parse, and no point is kept as the zero bytes. -/
def PointLib.Rep' (L : PointLib A) : Mean A → Val → Prop
  | .elem a, .point none => a = 0
  | .elem a, .point (some b) => L.parse b = some a
  | .int k, .scalar s => s = k
  | .enc a, .bytes b => (a = 0 ∧ b = List.replicate 65 0) ∨ (a ≠ 0 ∧ b = L.fmt false a)
  | _, _ => False

theorem rep_of_rep' {x : Mean A} {v : Val} (h : L.Rep' x v) : L.Rep x v := by
  cases x with
  | elem a =>
    cases v with
    | point p =>
      cases p with
      | none => exact h
      | some b => exact .inl h
    | scalar s => exact h.elim
    | bytes b => exact h.elim
  | int k =>
    cases v with
    | scalar s => exact h
    | point p => cases p <;> exact h.elim
    | bytes b => exact h.elim
  | enc a =>
    cases v with
    | bytes b => exact h
    | point p => cases p <;> exact h.elim
    | scalar s => exact h.elim

theorem elem_at' {m : List (Mean A)} {env : List Val} (h : List.Forall₂ L.Rep' m env) {i : Nat} {a : A} (hi : m[i]? = some (.elem a)) :
    (a = 0 ∧ pointAt env i = .ok none) ∨ ∃ b, pointAt env i = .ok (some b) ∧ L.parse b = some a := by
  have h' : List.Forall₂ L.Rep m env := h.imp fun _ _ => rep_of_rep'
  obtain ⟨p, hp, _⟩ := elem_at h' hi
  have key : ∀ {m : List (Mean A)} {env : List Val} (_ : List.Forall₂ L.Rep' m env) (i : Nat) (v : Val), m[i]? = some (.elem a) →
      env[i]? = some v → L.Rep' (.elem a) v := by
    intro m env h
    induction h with
    | nil => intro i v h1; simp at h1
    | cons hx _ ih =>
      intro i v h1 h2
      cases i with
      | zero => cases h1; cases h2; exact hx
      | succ i => exact ih i v (by simpa using h1) (by simpa using h2)
  unfold pointAt at hp ⊢
  cases he : env[i]? with
  | none => rw [he] at hp; cases hp
  | some v =>
    have hv := key h i v hi he
    cases v with
    | point q =>
      cases q with
      | none => exact .inl ⟨hv, rfl⟩
      | some b => exact .inr ⟨b, rfl, hv⟩
    | scalar s => exact hv.elim
    | bytes b => exact hv.elim

theorem mul_runs (hL : L.Ok) {p : Option Bytes} {a : A} (hp : (a = 0 ∧ p = none) ∨ ∃ b, p = some b ∧ L.parse b = some a) (s : Int) :
    ∃ r, L.mul p s = .ok r ∧ L.Rep' (.elem (s • a)) (.point r) := by
  unfold PointLib.mul
  dsimp only
  by_cases hs : s % (L.N : Int) = 0
  · rw [if_pos hs]
    exact ⟨none, rfl, show s • a = 0 by rw [← smul_mod hL, hs, zero_zsmul]⟩
  · rw [if_neg hs]
    rcases hp with ⟨rfl, rfl⟩ | ⟨b, rfl, hb⟩
    · exact ⟨none, rfl, show s • (0 : A) = 0 by rw [zsmul_zero]⟩
    · refine ⟨L.wrap ((s % (L.N : Int)) • a), ?_, ?_⟩
      · rw [bind_ok]; exact ⟨a, key_ok.2 hb, rfl⟩
      · show L.parse (L.fmt true _) = some (s • a)
        rw [hL.parse_fmt _ _ (smul_ne hL (hL.parse_ne _ _ hb) hs), smul_mod hL]

theorem add_runs (hL : L.Ok) {p q : Option Bytes} {a a' : A} (hp : (a = 0 ∧ p = none) ∨ ∃ b, p = some b ∧ L.parse b = some a)
    (hq : (a' = 0 ∧ q = none) ∨ ∃ b, q = some b ∧ L.parse b = some a') :
    (∃ r, L.add p q = .ok r) ↔ (a = 0 ∨ a' = 0 ∨ a + a' ≠ 0) := by
  rcases hp with ⟨rfl, rfl⟩ | ⟨b, rfl, hb⟩
  · exact ⟨fun _ => .inl rfl, fun _ => ⟨q, rfl⟩⟩
  · rcases hq with ⟨rfl, rfl⟩ | ⟨b', rfl, hb'⟩
    · exact ⟨fun _ => .inr (.inl rfl), fun _ => ⟨_, rfl⟩⟩
    · have n1 := hL.parse_ne _ _ hb
      have n2 := hL.parse_ne _ _ hb'
      simp only [PointLib.add, bind_ok, pure_ok, key_ok, hb, hb', Option.some.injEq, combine_ok]
      constructor
      · rintro ⟨r, x, rfl, y, rfl, z, ⟨hz, _⟩, _⟩; exact .inr (.inr hz)
      · rintro (h | h | h)
        · exact absurd h n1
        · exact absurd h n2
        · exact ⟨_, _, rfl, _, rfl, _, ⟨h, rfl⟩, rfl⟩

theorem sub_runs (hL : L.Ok) {p q : Option Bytes} {a a' : A} (hp : (a = 0 ∧ p = none) ∨ ∃ b, p = some b ∧ L.parse b = some a)
    (hq : (a' = 0 ∧ q = none) ∨ ∃ b, q = some b ∧ L.parse b = some a') :
    (∃ r, L.sub p q = .ok r) ↔ (a = 0 ∨ a' = 0 ∨ a ≠ a') := by
  rcases hq with ⟨rfl, rfl⟩ | ⟨b', rfl, hb'⟩
  · exact ⟨fun _ => .inr (.inl rfl), fun _ => ⟨p, by cases p <;> rfl⟩⟩
  · rcases hp with ⟨rfl, rfl⟩ | ⟨b, rfl, hb⟩
    · refine ⟨fun _ => .inl rfl, fun _ => ?_⟩
      simp only [PointLib.sub, bind_ok, pure_ok, key_ok, hb', Option.some.injEq]
      exact ⟨_, _, rfl, rfl⟩
    · have n1 := hL.parse_ne _ _ hb
      have n2 := hL.parse_ne _ _ hb'
      simp only [PointLib.sub, bind_ok, pure_ok, key_ok, hb, hb', Option.some.injEq, combine_ok]
      constructor
      · rintro ⟨r, y, rfl, x, rfl, z, ⟨hz, _⟩, _⟩
        rw [pred_smul hL, ← sub_eq_add_neg, sub_ne_zero] at hz
        exact .inr (.inr hz)
      · rintro (h | h | h)
        · exact absurd h n1
        · exact absurd h n2
        · refine ⟨_, _, rfl, _, rfl, _, ⟨?_, rfl⟩, rfl⟩
          rw [pred_smul hL, ← sub_eq_add_neg, sub_ne_zero]; exact h

/-- A point the group operations returned is never the zero bytes. -/
theorem strong (hL : L.Ok) {a : A} {r : Option Bytes} (h : L.Stands a r) (hr : r ≠ some (List.replicate 65 0)) : L.Rep' (.elem a) (.point r) := by
  cases r with
  | none => exact h
  | some b =>
    rcases h with h | ⟨rfl, _⟩
    · exact h
    · exact absurd rfl hr

theorem wrap_ne (hL : L.Ok) {a : A} (ha : a ≠ 0) : L.wrap a ≠ some (List.replicate 65 0) := by
  intro h
  have := hL.parse_fmt true a ha
  rw [show L.fmt true a = (List.replicate 65 0) from Option.some.inj h, hL.parse_zeros] at this
  cases this

theorem at_ne (hL : L.Ok) {p : Option Bytes} {a : A} (hp : (a = 0 ∧ p = none) ∨ ∃ b, p = some b ∧ L.parse b = some a) : p ≠ some (List.replicate 65 0) := by
  rintro rfl
  rcases hp with ⟨_, h⟩ | ⟨b, h, hb⟩
  · cases h
  · cases h; rw [hL.parse_zeros] at hb; cases hb

theorem add_ne (hL : L.Ok) {p q r : Option Bytes} (hp : p ≠ some (List.replicate 65 0)) (hq : q ≠ some (List.replicate 65 0)) (h : L.add p q = .ok r) :
    r ≠ some (List.replicate 65 0) := by
  cases p with
  | none => cases h; exact hq
  | some b =>
    cases q with
    | none => cases h; exact hp
    | some b' =>
      simp only [PointLib.add, bind_ok, pure_ok] at h
      obtain ⟨x, hx, y, hy, z, hz, rfl⟩ := h
      obtain ⟨hne, rfl⟩ := combine_ok.1 hz
      exact wrap_ne hL hne

theorem sub_ne (hL : L.Ok) {p q r : Option Bytes} (hp : p ≠ some (List.replicate 65 0)) (h : L.sub p q = .ok r) : r ≠ some (List.replicate 65 0) := by
  cases q with
  | none => have e : r = p := by cases p <;> (cases h; rfl)
            rw [e]; exact hp
  | some b' =>
    cases p with
    | none =>
      simp only [PointLib.sub, bind_ok, pure_ok] at h
      obtain ⟨y, hy, rfl⟩ := h
      refine wrap_ne hL ?_
      rw [pred_smul hL]
      exact neg_ne_zero.2 (hL.parse_ne _ _ (key_ok.1 hy))
    | some b =>
      simp only [PointLib.sub, bind_ok, pure_ok] at h
      obtain ⟨y, hy, x, hx, z, hz, rfl⟩ := h
      obtain ⟨hne, rfl⟩ := combine_ok.1 hz
      exact wrap_ne hL hne

/-- One operation runs exactly when it is clear, and keeps points out of the zero bytes. -/
theorem step_runs (hL : L.Ok) {m : List (Mean A)} {env : List Val} (h : List.Forall₂ L.Rep' m env) {i : Instr} {x : Mean A}
    (hs : L.spec m i = some x) (hread : Read m i) :
    ((∃ v, L.step env i = .ok v) ↔ Clear m i) ∧ ∀ v, L.step env i = .ok v → L.Rep' x v := by
  have h' : List.Forall₂ L.Rep m env := h.imp fun _ _ => rep_of_rep'
  have pt : ∀ {j : Nat} {a : A}, m[j]? = some (.elem a) →
      ∃ p, pointAt env j = .ok p ∧ ((a = 0 ∧ p = none) ∨ ∃ b, p = some b ∧ L.parse b = some a) := by
    intro j a hj
    rcases elem_at' h hj with ⟨ha, hp⟩ | ⟨b, hp, hb⟩
    · exact ⟨none, hp, .inl ⟨ha, rfl⟩⟩
    · exact ⟨some b, hp, .inr ⟨b, rfl, hb⟩⟩
  have anyv : ∀ {j : Nat} {y : Mean A}, m[j]? = some y → ∃ v, valAt env j = .ok v ∧ L.Rep' y v := by
    have key : ∀ {m : List (Mean A)} {env : List Val} (_ : List.Forall₂ L.Rep' m env) (j : Nat) (y : Mean A), m[j]? = some y →
        ∃ v, env[j]? = some v ∧ L.Rep' y v := by
      intro m env h
      induction h with
      | nil => intro j y h1; simp at h1
      | cons hx _ ih =>
        intro j y h1
        cases j with
        | zero => cases h1; exact ⟨_, rfl, hx⟩
        | succ j => simpa using ih j y (by simpa using h1)
    intro j y hj
    obtain ⟨v, hv, hr⟩ := key h j y hj
    exact ⟨v, by unfold valAt; rw [hv], hr⟩
  cases i with
  | gen _ =>
    cases hs
    refine ⟨⟨fun _ => trivial, fun _ => ⟨_, rfl⟩⟩, fun v hv => ?_⟩
    cases hv; exact hL.parse_fmt _ _ hL.gen
  | mul p s =>
    simp only [PointLib.spec] at hs
    split at hs
    · next a k hp hk =>
      cases hs
      obtain ⟨p', hp', hst⟩ := pt hp
      have hk' := int_at h' hk
      obtain ⟨r, hr, hrep⟩ := mul_runs hL hst k
      have e : L.step env (.mul p s) = .ok (.point r) := by
        simp only [PointLib.step, bind_ok, pure_ok]; exact ⟨_, hp', _, hk', _, hr, rfl⟩
      exact ⟨⟨fun _ => trivial, fun _ => ⟨_, e⟩⟩, fun v hv => by rw [e] at hv; cases hv; exact hrep⟩
    · cases hs
  | add p q =>
    simp only [PointLib.spec] at hs
    split at hs
    · next a b hp hq =>
      cases hs
      obtain ⟨p', hp', hst⟩ := pt hp
      obtain ⟨q', hq', hsq⟩ := pt hq
      have hrun : (∃ v, L.step env (.add p q) = .ok v) ↔ ∃ r, L.add p' q' = .ok r := by
        simp only [PointLib.step, bind_ok, pure_ok]
        constructor
        · rintro ⟨v, p1, e1, q1, e2, r, e3, _⟩
          rw [hp'] at e1; cases e1; rw [hq'] at e2; cases e2; exact ⟨r, e3⟩
        · rintro ⟨r, hr⟩; exact ⟨_, _, hp', _, hq', _, hr, rfl⟩
      refine ⟨?_, fun v hv => ?_⟩
      · rw [hrun, add_runs hL hst hsq]
        unfold Clear
        constructor
        · intro hc a1 b1 h1 h2; rw [hp] at h1; cases h1; rw [hq] at h2; cases h2; exact hc
        · intro hc; exact hc _ _ hp hq
      · have h1 := step_sound hL h' (i := .add p q) (x := .elem (a + b)) (by simp only [PointLib.spec, hp, hq]) hv
        simp only [PointLib.step, bind_ok, pure_ok] at hv
        obtain ⟨p1, e1, q1, e2, r, e3, rfl⟩ := hv
        rw [hp'] at e1; cases e1; rw [hq'] at e2; cases e2
        exact strong hL h1 (add_ne hL (at_ne hL hst) (at_ne hL hsq) e3)
    · cases hs
  | sub p q =>
    simp only [PointLib.spec] at hs
    split at hs
    · next a b hp hq =>
      cases hs
      obtain ⟨p', hp', hst⟩ := pt hp
      obtain ⟨q', hq', hsq⟩ := pt hq
      have hrun : (∃ v, L.step env (.sub p q) = .ok v) ↔ ∃ r, L.sub p' q' = .ok r := by
        simp only [PointLib.step, bind_ok, pure_ok]
        constructor
        · rintro ⟨v, p1, e1, q1, e2, r, e3, _⟩
          rw [hp'] at e1; cases e1; rw [hq'] at e2; cases e2; exact ⟨r, e3⟩
        · rintro ⟨r, hr⟩; exact ⟨_, _, hp', _, hq', _, hr, rfl⟩
      refine ⟨?_, fun v hv => ?_⟩
      · rw [hrun, sub_runs hL hst hsq]
        unfold Clear
        constructor
        · intro hc a1 b1 h1 h2; rw [hp] at h1; cases h1; rw [hq] at h2; cases h2; exact hc
        · intro hc; exact hc _ _ hp hq
      · have h1 := step_sound hL h' (i := .sub p q) (x := .elem (a - b)) (by simp only [PointLib.spec, hp, hq]) hv
        simp only [PointLib.step, bind_ok, pure_ok] at hv
        obtain ⟨p1, e1, q1, e2, r, e3, rfl⟩ := hv
        rw [hp'] at e1; cases e1; rw [hq'] at e2; cases e2
        exact strong hL h1 (sub_ne hL (at_ne hL hst) e3)
    · cases hs
  | toBytes p =>
    simp only [PointLib.spec] at hs
    split at hs
    · next a hp =>
      cases hs
      obtain ⟨p', hp', hst⟩ := pt hp
      have : ∃ b, L.toBytes p' = .ok b := by
        rcases hst with ⟨rfl, rfl⟩ | ⟨b, rfl, hb⟩
        · exact ⟨_, rfl⟩
        · simp only [PointLib.toBytes, bind_ok, pure_ok]
          exact ⟨_, _, key_ok.2 hb, rfl⟩
      obtain ⟨b, hb⟩ := this
      have e : L.step env (.toBytes p) = .ok (.bytes b) := by
        simp only [PointLib.step, bind_ok, pure_ok]; exact ⟨_, hp', _, hb, rfl⟩
      have h1 := step_sound hL h' (i := .toBytes p) (x := .enc a) (by simp only [PointLib.spec, hp]) e
      exact ⟨⟨fun _ => trivial, fun _ => ⟨_, e⟩⟩, fun v hv => by rw [e] at hv; cases hv; exact h1⟩
    · cases hs
  | ofBytes p =>
    simp only [PointLib.spec] at hs
    split at hs
    · next a hp =>
      cases hs
      obtain ⟨b', hb', hst⟩ := enc_at h' hp
      have e : L.step env (.ofBytes p) = .ok (.point (some b')) := by
        simp only [PointLib.step, bind_ok, pure_ok]; exact ⟨_, hb', rfl⟩
      refine ⟨⟨fun _ => trivial, fun _ => ⟨_, e⟩⟩, fun v hv => ?_⟩
      rw [e] at hv; cases hv
      rcases hst with ⟨rfl, _⟩ | ⟨ha, rfl⟩
      · exact absurd hp hread
      · exact hL.parse_fmt _ _ ha
    · cases hs
  | randomScalar e _ =>
    cases hs
    exact ⟨⟨fun _ => trivial, fun _ => ⟨_, rfl⟩⟩, fun v hv => by cases hv; exact rfl⟩
  | fromInt k _ =>
    cases hs
    exact ⟨⟨fun _ => trivial, fun _ => ⟨_, rfl⟩⟩, fun v hv => by cases hv; exact rfl⟩
  | select c t f =>
    simp only [PointLib.spec] at hs
    split at hs
    · next k a b hc ht hf =>
      cases hs
      have hc' := int_at h' hc
      obtain ⟨t', ht', hrt⟩ := anyv ht
      obtain ⟨f', hf', hrf⟩ := anyv hf
      have e : L.step env (.select c t f) = .ok (if k ≠ 0 then t' else f') := by
        simp only [PointLib.step, bind_ok, pure_ok]; exact ⟨_, hc', _, ht', _, hf', rfl⟩
      refine ⟨⟨fun _ => trivial, fun _ => ⟨_, e⟩⟩, fun v hv => ?_⟩
      rw [e] at hv; cases hv
      by_cases hk : k ≠ 0
      · rw [if_pos hk, if_pos hk]; exact hrt
      · rw [if_neg hk, if_neg hk]; exact hrf
    · cases hs
  | wire p =>
    obtain ⟨v', hv', hrv⟩ := anyv (show m[p]? = some x from hs)
    have e : L.step env (.wire p) = .ok v' := hv'
    exact ⟨⟨fun _ => trivial, fun _ => ⟨_, e⟩⟩, fun v hv => by rw [e] at hv; cases hv; exact hrv⟩

theorem rep'_snoc {m : List (Mean A)} {env : List Val} (h : List.Forall₂ L.Rep' m env) {x : Mean A} {v : Val} (hx : L.Rep' x v) :
    List.Forall₂ L.Rep' (m ++ [x]) (env ++ [v]) := by
  induction h with
  | nil => exact .cons hx .nil
  | cons h1 _ ih => exact .cons h1 ih

/-- **C95** A well-formed program that never reads the identity from bytes runs to the end exactly when none of its additions has
opposite operands and none of its subtractions equal ones (the identity excepted). -/
theorem curve_program_runs_iff (hL : L.Ok) (prog : List Instr) {m m' : List (Mean A)} {env : List Val}
    (h : List.Forall₂ L.Rep' m env) (hs : L.specRun m prog = some m') (hread : L.Each Read m prog) :
    (∃ env', L.run env prog = .ok env') ↔ L.Each Clear m prog := by
  induction prog generalizing m env with
  | nil => exact ⟨fun _ => trivial, fun _ => ⟨env, rfl⟩⟩
  | cons i is ih =>
    rw [PointLib.specRun] at hs
    split at hs
    · next x hx =>
      obtain ⟨hr1, hr2⟩ := hread
      obtain ⟨hiff, hrep⟩ := step_runs hL h hx hr1
      simp only [PointLib.run, bind_ok]
      constructor
      · rintro ⟨env', v, hv, hrun⟩
        refine ⟨hiff.1 ⟨v, hv⟩, fun x' hx' => ?_⟩
        rw [hx] at hx'; cases hx'
        exact (ih (rep'_snoc h (hrep v hv)) hs (hr2 _ hx)).1 ⟨_, hrun⟩
      · rintro ⟨hc, hrest⟩
        obtain ⟨v, hv⟩ := hiff.2 hc
        obtain ⟨env', he⟩ := (ih (rep'_snoc h (hrep v hv)) hs (hr2 _ hx)).2 (hrest _ hx)
        exact ⟨env', v, hv, he⟩
    · cases hs

/-! ### A library meeting the contract, and where the claim fails -/

/-- A toy curve: the group of seven elements, points written as one byte and 32 or 64 zero bytes. -/
def toy : PointLib (ZMod 7) where
  N := 7
  G := 1
  parse := fun b =>
    match b with
    | [] => none
    | x :: rest =>
      if x.toNat % 7 ≠ 0 ∧ x.toNat < 7 ∧ (rest = List.replicate 32 0 ∨ rest = List.replicate 64 0) then some (x.toNat : ZMod 7) else none
  fmt := fun c a => UInt8.ofNat a.val :: List.replicate (if c then 32 else 64) 0

theorem toy_ok : toy.Ok where
  pos := by decide
  order := by decide
  free := by
    intro a s ha h0 h1
    have h7 : s < 7 := h1
    have : ∀ a : ZMod 7, ∀ s : Fin 7, a ≠ 0 → 0 < s.val → s.val • a ≠ 0 := by decide
    exact this a ⟨s, h7⟩ ha h0
  gen := by decide
  parse_fmt := by decide
  parse_ne := by
    intro b a h
    cases b with
    | nil => cases h
    | cons x rest =>
      simp only [toy] at h
      split at h
      · next hc =>
        cases h
        intro h0
        have := (ZMod.natCast_eq_zero_iff x.toNat 7).1 h0
        omega
      · cases h
  parse_zeros := by decide
  fmt_len := by decide

/-- `2·G + 3·G - G`, sent as bytes, times 5. -/
def toyProg : List Instr :=
  [.gen "secp256k1", .fromInt 2 "secp256k1", .fromInt 3 "secp256k1", .mul 0 1, .mul 0 2, .add 3 4, .sub 5 0, .toBytes 6, .wire 7, .ofBytes 8, .fromInt 5 "secp256k1", .mul 9 10]

example : ∃ m env, toy.specRun [] toyProg = some m ∧ toy.run [] toyProg = .ok env ∧ List.Forall₂ toy.Rep m env ∧
    env[11]? = some (.point (some (toy.fmt true 6))) := by
  have hs : ∃ m, toy.specRun [] toyProg = some m := ⟨_, rfl⟩
  have hr : ∃ env, toy.run [] toyProg = .ok env ∧ env[11]? = some (.point (some (toy.fmt true 6))) := by
    have : (match toy.run [] toyProg with | .ok env => decide (env[11]? = some (.point (some (toy.fmt true 6)))) | .error _ => false) = true := by
      decide +kernel
    split at this
    · next env h => exact ⟨env, h, of_decide_eq_true this⟩
    · cases this
  obtain ⟨m, hm⟩ := hs
  obtain ⟨env, he, h11⟩ := hr
  exact ⟨m, env, hm, he, curve_program_sound toy_ok toyProg .nil hm he, h11⟩

/-- **C95** A point minus itself is the identity in the group; `ec_sub` raises. -/
theorem sub_self_violated : ∃ (B : Type) (_ : AddCommGroup B) (_ : DecidableEq B) (L : PointLib B), L.Ok ∧
    L.specRun [] [.gen "secp256k1", .sub 0 0] = some [.elem L.G, .elem (L.G - L.G)] ∧ L.run [] [.gen "secp256k1", .sub 0 0] = .error .infinity :=
  ⟨ZMod 7, inferInstance, inferInstance, toy, toy_ok, rfl, by decide +kernel⟩

/-- **C95** The identity written to bytes and read back is no usable point: its bytes cannot be written again. -/
theorem identity_bytes_violated : ∃ (B : Type) (_ : AddCommGroup B) (_ : DecidableEq B) (L : PointLib B), L.Ok ∧
    (∃ m, L.specRun [] [.gen "secp256k1", .fromInt 0 "secp256k1", .mul 0 1, .toBytes 2, .ofBytes 3, .toBytes 4] = some m) ∧
    L.run [] [.gen "secp256k1", .fromInt 0 "secp256k1", .mul 0 1, .toBytes 2, .ofBytes 3, .toBytes 4] = .error .badPoint :=
  ⟨ZMod 7, inferInstance, inferInstance, toy, toy_ok, ⟨_, rfl⟩, by decide +kernel⟩

/-! ### Declared types -/

/-- **C95** What the type rules accept: anything with a curve name serves as a point, the other operand is not looked at, and the
result carries the first operand's curve. -/
theorem curve_types_iff (Γ : List Ty) (p q : Nat) (t : Ty) :
    (tyStep Γ (.mul p q) = some t ↔ ∃ a b c, Γ[p]? = some a ∧ Γ[q]? = some b ∧ a.curve = some c ∧ t = .point c) ∧
    (tyStep Γ (.add p q) = some t ↔ ∃ a b c, Γ[p]? = some a ∧ Γ[q]? = some b ∧ a.curve = some c ∧ t = .point c) ∧
    (tyStep Γ (.sub p q) = some t ↔ ∃ a b c, Γ[p]? = some a ∧ Γ[q]? = some b ∧ a.curve = some c ∧ t = .point c) := by
  have key : ∀ (x y : Option Ty), pairTy x y = some t ↔ ∃ a b c, x = some a ∧ y = some b ∧ a.curve = some c ∧ t = .point c := by
    intro x y
    unfold pairTy
    cases x with
    | none => simp
    | some a =>
      cases y with
      | none => simp
      | some b =>
        cases h : a.curve with
        | none => simp [h]
        | some c =>
          simp only [h, Option.map_some, Option.some.injEq]
          constructor
          · rintro rfl; exact ⟨a, b, c, rfl, rfl, h, rfl⟩
          · rintro ⟨a', b', c', rfl, rfl, h', rfl⟩; rw [h] at h'; cases h'; rfl
  exact ⟨key _ _, key _ _, key _ _⟩

/-- **C95** Points declared on different curves may be added, and every curve's generator is the same value. -/
theorem curve_mixed_violated (L : PointLib A) :
    tyRun [] [.gen "secp256k1", .gen "ed25519", .add 0 1] = some [.point "secp256k1", .point "ed25519", .point "secp256k1"] ∧
    ∀ c c' : String, L.run [] [.gen c] = L.run [] [.gen c'] :=
  ⟨rfl, fun _ _ => rfl⟩

/-- **C95** Two scalars may be added as points; the run raises. -/
theorem scalar_as_point_violated (L : PointLib A) (k k' : Int) :
    tyRun [] [.fromInt k "secp256k1", .fromInt k' "secp256k1", .add 0 1] = some [.scalar "secp256k1", .scalar "secp256k1", .point "secp256k1"] ∧
    L.run [] [.fromInt k "secp256k1", .fromInt k' "secp256k1", .add 0 1] = .error .type :=
  ⟨rfl, rfl⟩

/-- The kind of value a type describes. -/
def Fits : Ty → Mean A → Prop
  | .point _, .elem _ => True
  | .scalar _, .int _ => True
  | .u8 n, .enc _ => n = 65
  | _, _ => False

/-- The two branches of a `select` are of one kind. -/
def Same (m : List (Mean A)) : Instr → Prop
  | .select _ t f => ∀ a b, m[t]? = some a → m[f]? = some b → ∀ τ, Fits τ a ↔ Fits τ b
  | _ => True

theorem fits_get {Γ : List Ty} {m : List (Mean A)} (h : List.Forall₂ Fits Γ m) : ∀ (i : Nat) (x : Mean A), m[i]? = some x →
    ∃ τ, Γ[i]? = some τ ∧ Fits τ x := by
  induction h with
  | nil => intro i x h1; simp at h1
  | cons hx _ ih =>
    intro i x h1
    cases i with
    | zero => cases h1; exact ⟨_, rfl, hx⟩
    | succ i => simpa using ih i x (by simpa using h1)

theorem fits_elem {τ : Ty} {a : A} (h : Fits τ (.elem a)) : ∃ c, τ = .point c := by
  cases τ with
  | point c => exact ⟨c, rfl⟩
  | scalar c => exact h.elim
  | u8 n => exact h.elim

theorem step_fits {Γ : List Ty} {m : List (Mean A)} (h : List.Forall₂ Fits Γ m) {i : Instr} {x : Mean A} (hs : L.spec m i = some x)
    (hsame : Same m i) : ∃ τ, tyStep Γ i = some τ ∧ Fits τ x := by
  have two : ∀ {p q : Nat} {a : A} {y : Mean A}, m[p]? = some (.elem a) → m[q]? = some y →
      ∃ c, pairTy Γ[p]? Γ[q]? = some (.point c) := by
    intro p q a y hp hq
    obtain ⟨τ, h1, h2⟩ := fits_get h p _ hp
    obtain ⟨τ', h3, _⟩ := fits_get h q _ hq
    obtain ⟨c, rfl⟩ := fits_elem h2
    exact ⟨c, by rw [h1, h3]; rfl⟩
  cases i with
  | gen c => cases hs; exact ⟨_, rfl, trivial⟩
  | mul p s =>
    simp only [PointLib.spec] at hs
    split at hs
    · next a k hp hk => cases hs; obtain ⟨c, hc⟩ := two hp hk; exact ⟨_, hc, trivial⟩
    · cases hs
  | add p s =>
    simp only [PointLib.spec] at hs
    split at hs
    · next a k hp hk => cases hs; obtain ⟨c, hc⟩ := two hp hk; exact ⟨_, hc, trivial⟩
    · cases hs
  | sub p s =>
    simp only [PointLib.spec] at hs
    split at hs
    · next a k hp hk => cases hs; obtain ⟨c, hc⟩ := two hp hk; exact ⟨_, hc, trivial⟩
    · cases hs
  | toBytes p =>
    simp only [PointLib.spec] at hs
    split at hs
    · next a hp =>
      cases hs
      obtain ⟨τ, h1, _⟩ := fits_get h p _ hp
      exact ⟨.u8 65, by simp only [tyStep, h1, Option.map_some], rfl⟩
    · cases hs
  | ofBytes p =>
    simp only [PointLib.spec] at hs
    split at hs
    · next a hp =>
      cases hs
      obtain ⟨τ, h1, _⟩ := fits_get h p _ hp
      exact ⟨.point "secp256k1", by simp only [tyStep, h1, Option.map_some], trivial⟩
    · cases hs
  | randomScalar e c => cases hs; exact ⟨_, rfl, trivial⟩
  | fromInt k c => cases hs; exact ⟨_, rfl, trivial⟩
  | select c t f =>
    simp only [PointLib.spec] at hs
    split at hs
    · next k a b hc ht hf =>
      cases hs
      obtain ⟨τc, h1, _⟩ := fits_get h c _ hc
      obtain ⟨τt, h2, ft⟩ := fits_get h t _ ht
      obtain ⟨τf, h3, _⟩ := fits_get h f _ hf
      refine ⟨τt, by simp only [tyStep, h1, h2, h3], ?_⟩
      by_cases hk : k ≠ 0
      · rw [if_pos hk]; exact ft
      · rw [if_neg hk]; exact (hsame _ _ ht hf τt).1 ft
    · cases hs
  | wire p =>
    obtain ⟨τ, h1, h2⟩ := fits_get h p _ (show m[p]? = some x from hs)
    exact ⟨τ, h1, h2⟩

theorem fits_snoc {Γ : List Ty} {m : List (Mean A)} (h : List.Forall₂ Fits Γ m) {τ : Ty} {x : Mean A} (hx : Fits τ x) :
    List.Forall₂ Fits (Γ ++ [τ]) (m ++ [x]) := by
  induction h with
  | nil => exact .cons hx .nil
  | cons h1 _ ih => exact .cons h1 ih

/-- **C95** A well-formed program whose `select`s choose between values of one kind is accepted by the type rules, and the declared
type of each value describes it. -/
theorem curve_types_sound (prog : List Instr) {Γ : List Ty} {m m' : List (Mean A)} (h : List.Forall₂ Fits Γ m)
    (hs : L.specRun m prog = some m') (hsame : L.Each Same m prog) : ∃ Γ', tyRun Γ prog = some Γ' ∧ List.Forall₂ Fits Γ' m' := by
  induction prog generalizing m Γ with
  | nil => cases hs; exact ⟨Γ, rfl, h⟩
  | cons i is ih =>
    rw [PointLib.specRun] at hs
    split at hs
    · next x hx =>
      obtain ⟨s1, s2⟩ := hsame
      obtain ⟨τ, h1, h2⟩ := step_fits h hx s1
      obtain ⟨Γ', h3, h4⟩ := ih (fits_snoc h h2) hs (s2 _ hx)
      exact ⟨Γ', by rw [tyRun, h1]; exact h3, h4⟩
    · cases hs

/-- **C95** Byte tensors of points have the declared 65 bytes. -/
theorem point_bytes_len (hL : L.Ok) {a : A} {b : Bytes} (h : L.Rep (.enc a) (.bytes b)) : b.length = 65 := by
  rcases h with ⟨_, rfl⟩ | ⟨ha, rfl⟩
  · rfl
  · exact hL.fmt_len _ ha

example : ∃ Γ m, tyRun [] toyProg = some Γ ∧ toy.specRun [] toyProg = some m ∧ List.Forall₂ Fits Γ m := by
  have hs : ∃ m, toy.specRun [] toyProg = some m := ⟨_, rfl⟩
  obtain ⟨m, hm⟩ := hs
  obtain ⟨Γ, h1, h2⟩ := curve_types_sound (L := toy) toyProg (Γ := []) .nil hm
    ⟨trivial, fun _ _ => ⟨trivial, fun _ _ => ⟨trivial, fun _ _ => ⟨trivial, fun _ _ => ⟨trivial, fun _ _ => ⟨trivial, fun _ _ =>
      ⟨trivial, fun _ _ => ⟨trivial, fun _ _ => ⟨trivial, fun _ _ => ⟨trivial, fun _ _ => ⟨trivial, fun _ _ => ⟨trivial, fun _ _ => trivial⟩⟩⟩⟩⟩⟩⟩⟩⟩⟩⟩⟩
  exact ⟨Γ, m, h1, hm, h2⟩

/-- **C95** Non-vacuity of `curve_program_runs_iff`: the program above meets its hypotheses, runs, and is therefore clear. -/
example : toy.Each Clear [] toyProg := by
  have hr : ∃ env, toy.run [] toyProg = .ok env := by
    have : (match toy.run [] toyProg with | .ok _ => true | .error _ => false) = true := by decide +kernel
    split at this
    · next env h => exact ⟨env, h⟩
    · cases this
  have hs : ∃ m, toy.specRun [] toyProg = some m := ⟨_, rfl⟩
  obtain ⟨m, hm⟩ := hs
  refine (curve_program_runs_iff toy_ok toyProg .nil hm ?_).1 hr
  refine ⟨trivial, fun x hx => ?_⟩; cases hx
  refine ⟨trivial, fun x hx => ?_⟩; cases hx
  refine ⟨trivial, fun x hx => ?_⟩; cases hx
  refine ⟨trivial, fun x hx => ?_⟩; cases hx
  refine ⟨trivial, fun x hx => ?_⟩; cases hx
  refine ⟨trivial, fun x hx => ?_⟩; cases hx
  refine ⟨trivial, fun x hx => ?_⟩; cases hx
  refine ⟨trivial, fun x hx => ?_⟩; cases hx
  refine ⟨trivial, fun x hx => ?_⟩; cases hx
  refine ⟨?_, fun x hx => ⟨trivial, fun _ _ => ⟨trivial, fun _ _ => trivial⟩⟩⟩
  intro h
  injection h with h
  injection h with h
  exact absurd h (by decide)

end Verif.Crypto.Curve
