import Verif.Bfv.Model
import Mathlib.Tactic.Ring
import Mathlib.Data.List.Forall2

/-!
# C92: a BFV program computes slot-wise arithmetic modulo `t`

The specification is `Ideal`: plain vectors of residues, with no keys, contexts, ciphertexts or shortcuts.
-/

namespace Verif.Bfv

/-! ### Specification -/

/-- What a value stands for: integers, rows of integers, a vector of residues, or nothing (keys and encoders). -/
inductive Sem (t : Nat)
  | ints (xs : List Int)
  | rows (l : List (List Int))
  | vec (v : Slots t)
  | none

/-- Integers stand for their residues, in order, followed by zeros. -/
def Sem.toVec {t : Nat} (h : Nat) : Sem t → Option (Slots t)
  | .ints xs => some (spread h t xs)
  | .rows l => some (spread h t l.flatten)
  | .vec v => some v
  | .none => Option.none

/-- A binary operation on vectors. -/
def pointwise {t : Nat} (h : Nat) (f : ZMod t → ZMod t → ZMod t) (a b : Sem t) : Option (Sem t) :=
  match a.toVec h, b.toVec h with
  | some v, some w => some (.vec fun r i => f (v r i) (w r i))
  | _, _ => Option.none

/-- A unary operation on vectors. -/
def onVec {t : Nat} (f : Slots t → Slots t) : Sem t → Option (Sem t)
  | .vec v => some (.vec (f v))
  | _ => Option.none

/-- What each operation is meant to compute. -/
def idealStep {t : Nat} (h : Nat) (env : List (Sem t)) : Instr → Option (List (Sem t))
  | .relinKeys _ => some [.none]
  | .galoisKeys _ => some [.none]
  | .createEncoder _ => some [.none]
  | .encode x _ => do let v ← (← env[x]?).toVec h; pure [.vec v]
  | .batchEncode x _ _ => do
    match ← env[x]? with
    | .rows l => pure (l.map fun xs => .vec (spread h t xs))
    | _ => Option.none
  | .encrypt x _ _ => do let v ← (← env[x]?).toVec h; pure [.vec v]
  | .decrypt c _ => do let s ← onVec id (← env[c]?); pure [s]
  | .decode p _ => do
    match ← env[p]? with
    | .vec v => pure [.ints (centred h v)]
    | _ => Option.none
  | .add a b _ => do let s ← pointwise h (· + ·) (← env[a]?) (← env[b]?); pure [s]
  | .sub a b => do let s ← pointwise h (· - ·) (← env[a]?) (← env[b]?); pure [s]
  | .mul a b _ => do let s ← pointwise h (· * ·) (← env[a]?) (← env[b]?); pure [s]
  | .relinearize c _ => do let s ← onVec id (← env[c]?); pure [s]
  | .rotate c _ s => do let s ← onVec (turn h s) (← env[c]?); pure [s]
  | .rotateColumns c _ => do let s ← onVec flip (← env[c]?); pure [s]
  | .wire x => do let s ← env[x]?; pure [s]

/-- What a program is meant to compute. -/
def ideal {t : Nat} (h : Nat) : List (Sem t) → List Instr → Option (List (Sem t))
  | env, [] => some env
  | env, i :: is => do
    let vs ← idealStep h env i
    ideal h (env ++ vs) is

/-- A run-time value stands for a specification value, all keys being key `k`. -/
def Rel {C : Type} (L : Seal C) (k : Nat) : Val L.t C → Sem L.t → Prop
  | .tensor _ xs, .ints ys => xs = ys ∧ Fits L.t xs
  | .tensor _ xs, .vec v => Same L.h v (spread L.h L.t xs) ∧ Fits L.t xs
  | .mat _ l, .rows l' => l = l' ∧ ∀ r ∈ l, Fits L.t r
  | .plain p ctx, .vec v => ctx.key = k ∧ Same L.h p v
  | .cipher (some c) ctx, .vec v => ctx.key = k ∧ L.keyOf c = k ∧ L.transparent c = false ∧ Same L.h (L.decrypt k c) v
  | .cipher none ctx, .vec v => ctx.key = k ∧ Same L.h v fun _ _ => 0
  | .key ctx, .none => ctx.key = k
  | .encoder _, .none => True
  | _, _ => False

/-- No ciphertext among the values has lost its noise budget. -/
def Fine {C : Type} (L : Seal C) (env : List (Val L.t C)) : Prop := ∀ c ctx, Val.cipher (some c) ctx ∈ env → L.fine c

/-! ### Proofs -/

theorem Same.refl {t h : Nat} (a : Slots t) : Same h a a := fun _ _ _ _ => rfl

theorem Same.symm {t h : Nat} {a b : Slots t} (e : Same h a b) : Same h b a := fun r hr i hi => (e r hr i hi).symm

theorem Same.trans {t h : Nat} {a b c : Slots t} (e : Same h a b) (f : Same h b c) : Same h a c :=
  fun r hr i hi => (e r hr i hi).trans (f r hr i hi)

theorem centred_same {t h : Nat} (hh : 0 < h) {a b : Slots t} (e : Same h a b) : centred h a = centred h b := by
  unfold centred
  refine List.map_congr_left fun q hq => ?_
  have hq := List.mem_range.1 hq
  rw [e _ (Nat.div_lt_of_lt_mul (by rw [Nat.mul_comm]; exact hq)) _ (Nat.mod_lt _ hh)]

variable {C : Type} {L : Seal C}

theorem turn_same {t h : Nat} (hh : 0 < h) {a b : Slots t} (s : Int) (e : Same h a b) : Same h (turn h s a) (turn h s b) := by
  intro r hr i _
  refine e r hr _ ?_
  have h1 := Int.emod_nonneg ((i : Int) + s) (show (h : Int) ≠ 0 by omega)
  have h2 := Int.emod_lt_of_pos ((i : Int) + s) (show (0 : Int) < h by omega)
  omega

theorem flip_same {t h : Nat} {a b : Slots t} (e : Same h a b) : Same h (flip a) (flip b) :=
  fun r _ i hi => e (1 - r) (by omega) i hi

theorem bind_ok' {α β : Type} {x : Except Err α} {f : α → Except Err β} {b : β} (h : x >>= f = .ok b) :
    ∃ a, x = .ok a ∧ f a = .ok b := by
  cases x with
  | error e => simp [bind, Except.bind] at h
  | ok a => exact ⟨a, rfl, h⟩

theorem full_ok {c : Option C} {x : C} (h : full c = .ok x) : c = some x := by
  cases c with
  | none => simp [full] at h
  | some y => simp [full] at h; simp [h]

theorem checked_ok {x y : C} (h : L.checked x = .ok y) : y = x := by
  unfold Seal.checked at h
  split at h
  · simp at h
  · simpa using h.symm

theorem checked_opaque {x y : C} (h : L.checked x = .ok y) : L.transparent x = false := by
  unfold Seal.checked at h
  split at h
  · simp at h
  · simp_all

theorem ret_ok {t : Nat} {ctx : Ctx} {x : Except Err C} {v : Val t C} (h : ret ctx x = .ok v) :
    ∃ c, x = .ok c ∧ v = .cipher (some c) ctx := by
  cases x with
  | error e => simp [ret] at h
  | ok c => exact ⟨c, rfl, by simpa [ret] using h.symm⟩

theorem tryEncrypt_ok {ctx : Ctx} {rnd : Nat} {p : Slots L.t} {c : C} (h : L.tryEncrypt ctx rnd p = .ok c) :
    c = L.encrypt ctx.key rnd p := by
  unfold Seal.tryEncrypt at h
  split at h
  · simp at h
  · simpa using h.symm

theorem tryEncode_ok (ok : L.Ok) {xs : List Int} {p : Slots L.t} (h : L.tryEncode xs = .ok p) (hf : Fits L.t xs) :
    Same L.h p (spread L.h L.t xs) := by
  unfold Seal.tryEncode at h
  split at h
  · next hl =>
    simp only [Except.ok.injEq] at h
    rw [← h]; exact ok.encode xs hl hf
  · simp at h

/-- Values SEAL accepts as plaintexts stand for vectors. -/
theorem asPlain_rel (ok : L.Ok) {k : Nat} {v : Val L.t C} {s : Sem L.t} (r : Rel L k v s) {x : Except Err (Slots L.t)} {p : Slots L.t}
    (h : L.asPlain v = some x) (hx : x = .ok p) : ∃ w, s.toVec L.h = some w ∧ Same L.h p w := by
  subst hx
  cases v with
  | tensor d xs =>
    simp only [Seal.asPlain, Option.some.injEq] at h
    cases s with
    | ints ys => exact ⟨_, rfl, by rw [← r.1]; exact tryEncode_ok ok h r.2⟩
    | vec w => exact ⟨w, rfl, (tryEncode_ok ok h r.2).trans r.1.symm⟩
    | rows l => exact r.elim
    | none => exact r.elim
  | mat d l =>
    simp only [Seal.asPlain, Option.some.injEq] at h
    cases s with
    | rows l' =>
      refine ⟨_, rfl, ?_⟩
      rw [← r.1]
      refine tryEncode_ok ok h ?_
      intro x hx
      obtain ⟨l0, hl, hx⟩ := List.mem_flatten.1 hx
      exact r.2 l0 hl x hx
    | ints ys => exact r.elim
    | vec w => exact r.elim
    | none => exact r.elim
  | plain p' ctx =>
    simp only [Seal.asPlain, Option.some.injEq, Except.ok.injEq] at h
    cases s with
    | vec w => exact ⟨w, rfl, by rw [← h]; exact r.2⟩
    | ints ys => exact r.elim
    | rows l => exact r.elim
    | none => exact r.elim
  | cipher c ctx => simp [Seal.asPlain] at h
  | key ctx => simp [Seal.asPlain] at h
  | encoder d => simp [Seal.asPlain] at h

theorem cipher_rel {k : Nat} {c : Option C} {ctx : Ctx} {s : Sem L.t} (r : Rel L k (.cipher c ctx) s) :
    ∃ v, s = .vec v ∧ ctx.key = k := by
  cases c with
  | none => cases s with
    | vec v => exact ⟨v, rfl, r.1⟩
    | ints _ => exact r.elim
    | rows _ => exact r.elim
    | none => exact r.elim
  | some c => cases s with
    | vec v => exact ⟨v, rfl, r.1⟩
    | ints _ => exact r.elim
    | rows _ => exact r.elim
    | none => exact r.elim

theorem pointwise_eq {t h : Nat} {f : ZMod t → ZMod t → ZMod t} {a b : Sem t} {v w : Slots t} (ha : a.toVec h = some v) (hb : b.toVec h = some w) :
    pointwise h f a b = some (.vec fun r i => f (v r i) (w r i)) := by
  unfold pointwise; rw [ha, hb]

/-- The vector a ciphertext stands for. -/
def holds (L : Seal C) (k : Nat) (c : Option C) (v : Slots L.t) : Prop :=
  match c with
  | some c => L.keyOf c = k ∧ L.transparent c = false ∧ Same L.h (L.decrypt k c) v
  | none => Same L.h v fun _ _ => 0

theorem rel_cipher_iff {k : Nat} {c : Option C} {ctx : Ctx} {v : Slots L.t} :
    Rel L k (.cipher c ctx) (.vec v) ↔ ctx.key = k ∧ holds L k c v := by
  cases c <;> simp [Rel, holds]

theorem addPl_sound (ok : L.Ok) {k : Nat} {c : Option C} {ctx : Ctx} {rnd : Nat} {x : Except Err (Slots L.t)} {v w : Slots L.t} {o : Val L.t C}
    (hk : ctx.key = k) (hc : holds L k c v) (hx : ∀ p, x = .ok p → Same L.h p w) (h : L.addPl c ctx rnd x = .ok o)
    (fc : ∀ c', c = some c' → L.fine c') (fo : ∀ c' d, o = .cipher (some c') d → L.fine c') :
    Rel L k o (.vec fun r i => v r i + w r i) := by
  replace h := bind_ok' h; obtain ⟨p, rfl, h⟩ := h
  have hp := hx p rfl
  cases c with
  | none =>
    obtain ⟨c', h', rfl⟩ := ret_ok h
    rw [tryEncrypt_ok h'] at fo ⊢
    have fi := fo _ _ rfl
    rw [hk] at fi ⊢
    refine ⟨hk, ok.encrypt_key _ _ _, ok.encrypt_opaque _ _ _, fun r hr i hi => ?_⟩
    simp only [ok.encrypt _ _ _ fi r hr i hi, hp r hr i hi, hc r hr i hi, zero_add]
  | some c =>
    obtain ⟨c', h', rfl⟩ := ret_ok h
    rw [checked_ok h'] at fo ⊢
    have fi := fo _ _ rfl
    refine ⟨hk, (ok.addPlain_key _ _).trans hc.1, checked_opaque h', fun r hr i hi => ?_⟩
    simp only [ok.addPlain c p k hc.1 (fc c rfl) fi r hr i hi, hp r hr i hi, hc.2.2 r hr i hi]

theorem add_sound (ok : L.Ok) {k : Nat} {a b o : Val L.t C} {sa sb : Sem L.t} {rnd : Nat} (ra : Rel L k a sa) (rb : Rel L k b sb)
    (fa : ∀ c d, a = .cipher (some c) d → L.fine c) (fb : ∀ c d, b = .cipher (some c) d → L.fine c)
    (fo : ∀ c d, o = .cipher (some c) d → L.fine c) (h : L.addV rnd a b = .ok o) :
    ∃ s, pointwise L.h (· + ·) sa sb = some s ∧ Rel L k o s := by
  unfold Seal.addV at h
  split at h
  · next x c y d =>
    obtain ⟨v, rfl, hk⟩ := cipher_rel ra
    obtain ⟨w, rfl, hk'⟩ := cipher_rel rb
    refine ⟨_, rfl, ?_⟩
    have ha := (rel_cipher_iff.1 ra).2
    have hb := (rel_cipher_iff.1 rb).2
    split at h
    · simp only [Except.ok.injEq] at h
      subst h
      refine rel_cipher_iff.2 ⟨hk', ?_⟩
      cases y with
      | none => intro r hr i hi; simp only [holds] at ha hb; simp only [ha r hr i hi, hb r hr i hi, add_zero]
      | some y => exact ⟨hb.1, hb.2.1, fun r hr i hi => by
          simp only [holds] at ha; simp only [hb.2.2 r hr i hi, ha r hr i hi, zero_add]⟩
    · simp only [Except.ok.injEq] at h
      subst h
      refine rel_cipher_iff.2 ⟨hk, ha.1, ha.2.1, fun r hr i hi => ?_⟩
      simp only [holds] at hb
      simp only
      simp only [ha.2.2 r hr i hi, hb r hr i hi, add_zero]
    · next x y =>
      obtain ⟨c', h', rfl⟩ := ret_ok h
      rw [checked_ok h'] at fo ⊢
      refine ⟨hk, (ok.add_key _ _).trans ha.1, checked_opaque h', fun r hr i hi => ?_⟩
      simp only [ok.add x y k ha.1 hb.1 (fa _ _ rfl) (fb _ _ rfl) (fo _ _ rfl) r hr i hi, ha.2.2 r hr i hi, hb.2.2 r hr i hi]
  · next x c v' hv =>
    obtain ⟨v, rfl, hk⟩ := cipher_rel ra
    split at h
    · next p hp =>
      obtain ⟨q, rfl, _⟩ := bind_ok' h
      obtain ⟨w, hw, hs⟩ := asPlain_rel ok rb hp rfl
      refine ⟨.vec fun r i => v r i + w r i, pointwise_eq rfl hw, ?_⟩
      exact addPl_sound ok hk (rel_cipher_iff.1 ra).2 (fun p' e => by cases e; exact hs) h (fun c' e => fa c' _ (by rw [e])) fo
    · simp at h
  · next y d hv =>
    obtain ⟨w, rfl, hk⟩ := cipher_rel rb
    split at h
    · next p hp =>
      obtain ⟨q, rfl, _⟩ := bind_ok' h
      obtain ⟨v, hv', hs⟩ := asPlain_rel ok ra hp rfl
      refine ⟨.vec fun r i => w r i + v r i, (pointwise_eq hv' rfl).trans (by simp only [add_comm]), ?_⟩
      exact addPl_sound ok hk (rel_cipher_iff.1 rb).2 (fun p' e => by cases e; exact hs) h (fun c' e => fb c' _ (by rw [e])) fo
    · simp at h
  · simp at h
  · simp at h

theorem sub_sound (ok : L.Ok) {k : Nat} {a b o : Val L.t C} {sa sb : Sem L.t} (ra : Rel L k a sa) (rb : Rel L k b sb)
    (fa : ∀ c d, a = .cipher (some c) d → L.fine c) (fb : ∀ c d, b = .cipher (some c) d → L.fine c)
    (fo : ∀ c d, o = .cipher (some c) d → L.fine c) (h : L.subV a b = .ok o) :
    ∃ s, pointwise L.h (· - ·) sa sb = some s ∧ Rel L k o s := by
  unfold Seal.subV at h
  split at h
  · next x c y d =>
    obtain ⟨v, rfl, hk⟩ := cipher_rel ra
    obtain ⟨w, rfl, hk'⟩ := cipher_rel rb
    refine ⟨_, rfl, ?_⟩
    have ha := (rel_cipher_iff.1 ra).2
    have hb := (rel_cipher_iff.1 rb).2
    replace h := bind_ok' h; obtain ⟨x', hx, h⟩ := h
    replace h := bind_ok' h; obtain ⟨y', hy, h⟩ := h
    obtain rfl := full_ok hx
    obtain rfl := full_ok hy
    obtain ⟨c', h', rfl⟩ := ret_ok h
    rw [checked_ok h'] at fo ⊢
    refine ⟨hk, (ok.sub_key _ _).trans ha.1, checked_opaque h', fun r hr i hi => ?_⟩
    simp only [ok.sub x' y' k ha.1 hb.1 (fa _ _ rfl) (fb _ _ rfl) (fo _ _ rfl) r hr i hi, ha.2.2 r hr i hi, hb.2.2 r hr i hi]
  · next x c v' hv =>
    obtain ⟨v, rfl, hk⟩ := cipher_rel ra
    have ha := (rel_cipher_iff.1 ra).2
    split at h
    · next p hp =>
      replace h := bind_ok' h; obtain ⟨q, hq, h⟩ := h
      replace h := bind_ok' h; obtain ⟨x', hx, h⟩ := h
      subst hq
      obtain rfl := full_ok hx
      obtain ⟨w, hw, hs⟩ := asPlain_rel ok rb hp rfl
      refine ⟨.vec fun r i => v r i - w r i, pointwise_eq rfl hw, ?_⟩
      obtain ⟨c', h', rfl⟩ := ret_ok h
      rw [checked_ok h'] at fo ⊢
      refine ⟨hk, (ok.subPlain_key _ _).trans ha.1, checked_opaque h', fun r hr i hi => ?_⟩
      simp only [ok.subPlain x' q k ha.1 (fa _ _ rfl) (fo _ _ rfl) r hr i hi, ha.2.2 r hr i hi, hs r hr i hi]
    · simp at h
  · next y d hv =>
    obtain ⟨w, rfl, hk⟩ := cipher_rel rb
    have hb := (rel_cipher_iff.1 rb).2
    split at h
    · next p hp =>
      replace h := bind_ok' h; obtain ⟨q, hq, h⟩ := h
      replace h := bind_ok' h; obtain ⟨y', hy, h⟩ := h
      subst hq
      obtain rfl := full_ok hy
      replace h := bind_ok' h; obtain ⟨n, hn, h⟩ := h
      obtain ⟨v, hv', hs⟩ := asPlain_rel ok ra hp rfl
      refine ⟨.vec fun r i => v r i - w r i, pointwise_eq hv' rfl, ?_⟩
      obtain ⟨c', h', rfl⟩ := ret_ok h
      rw [checked_ok h'] at fo ⊢
      rw [checked_ok hn] at fo ⊢
      have fy := fb _ _ rfl
      refine ⟨hk, (ok.addPlain_key _ _).trans ((ok.negate_key _).trans hb.1), by rw [checked_ok hn] at h'; exact checked_opaque h', fun r hr i hi => ?_⟩
      simp only [ok.addPlain _ q k ((ok.negate_key _).trans hb.1) (ok.negate_fine _ fy) (fo _ _ rfl) r hr i hi,
        ok.negate y' k hb.1 fy r hr i hi, hb.2.2 r hr i hi, hs r hr i hi]
      ring
    · simp at h
  · simp at h
  · simp at h

theorem isZero_same {t h : Nat} {p : Slots t} (e : isZero h p = true) : Same h p fun _ _ => 0 := by
  intro r hr i hi
  simp only [isZero, List.all_eq_true, List.mem_range, decide_eq_true_eq] at e
  exact e r hr i hi

theorem zero_of_all {xs : List Int} (e : (xs.all fun x => decide (x = 0)) = true) (h t : Nat) : Same h (spread h t xs) fun _ _ => 0 := by
  intro r _ i _
  simp only [List.all_eq_true, decide_eq_true_eq] at e
  have : xs.getD (r * h + i) 0 = 0 := by
    rw [List.getD_eq_getElem?_getD]
    cases hx : xs[r * h + i]? with
    | none => rfl
    | some x => exact e x (List.mem_of_getElem? hx)
  simp only [spread, this, Int.cast_zero]

theorem mulPt_sound (ok : L.Ok) {k : Nat} {c : Option C} {ctx : Ctx} {p v w : Slots L.t} {o : Val L.t C}
    (hk : ctx.key = k) (hc : holds L k c v) (hp : Same L.h p w) (h : L.mulPt c ctx p = .ok o)
    (fc : ∀ c', c = some c' → L.fine c') (fo : ∀ c' d, o = .cipher (some c') d → L.fine c') :
    Rel L k o (.vec fun r i => v r i * w r i) := by
  unfold Seal.mulPt at h
  split at h
  · next hz =>
    simp only [Except.ok.injEq] at h
    subst h
    refine ⟨hk, fun r hr i hi => ?_⟩
    simp only [← hp r hr i hi, isZero_same hz r hr i hi, mul_zero]
  · replace h := bind_ok' h; obtain ⟨c', hc', h⟩ := h
    obtain rfl := full_ok hc'
    split at h
    · next r' hr' =>
      simp only [Except.ok.injEq] at h
      subst h
      rw [checked_ok hr'] at fo ⊢
      refine ⟨hk, (ok.mulPlain_key _ _).trans hc.1, checked_opaque hr', fun r hr i hi => ?_⟩
      simp only [ok.mulPlain c' p k hc.1 (fc _ rfl) (fo _ _ rfl) r hr i hi, hc.2.2 r hr i hi, hp r hr i hi]
    · next e he =>
      simp only [Except.ok.injEq] at h
      subst h
      refine ⟨hk, fun r hr i hi => ?_⟩
      have ht : L.transparent (L.mulPlain c' p) = true := by
        unfold Seal.checked at he
        split at he
        · assumption
        · simp at he
      have := ok.mulPlain_transparent c' p k hc.1 (fc _ rfl) hc.2.1 ht r hr i hi
      rw [← this]
      simp only
      simp only [hc.2.2 r hr i hi, hp r hr i hi]

theorem encZero_sound (ok : L.Ok) {k : Nat} {ctx : Ctx} {rnd : Nat} {z : Slots L.t} {o : Val L.t C} (hk : ctx.key = k)
    (hz : Same L.h z fun _ _ => 0) (h : ret ctx (L.tryEncrypt ctx rnd fun _ _ => 0) = .ok o)
    (fo : ∀ c' d, o = .cipher (some c') d → L.fine c') : Rel L k o (.vec z) := by
  obtain ⟨c', h', rfl⟩ := ret_ok h
  rw [tryEncrypt_ok h'] at fo ⊢
  have fi := fo _ _ rfl
  rw [hk] at fi ⊢
  exact ⟨hk, ok.encrypt_key _ _ _, ok.encrypt_opaque _ _ _, (ok.encrypt _ _ _ fi).trans hz.symm⟩

theorem mulRaw_sound (ok : L.Ok) {k : Nat} {c : Option C} {ctx : Ctx} {rnd : Nat} {xs : List Int} {v w : Slots L.t} {o : Val L.t C}
    (hk : ctx.key = k) (hc : holds L k c v) (hf : Fits L.t xs) (hp : Same L.h w (spread L.h L.t xs)) (h : L.mulRaw c ctx rnd xs = .ok o)
    (fc : ∀ c', c = some c' → L.fine c') (fo : ∀ c' d, o = .cipher (some c') d → L.fine c') :
    Rel L k o (.vec fun r i => v r i * w r i) := by
  unfold Seal.mulRaw at h
  split at h
  · next hz =>
    refine encZero_sound ok hk (fun r hr i hi => ?_) h fo
    simp only [hp r hr i hi, zero_of_all hz _ _ r hr i hi, mul_zero]
  · replace h := bind_ok' h; obtain ⟨p, hp', h⟩ := h
    have hp' := (tryEncode_ok ok hp' hf).trans hp.symm
    replace h := bind_ok' h; obtain ⟨c', hc', h⟩ := h
    obtain rfl := full_ok hc'
    split at h
    · next r' hr' =>
      simp only [Except.ok.injEq] at h
      subst h
      rw [checked_ok hr'] at fo ⊢
      refine ⟨hk, (ok.mulPlain_key _ _).trans hc.1, checked_opaque hr', fun r hr i hi => ?_⟩
      simp only [ok.mulPlain c' p k hc.1 (fc _ rfl) (fo _ _ rfl) r hr i hi, hc.2.2 r hr i hi, hp' r hr i hi]
    · next e he =>
      refine encZero_sound ok hk (fun r hr i hi => ?_) h fo
      have ht : L.transparent (L.mulPlain c' p) = true := by
        unfold Seal.checked at he
        split at he
        · assumption
        · simp at he
      have := ok.mulPlain_transparent c' p k hc.1 (fc _ rfl) hc.2.1 ht r hr i hi
      rw [← this]
      simp only
      simp only [hc.2.2 r hr i hi, hp' r hr i hi]

/-- Raw operands stand for vectors. -/
theorem tensor_rel {k : Nat} {d : String} {xs : List Int} {s : Sem L.t} (r : Rel L k (.tensor d xs) s) :
    Fits L.t xs ∧ ∃ w, s.toVec L.h = some w ∧ Same L.h w (spread L.h L.t xs) := by
  cases s with
  | ints ys => exact ⟨r.2, _, rfl, by rw [r.1]; exact Same.refl _⟩
  | vec w => exact ⟨r.2, w, rfl, r.1⟩
  | rows _ => exact r.elim
  | none => exact r.elim

theorem mat_rel {k : Nat} {d : String} {l : List (List Int)} {s : Sem L.t} (r : Rel L k (.mat d l) s) :
    s = .rows l ∧ ∀ x ∈ l, Fits L.t x := by
  cases s with
  | rows l' => exact ⟨by rw [r.1], r.2⟩
  | ints _ => exact r.elim
  | vec _ => exact r.elim
  | none => exact r.elim

theorem fits_flatten {t : Nat} {l : List (List Int)} (h : ∀ x ∈ l, Fits t x) : Fits t l.flatten := by
  intro x hx
  obtain ⟨l0, hl, hx⟩ := List.mem_flatten.1 hx
  exact h l0 hl x hx

theorem plain_rel {k : Nat} {p : Slots L.t} {ctx : Ctx} {s : Sem L.t} (r : Rel L k (.plain p ctx) s) :
    ∃ w, s = .vec w ∧ ctx.key = k ∧ Same L.h p w := by
  cases s with
  | vec w => exact ⟨w, rfl, r⟩
  | ints _ => exact r.elim
  | rows _ => exact r.elim
  | none => exact r.elim

theorem key_rel {k : Nat} {ctx : Ctx} {s : Sem L.t} (r : Rel L k (.key ctx) s) : ctx.key = k := by
  cases s with
  | none => exact r
  | ints _ => exact r.elim
  | rows _ => exact r.elim
  | vec _ => exact r.elim

theorem pointwise_comm_mul {t h : Nat} (a b : Sem t) : pointwise h (· * ·) a b = pointwise h (· * ·) b a := by
  unfold pointwise
  cases a.toVec h <;> cases b.toVec h <;> simp [mul_comm]

theorem mul_sound (ok : L.Ok) {k : Nat} {a b o : Val L.t C} {sa sb : Sem L.t} {rnd : Nat} (ra : Rel L k a sa) (rb : Rel L k b sb)
    (fa : ∀ c d, a = .cipher (some c) d → L.fine c) (fb : ∀ c d, b = .cipher (some c) d → L.fine c)
    (fo : ∀ c d, o = .cipher (some c) d → L.fine c) (h : L.mulV rnd a b = .ok o) :
    ∃ s, pointwise L.h (· * ·) sa sb = some s ∧ Rel L k o s := by
  unfold Seal.mulV at h
  split at h
  · next x c y d =>
    obtain ⟨v, rfl, hk⟩ := cipher_rel ra
    obtain ⟨w, rfl, hk'⟩ := cipher_rel rb
    refine ⟨_, rfl, ?_⟩
    have ha := (rel_cipher_iff.1 ra).2
    have hb := (rel_cipher_iff.1 rb).2
    replace h := bind_ok' h; obtain ⟨x', hx, h⟩ := h
    replace h := bind_ok' h; obtain ⟨y', hy, h⟩ := h
    obtain rfl := full_ok hx
    obtain rfl := full_ok hy
    obtain ⟨c', h', rfl⟩ := ret_ok h
    rw [checked_ok h'] at fo ⊢
    refine ⟨hk, (ok.multiply_key _ _).trans ha.1, checked_opaque h', fun r hr i hi => ?_⟩
    simp only [ok.multiply x' y' k ha.1 hb.1 (fa _ _ rfl) (fb _ _ rfl) (fo _ _ rfl) r hr i hi, ha.2.2 r hr i hi, hb.2.2 r hr i hi]
  · next x c p d =>
    obtain ⟨v, rfl, hk⟩ := cipher_rel ra
    obtain ⟨w, rfl, _, hp⟩ := plain_rel rb
    exact ⟨_, rfl, mulPt_sound ok hk (rel_cipher_iff.1 ra).2 hp h (fun c' e => fa c' _ (by rw [e])) fo⟩
  · next p d y c =>
    obtain ⟨v, rfl, hk⟩ := cipher_rel rb
    obtain ⟨w, rfl, _, hp⟩ := plain_rel ra
    rw [pointwise_comm_mul]
    exact ⟨_, rfl, mulPt_sound ok hk (rel_cipher_iff.1 rb).2 hp h (fun c' e => fb c' _ (by rw [e])) fo⟩
  · next x c d xs =>
    obtain ⟨v, rfl, hk⟩ := cipher_rel ra
    obtain ⟨hf, w, hw, hp⟩ := tensor_rel rb
    exact ⟨.vec fun r i => v r i * w r i, pointwise_eq rfl hw,
      mulRaw_sound ok hk (rel_cipher_iff.1 ra).2 hf hp h (fun c' e => fa c' _ (by rw [e])) fo⟩
  · next d xs y c =>
    obtain ⟨v, rfl, hk⟩ := cipher_rel rb
    obtain ⟨hf, w, hw, hp⟩ := tensor_rel ra
    rw [pointwise_comm_mul]
    exact ⟨.vec fun r i => v r i * w r i, pointwise_eq rfl hw,
      mulRaw_sound ok hk (rel_cipher_iff.1 rb).2 hf hp h (fun c' e => fb c' _ (by rw [e])) fo⟩
  · next x c d l =>
    obtain ⟨v, rfl, hk⟩ := cipher_rel ra
    obtain ⟨rfl, hf⟩ := mat_rel rb
    exact ⟨_, rfl, mulRaw_sound ok hk (rel_cipher_iff.1 ra).2 (fits_flatten hf) (Same.refl _) h (fun c' e => fa c' _ (by rw [e])) fo⟩
  · next d l y c =>
    obtain ⟨v, rfl, hk⟩ := cipher_rel rb
    obtain ⟨rfl, hf⟩ := mat_rel ra
    rw [pointwise_comm_mul]
    exact ⟨_, rfl, mulRaw_sound ok hk (rel_cipher_iff.1 rb).2 (fits_flatten hf) (Same.refl _) h (fun c' e => fb c' _ (by rw [e])) fo⟩
  · simp at h
  · simp at h

theorem relin_sound (ok : L.Ok) {k : Nat} {c : Option C} {ctx rk : Ctx} {v : Slots L.t} {o : Val L.t C} (hk : ctx.key = k) (hr : rk.key = k)
    (hc : holds L k c v) (h : L.relinV c ctx rk = .ok o)
    (fc : ∀ c', c = some c' → L.fine c') (fo : ∀ c' d, o = .cipher (some c') d → L.fine c') : Rel L k o (.vec v) := by
  unfold Seal.relinV at h
  split at h
  · simp only [Except.ok.injEq] at h; subst h; exact ⟨hk, hc⟩
  · next c =>
    split at h
    · split at h
      · simp at h
      · split at h
        · simp at h
        · obtain ⟨c', h', rfl⟩ := ret_ok h
          rw [checked_ok h', hr] at fo ⊢
          refine ⟨hk, (ok.relinearize_key _ _).trans hc.1, by rw [hr] at h'; exact checked_opaque h', ?_⟩
          exact (ok.relinearize c k hc.1 (fc _ rfl) (fo _ _ rfl)).trans hc.2.2
    · simp only [Except.ok.injEq] at h; subst h; exact ⟨hk, hc⟩

theorem rotate_sound (ok : L.Ok) {k : Nat} {c : Option C} {ctx gk : Ctx} {v : Slots L.t} {o : Val L.t C} {s : Int} (hk : ctx.key = k)
    (hr : gk.key = k) (hc : holds L k c v) (h : L.rotateV c ctx gk s = .ok o)
    (fc : ∀ c', c = some c' → L.fine c') (fo : ∀ c' d, o = .cipher (some c') d → L.fine c') : Rel L k o (.vec (turn L.h s v)) := by
  unfold Seal.rotateV at h
  split at h
  · next hs =>
    simp only [Except.ok.injEq] at h; subst h; subst hs
    have e : Same L.h v (turn L.h 0 v) := by
      intro r _ i hi
      have : (((i : Int) + 0) % (L.h : Int)).toNat = i := by
        rw [add_zero, Int.emod_eq_of_lt (by omega) (by omega)]; simp
      simp only [turn, this]
    refine rel_cipher_iff.2 ⟨hk, ?_⟩
    cases c with
    | none => exact e.symm.trans hc
    | some c => exact ⟨hc.1, hc.2.1, hc.2.2.trans e⟩
  · split at h
    · simp only [Except.ok.injEq] at h; subst h
      refine ⟨hk, ?_⟩
      have := turn_same ok.h_pos s hc
      exact this
    · next c =>
      split at h
      · simp at h
      · split at h
        · simp at h
        · obtain ⟨c', h', rfl⟩ := ret_ok h
          rw [checked_ok h', hr] at fo ⊢
          refine ⟨hk, (ok.rotateRows_key _ _ _).trans hc.1, by rw [hr] at h'; exact checked_opaque h', ?_⟩
          exact (ok.rotateRows c k s hc.1 (fc _ rfl) (fo _ _ rfl)).trans (turn_same ok.h_pos s hc.2.2)

theorem columns_sound (ok : L.Ok) {k : Nat} {c : Option C} {ctx gk : Ctx} {v : Slots L.t} {o : Val L.t C} (hk : ctx.key = k)
    (hr : gk.key = k) (hc : holds L k c v) (h : L.rotateColumnsV c ctx gk = .ok o)
    (fc : ∀ c', c = some c' → L.fine c') (fo : ∀ c' d, o = .cipher (some c') d → L.fine c') : Rel L k o (.vec (flip v)) := by
  unfold Seal.rotateColumnsV at h
  split at h
  · simp at h
  · replace h := bind_ok' h; obtain ⟨c', hc', h⟩ := h
    obtain rfl := full_ok hc'
    split at h
    · simp at h
    · obtain ⟨c'', h', rfl⟩ := ret_ok h
      rw [checked_ok h', hr] at fo ⊢
      refine ⟨hk, (ok.rotateColumns_key _ _).trans hc.1, by rw [hr] at h'; exact checked_opaque h', ?_⟩
      exact (ok.rotateColumns c' k hc.1 (fc _ rfl) (fo _ _ rfl)).trans (flip_same hc.2.2)

theorem fetch_ok {t : Nat} {env : List (Val t C)} {i : Nat} {v : Val t C} (h : fetch env i = .ok v) : env[i]? = some v := by
  unfold fetch at h
  split at h
  · next hv => rw [hv]; simpa using h
  · simp at h

theorem encodeRows_sound (ok : L.Ok) {k : Nat} {ctx : Ctx} (hk : ctx.key = k) : ∀ {l : List (List Int)} {vs : List (Val L.t C)},
    (∀ x ∈ l, Fits L.t x) → L.encodeRows ctx l = .ok vs → List.Forall₂ (Rel L k) vs (l.map fun xs => .vec (spread L.h L.t xs))
  | [], vs, _, h => by simp only [Seal.encodeRows, Except.ok.injEq] at h; subst h; exact .nil
  | r :: rest, vs, hf, h => by
    unfold Seal.encodeRows at h
    replace h := bind_ok' h; obtain ⟨p, hp, h⟩ := h
    replace h := bind_ok' h; obtain ⟨ps, hps, h⟩ := h
    simp only [pure, Except.pure, Except.ok.injEq] at h
    subst h
    exact .cons ⟨hk, tryEncode_ok ok hp (hf r (by simp))⟩ (encodeRows_sound ok hk (fun x hx => hf x (by simp [hx])) hps)

theorem rel_get {k : Nat} {env : List (Val L.t C)} {sems : List (Sem L.t)} (hr : List.Forall₂ (Rel L k) env sems) {i : Nat} {v : Val L.t C}
    (h : env[i]? = some v) : ∃ s, sems[i]? = some s ∧ Rel L k v s := by
  induction hr generalizing i with
  | nil => simp at h
  | cons hx _ ih =>
    cases i with
    | zero => simp only [List.getElem?_cons_zero, Option.some.injEq] at h ⊢; subst h; exact ⟨_, rfl, hx⟩
    | succ i => simp only [List.getElem?_cons_succ] at h ⊢; exact ih h

theorem fine_of_mem {env env' : List (Val L.t C)} (h : Fine L env') (hp : ∀ v ∈ env, v ∈ env') : Fine L env :=
  fun c ctx hm => h c ctx (hp _ hm)

theorem fits_centred (ok : L.Ok) (p : Slots L.t) : Fits L.t (centred L.h p) := by
  intro x hx
  obtain ⟨q, _, rfl⟩ := List.mem_map.1 hx
  have ht := ok.t_odd
  haveI : NeZero L.t := ⟨by omega⟩
  have := ZMod.natAbs_valMinAbs_le (p (q / L.h) (q % L.h))
  omega

theorem step_sound (ok : L.Ok) {k : Nat} {env vs : List (Val L.t C)} {sems : List (Sem L.t)} (hr : List.Forall₂ (Rel L k) env sems)
    (fe : Fine L env) {i : Instr} (h : L.step env i = .ok vs) (fv : Fine L vs) :
    ∃ ss, idealStep L.h sems i = some ss ∧ List.Forall₂ (Rel L k) vs ss := by
  have one : ∀ {v : Val L.t C} {s : Sem L.t}, Rel L k v s → List.Forall₂ (Rel L k) [v] [s] := fun h => .cons h .nil
  have gc : ∀ {v : Val L.t C} {j : Nat}, env[j]? = some v → ∀ c d, v = .cipher (some c) d → L.fine c :=
    fun h c d e => fe c d (List.mem_of_getElem? (e ▸ h))
  have go : ∀ {v : Val L.t C}, vs = [v] → ∀ c d, v = .cipher (some c) d → L.fine c :=
    fun h c d e => fv c d (by rw [h, e]; simp)
  cases i with
  | relinKeys sk =>
    replace h := bind_ok' h; obtain ⟨a, ha, h⟩ := h
    obtain ⟨s, hs, ra⟩ := rel_get hr (fetch_ok ha)
    split at h
    · simp only [Except.ok.injEq] at h; subst h
      exact ⟨_, rfl, one (s := .none) (key_rel ra)⟩
    · simp at h
  | galoisKeys sk =>
    replace h := bind_ok' h; obtain ⟨a, ha, h⟩ := h
    obtain ⟨s, hs, ra⟩ := rel_get hr (fetch_ok ha)
    split at h
    · simp only [Except.ok.injEq] at h; subst h
      exact ⟨_, rfl, one (s := .none) (key_rel ra)⟩
    · simp at h
  | createEncoder d =>
    simp only [Seal.step, Except.ok.injEq] at h; subst h
    exact ⟨_, rfl, one (s := .none) trivial⟩
  | encode x e =>
    replace h := bind_ok' h; obtain ⟨a, ha, h⟩ := h
    obtain ⟨s, hs, ra⟩ := rel_get hr (fetch_ok ha)
    split at h
    · simp only [Except.ok.injEq] at h; subst h
      obtain ⟨hf, w, hw, hp⟩ := tensor_rel ra
      exact ⟨[.vec w], by simp only [idealStep, hs, bind, Option.bind, hw, pure], one ⟨hp, hf⟩⟩
    · simp at h
  | batchEncode x e key =>
    replace h := bind_ok' h; obtain ⟨a, ha, h⟩ := h
    replace h := bind_ok' h; obtain ⟨b, hb, h⟩ := h
    obtain ⟨s, hs, ra⟩ := rel_get hr (fetch_ok ha)
    obtain ⟨s', hs', rb⟩ := rel_get hr (fetch_ok hb)
    split at h
    · obtain ⟨rfl, hf⟩ := mat_rel ra
      exact ⟨_, by simp only [idealStep, hs, bind, Option.bind, pure], encodeRows_sound ok (key_rel rb) hf h⟩
    · simp at h
  | encrypt x pk rnd =>
    replace h := bind_ok' h; obtain ⟨a, ha, h⟩ := h
    replace h := bind_ok' h; obtain ⟨b, hb, h⟩ := h
    obtain ⟨s, hs, ra⟩ := rel_get hr (fetch_ok ha)
    obtain ⟨s', hs', rb⟩ := rel_get hr (fetch_ok hb)
    split at h
    · replace h := bind_ok' h; obtain ⟨p, hp, h⟩ := h
      replace h := bind_ok' h; obtain ⟨v, hv, h⟩ := h
      simp only [pure, Except.pure, Except.ok.injEq] at h
      obtain ⟨hf, w, hw, hsw⟩ := tensor_rel ra
      obtain ⟨c', h', rfl⟩ := ret_ok hv
      have hk := key_rel rb
      have fi := go h.symm _ _ rfl
      subst h
      have hc := tryEncrypt_ok h'
      rw [hk] at hc
      subst hc
      refine ⟨[.vec w], by simp only [idealStep, hs, bind, Option.bind, hw, pure], one ⟨hk, ok.encrypt_key _ _ _, ok.encrypt_opaque _ _ _, ?_⟩⟩
      exact (ok.encrypt _ _ _ fi).trans ((tryEncode_ok ok hp hf).trans hsw.symm)
    · simp at h
  | decrypt c sk =>
    replace h := bind_ok' h; obtain ⟨a, ha, h⟩ := h
    replace h := bind_ok' h; obtain ⟨b, hb, h⟩ := h
    obtain ⟨s, hs, ra⟩ := rel_get hr (fetch_ok ha)
    obtain ⟨s', hs', rb⟩ := rel_get hr (fetch_ok hb)
    split at h
    · split at h
      · replace h := bind_ok' h; obtain ⟨c', hc', h⟩ := h
        simp only [pure, Except.pure, Except.ok.injEq] at h; subst h
        obtain rfl := full_ok hc'
        obtain ⟨v, rfl, hk⟩ := cipher_rel ra
        have hk' := key_rel rb
        refine ⟨[.vec v], by simp only [idealStep, hs, bind, Option.bind, onVec, id, pure], one ⟨hk', ?_⟩⟩
        rw [hk']; exact (rel_cipher_iff.1 ra).2.2.2
      · simp at h
    · simp at h
  | decode p e =>
    replace h := bind_ok' h; obtain ⟨a, ha, h⟩ := h
    obtain ⟨s, hs, ra⟩ := rel_get hr (fetch_ok ha)
    split at h
    · simp only [Except.ok.injEq] at h; subst h
      obtain ⟨w, rfl, _, hp⟩ := plain_rel ra
      refine ⟨[.ints (centred L.h w)], by simp only [idealStep, hs, bind, Option.bind, pure], one ⟨centred_same ok.h_pos hp, ?_⟩⟩
      exact fits_centred ok _
    · simp at h
  | add a b rnd =>
    replace h := bind_ok' h; obtain ⟨x, hx, h⟩ := h
    replace h := bind_ok' h; obtain ⟨y, hy, h⟩ := h
    replace h := bind_ok' h; obtain ⟨v, hv, h⟩ := h
    simp only [pure, Except.pure, Except.ok.injEq] at h
    obtain ⟨sx, hsx, rx⟩ := rel_get hr (fetch_ok hx)
    obtain ⟨sy, hsy, ry⟩ := rel_get hr (fetch_ok hy)
    obtain ⟨s, hs, rs⟩ := add_sound ok rx ry (gc (fetch_ok hx)) (gc (fetch_ok hy)) (go h.symm) hv
    subst h
    exact ⟨[s], by simp only [idealStep, hsx, hsy, bind, Option.bind, hs, pure], one rs⟩
  | sub a b =>
    replace h := bind_ok' h; obtain ⟨x, hx, h⟩ := h
    replace h := bind_ok' h; obtain ⟨y, hy, h⟩ := h
    replace h := bind_ok' h; obtain ⟨v, hv, h⟩ := h
    simp only [pure, Except.pure, Except.ok.injEq] at h
    obtain ⟨sx, hsx, rx⟩ := rel_get hr (fetch_ok hx)
    obtain ⟨sy, hsy, ry⟩ := rel_get hr (fetch_ok hy)
    obtain ⟨s, hs, rs⟩ := sub_sound ok rx ry (gc (fetch_ok hx)) (gc (fetch_ok hy)) (go h.symm) hv
    subst h
    exact ⟨[s], by simp only [idealStep, hsx, hsy, bind, Option.bind, hs, pure], one rs⟩
  | mul a b rnd =>
    replace h := bind_ok' h; obtain ⟨x, hx, h⟩ := h
    replace h := bind_ok' h; obtain ⟨y, hy, h⟩ := h
    replace h := bind_ok' h; obtain ⟨v, hv, h⟩ := h
    simp only [pure, Except.pure, Except.ok.injEq] at h
    obtain ⟨sx, hsx, rx⟩ := rel_get hr (fetch_ok hx)
    obtain ⟨sy, hsy, ry⟩ := rel_get hr (fetch_ok hy)
    obtain ⟨s, hs, rs⟩ := mul_sound ok rx ry (gc (fetch_ok hx)) (gc (fetch_ok hy)) (go h.symm) hv
    subst h
    exact ⟨[s], by simp only [idealStep, hsx, hsy, bind, Option.bind, hs, pure], one rs⟩
  | relinearize c rk =>
    replace h := bind_ok' h; obtain ⟨x, hx, h⟩ := h
    replace h := bind_ok' h; obtain ⟨y, hy, h⟩ := h
    obtain ⟨sx, hsx, rx⟩ := rel_get hr (fetch_ok hx)
    obtain ⟨sy, hsy, ry⟩ := rel_get hr (fetch_ok hy)
    split at h
    · replace h := bind_ok' h; obtain ⟨v, hv, h⟩ := h
      simp only [pure, Except.pure, Except.ok.injEq] at h
      obtain ⟨w, rfl, hk⟩ := cipher_rel rx
      have := relin_sound ok hk (key_rel ry) (rel_cipher_iff.1 rx).2 hv (fun c' e => gc (fetch_ok hx) c' _ (by rw [e])) (go h.symm)
      subst h
      exact ⟨[.vec w], by simp only [idealStep, hsx, bind, Option.bind, onVec, id, pure], one this⟩
    · simp at h
  | rotate c gk st =>
    replace h := bind_ok' h; obtain ⟨x, hx, h⟩ := h
    replace h := bind_ok' h; obtain ⟨y, hy, h⟩ := h
    obtain ⟨sx, hsx, rx⟩ := rel_get hr (fetch_ok hx)
    obtain ⟨sy, hsy, ry⟩ := rel_get hr (fetch_ok hy)
    split at h
    · replace h := bind_ok' h; obtain ⟨v, hv, h⟩ := h
      simp only [pure, Except.pure, Except.ok.injEq] at h
      obtain ⟨w, rfl, hk⟩ := cipher_rel rx
      have := rotate_sound ok hk (key_rel ry) (rel_cipher_iff.1 rx).2 hv (fun c' e => gc (fetch_ok hx) c' _ (by rw [e])) (go h.symm)
      subst h
      exact ⟨[.vec (turn L.h st w)], by simp only [idealStep, hsx, bind, Option.bind, onVec, pure], one this⟩
    · simp at h
  | rotateColumns c gk =>
    replace h := bind_ok' h; obtain ⟨x, hx, h⟩ := h
    replace h := bind_ok' h; obtain ⟨y, hy, h⟩ := h
    obtain ⟨sx, hsx, rx⟩ := rel_get hr (fetch_ok hx)
    obtain ⟨sy, hsy, ry⟩ := rel_get hr (fetch_ok hy)
    split at h
    · replace h := bind_ok' h; obtain ⟨v, hv, h⟩ := h
      simp only [pure, Except.pure, Except.ok.injEq] at h
      obtain ⟨w, rfl, hk⟩ := cipher_rel rx
      have := columns_sound ok hk (key_rel ry) (rel_cipher_iff.1 rx).2 hv (fun c' e => gc (fetch_ok hx) c' _ (by rw [e])) (go h.symm)
      subst h
      exact ⟨[.vec (flip w)], by simp only [idealStep, hsx, bind, Option.bind, onVec, pure], one this⟩
    · simp at h
  | wire x =>
    replace h := bind_ok' h; obtain ⟨a, ha, h⟩ := h
    replace h := bind_ok' h; obtain ⟨v, hv, h⟩ := h
    simp only [pure, Except.pure, Except.ok.injEq] at h; subst h
    obtain ⟨s, hs, ra⟩ := rel_get hr (fetch_ok ha)
    refine ⟨[s], by simp only [idealStep, hs, bind, Option.bind, pure], one ?_⟩
    cases a with
    | cipher c ctx =>
      cases c with
      | none => simp [wired] at hv
      | some c =>
        simp only [wired, Except.ok.injEq] at hv; subst hv
        obtain ⟨w, rfl, hk⟩ := cipher_rel ra
        exact ⟨hk, ra.2⟩
    | plain p ctx =>
      simp only [wired, Except.ok.injEq] at hv; subst hv
      obtain ⟨w, rfl, hk, hp⟩ := plain_rel ra
      exact ⟨hk, hp⟩
    | tensor d xs => simp only [wired, Except.ok.injEq] at hv; subst hv; exact ra
    | mat d l => simp only [wired, Except.ok.injEq] at hv; subst hv; exact ra
    | key c => simp only [wired, Except.ok.injEq] at hv; subst hv; exact ra
    | encoder d => simp only [wired, Except.ok.injEq] at hv; subst hv; exact ra

theorem run_prefix : ∀ {is : List Instr} {env env' : List (Val L.t C)}, L.run env is = .ok env' → ∃ rest, env' = env ++ rest
  | [], env, env', h => by simp only [Seal.run, Except.ok.injEq] at h; exact ⟨[], by simp [h]⟩
  | i :: is, env, env', h => by
    unfold Seal.run at h
    obtain ⟨vs, _, h⟩ := bind_ok' h
    obtain ⟨rest, hr⟩ := run_prefix h
    exact ⟨vs ++ rest, by rw [hr, List.append_assoc]⟩

/-- **C92** Whatever a BFV program returns is right: if it runs to the end (all keys belonging to one key pair, the numbers encoded
being in the range of the plaintext modulus, and no ciphertext out of noise budget), every value it made stands for the value
the specification computes with plain vectors of residues — whichever shortcuts for zero were taken and wherever values were
moved to another process. -/
theorem bfv_program_sound (ok : L.Ok) (k : Nat) : ∀ (prog : List Instr) (env env' : List (Val L.t C)) (sems : List (Sem L.t)),
    List.Forall₂ (Rel L k) env sems → L.run env prog = .ok env' → Fine L env' →
    ∃ sems', ideal L.h sems prog = some sems' ∧ List.Forall₂ (Rel L k) env' sems'
  | [], env, env', sems, hr, h, _ => by
    simp only [Seal.run, Except.ok.injEq] at h; subst h
    exact ⟨sems, rfl, hr⟩
  | i :: is, env, env', sems, hr, h, hf => by
    unfold Seal.run at h
    obtain ⟨vs, hv, h⟩ := bind_ok' h
    obtain ⟨rest, he⟩ := run_prefix h
    have fe : Fine L env := fine_of_mem hf (fun v hv => by rw [he]; simp [hv])
    have fv : Fine L vs := fine_of_mem hf (fun v hv => by rw [he]; simp [hv])
    obtain ⟨ss, hs, rs⟩ := step_sound ok hr fe hv fv
    obtain ⟨sems', h1, h2⟩ := bfv_program_sound ok k is (env ++ vs) env' (sems ++ ss) (List.rel_append hr rs) h hf
    exact ⟨sems', by simp only [ideal, hs, bind, Option.bind, h1], h2⟩

/-- **C92** In particular a decoded result is the list of the centred remainders of the specified vector, one per slot. -/
theorem bfv_decoded (ok : L.Ok) (k : Nat) {prog : List Instr} {env env' : List (Val L.t C)} {sems sems' : List (Sem L.t)}
    (hr : List.Forall₂ (Rel L k) env sems) (h : L.run env prog = .ok env') (hf : Fine L env') (hi : ideal L.h sems prog = some sems')
    {n : Nat} {d : String} {xs ys : List Int} (hx : env'[n]? = some (.tensor d xs)) (hy : sems'[n]? = some (.ints ys)) : xs = ys := by
  obtain ⟨s1, h1, h2⟩ := bfv_program_sound ok k prog env env' sems hr h hf
  rw [hi] at h1
  simp only [Option.some.injEq] at h1
  subst h1
  obtain ⟨s, hs, r⟩ := rel_get h2 hx
  rw [hy] at hs
  simp only [Option.some.injEq] at hs
  subst hs
  exact r.1

end Verif.Bfv
