import Verif.Mpc.Ec
import Mathlib.Data.Finset.Card
import Mathlib.Order.Interval.Finset.Nat
import Mathlib.Data.ZMod.Basic
/-
Model of the base oblivious transfer (Naor–Pinkas), /repo/mplang/libs/mpc/ot/base.py:36-222.

Random draws are inputs, so a theorem for all draws covers every execution.  The symmetric
cipher, the hash and the byte encoding of points are parameters.
-/
namespace Verif.Mpc

variable {A : Type} [AddCommGroup A] [DecidableEq A]

/-- Failure of a transfer: a curve operation raised, or authenticated decryption failed. -/
inductive OtErr
  | ec (e : EcErr)
  | decrypt
  deriving DecidableEq, Repr

/-- Lift a curve exception. -/
def liftEc {α : Type} : Except EcErr α → Except OtErr α
  | .ok a => .ok a
  | .error e => .error (.ec e)

/-- `_receiver_keygen_scalar(C, b)` with the drawn private key `k`: the public key sent to the
sender. /repo/mplang/libs/mpc/ot/base.py:36-64 -/
def receiverKeygen (C : Curve A) (Cpt : Option A) (b k : Int) : Except EcErr (Option A) :=
  let pkSigma := ecMul C (ecGen C) k
  let two := ecMul C pkSigma 2
  match ecSub C Cpt two with
  | .error e => .error e
  | .ok diff => ecAdd pkSigma (ecMul C diff b)

/-- Output of `_sender_derive_keys`: `U0, K0, U1, K1`. -/
structure SenderKeys (A : Type) where
  u0 : Option A
  k0 : Option A
  u1 : Option A
  k1 : Option A

/-- `_sender_derive_keys(C, PK0)` with the drawn ephemeral keys.
/repo/mplang/libs/mpc/ot/base.py:67-87 -/
def senderDeriveKeys (C : Curve A) (Cpt pk0 : Option A) (r0 r1 : Int) :
    Except EcErr (SenderKeys A) :=
  match ecSub C Cpt pk0 with
  | .error e => .error e
  | .ok pk1 => .ok
    { u0 := ecMul C (ecGen C) r0, k0 := ecMul C pk0 r0,
      u1 := ecMul C (ecGen C) r1, k1 := ecMul C pk1 r1 }

/-- `_receiver_derive_key`. /repo/mplang/libs/mpc/ot/base.py:90-104 -/
def receiverDeriveKey (C : Curve A) (u0 u1 : Option A) (k b : Int) : Except EcErr (Option A) :=
  match ecSub C u1 u0 with
  | .error e => .error e
  | .ok diff =>
    match ecAdd u0 (ecMul C diff b) with
    | .error e => .error e
    | .ok u => .ok (ecMul C u k)

/-- The symmetric layer used at base.py:171-178 and 200-206: the key of a point is
`hash_bytes(ec_point_to_bytes(K))`; encryption draws a nonce; decryption may fail. -/
structure Sym (A M Ct Key Nonce : Type) where
  keyOf : Option A → Key
  enc : Key → Nonce → M → Ct
  dec : Key → Ct → Option M

/-- The draws of one element of the batch together with its inputs. -/
structure OtElem (M Nonce : Type) where
  m0 : M
  m1 : M
  choice : Int
  k : Int
  r0 : Int
  r1 : Int
  n0 : Nonce
  n1 : Nonce

/-- The message of one element from sender to receiver: `u0, c0, u1, c1`. base.py:176-178 -/
structure OtMsg (A Ct : Type) where
  u0 : Option A
  c0 : Ct
  u1 : Option A
  c1 : Ct

/-- Apply a step to every element of the batch, stopping at the first exception:
`tensor.elementwise`, /repo/mplang/backends/tensor_impl.py:287-373. -/
def mapE {α β ε : Type} (f : α → Except ε β) : List α → Except ε (List β)
  | [] => .ok []
  | a :: as =>
    match f a with
    | .error e => .error e
    | .ok b =>
      match mapE f as with
      | .error e => .error e
      | .ok bs => .ok (b :: bs)

variable {M Ct Key Nonce : Type}

/-- `encrypt_elementwise`. /repo/mplang/libs/mpc/ot/base.py:164-178 -/
def encryptOne (C : Curve A) (S : Sym A M Ct Key Nonce) (Cpt : Option A)
    (x : OtElem M Nonce × Option A) : Except OtErr (OtMsg A Ct) :=
  match senderDeriveKeys C Cpt x.2 x.1.r0 x.1.r1 with
  | .error e => .error (.ec e)
  | .ok ks => .ok
    { u0 := ks.u0, c0 := S.enc (S.keyOf ks.k0) x.1.n0 x.1.m0,
      u1 := ks.u1, c1 := S.enc (S.keyOf ks.k1) x.1.n1 x.1.m1 }

/-- `decrypt_elementwise`, with `crypto.select` (crypto_impl.py:441-459).
/repo/mplang/libs/mpc/ot/base.py:198-206 -/
def decryptOne (C : Curve A) (S : Sym A M Ct Key Nonce)
    (x : OtElem M Nonce × OtMsg A Ct) : Except OtErr M :=
  match receiverDeriveKey C x.2.u0 x.2.u1 x.1.k x.1.choice with
  | .error e => .error (.ec e)
  | .ok kpt =>
    let v := if x.1.choice ≠ 0 then x.2.c1 else x.2.c0
    match S.dec (S.keyOf kpt) v with
    | none => .error .decrypt
    | some m => .ok m

/-- `transfer`: one common point, then key generation, encryption and decryption over the whole
batch. /repo/mplang/libs/mpc/ot/base.py:107-222.  The shuffles between the parties deliver values
unchanged (C19). -/
def transfer (C : Curve A) (S : Sym A M Ct Key Nonce) (r : Int) (es : List (OtElem M Nonce)) :
    Except OtErr (List M) :=
  let Cpt := ecMul C (ecGen C) r
  match mapE (fun e : OtElem M Nonce => liftEc (receiverKeygen C Cpt e.choice e.k)) es with
  | .error e => .error e
  | .ok pks =>
    match mapE (encryptOne C S Cpt) (es.zip pks) with
    | .error e => .error e
    | .ok msgs => mapE (decryptOne C S) (es.zip msgs)

/-! ### Correctness -/

variable {C : Curve A}

theorem keygen_val (hC : CurveOk C) {Cpt : Option A} {b k : Int} {pk : Option A}
    (hw : PtWf Cpt) (h : receiverKeygen C Cpt b k = .ok pk) :
    PtWf pk ∧ val pk = k • C.G + b • (val Cpt - 2 • (k • C.G)) := by
  unfold receiverKeygen at h
  have hσ := wf_mul hC (wf_gen hC) k
  have hvσ := val_mul hC (ecGen C) k
  cases hd : ecSub C Cpt (ecMul C (ecMul C (ecGen C) k) 2) with
  | error e => simp [hd] at h
  | ok d =>
    simp only [hd] at h
    have hwd := wf_sub hC hw (wf_mul hC hσ 2) hd
    have hvd := val_sub hC hd
    have hv := val_add h
    refine ⟨wf_add hσ (wf_mul hC hwd b) h, ?_⟩
    rw [hv, val_mul hC d, hvd, val_mul hC _ 2, hvσ]
    simp only [ecGen, val]
    congr 3
    exact_mod_cast (natCast_zsmul (k • C.G) 2)

/-- One element of the batch: whatever was drawn, if nothing raised the receiver's key is the
sender's key for the chosen message. -/
theorem key_agree (hC : CurveOk C) {Cpt : Option A} (hw : PtWf Cpt) {b k r0 r1 : Int}
    (hb : b = 0 ∨ b = 1) {pk kpt : Option A} {ks : SenderKeys A}
    (h1 : receiverKeygen C Cpt b k = .ok pk) (h2 : senderDeriveKeys C Cpt pk r0 r1 = .ok ks)
    (h3 : receiverDeriveKey C ks.u0 ks.u1 k b = .ok kpt) :
    kpt = if b ≠ 0 then ks.k1 else ks.k0 := by
  obtain ⟨hwpk, hvpk⟩ := keygen_val hC hw h1
  unfold senderDeriveKeys at h2
  cases hp1 : ecSub C Cpt pk with
  | error e => simp [hp1] at h2
  | ok pk1 =>
    simp only [hp1, Except.ok.injEq] at h2
    subst h2
    have hwpk1 := wf_sub hC hw hwpk hp1
    have hvpk1 := val_sub hC hp1
    unfold receiverDeriveKey at h3
    simp only at h3
    have hg := wf_gen hC
    cases hd : ecSub C (ecMul C (ecGen C) r1) (ecMul C (ecGen C) r0) with
    | error e => simp [hd] at h3
    | ok d =>
      simp only [hd] at h3
      have hwd := wf_sub hC (wf_mul hC hg r1) (wf_mul hC hg r0) hd
      have hvd := val_sub hC hd
      cases hu : ecAdd (ecMul C (ecGen C) r0) (ecMul C d b) with
      | error e => simp [hu] at h3
      | ok u =>
        simp only [hu, Except.ok.injEq] at h3
        have hwu := wf_add (wf_mul hC hg r0) (wf_mul hC hwd b) hu
        have hvu := val_add hu
        subst h3
        rw [val_mul hC, val_mul hC, hvd, val_mul hC, val_mul hC] at hvu
        rcases hb with rfl | rfl
        · simp only [ne_eq, not_true_eq_false, if_false]
          apply val_inj (wf_mul hC hwu k) (wf_mul hC hwpk r0)
          rw [val_mul hC, val_mul hC, hvu, hvpk]
          simp only [zero_zsmul, add_zero, ecGen, val]
          rw [← mul_zsmul, ← mul_zsmul, mul_comm]
        · simp only [ne_eq, one_ne_zero, not_false_eq_true, if_true]
          apply val_inj (wf_mul hC hwu k) (wf_mul hC hwpk1 r1)
          rw [val_mul hC, val_mul hC, hvu, hvpk1, hvpk]
          simp only [one_zsmul, ecGen, val]
          have e1 : r0 • C.G + (r1 • C.G - r0 • C.G) = r1 • C.G := by abel
          have e2 : val Cpt - (k • C.G + (val Cpt - 2 • k • C.G)) = k • C.G := by
            rw [two_nsmul]; abel
          rw [e1]
          have e3 := e2
          simp only [val] at e3
          cases Cpt with
          | none => simp only [val] at e2 ⊢; rw [e2, ← mul_zsmul, ← mul_zsmul, mul_comm]
          | some c => simp only [val] at e2 ⊢; rw [e2, ← mul_zsmul, ← mul_zsmul, mul_comm]

theorem mapE_get {α β ε : Type} {f : α → Except ε β} : ∀ {l : List α} {out : List β},
    mapE f l = .ok out → out.length = l.length ∧
      ∀ (i : Nat) (a : α), l[i]? = some a → ∃ b, f a = .ok b ∧ out[i]? = some b
  | [], out, h => by
    simp only [mapE, Except.ok.injEq] at h
    subst h
    exact ⟨rfl, fun i a h => by simp at h⟩
  | x :: l, out, h => by
    rw [mapE] at h
    cases hx : f x with
    | error e => simp [hx] at h
    | ok b =>
      cases hl : mapE f l with
      | error e => simp [hx, hl] at h
      | ok bs =>
        simp only [hx, hl, Except.ok.injEq] at h
        subst h
        obtain ⟨h1, h2⟩ := mapE_get hl
        refine ⟨by simp [h1], ?_⟩
        intro i a ha
        cases i with
        | zero => simp at ha; subst ha; exact ⟨b, hx, rfl⟩
        | succ i =>
          obtain ⟨c, hc1, hc2⟩ := h2 i a (by simpa using ha)
          exact ⟨c, hc1, by simpa using hc2⟩

theorem mapE_ok {α β ε : Type} {f : α → Except ε β} : ∀ {l : List α},
    (∀ a ∈ l, ∃ b, f a = .ok b) → ∃ out, mapE f l = .ok out
  | [], _ => ⟨[], rfl⟩
  | x :: l, h => by
    obtain ⟨b, hb⟩ := h x (by simp)
    obtain ⟨bs, hbs⟩ := mapE_ok (l := l) (fun a ha => h a (by simp [ha]))
    exact ⟨b :: bs, by simp [mapE, hb, hbs]⟩

/-- The message an element's choice bit selects. -/
def chosen (e : OtElem M Nonce) : M := if e.choice = 1 then e.m1 else e.m0

/-- **C44**: whatever points and scalars were drawn, if the transfer returns then it returns, at
every index, exactly the message selected by that index's choice bit. -/
theorem base_ot_correct (C : Curve A) (hC : CurveOk C) (S : Sym A M Ct Key Nonce)
    (hS : ∀ k n m, S.dec k (S.enc k n m) = some m) (r : Int) (es : List (OtElem M Nonce))
    (hb : ∀ e ∈ es, e.choice = 0 ∨ e.choice = 1) (out : List M)
    (h : transfer C S r es = .ok out) : out = es.map chosen := by
  unfold transfer at h
  simp only at h
  cases h1 : mapE (fun e : OtElem M Nonce =>
      liftEc (receiverKeygen C (ecMul C (ecGen C) r) e.choice e.k)) es with
  | error e => simp [h1] at h
  | ok pks =>
    simp only [h1] at h
    cases h2 : mapE (encryptOne C S (ecMul C (ecGen C) r)) (es.zip pks) with
    | error e => simp [h2] at h
    | ok msgs =>
      simp only [h2] at h
      obtain ⟨l1, g1⟩ := mapE_get h1
      obtain ⟨l2, g2⟩ := mapE_get h2
      obtain ⟨l3, g3⟩ := mapE_get h
      simp only [List.length_zip] at l2 l3
      apply List.ext_getElem?
      intro i
      by_cases hi : i < es.length
      · have he : es[i]? = some es[i] := List.getElem?_eq_getElem hi
        obtain ⟨pk, hpk1, hpk2⟩ := g1 i _ he
        have hz : (es.zip pks)[i]? = some (es[i], pk) := by
          rw [List.getElem?_zip_eq_some]; exact ⟨he, hpk2⟩
        obtain ⟨msg, hm1, hm2⟩ := g2 i _ hz
        have hz2 : (es.zip msgs)[i]? = some (es[i], msg) := by
          rw [List.getElem?_zip_eq_some]; exact ⟨he, hm2⟩
        obtain ⟨res, hr1, hr2⟩ := g3 i _ hz2
        rw [hr2, List.getElem?_map, he]
        simp only [Option.map_some, Option.some.injEq]
        have hbi := hb es[i] (List.getElem_mem hi)
        generalize es[i] = e at *
        have hk : receiverKeygen C (ecMul C (ecGen C) r) e.choice e.k = .ok pk := by
          cases hq : receiverKeygen C (ecMul C (ecGen C) r) e.choice e.k with
          | error _ => simp [liftEc, hq] at hpk1
          | ok q => simpa [liftEc, hq] using hpk1
        unfold encryptOne at hm1
        simp only at hm1
        cases hs : senderDeriveKeys C (ecMul C (ecGen C) r) pk e.r0 e.r1 with
        | error _ => simp [hs] at hm1
        | ok ks =>
          simp only [hs, Except.ok.injEq] at hm1
          subst hm1
          unfold decryptOne at hr1
          simp only at hr1
          cases hd : receiverDeriveKey C ks.u0 ks.u1 e.k e.choice with
          | error _ => simp [hd] at hr1
          | ok kpt =>
            simp only [hd] at hr1
            have ha := key_agree hC (wf_mul hC (wf_gen hC) r) hbi hk hs hd
            rcases hbi with hb0 | hb1
            · simp only [hb0, ne_eq, not_true_eq_false, if_false] at ha hr1
              rw [ha, hS] at hr1
              simp only [Except.ok.injEq] at hr1
              rw [← hr1]; unfold chosen; rw [hb0]; rfl
            · simp only [hb1, ne_eq, one_ne_zero, not_false_eq_true, if_true] at ha hr1
              rw [ha, hS] at hr1
              simp only [Except.ok.injEq] at hr1
              rw [← hr1]; unfold chosen; rw [hb1]; rfl
      · rw [List.getElem?_eq_none (by omega), List.getElem?_eq_none (by simp; omega)]

theorem smul_gen_eq (hC : CurveOk C) (x y : Int) :
    x • C.G = y • C.G ↔ x % (C.N : Int) = y % (C.N : Int) := by
  rw [← sub_eq_zero, sub_eq_add_neg, ← sub_zsmul, zsmul_eq_zero_iff hC hC.gen]
  exact Int.emod_eq_emod_iff_emod_sub_eq_zero.symm

/-- The draws of an element are ordinary for the common scalar `r`: none of the finitely many
coincidences modulo the group order on which a curve operation raises. -/
structure Ordinary (C : Curve A) (r : Int) (e : OtElem M Nonce) : Prop where
  k0 : e.k % C.N ≠ 0
  rk : (r - e.k) % C.N ≠ 0
  r2k : (r - 2 * e.k) % C.N ≠ 0
  e0 : e.r0 % C.N ≠ 0
  e1 : e.r1 % C.N ≠ 0
  e01 : (e.r0 - e.r1) % C.N ≠ 0

theorem ne_of_mod (hC : CurveOk C) {x y : Int} (h : (x - y) % (C.N : Int) ≠ 0) :
    x • C.G ≠ y • C.G := by
  intro he
  apply h
  rw [← sub_eq_zero, sub_eq_add_neg, ← sub_zsmul, zsmul_eq_zero_iff hC hC.gen] at he
  exact he

/-- **C44**: the transfer returns for all ordinary draws (so a failure has probability at most
`6 / N` per element). -/
theorem base_ot_total (C : Curve A) (hC : CurveOk C) (S : Sym A M Ct Key Nonce)
    (hS : ∀ k n m, S.dec k (S.enc k n m) = some m) (r : Int) (es : List (OtElem M Nonce))
    (hb : ∀ e ∈ es, e.choice = 0 ∨ e.choice = 1) (ho : ∀ e ∈ es, Ordinary C r e) :
    transfer C S r es = .ok (es.map chosen) := by
  have hwC : PtWf (ecMul C (ecGen C) r) := wf_mul hC (wf_gen hC) r
  have hvC : val (ecMul C (ecGen C) r) = r • C.G := val_mul hC _ _
  -- key generation
  have s1 : ∀ e ∈ es, ∃ pk, liftEc (receiverKeygen C (ecMul C (ecGen C) r) e.choice e.k) = .ok pk := by
    intro e he
    have o := ho e he
    obtain ⟨d, hd⟩ : ∃ d, ecSub C (ecMul C (ecGen C) r) (ecMul C (ecMul C (ecGen C) e.k) 2) = .ok d := by
      apply sub_ok hC
      right; right
      rw [hvC, val_mul hC, val_mul hC]
      simp only [ecGen, val]
      rw [← mul_zsmul]
      exact ne_of_mod hC (by simpa using o.r2k)
    have hvd := val_sub hC hd
    obtain ⟨pk, hpk⟩ : ∃ pk, ecAdd (ecMul C (ecGen C) e.k) (ecMul C d e.choice) = .ok pk := by
      rcases hb e he with h0 | h1
      · refine ⟨ecMul C (ecGen C) e.k, ?_⟩
        have : ecMul C d e.choice = none := by rw [h0]; simp [ecMul]
        rw [this]
        cases ecMul C (ecGen C) e.k <;> rfl
      · apply add_ok
        right; right
        rw [h1, val_mul hC, val_mul hC, hvd, hvC, val_mul hC, val_mul hC, one_zsmul]
        simp only [ecGen, val]
        rw [← mul_zsmul]
        intro hz
        apply ne_of_mod hC o.rk
        have : (2 * e.k) • C.G = e.k • C.G + e.k • C.G := by rw [two_mul, add_zsmul]
        rw [this] at hz
        have e1 : e.k • C.G + (r • C.G - (e.k • C.G + e.k • C.G)) = r • C.G - e.k • C.G := by abel
        rw [e1, sub_eq_zero] at hz
        exact hz
    exact ⟨pk, by simp [receiverKeygen, hd, hpk, liftEc]⟩
  obtain ⟨pks, h1⟩ := mapE_ok s1
  obtain ⟨l1, g1⟩ := mapE_get h1
  have s2 : ∀ x ∈ es.zip pks, ∃ m, encryptOne C S (ecMul C (ecGen C) r) x = .ok m := by
    intro x hx
    obtain ⟨i, hi⟩ := List.mem_iff_getElem?.1 hx
    rw [List.getElem?_zip_eq_some] at hi
    obtain ⟨pk, hpk1, hpk2⟩ := g1 i _ hi.1
    have hpk : pk = x.2 := by rw [hi.2] at hpk2; exact (Option.some.inj hpk2).symm
    have he : x.1 ∈ es := List.mem_of_getElem? hi.1
    have o := ho _ he
    have hk : receiverKeygen C (ecMul C (ecGen C) r) x.1.choice x.1.k = .ok x.2 := by
      cases hq : receiverKeygen C (ecMul C (ecGen C) r) x.1.choice x.1.k with
      | error _ => simp [liftEc, hq] at hpk1
      | ok q => rw [← hpk]; simpa [liftEc, hq] using hpk1
    obtain ⟨hwpk, hvpk⟩ := keygen_val hC hwC hk
    obtain ⟨pk1, hp1⟩ : ∃ p, ecSub C (ecMul C (ecGen C) r) x.2 = .ok p := by
      apply sub_ok hC
      right; right
      rw [hvpk, hvC]
      intro hz
      rcases hb _ he with h0 | h1
      · rw [h0, zero_zsmul, add_zero] at hz
        exact ne_of_mod hC o.rk hz
      · rw [h1, one_zsmul, two_nsmul] at hz
        have : x.1.k • C.G = (0 : Int) • C.G := by
          rw [zero_zsmul]
          have e2 : x.1.k • C.G + (r • C.G - (x.1.k • C.G + x.1.k • C.G)) = r • C.G - x.1.k • C.G := by
            abel
          rw [e2] at hz
          have := sub_eq_zero.2 hz
          have e3 : r • C.G - (r • C.G - x.1.k • C.G) = x.1.k • C.G := by abel
          rw [e3] at this; exact this
        exact ne_of_mod hC (x := x.1.k) (y := 0) (by simpa using o.k0) this
    exact ⟨_, by simp [encryptOne, senderDeriveKeys, hp1]; rfl⟩
  obtain ⟨msgs, h2⟩ := mapE_ok s2
  obtain ⟨l2, g2⟩ := mapE_get h2
  have s3 : ∀ x ∈ es.zip msgs, ∃ m, decryptOne C S x = .ok m := by
    intro x hx
    obtain ⟨i, hi⟩ := List.mem_iff_getElem?.1 hx
    rw [List.getElem?_zip_eq_some] at hi
    obtain ⟨pk, hpk1, hpk2⟩ := g1 i _ hi.1
    have he : x.1 ∈ es := List.mem_of_getElem? hi.1
    have o := ho _ he
    have hz : (es.zip pks)[i]? = some (x.1, pk) := by
      rw [List.getElem?_zip_eq_some]; exact ⟨hi.1, hpk2⟩
    obtain ⟨msg, hm1, hm2⟩ := g2 i _ hz
    have hmx : msg = x.2 := by rw [hi.2] at hm2; exact (Option.some.inj hm2).symm
    subst hmx
    have hk : receiverKeygen C (ecMul C (ecGen C) r) x.1.choice x.1.k = .ok pk := by
      cases hq : receiverKeygen C (ecMul C (ecGen C) r) x.1.choice x.1.k with
      | error _ => simp [liftEc, hq] at hpk1
      | ok q => simpa [liftEc, hq] using hpk1
    unfold encryptOne at hm1
    simp only at hm1
    cases hs : senderDeriveKeys C (ecMul C (ecGen C) r) pk x.1.r0 x.1.r1 with
    | error _ => simp [hs] at hm1
    | ok ks =>
      simp only [hs, Except.ok.injEq] at hm1
      have hu0 : ks.u0 = ecMul C (ecGen C) x.1.r0 ∧ ks.u1 = ecMul C (ecGen C) x.1.r1 := by
        unfold senderDeriveKeys at hs
        cases hp1 : ecSub C (ecMul C (ecGen C) r) pk with
        | error _ => simp [hp1] at hs
        | ok p => simp only [hp1, Except.ok.injEq] at hs; subst hs; exact ⟨rfl, rfl⟩
      obtain ⟨d, hd⟩ : ∃ d, ecSub C ks.u1 ks.u0 = .ok d := by
        apply sub_ok hC
        right; right
        rw [hu0.1, hu0.2, val_mul hC, val_mul hC]
        exact fun h => ne_of_mod hC o.e01 h.symm
      have hvd := val_sub hC hd
      obtain ⟨u, hu⟩ : ∃ u, ecAdd ks.u0 (ecMul C d x.1.choice) = .ok u := by
        rcases hb _ he with h0 | h1
        · refine ⟨ks.u0, ?_⟩
          have : ecMul C d x.1.choice = none := by rw [h0]; simp [ecMul]
          rw [this]
          cases ks.u0 <;> rfl
        · apply add_ok
          right; right
          rw [h1, val_mul hC, one_zsmul, hvd, hu0.1, hu0.2, val_mul hC, val_mul hC]
          simp only [ecGen, val]
          have e1 : x.1.r0 • C.G + (x.1.r1 • C.G - x.1.r0 • C.G) = x.1.r1 • C.G := by abel
          rw [e1, Ne, zsmul_eq_zero_iff hC hC.gen]
          exact o.e1
      have hr : receiverDeriveKey C ks.u0 ks.u1 x.1.k x.1.choice = .ok (ecMul C u x.1.k) := by
        simp [receiverDeriveKey, hd, hu]
      have ha := key_agree hC hwC (hb _ he) hk hs hr
      rcases hb _ he with h0 | h1
      · simp only [h0, ne_eq, not_true_eq_false, if_false] at ha
        refine ⟨x.1.m0, ?_⟩
        unfold decryptOne
        rw [← hm1]
        simp only
        rw [hr]
        simp [h0, ha, hS]
      · simp only [h1, ne_eq, one_ne_zero, not_false_eq_true, if_true] at ha
        refine ⟨x.1.m1, ?_⟩
        unfold decryptOne
        rw [← hm1]
        simp only
        rw [hr]
        simp [h1, ha, hS]
  obtain ⟨out, h3⟩ := mapE_ok s3
  have ht : transfer C S r es = .ok out := by
    unfold transfer
    simp only
    rw [h1]
    simp only
    rw [h2]
    exact h3
  rw [ht, base_ot_correct C hC S hS r es hb out ht]

/-! ### The choice bit is hidden -/

theorem keygen_ok_iff (hC : CurveOk C) {Cpt P : Option A} (hw : PtWf Cpt) (hP : PtWf P)
    (hn : P ≠ none) {b : Int} (hb : b = 0 ∨ b = 1) (k : Int) :
    receiverKeygen C Cpt b k = .ok P ↔
      (Cpt = none ∨ val Cpt ≠ (2 * k) • C.G) ∧
        val P = if b = 1 then val Cpt - k • C.G else k • C.G := by
  have hPv : val P ≠ 0 := by
    cases P with
    | none => exact absurd rfl hn
    | some a => exact hP a rfl
  have hvσ : val (ecMul C (ecGen C) k) = k • C.G := val_mul hC _ _
  have hv2 : val (ecMul C (ecMul C (ecGen C) k) 2) = (2 * k) • C.G := by
    rw [val_mul hC, hvσ, ← mul_zsmul]
  have h2 : (2 : Nat) • (k • C.G) = (2 * k) • C.G := by rw [two_nsmul, two_mul, add_zsmul]
  have hval : ∀ x, receiverKeygen C Cpt b k = .ok x →
      val x = if b = 1 then val Cpt - k • C.G else k • C.G := by
    intro x hx
    obtain ⟨_, hv⟩ := keygen_val hC hw hx
    rw [hv]
    rcases hb with rfl | rfl
    · simp
    · simp only [one_zsmul, if_true, two_nsmul]; abel
  constructor
  · intro h
    refine ⟨?_, hval P h⟩
    by_contra hc
    rw [not_or] at hc
    obtain ⟨hc1, hc2⟩ := hc
    rw [not_not] at hc2
    unfold receiverKeygen at h
    simp only at h
    cases Cpt with
    | none => exact hc1 rfl
    | some c =>
      have : ecMul C (ecMul C (ecGen C) k) 2 = some c := by
        apply val_inj (wf_mul hC (wf_mul hC (wf_gen hC) k) 2) hw
        rw [hv2, ← hc2]
      rw [this] at h
      have hs : ecSub C (some c) (some c) = .error .infinity := by
        simp only [ecSub, combine]
        rw [neg_smul_one hC]
        exact if_pos (add_neg_cancel c)
      rw [hs] at h
      cases h
  · rintro ⟨h1, hv⟩
    obtain ⟨d, hd⟩ : ∃ d, ecSub C Cpt (ecMul C (ecMul C (ecGen C) k) 2) = .ok d := by
      apply sub_ok hC
      rcases h1 with h1 | h1
      · exact Or.inl h1
      · right; right; rw [hv2]; exact h1
    have hvd := val_sub hC hd
    obtain ⟨x, hx⟩ : ∃ x, ecAdd (ecMul C (ecGen C) k) (ecMul C d b) = .ok x := by
      rcases hb with rfl | rfl
      · refine ⟨ecMul C (ecGen C) k, ?_⟩
        have : ecMul C d 0 = none := by simp [ecMul]
        rw [this]
        cases ecMul C (ecGen C) k <;> rfl
      · apply add_ok
        right; right
        rw [val_mul hC d, one_zsmul, hvd, hvσ, hv2]
        simp only [if_true] at hv
        have e : k • C.G + (val Cpt - (2 * k) • C.G) = val P := by
          rw [hv, two_mul, add_zsmul]; abel
        rw [e]; exact hPv
    have hr : receiverKeygen C Cpt b k = .ok x := by simp [receiverKeygen, hd, hx]
    rw [hr]
    congr 1
    exact val_inj (keygen_val hC hw hr).1 hP (by rw [hval x hr, hv])

/-- **C63**: the receiver's message does not depend on its choice bit: for every common point
and every point `P`, exactly as many private keys make the receiver send `P` when it wants
message 0 as when it wants message 1. -/
theorem base_ot_choice_hidden (C : Curve A) (hC : CurveOk C) (r : Int) (P : Option A)
    (hP : PtWf P) (hn : P ≠ none) :
    ((Finset.range C.N).filter fun k : Nat =>
        receiverKeygen C (ecMul C (ecGen C) r) 0 k = .ok P).card =
    ((Finset.range C.N).filter fun k : Nat =>
        receiverKeygen C (ecMul C (ecGen C) r) 1 k = .ok P).card := by
  have hN : 0 < (C.N : Int) := by exact_mod_cast hC.prime.pos
  have hw : PtWf (ecMul C (ecGen C) r) := wf_mul hC (wf_gen hC) r
  have hvC : val (ecMul C (ecGen C) r) = r • C.G := val_mul hC _ _
  let φ : Nat → Nat := fun k => ((r - k) % (C.N : Int)).toNat
  have hφ : ∀ k : Nat, ((φ k : Nat) : Int) = (r - k) % (C.N : Int) := fun k =>
    Int.toNat_of_nonneg (Int.emod_nonneg _ (by omega))
  have hφlt : ∀ k : Nat, φ k < C.N := by
    intro k
    have := Int.emod_lt_of_pos (r - k) hN
    have h := hφ k
    omega
  have hφφ : ∀ k, k < C.N → φ (φ k) = k := by
    intro k hk
    have h : ((φ (φ k) : Nat) : Int) = (k : Int) := by
      rw [hφ, hφ, Int.sub_emod, Int.emod_emod_of_dvd _ (dvd_refl _), ← Int.sub_emod]
      have : r - (r - (k : Int)) = k := by omega
      rw [this]
      exact Int.emod_eq_of_lt (by omega) (by exact_mod_cast hk)
    exact_mod_cast h
  have hφG : ∀ k : Nat, (φ k : Int) • C.G = r • C.G - (k : Int) • C.G := by
    intro k
    rw [hφ, mod_smul hC, sub_zsmul, sub_eq_add_neg]
  have key : ∀ (b : Int), (b = 0 ∨ b = 1) → ∀ k : Nat,
      receiverKeygen C (ecMul C (ecGen C) r) b k = .ok P →
      receiverKeygen C (ecMul C (ecGen C) r) (1 - b) (φ k) = .ok P := by
    intro b hb k h
    rw [keygen_ok_iff hC hw hP hn hb] at h
    rw [keygen_ok_iff hC hw hP hn (by omega)]
    rw [hvC] at h ⊢
    obtain ⟨h1, h2⟩ := h
    constructor
    · rcases h1 with h1 | h1
      · exact Or.inl h1
      · right
        rw [two_mul, add_zsmul, hφG]
        rw [two_mul, add_zsmul] at h1
        intro he
        apply h1
        have e : r • C.G - (k : Int) • C.G + (r • C.G - (k : Int) • C.G)
            = r • C.G + (r • C.G - ((k : Int) • C.G + (k : Int) • C.G)) := by abel
        rw [e] at he
        have h3 := left_eq_add.1 he
        exact sub_eq_zero.1 h3
    · rcases hb with rfl | rfl
      · simp only [zero_ne_one, if_false] at h2
        simp only [sub_zero, if_true]
        rw [hφG, h2]; abel
      · simp only [if_true] at h2
        simp only [sub_self, zero_ne_one, if_false]
        rw [hφG, h2]
  apply Finset.card_nbij' φ φ
  · intro k hk
    simp only [Finset.coe_filter, Finset.mem_range, Set.mem_setOf_eq] at hk ⊢
    exact ⟨hφlt k, by simpa using key 0 (Or.inl rfl) k hk.2⟩
  · intro k hk
    simp only [Finset.coe_filter, Finset.mem_range, Set.mem_setOf_eq] at hk ⊢
    exact ⟨hφlt k, by simpa using key 1 (Or.inr rfl) k hk.2⟩
  · intro k hk
    simp only [Finset.coe_filter, Finset.mem_range, Set.mem_setOf_eq] at hk
    exact hφφ k hk.1
  · intro k hk
    simp only [Finset.coe_filter, Finset.mem_range, Set.mem_setOf_eq] at hk
    exact hφφ k hk.1

/-! ### The hypotheses are met -/

/-- A curve stand-in of prime order 11, for the examples only. -/
def toyCurve : Curve (ZMod 11) := ⟨11, 1⟩

theorem toyCurve_ok : CurveOk toyCurve := ⟨by decide, by decide, by decide⟩

/-- A cipher stand-in, for the examples only. -/
def toySym : Sym (ZMod 11) Nat (Nat × Nat) Nat Nat :=
  { keyOf := fun p => (val p).val * 7 + 1
    enc := fun k n m => (n, m + k)
    dec := fun k c => if k ≤ c.2 then some (c.2 - k) else none }

theorem toySym_ok (k n m : Nat) : toySym.dec k (toySym.enc k n m) = some m := by
  simp [toySym]

/-- Two transfers with different choice bits. -/
def toyElems : List (OtElem Nat Nat) :=
  [⟨10, 20, 1, 3, 4, 6, 0, 1⟩, ⟨30, 40, 0, 5, 2, 9, 2, 3⟩]

example : (∀ e ∈ toyElems, e.choice = 0 ∨ e.choice = 1) ∧ (∀ e ∈ toyElems, Ordinary toyCurve 7 e) ∧
    transfer toyCurve toySym 7 toyElems = .ok [20, 30] := by
  have hb : ∀ e ∈ toyElems, e.choice = 0 ∨ e.choice = 1 := by decide
  have ho : ∀ e ∈ toyElems, Ordinary toyCurve 7 e := by
    intro e he
    simp only [toyElems, List.mem_cons, List.not_mem_nil, or_false] at he
    rcases he with rfl | rfl <;> constructor <;> decide
  exact ⟨hb, ho, base_ot_total toyCurve toyCurve_ok toySym toySym_ok 7 toyElems hb ho⟩

example : PtWf (some (3 : ZMod 11)) ∧ (some (3 : ZMod 11)) ≠ none ∧
    receiverKeygen toyCurve (ecMul toyCurve (ecGen toyCurve) 7) 0 3 = .ok (some 3) ∧
    receiverKeygen toyCurve (ecMul toyCurve (ecGen toyCurve) 7) 1 4 = .ok (some 3) := by
  refine ⟨?_, by decide, by rfl, by rfl⟩
  intro a ha; cases ha; decide

end Verif.Mpc
