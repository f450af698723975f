import Verif.Mpc.BaseOt
import Verif.Kern.Gf128
/-
Model of the OT extension, /repo/mplang/libs/mpc/ot/extension.py.

Bit matrices are functions on index types, so the shapes are those the JAX code fixes.
Random draws, the hash and the AES expansion are parameters.
-/
namespace Verif.Mpc
open Verif.Kern

variable {A : Type} [AddCommGroup A] [DecidableEq A]

/-- `K = 128`. /repo/mplang/libs/mpc/ot/extension.py:118 -/
abbrev iknpK : Nat := 128

/-- A row of 32 bytes. -/
abbrev Bytes32 := Fin 32 → Nat

/-- `jnp.bitwise_xor` on two rows of 32 bytes. extension.py:263-264 -/
def xor32 (a b : Bytes32) : Bytes32 := fun i => a i ^^^ b i

/-- Little-endian word of eight bytes starting at `o`: `view(uint64)`. -/
def leWord (s : Bytes32) (o : Nat) (h : o + 8 ≤ 32) : Nat :=
  (List.finRange 8).foldr (fun (i : Fin 8) acc => s ⟨o + i.val, by have := i.isLt; omega⟩ + 256 * acc) 0

/-- `_reshape_seeds`: the first 16 bytes as two words.
/repo/mplang/libs/mpc/ot/extension.py:47-51 -/
def seedBlk (s : Bytes32) : Blk := (leWord s 0 (by omega), leWord s 8 (by omega))

/-- Bit `p` of a 128-bit block viewed as bytes and unpacked little-endian. extension.py:62-63 -/
def blkBit (b : Blk) (p : Nat) : Bool := if p < 64 then b.1.testBit p else b.2.testBit (p - 64)

/-- The environment of the protocol: hash of the bytes of a point (crypto_impl.py:292-309),
hash of a byte row (crypto_impl.py:312-341) and `field.aes_expand` (field_impl.py:330-376): key,
number of blocks asked for, block index. -/
structure IknpEnv (A : Type) where
  keyOf : Option A → Bytes32
  hash : List Nat → Bytes32
  aes : Blk → Nat → Nat → Blk

/-- `prg_expand(seed, length)`, bit `j` of the row. /repo/mplang/libs/mpc/ot/extension.py:31-69 -/
def prgBit (E : IknpEnv A) (seed : Bytes32) (length j : Nat) : Bool :=
  blkBit (E.aes (seedBlk seed) ((length + 127) / 128) (j / 128)) (j % 128)

/-- The draws of one base OT: choice bit `s_i`, the two seeds, the receiver's private key and
the sender's ephemeral key. extension.py:121-141, 166, 233 -/
structure BaseDraw where
  s : Bool
  k0 : Bytes32
  k1 : Bytes32
  kp : Int
  r : Int

/-- One of the 128 inlined base OTs: key generation (extension.py:165-183), encryption
(extension.py:225-268) and decryption (extension.py:305-339).  The code runs the three phases
for all indices one after the other; as the indices are independent an index succeeds in the
code iff it succeeds here.  Rejecting the identity already when it is read from bytes
(`viaBytes`) raises in the same runs as the code, where the operation that uses it raises:
a public key is always used by `ec_sub`, and `U` by `ec_mul` with a private key which, when it
is zero modulo the order, has already made the `ec_sub` of that index raise. -/
def iknpBaseOne (C : Curve A) (E : IknpEnv A) (Cpt : Option A) (d : BaseDraw) :
    Except EcErr Bytes32 :=
  let pkSigma := ecMul C (ecGen C) d.kp
  match ecSub C Cpt pkSigma with
  | .error e => .error e
  | .ok diff =>
    match viaBytes (if d.s then diff else pkSigma) with
    | .error e => .error e
    | .ok pk0 =>
      match viaBytes (ecMul C (ecGen C) d.r) with
      | .error e => .error e
      | .ok u =>
        match ecSub C Cpt pk0 with
        | .error e => .error e
        | .ok pk1 =>
          let c0 := xor32 d.k0 (E.keyOf (ecMul C pk0 d.r))
          let c1 := xor32 d.k1 (E.keyOf (ecMul C pk1 d.r))
          let sk := E.keyOf (ecMul C u d.kp)
          .ok (xor32 (if d.s = false then c0 else c1) sk)

/-- Run a step for every index, stopping at the first exception. -/
def seqFin {ε α : Type} : {n : Nat} → (Fin n → Except ε α) → Except ε (Fin n → α)
  | 0, _ => .ok Fin.elim0
  | n + 1, f =>
    match f 0 with
    | .error e => .error e
    | .ok a =>
      match seqFin (fun i : Fin n => f i.succ) with
      | .error e => .error e
      | .ok g => .ok (Fin.cons a g)

/-- The choice input: a vector `(N,)`, a matrix `(N, 128)`, or a column `(N, 1)` as passed by the
VOLE. extension.py:354-363 -/
inductive Choice (n : Nat)
  | vec (r : Fin n → Bool)
  | mat (r : Fin n → Fin iknpK → Bool)
  | col (r : Fin n → Bool)

/-- Entry of the broadcast choice matrix for OT `j` and base index `i`.
/repo/mplang/libs/mpc/ot/extension.py:354-370 -/
def Choice.bit {n : Nat} (c : Choice n) (j : Fin n) (i : Fin iknpK) : Bool :=
  match c with
  | .vec r => r j
  | .mat r => r j i
  | .col r => r j

/-- Result of `iknp_core`: `t` and `s` on the sender, `q` on the receiver. -/
structure IknpOut (n : Nat) where
  t : Fin n → Fin iknpK → Bool
  q : Fin n → Fin iknpK → Bool
  s : Fin iknpK → Bool

/-- `iknp_core`. /repo/mplang/libs/mpc/ot/extension.py:108-403.  `rC` is the drawn scalar of the
common point. -/
def iknpCore (C : Curve A) (E : IknpEnv A) (rC : Int) (ds : Fin iknpK → BaseDraw) {n : Nat}
    (choice : Choice n) : Except EcErr (IknpOut n) :=
  let Cpt := ecMul C (ecGen C) rC
  match seqFin (fun i => iknpBaseOne C E Cpt (ds i)) with
  | .error e => .error e
  | .ok ks =>
    let u : Fin iknpK → Fin n → Bool := fun i j =>
      Bool.xor (Bool.xor (prgBit E (ds i).k0 n j) (prgBit E (ds i).k1 n j)) (choice.bit j i)
    .ok
      { t := fun j i => Bool.xor (prgBit E (ks i) n j) (u i j && (ds i).s)
        q := fun j i => prgBit E (ds i).k0 n j
        s := fun i => (ds i).s }

/-- Bytes of a row of bits stored as uint8. -/
def rowBytes (row : Fin iknpK → Bool) : List Nat :=
  (List.finRange iknpK).map fun i => if row i then 1 else 0

/-- `vec_hash(row, domain_sep = 1)`: eight little-endian bytes of the separator, then the row.
/repo/mplang/libs/mpc/ot/extension.py:72-105 -/
def vecHash (E : IknpEnv A) (row : Fin iknpK → Bool) : Bytes32 :=
  E.hash ([1, 0, 0, 0, 0, 0, 0, 0] ++ rowBytes row)

/-- Failure of an extended transfer. -/
inductive ExtErr
  | ec (e : EcErr)
  | shape
  deriving DecidableEq, Repr

/-- `transfer_extension` for messages of `d` bytes. The mask has 32 bytes and is sliced to the
message length, so longer messages make the xor fail on shapes.
/repo/mplang/libs/mpc/ot/extension.py:410-477 -/
def transferExt (C : Curve A) (E : IknpEnv A) (rC : Int) (ds : Fin iknpK → BaseDraw) {n d : Nat}
    (m0 m1 : Fin n → Fin d → Nat) (r : Fin n → Bool) : Except ExtErr (Fin n → Fin d → Nat) :=
  match iknpCore C E rC ds (Choice.vec r) with
  | .error e => .error (.ec e)
  | .ok o =>
    if h : d ≤ 32 then
      let mask (b : Bytes32) (x : Fin d) : Nat := b ⟨x, by omega⟩
      let c0 : Fin n → Fin d → Nat := fun j x => m0 j x ^^^ mask (vecHash E (o.t j)) x
      let c1 : Fin n → Fin d → Nat := fun j x =>
        m1 j x ^^^ mask (vecHash E (fun i => Bool.xor (o.t j i) (o.s i))) x
      .ok fun j x =>
        let hq := mask (vecHash E (o.q j)) x
        if r j = true then c1 j x ^^^ hq else c0 j x ^^^ hq
    else .error .shape

/-! ### Properties -/

theorem seqFin_ok {ε α : Type} : ∀ {n : Nat} {f : Fin n → Except ε α} {g : Fin n → α},
    seqFin f = .ok g → ∀ i, f i = .ok (g i)
  | 0, _, _, _, i => i.elim0
  | n + 1, f, g, h, i => by
    rw [seqFin] at h
    cases h0 : f 0 with
    | error e => simp [h0] at h
    | ok a =>
      cases h1 : seqFin (fun i : Fin n => f i.succ) with
      | error e => simp [h0, h1] at h
      | ok g' =>
        simp only [h0, h1, Except.ok.injEq] at h
        subst h
        refine Fin.cases ?_ (fun k => ?_) i
        · simpa using h0
        · simpa using seqFin_ok h1 k

theorem seqFin_total {ε α : Type} : ∀ {n : Nat} {f : Fin n → Except ε α},
    (∀ i, ∃ a, f i = .ok a) → ∃ g, seqFin f = .ok g
  | 0, _, _ => ⟨Fin.elim0, rfl⟩
  | n + 1, f, h => by
    obtain ⟨a, ha⟩ := h 0
    obtain ⟨g, hg⟩ := seqFin_total (f := fun i : Fin n => f i.succ) (fun i => h i.succ)
    exact ⟨Fin.cons a g, by simp [seqFin, ha, hg]⟩

theorem xor32_cancel (a b : Bytes32) : xor32 (xor32 a b) b = a := by
  funext i; simp [xor32, Nat.xor_assoc]

variable {C : Curve A}

theorem wf_via {p x : Option A} (h : viaBytes p = .ok x) : x = p ∧ p ≠ none := by
  cases p with
  | none => cases h
  | some a => cases h; exact ⟨rfl, by simp⟩

/-- One inlined base OT delivers the seed selected by `s_i`. -/
theorem iknpBaseOne_ok (hC : CurveOk C) {E : IknpEnv A} {Cpt : Option A} (hw : PtWf Cpt)
    {d : BaseDraw} {k : Bytes32} (h : iknpBaseOne C E Cpt d = .ok k) :
    k = if d.s then d.k1 else d.k0 := by
  unfold iknpBaseOne at h
  simp only at h
  have hwσ := wf_mul hC (wf_gen hC) d.kp
  have hvσ := val_mul hC (ecGen C) d.kp
  cases hd : ecSub C Cpt (ecMul C (ecGen C) d.kp) with
  | error e => simp [hd] at h
  | ok diff =>
    simp only [hd] at h
    have hwd := wf_sub hC hw hwσ hd
    have hvd := val_sub hC hd
    cases hp : viaBytes (if d.s then diff else ecMul C (ecGen C) d.kp) with
    | error e => simp [hp] at h
    | ok pk0 =>
      simp only [hp] at h
      obtain ⟨rfl, hne⟩ := wf_via hp
      cases hu : viaBytes (ecMul C (ecGen C) d.r) with
      | error e => simp [hu] at h
      | ok u =>
        simp only [hu] at h
        obtain ⟨rfl, hne2⟩ := wf_via hu
        cases h1 : ecSub C Cpt (if d.s then diff else ecMul C (ecGen C) d.kp) with
        | error e => simp [h1] at h
        | ok pk1 =>
          simp only [h1, Except.ok.injEq] at h
          have hv1 := val_sub hC h1
          have hwr := wf_mul hC (wf_gen hC) d.r
          subst h
          cases hs : d.s with
          | false =>
            simp only [hs, if_true, Bool.false_eq_true, if_false]
            have e : ecMul C (ecMul C (ecGen C) d.kp) d.r
                = ecMul C (ecMul C (ecGen C) d.r) d.kp := by
              apply val_inj (wf_mul hC hwσ _) (wf_mul hC hwr _)
              rw [val_mul hC, val_mul hC, val_mul hC, val_mul hC, ← mul_zsmul, ← mul_zsmul,
                mul_comm]
            rw [e]; exact xor32_cancel _ _
          | true =>
            simp only [hs, if_true, Bool.true_eq_false, if_false]
            simp only [hs, if_true] at hv1 h1
            have hw1 := wf_sub hC hw hwd h1
            have e : ecMul C pk1 d.r = ecMul C (ecMul C (ecGen C) d.r) d.kp := by
              apply val_inj (wf_mul hC hw1 _) (wf_mul hC hwr _)
              rw [val_mul hC, val_mul hC, hv1, hvd, hvσ, val_mul hC]
              have e2 : val Cpt - (val Cpt - d.kp • val (ecGen C)) = d.kp • val (ecGen C) := by abel
              rw [e2, ← mul_zsmul, ← mul_zsmul, mul_comm]
            rw [e]; exact xor32_cancel _ _

/-- **C45**: for every number of OTs, choice input, seeds, secrets and scalars: if the protocol
returns, then in every row the sender's bit is the receiver's bit xor (choice AND sender
secret). -/
theorem iknp_correlation (C : Curve A) (hC : CurveOk C) (E : IknpEnv A) (rC : Int)
    (ds : Fin iknpK → BaseDraw) {n : Nat} (choice : Choice n) (o : IknpOut n)
    (h : iknpCore C E rC ds choice = .ok o) :
    (∀ i, o.s i = (ds i).s) ∧
    (∀ j i, o.q j i = prgBit E (ds i).k0 n j) ∧
    ∀ j i, o.t j i = Bool.xor (o.q j i) (choice.bit j i && o.s i) := by
  unfold iknpCore at h
  simp only at h
  cases hk : seqFin (fun i => iknpBaseOne C E (ecMul C (ecGen C) rC) (ds i)) with
  | error e => simp [hk] at h
  | ok ks =>
    simp only [hk, Except.ok.injEq] at h
    subst h
    refine ⟨fun _ => rfl, fun _ _ => rfl, ?_⟩
    intro j i
    have hb := iknpBaseOne_ok hC (wf_mul hC (wf_gen hC) rC) (seqFin_ok hk i)
    simp only
    rw [hb]
    cases hs : (ds i).s with
    | false => simp
    | true =>
      simp only [if_true, Bool.and_true]
      cases prgBit E (ds i).k0 n j <;> cases prgBit E (ds i).k1 n j <;> cases choice.bit j i <;> rfl

/-- **C45**: for all draws that avoid three coincidences modulo the group order the protocol
returns. -/
theorem iknp_total (C : Curve A) (hC : CurveOk C) (E : IknpEnv A) (rC : Int)
    (ds : Fin iknpK → BaseDraw) {n : Nat} (choice : Choice n)
    (hk : ∀ i, (ds i).kp % C.N ≠ 0) (hr : ∀ i, (ds i).r % C.N ≠ 0)
    (hc : ∀ i, (rC - (ds i).kp) % C.N ≠ 0) : ∃ o, iknpCore C E rC ds choice = .ok o := by
  have hone : ∀ i, ∃ a, iknpBaseOne C E (ecMul C (ecGen C) rC) (ds i) = .ok a := by
    intro i
    have hvC : val (ecMul C (ecGen C) rC) = rC • C.G := val_mul hC _ _
    have hvσ : val (ecMul C (ecGen C) (ds i).kp) = (ds i).kp • C.G := val_mul hC _ _
    have hneq := ne_of_mod hC (hc i)
    have hσ0 : (ds i).kp • C.G ≠ 0 := fun h => hk i ((zsmul_eq_zero_iff hC hC.gen _).1 h)
    obtain ⟨diff, hd⟩ : ∃ x, ecSub C (ecMul C (ecGen C) rC) (ecMul C (ecGen C) (ds i).kp) = .ok x :=
      sub_ok hC (by right; right; rw [hvC, hvσ]; exact hneq)
    have hvd := val_sub hC hd
    rw [hvC, hvσ] at hvd
    have hvia : ∀ p : Option A, val p ≠ 0 → viaBytes p = .ok p := by
      intro p hp
      cases p with
      | none => exact absurd rfl hp
      | some a => rfl
    have hpk : val (if (ds i).s then diff else ecMul C (ecGen C) (ds i).kp) ≠ 0 := by
      cases (ds i).s with
      | false => simp only [Bool.false_eq_true, if_false]; rw [hvσ]; exact hσ0
      | true => simp only [if_true]; rw [hvd]; exact sub_ne_zero.2 hneq
    have hu : val (ecMul C (ecGen C) (ds i).r) ≠ 0 := by
      rw [val_mul hC]
      exact fun h => hr i ((zsmul_eq_zero_iff hC hC.gen _).1 h)
    obtain ⟨pk1, h1⟩ : ∃ x, ecSub C (ecMul C (ecGen C) rC)
        (if (ds i).s then diff else ecMul C (ecGen C) (ds i).kp) = .ok x := by
      apply sub_ok hC
      right; right
      rw [hvC]
      cases (ds i).s with
      | false => simp only [Bool.false_eq_true, if_false]; rw [hvσ]; exact hneq
      | true =>
        simp only [if_true]; rw [hvd]
        intro he
        have := sub_eq_self.1 he.symm
        exact hσ0 this
    unfold iknpBaseOne
    simp only
    rw [hd]
    simp only
    rw [hvia _ hpk]
    simp only
    rw [hvia _ hu]
    simp only
    rw [h1]
    exact ⟨_, rfl⟩
  obtain ⟨g, hg⟩ := seqFin_total hone
  unfold iknpCore
  simp only
  rw [hg]
  exact ⟨_, rfl⟩

/-- **C45**: extended transfer: for every number of OTs, message width up to 32 bytes, messages
and draws, if it returns then the receiver holds, at every index, the message its choice bit
selects. -/
theorem transfer_ext_correct (C : Curve A) (hC : CurveOk C) (E : IknpEnv A) (rC : Int)
    (ds : Fin iknpK → BaseDraw) {n d : Nat} (m0 m1 : Fin n → Fin d → Nat) (r : Fin n → Bool)
    (out : Fin n → Fin d → Nat) (h : transferExt C E rC ds m0 m1 r = .ok out) :
    ∀ j, out j = if r j then m1 j else m0 j := by
  unfold transferExt at h
  cases hi : iknpCore C E rC ds (Choice.vec r) with
  | error e => simp [hi] at h
  | ok o =>
    simp only [hi] at h
    split at h
    · rename_i hd
      simp only [Except.ok.injEq] at h
      subst h
      obtain ⟨_, _, ht⟩ := iknp_correlation C hC E rC ds _ o hi
      intro j
      funext x
      cases hr : r j with
      | false =>
        have : o.t j = o.q j := by
          funext i; rw [ht]; simp [Choice.bit, hr]
        simp only [hr, Bool.false_eq_true, if_false]
        rw [this, Nat.xor_assoc, Nat.xor_self, Nat.xor_zero]
      | true =>
        have : (fun i => Bool.xor (o.t j i) (o.s i)) = o.q j := by
          funext i; rw [ht]; simp [Choice.bit, hr]
        simp only [hr, if_true]
        rw [this, Nat.xor_assoc, Nat.xor_self, Nat.xor_zero]
    · cases h

/-- Extended transfer returns exactly when the messages fit the mask and the base phase
returned. -/
theorem transfer_ext_total (C : Curve A) (hC : CurveOk C) (E : IknpEnv A) (rC : Int)
    (ds : Fin iknpK → BaseDraw) {n d : Nat} (m0 m1 : Fin n → Fin d → Nat) (r : Fin n → Bool)
    (hd : d ≤ 32)
    (hk : ∀ i, (ds i).kp % C.N ≠ 0) (hr : ∀ i, (ds i).r % C.N ≠ 0)
    (hc : ∀ i, (rC - (ds i).kp) % C.N ≠ 0) :
    ∃ out, transferExt C E rC ds m0 m1 r = .ok out ∧ ∀ j, out j = if r j then m1 j else m0 j := by
  obtain ⟨o, ho⟩ := iknp_total C hC E rC ds (Choice.vec r) hk hr hc
  have : ∃ out, transferExt C E rC ds m0 m1 r = .ok out := by
    unfold transferExt
    rw [ho]
    simp only
    rw [dif_pos hd]
    exact ⟨_, rfl⟩
  obtain ⟨out, h⟩ := this
  exact ⟨out, h, transfer_ext_correct C hC E rC ds m0 m1 r out h⟩

/-! ### The hypotheses are met -/

/-- Environment stand-in, for the examples only. -/
def toyEnv : IknpEnv (ZMod 11) :=
  { keyOf := fun p i => (val p).val * 3 + i
    hash := fun l i => l.foldl (fun a b => (a * 2 + b) % 251) i
    aes := fun k len i => (k.1 * 31 + k.2 * 17 + len + i, k.1 + 5 * i) }

/-- Draws stand-in, for the examples only. -/
def toyDraws (i : Fin iknpK) : BaseDraw :=
  { s := i.val % 3 == 0, k0 := fun x => (i.val * 5 + x) % 256, k1 := fun x => (i.val * 9 + 2 * x) % 256,
    kp := 3, r := 5 }

example : ∃ out, transferExt toyCurve toyEnv 7 toyDraws (n := 3) (d := 16)
    (fun j _ => j) (fun j _ => 100 + j) (fun j => j.val % 2 == 1) = .ok out ∧
      out 0 3 = 0 ∧ out 1 3 = 101 ∧ out 2 3 = 2 := by
  obtain ⟨out, h1, h2⟩ := transfer_ext_total toyCurve toyCurve_ok toyEnv 7 toyDraws (n := 3) (d := 16)
    (fun j _ => j) (fun j _ => 100 + j) (fun j => j.val % 2 == 1) (by omega)
    (fun _ => by show ((3 : Int) % 11 ≠ 0); decide) (fun _ => by show ((5 : Int) % 11 ≠ 0); decide)
    (fun _ => by show ((7 - 3 : Int) % 11 ≠ 0); decide)
  refine ⟨out, h1, ?_, ?_, ?_⟩ <;> rw [h2] <;> rfl

end Verif.Mpc
