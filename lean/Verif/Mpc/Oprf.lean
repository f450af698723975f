import Verif.Mpc.Vole
/-
Model of the KKRT-style OPRF, /repo/mplang/libs/mpc/psi/oprf.py.
-/
namespace Verif.Mpc
open Verif.Kern

variable {A : Type} [AddCommGroup A] [DecidableEq A]

/-- An item: 16 bytes. oprf.py:33 -/
abbrev Item := Fin 16 → Nat

/-- `jnp.unpackbits(x, axis=1)[:, :128]`: big-endian bits of every byte.
/repo/mplang/libs/mpc/psi/oprf.py:101-106 and :229 -/
def itemBit (x : Item) (k : Fin iknpK) : Bool :=
  (x ⟨k.val / 8, by have : k.val < 128 := k.isLt; omega⟩).testBit (7 - k.val % 8)

/-- Eight little-endian bytes of a 64-bit separator. extension.py:92 -/
def sepBytes (d : Nat) : List Nat := (List.range 8).map fun i => d / 256 ^ i % 256

/-- `vec_hash` of one row of bytes with a separator different from zero.
/repo/mplang/libs/mpc/ot/extension.py:72-108 -/
def vecHashBytes (E : IknpEnv A) (sep : Nat) (row : List Nat) : Bytes32 :=
  E.hash (sepBytes sep ++ row)

/-- The 16 bytes of `jnp.packbits` of a row. oprf.py:156, :244 -/
def packRow (row : Fin iknpK → Bool) : List Nat := (List.finRange 16).map (packByte row)

/-- The domain separator of the OPRF. oprf.py:164, :255 -/
def oprfSep : Nat := 0x0CDF

/-- What `eval_oprf` returns: the sender key `(T, s)` and the receiver's outputs. -/
structure OprfOut (n : Nat) where
  t : Fin n → Fin iknpK → Bool
  s : Fin iknpK → Bool
  out : Fin n → Bytes32

/-- `eval_oprf`. /repo/mplang/libs/mpc/psi/oprf.py:32-180 -/
def evalOprf (C : Curve A) (E : IknpEnv A) (rC : Int) (ds : Fin iknpK → BaseDraw) {n : Nat}
    (xs : Fin n → Item) : Except EcErr (OprfOut n) :=
  match iknpCore C E rC ds (Choice.mat fun j i => itemBit (xs j) i) with
  | .error e => .error e
  | .ok o => .ok { t := o.t, s := o.s, out := fun j => vecHashBytes E oprfSep (packRow (o.q j)) }

/-- The value the sender hashes for item number `i`: row `i` xor the masked secret, and sixteen
zero bytes for items beyond the number of rows. /repo/mplang/libs/mpc/psi/oprf.py:222-251 -/
def senderPre {n : Nat} (key : OprfOut n) (i : Nat) (y : Item) : List Nat :=
  if h : i < n then
    packRow fun k => Bool.xor (key.t ⟨i, h⟩ k) (if itemBit y k then key.s k else false)
  else List.replicate 16 0

/-- `sender_eval_prf_batch`. /repo/mplang/libs/mpc/psi/oprf.py:200-260 -/
def senderEvalBatch (E : IknpEnv A) {n m : Nat} (key : OprfOut n) (ys : Fin m → Item)
    (i : Fin m) : Bytes32 :=
  vecHashBytes E oprfSep (senderPre key i.val (ys i))

/-- The rank check of `slice`. /repo/mplang/dialects/tensor.py:825-829 -/
def sliceRankOk (rank : Nat) (starts ends : List Int) : Bool :=
  !(starts.length != rank || ends.length != rank)

/-- `sender_eval_prf`: row 0, hashed as a (1, 32) tensor, then `slice_tensor(_, (0, 0), (32,))`,
whose type rule raises ValueError (`none`) when the rank check fails.
/repo/mplang/libs/mpc/psi/oprf.py:263-310 -/
def senderEvalOne (E : IknpEnv A) {n : Nat} (key : OprfOut (n + 1)) (y : Item) : Option Bytes32 :=
  if sliceRankOk 2 [0, 0] [32] then some (vecHashBytes E oprfSep (senderPre key 0 y)) else none

/-! ### Packing -/

theorem packByte_zero {row : Fin iknpK → Bool} {b : Fin 16} (h : packByte row b = 0) (k : Fin 8) :
    row ⟨8 * b.val + k.val, bitIx b k⟩ = false := by
  unfold packByte at h
  have : ∀ (l : List (Fin 8)) (x : Nat),
      l.foldl (fun (acc : Nat) (k : Fin 8) => 2 * acc
          + (row ⟨8 * b.val + k.val, bitIx b k⟩).toNat) x = 0 →
      x = 0 ∧ ∀ k ∈ l, row ⟨8 * b.val + k.val, bitIx b k⟩ = false := by
    intro l
    induction l with
    | nil => intro x hx; exact ⟨hx, by simp⟩
    | cons k l ih =>
      intro x hx
      rw [List.foldl_cons] at hx
      obtain ⟨h1, h2⟩ := ih _ hx
      refine ⟨by omega, ?_⟩
      intro k' hk'
      rw [List.mem_cons] at hk'
      rcases hk' with rfl | hk'
      · cases hr : row ⟨8 * b.val + k'.val, bitIx b k'⟩ with
        | false => rfl
        | true => simp [hr] at h1
      · exact h2 k' hk'
  exact (this _ 0 h).2 k (List.mem_finRange k)

theorem packRow_inj {r s : Fin iknpK → Bool} (h : packRow r = packRow s) : r = s := by
  funext i
  have hi : i.val < 128 := i.isLt
  have hb : packByte r ⟨i.val / 8, by omega⟩ = packByte s ⟨i.val / 8, by omega⟩ := by
    unfold packRow at h
    have := List.map_inj_left.1 h
    exact this _ (List.mem_finRange _)
  have hx := packByte_xor r s ⟨i.val / 8, by omega⟩
  rw [hb, Nat.xor_self] at hx
  have := packByte_zero hx.symm ⟨i.val % 8, by omega⟩
  simp only at this
  have e : (⟨8 * (i.val / 8) + i.val % 8, bitIx ⟨i.val / 8, by omega⟩ ⟨i.val % 8, by omega⟩⟩ :
      Fin iknpK) = i := Fin.ext (by show 8 * (i.val / 8) + i.val % 8 = i.val; omega)
  rw [e] at this
  cases hr : r i <;> cases hs : s i <;> simp_all

/-! ### C49 -/

variable {C : Curve A}

/-- **C49**: for every number of items, all inputs and all draws: if the protocol returns, then a
sender item equal to the receiver item of the same row gets the receiver's output. -/
theorem oprf_agree (C : Curve A) (hC : CurveOk C) (E : IknpEnv A) (rC : Int)
    (ds : Fin iknpK → BaseDraw) {n m : Nat} (xs : Fin n → Item) (ys : Fin m → Item)
    (key : OprfOut n) (h : evalOprf C E rC ds xs = .ok key) (i : Fin m) (j : Fin n)
    (hij : i.val = j.val) (hxy : ys i = xs j) : senderEvalBatch E key ys i = key.out j := by
  unfold evalOprf at h
  cases hi : iknpCore C E rC ds (Choice.mat fun j i => itemBit (xs j) i) with
  | error e => simp [hi] at h
  | ok o =>
    simp only [hi, Except.ok.injEq] at h
    subst h
    obtain ⟨_, _, ht⟩ := iknp_correlation C hC E rC ds _ o hi
    unfold senderEvalBatch senderPre
    have hin : i.val < n := by rw [hij]; exact j.isLt
    have hj : (⟨i.val, hin⟩ : Fin n) = j := Fin.ext hij
    rw [dif_pos hin]
    simp only [hj, hxy]
    refine congrArg (fun r => vecHashBytes E oprfSep (packRow r)) ?_
    funext k
    rw [ht]
    show Bool.xor (Bool.xor (o.q j k) (itemBit (xs j) k && o.s k))
      (if itemBit (xs j) k then o.s k else false) = o.q j k
    cases o.q j k <;> cases itemBit (xs j) k <;> cases o.s k <;> rfl

/-- **C49**: for different items the values that are hashed on the two sides are equal only if
every bit in which the items differ is a zero bit of the sender's secret (and then they are
equal). -/
theorem oprf_equal_iff_masked (C : Curve A) (hC : CurveOk C) (E : IknpEnv A) (rC : Int)
    (ds : Fin iknpK → BaseDraw) {n : Nat} (xs : Fin n → Item) (key : OprfOut n)
    (h : evalOprf C E rC ds xs = .ok key) (j : Fin n) :
    ∃ pre : List Nat, key.out j = vecHashBytes E oprfSep pre ∧
      ∀ y : Item, senderPre key j.val y = pre ↔
        ∀ k, itemBit y k ≠ itemBit (xs j) k → (ds k).s = false := by
  unfold evalOprf at h
  cases hi : iknpCore C E rC ds (Choice.mat fun j i => itemBit (xs j) i) with
  | error e => simp [hi] at h
  | ok o =>
    simp only [hi, Except.ok.injEq] at h
    subst h
    obtain ⟨hs, _, ht⟩ := iknp_correlation C hC E rC ds _ o hi
    refine ⟨packRow (o.q j), rfl, ?_⟩
    intro y
    unfold senderPre
    rw [dif_pos j.isLt]
    simp only [Fin.eta]
    constructor
    · intro he k hk
      have := congrFun (packRow_inj he) k
      rw [ht] at this
      rw [← hs]
      change Bool.xor (Bool.xor (o.q j k) (itemBit (xs j) k && o.s k))
        (if itemBit y k then o.s k else false) = o.q j k at this
      revert this hk
      cases o.q j k <;> cases itemBit (xs j) k <;> cases itemBit y k <;> cases o.s k <;> simp
    · intro hk
      refine congrArg packRow ?_
      funext k
      rw [ht]
      have hk := hk k
      rw [← hs] at hk
      show Bool.xor (Bool.xor (o.q j k) (itemBit (xs j) k && o.s k))
        (if itemBit y k then o.s k else false) = o.q j k
      revert hk
      cases o.q j k <;> cases itemBit (xs j) k <;> cases itemBit y k <;> cases o.s k <;> simp

/-- Two byte strings with the same 128 bits are the same item, so "every differing bit" in
`oprf_equal_iff_masked` is never an empty condition for different items. -/
theorem itemBit_inj {x y : Item} (hx : ∀ i, x i < 256) (hy : ∀ i, y i < 256)
    (h : ∀ k, itemBit x k = itemBit y k) : x = y := by
  funext i
  apply Nat.eq_of_testBit_eq
  intro p
  by_cases hp : p < 8
  · have hi := i.isLt
    have := h ⟨8 * i.val + (7 - p), by show _ < 128; omega⟩
    unfold itemBit at this
    have e1 : (8 * i.val + (7 - p)) / 8 = i.val := by omega
    have e2 : 7 - (8 * i.val + (7 - p)) % 8 = p := by omega
    simp only [e1, e2, Fin.eta] at this
    exact this
  · have hpow : 256 ≤ 2 ^ p := by
      have : 2 ^ 8 ≤ 2 ^ p := Nat.pow_le_pow_right (by omega) (by omega)
      omega
    rw [Nat.testBit_lt_two_pow (by have := hx i; omega), Nat.testBit_lt_two_pow (by have := hy i; omega)]

/-- The protocol returns for all draws avoiding three coincidences modulo the group order. -/
theorem oprf_total (C : Curve A) (hC : CurveOk C) (E : IknpEnv A) (rC : Int)
    (ds : Fin iknpK → BaseDraw) {n : Nat} (xs : Fin n → Item)
    (hk : ∀ i, (ds i).kp % C.N ≠ 0) (hr : ∀ i, (ds i).r % C.N ≠ 0)
    (hc : ∀ i, (rC - (ds i).kp) % C.N ≠ 0) : ∃ key, evalOprf C E rC ds xs = .ok key := by
  obtain ⟨o, ho⟩ := iknp_total C hC E rC ds (Choice.mat fun j i => itemBit (xs j) i) hk hr hc
  unfold evalOprf
  rw [ho]
  exact ⟨_, rfl⟩

/-- The single-item entry point always raises: its slice has two starts and one end. -/
theorem oprf_single_violated (E : IknpEnv A) {n : Nat} (key : OprfOut (n + 1)) (y : Item) :
    senderEvalOne E key y = none := rfl

/-- Sender items beyond the number of rows all get one and the same output, whatever the items
and the key. -/
theorem oprf_surplus_constant (E : IknpEnv A) {n m : Nat} (key key' : OprfOut n)
    (ys ys' : Fin m → Item) (i j : Fin m) (hi : n ≤ i.val) (hj : n ≤ j.val) :
    senderEvalBatch E key ys i = senderEvalBatch E key' ys' j := by
  unfold senderEvalBatch senderPre
  rw [dif_neg (by omega), dif_neg (by omega)]

example : ∃ key, evalOprf toyCurve toyEnv 7 toyDraws (n := 2)
      (fun j i => (j.val * 7 + i.val) % 256) = .ok key ∧
    senderEvalBatch toyEnv key (m := 3) (fun j i => (if j.val = 1 then 7 + i.val else 9) % 256) 1
      = key.out 1 := by
  obtain ⟨key, h⟩ := oprf_total toyCurve toyCurve_ok toyEnv 7 toyDraws (n := 2)
    (fun j i => (j.val * 7 + i.val) % 256)
    (fun _ => by show ((3 : Int) % 11 ≠ 0); decide) (fun _ => by show ((5 : Int) % 11 ≠ 0); decide)
    (fun _ => by show ((7 - 3 : Int) % 11 ≠ 0); decide)
  exact ⟨key, h, oprf_agree toyCurve toyCurve_ok toyEnv 7 toyDraws _ _ key h 1 1 rfl
    (by funext i; simp)⟩

end Verif.Mpc
