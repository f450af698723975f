import Verif.Mpc.Groupby
import Verif.Simp.ChorArgs
/-!
# Base transfer, oblivious permutation and shuffle-based group-by as programs of the parties (C115)

What the central models (`Verif.Mpc.BaseOt`, `Verif.Mpc.Bitonic`, `Verif.Mpc.Groupby`) compute on one machine, here each party computes from
what it has: every local function gets only its own arguments, and every transfer is a step of the program.

Randomness: the draws whose choice the privacy statements vary (the receiver's private scalars, the sender's mask) are inputs of the party
that draws them; the sender's remaining draws are parameters of its local functions.
-/
namespace Verif.Mpc.Shuf
open Verif.Simp

/-- What the parties hold. (models no code of its own; the values of libs/mpc/ot/base.py, analytics/permutation.py, analytics/groupby.py) -/
inductive GVal (A M Ct : Type)
  | point (p : Option A)
  | points (l : List (Option A))
  | scalars (l : List Int)
  | cts (l : List Ct)
  | msgs (l : List M)
  | bits (l : List Int)
  | ctrls (l : List Bool)
  | perm (l : List Nat)

/-- The six values of one transfer that go over the network (libs/mpc/ot/base.py:135, 165, 194-196) -/
inductive OtPart
  | common | pk | u0 | c0 | u1 | c1
  deriving DecidableEq, Repr

/-- A name for every value that is sent; everything else is `loc`. (models no code of its own) -/
inductive GKind
  | data | bins | draw
  | loc
  | ot (i : Nat) (part : OtPart)
  | share | partialSum
  deriving DecidableEq, Repr

variable {A : Type} [AddCommGroup A] [DecidableEq A]
variable {M Ct Key Nonce : Type}

/-- programs over these values -/
abbrev Prog (A M Ct : Type) (α : Type) := Chor (GVal A M Ct) GKind α

/-- `ok x` as `some x`: a local function that raises makes the run fail (models no code of its own) -/
def okOf {ε α : Type} : Except ε α → Option α
  | .ok a => some a
  | .error _ => none

/-- The draws of a transfer's sender: the common scalar, the ephemeral scalars and the nonces (libs/mpc/ot/base.py:125-132, 63-82, 182-183) -/
structure SendDraws (Nonce : Type) where
  r : Int
  r0 : Nat → Int
  r1 : Nat → Int
  n0 : Nat → Nonce
  n1 : Nat → Nonce

/-- all draws of a transfer: the sender's and the receiver's scalars (models no code of its own) -/
def SendDraws.withK (d : SendDraws Nonce) (k : Nat → Int) : OtDraws Nonce := ⟨d.r, k, d.r0, d.r1, d.n0, d.n1⟩

/-! ## One transfer -/

section ot
variable (C : Curve A) (S : Sym A M Ct Key Nonce) (sd : SendDraws Nonce)

/-- the choice bits, as integers or as booleans (libs/mpc/ot/base.py:104; analytics/permutation.py:58, 67) -/
def bitsOf : GVal A M Ct → Option (List Int)
  | .bits l => some l
  | .ctrls l => some (l.map bitInt)
  | _ => none

/-- `receiver_keygen_fn`: public keys and private scalars; element-wise, shapes must agree (libs/mpc/ot/base.py:151-158, 35-60) -/
def keygenK : List (GVal A M Ct) → Option (List (GVal A M Ct))
  | [.point cpt, b, .scalars ks] => (bitsOf b).bind fun bs =>
    if bs.length = ks.length then
      (okOf (mapE (fun e : Int × Int => receiverKeygen C cpt e.1 e.2) (bs.zip ks))).map fun pk => [.points pk, .scalars ks]
    else none
  | _ => none

/-- `get_pk0` (libs/mpc/ot/base.py:161-164) -/
def fstK : List (GVal A M Ct) → Option (GVal A M Ct)
  | [a, _] => some a
  | _ => none

/-- the sender's side of a batch: nothing of the receiver is in it (libs/mpc/ot/base.py:168-188) -/
def sendBatch (m0 m1 : List M) : List (OtElem M Nonce) :=
  (m0.zip m1).mapIdx fun i p => ⟨p.1, p.2, 0, 0, sd.r0 i, sd.r1 i, sd.n0 i, sd.n1 i⟩

/-- `sender_encrypt_fn` (libs/mpc/ot/base.py:168-188) -/
def encryptK : List (GVal A M Ct) → Option (List (GVal A M Ct))
  | [.point cpt, .points pk, .msgs m0, .msgs m1] =>
    if m0.length = pk.length ∧ m1.length = pk.length then
      (okOf (mapE (encryptOne C S cpt) ((sendBatch sd m0 m1).zip pk))).map fun l =>
        [.points (l.map OtMsg.u0), .cts (l.map OtMsg.c0), .points (l.map OtMsg.u1), .cts (l.map OtMsg.c1)]
    else none
  | _ => none

/-- `decrypt_elementwise` (libs/mpc/ot/base.py:205-212): bit, scalar, then `u0, v0, u1, v1` -/
def decOne (e : (Int × Int) × (Option A × Ct) × (Option A × Ct)) : Except OtErr M :=
  match receiverDeriveKey C e.2.1.1 e.2.2.1 e.1.2 e.1.1 with
  | .error x => .error (.ec x)
  | .ok kpt =>
    match S.dec (S.keyOf kpt) (if e.1.1 ≠ 0 then e.2.2.2 else e.2.1.2) with
    | none => .error .decrypt
    | some m => .ok m

/-- `receiver_decrypt_fn` (libs/mpc/ot/base.py:199-219) -/
def decryptK : List (GVal A M Ct) → Option (GVal A M Ct)
  | [.points u0, .cts c0, .points u1, .cts c1, .points _, .scalars ks, b] => (bitsOf b).bind fun bs =>
    if bs.length = ks.length ∧ u0.length = ks.length ∧ c0.length = ks.length ∧ u1.length = ks.length ∧ c1.length = ks.length then
      (okOf (mapE (decOne C S) ((bs.zip ks).zip ((u0.zip c0).zip (u1.zip c1))))).map .msgs
    else none
  | _ => none

/-- `transfer` (libs/mpc/ot/base.py:101-222); `i` tells apart the transfers of a program, `ks` are the receiver's scalars -/
def otNet (i m0 m1 choice ks snd rcv : Nat) : Prog A M Ct Nat :=
  (one snd (fun _ => some (.point (ecMul C (ecGen C) sd.r))) (.ot i .common) []).bind fun c =>
  (move c snd rcv).bind fun cR =>
  (several rcv (keygenK C) [.loc, .loc] [cR, choice, ks]).bind fun kt => unpack2 kt fun pk kp =>
  (one rcv fstK (.ot i .pk) [pk, kp]).bind fun pk' =>
  (move pk' rcv snd).bind fun pkS =>
  (several snd (encryptK C S sd) [.ot i .u0, .ot i .c0, .ot i .u1, .ot i .c1] [c, pkS, m0, m1]).bind fun ct => unpack4 ct fun u0 c0 u1 c1 =>
  (move u0 snd rcv).bind fun u0R => (move c0 snd rcv).bind fun c0R => (move u1 snd rcv).bind fun u1R => (move c1 snd rcv).bind fun c1R =>
  one rcv (decryptK C S) .loc [u0R, c0R, u1R, c1R, pk, kp, choice]

end ot

/-! ## Permutation -/

section perm
variable (C : Curve A) (S : Sym A M Ct Key Nonce) (sd0 sd1 : SendDraws Nonce)

/-- `invert_bit` (libs/mpc/analytics/permutation.py:63-64) -/
def invertK : List (GVal A M Ct) → Option (GVal A M Ct)
  | [.ctrls c] => some (.bits (c.map fun b => 1 - bitInt b))
  | _ => none

/-- `secure_switch` (libs/mpc/analytics/permutation.py:41-69) -/
def switchNet (x0 x1 ctrl ks0 ks1 snd rcv : Nat) : Prog A M Ct (Nat × Nat) :=
  (otNet C S sd0 0 x0 x1 ctrl ks0 snd rcv).bind fun y0 =>
  (one rcv invertK .loc [ctrl]).bind fun inv =>
  (otNet C S sd1 1 x0 x1 inv ks1 snd rcv).bind fun y1 =>
  .ret (y0, y1)

/-- `pad_data` (libs/mpc/analytics/permutation.py:176-183) -/
def padDataK (zero : M) (np : Nat) : List (GVal A M Ct) → Option (GVal A M Ct)
  | [.msgs x] => some (.msgs (x ++ List.replicate (np - x.length) zero))
  | _ => none

/-- `pad_perm` (libs/mpc/analytics/permutation.py:186-190) -/
def padPermK (n np : Nat) : List (GVal A M Ct) → Option (GVal A M Ct)
  | [.perm p] => some (.perm (p ++ List.range' n (np - n)))
  | _ => none

/-- `_compute_bitonic_sort_controls(p, n)` for `n = 2 ^ k` (libs/mpc/analytics/permutation.py:72-135, 194-196) -/
def controlsK (k : Nat) : List (GVal A M Ct) → Option (GVal A M Ct)
  | [.perm p] => some (.ctrls (genControls (2 ^ k) (schedule k) (destOf (2 ^ k) fun i => p.getD i 0)))
  | _ => none

/-- `get_step_ctrls` (libs/mpc/analytics/permutation.py:210-222); the offset is in range for every slice the network takes -/
def sliceK (off cnt : Nat) : List (GVal A M Ct) → Option (GVal A M Ct)
  | [.ctrls c] => some (.ctrls (stepSlice c off cnt))
  | _ => none

/-- `extract_pairs_sender` with the index constants of a step (libs/mpc/analytics/permutation.py:228-236, 248-270) -/
def extractK (zero : M) (n d : Nat) : List (GVal A M Ct) → Option (List (GVal A M Ct))
  | [.msgs x] => some [.msgs ((lowIx n d).map fun i => x.getD i zero), .msgs ((lowIx n d).map fun i => x.getD (i ^^^ d) zero)]
  | _ => none

/-- `scatter_results` (libs/mpc/analytics/permutation.py:280-319) -/
def scatterK (zero : M) (n d : Nat) : List (GVal A M Ct) → Option (GVal A M Ct)
  | [.msgs yi, .msgs yj] => some (.msgs ((List.range n).map
      (scatter (scatter (fun _ => zero) ((lowIx n d).zip yi)) (((lowIx n d).map (· ^^^ d)).zip yj))))
  | _ => none

/-- `apply_local_step` (libs/mpc/analytics/permutation.py:331-356) -/
def localK (zero : M) (n d : Nat) : List (GVal A M Ct) → Option (GVal A M Ct)
  | [.msgs x, .ctrls c] => some (.msgs ((List.range n).map (localStep n d c fun i => x.getD i zero)))
  | _ => none

/-- `unpad` (libs/mpc/analytics/permutation.py:363-364) -/
def unpadK (n : Nat) : List (GVal A M Ct) → Option (GVal A M Ct)
  | [.msgs x] => some (.msgs (x.take n))
  | _ => none

/-- the steps after the first: the data is on the receiver (libs/mpc/analytics/permutation.py:224-226, 322-358) -/
def localSteps (zero : M) (n ctrls rcv : Nat) : List (Nat × Nat) → Nat → Nat → Prog A M Ct Nat
  | [], _, x => .ret x
  | (_, d) :: rest, off, x =>
    (one rcv (sliceK off (lowIx n d).length) .loc [ctrls]).bind fun c =>
    (one rcv (localK zero n d) .loc [x, c]).bind fun y =>
    localSteps zero n ctrls rcv rest (off + (lowIx n d).length) y

/-- a call that is made only if the array has to be padded (libs/mpc/analytics/permutation.py:176, 361) -/
def whenPadded (c : Prop) [Decidable c] (r : Nat) (f : List (GVal A M Ct) → Option (GVal A M Ct)) (x : Nat) : Prog A M Ct Nat :=
  if c then one r f .loc [x] else .ret x

/-- `apply_permutation` on an array of length `n`, sender and receiver being different parties (libs/mpc/analytics/permutation.py:138-386);
the list form and the index constants are not modelled -/
def permNet (zero : M) (data perm ks0 ks1 snd rcv n : Nat) : Prog A M Ct Nat :=
  (whenPadded (2 ^ padExp n ≠ n) snd (padDataK zero (2 ^ padExp n)) data).bind fun x =>
  (whenPadded (2 ^ padExp n ≠ n) rcv (padPermK n (2 ^ padExp n)) perm).bind fun p =>
  (one rcv (controlsK (padExp n)) .loc [p]).bind fun ctrls =>
  match schedule (padExp n) with
  | [] => .fail
  | (_, d) :: rest =>
    (one rcv (sliceK 0 (lowIx (2 ^ padExp n) d).length) .loc [ctrls]).bind fun c =>
    (several snd (extractK zero (2 ^ padExp n) d) [.loc, .loc] [x]).bind fun vs => unpack2 vs fun vi vj =>
    (switchNet C S sd0 sd1 vi vj c ks0 ks1 snd rcv).bind fun y =>
    (one rcv (scatterK zero (2 ^ padExp n) d) .loc [y.1, y.2]).bind fun cur =>
    (localSteps zero (2 ^ padExp n) ctrls rcv rest (lowIx (2 ^ padExp n) d).length cur).bind fun z =>
    whenPadded (2 ^ padExp n ≠ n) rcv (unpadK n) z

end perm

/-! ## Group-by -/

section group
variable (C : Curve A) (S : Sym A I64 Ct Key Nonce) (sd0 sd1 : SendDraws Nonce)

/-- `compute_perm_fn` (libs/mpc/analytics/groupby.py:259-264) -/
def argsortK : List (GVal A I64 Ct) → Option (GVal A I64 Ct)
  | [.bits b] => some (.perm (argsort b))
  | _ => none

/-- `split_shares_fn`: the masked data and the mask (libs/mpc/analytics/groupby.py:270-289) -/
def splitK : List (GVal A I64 Ct) → Option (List (GVal A I64 Ct))
  | [.msgs d, .msgs m] => if m.length = d.length then some [.msgs (List.zipWith (fun a m => a - m) d m), .msgs m] else none
  | _ => none

/-- `agg_s0_fn` (libs/mpc/analytics/groupby.py:296-305) -/
def agg0K (K : Nat) : List (GVal A I64 Ct) → Option (GVal A I64 Ct)
  | [.msgs s, .bits b, .perm p] => some (.msgs (segmentSum s (p.map fun i => b.getD i 0) K))
  | _ => none

/-- `agg_d1_fn` (libs/mpc/analytics/groupby.py:314-320) -/
def agg1K (K : Nat) : List (GVal A I64 Ct) → Option (GVal A I64 Ct)
  | [.msgs d, .bits b] => some (.msgs (segmentSum d b K))
  | _ => none

/-- `combine_fn` (libs/mpc/analytics/groupby.py:326-329) -/
def combineK : List (GVal A I64 Ct) → Option (GVal A I64 Ct)
  | [.msgs a, .msgs b] => some (.msgs (List.zipWith (· + ·) a b))
  | _ => none

/-- `oblivious_groupby_sum_shuffle` on `n` elements; `mask` is what `crypto.random_bytes` returns on the sender
(libs/mpc/analytics/groupby.py:227-331) -/
def groupNet (data mask bins ks0 ks1 snd rcv hlp n K : Nat) : Prog A I64 Ct Nat :=
  (one rcv argsortK .loc [bins]).bind fun p =>
  (several snd splitK [.loc, .share] [data, mask]).bind fun ds => unpack2 ds fun d0 d1 =>
  (permNet C S sd0 sd1 0 d0 p ks0 ks1 snd rcv n).bind fun s0 =>
  (one rcv (agg0K K) .loc [s0, bins, p]).bind fun a0 =>
  (move d1 snd hlp).bind fun d1H =>
  (move bins rcv hlp).bind fun bH =>
  (one hlp (agg1K K) .partialSum [d1H, bH]).bind fun a1 =>
  (move a1 hlp rcv).bind fun a1R =>
  one rcv combineK .loc [a0, a1R]

end group

/-! ## Who sends what -/

/-- the messages of transfer `i` (specification) -/
inductive OtMsgs (i snd rcv : Nat) : GKind → Nat → Nat → Prop
  | common : OtMsgs i snd rcv (.ot i .common) snd rcv
  | pk : OtMsgs i snd rcv (.ot i .pk) rcv snd
  | u0 : OtMsgs i snd rcv (.ot i .u0) snd rcv
  | c0 : OtMsgs i snd rcv (.ot i .c0) snd rcv
  | u1 : OtMsgs i snd rcv (.ot i .u1) snd rcv
  | c1 : OtMsgs i snd rcv (.ot i .c1) snd rcv

/-- the messages of the permutation: two transfers (specification) -/
inductive PermMsgs (snd rcv : Nat) : GKind → Nat → Nat → Prop
  | ot {i : Nat} {k : GKind} {a b : Nat} : i < 2 → OtMsgs i snd rcv k a b → PermMsgs snd rcv k a b

/-- the messages of the group-by: those of the permutation, the mask and the bins to the helper, the partial sums to the receiver
(specification) -/
inductive GroupMsgs (snd rcv hlp : Nat) : GKind → Nat → Nat → Prop
  | perm {k : GKind} {a b : Nat} : PermMsgs snd rcv k a b → GroupMsgs snd rcv hlp k a b
  | mask : GroupMsgs snd rcv hlp .share snd hlp
  | bins : GroupMsgs snd rcv hlp .bins rcv hlp
  | sums : GroupMsgs snd rcv hlp .partialSum hlp rcv

end Verif.Mpc.Shuf
