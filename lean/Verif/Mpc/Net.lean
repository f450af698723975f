import Verif.Simp.ChorArgs
import Verif.Mpc.Psi
import Verif.Mpc.Oprf
/-!
# The two-party protocols as programs of the parties (property C113)

`Verif/Mpc/{Iknp,Vole,Silent,Psi,Oprf}.lean` compute what a protocol computes, as if by one machine.  This file models the protocols as
the code writes them: calls at a party and moves between parties.  What a party can use at a call is only what it was given, drew or
received.  Random draws are parameters, as in the central models; a tuple or list of tensors that is never taken apart on another party is
one value.
-/
namespace Verif.Mpc.Net
open Verif.Kern Verif.Simp

variable {A : Type} [AddCommGroup A] [DecidableEq A]

/-- The values of the protocols: tensors, points and scalars, by the shape the code gives them (extension.py:111-477, gilboa.py:32-311,
silent.py:31-217, rr22.py:72-303, unbalanced.py:45-200, oprf.py:32-178). -/
inductive Val (A : Type)
  /-- `(K,)` bits: the secret choice vector of the base transfers -/
  | sel (s : Fin iknpK → Bool)
  /-- `(K, 32)` bytes -/
  | seeds (k : Fin iknpK → Bytes32)
  | point (p : Option A)
  /-- `(K, 65)` bytes: `K` encoded points -/
  | points (p : Fin iknpK → Option A)
  /-- list of `K` private scalars -/
  | scalars (k : Fin iknpK → Int)
  /-- `(N, K)` bits -/
  | rows (n : Nat) (f : Fin n → Fin iknpK → Bool)
  /-- `(K, N)` bits -/
  | cols (n : Nat) (f : Fin iknpK → Fin n → Bool)
  /-- the choice input of `iknp_core` -/
  | choice (n : Nat) (c : Choice n)
  /-- `(N, D)` bytes -/
  | bytes (n d : Nat) (f : Fin n → Fin d → Nat)
  /-- `(2,)` u64 -/
  | blk (b : Blk)
  /-- `(N, 2)` u64 -/
  | blks (l : List Blk)
  /-- `(128, N, 2)` u64 -/
  | grid (f : Fin iknpK → List Blk)
  /-- `(32,)` bytes -/
  | seed (s : Bytes32)
  /-- `(N,)` u64 -/
  | items (l : List Nat)
  /-- `(N, 16)` bytes: truncated hashes -/
  | tags (l : List (List Nat))
  /-- `(N,)` u8: the answer -/
  | mask (l : List Bool)
  /-- `(N, 16)` bytes: OPRF inputs -/
  | inputs (n : Nat) (xs : Fin n → Item)
  /-- `(N, 32)` bytes: hashes -/
  | digests (n : Nat) (f : Fin n → Bytes32)

/-- What a value is in the protocol.  The first three constructors are never sent; the others are the messages. -/
inductive Kind
  /-- what a party was given: its items, messages, choices -/
  | input
  /-- what a party drew or derived and must keep: keys, seeds, matrices, shares, unmasked tables and tags -/
  | secret
  /-- a result of the protocol -/
  | result
  /-- the random point `C` of the base transfers -/
  | common
  /-- public keys `PK0` of the base transfers -/
  | pk
  /-- ephemeral points and encrypted seeds of the base transfers -/
  | wrapped
  /-- the correction matrix `u` of the extension -/
  | correction
  /-- encrypted messages of the extension -/
  | cipher
  /-- corrections of the VOLE -/
  | voleCorr
  /-- public seed of the linear expansion -/
  | expandSeed
  /-- seed of the key-value store's hash -/
  | okvsSeed
  /-- masked key-value store -/
  | masked
  /-- truncated hashes of tags -/
  | tag
  /-- key-value store of the unbalanced protocol -/
  | table
  deriving DecidableEq

/-! ## Specification: who may send what -/

/-- The messages of the extension protocol between its sender `s` and receiver `r`. -/
inductive IknpMsg (s r : Nat) : Kind → Nat → Nat → Prop
  | common : IknpMsg s r .common r s
  | pk : IknpMsg s r .pk s r
  | wrapped : IknpMsg s r .wrapped r s
  | correction : IknpMsg s r .correction r s

/-- The messages of the extended transfer. -/
inductive TransferMsg (s r : Nat) : Kind → Nat → Nat → Prop
  | base {k a b} : IknpMsg s r k a b → TransferMsg s r k a b
  | cipher : TransferMsg s r .cipher s r

/-- The messages of the VOLE. -/
inductive VoleMsg (s r : Nat) : Kind → Nat → Nat → Prop
  | base {k a b} : IknpMsg s r k a b → VoleMsg s r k a b
  | corr : VoleMsg s r .voleCorr s r

/-- The messages of the silent VOLE. -/
inductive SilentMsg (s r : Nat) : Kind → Nat → Nat → Prop
  | base {k a b} : VoleMsg s r k a b → SilentMsg s r k a b
  | seed : SilentMsg s r .expandSeed s r

/-- The messages of the intersection protocol; its receiver plays the VOLE's sender. -/
inductive PsiMsg (s r : Nat) : Kind → Nat → Nat → Prop
  | base {k a b} : SilentMsg r s k a b → PsiMsg s r k a b
  | seed : PsiMsg s r .okvsSeed r s
  | masked : PsiMsg s r .masked r s
  | tag : PsiMsg s r .tag s r

/-- The messages of the unbalanced protocol: all from the server. -/
inductive UnbalancedMsg (server client : Nat) : Kind → Nat → Nat → Prop
  | table : UnbalancedMsg server client .table server client
  | seed : UnbalancedMsg server client .okvsSeed server client

/-! ## `iknp_core` -/

/-- `Except` as an outcome (an exception ends the run) -/
def okOf {ε α : Type} : Except ε α → Option α
  | .ok a => some a
  | .error _ => none

abbrev Prog (A : Type) (α : Type) := Chor (Val A) Kind α

section
variable (C : Curve A) (E : IknpEnv A) (rC : Int) (ds : Fin iknpK → BaseDraw)

/-- one iteration of `base_sender_keygen` (extension.py:167-192): `PK0` -/
def keygenOne (Cpt : Option A) (s : Bool) (kp : Int) : Except EcErr (Option A) :=
  let pkSigma := ecMul C (ecGen C) kp
  match ecSub C Cpt pkSigma with
  | .error e => .error e
  | .ok diff => .ok (if s then diff else pkSigma)

/-- `base_sender_keygen` (extension.py:160-197); arguments: `C`, the choice bits; results: `PK0`, the private scalars -/
def keygenK : List (Val A) → Option (List (Val A))
  | [.point Cpt, .sel s] => (okOf (seqFin fun i => keygenOne C Cpt (s i) (ds i).kp)).map fun pk => [.points pk, .scalars fun i => (ds i).kp]
  | _ => none

/-- `lambda x: x[0]` (extension.py:200, gilboa.py:76) -/
def fstK : List (Val A) → Option (Val A)
  | [a, _] => some a
  | _ => none

/-- `lambda x: x[1]` (gilboa.py:77) -/
def sndK : List (Val A) → Option (Val A)
  | [_, b] => some b
  | _ => none

/-- one iteration of `base_encrypt_rev` (extension.py:218-258): `U`, `c0`, `c1` -/
def encryptOne (Cpt pk : Option A) (r : Int) (m0 m1 : Bytes32) : Except EcErr (Option A × Bytes32 × Bytes32) :=
  match viaBytes pk with
  | .error e => .error e
  | .ok pk0 =>
    match ecSub C Cpt pk0 with
    | .error e => .error e
    | .ok pk1 => .ok (ecMul C (ecGen C) r, xor32 m0 (E.keyOf (ecMul C pk0 r)), xor32 m1 (E.keyOf (ecMul C pk1 r)))

/-- `base_encrypt_rev` (extension.py:205-264); arguments: `C`, `PK0`, the two lists of seeds -/
def encryptK : List (Val A) → Option (List (Val A))
  | [.point Cpt, .points pk, .seeds k0, .seeds k1] =>
    (okOf (seqFin fun i => encryptOne C E Cpt (pk i) (ds i).r (k0 i) (k1 i))).map fun o =>
      [.points fun i => (o i).1, .seeds fun i => (o i).2.1, .seeds fun i => (o i).2.2]
  | _ => none

/-- one iteration of `base_decrypt_rev` (extension.py:290-323) -/
def decryptOne (kp : Int) (U : Option A) (c0 c1 : Bytes32) (s : Bool) : Except EcErr Bytes32 :=
  match viaBytes U with
  | .error e => .error e
  | .ok u => .ok (xor32 (if s = false then c0 else c1) (E.keyOf (ecMul C u kp)))

/-- `base_decrypt_rev` (extension.py:278-325); arguments: `PK0`, private scalars, `U`, `c0`, `c1`, choice bits -/
def decryptK : List (Val A) → Option (Val A)
  | [.points _, .scalars kp, .points U, .seeds c0, .seeds c1, .sel s] =>
    (okOf (seqFin fun i => decryptOne C E (kp i) (U i) (c0 i) (c1 i) (s i))).map .seeds
  | _ => none

/-- `calc_u` (extension.py:330-353) with `num_ots = n`; a choice input of another length is an error here -/
def calcU (n : Nat) : List (Val A) → Option (Val A)
  | [.seeds k0, .seeds k1, .choice m c] =>
    if h : m = n then some (.cols n fun i j => Bool.xor (Bool.xor (prgBit E (k0 i) n j) (prgBit E (k1 i) n j)) ((h ▸ c : Choice n).bit j i))
    else none
  | _ => none

/-- `calc_t` (extension.py:359-371) -/
def calcT (n : Nat) : List (Val A) → Option (Val A)
  | [.seeds ks, .cols m u, .sel s] =>
    if h : m = n then some (.rows n fun j i => Bool.xor (prgBit E (ks i) n j) (u i (Fin.cast h.symm j) && s i)) else none
  | _ => none

/-- `calc_q` (extension.py:375-378) -/
def calcQ (n : Nat) : List (Val A) → Option (Val A)
  | [.seeds k0] => some (.rows n fun j i => prgBit E (k0 i) n j)
  | _ => none

/-- `iknp_core(choice_bits, sender, receiver, num_ots)` (extension.py:111-383); results: `t` and the secret `s` at the sender, `q` at the
receiver, in the code's order `t, q, s` -/
def iknp (choice snd rcv n : Nat) : Prog A (Nat × Nat × Nat) :=
  (one snd (fun _ => some (.sel fun i => (ds i).s)) .secret []).bind fun s =>
  (several rcv (fun _ => some [.seeds fun i => (ds i).k0, .seeds fun i => (ds i).k1]) [.secret, .secret] []).bind fun ks => unpack2 ks fun k0 k1 =>
  (one rcv (fun _ => some (.point (ecMul C (ecGen C) rC))) .common []).bind fun c =>
  (move c rcv snd).bind fun cS =>
  (several snd (keygenK C ds) [.pk, .secret] [cS, s]).bind fun kt => unpack2 kt fun pk kp =>
  (one snd fstK .pk [pk, kp]).bind fun pk' =>
  (move pk' snd rcv).bind fun pkR =>
  (several rcv (encryptK C E ds) [.wrapped, .wrapped, .wrapped] [c, pkR, k0, k1]).bind fun ct => unpack3 ct fun U c0 c1 =>
  (move U rcv snd).bind fun U' => (move c0 rcv snd).bind fun c0' => (move c1 rcv snd).bind fun c1' =>
  (one snd (decryptK C E) .secret [pk, kp, U', c0', c1', s]).bind fun kS =>
  (one rcv (calcU E n) .correction [k0, k1, choice]).bind fun u =>
  (move u rcv snd).bind fun uS =>
  (one snd (calcT E n) .secret [kS, uS, s]).bind fun t =>
  (one rcv (calcQ E n) .secret [k0]).bind fun q =>
  .ret (t, q, s)

/-! ## `transfer_extension` -/

/-- the hashes of the rows, of which the first `d` bytes are used: `vec_hash(_, domain_sep=1)[:, :d]` (extension.py:72-108, 436-437, 465) -/
def maskOf {n d : Nat} (h : d ≤ 32) (f : Fin n → Fin iknpK → Bool) (j : Fin n) (x : Fin d) : Nat := vecHash E (f j) ⟨x, by omega⟩

/-- `encrypt_msgs` (extension.py:403-444): more than 32 bytes per message is a shape error -/
def encK : List (Val A) → Option (List (Val A))
  | [.rows n t, .sel s, .bytes n0 d0 m0, .bytes n1 d1 m1] =>
    if h : n0 = n ∧ n1 = n ∧ d1 = d0 ∧ d0 ≤ 32 then some
      [.bytes n d0 fun j x => m0 (Fin.cast h.1.symm j) x ^^^ maskOf E h.2.2.2 t j x,
       .bytes n d0 fun j x => m1 (Fin.cast h.2.1.symm j) (Fin.cast h.2.2.1.symm x) ^^^
         maskOf E h.2.2.2 (fun j i => Bool.xor (t j i) (s i)) j x]
    else none
  | _ => none

/-- `decrypt_msg` (extension.py:454-472) -/
def decK : List (Val A) → Option (Val A)
  | [.rows n q, .choice n' (.vec r), .bytes n0 d0 c0, .bytes n1 d1 c1] =>
    if h : n' = n ∧ n0 = n ∧ n1 = n ∧ d1 = d0 ∧ d0 ≤ 32 then some
      (.bytes n d0 fun j x =>
        if r (Fin.cast h.1.symm j) = true then c1 (Fin.cast h.2.2.1.symm j) (Fin.cast h.2.2.2.1.symm x) ^^^ maskOf E h.2.2.2.2 q j x
        else c0 (Fin.cast h.2.1.symm j) x ^^^ maskOf E h.2.2.2.2 q j x)
    else none
  | _ => none

/-- `transfer_extension(m0, m1, choice_bits, sender, receiver, num_ots)` (extension.py:390-477) -/
def transfer (m0 m1 choice snd rcv n : Nat) : Prog A Nat :=
  (iknp C E rC ds choice snd rcv n).bind fun o =>
  (several snd (encK E) [.cipher, .cipher] [o.1, o.2.2, m0, m1]).bind fun cs => unpack2 cs fun c0 c1 =>
  (move c0 snd rcv).bind fun c0' => (move c1 snd rcv).bind fun c1' =>
  one rcv (decK E) .result [o.2.1, choice, c0', c1']

/-! ## `vole` -/

variable (mul : Blk → Blk → Blk)

/-- `_recv_prep` (gilboa.py:60-72) -/
def prepK (delta : Blk) : List (Val A) → Option (List (Val A))
  | [] => some [.blk delta, .choice iknpK (.col fun i => blkBit delta i.val)]
  | _ => none

/-- the two seeds of row `i` (gilboa.py:203-211) -/
def seedOf (row : Fin iknpK → Bool) : Blk := blkOfBytes (packByte row)
/-- `t_xor_s_seeds` (gilboa.py:210) -/
def seedXor (row s : Fin iknpK → Bool) : Blk := blkOfBytes fun b => packByte row b ^^^ packByte s b

/-- `_sender_round` (gilboa.py:195-277); `u` must have `n` elements -/
def senderRound (n : Nat) : List (Val A) → Option (List (Val A))
  | [.rows m t, .sel s, .blks u] =>
    if h : m = iknpK ∧ u.length = n then some
      [.grid fun i => (List.range n).map fun j =>
        mmXor (mmXor (E.aes (seedOf (t (Fin.cast h.1.symm i))) n j) (E.aes (seedXor (t (Fin.cast h.1.symm i)) s) n j))
          (mul (u.getD j (0, 0)) (xpow i.val)),
       .blks ((List.range n).map fun j => xorLoop fun i => E.aes (seedOf (t (Fin.cast h.1.symm i))) n j)]
    else none
  | _ => none

/-- `_recv_round` (gilboa.py:281-313) -/
def recvRound (n : Nat) : List (Val A) → Option (Val A)
  | [.rows m q, .grid f, .choice m' (.col b)] =>
    if h : m = iknpK ∧ m' = iknpK then some
      (.blks ((List.range n).map fun j => xorLoop fun i =>
        mmXor (E.aes (seedOf (q (Fin.cast h.1.symm i))) n j) (if b (Fin.cast h.2.symm i) then (f i).getD j (0, 0) else (0, 0))))
    else none
  | _ => none

/-- `vole(sender, receiver, n, u_provider, delta_provider, return_secrets=True)` (gilboa.py:32-191); results `v, w, u, delta` -/
def voleNet (u : List Blk) (delta : Blk) (snd rcv n : Nat) : Prog A (Nat × Nat × Nat × Nat) :=
  (several rcv (prepK delta) [.secret, .secret] []).bind fun db => unpack2 db fun d0 b0 =>
  (one rcv fstK .secret [d0, b0]).bind fun d =>
  (one rcv sndK .secret [d0, b0]).bind fun b =>
  (iknp C E rC ds b snd rcv iknpK).bind fun o =>
  (one snd (fun _ => some (.blks u)) .secret []).bind fun uS =>
  (several snd (senderRound E mul n) [.voleCorr, .secret] [o.1, o.2.2, uS]).bind fun mv => unpack2 mv fun m v =>
  (move m snd rcv).bind fun mR =>
  (one rcv (recvRound E n) .secret [o.2.1, mR, b]).bind fun w =>
  .ret (v, w, uS, d)

/-! ## `silent_vole_random_u` -/

/-- `_run_expansion` (silent.py:163-205) -/
def expandK (n : Nat) : List (Val A) → Option (Val A)
  | [.blks b, .seed s] => (expandSilent E s n b).map .blks
  | _ => none

/-- `silent_vole_random_u(sender, receiver, n, base_k)` (silent.py:31-217) -/
def silentNet (uBase : List Blk) (delta : Blk) (seed : Bytes32) (snd rcv n baseK : Nat) : Prog A (Nat × Nat × Nat × Nat) :=
  (voleNet C E rC ds mul uBase delta snd rcv baseK).bind fun o =>
  (one snd (fun _ => some (.seed seed)) .expandSeed []).bind fun sd =>
  (move sd snd rcv).bind fun sdR =>
  (one snd (expandK E n) .secret [o.1, sd]).bind fun v =>
  (one rcv (expandK E n) .secret [o.2.1, sdR]).bind fun w =>
  (one snd (expandK E n) .secret [o.2.2.1, sd]).bind fun u =>
  .ret (v, w, u, o.2.2.2)

/-! ## `psi_intersect` -/

variable (solve : Solver) (wordsOf : Blk → Nat → Nat × Nat)

/-- `_recv_ops` (rr22.py:151-174): encode and mask -/
def recvOps (m : Nat) : List (Val A) → Option (Val A)
  | [.items y, .blks u, .blk s] => (okOf (solve (wordsOf s) y (y.map (hashItem E)) m)).map fun p => .blks (List.zipWith mmXor p u)
  | _ => none

/-- `_sender_ops` (rr22.py:200-245); `n` items -/
def senderOps (n m : Nat) : List (Val A) → Option (Val A)
  | [.items x, .blks q, .blks w, .blk delta, .blk s] => if x.length = n then some (.blks (senderTags mul E (wordsOf s) m x q w delta)) else none
  | _ => none

/-- `_hash_and_trunc` (rr22.py:267-271) -/
def hashTrunc : List (Val A) → Option (Val A)
  | [.blks t] => some (.tags (t.map (tagHash E)))
  | _ => none

/-- `_recv_verify` (rr22.py:279-297) -/
def verifyK (m : Nat) : List (Val A) → Option (Val A)
  | [.items y, .blks v, .blk s, .tags r] => some (.mask (receiverMask E (wordsOf s) m y v r))
  | _ => none

/-- `psi_intersect(sender, receiver, n, sender_items, receiver_items)` (rr22.py:72-303); the base VOLE has as many elements as `uBase`
(1024 in the code) -/
def psiNet (uBase : List Blk) (delta : Blk) (seed : Bytes32) (okvs : Blk) (sender receiver n xs ys : Nat) : Prog A Nat :=
  if sender = receiver then .fail else if n = 0 then .fail else
  (silentNet C E rC ds mul uBase delta seed receiver sender (tableRr22 n) uBase.length).bind fun o =>
  (one receiver (fun _ => some (.blk okvs)) .okvsSeed []).bind fun sd =>
  (move sd receiver sender).bind fun sdS =>
  (one receiver (recvOps E solve wordsOf (tableRr22 n)) .masked [ys, o.2.2.1, sd]).bind fun q =>
  (move q receiver sender).bind fun qS =>
  (one sender (senderOps E mul wordsOf n (tableRr22 n)) .secret [xs, qS, o.2.1, o.2.2.2, sdS]).bind fun tg =>
  (one sender (hashTrunc E) .tag [tg]).bind fun h =>
  (move h sender receiver).bind fun hR =>
  one receiver (verifyK E wordsOf (tableRr22 n)) .result [ys, o.1, sd, hR]

/-! ## `psi_unbalanced` -/

/-- `_compute_hashes` (unbalanced.py:103-150): keys and values -/
def hashesK : List (Val A) → Option (List (Val A))
  | [.items x, .blk s] => some [.items (x.map (derivedKey E s)), .blks (x.map (derivedVal E s))]
  | _ => none

/-- `_solve` (unbalanced.py:161-162) -/
def solveK (m : Nat) : List (Val A) → Option (Val A)
  | [.items k, .blks v, .blk s] => (okOf (solve (wordsOf s) k v m)).map .blks
  | _ => none

/-- `_decode_and_compare` (unbalanced.py:182-189) -/
def compareK : List (Val A) → Option (Val A)
  | [.items k, .blks t, .blks e, .blk s] =>
    some (.mask (List.zipWith (fun d e : Blk => d.1 == e.1 && d.2 == e.2) (okvsDecode (wordsOf s) k t t.length) e))
  | _ => none

/-- `psi_unbalanced(server, client, server_n, client_n, server_items, client_items)` (unbalanced.py:45-200) -/
def unbalancedNet (s : Blk) (server client serverN clientN xs ys : Nat) : Prog A Nat :=
  if server = client then .fail else if clientN = 0 ∨ serverN = 0 then .fail else
  (one server (fun _ => some (.blk s)) .okvsSeed []).bind fun sd =>
  (several server (hashesK E) [.secret, .secret] [xs, sd]).bind fun kv => unpack2 kv fun k v =>
  (one server (solveK solve wordsOf (tableBase serverN)) .table [k, v, sd]).bind fun t =>
  (move t server client).bind fun tC =>
  (move sd server client).bind fun sdC =>
  (several client (hashesK E) [.secret, .secret] [ys, sdC]).bind fun kv' => unpack2 kv' fun k' e =>
  one client (compareK wordsOf) .result [k', tC, e, sdC]

/-! ## `eval_oprf` and the sender's evaluation -/

/-- `encode_inputs` (oprf.py:94-108) -/
def encodeK : List (Val A) → Option (Val A)
  | [.inputs n xs] => some (.choice n (.mat fun j i => itemBit (xs j) i))
  | _ => none

/-- `compute_receiver_outputs` (oprf.py:142-164) -/
def outputsK : List (Val A) → Option (Val A)
  | [.rows n q, .choice _ _] => some (.digests n fun j => vecHashBytes E oprfSep (packRow (q j)))
  | _ => none

/-- `lambda t, s_: (t, s_)` (oprf.py:175) -/
def pairK : List (Val A) → Option (List (Val A))
  | [a, b] => some [a, b]
  | _ => none

/-- `eval_oprf(receiver_inputs, sender, receiver, num_items)` (oprf.py:32-178); results: the sender's key `(T, s)`, the receiver's outputs -/
def oprfNet (inputs snd rcv n : Nat) : Prog A (Nat × Nat × Nat) :=
  (one rcv encodeK .secret [inputs]).bind fun codes =>
  (iknp C E rC ds codes snd rcv n).bind fun o =>
  (one rcv (outputsK E) .result [o.2.1, codes]).bind fun out =>
  (several snd pairK [.secret, .secret] [o.1, o.2.2]).bind fun k => unpack2 k fun t s =>
  .ret (t, s, out)

/-- `compute_sender_outputs` (oprf.py:219-255) -/
def senderEvalK : List (Val A) → Option (Val A)
  | [.rows n t, .sel s, .inputs m ys] => some (.digests m (senderEvalBatch E (⟨t, s, fun _ _ => 0⟩ : OprfOut n) ys))
  | _ => none

/-- `sender_eval_prf_batch(sender_key, sender_items, sender, num_items)` (oprf.py:200-260) -/
def senderEvalNet (t s items snd : Nat) : Prog A Nat := one snd (senderEvalK E) .result [t, s, items]

end
end Verif.Mpc.Net
