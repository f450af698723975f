import Verif.Mpc.Groupby
import Verif.Simp.ChorArgs
/-!
# The group-by over homomorphic encryption as a program of the parties (C117)

`Verif.Mpc.Groupby` computes the result on one machine; here each party computes from what it has, and every transfer is a step of the
program.  A ciphertext is what it decrypts to, with the context attached to it (as in `Verif.Mpc.Groupby`): the noise, which may depend on
the receiver's masks, is not modelled.
-/
namespace Verif.Mpc.Gb
open Verif.Simp

/-- What the parties hold: integers, ciphertexts, key contexts and the encoder. (models no code of its own; the values of
libs/mpc/analytics/groupby.py:32-217) -/
inductive BVal (t : Nat)
  | ints (l : List Int)
  | ct (c : BfvCt (ZMod t))
  | key (k : CtxKind)
  | encoder

/-- A name for every value that is made. (models no code of its own) -/
inductive BKind
  | data | bins
  | pk | sk | rk | gk | enc
  | chunk (i : Nat)
  | sum (k : Nat)
  | result
  deriving DecidableEq, Repr

/-- five results of a call (models no code of its own) -/
def unpack5 {V T β : Type} (ys : List Nat) (k : Nat → Nat → Nat → Nat → Nat → Chor V T β) : Chor V T β :=
  match ys with
  | [a, b, c, d, e] => k a b c d e
  | _ => .fail

/-- a local function that raises makes the run fail (models no code of its own) -/
def okOf {ε α : Type} : Except ε α → Option α
  | .ok a => some a
  | .error _ => none

variable {t : Nat}

/-- `keygen_fn`: `pk, sk, rk, gk, encoder` (libs/mpc/analytics/groupby.py:61-75; backends/bfv_impl.py:270-298) -/
def keygenK : List (BVal t) → Option (List (BVal t))
  | [] => some [.key .pub, .key .secret, .key (makeEvalKeys .secret), .key (makeEvalKeys .secret), .encoder]
  | _ => none

/-- chunk `i` of the data, encrypted (libs/mpc/analytics/groupby.py:88-103) -/
def encChunk (t r : Nat) (d : List Int) (i : Nat) : BfvCt (ZMod t) :=
  encryptVec ((chunkOf (2 ^ r) 0 d i).map fun v => ((v : Int) : ZMod t))

/-- `encrypt_chunks_fn` on data of length `n` (libs/mpc/analytics/groupby.py:80-105) -/
def encryptK (r n : Nat) : List (BVal t) → Option (List (BVal t))
  | [.ints d, .encoder, .key .pub] =>
    if d.length = n then some ((List.range (numChunks (2 ^ r) n)).map fun i => .ct (encChunk t r d i)) else none
  | _ => none

/-- the ciphertext in a value (models no code of its own) -/
def ctOf : BVal t → Option (BfvCt (ZMod t))
  | .ct c => some c
  | _ => none

/-- the sums of the bins, as `aggregate_fn` computes them from the bins and the chunks as they arrive; the accumulated ciphertext starts
as an encryption under `pk` and keeps its context (libs/mpc/analytics/groupby.py:127-168) -/
def sumsOf (wire : Bool) (r K : Nat) (b : List Int) (cs : List (BfvCt (ZMod t))) (pk : CtxKind) : Option (List (BVal t)) :=
  (okOf (mapE (binTotal r b (cs.map (wireCt wire))) (List.range K))).map fun ys => ys.map fun y => .ct ⟨y, pk⟩

/-- the bins, `m` chunks, and the keys: `pk` must be able to encrypt, `rk` and `gk` must hold evaluation keys (a context with parameters only
has neither) (libs/mpc/analytics/groupby.py:127-168; backends/bfv_impl.py:62-181, 665, 691) -/
def aggregateK (wire : Bool) (r K m : Nat) (args : List (BVal t)) : Option (List (BVal t)) :=
  match args.head?, ((args.drop 1).take m).mapM ctOf, args.drop (m + 1) with
  | some (.ints b), some cs, [.key p, .key q, .key g, .encoder] =>
    if p ≠ .param ∧ q ≠ .param ∧ g ≠ .param then sumsOf wire r K b cs p else none
  | _, _, _ => none

/-- `decrypt_fn`: slot 0 of every sum; no sums cannot be stacked (libs/mpc/analytics/groupby.py:186-202) -/
def decryptK (wire : Bool) (K : Nat) (args : List (BVal t)) : Option (BVal t) :=
  match (args.take K).mapM ctOf, args.drop K with
  | some cs, [.key s, .encoder] =>
    if cs.isEmpty then none
    else (cs.mapM fun c => bfvDecrypt s (wireCt wire c)).map fun ys => .ints (ys.map fun y => (y 0).valMinAbs)
  | _, _ => none

/-- `oblivious_groupby_sum_bfv` on `n` elements with `K` bins, `poly_modulus_degree = 2 ^ (r + 1)` and plaintext modulus `t`; `wire` says
whether the parties run in different processes (libs/mpc/analytics/groupby.py:32-217) -/
def groupBfvNet (t r : Nat) (wire : Bool) (data bins snd rcv n K : Nat) : Chor (BVal t) BKind Nat :=
  (several snd keygenK [.pk, .sk, .rk, .gk, .enc] []).bind fun ks => unpack5 ks fun pk sk rk gk enc =>
  (several snd (encryptK r n) ((List.range (numChunks (2 ^ r) n)).map .chunk) [data, enc, pk]).bind fun cs =>
  (each (fun c => move c snd rcv) cs).bind fun csR =>
  (move pk snd rcv).bind fun pkR => (move rk snd rcv).bind fun rkR => (move gk snd rcv).bind fun gkR => (move enc snd rcv).bind fun encR =>
  (several rcv (aggregateK wire r K (numChunks (2 ^ r) n)) ((List.range K).map .sum) (bins :: (csR ++ [pkR, rkR, gkR, encR]))).bind fun ss =>
  (each (fun s => move s rcv snd) ss).bind fun ssS =>
  (one snd (decryptK wire K) .result (ssS ++ [sk, enc])).bind fun f =>
  move f snd rcv

/-- the messages of the protocol: to the receiver the encrypted chunks, the public key, the two evaluation keys, the encoder and the result;
to the sender the encrypted sums (specification) -/
inductive BfvMsgs (r n K snd rcv : Nat) : BKind → Nat → Nat → Prop
  | chunk {i : Nat} : i < numChunks (2 ^ r) n → BfvMsgs r n K snd rcv (.chunk i) snd rcv
  | pk : BfvMsgs r n K snd rcv .pk snd rcv
  | rk : BfvMsgs r n K snd rcv .rk snd rcv
  | gk : BfvMsgs r n K snd rcv .gk snd rcv
  | enc : BfvMsgs r n K snd rcv .enc snd rcv
  | sum {k : Nat} : k < K → BfvMsgs r n K snd rcv (.sum k) rcv snd
  | result : BfvMsgs r n K snd rcv .result snd rcv

end Verif.Mpc.Gb
