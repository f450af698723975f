import Verif.Simp.Collective
import Verif.Store.Lemmas
/-!
# C36 — moving values between devices (libs/device/api.py)

The transfer functions append operations to the program under construction (`Verif.Simp.Bld`).  Local values are an abstract
type `V`; what the SPU and crypto libraries do on one party is `Prims`, with their contracts in `Contracts` (share
reconstruction, attestation of a genuine quote, key agreement, decryption).  Randomness: operation number `n` uses `rnd n`,
an arbitrary function.
-/
namespace Verif.Device
open Verif.Comm Verif.Simp
open Verif.Store (lookup assign remove)

/-- Local functions called by the transfers: spu.make_shares, spu.reconstruct (dialects/spu.py), crypto.kem_keygen,
kem_derive, hkdf, sym_encrypt, sym_decrypt (dialects/crypto.py), tee.quote_gen, attest (dialects/tee.py); `none` = exception.
The first argument of the randomised ones is the random seed. -/
structure Prims (V : Type) where
  makeShares : Nat → V → Nat → List V
  reconstruct : List V → Option V
  keygen : Nat → V × V
  quote : V → Option V
  attest : V → Option V
  derive : V → V → Option V
  hkdf : V → Option V
  encrypt : Nat → V → V → Option V
  decrypt : V → V → Option V

/-- `k` is a usable session key for the values `Plain`: whatever is encrypted under it decrypts to the same value. -/
def GoodKey {V : Type} (P : Prims V) (Plain : V → Prop) (k : V) : Prop :=
  ∀ s v, Plain v → ∃ c, P.encrypt s k v = some c ∧ P.decrypt k c = some v

/-- What the local operations promise for values in `Plain` (serialisable values).  `Verif.Device.Real` proves the last two
for the modelled crypto and TEE backends. -/
structure Contracts {V : Type} (P : Prims V) (Plain : V → Prop) : Prop where
  shares_len : ∀ s v n, (P.makeShares s v n).length = n
  shares_open : ∀ s v n, Plain v → 0 < n → P.reconstruct (P.makeShares s v n) = some v
  attest_quote : ∀ s, ∃ q, P.quote (P.keygen s).2 = some q ∧ P.attest q = some (P.keygen s).2
  session : ∀ s t, ∃ k k', P.derive (P.keygen s).1 (P.keygen t).2 = some k ∧ P.derive (P.keygen t).1 (P.keygen s).2 = some k ∧
    P.hkdf k = some k' ∧ GoodKey P Plain k'

/-- Value types of the intermediate values: shares of a type, and keys, quotes, ciphertexts. -/
structure TyNames (T : Type) where
  ss : T → T
  unss : T → T
  unss_ss : ∀ t, unss (ss t) = t
  sk : T
  pk : T
  quote : T
  secret : T
  sym : T
  ct : T

/-- The kinds the transfer functions distinguish, after `kind.upper()` (api.py:483). -/
inductive Kind where
  | ppu | spu | tee | other
  deriving DecidableEq

/-- A device: kind and member ranks in member order. -/
structure Dev where
  kind : Kind
  members : List Nat

section
variable {V T : Type} [DecidableEq T]

/-- A function of local values as the effect of a `pcall` region: all arguments present, some results. -/
def lift (g : List V → Option (List V)) : Nat → List (LV V) → Option (List (LV V)) :=
  fun _ args => (args.mapM id).bind (fun vs => (g vs).map (fun r => r.map some))

/-- functions of one argument, with one result -/
def fn1 (g : V → Option V) : List V → Option (List V)
  | [a] => (g a).map (fun r => [r])
  | _ => none
/-- functions of two arguments, with one result -/
def fn2 (g : V → V → Option V) : List V → Option (List V)
  | [a, b] => (g a b).map (fun r => [r])
  | _ => none
/-- functions of no argument, with two results -/
def fn0 (r : V × V) : List V → Option (List V)
  | [] => some [r.1, r.2]
  | _ => none

/-- `simp.pcall_static((rank,), fn, *args)` with one result -/
def call1 (rank : Nat) (g : List V → Option (List V)) (t : T) (args : List Nat) (b : Bld V T) : Option (Nat × Bld V T) :=
  single (pcallStatic [rank] (lift g) [t] args b)

/-- the value type of an object -/
def vtOf (b : Bld V T) (x : Nat) : Option T := (b.tys[x]?).map (fun t => t.vt)

/-- `spu.make_shares(config, obj, count=n)` (api.py:515-521) -/
def shareFn (P : Prims V) (seed n : Nat) : List V → Option (List V)
  | [v] => some (P.makeShares seed v n)
  | _ => none

/-- PPU/TEE -> SPU: api.py:505-535 and api.py:621-646 -/
def sealTo (P : Prims V) (names : TyNames T) (rnd : Nat → Nat) (frm : Nat) (members : List Nat) (x : Nat) (b : Bld V T) :
    Option (Nat × Bld V T) :=
  (vtOf b x).bind fun vt =>
  (pcallStatic [frm] (lift (shareFn P (rnd b.tys.length) members.length)) (List.replicate members.length (names.ss vt)) [x] b).bind fun r =>
  (mapBuild (fun (e : Nat × Nat) => shuffleStatic [(e.2, frm)] e.1) (r.1.zip members) r.2).bind fun q =>
  converge q.1 q.2

/-- one share of a revealed object: api.py:547-556 -/
def gatherOne (dst : Nat) (x : Nat) (src : Nat) (b : Bld V T) : Option (Nat × Bld V T) :=
  (vtOf b x).bind fun vt => (call1 src (fn1 some) vt [x] b).bind fun r => shuffleStatic [(dst, src)] r.1 r.2

/-- SPU -> PPU/TEE: api.py:537-564 and api.py:648-670 -/
def reveal (P : Prims V) (names : TyNames T) (dst : Nat) (members : List Nat) (x : Nat) (b : Bld V T) : Option (Nat × Bld V T) :=
  (vtOf b x).bind fun vt =>
  (mapBuild (gatherOne dst x) members b).bind fun q =>
  call1 dst (fun vs => (P.reconstruct vs).map (fun r => [r])) (names.unss vt) q.1 q.2

/-- The handshake of `_ensure_tee_session` (api.py:438-466): the session keys at the sender and at the TEE. -/
def handshake (P : Prims V) (names : TyNames T) (rnd : Nat → Nat) (frm tee : Nat) (b : Bld V T) : Option ((Nat × Nat) × Bld V T) :=
  (pcallStatic [tee] (lift (fn0 (P.keygen (rnd b.tys.length)))) [names.sk, names.pk] [] b).bind fun k1 =>
  (k1.1[0]?).bind fun teeSk => (k1.1[1]?).bind fun teePk =>
  (call1 tee (fn1 P.quote) names.quote [teePk] k1.2).bind fun q =>
  (shuffleStatic [(frm, tee)] q.1 q.2).bind fun qs =>
  (call1 frm (fn1 P.attest) names.pk [qs.1] qs.2).bind fun pkS =>
  (pcallStatic [frm] (lift (fn0 (P.keygen (rnd pkS.2.tys.length)))) [names.sk, names.pk] [] pkS.2).bind fun k2 =>
  (k2.1[0]?).bind fun vSk => (k2.1[1]?).bind fun vPk =>
  (shuffleStatic [(tee, frm)] vPk k2.2).bind fun vpT =>
  (call1 frm (fn2 P.derive) names.secret [vSk, pkS.1] vpT.2).bind fun sF =>
  (call1 tee (fn2 P.derive) names.secret [teeSk, vpT.1] sF.2).bind fun sT =>
  (call1 frm (fn1 P.hkdf) names.sym [sF.1] sT.2).bind fun kF =>
  (call1 tee (fn1 P.hkdf) names.sym [sT.1] kF.2).bind fun kT =>
  some ((kF.1, kT.1), kT.2)

/-- `_tee_session_cache` (api.py:74): device pair to context identity and the two session keys. -/
abbrev Cache := List ((String × String) × (Nat × Nat × Nat))

/-- dictionary lookup -/
def cacheGet (k : String × String) : Cache → Option (Nat × Nat × Nat)
  | [] => none
  | (k', v) :: l => if k' = k then some v else cacheGet k l

/-- dictionary store -/
def cachePut (k : String × String) (v : Nat × Nat × Nat) : Cache → Cache
  | [] => [(k, v)]
  | (k', w) :: l => if k' = k then (k, v) :: l else (k', w) :: cachePut k v l

/-- `_ensure_tee_session` (api.py:381-469) in the context with identity `ctx` -/
def ensureSession (P : Prims V) (names : TyNames T) (rnd : Nat → Nat) (ctx : Nat) (key : String × String) (frm tee : Nat) (cache : Cache)
    (b : Bld V T) : Option ((Nat × Nat) × Cache × Bld V T) :=
  match cacheGet key cache with
  | some (c, f, t) => if c = ctx then some ((f, t), cache, b) else
      (handshake P names rnd frm tee b).map (fun r => (r.1, cachePut key (ctx, r.1.1, r.1.2) cache, r.2))
  | none => (handshake P names rnd frm tee b).map (fun r => (r.1, cachePut key (ctx, r.1.1, r.1.2) cache, r.2))

/-- encrypt at `src`, send, decrypt at `dst`: api.py:583-597 and api.py:607-619 -/
def viaCipher (P : Prims V) (names : TyNames T) (rnd : Nat → Nat) (src dst kS kD x : Nat) (b : Bld V T) : Option (Nat × Bld V T) :=
  (vtOf b x).bind fun vt =>
  (call1 src (fn2 (P.encrypt (rnd b.tys.length))) names.ct [kS, x] b).bind fun c =>
  (shuffleStatic [(dst, src)] c.1 c.2).bind fun c' =>
  call1 dst (fn2 P.decrypt) vt [kD, c'.1] c'.2

/-- `_d2d` (api.py:472-676) between different devices, by the pair of kinds; `none` = exception. -/
def move (P : Prims V) (names : TyNames T) (rnd : Nat → Nat) (ctx : Nat) (frmId toId : String) (frm dst : Dev) (x : Nat) (cache : Cache)
    (b : Bld V T) : Option (Nat × Cache × Bld V T) :=
  match frm.kind, dst.kind, frm.members, dst.members with
  | .ppu, .ppu, [f], [t] => (shuffleStatic [(t, f)] x b).map (fun r => (r.1, cache, r.2))
  | .ppu, .spu, [f], ms => (sealTo P names rnd f ms x b).map (fun r => (r.1, cache, r.2))
  | .tee, .spu, [f], ms => (sealTo P names rnd f ms x b).map (fun r => (r.1, cache, r.2))
  | .spu, .ppu, ms, [t] => (reveal P names t ms x b).map (fun r => (r.1, cache, r.2))
  | .spu, .tee, ms, [t] => (reveal P names t ms x b).map (fun r => (r.1, cache, r.2))
  | .ppu, .tee, [f], [t] => (ensureSession P names rnd ctx (frmId, toId) f t cache b).bind fun s =>
      (viaCipher P names rnd f t s.1.1 s.1.2 x s.2.2).map (fun r => (r.1, s.2.1, r.2))
  | .tee, .ppu, [f], [t] => (ensureSession P names rnd ctx (toId, frmId) t f cache b).bind fun s =>
      (viaCipher P names rnd f t s.1.2 s.1.1 x s.2.2).map (fun r => (r.1, s.2.1, r.2))
  | _, _, _, _ => none

/-- `_d2d` (api.py:472-676): `devs` is `cluster.devices` -/
def d2d (P : Prims V) (names : TyNames T) (rnd : Nat → Nat) (ctx : Nat) (devs : List (String × Dev)) (toId frmId : String) (x : Nat)
    (cache : Cache) (b : Bld V T) : Option (Nat × Cache × Bld V T) :=
  if frmId = toId then some (x, cache, b)
  else match lookup frmId devs, lookup toId devs with
    | some frm, some dst => move P names rnd ctx frmId toId frm dst x cache b
    | _, _ => none

/-! ## Specification -/

/-- Party `r`, and only it, holds `v`. -/
def At (N : Nat) (b : Bld V T) (σ : Nat → List (LV V)) (x : Nat) (vt : T) (r : Nat) (v : V) : Prop :=
  Has N b σ x ⟨vt, some [r]⟩ (fun p => if p = r then some v else none)

/-- **Value `x` of the program lives on device `d` and its plaintext is `v`**: on a PPU or TEE the single member holds `v`;
on an SPU each member holds one share and the shares, in member order, reconstruct to `v`. -/
def OnDevice (P : Prims V) (names : TyNames T) (N : Nat) (b : Bld V T) (σ : Nat → List (LV V)) (x : Nat) (vt : T) (d : Dev) (v : V) : Prop :=
  match d.kind with
  | .spu => ∃ f, Has N b σ x ⟨names.ss vt, some (sortedSet d.members)⟩ f ∧ (∀ p, p < N → p ∉ d.members → f p = none) ∧
      ∃ shares : List V, d.members.map f = shares.map some ∧ P.reconstruct shares = some v
  | .ppu | .tee => ∃ r, d.members = [r] ∧ At N b σ x vt r v
  | .other => False

/-- A device of a validated cluster: distinct member ranks below `N`, one member unless it is an SPU. -/
structure DevOk (N : Nat) (d : Dev) : Prop where
  ranks : ∀ r ∈ d.members, r < N
  nodup : d.members.Nodup
  nonempty : d.members ≠ []
  single : d.kind = .ppu ∨ d.kind = .tee → d.members.length = 1

/-- The pairs of kinds between which a transfer is implemented. -/
def Supported (a c : Kind) : Prop :=
  (a = .ppu ∧ (c = .ppu ∨ c = .spu ∨ c = .tee)) ∨ (a = .spu ∧ (c = .ppu ∨ c = .tee)) ∨ (a = .tee ∧ (c = .ppu ∨ c = .spu))

/-- The session cache is consistent with the program of context `ctx`: cached keys are equal, usable
keys at the two parties. -/
def CacheOk (P : Prims V) (Plain : V → Prop) (names : TyNames T) (N : Nat) (ctx : Nat) (devs : List (String × Dev)) (cache : Cache) (b : Bld V T) (σ : Nat → List (LV V)) : Prop :=
  ∀ p t f s, cacheGet (p, t) cache = some (ctx, f, s) → ∃ dp dt rp rt k, lookup p devs = some dp ∧ lookup t devs = some dt ∧
    dp.members = [rp] ∧ dt.members = [rt] ∧ At N b σ f names.sym rp k ∧ At N b σ s names.sym rt k ∧ GoodKey P Plain k

end
end Verif.Device
