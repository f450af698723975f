import Verif.Bfv.Sound

/-!
# C92: what well-typed BFV programs do, and where they fail

The programs below are accepted by the type rules; each `_violated` theorem holds for every library meeting the contract.
-/

namespace Verif.Bfv

variable {C : Type} (L : Seal C)

/-- The values a program starts from: a tensor, a public and a secret key of the same pair. -/
def start (d : String) (xs : List Int) (k : Nat) : List (Val L.t C) := [.tensor d xs, .key ⟨k, .pub⟩, .key ⟨k, .secret⟩]

/-- Their types; the keys say `2 * h` slots. -/
def startTy (d : String) (n : Int) : List Ty := [.tensor d n, .key .pub (2 * L.h), .key .priv (2 * L.h)]

/-- Encode (with an encoder for `deg` slots), encrypt, decrypt, decode. -/
def roundTrip (deg : Int) (rnd : Nat) : List Instr := [.createEncoder deg, .encode 0 3, .encrypt 4 1 rnd, .decrypt 5 2, .decode 6 3]

theorem roundTrip_run (d : String) (xs : List Int) (k rnd : Nat) (deg : Int) (hl : xs.length ≤ 2 * L.h) :
    L.run (start L d xs k) (roundTrip deg rnd) = .ok (start L d xs k ++ [.encoder deg, .tensor d xs,
      .cipher (some (L.encrypt k rnd (L.encode xs))) ⟨k, .pub⟩,
      .plain (L.decrypt k (L.encrypt k rnd (L.encode xs))) ⟨k, .secret⟩,
      .tensor "int64" (centred L.h (L.decrypt k (L.encrypt k rnd (L.encode xs))))]) := by
  simp [Seal.run, roundTrip, start, Seal.step, fetch, Seal.tryEncode, hl, Seal.tryEncrypt, ret, full, bind, Except.bind, pure, Except.pure]

theorem valMinAbs_intCast {t : Nat} {x : Int} (h : 2 * x.natAbs < t) : ((x : Int) : ZMod t).valMinAbs = x := by
  haveI : NeZero t := ⟨by omega⟩
  refine (ZMod.valMinAbs_spec _ _).2 ⟨by simp, ?_⟩
  simp only [Set.mem_Ioc]
  omega

variable {L}

theorem centred_spread (ok : L.Ok) {xs : List Int} (hf : Fits L.t xs) {p : Slots L.t} (hp : Same L.h p (spread L.h L.t xs)) (hl : xs.length ≤ 2 * L.h) :
    centred L.h p = xs ++ List.replicate (2 * L.h - xs.length) 0 := by
  rw [centred_same ok.h_pos hp]
  have ht := ok.t_odd
  have hh := ok.h_pos
  refine List.ext_getElem? fun q => ?_
  unfold centred
  rw [List.getElem?_map]
  by_cases hq : q < 2 * L.h
  · rw [List.getElem?_range hq]
    simp only [Option.map_some, spread]
    have : q / L.h * L.h + q % L.h = q := by rw [Nat.mul_comm]; exact Nat.div_add_mod q L.h
    rw [this]
    by_cases hx : q < xs.length
    · rw [List.getElem?_append_left hx, List.getD_eq_getElem?_getD, List.getElem?_eq_getElem hx]
      simp only [Option.getD_some]
      rw [valMinAbs_intCast (hf _ (List.getElem_mem hx))]
    · rw [List.getElem?_append_right (by omega), List.getElem?_replicate, if_pos (by omega),
        List.getD_eq_getElem?_getD, List.getElem?_eq_none (by omega)]
      simp only [Option.getD_none, Int.cast_zero]
      haveI : NeZero L.t := ⟨by omega⟩
      simp
  · rw [List.getElem?_eq_none (by simp; omega)]
    symm
    rw [List.getElem?_eq_none (by simp; omega)]
    rfl

/-- **C92** Encrypting a tensor that fits and decrypting it again always succeeds and returns the numbers, followed by zeros up
to the number of slots. -/
theorem encrypt_decrypt (ok : L.Ok) (d : String) (xs : List Int) (k rnd : Nat) (deg : Int) (hl : xs.length ≤ 2 * L.h) (hf : Fits L.t xs)
    (hn : L.fine (L.encrypt k rnd (L.encode xs))) :
    ∃ env', L.run (start L d xs k) (roundTrip deg rnd) = .ok env' ∧
      env'[7]? = some (.tensor "int64" (xs ++ List.replicate (2 * L.h - xs.length) 0)) := by
  refine ⟨_, roundTrip_run L d xs k rnd deg hl, ?_⟩
  have : Same L.h (L.decrypt k (L.encrypt k rnd (L.encode xs))) (spread L.h L.t xs) := (ok.encrypt _ _ _ hn).trans (ok.encode xs hl hf)
  rw [← centred_spread ok hf this hl]
  rfl

/-- **C92** (types) With an encoder made for the key's number of slots and a tensor of dtype int64, the declared type of the decoded
tensor is that of the value. -/
theorem decoded_type_partial (ok : L.Ok) (xs : List Int) (k rnd : Nat) (n : Int) (hl : xs.length ≤ 2 * L.h) (hf : Fits L.t xs)
    (hn : L.fine (L.encrypt k rnd (L.encode xs))) :
    ∃ Γ' env' ys, tyRun (startTy L "int64" n) (roundTrip (2 * L.h) rnd) = .ok Γ' ∧ L.run (start L "int64" xs k) (roundTrip (2 * L.h) rnd) = .ok env' ∧
      Γ'[7]? = some (.tensor "int64" (2 * L.h)) ∧ env'[7]? = some (.tensor "int64" ys) ∧ (ys.length : Int) = 2 * L.h := by
  obtain ⟨env', h1, h2⟩ := encrypt_decrypt ok "int64" xs k rnd (2 * L.h) hl hf hn
  exact ⟨_, env', _, rfl, h1, rfl, h2, by simp; omega⟩

/-- **C92** (violated) The declared shape and element type of a decoded tensor come from the encoder and the original tensor and are
compared with nothing: an encoder for another number of slots, or a tensor that is not int64, gives a tensor whose type is wrong. -/
theorem decoded_type_violated (d : String) (xs : List Int) (k rnd : Nat) (n deg : Int) (hl : xs.length ≤ 2 * L.h) :
    ∃ Γ' env' ys, tyRun (startTy L d n) (roundTrip deg rnd) = .ok Γ' ∧ L.run (start L d xs k) (roundTrip deg rnd) = .ok env' ∧
      Γ'[7]? = some (.tensor d deg) ∧ env'[7]? = some (.tensor "int64" ys) ∧ (ys.length : Int) = 2 * L.h :=
  ⟨_, _, _, rfl, roundTrip_run L d xs k rnd deg hl, rfl, rfl, by simp [centred]⟩

/-- **C92** (violated) A tensor longer than the number of slots has a type like any other and fails when it is encrypted. -/
theorem too_long_violated (d : String) (xs : List Int) (k rnd : Nat) (n deg : Int) (hl : 2 * L.h < xs.length) :
    (∃ Γ', tyRun (startTy L d n) (roundTrip deg rnd) = .ok Γ') ∧ L.run (start L d xs k) (roundTrip deg rnd) = .error .value := by
  refine ⟨⟨_, rfl⟩, ?_⟩
  have : ¬ xs.length ≤ 2 * L.h := by omega
  simp [Seal.run, roundTrip, start, Seal.step, fetch, Seal.tryEncode, this, bind, Except.bind]

/-- **C92** (violated) Plaintexts come in two representations that share a type: what `encode` returns cannot be decoded. -/
theorem decode_encode_violated (d : String) (xs : List Int) (k : Nat) (n : Int) :
    let prog : List Instr := [.createEncoder (2 * L.h), .encode 0 3, .decode 4 3]
    tyRun (startTy L d n) prog = .ok (startTy L d n ++ [.encoder (2 * L.h), .plain d (2 * L.h), .tensor d (2 * L.h)]) ∧
    L.run (start L d xs k) prog = .error .attribute := ⟨rfl, rfl⟩

/-- **C92** (violated) … and what `decrypt` returns cannot be encrypted again. -/
theorem encrypt_decrypted_violated (d : String) (xs : List Int) (k rnd : Nat) (n : Int) (hl : xs.length ≤ 2 * L.h) :
    let prog : List Instr := [.createEncoder (2 * L.h), .encode 0 3, .encrypt 4 1 rnd, .decrypt 5 2, .encrypt 6 1 rnd]
    (∃ Γ', tyRun (startTy L d n) prog = .ok Γ') ∧ L.run (start L d xs k) prog = .error .attribute := by
  refine ⟨⟨_, rfl⟩, ?_⟩
  simp [Seal.run, start, Seal.step, fetch, Seal.tryEncode, hl, Seal.tryEncrypt, ret, full, bind, Except.bind, pure, Except.pure]

/-- **C92** (violated) Subtracting a ciphertext from itself is refused, although the result is just zero. -/
theorem sub_self_violated (ok : L.Ok) (d : String) (xs : List Int) (k rnd : Nat) (n : Int) (hl : xs.length ≤ 2 * L.h) :
    let prog : List Instr := [.createEncoder (2 * L.h), .encode 0 3, .encrypt 4 1 rnd, .sub 5 5]
    (∃ Γ', tyRun (startTy L d n) prog = .ok Γ') ∧ L.run (start L d xs k) prog = .error .transparent := by
  refine ⟨⟨_, rfl⟩, ?_⟩
  simp [Seal.run, start, Seal.step, fetch, Seal.tryEncode, hl, Seal.tryEncrypt, ret, full, bind, Except.bind, pure, Except.pure,
    Seal.subV, Seal.checked, ok.sub_self]

/-- A start with a ciphertext `c`, an all-zero matrix of one row, and the keys. -/
def startZero (L : Seal C) (c : C) (k w : Nat) : List (Val L.t C) :=
  [.cipher (some c) ⟨k, .pub⟩, .mat "int64" [List.replicate w 0], .key ⟨k, .secret⟩, .encoder (2 * L.h), .key ⟨k, .secret⟩, .key ⟨k, .secret⟩]

/-- Its types. -/
def startZeroTy (L : Seal C) (w : Nat) : List Ty :=
  [.cipher "int64" (2 * L.h), .mat "int64" 1 w, .key .priv (2 * L.h), .encoder (2 * L.h), .key .relin (2 * L.h), .key .galois (2 * L.h)]

/-- The product with a batch-encoded zero row. -/
def zeroProduct : List Instr := [.batchEncode 1 3 4, .mul 0 6 0]

theorem fits_zero {t : Nat} (ht : 0 < t) (w : Nat) : Fits t (List.replicate w 0) := by
  intro x hx
  rw [List.eq_of_mem_replicate hx]
  simpa using ht

theorem encode_zero (ok : L.Ok) {w : Nat} (hw : w ≤ 2 * L.h) : isZero L.h (L.encode (List.replicate w 0)) = true := by
  have ht := ok.t_odd
  have h := (ok.encode _ (by simpa using hw) (fits_zero (by omega) w)).trans (zero_of_all (xs := List.replicate w 0) (by simp) _ _)
  simp only [isZero, List.all_eq_true, List.mem_range, decide_eq_true_eq]
  exact fun r hr i hi => h r hr i hi

theorem zeroProduct_run (ok : L.Ok) (c : C) (k w : Nat) (hw : w ≤ 2 * L.h) (rest : List Instr) :
    L.run (startZero L c k w) (zeroProduct ++ rest) =
      L.run (startZero L c k w ++ [.plain (L.encode (List.replicate w 0)) ⟨k, .secret⟩, .cipher none ⟨k, .pub⟩]) rest := by
  simp [zeroProduct, Seal.run, startZero, Seal.step, fetch, Seal.encodeRows, Seal.tryEncode, hw, bind, Except.bind, pure, Except.pure,
    Seal.mulV, Seal.mulPt, encode_zero ok hw]

/-- **C92** (violated) The product of a ciphertext with a batch-encoded zero vector is an object only some operations know how to
treat: it cannot be decrypted, subtracted (from anything), multiplied by anything but an encoded zero, moved to the other row or
sent to another process, although all of this is well typed and the result would just be zero (or the other operand). -/
theorem zero_product_violated (ok : L.Ok) (c : C) (k w : Nat) (hw : w ≤ 2 * L.h) :
    ∀ next ∈ ([.decrypt 7 2, .sub 0 7, .sub 7 0, .mul 0 7 0, .mul 7 0 0, .rotateColumns 7 5, .wire 7] : List Instr),
      (∃ Γ', tyRun (startZeroTy L w) (zeroProduct ++ [next]) = .ok Γ') ∧
      (L.run (startZero L c k w) (zeroProduct ++ [next]) = .error .value ∨ L.run (startZero L c k w) (zeroProduct ++ [next]) = .error .transparent) := by
  intro next hn
  rw [zeroProduct_run ok c k w hw]
  simp only [List.mem_cons, List.not_mem_nil, or_false] at hn
  rcases hn with rfl | rfl | rfl | rfl | rfl | rfl | rfl <;> refine ⟨⟨_, rfl⟩, ?_⟩ <;> first | exact .inl rfl | exact .inr rfl

/-- **C92** (violated) After a ciphertext came from another process it cannot be multiplied by a zero vector: its context has no
keys, and zero is treated by encrypting one. In the same process the product is fine. -/
theorem zero_after_wire_violated (c : C) (k w : Nat) (ctx : Ctx) (hc : ctx.kind ≠ .param) :
    let env : List (Val L.t C) := [.cipher (some c) ctx, .tensor "int64" (List.replicate w 0), .encoder (2 * L.h)]
    let Γ : List Ty := [.cipher "int64" (2 * L.h), .tensor "int64" w, .encoder (2 * L.h)]
    (∃ Γ', tyRun Γ [.wire 0, .encode 1 2, .mul 3 4 k] = .ok Γ') ∧
    L.run env [.wire 0, .encode 1 2, .mul 3 4 k] = .error .attribute ∧
    ∃ env', L.run env [.encode 1 2, .mul 0 3 k] = .ok env' := by
  refine ⟨⟨_, rfl⟩, ?_, ?_⟩
  · simp [Seal.run, Seal.step, fetch, wired, bind, Except.bind, pure, Except.pure, Seal.mulV, Seal.mulRaw, Seal.tryEncrypt, ret]
  · simp [Seal.run, Seal.step, fetch, bind, Except.bind, pure, Except.pure, Seal.mulV, Seal.mulRaw, Seal.tryEncrypt, ret, hc]

/-! ### The encrypted histogram of SecureBoost (C75) -/

/-- A chain of operations on ciphertexts that treat the empty one as zero: what `_compute_histogram_chunk_batch` does between the
product with the bucket masks and the product with the packing mask: relinearize, sum over chunks, rotate and add.
/repo/mplang/libs/ml/sgb.py:391-420, /repo/mplang/libs/mpc/analytics/aggregation.py:330-348 -/
inductive Chain
  /-- the masked chunk `i`, relinearized -/
  | chunk (i : Nat)
  | add (a b : Chain)
  | rotate (a : Chain) (steps : Int)

/-- Evaluate a chain: `mul` with the encoded mask of the chunk, then relinearize, rotate and add as the backend does. -/
def Seal.chain (cts : List (Option C)) (masks : List (Slots L.t)) (ctx rk gk : Ctx) : Chain → Except Err (Val L.t C)
  | .chunk i =>
    match cts[i]?, masks[i]? with
    | some c, some m => do
      match ← L.mulPt c ctx m with
      | .cipher c ctx => L.relinV c ctx rk
      | _ => .error .attribute
    | _, _ => .error .unbound
  | .add a b => do L.addV 0 (← Seal.chain cts masks ctx rk gk a) (← Seal.chain cts masks ctx rk gk b)
  | .rotate a s => do
    match ← Seal.chain cts masks ctx rk gk a with
    | .cipher c ctx => L.rotateV c ctx gk s
    | _ => .error .attribute

/-- The chunks a chain uses. -/
def Chain.uses : Chain → List Nat
  | .chunk i => [i]
  | .add a b => a.uses ++ b.uses
  | .rotate a _ => a.uses

theorem chain_empty (cts : List (Option C)) (masks : List (Slots L.t)) (ctx rk gk : Ctx) (hz : ∀ m ∈ masks, isZero L.h m = true) :
    ∀ e : Chain, (∀ i ∈ e.uses, i < cts.length ∧ i < masks.length) → L.chain cts masks ctx rk gk e = .ok (.cipher none ctx)
  | .chunk i, h => by
    obtain ⟨h1, h2⟩ := h i (by simp [Chain.uses])
    simp only [Seal.chain, List.getElem?_eq_getElem h1, List.getElem?_eq_getElem h2, Seal.mulPt, hz _ (List.getElem_mem h2), if_true]
    rfl
  | .add a b, h => by
    have ha := chain_empty cts masks ctx rk gk hz a (fun i hi => h i (by simp [Chain.uses, hi]))
    have hb := chain_empty cts masks ctx rk gk hz b (fun i hi => h i (by simp [Chain.uses, hi]))
    simp only [Seal.chain, ha, hb, bind, Except.bind, Seal.addV]
  | .rotate a s, h => by
    have ha := chain_empty cts masks ctx rk gk hz a (fun i hi => h i (by simpa [Chain.uses] using hi))
    simp only [Seal.chain, ha, bind, Except.bind, Seal.rotateV]
    split <;> rfl

/-- **C75** (violated) A tree node without samples stops the encrypted training: all its bucket masks are zero, so whatever is
summed and rotated from them is the empty ciphertext, and the product with the packing mask that follows is refused.
(Nodes below an early leaf have no samples.) /repo/mplang/libs/ml/sgb.py:371-432, 744-752 -/
theorem hist_empty_node_violated (cts : List (Option C)) (masks : List (Slots L.t)) (ctx rk gk : Ctx) (hz : ∀ m ∈ masks, isZero L.h m = true)
    (e : Chain) (hu : ∀ i ∈ e.uses, i < cts.length ∧ i < masks.length) (packing : List Int) (d : String) (hp : packing.length = 2 * L.h)
    (hne : ∃ x ∈ packing, x ≠ 0) (rnd : Nat) :
    (do L.mulV rnd (← L.chain cts masks ctx rk gk e) (.tensor d packing)) = .error .value := by
  rw [chain_empty cts masks ctx rk gk hz e hu]
  have : (packing.all fun x => decide (x = 0)) = false := by
    obtain ⟨x, hx, h0⟩ := hne
    rw [List.all_eq_false]
    exact ⟨x, hx, by simpa using h0⟩
  simp [bind, Except.bind, Seal.mulV, Seal.mulRaw, this, Seal.tryEncode, hp, full]

/-! ### A library meeting the contract -/

/-- Toy ciphertexts: the slots in the clear, a mask standing for the other polynomials, the number of polynomials and the key. -/
structure ToyCt (t : Nat) where
  key : Nat
  size : Nat
  mask : Int
  slots : Slots t

/-- The toy library; under a wrong key every slot is off by one. -/
def toySeal (h t : Nat) : Seal (ToyCt t) where
  h := h
  t := t
  encode := spread h t
  encrypt k r p := ⟨k, 2, (r : Int) + 1, p⟩
  decrypt k c := if k = c.key then c.slots else fun r i => c.slots r i + 1
  keyOf := ToyCt.key
  size := ToyCt.size
  transparent c := c.mask = 0
  fine _ := True
  add a b := ⟨a.key, max a.size b.size, a.mask + b.mask, fun r i => a.slots r i + b.slots r i⟩
  sub a b := ⟨a.key, max a.size b.size, a.mask - b.mask, fun r i => a.slots r i - b.slots r i⟩
  negate a := ⟨a.key, a.size, -a.mask, fun r i => - a.slots r i⟩
  multiply a b := ⟨a.key, a.size + b.size - 1, 1, fun r i => a.slots r i * b.slots r i⟩
  addPlain a p := ⟨a.key, a.size, a.mask, fun r i => a.slots r i + p r i⟩
  subPlain a p := ⟨a.key, a.size, a.mask, fun r i => a.slots r i - p r i⟩
  mulPlain a p := ⟨a.key, a.size, if isZero h p then 0 else a.mask, fun r i => a.slots r i * p r i⟩
  relinearize _ a := { a with size := 2 }
  rotateRows _ s a := { a with slots := turn h s a.slots }
  rotateColumns _ a := { a with slots := flip a.slots }

theorem toySeal_ok {h t : Nat} (hh : 0 < h) (ht : t % 2 = 1) : (toySeal h t).Ok where
  h_pos := hh
  t_odd := ht
  encode := fun _ _ _ => Same.refl _
  encrypt_key := fun _ _ _ => rfl
  encrypt := fun k r p _ => by simp only [toySeal, if_true]; exact Same.refl _
  encrypt_opaque := fun k r p => by simp only [toySeal, decide_eq_false_iff_not]; omega
  encrypt_size := fun _ _ _ => rfl
  add_key := fun _ _ => rfl
  add := fun a b k ha hb _ _ _ => by subst ha; simp only [toySeal] at hb ⊢; simp only [hb, if_true]; exact Same.refl _
  sub_key := fun _ _ => rfl
  sub := fun a b k ha hb _ _ _ => by subst ha; simp only [toySeal] at hb ⊢; simp only [hb, if_true]; exact Same.refl _
  sub_self := fun a => by simp [toySeal]
  negate_key := fun _ => rfl
  negate := fun a k ha _ => by subst ha; simp only [toySeal, if_true]; exact Same.refl _
  negate_fine := fun _ h => h
  multiply_key := fun _ _ => rfl
  multiply := fun a b k ha hb _ _ _ => by subst ha; simp only [toySeal] at hb ⊢; simp only [hb, if_true]; exact Same.refl _
  addPlain_key := fun _ _ => rfl
  addPlain := fun a p k ha _ _ => by subst ha; simp only [toySeal, if_true]; exact Same.refl _
  subPlain_key := fun _ _ => rfl
  subPlain := fun a p k ha _ _ => by subst ha; simp only [toySeal, if_true]; exact Same.refl _
  mulPlain_key := fun _ _ => rfl
  mulPlain := fun a p k ha _ _ => by subst ha; simp only [toySeal, if_true]; exact Same.refl _
  mulPlain_transparent := fun a p k ha _ ho hz r hr i hi => by
    simp only [toySeal, decide_eq_true_eq, decide_eq_false_iff_not] at hz ho
    split at hz
    · next hp => simp only [isZero_same hp r hr i hi]; exact mul_zero _
    · exact absurd hz ho
  relinearize_key := fun _ _ => rfl
  relinearize := fun a k ha _ _ => by subst ha; simp only [toySeal, if_true]; exact Same.refl _
  rotateRows_key := fun _ _ _ => rfl
  rotateRows := fun a k s ha _ _ => by subst ha; simp only [toySeal, if_true]; exact Same.refl _
  rotateColumns_key := fun _ _ => rfl
  rotateColumns := fun a k ha _ _ => by subst ha; simp only [toySeal, if_true]; exact Same.refl _

/-- The values of a program as integers, for the examples. -/
def shown {t : Nat} {C : Type} (r : Except Err (List (Val t C))) (n : Nat) : Option (List Int) :=
  match r with
  | .ok env => match env[n]? with
    | some (.tensor _ xs) => some xs
    | _ => none
  | .error _ => none

/-- non-vacuity: (x * [2, 0, 1] rotated left by one) + x * x, modulo 17 with 2 × 4 slots -/
example : shown ((toySeal 4 17).run [.tensor "int64" [3, -2, 5], .key ⟨1, .pub⟩, .key ⟨1, .secret⟩, .tensor "int64" [2, 0, 1]]
    [.createEncoder 8, .encode 0 4, .encrypt 5 1 0, .encode 3 4, .mul 6 7 0, .galoisKeys 2, .rotate 8 9 1, .relinKeys 2, .mul 6 6 0,
     .relinearize 12 11, .add 13 10 0, .decrypt 14 2, .decode 15 4]) 16 = some [-8, -8, 8, 6, 0, 0, 0, 0] := by decide +kernel

/-- **C92** (violated) Ciphertexts and keys of different key pairs have the same types: adding ciphertexts under different keys, or
decrypting with another key, is accepted and returns wrong numbers. -/
theorem mixed_keys_violated :
    let env : List (Val 17 (ToyCt 17)) := [.tensor "int64" [3, 4], .key ⟨1, .pub⟩, .key ⟨1, .secret⟩, .key ⟨2, .secret⟩]
    let Γ : List Ty := [.tensor "int64" 2, .key .pub 4, .key .priv 4, .key .priv 4]
    let prog : List Instr := [.createEncoder 4, .encode 0 4, .encrypt 5 1 0, .decrypt 6 3, .decode 7 4]
    (∃ Γ', tyRun Γ prog = .ok Γ') ∧ shown ((toySeal 2 17).run env prog) 8 = some [4, 5, 1, 1] := by
  refine ⟨⟨_, rfl⟩, ?_⟩
  decide +kernel

example : Fits 17 [3, -2, 5] ∧ (toySeal 4 17).Ok := ⟨by unfold Fits; decide, toySeal_ok (by decide) (by decide)⟩

example : Rel (toySeal 4 17) 1 (.tensor "int64" [3, -2, 5]) (.ints [3, -2, 5]) := ⟨rfl, by unfold Fits; decide⟩

example : (toySeal 4 17).chain [some ⟨1, 2, 5, fun _ _ => 1⟩, some ⟨1, 2, 6, fun _ _ => 1⟩] [fun _ _ => 0, fun _ _ => 0] ⟨1, .pub⟩ ⟨1, .secret⟩ ⟨1, .secret⟩
    (.add (.add (.chunk 0) (.chunk 1)) (.rotate (.add (.chunk 0) (.chunk 1)) 1)) = .ok (.cipher none ⟨1, .pub⟩) :=
  chain_empty _ _ _ _ _ (by intro m hm; simp only [List.mem_cons, List.not_mem_nil, or_false, or_self] at hm; subst hm; decide +kernel) _
    (by simp [Chain.uses])

/-- non-vacuity of `bfv_program_sound`: all its hypotheses hold of a run with a product, a rotation and a move to another process -/
example : ∃ env' sems', (toySeal 4 17).run [.tensor "int64" [3, -2, 5], .key ⟨1, .pub⟩, .key ⟨1, .secret⟩]
      [.createEncoder 8, .encode 0 3, .encrypt 4 1 0, .wire 5, .mul 6 4 0, .rotate 7 2 (-1), .decrypt 8 2, .decode 9 3] = .ok env' ∧
    ideal 4 [.ints [3, -2, 5], .none, .none]
      [.createEncoder 8, .encode 0 3, .encrypt 4 1 0, .wire 5, .mul 6 4 0, .rotate 7 2 (-1), .decrypt 8 2, .decode 9 3] = some sems' ∧
    List.Forall₂ (Rel (toySeal 4 17) 1) env' sems' := by
  have hrun : ∃ env', (toySeal 4 17).run [.tensor "int64" [3, -2, 5], .key ⟨1, .pub⟩, .key ⟨1, .secret⟩]
      [.createEncoder 8, .encode 0 3, .encrypt 4 1 0, .wire 5, .mul 6 4 0, .rotate 7 2 (-1), .decrypt 8 2, .decode 9 3] = .ok env' := ⟨_, rfl⟩
  obtain ⟨env', h⟩ := hrun
  have hr : List.Forall₂ (Rel (toySeal 4 17) 1) [.tensor "int64" [3, -2, 5], .key ⟨1, .pub⟩, .key ⟨1, .secret⟩]
      [.ints [3, -2, 5], .none, .none] :=
    .cons (show Rel (toySeal 4 17) 1 (.tensor "int64" [3, -2, 5]) (.ints [3, -2, 5]) from ⟨rfl, by unfold Fits; decide⟩)
      (.cons (show Rel (toySeal 4 17) 1 (.key ⟨1, .pub⟩) .none from rfl) (.cons (show Rel (toySeal 4 17) 1 (.key ⟨1, .secret⟩) .none from rfl) .nil))
  obtain ⟨sems', h1, h2⟩ := bfv_program_sound (toySeal_ok (by decide) (by decide)) 1 _ _ _ _ hr h (fun _ _ _ => trivial)
  exact ⟨env', sems', h, h1, h2⟩

end Verif.Bfv
