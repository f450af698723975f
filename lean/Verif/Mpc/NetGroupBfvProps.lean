import Verif.Mpc.NetGroupBfv
import Verif.Mpc.NetProps
import Mathlib.Order.Interval.Finset.Nat
/-!
# The parties of the homomorphic group-by compute what the central model computes
-/
namespace Verif.Mpc.Gb
open Verif.Simp Finset

section slots
variable {α : Type} [CommRing α]

/-- summing a whole row puts the total of the row into each of its slots -/
theorem row_total {R : Nat} (hR : 0 < R) (x : Nat → α) (p : Nat) :
    ∑ q ∈ range R, rot R (q : Int) x p = ∑ q ∈ range R, x (p / R * R + q) := by
  have e : ∀ q : Nat, rot R (q : Int) x p = x (p / R * R + (p % R + q) % R) := fun q => by
    unfold rot
    rw [← Int.natCast_add, ← Int.natCast_emod, Int.toNat_natCast]
  simp only [e]
  conv_rhs => rw [← Nat.image_Ico_mod (p % R) R, sum_image (by
    intro a ha b hb h
    exact Nat.mod_injOn_Ico (p % R) R ha hb h), sum_Ico_eq_sum_range]
  rw [Nat.add_sub_cancel_left]

/-- `rotate_and_sum` over a whole row -/
theorem rotate_row (r : Nat) (x : Nat → α) :
    rotateAndSum (2 ^ r) (2 ^ r) x = .ok fun p => ∑ q ∈ range (2 ^ r), x (p / 2 ^ r * 2 ^ r + q) := by
  unfold rotateAndSum
  rw [if_pos (le_refl _), rowSum_window (by omega) (le_refl _) (Nat.two_pow_pos r), Nat.clog_pow 2 r (by omega)]
  congr 1
  funext p
  exact row_total (Nat.two_pow_pos r) x p

variable [DecidableEq α]

theorem mulMask_tail {B : Nat} {bins : List Int} {k i : Nat} {c m : BfvCt α} (h : mulMask c (binMask B bins k i) = .ok m) (q : Nat) (hq : B ≤ q) :
    m.slots q = 0 := by
  unfold mulMask at h
  split at h
  · split at h
    · cases h
    · cases h; rfl
  · cases h
    simp only [bfvMulPlain]
    have : (binMask (α := α) B bins k i).getD q 0 = 0 := by
      rw [List.getD_eq_getElem?_getD, List.getElem?_eq_none (by simp [binMask, chunk_length, hq])]
      rfl
    rw [this, mul_zero]

theorem binLoop_tail {B : Nat} {bins : List Int} {k : Nat} : ∀ {l : List (BfvCt α × Nat)} {acc y : Nat → α},
    binLoop B bins k l acc = .ok y → ∀ q, B ≤ q → y q = acc q
  | [], acc, y, h, q, _ => by cases h; rfl
  | (c, i) :: l, acc, y, h, q, hq => by
    simp only [binLoop] at h
    split at h
    · cases h
    · next m hm =>
      rw [binLoop_tail h q hq]
      simp [bfvAdd, mulMask_tail hm q hq]

end slots

/-- the slots of an encrypted sum: the sum in the first row, zeros in the second (specification) -/
def sumSlots (t r : Nat) (s : Int) : Nat → ZMod t := fun p => if p < 2 ^ r then (s : ZMod t) else 0

/-- One bin, all slots. -/
theorem bin_slots (t r : Nat) [Fact (1 < t)] (wire : Bool) (d b : List Int) (k : Nat) (hl : b.length = d.length)
    (hok : wire = false ∨ ∀ i < numChunks (2 ^ r) d.length, ∃ q < 2 ^ r, b[i * 2 ^ r + q]? = some (k : Int)) :
    binTotal (α := ZMod t) r b (((List.range (numChunks (2 ^ r) d.length)).map (encChunk t r d)).map (wireCt wire)) k
      = .ok (sumSlots t r (groupSum d b k)) := by
  obtain ⟨y, hy, h0⟩ := binTotal_ok t r wire d b k hl hok
  have hy' : binTotal (α := ZMod t) r b (((List.range (numChunks (2 ^ r) d.length)).map (encChunk t r d)).map (wireCt wire)) k = .ok y := hy
  rw [hy']
  congr 1
  unfold binTotal at hy'
  split at hy'
  · cases hy'
  · next s hs =>
    rw [rotate_row] at hy'
    simp only [Except.ok.injEq] at hy'
    subst hy'
    have pos : 0 < 2 ^ r := Nat.two_pow_pos r
    funext p
    unfold sumSlots
    by_cases hp : p < 2 ^ r
    · rw [if_pos hp, ← h0]
      simp only [Nat.div_eq_of_lt hp, Nat.zero_div, Nat.zero_mul]
    · rw [if_neg hp]
      apply sum_eq_zero
      intro q _
      have : 2 ^ r ≤ p / 2 ^ r * 2 ^ r + q := by
        have h1 : 1 ≤ p / 2 ^ r := Nat.div_pos (by omega) pos
        have := Nat.mul_le_mul_right (2 ^ r) h1
        omega
      rw [binLoop_tail hs _ this]

theorem mapE_all {β γ ε : Type} {f : β → Except ε γ} {g : β → γ} : ∀ l : List β, (∀ a ∈ l, f a = .ok (g a)) → Verif.Mpc.mapE f l = .ok (l.map g)
  | [], _ => rfl
  | a :: l, h => by
    simp only [Verif.Mpc.mapE, h a (by simp), mapE_all l fun x hx => h x (by simp [hx]), List.map_cons]

theorem mapM_cts {t : Nat} {β : Type} (g : β → BfvCt (ZMod t)) (l : List β) : (l.map fun a => BVal.ct (g a)).mapM ctOf = some (l.map g) := by
  induction l with
  | nil => rfl
  | cons a l ih => simp [List.mapM_cons, ctOf, ih]

theorem decrypt_all {t : Nat} (wire : Bool) (cs : List (BfvCt (ZMod t))) :
    (cs.mapM fun c => bfvDecrypt .secret (wireCt wire c)) = some (cs.map BfvCt.slots) := by
  induction cs with
  | nil => rfl
  | cons c cs ih =>
    have : bfvDecrypt .secret (wireCt wire c) = some c.slots := by unfold bfvDecrypt wireCt; cases wire <;> rfl
    simp [List.mapM_cons, this, ih]

/-- five results of a call -/
theorem spec_call5 {V T β : Type} {N : Nat} {ok : Loc V T → Nat → Nat → Prop} {r : Nat} {f : List V → Option (List V)} {t1 t2 t3 t4 t5 : T}
    {args : List Nat} {S : Plain V T} {vs : List V} {v1 v2 v3 v4 v5 : V} {k : Nat → Nat → Nat → Nat → Nat → Chor V T β} {Q : β → Plain V T → Prop}
    (ha : List.Forall₂ (Uses r S) args vs) (hf : f vs = some [v1, v2, v3, v4, v5])
    (hk : ∀ a b c d e S', Le S S' → Own S' r a t1 v1 → Own S' r b t2 v2 → Own S' r c t3 v3 → Own S' r d t4 v4 → Own S' r e t5 v5 →
      Spec N ok (k a b c d e) S' Q) :
    Spec N ok ((several r f [t1, t2, t3, t4, t5] args).bind fun ys => unpack5 ys k) S Q := by
  refine Spec.bind (uses_several ha hf rfl) fun ys S' le hys => ?_
  cases hys with
  | cons h1 h => cases h with
    | cons h2 h => cases h with
      | cons h3 h => cases h with
        | cons h4 h => cases h with
          | cons h5 h => cases h; exact hk _ _ _ _ _ S' le h1 h2 h3 h4 h5

section
variable {t r n K N snd rcv : Nat}

/-- what the name of a value that is sent stands for, in a run on data `d` and bins `b` -/
def sentVal (t r K : Nat) (d b : List Int) : BKind → BVal t
  | .pk => .key .pub
  | .rk => .key .secret
  | .gk => .key .secret
  | .enc => .encoder
  | .chunk i => .ct (encChunk t r d i)
  | .sum k => .ct ⟨sumSlots t r (groupSum d b k), .pub⟩
  | .result => .ints ((List.range K).map fun k => ((groupSum d b k : Int) : ZMod t).valMinAbs)
  | _ => .encoder

theorem zip_map_same {β γ δ : Type} (f : β → γ) (g : β → δ) (l : List β) : (l.map f).zip (l.map g) = l.map fun a => (f a, g a) := by
  rw [← List.zip_map', ]

theorem objs_map {V T β : Type} {S : Plain V T} {g : β → Loc V T} : ∀ {l : List β} {ys : List Nat}, Objs S ys (l.map g) →
    List.Forall₂ (fun y a => Is S y (g a)) ys l
  | [], _, h => by cases h; exact .nil
  | a :: l, _, h => by
    cases h with
    | cons h1 h2 => exact .cons h1 (objs_map h2)

/-- moving a list of values, one after the other -/
theorem spec_moves {V T β : Type} {N : Nat} {ok : Loc V T → Nat → Nat → Prop} {src dst : Nat} (hs : src < N) (hd : dst < N) (ty : β → T) (v : β → V) :
    ∀ {l : List β} {xs : List Nat} {S : Plain V T}, Objs S xs (l.map fun a => ⟨ty a, [src], v a⟩) → (∀ a ∈ l, ok ⟨ty a, [src], v a⟩ src dst) →
      Spec N ok (each (fun x => move x src dst) xs) S fun ys S' => Objs S' ys (l.map fun a => ⟨ty a, [dst], v a⟩)
  | [], _, S, h, _ => by cases h; exact .ret .nil
  | a :: l, _, S, h, hok => by
    cases h with
    | cons h1 h2 =>
      refine Spec.bind (spec_move h1 (by simp) hs hd (hok a (by simp))) fun y S1 le1 hy => ?_
      refine Spec.bind (spec_moves hs hd ty v (Objs.mono h2 le1) fun a ha => hok a (by simp [ha])) fun ys S2 le2 hys => ?_
      exact .ret (.cons (Is.mono hy le2) hys)

theorem objs_uses {V T β : Type} {S : Plain V T} {r : Nat} {ty : β → T} {v : β → V} {l : List β} {ys : List Nat}
    (h : Objs S ys (l.map fun a => ⟨ty a, [r], v a⟩)) : List.Forall₂ (Uses r S) ys (l.map v) := by
  induction l generalizing ys with
  | nil => cases h; exact .nil
  | cons a l ih =>
    cases h with
    | cons h1 h2 => exact .cons (Is.uses h1) (ih h2)

/-- One run of the program, with the values of the messages. -/
theorem spec_group [Fact (1 < t)] (wire : Bool) (d b : List Int) (hd : d.length = n) (hb : b.length = n) (hK : 0 < K)
    (hok : wire = false ∨ AllBinsPresent (2 ^ r) b n K) (hs : snd < N) (hr : rcv < N) {data bins : Nat} {S : Plain (BVal t) BKind}
    (h1 : Own S snd data .data (.ints d)) (h2 : Own S rcv bins .bins (.ints b)) :
    Spec N (fun l x y => BfvMsgs r n K snd rcv l.ty x y ∧ l.val = sentVal t r K d b l.ty) (groupBfvNet t r wire data bins snd rcv n K) S
      fun y P => Own P rcv y .result (sentVal t r K d b .result) ∧
        (∃ x, Own P rcv x .rk (.key .secret)) ∧ ∀ i < numChunks (2 ^ r) n, ∃ x, Own P rcv x (.chunk i) (.ct (encChunk t r d i)) := by
  unfold groupBfvNet
  refine spec_call5 (.nil) (v1 := .key .pub) (v2 := .key .secret) (v3 := .key .secret) (v4 := .key .secret) (v5 := .encoder) rfl
    fun pk sk rk gk enc S1 le1 hpk hsk hrk hgk henc => ?_
  refine Spec.bind (uses_several (.cons (now! h1).uses (.cons henc.uses (.cons hpk.uses .nil)))
    (show encryptK r n [.ints d, .encoder, .key .pub] = some ((List.range (numChunks (2 ^ r) n)).map fun i => .ct (encChunk t r d i)) from by
      unfold encryptK; simp only; rw [if_pos hd]) (by simp)) fun cs S2 le2 hcs => ?_
  rw [zip_map_same, List.map_map] at hcs
  refine Spec.bind (spec_moves hs hr BKind.chunk (fun i => BVal.ct (encChunk t r d i)) hcs fun i hi =>
    ⟨.chunk (by simpa using hi), rfl⟩) fun csR S3 le3 hcsR => ?_
  refine Spec.bind (spec_move (now! hpk) (by simp) hs hr ⟨.pk, rfl⟩) fun pkR S4 le4 hpkR => ?_
  refine Spec.bind (spec_move (now! hrk) (by simp) hs hr ⟨.rk, rfl⟩) fun rkR S5 le5 hrkR => ?_
  refine Spec.bind (spec_move (now! hgk) (by simp) hs hr ⟨.gk, rfl⟩) fun gkR S6 le6 hgkR => ?_
  refine Spec.bind (spec_move (now! henc) (by simp) hs hr ⟨.enc, rfl⟩) fun encR S7 le7 hencR => ?_
  have hcs7 : Objs S7 csR ((List.range (numChunks (2 ^ r) n)).map fun i => ⟨.chunk i, [rcv], .ct (encChunk t r d i)⟩) := Objs.mono hcsR (by grow)
  have hagg : aggregateK wire r K (numChunks (2 ^ r) n) (.ints b :: ((List.range (numChunks (2 ^ r) n)).map (fun i => BVal.ct (encChunk t r d i)) ++
      [.key .pub, .key .secret, .key .secret, .encoder])) =
      some ((List.range K).map fun k => .ct ⟨sumSlots t r (groupSum d b k), .pub⟩) := by
    unfold aggregateK
    have e1 : (((BVal.ints b :: ((List.range (numChunks (2 ^ r) n)).map (fun i => BVal.ct (encChunk t r d i)) ++
      [.key .pub, .key .secret, .key .secret, .encoder])).drop 1).take (numChunks (2 ^ r) n)) =
      (List.range (numChunks (2 ^ r) n)).map (fun i => BVal.ct (encChunk t r d i)) := by
      rw [List.drop_one, List.tail_cons, List.take_left' (by simp)]
    have e2 : ((BVal.ints b :: ((List.range (numChunks (2 ^ r) n)).map (fun i => BVal.ct (encChunk t r d i)) ++
      [.key .pub, .key .secret, .key .secret, .encoder])).drop (numChunks (2 ^ r) n + 1)) =
      [.key .pub, .key .secret, .key .secret, .encoder] := by
      rw [List.drop_succ_cons, List.drop_left' (by simp)]
    rw [e1, e2, mapM_cts]
    simp only [List.head?_cons]
    rw [if_pos (by decide)]
    unfold sumsOf
    rw [mapE_all (g := fun k => sumSlots t r (groupSum d b k)) _ fun k hk => by
      have hk' : k < K := by simpa using hk
      subst hd
      exact bin_slots t r wire d b k hb (hok.imp id fun h => h k hk')]
    simp [okOf]
  refine Spec.bind (uses_several (.cons (now! h2).uses (List.rel_append (objs_uses hcs7)
    (.cons (now! hpkR).uses (.cons (now! hrkR).uses (.cons (now! hgkR).uses (.cons hencR.uses .nil)))))) hagg (by simp)) fun ss S8 le8 hss => ?_
  rw [zip_map_same, List.map_map] at hss
  refine Spec.bind (spec_moves hr hs BKind.sum (fun k => BVal.ct ⟨sumSlots t r (groupSum d b k), .pub⟩) hss fun k hk =>
    ⟨.sum (by simpa using hk), rfl⟩) fun ssS S9 le9 hssS => ?_
  have hdec : decryptK wire K ((List.range K).map (fun k => BVal.ct ⟨sumSlots t r (groupSum d b k), .pub⟩) ++ [.key .secret, .encoder]) =
      some (sentVal t r K d b .result) := by
    unfold decryptK
    rw [List.take_left' (by simp), List.drop_left' (by simp), mapM_cts]
    simp only
    have hne : ((List.range K).map fun k => (⟨sumSlots t r (groupSum d b k), .pub⟩ : BfvCt (ZMod t))).isEmpty = false := by
      cases K with
      | zero => omega
      | succ K => simp
    rw [hne]
    simp only [Bool.false_eq_true, if_false]
    rw [decrypt_all]
    simp only [List.map_map, Option.map_some, sentVal, Option.some.injEq, BVal.ints.injEq]
    refine List.map_congr_left fun k _ => ?_
    simp only [Function.comp]
    unfold sumSlots
    rw [if_pos (Nat.two_pow_pos r)]
  refine Spec.bind (uses_one (List.rel_append (objs_uses hssS) (.cons (now! hsk).uses (.cons (now! henc).uses .nil))) hdec) fun f S10 le10 hf => ?_
  refine Spec.weaken (spec_move hf (by simp) hs hr ⟨.result, rfl⟩) fun y S11 le11 hy => ⟨hy, ⟨rkR, now! hrkR⟩, fun i hi => ?_⟩
  have hcs11 : Objs S11 csR ((List.range (numChunks (2 ^ r) n)).map fun i => ⟨.chunk i, [rcv], .ct (encChunk t r d i)⟩) := Objs.mono hcsR (by grow)
  have := objs_map hcs11
  rw [List.forall₂_iff_get] at this
  obtain ⟨hlen, hget⟩ := this
  have hi' : i < csR.length := by simpa [hlen] using hi
  have hg := hget i hi' (by simpa using hi)
  simp only [List.get_eq_getElem, List.getElem_range] at hg
  exact ⟨_, hg⟩

end
end Verif.Mpc.Gb
