import Verif.Mpc.NetProps
import Verif.Mpc.PsiSound
/-!
# Two-party protocols over the network (property C113)

Each theorem is about the program the parties run: any number of parties, any two ranks, any schedule.
-/
namespace Verif.Mpc.Net
open Verif.Kern Verif.Simp

variable {A : Type} [AddCommGroup A] [DecidableEq A]

/-- **Specification** The random scalars avoid the coincidences modulo the group order for which an elliptic-curve operation raises. -/
structure GoodDraws (C : Curve A) (rC : Int) (ds : Fin iknpK → BaseDraw) : Prop where
  kp : ∀ i, (ds i).kp % C.N ≠ 0
  r : ∀ i, (ds i).r % C.N ≠ 0
  c : ∀ i, (rC - (ds i).kp) % C.N ≠ 0

/-- **Specification** Program `c`, run by `N` parties on the inputs `ls`: it is traced, every schedule ends, every party ends with what it
holds in `S` and nothing else, every message is `allowed`, and `P` describes the result and what is held. -/
def Protocol {α : Type} (tr : Val A → Bool) (N : Nat) (c : Prog A α) (ls : List (Loc (Val A) Kind)) (allowed : Kind → Nat → Nat → Prop)
    (P : α → Plain (Val A) Kind → Prop) : Prop :=
  ∃ a S, RunsTo tr N c ls a S ∧ Messages allowed S ∧ P a S

theorem protocol_of {α : Type} (tr : Val A → Bool) {N : Nat} {c : Prog A α} {ls : List (Loc (Val A) Kind)} {allowed : Kind → Nat → Nat → Prop}
    {P : α → Plain (Val A) Kind → Prop} (h : Spec N (fun l s d => allowed l.ty s d) c ⟨ls, []⟩ P) : Protocol tr N c ls allowed P :=
  h.runsTo tr

/-- an input of one party -/
abbrev given (r : Nat) (v : Val A) : Loc (Val A) Kind := ⟨.input, [r], v⟩

section
variable (tr : Val A → Bool) (C : Curve A) (E : IknpEnv A) (rC : Int) (ds : Fin iknpK → BaseDraw) {N snd rcv : Nat}

/-- **C113, oblivious transfer.**  The sender has `n` pairs of messages of at most 32 bytes, the receiver `n` choice bits.  Under every
schedule the receiver ends with exactly the messages its bits choose, and the only messages sent are the common point, the encrypted seeds
and the correction matrix to the sender, and the public keys and the ciphertexts to the receiver. -/
theorem transfer_network (hC : CurveOk C) (hD : GoodDraws C rC ds) (hs : snd < N) (hr : rcv < N) {n d : Nat} (hd : d ≤ 32)
    (m0 m1 : Fin n → Fin d → Nat) (r : Fin n → Bool) :
    Protocol tr N (transfer C E rC ds 0 1 2 snd rcv n) [given snd (.bytes n d m0), given snd (.bytes n d m1), given rcv (.choice n (.vec r))]
      (TransferMsg snd rcv) fun y S => Own S rcv y .result (.bytes n d fun j => if r j then m1 j else m0 j) := by
  obtain ⟨out, h1, h2⟩ := transfer_ext_total C hC E rC ds m0 m1 r hd hD.kp hD.r hD.c
  have : out = fun j => if r j then m1 j else m0 j := funext h2
  subst this
  exact protocol_of tr (spec_transfer C E rC ds hs hr (fun _ _ _ h => h) h1 ⟨_, rfl, by simp, rfl⟩ ⟨_, rfl, by simp, rfl⟩ ⟨_, rfl, by simp, rfl⟩)

/-- **C113, VOLE.**  For every vector `u` of the sender and every `delta` of the receiver, under every schedule: the sender ends with `u` and
a vector `v`, the receiver with `delta` and a vector `w`, where `w = v xor u · delta` everywhere. -/
theorem vole_network (mul : Blk → Blk → Blk) (hm : Kernel mul) (hC : CurveOk C) (hD : GoodDraws C rC ds) (hs : snd < N) (hr : rcv < N)
    (u : List Blk) (delta : Blk) (hu : ∀ x ∈ u, WordPair x) (hd : WordPair delta) :
    Protocol tr N (voleNet C E rC ds mul u delta snd rcv u.length) [] (VoleMsg snd rcv) fun o S => ∃ v w,
      Own S snd o.1 .secret (.blks v) ∧ Own S rcv o.2.1 .secret (.blks w) ∧ Own S snd o.2.2.1 .secret (.blks u) ∧
      Own S rcv o.2.2.2 .secret (.blk delta) ∧ v.length = u.length ∧ w = List.zipWith (fun a x => xorB a (mul x delta)) v u := by
  obtain ⟨r, hv⟩ := vole_total mul C hC E rC ds u delta hD.kp hD.r hD.c
  obtain ⟨h1, h2, h3, h4⟩ := vole_correlation mul hm C hC E rC ds u delta hu hd r hv
  refine protocol_of tr (Spec.weaken (spec_vole C E rC ds mul hs hr (fun _ _ _ h => h) hv _) fun o S _ ho => ⟨r.v, r.w, ho.v, ho.w, ?_, ?_, h3, ?_⟩)
  · have := ho.u; rwa [h1] at this
  · have := ho.delta; rwa [h2] at this
  · rw [h4, h1]

/-- **C113, silent VOLE.**  The same for the expanded vectors of any length `n > 0`. -/
theorem silent_network (mul : Blk → Blk → Blk) (hm : Kernel mul) (hC : CurveOk C) (hD : GoodDraws C rC ds) (hs : snd < N) (hr : rcv < N)
    (uBase : List Blk) (delta : Blk) (seed : Bytes32) (hu : ∀ x ∈ uBase, WordPair x) (hd : WordPair delta) (n : Nat) (hn : 0 < n) :
    Protocol tr N (silentNet C E rC ds mul uBase delta seed snd rcv n uBase.length) [] (SilentMsg snd rcv) fun o S => ∃ v w u,
      Own S snd o.1 .secret (.blks v) ∧ Own S rcv o.2.1 .secret (.blks w) ∧ Own S snd o.2.2.1 .secret (.blks u) ∧
      Own S rcv o.2.2.2 .secret (.blk delta) ∧ v.length = n ∧ u.length = n ∧ w = List.zipWith (fun a x => xorB a (mul x delta)) v u := by
  obtain ⟨r, hv⟩ := silent_total mul C hC E rC ds uBase delta seed n hn hD.kp hD.r hD.c
  obtain ⟨h1, h2, h3, h4⟩ := silent_vole_correlation mul hm C hC E rC ds uBase delta hu hd seed n r hv
  refine protocol_of tr (Spec.weaken (spec_silent C E rC ds mul hs hr (fun _ _ _ h => h) hv _) fun o S _ ho =>
    ⟨r.v, r.w, r.u, ho.v, ho.w, ho.u, ?_, h3, h2, h4⟩)
  have := ho.delta; rwa [h1] at this

variable (wordsOf : Blk → Nat → Nat × Nat)

/-- **C113, the network changes nothing.**  Whatever solver and kernels are used: if the protocol, computed by one machine, gives `mask`, then
under every schedule the receiver ends with `mask`, and only the allowed messages are sent. -/
theorem psi_network_any (mul : Blk → Blk → Blk) (solve : Solver) {sender receiver n : Nat} (hs : sender < N) (hr : receiver < N)
    (uBase : List Blk) (delta : Blk) (seed : Bytes32) (okvs : Blk) (vx vy : List Nat) (mask : List Bool)
    (h : psiIntersect mul solve C E rC ds uBase delta seed (wordsOf okvs) sender receiver n vx vy = some mask) :
    Protocol tr N (psiNet C E rC ds mul solve wordsOf uBase delta seed okvs sender receiver n 0 1)
      [given sender (.items vx), given receiver (.items vy)] (PsiMsg sender receiver) fun y S => Own S receiver y .result (.mask mask) :=
  protocol_of tr (spec_psi C E rC ds mul solve wordsOf hs hr (fun _ _ _ h => h) h ⟨given sender (.items vx), rfl, by simp, rfl⟩
    ⟨given receiver (.items vy), rfl, by simp, rfl⟩)

/-- **C113, refusals.**  Equal ranks or no items: the program is refused before anything is recorded. -/
theorem psi_refused (mul : Blk → Blk → Blk) (solve : Solver) {sender receiver n xs ys : Nat} (uBase : List Blk) (delta : Blk) (seed : Bytes32) (okvs : Blk)
    (h : sender = receiver ∨ n = 0) (b : Bld (Val A) Kind) :
    (psiNet C E rC ds mul solve wordsOf uBase delta seed okvs sender receiver n xs ys).trace b = none := by
  unfold psiNet
  by_cases h1 : sender = receiver
  · rw [if_pos h1]; rfl
  · rw [if_neg h1, if_pos (h.resolve_left h1)]; rfl

/-- **C113, private set intersection.**  Sender items `vx`, receiver items `vy`, distinct ranks, and the receiver's items can be encoded.
Under every schedule the receiver ends with a mask with one entry per item of its own; an item the sender also has is marked; and an item the
sender does not have is marked only if the hash collides or a tag coincides by accident.  The only messages are those of the VOLE (the
receiver playing its sender), the hash seed and the masked table to the sender, and the truncated tag hashes to the receiver. -/
theorem psi_network (mul : Blk → Blk → Blk) (hm : Kernel mul) (hC : CurveOk C) (hD : GoodDraws C rC ds)
    (hE : ∀ k l i, WordPair (E.aes k l i)) {sender receiver : Nat} (hs : sender < N) (hr : receiver < N) (hne : sender ≠ receiver)
    (uBase : List Blk) (delta : Blk) (seed : Bytes32) (okvs : Blk) (hu : ∀ x ∈ uBase, WordPair x) (hd : WordPair delta)
    (vx vy : List Nat) (hx0 : vx ≠ []) (hx : ∀ x ∈ vx, x < 2 ^ 64) (hy : ∀ y ∈ vy, y < 2 ^ 64)
    (hsol : ∃ p, okvsSolve (wordsOf okvs) vy (vy.map (hashItem E)) (tableRr22 vx.length) = .ok p) :
    Protocol tr N (psiNet C E rC ds mul okvsSolve wordsOf uBase delta seed okvs sender receiver vx.length 0 1)
      [given sender (.items vx), given receiver (.items vy)] (PsiMsg sender receiver) fun y S => ∃ mask,
        Own S receiver y .result (.mask mask) ∧ mask.length = vy.length ∧
        (∀ (j : Nat) y, vy[j]? = some y → y ∈ vx → mask[j]? = some true) ∧
        ∀ (j : Nat) y, vy[j]? = some y → mask[j]? = some true → y ∉ vx → Collision E.hash ∨
          ∃ (p v : List Blk) (x : Nat), p.length = tableRr22 vx.length ∧ v.length = tableRr22 vx.length ∧ x ∈ vx ∧ x ≠ y ∧
            mmXor (at3 (wordsOf okvs) (tableRr22 vx.length) v x)
              (mul (mmXor (at3 (wordsOf okvs) (tableRr22 vx.length) p x) (hashItem E x)) delta) = at3 (wordsOf okvs) (tableRr22 vx.length) v y := by
  have hn : 0 < vx.length := List.length_pos_of_ne_nil hx0
  have h3 := tableRr22_ge vx.length hn
  obtain ⟨o, ho⟩ := silent_total mul C hC E rC ds uBase delta seed (tableRr22 vx.length) (by omega) hD.kp hD.r hD.c
  obtain ⟨p, hp⟩ := hsol
  have hmask : ∃ mask, rr22With mul okvsSolve C E rC ds uBase delta seed (wordsOf okvs) (tableRr22 vx.length) vx vy = some mask := by
    unfold rr22With
    rw [ho]
    simp only [hp]
    exact ⟨_, rfl⟩
  obtain ⟨mask, hmask⟩ := hmask
  have hpsi : psiIntersect mul okvsSolve C E rC ds uBase delta seed (wordsOf okvs) sender receiver vx.length vx vy = some mask := by
    unfold psiIntersect
    rw [if_neg hne, if_neg (by omega), if_neg (by simp), hmask]
  obtain ⟨_, _, hl, hall⟩ := psi_intersect_complete mul hm C hC E hE rC ds uBase delta seed hu hd (wordsOf okvs) sender receiver vx.length vx vy
    hx hy mask hpsi
  refine protocol_of tr (Spec.weaken (spec_psi C E rC ds mul okvsSolve wordsOf hs hr (fun _ _ _ h => h) hpsi
    ⟨given sender (.items vx), rfl, by simp, rfl⟩ ⟨given receiver (.items vy), rfl, by simp, rfl⟩) fun y S _ ho' => ⟨mask, ho', hl, hall, ?_⟩)
  intro j z hj hmk hno
  exact rr22_wrong_mark mul hm C hC E hE rC ds uBase delta seed hu hd (wordsOf okvs) _ h3 vx vy hx hy mask hmask j z hj hmk hno

/-- **C113, unbalanced intersection.**  Under every schedule the client ends with a mask with one entry per item of its own, in which every
item the server also has is marked; and the only messages are the seed and the table, from the server to the client. -/
theorem unbalanced_network {server client : Nat} (hs : server < N) (hc : client < N) (hne : server ≠ client) (s : Blk) (vx vy : List Nat)
    (hx0 : vx ≠ []) (hy0 : vy ≠ [])
    (hsol : ∃ t, okvsSolve (wordsOf s) (vx.map (derivedKey E s)) (vx.map (derivedVal E s)) (tableBase vx.length) = .ok t) :
    Protocol tr N (unbalancedNet E okvsSolve wordsOf s server client vx.length vy.length 0 1)
      [given server (.items vx), given client (.items vy)] (UnbalancedMsg server client) fun y S => ∃ mask,
        Own S client y .result (.mask mask) ∧ mask.length = vy.length ∧ ∀ (j : Nat) y, vy[j]? = some y → y ∈ vx → mask[j]? = some true := by
  have hnx : vx.length ≠ 0 := by simpa using hx0
  have hny : vy.length ≠ 0 := by simpa using hy0
  obtain ⟨t, ht⟩ := hsol
  have hmask : ∃ mask, psiUnbalanced okvsSolve E s (wordsOf s) server client vx.length vy.length vx vy = some mask := by
    unfold psiUnbalanced
    rw [if_neg hne, if_neg (by omega)]
    simp only [ht]
    exact ⟨_, rfl⟩
  obtain ⟨mask, hmask⟩ := hmask
  obtain ⟨_, hl, _, _, _, hall⟩ := unbalanced_complete E s (wordsOf s) server client vx.length vy.length vx vy mask hmask
  exact protocol_of tr (Spec.weaken (spec_unbalanced E okvsSolve wordsOf hs hc (fun _ _ _ h => h) hmask
    ⟨given server (.items vx), rfl, by simp, rfl⟩ ⟨given client (.items vy), rfl, by simp, rfl⟩)
    fun y S _ ho => ⟨mask, ho, hl, fun j z hj hz => (hall j z hj).1 hz⟩)

/-- **C113, the server learns nothing.**  Run the unbalanced protocol twice, with different client items: everything the server ever holds is
the same. -/
theorem unbalanced_server_view {server client serverN clientN : Nat} (hne : server ≠ client) (solve : Solver) (s : Blk) (vx vy vy' : List Nat)
    {a a' : Nat} {S S' : Plain (Val A) Kind}
    (h : Runs N (unbalancedNet E solve wordsOf s server client serverN clientN 0 1) ⟨[given server (.items vx), given client (.items vy)], []⟩ a S)
    (h' : Runs N (unbalancedNet E solve wordsOf s server client serverN clientN 0 1) ⟨[given server (.items vx), given client (.items vy')], []⟩ a' S')
    (hm : Messages (UnbalancedMsg server client) S) : SameAt server S S' := by
  refine (party_view h h' (.cons (by simp) (.cons (by simp) .nil)) (.cons (fun _ => rfl) (.cons (fun hc => ?_) .nil)) fun p x l m he hl hm' => ?_).2.2
  · simp at hc; exact absurd hc hne
  · obtain ⟨l', _, g⟩ := hm _ he
    simp only at g
    generalize l'.ty = k at g
    cases g <;> exact absurd rfl hne

/-- the receiver evaluates, then the sender evaluates its own items (oprf.py:32-260) -/
def oprfBoth (inputs items snd rcv n : Nat) : Prog A (Nat × Nat) :=
  (oprfNet C E rC ds inputs snd rcv n).bind fun o => (senderEvalNet E o.1 o.2.1 items snd).bind fun y => .ret (o.2.2, y)

/-- **C113, OPRF.**  The receiver has `n` items, the sender `m`.  Under every schedule the receiver ends with `n` outputs and the sender with
`m`, and they agree wherever the items of the same row agree; nothing is sent but the extension's messages. -/
theorem oprf_network (hC : CurveOk C) (hD : GoodDraws C rC ds) (hs : snd < N) (hr : rcv < N) {n m : Nat} (xs : Fin n → Item) (ys : Fin m → Item) :
    Protocol tr N (oprfBoth C E rC ds 0 1 snd rcv n) [given rcv (.inputs n xs), given snd (.inputs m ys)] (IknpMsg snd rcv) fun o S =>
      ∃ (f : Fin n → Bytes32) (g : Fin m → Bytes32), Own S rcv o.1 .result (.digests n f) ∧ Own S snd o.2 .result (.digests m g) ∧
        ∀ (i : Fin m) (j : Fin n), i.val = j.val → ys i = xs j → g i = f j := by
  obtain ⟨key, hk⟩ := oprf_total C hC E rC ds xs hD.kp hD.r hD.c
  refine protocol_of tr ?_
  unfold oprfBoth
  refine Spec.bind (spec_oprf C E rC ds hs hr (fun _ _ _ h => h) hk ⟨given rcv (.inputs n xs), rfl, by simp, rfl⟩) fun o S1 l1 ho => ?_
  have hys : Uses snd (⟨[given rcv (.inputs n xs), given snd (.inputs m ys)], []⟩ : Plain (Val A) Kind) 1 (.inputs m ys) :=
    ⟨given snd (.inputs m ys), rfl, by simp, rfl⟩
  refine Spec.bind (uses_one (.cons ho.1.uses (.cons ho.2.1.uses (.cons (now! hys) .nil))) (by rfl)) fun y S2 l2 hy => ?_
  refine .ret ⟨key.out, _, now! ho.2.2, hy, fun i j hij hxy => ?_⟩
  have := oprf_agree C hC E rC ds xs ys key hk i j hij hxy
  rw [← this]
  rfl

end

/-! ## The hypotheses are met: concrete runs -/

theorem toy_draws : GoodDraws toyCurve 7 toyDraws :=
  ⟨fun _ => by show ((3 : Int) % 11 ≠ 0); decide, fun _ => by show ((5 : Int) % 11 ≠ 0); decide, fun _ => by show ((7 - 3 : Int) % 11 ≠ 0); decide⟩

/-- three transfers from party 2 to party 0 of a world of 4 -/
example : Protocol (fun _ => true) 4 (transfer toyCurve toyEnv 7 toyDraws 0 1 2 2 0 3)
    [given 2 (.bytes 3 16 fun j _ => j), given 2 (.bytes 3 16 fun j _ => 100 + j), given 0 (.choice 3 (.vec fun j => j.val % 2 == 1))]
    (TransferMsg 2 0) fun y S => Own S 0 y .result (.bytes 3 16 fun j => if j.val % 2 == 1 then fun _ => 100 + j.val else fun _ => j.val) :=
  transfer_network _ toyCurve toyEnv 7 toyDraws toyCurve_ok toy_draws (by omega) (by omega) (by omega) _ _ _

/-- a VOLE of two elements -/
example : Protocol (fun _ => true) 2 (voleNet toyCurve toyEnv 7 toyDraws gfMul [(5, 9), (2 ^ 63, 1)] (3, 2 ^ 63) 0 1 2) [] (VoleMsg 0 1) fun o S =>
    ∃ v w, Own S 0 o.1 .secret (.blks v) ∧ Own S 1 o.2.1 .secret (.blks w) ∧ Own S 0 o.2.2.1 .secret (.blks [(5, 9), (2 ^ 63, 1)]) ∧
      Own S 1 o.2.2.2 .secret (.blk (3, 2 ^ 63)) ∧ v.length = 2 ∧ w = List.zipWith (fun a x => xorB a (gfMul x (3, 2 ^ 63))) v [(5, 9), (2 ^ 63, 1)] :=
  vole_network _ toyCurve toyEnv 7 toyDraws gfMul (.inl rfl) toyCurve_ok toy_draws (by omega) (by omega) _ _
    (by simp only [List.mem_cons, List.not_mem_nil, or_false]; rintro x (rfl | rfl) <;> exact ⟨by decide, by decide⟩) ⟨by decide, by decide⟩

/-- a silent VOLE over more than one chunk -/
example : Protocol (fun _ => true) 2 (silentNet toyCurve toyEnv 7 toyDraws gfMul [(5, 9)] (3, 2 ^ 63) (fun i => i) 0 1 250000 1) [] (SilentMsg 0 1)
    fun o S => ∃ v w u, Own S 0 o.1 .secret (.blks v) ∧ Own S 1 o.2.1 .secret (.blks w) ∧ Own S 0 o.2.2.1 .secret (.blks u) ∧
      Own S 1 o.2.2.2 .secret (.blk (3, 2 ^ 63)) ∧ v.length = 250000 ∧ u.length = 250000 ∧
      w = List.zipWith (fun a x => xorB a (gfMul x (3, 2 ^ 63))) v u :=
  silent_network _ toyCurve toyEnv 7 toyDraws gfMul (.inl rfl) toyCurve_ok toy_draws (by omega) (by omega) [(5, 9)] _ _
    (by simp only [List.mem_singleton]; rintro x rfl; exact ⟨by decide, by decide⟩) ⟨by decide, by decide⟩ _ (by omega)

/-- an OPRF for two receiver items and three sender items -/
example : Protocol (fun _ => true) 2 (oprfBoth toyCurve toyEnv 7 toyDraws 0 1 1 0 2)
    [given 0 (.inputs 2 fun j i => (j.val * 7 + i.val) % 256), given 1 (.inputs 3 fun j i => (j.val * 7 + i.val) % 256)] (IknpMsg 1 0) fun o S =>
      ∃ (f : Fin 2 → Bytes32) (g : Fin 3 → Bytes32), Own S 0 o.1 .result (.digests 2 f) ∧ Own S 1 o.2 .result (.digests 3 g) ∧ g 0 = f 0 ∧ g 1 = f 1 := by
  obtain ⟨a, S, h1, h2, f, g, h3, h4, h5⟩ := oprf_network (N := 2) (fun _ => true) toyCurve toyEnv 7 toyDraws toyCurve_ok toy_draws
    (snd := 1) (rcv := 0) (by omega) (by omega) (fun (j : Fin 2) i => (j.val * 7 + i.val) % 256) (fun (j : Fin 3) i => (j.val * 7 + i.val) % 256)
  exact ⟨a, S, h1, h2, f, g, h3, h4, h5 0 0 rfl rfl, h5 1 1 rfl rfl⟩

/-- did the solver return a table? (for the examples only) -/
def solved : Except OkvsErr (List Blk) → Bool
  | .ok _ => true
  | .error _ => false

theorem solved_iff {r : Except OkvsErr (List Blk)} (h : solved r = true) : ∃ p, r = .ok p := by
  cases r with
  | ok p => exact ⟨p, rfl⟩
  | error e => cases h

/-- an intersection: the sender, party 2, has 30, 7 and 10, the receiver, party 0, has 10, 20 and 30; the first and the last are marked -/
example : Protocol (fun _ => true) 3 (psiNet toyCurve psiEnv 7 toyDraws gfMul okvsSolve (fun s => pyWords s.1 s.2) [(5, 9), (2 ^ 63, 1)] (3, 2 ^ 63)
      (fun i => i) (0xDEADBEEF, 0xCAFEBABE) 2 0 3 0 1) [given 2 (.items [30, 7, 10]), given 0 (.items [10, 20, 30])] (PsiMsg 2 0)
    fun y S => ∃ mask, Own S 0 y .result (.mask mask) ∧ mask.length = 3 ∧ mask[0]? = some true ∧ mask[2]? = some true := by
  obtain ⟨a, S, h1, h2, mask, h3, h4, h5, _⟩ := psi_network (N := 3) (fun _ => true) toyCurve psiEnv 7 toyDraws (fun s => pyWords s.1 s.2) gfMul (.inl rfl)
    toyCurve_ok toy_draws psiEnv_word (sender := 2) (receiver := 0) (by omega) (by omega) (by omega) [(5, 9), (2 ^ 63, 1)] (3, 2 ^ 63) (fun i => i)
    (0xDEADBEEF, 0xCAFEBABE) (by simp only [List.mem_cons, List.not_mem_nil, or_false]; rintro x (rfl | rfl) <;> exact ⟨by decide, by decide⟩)
    ⟨by decide, by decide⟩ [30, 7, 10] [10, 20, 30] (by simp) (by simp) (by simp) (solved_iff (by decide +kernel))
  exact ⟨a, S, h1, h2, mask, h3, h4, h5 0 10 rfl (by simp), h5 2 30 rfl (by simp)⟩

/-- an unbalanced intersection -/
example : Protocol (fun _ => true) 2 (unbalancedNet psiEnv okvsSolve (fun s => pyWords s.1 s.2) (11, 12) 0 1 2 3 0 1)
      [given 0 (.items [30, 10]), given 1 (.items [10, 20, 30])] (UnbalancedMsg 0 1)
    fun y S => ∃ mask, Own S 1 y .result (.mask mask) ∧ mask.length = 3 ∧ mask[0]? = some true ∧ mask[2]? = some true := by
  obtain ⟨a, S, h1, h2, mask, h3, h4, h5⟩ := unbalanced_network (N := 2) (fun _ => true) psiEnv (fun s => pyWords s.1 s.2)
    (server := 0) (client := 1) (by omega) (by omega) (by omega) (11, 12) [30, 10] [10, 20, 30] (by simp) (by simp) (solved_iff (by decide +kernel))
  exact ⟨a, S, h1, h2, mask, h3, h4, h5 0 10 rfl (by simp), h5 2 30 rfl (by simp)⟩

/-- `unbalanced_server_view` applies: there are runs for different client items, with only the server's messages -/
example (vy : List Nat) (hy : vy ≠ []) : ∃ a S, Runs 2 (unbalancedNet psiEnv okvsSolve (fun s => pyWords s.1 s.2) (11, 12) 0 1 2 vy.length 0 1)
    ⟨[given 0 (.items [30, 10]), given 1 (.items vy)], []⟩ a S ∧ Messages (UnbalancedMsg 0 1) S := by
  obtain ⟨t, ht⟩ := solved_iff (r := okvsSolve (pyWords 11 12) ([30, 10].map (derivedKey psiEnv (11, 12))) ([30, 10].map (derivedVal psiEnv (11, 12)))
    (tableBase 2)) (by decide +kernel)
  have hl : vy.length ≠ 0 := by simpa using hy
  have hmask : ∃ mask, psiUnbalanced okvsSolve psiEnv (11, 12) (pyWords 11 12) 0 1 2 vy.length [30, 10] vy = some mask := by
    unfold psiUnbalanced
    rw [if_neg (by omega), if_neg (by omega)]
    simp only [ht]
    exact ⟨_, rfl⟩
  obtain ⟨mask, hmask⟩ := hmask
  obtain ⟨a, S, h1, ⟨m, h2, h3⟩, _⟩ := spec_unbalanced (N := 2) (allowed := UnbalancedMsg 0 1) psiEnv okvsSolve (fun s => pyWords s.1 s.2) (by omega)
    (by omega) (fun _ _ _ h => h) hmask (S := ⟨[given 0 (.items [30, 10]), given 1 (.items vy)], []⟩) (xs := 0) (ys := 1)
    ⟨given 0 (.items [30, 10]), rfl, by simp, rfl⟩ ⟨given 1 (.items vy), rfl, by simp, rfl⟩
  refine ⟨a, S, h1, fun e he => ?_⟩
  rw [h2] at he
  exact h3 e (by simpa using he)

end Verif.Mpc.Net
