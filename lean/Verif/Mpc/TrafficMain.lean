import Verif.Mpc.Traffic
import Verif.Mpc.NetMain
/-!
# C129: how much the two-party protocols send

The theorems are about every run of the programs of `Verif/Mpc/Net.lean` (and of the Silver VOLE, below): whatever the inputs, the draws and
the kernels, the messages have the given directions and sizes, which depend on public numbers only.
-/
namespace Verif.Mpc.Net
open Verif.Kern Verif.Simp

variable {A : Type} [AddCommGroup A] [DecidableEq A]

/-! ## The Silver VOLE as a program of the parties -/

/-- `_encode` (silver.py:156-158): `ldpc.ldpc_encode_sparse(vec_base, idx, ptr, n, base_k)` -/
def ldpcK (n : Nat) : List (Val A) → Option (Val A)
  | [.blks b, .items idx, .items ptr] => (ldpcEncode b idx ptr 0 n).map .blks
  | _ => none

/-- `_add_noise` (silver.py:167-174) with noise `e` drawn at the receiver -/
def noiseK (e : List Blk) : List (Val A) → Option (Val A)
  | [.blks w] => some (.blks (xorTables w e))
  | _ => none

/-- `silver_vole(sender, receiver, n, return_secrets=True)` (silver.py:68-187) for the public matrix `idx`, `ptr`; results `V, W, U, delta` -/
def silverNet (C : Curve A) (E : IknpEnv A) (rC : Int) (ds : Fin iknpK → BaseDraw) (mul : Blk → Blk → Blk) (uBase : List Blk) (delta : Blk)
    (idx ptr : List Nat) (e : List Blk) (snd rcv n : Nat) : Prog A (Nat × Nat × Nat × Nat) :=
  if snd = rcv then .fail else if n = 0 then .fail else
  (several snd (fun _ => some [.items idx, .items ptr]) [.input, .input] []).bind fun hs => unpack2 hs fun i p =>
  (several rcv (fun _ => some [.items idx, .items ptr]) [.input, .input] []).bind fun hr => unpack2 hr fun i' p' =>
  (voleNet C E rC ds mul uBase delta snd rcv uBase.length).bind fun o =>
  (one snd (ldpcK n) .secret [o.1, i, p]).bind fun v =>
  (one rcv (ldpcK n) .secret [o.2.1, i', p']).bind fun w0 =>
  (one rcv (noiseK e) .secret [w0]).bind fun w =>
  (one snd (ldpcK n) .secret [o.2.2.1, i, p]).bind fun u =>
  .ret (v, w, u, o.2.2.2)

section
variable (C : Curve A) (E : IknpEnv A) (rC : Int) (ds : Fin iknpK → BaseDraw) (mul : Blk → Blk → Blk) {N : Nat}

/-- **C113, Silver VOLE.**  Under every schedule the parties end with what the protocol computed by one machine gives (whose relation is
C46's), and only the messages of the VOLE are sent: the matrix is made by each party for itself. -/
theorem silver_network (tr : Val A → Bool) {snd rcv n : Nat} (hs : snd < N) (hr : rcv < N) (hne : snd ≠ rcv) (hn : n ≠ 0) (uBase : List Blk) (delta : Blk)
    (idx ptr : List Nat) (e : List Blk) (r : VoleOut) (h : silverVole mul C E rC ds uBase delta idx ptr e n = some r) :
    Protocol tr N (silverNet C E rC ds mul uBase delta idx ptr e snd rcv n) [] (VoleMsg snd rcv) fun o S =>
      Own S snd o.1 .secret (.blks r.v) ∧ Own S rcv o.2.1 .secret (.blks r.w) ∧ Own S snd o.2.2.1 .secret (.blks r.u) ∧
      Own S rcv o.2.2.2 .secret (.blk r.delta) := by
  refine protocol_of tr ?_
  unfold silverVole at h
  cases hv : vole mul C E rC ds uBase delta with
  | error x => simp [hv] at h
  | ok b =>
    simp only [hv] at h
    cases e1 : ldpcEncode b.v idx ptr 0 n with
    | none => simp [e1] at h
    | some v =>
      cases e2 : ldpcEncode b.w idx ptr 0 n with
      | none => simp [e1, e2] at h
      | some w =>
        cases e3 : ldpcEncode b.u idx ptr 0 n with
        | none => simp [e1, e2, e3] at h
        | some u =>
          simp only [e1, e2, e3, Option.some.injEq] at h
          subst h
          unfold silverNet
          rw [if_neg hne, if_neg hn]
          refine spec_call2 .nil (by rfl) fun i p S1 l1 hi hp => ?_
          refine spec_call2 .nil (by rfl) fun i' p' S2 l2 hi' hp' => ?_
          refine Spec.bind (spec_vole C E rC ds mul hs hr (fun _ _ _ g => g) hv S2) fun o S3 l3 ho => ?_
          refine Spec.bind (uses_one (.cons (Is.uses (now! ho.v)) (.cons (Is.uses (now! hi)) (.cons (Is.uses (now! hp)) .nil)))
            (by simp only [ldpcK, e1]; rfl)) fun v' S4 l4 hv' => ?_
          refine Spec.bind (uses_one (.cons (Is.uses (now! ho.w)) (.cons (Is.uses (now! hi')) (.cons (Is.uses (now! hp')) .nil)))
            (by simp only [ldpcK, e2]; rfl)) fun w0 S5 l5 hw0 => ?_
          refine Spec.bind (uses_one (.cons (Is.uses (now! hw0)) .nil) (by rfl)) fun w' S6 l6 hw' => ?_
          refine Spec.bind (uses_one (.cons (Is.uses (now! ho.u)) (.cons (Is.uses (now! hi)) (.cons (Is.uses (now! hp)) .nil)))
            (by simp only [ldpcK, e3]; rfl)) fun u' S7 l7 hu' => ?_
          exact .ret ⟨now! hv', now! hw', hu', now! ho.delta⟩

/-! ## The messages -/

theorem sound_start (ls : List (Loc (Val A) Kind)) : Sound (⟨ls, []⟩ : Plain (Val A) Kind) := by
  intro e he
  simp at he

theorem start_sends (ls : List (Loc (Val A) Kind)) : sends (⟨ls, []⟩ : Plain (Val A) Kind) = [] := rfl

theorem run_sends {α : Type} {c : Prog A α} {ls : List (Loc (Val A) Kind)} {m : Msgs} (h : Each N c ⟨ls, []⟩ fun _ S' => sends S' = [] ++ m)
    {a : α} {S' : Plain (Val A) Kind} (hr : Runs N c ⟨ls, []⟩ a S') : sends S' = m :=
  (h (sound_start ls) a S' hr).2.2

/-- **C129, oblivious transfer.**  `n` transfers of messages of `d` bytes: the six messages of the extension, of which only the correction
matrix depends on `n` (128 bytes per transfer: its bits are sent as bytes), and two ciphertext arrays of `n · d` bytes. -/
theorem transfer_traffic {snd rcv n d : Nat} (hne : snd ≠ rcv) (m0 m1 : Fin n → Fin d → Nat) (r : Fin n → Bool) {y : Nat}
    {S : Plain (Val A) Kind} (hr : Runs N (transfer C E rC ds 0 1 2 snd rcv n)
      ⟨[given snd (.bytes n d m0), given snd (.bytes n d m1), given rcv (.choice n (.vec r))], []⟩ y S) :
    sends S = iknpMsgs (commonSize C rC) snd rcv n ++ [(snd, rcv, .cipher, n * d), (snd, rcv, .cipher, n * d)] :=
  run_sends (ls := [given snd (.bytes n d m0), given snd (.bytes n d m1), given rcv (.choice n (.vec r))])
    (each_transfer C E rC ds (d := d) (l0 := given snd (.bytes n d m0)) (x0 := 0) (m0 := m0) hne (start_sends _) rfl rfl) hr

/-- **C129, VOLE.**  Whatever `u` and `delta` are, 128 bytes times 16 bytes per correlation go to the receiver. -/
theorem vole_traffic {snd rcv n : Nat} (hne : snd ≠ rcv) (u : List Blk) (delta : Blk) {o : Nat × Nat × Nat × Nat} {S : Plain (Val A) Kind}
    (hr : Runs N (voleNet C E rC ds mul u delta snd rcv n) ⟨[], []⟩ o S) : sends S = voleMsgs (commonSize C rC) snd rcv n :=
  run_sends (Each.weaken (each_vole C E rC ds mul hne (start_sends _)) fun _ _ _ _ h => h.1) hr

/-- **C129, silent VOLE.**  The messages depend on the number of base correlations, not on the number `n` of correlations made. -/
theorem silent_traffic {snd rcv n baseK : Nat} (hne : snd ≠ rcv) (u : List Blk) (delta : Blk) (seed : Bytes32) {o : Nat × Nat × Nat × Nat}
    {S : Plain (Val A) Kind} (hr : Runs N (silentNet C E rC ds mul u delta seed snd rcv n baseK) ⟨[], []⟩ o S) :
    sends S = silentMsgs (commonSize C rC) snd rcv baseK :=
  run_sends (Each.weaken (each_silent C E rC ds mul hne (start_sends _)) fun _ _ _ _ h => h.1) hr

/-- **C129, Silver VOLE.**  Exactly the messages of a VOLE of base size. -/
theorem silver_traffic {snd rcv n : Nat} (uBase : List Blk) (delta : Blk) (idx ptr : List Nat) (e : List Blk) {o : Nat × Nat × Nat × Nat}
    {S : Plain (Val A) Kind} (hr : Runs N (silverNet C E rC ds mul uBase delta idx ptr e snd rcv n) ⟨[], []⟩ o S) :
    sends S = voleMsgs (commonSize C rC) snd rcv uBase.length := by
  refine run_sends ?_ hr
  unfold silverNet
  split
  · exact Each.fail
  next hne =>
  split
  · exact Each.fail
  refine each_call2 Val.size (start_sends _) fun i p S1 _ _ _ _ _ _ _ _ m1 => ?_
  refine each_call2 Val.size m1 fun i' p' S2 _ _ _ _ _ _ _ _ m2 => ?_
  refine Each.bind (each_vole C E rC ds mul hne m2) fun o S3 _ _ h3 => ?_
  refine each_one Val.size h3.1 fun v S4 _ _ _ _ _ _ m4 => ?_
  refine each_one Val.size m4 fun w0 S5 _ _ _ _ _ _ m5 => ?_
  refine each_one Val.size m5 fun w S6 _ _ _ _ _ _ m6 => ?_
  refine each_one Val.size m6 fun u S7 _ _ _ _ _ _ m7 => ?_
  exact Each.ret m7

/-- **C129, OPRF.**  Only the extension sends: 128 bytes per receiver item, and nothing for the sender's own evaluations. -/
theorem oprf_traffic {snd rcv n m : Nat} (hne : snd ≠ rcv) (xs : Fin n → Item) (ys : Fin m → Item) {o : Nat × Nat} {S : Plain (Val A) Kind}
    (hr : Runs N (oprfBoth C E rC ds 0 1 snd rcv n) ⟨[given rcv (.inputs n xs), given snd (.inputs m ys)], []⟩ o S) :
    sends S = iknpMsgs (commonSize C rC) snd rcv n := by
  refine run_sends ?_ hr
  unfold oprfBoth oprfNet senderEvalNet
  refine Each.bind (P := fun _ S' => sends S' = [] ++ iknpMsgs (commonSize C rC) snd rcv n) ?_ fun o S2 _ _ m2 => ?_
  · refine each_one Val.size (start_sends _) fun c S1 _ _ _ _ _ _ m1 => ?_
    refine Each.bind (each_iknp C E rC ds hne m1) fun o S2 _ _ m2 => ?_
    refine each_one Val.size m2 fun out S3 _ _ _ _ _ _ m3 => ?_
    exact each_call2 Val.size m3 fun t s S4 _ _ _ _ _ _ _ _ m4 => Each.ret m4
  · exact each_one Val.size m2 fun y S3 _ _ _ _ _ _ m3 => Each.ret m3

variable (wordsOf : Blk → Nat → Nat × Nat) (solve : Solver)

/-- **C129, private set intersection.**  Whatever the items, the draws and the solver (the Python or the native one: `solve_sized`,
`solve_native_sized`): the messages of a silent VOLE of base size from the receiver, the hash seed, the masked table, and 16 bytes per item of
the sender.  So the messages say nothing about the items except how many the sender has. -/
theorem psi_traffic (hz : Sized solve) {sender receiver n : Nat} (uBase : List Blk) (delta : Blk) (seed : Bytes32) (okvs : Blk) (vx vy : List Nat)
    {y : Nat} {S : Plain (Val A) Kind} (hr : Runs N (psiNet C E rC ds mul solve wordsOf uBase delta seed okvs sender receiver n 0 1)
      ⟨[given sender (.items vx), given receiver (.items vy)], []⟩ y S) :
    sends S = psiMsgs (commonSize C rC) sender receiver uBase.length (tableRr22 n) n :=
  run_sends (each_psi C E rC ds mul solve wordsOf hz (start_sends _)) hr

/-- **C129, unbalanced intersection.**  The table of the server's set and the seed; nothing depends on the client's set. -/
theorem unbalanced_traffic (hz : Sized solve) {server client serverN clientN : Nat} (s : Blk) (vx vy : List Nat) {y : Nat}
    {S : Plain (Val A) Kind} (hr : Runs N (unbalancedNet E solve wordsOf s server client serverN clientN 0 1)
      ⟨[given server (.items vx), given client (.items vy)], []⟩ y S) :
    sends S = unbalancedMsgs server client (tableBase serverN) :=
  run_sends (each_unbalanced E solve wordsOf hz (start_sends _)) hr

/-! ## Totals -/

omit [AddCommGroup A] [DecidableEq A] in
theorem total_append (l m : Msgs) : total (l ++ m) = total l + total m := by simp [total]

theorem common_le : commonSize C rC ≤ 33 := by
  unfold commonSize Val.size
  simp only
  split <;> omega

/-- **C129 (amounts)**  All in bytes; `c` is at most 33. -/
theorem totals (c s r : Nat) :
    (∀ n, total (iknpMsgs c s r n) = c + 24832 + 128 * n) ∧ (∀ n, total (voleMsgs c s r n) = c + 41216 + 2048 * n) ∧
    (∀ k, total (silentMsgs c s r k) = c + 41248 + 2048 * k) ∧
    (∀ k m n, total (psiMsgs c s r k m n) = c + 41264 + 2048 * k + 16 * m + 16 * n) ∧
    ∀ m, total (unbalancedMsgs s r m) = 16 * m + 16 := by
  refine ⟨fun n => ?_, fun n => ?_, fun k => ?_, fun k m n => ?_, fun m => ?_⟩ <;>
    simp only [total, psiMsgs, silentMsgs, voleMsgs, iknpMsgs, unbalancedMsgs, List.map_append, List.map_cons, List.map_nil, List.sum_append,
      List.sum_cons, List.sum_nil] <;> omega

theorem tableBase_bounds (n : Nat) : n ≤ tableBase n ∧ tableBase n ≤ 25 * n := by
  unfold tableBase expansion
  repeat' split
  all_goals simp only; omega

theorem tableRr22_bounds (n : Nat) : n ≤ tableRr22 n ∧ tableRr22 n ≤ 25 * n + 127 := by
  have := tableBase_bounds n
  unfold tableRr22
  split <;> omega

/-- **C129 (intersection is linear)**  `n` items of the sender cost at least 32 and at most `416 n + 2.2 MB` bytes. -/
theorem psi_linear (n : Nat) (s r : Nat) :
    32 * n ≤ total (psiMsgs (commonSize C rC) s r 1024 (tableRr22 n) n) ∧
      total (psiMsgs (commonSize C rC) s r 1024 (tableRr22 n) n) ≤ 416 * n + 2140481 := by
  have := tableRr22_bounds n
  have := common_le C rC
  rw [(totals _ s r).2.2.2.1]
  omega

/-- **C129 does not hold for the unbalanced protocol.**  The documentation promises communication in the size of the client's set
(unbalanced.py:53); what is sent is at least 16 bytes per item of the server, whatever the client has. -/
theorem unbalanced_size_violated (hz : Sized solve) {server client serverN clientN : Nat} (s : Blk) (vx vy : List Nat) {y : Nat}
    {S : Plain (Val A) Kind} (hr : Runs N (unbalancedNet E solve wordsOf s server client serverN clientN 0 1)
      ⟨[given server (.items vx), given client (.items vy)], []⟩ y S) : 16 * serverN < total (sends S) := by
  rw [unbalanced_traffic E wordsOf solve hz s vx vy hr, (totals 0 server client).2.2.2.2]
  have := tableBase_bounds serverN
  omega

/-! ## The estimates of the library -/

/-- `estimate_silver_communication(n)` (silver.py:308-342): `silver_bytes`, `gilboa_bytes` -/
def estimateSilver (n : Nat) : Nat × Nat := (128 * 16 * 2 + max (n / 10) 128 * 16, n * 16)

/-- **C129 (Silver is bounded)**  However many correlations are made, at most 4.3 MB are sent. -/
theorem silver_bounded (n s r : Nat) : total (voleMsgs (commonSize C rC) s r (silverBaseK n)) ≤ 4235553 := by
  have := common_le C rC
  rw [(totals _ s r).2.1]
  unfold silverBaseK
  omega

/-- **C129 does not hold for the estimates.**  Up to 20480 correlations, Silver sends at least 49 times what is estimated; Gilboa's VOLE always
sends at least 128 times what is estimated; and for long vectors the estimate for Silver exceeds what is sent by any factor. -/
theorem silver_estimate_violated (c s r : Nat) :
    (∀ n, n ≤ 20480 → 49 * (estimateSilver n).1 ≤ total (voleMsgs c s r (silverBaseK n))) ∧
    (∀ n, 128 * (estimateSilver n).2 < total (voleMsgs c s r n)) ∧
    ∀ f, ∃ n, f * total (voleMsgs c s r (silverBaseK n)) ≤ (estimateSilver n).1 := by
  refine ⟨fun n hn => ?_, fun n => ?_, fun f => ?_⟩
  · rw [(totals c s r).2.1]
    unfold estimateSilver silverBaseK
    simp only
    omega
  · rw [(totals c s r).2.1]
    unfold estimateSilver
    simp only
    omega
  · refine ⟨f * (c + 4235520) * 10, ?_⟩
    have h1 : total (voleMsgs c s r (silverBaseK (f * (c + 4235520) * 10))) ≤ c + 4235520 := by
      rw [(totals c s r).2.1]
      unfold silverBaseK
      omega
    have h2 := Nat.mul_le_mul_left f h1
    unfold estimateSilver
    simp only
    rw [Nat.mul_div_cancel _ (by omega)]
    omega

/-- **C129 does not hold for the promised saving.**  Silver is documented to send about 1300 times less (silver.py:18-19, 82-83).  Up to 20480
correlations it sends at least a tenth of what Gilboa's VOLE sends, and below 2.6 million the factor is never 1300. -/
theorem silver_saving_violated (c s r : Nat) :
    (∀ n, n ≤ 20480 → total (voleMsgs c s r n) ≤ 10 * total (voleMsgs c s r (silverBaseK n))) ∧
    ∀ n, n ≤ 2600000 → total (voleMsgs c s r n) < 1300 * total (voleMsgs c s r (silverBaseK n)) := by
  refine ⟨fun n hn => ?_, fun n hn => ?_⟩ <;> rw [(totals c s r).2.1, (totals c s r).2.1] <;> unfold silverBaseK <;> omega

end

/-! ## The hypotheses are met -/

/-- a VOLE of two elements has a run, and it sends 45 kB -/
example : ∃ o S, Runs 2 (voleNet toyCurve toyEnv 7 toyDraws gfMul [(5, 9), (2 ^ 63, 1)] (3, 2 ^ 63) 0 1 2) ⟨[], []⟩ o S ∧
    sends S = voleMsgs (commonSize toyCurve 7) 0 1 2 ∧ total (sends S) = commonSize toyCurve 7 + 45312 := by
  obtain ⟨r, hv⟩ := vole_total gfMul toyCurve toyCurve_ok toyEnv 7 toyDraws [(5, 9), (2 ^ 63, 1)] (3, 2 ^ 63) toy_draws.kp toy_draws.r toy_draws.c
  obtain ⟨o, S, h, _⟩ := spec_vole (N := 2) (allowed := fun _ _ _ => True) toyCurve toyEnv 7 toyDraws gfMul (snd := 0) (rcv := 1) (by omega)
    (by omega) (fun _ _ _ _ => trivial) hv ⟨[], []⟩
  have h' := vole_traffic toyCurve toyEnv 7 toyDraws gfMul (by omega) _ _ h
  exact ⟨o, S, h, h', by rw [h', (totals _ 0 1).2.1]; rfl⟩

/-- a Silver VOLE on a two-row matrix -/
example : ∃ o : VoleOut, Protocol (fun _ => true) 2 (silverNet toyCurve toyEnv 7 toyDraws gfMul [(5, 9), (2 ^ 63, 1), (0, 7)] (3, 2 ^ 63)
      (toCsr [[0, 1, 2], [0, 2]]).1 (toCsr [[0, 1, 2], [0, 2]]).2 [(0, 0), (4, 0)] 1 0 2) [] (VoleMsg 1 0) fun r S =>
    Own S 1 r.1 .secret (.blks o.v) ∧ Own S 0 r.2.1 .secret (.blks o.w) ∧ Own S 1 r.2.2.1 .secret (.blks o.u) ∧
      Own S 0 r.2.2.2 .secret (.blk o.delta) := by
  obtain ⟨b, hb⟩ := vole_total gfMul toyCurve toyCurve_ok toyEnv 7 toyDraws [(5, 9), (2 ^ 63, 1), (0, 7)] (3, 2 ^ 63)
    toy_draws.kp toy_draws.r toy_draws.c
  have hu : ∀ x ∈ ([(5, 9), (2 ^ 63, 1), (0, 7)] : List Blk), WordPair x := by
    intro x hx
    simp only [List.mem_cons, List.not_mem_nil, or_false] at hx
    rcases hx with rfl | rfl | rfl <;> exact ⟨by decide, by decide⟩
  obtain ⟨o, h1, _⟩ := silver_vole_violated gfMul (Or.inl rfl) toyCurve toyCurve_ok toyEnv 7 toyDraws
    _ (3, 2 ^ 63) hu ⟨by decide, by decide⟩ (toCsr [[0, 1, 2], [0, 2]]).1
    (toCsr [[0, 1, 2], [0, 2]]).2 2 (by decide) (by decide) [(0, 0), (4, 0)] rfl b hb
  exact ⟨o, silver_network toyCurve toyEnv 7 toyDraws gfMul _ (by omega) (by omega) (by omega) (by omega) _ _ _ _ _ o h1⟩

/-- an intersection of two parties' three items: it runs, under every schedule, and sends these messages -/
example : ∃ y S, RunsTo (fun _ => true) 3 (psiNet toyCurve psiEnv 7 toyDraws gfMul okvsSolve (fun s => pyWords s.1 s.2) [(5, 9), (2 ^ 63, 1)] (3, 2 ^ 63)
      (fun i => i) (0xDEADBEEF, 0xCAFEBABE) 2 0 3 0 1) [given 2 (.items [30, 7, 10]), given 0 (.items [10, 20, 30])] y S ∧
    sends S = psiMsgs (commonSize toyCurve 7) 2 0 2 (tableRr22 3) 3 := by
  have h3 := tableRr22_ge 3 (by omega)
  obtain ⟨o, ho⟩ := silent_total gfMul toyCurve toyCurve_ok psiEnv 7 toyDraws [(5, 9), (2 ^ 63, 1)] (3, 2 ^ 63) (fun i => i) (tableRr22 3) (by omega)
    toy_draws.kp toy_draws.r toy_draws.c
  obtain ⟨p, hp⟩ := solved_iff (r := okvsSolve (pyWords 0xDEADBEEF 0xCAFEBABE) [10, 20, 30] ([10, 20, 30].map (hashItem psiEnv)) (tableRr22 3))
    (by decide +kernel)
  have hmask : ∃ mask, psiIntersect gfMul okvsSolve toyCurve psiEnv 7 toyDraws [(5, 9), (2 ^ 63, 1)] (3, 2 ^ 63) (fun i => i)
      (pyWords 0xDEADBEEF 0xCAFEBABE) 2 0 3 [30, 7, 10] [10, 20, 30] = some mask := by
    unfold psiIntersect rr22With
    rw [if_neg (by omega), if_neg (by omega), if_neg (by simp)]
    rw [ho]
    simp only [hp]
    exact ⟨_, rfl⟩
  obtain ⟨mask, hmask⟩ := hmask
  obtain ⟨y, S, h, _⟩ := spec_psi (N := 3) (allowed := fun _ _ _ => True) toyCurve psiEnv 7 toyDraws gfMul okvsSolve (fun s => pyWords s.1 s.2)
    (by omega) (by omega) (fun _ _ _ _ => trivial) hmask (S := ⟨[given 2 (.items [30, 7, 10]), given 0 (.items [10, 20, 30])], []⟩)
    (xs := 0) (ys := 1) (okvs := (0xDEADBEEF, 0xCAFEBABE)) ⟨given 2 (.items [30, 7, 10]), rfl, by simp, rfl⟩
    ⟨given 0 (.items [10, 20, 30]), rfl, by simp, rfl⟩
  exact ⟨y, S, h.runsTo _, psi_traffic toyCurve psiEnv 7 toyDraws gfMul (fun s => pyWords s.1 s.2) okvsSolve solve_sized _ _ _ _ _ _ h⟩

/-- an unbalanced intersection: two items of the server cost more than 32 bytes -/
example : ∃ y S, Runs 2 (unbalancedNet psiEnv okvsSolve (fun s => pyWords s.1 s.2) (11, 12) 0 1 2 3 0 1)
      ⟨[given 0 (.items [30, 10]), given 1 (.items [10, 20, 30])], []⟩ y S ∧ 16 * 2 < total (sends S) := by
  obtain ⟨t, ht⟩ := solved_iff (r := okvsSolve (pyWords 11 12) ([30, 10].map (derivedKey psiEnv (11, 12))) ([30, 10].map (derivedVal psiEnv (11, 12)))
    (tableBase 2)) (by decide +kernel)
  have hmask : ∃ mask, psiUnbalanced okvsSolve psiEnv (11, 12) (pyWords 11 12) 0 1 2 3 [30, 10] [10, 20, 30] = some mask := by
    unfold psiUnbalanced
    rw [if_neg (by omega), if_neg (by omega)]
    simp only [ht]
    exact ⟨_, rfl⟩
  obtain ⟨mask, hmask⟩ := hmask
  obtain ⟨y, S, h, _⟩ := spec_unbalanced (N := 2) (allowed := fun _ _ _ => True) psiEnv okvsSolve (fun s => pyWords s.1 s.2) (by omega)
    (by omega) (fun _ _ _ _ => trivial) hmask (S := ⟨[given 0 (.items [30, 10]), given 1 (.items [10, 20, 30])], []⟩) (xs := 0) (ys := 1)
    ⟨given 0 (.items [30, 10]), rfl, by simp, rfl⟩ ⟨given 1 (.items [10, 20, 30]), rfl, by simp, rfl⟩
  exact ⟨y, S, h, unbalanced_size_violated psiEnv (fun s => pyWords s.1 s.2) okvsSolve solve_sized _ _ _ h⟩

example : (estimateSilver 1000000).1 = 1604096 ∧ (estimateSilver 1000000).2 = 16000000 := by decide

end Verif.Mpc.Net
