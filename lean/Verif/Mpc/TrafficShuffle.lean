import Verif.Simp.Traffic
import Verif.Mpc.NetShuffleMain
/-!
# How much the base transfer, the permutation and the shuffle-based group-by send (property C129)

Every message of every run, with its number of elements (curve points, ciphertexts, machine integers), which determines its size.
-/
namespace Verif.Mpc.Shuf
open Verif.Simp

variable {A : Type} [AddCommGroup A] [DecidableEq A]
variable {M Ct Key Nonce : Type}

/-- **Specification** number of elements of a value -/
def GVal.count : GVal A M Ct → Nat
  | .point _ => 1
  | .points l => l.length
  | .scalars l => l.length
  | .cts l => l.length
  | .msgs l => l.length
  | .bits l => l.length
  | .ctrls l => l.length
  | .perm l => l.length

/-- a list of messages: from, to, kind, elements -/
abbrev Sent := List (Nat × Nat × GKind × Nat)

/-- **Specification** the messages of transfer `i` of `m` messages out of `m` pairs -/
def otSent (i s r m : Nat) : Sent :=
  [(s, r, .ot i .common, 1), (r, s, .ot i .pk, m), (s, r, .ot i .u0, m), (s, r, .ot i .c0, m), (s, r, .ot i .u1, m), (s, r, .ot i .c1, m)]

/-- **Specification** the messages of the permutation of `n` elements: two transfers of half the padded length -/
def permSent (s r n : Nat) : Sent := otSent 0 s r (2 ^ padExp n / 2) ++ otSent 1 s r (2 ^ padExp n / 2)

/-- **Specification** the messages of the group-by of `n` elements into `K` bins -/
def groupSent (s r h n K : Nat) : Sent := permSent s r n ++ [(s, h, .share, n), (r, h, .bins, n), (h, r, .partialSum, K)]

/-- **Specification** traffic of a run -/
abbrev sentOf (S : Plain (GVal A M Ct) GKind) : Sent := traffic GVal.count S

theorem mapE_length {α β ε : Type} {f : α → Except ε β} : ∀ {l : List α} {r : List β}, mapE f l = .ok r → r.length = l.length := by
  intro l
  induction l with
  | nil => intro r h; cases h; rfl
  | cons a l ih =>
    intro r h
    simp only [mapE] at h
    split at h
    · cases h
    · split at h
      · cases h
      · next h2 => cases h; simp [ih h2]

theorem okOf_some {ε α : Type} {r : Except ε α} {a : α} (h : okOf r = some a) : r = .ok a := by
  cases r with
  | ok b => simp only [okOf, Option.some.injEq] at h; rw [h]
  | error e => simp [okOf] at h

theorem args_cons {V T : Type} {S : Plain V T} {x : Nat} {xs : List Nat} {vs : List V} {l : Loc V T} (h : Args S (x :: xs) vs)
    (hx : Is S x l) : ∃ vs', vs = l.val :: vs' ∧ Args S xs vs' := by
  obtain ⟨ls, h1, rfl⟩ := h
  cases h1 with
  | cons a b =>
    have := Option.some.inj (a.symm.trans hx)
    subst this
    exact ⟨_, rfl, _, b, rfl⟩

theorem args_some {V T : Type} {S : Plain V T} {x : Nat} {xs : List Nat} {vs : List V} (h : Args S (x :: xs) vs) :
    ∃ v vs', vs = v :: vs' ∧ Args S xs vs' := by
  obtain ⟨ls, h1, rfl⟩ := h
  cases h1 with
  | cons a b => exact ⟨_, _, rfl, _, b, rfl⟩

theorem args_nil {V T : Type} {S : Plain V T} {vs : List V} (h : Args S [] vs) : vs = [] := by
  obtain ⟨ls, h1, rfl⟩ := h
  cases h1
  rfl

section
variable (C : Curve A) (S : Sym A M Ct Key Nonce)

theorem keygenK_out {vs : List (GVal A M Ct)} {a b : GVal A M Ct} (h : keygenK C vs = some [a, b]) : ∃ p, a = .points p := by
  unfold keygenK at h
  split at h
  · cases hb : bitsOf (M := M) (Ct := Ct) (A := A) _ with
    | none => rw [hb] at h; simp at h
    | some bs =>
      rw [hb] at h
      simp only [Option.bind_some] at h
      split at h
      · simp only [Option.map_eq_some_iff, List.cons.injEq] at h
        obtain ⟨p, _, rfl, _⟩ := h
        exact ⟨p, rfl⟩
      · simp at h
  · simp at h

theorem encryptK_out {sd : SendDraws Nonce} {cpt : Option A} {pk : List (Option A)} {m0 : List M} {v : GVal A M Ct} {a b c d : GVal A M Ct}
    (h : encryptK C S sd [.point cpt, .points pk, .msgs m0, v] = some [a, b, c, d]) :
    pk.length = m0.length ∧ a.count = m0.length ∧ b.count = m0.length ∧ c.count = m0.length ∧ d.count = m0.length := by
  unfold encryptK at h
  split at h
  · next cpt' pk' m0' m1 hh =>
    simp only [List.cons.injEq, GVal.point.injEq, GVal.points.injEq, GVal.msgs.injEq, and_true] at hh
    obtain ⟨rfl, rfl, rfl, rfl⟩ := hh
    split at h
    · next hl =>
      simp only [Option.map_eq_some_iff, List.cons.injEq, and_true] at h
      obtain ⟨l, hm, rfl, rfl, rfl, rfl⟩ := h
      have := mapE_length (okOf_some hm)
      simp only [sendBatch, List.length_zip, List.length_mapIdx] at this
      simp only [GVal.count, List.length_map]
      omega
    · simp at h
  · simp at h

variable {N : Nat}

theorem each_ot (sd : SendDraws Nonce) {P : Plain (GVal A M Ct) GKind} {Ms : Sent} {i m0 m1 choice ks snd rcv : Nat} {l : Loc (GVal A M Ct) GKind}
    {ms : List M} (hne : snd ≠ rcv) (hM : sentOf P = Ms) (h0 : Is P m0 l) (hv : l.val = .msgs ms) :
    Each N (otNet C S sd i m0 m1 choice ks snd rcv) P fun _ P' => sentOf P' = Ms ++ otSent i snd rcv ms.length := by
  unfold otNet
  refine each_one GVal.count hM fun c P1 _ v1 l1 _ f1 o1 t1 => ?_
  simp only [Option.some.injEq] at f1
  subst f1
  refine each_move GVal.count hne t1 o1 fun cR P2 l2 _ t2 => ?_
  refine each_call2 GVal.count t2 fun pk kp P3 vs v3 w3 l3 a3 f3 o3 _ t3 => ?_
  obtain ⟨p, rfl⟩ := keygenK_out C f3
  refine each_one GVal.count t3 fun pk' P4 vs4 v4 l4 a4 f4 o4 t4 => ?_
  obtain ⟨r4, rfl, a4'⟩ := args_cons a4 o3
  obtain ⟨w4, r4', rfl, a4''⟩ := args_some a4'
  obtain rfl := args_nil a4''
  simp only [fstK, Option.some.injEq] at f4
  subst f4
  refine each_move GVal.count hne.symm t4 o4 fun pkS P5 l5 o5 t5 => ?_
  refine each_call4 GVal.count t5 fun u0 c0 u1 c1 P6 vs6 w0 w1 w2 w3 l6 a6 f6 q0 q1 q2 q3 t6 => ?_
  obtain ⟨r6, rfl, b6⟩ := args_cons a6 ((((o1.mono l2).mono l3).mono l4).mono l5)
  obtain ⟨r7, rfl, b7⟩ := args_cons b6 o5
  obtain ⟨r8, rfl, b8⟩ := args_cons b7 (((((h0.mono l1).mono l2).mono l3).mono l4).mono l5)
  obtain ⟨w9, r9, rfl, b9⟩ := args_some b8
  obtain rfl := args_nil b9
  rw [hv] at f6
  obtain ⟨e0, e1, e2, e3, e4⟩ := encryptK_out C S f6
  refine each_move GVal.count hne t6 q0 fun u0R P7 l7 _ t7 => ?_
  refine each_move GVal.count hne t7 (q1.mono l7) fun c0R P8 l8 _ t8 => ?_
  refine each_move GVal.count hne t8 ((q2.mono l7).mono l8) fun u1R P9 l9 _ t9 => ?_
  refine each_move GVal.count hne t9 (((q3.mono l7).mono l8).mono l9) fun c1R P10 l10 _ t10 => ?_
  refine each_last GVal.count t10 fun y P11 _ _ _ _ _ _ t11 => ?_
  show traffic GVal.count P11 = _
  rw [t11]
  have hp : (GVal.points p : GVal A M Ct).count = ms.length := e0
  simp only [e1, e2, e3, e4, hp, List.append_assoc, List.cons_append, List.nil_append]
  rfl

theorem each_whenPadded {P : Plain (GVal A M Ct) GKind} {Ms : Sent} {c : Prop} [Decidable c] {r : Nat} {f : List (GVal A M Ct) → Option (GVal A M Ct)}
    {x : Nat} (hM : sentOf P = Ms) : Each N (whenPadded c r f x) P fun _ P' => sentOf P' = Ms := by
  unfold whenPadded
  split
  · exact each_last GVal.count hM fun y P1 _ _ _ _ _ _ t1 => t1
  · exact Each.ret hM

theorem each_local {zero : M} {n ctrls rcv : Nat} : ∀ (steps : List (Nat × Nat)) (off x : Nat) {P : Plain (GVal A M Ct) GKind} {Ms : Sent},
    sentOf P = Ms → Each N (localSteps zero n ctrls rcv steps off x) P fun _ P' => sentOf P' = Ms := by
  intro steps
  induction steps with
  | nil => intro off x P Ms hM; exact Each.ret hM
  | cons e rest ih =>
    intro off x P Ms hM
    obtain ⟨s, d⟩ := e
    unfold localSteps
    refine each_one GVal.count hM fun c P1 _ _ _ _ _ _ t1 => ?_
    refine each_one GVal.count t1 fun y P2 _ _ _ _ _ _ t2 => ?_
    exact ih _ _ t2

theorem extractK_out {zero : M} {n d : Nat} {vs : List (GVal A M Ct)} {a b : GVal A M Ct} (h : extractK zero n d vs = some [a, b]) :
    ∃ l k, a = .msgs l ∧ b = .msgs k ∧ l.length = (lowIx n d).length := by
  unfold extractK at h
  split at h
  · simp only [Option.some.injEq, List.cons.injEq, and_true] at h
    exact ⟨_, _, h.1.symm, h.2.symm, by simp⟩
  · simp at h

theorem each_switch (sd0 sd1 : SendDraws Nonce) {P : Plain (GVal A M Ct) GKind} {Ms : Sent} {x0 x1 ctrl ks0 ks1 snd rcv : Nat}
    {l : Loc (GVal A M Ct) GKind} {ms : List M} (hne : snd ≠ rcv) (hM : sentOf P = Ms) (h0 : Is P x0 l) (hv : l.val = .msgs ms) :
    Each N (switchNet C S sd0 sd1 x0 x1 ctrl ks0 ks1 snd rcv) P fun _ P' =>
      sentOf P' = Ms ++ (otSent 0 snd rcv ms.length ++ otSent 1 snd rcv ms.length) := by
  unfold switchNet
  refine Each.bind (each_ot C S sd0 hne hM h0 hv) fun y0 P1 _ l1 t1 => ?_
  refine each_one GVal.count t1 fun inv P2 _ _ l2 _ _ _ t2 => ?_
  refine Each.bind (each_ot C S sd1 hne t2 ((h0.mono l1).mono l2) hv) fun y1 P3 _ _ t3 => ?_
  exact Each.ret (t3.trans (List.append_assoc ..))

theorem each_perm (sd0 sd1 : SendDraws Nonce) {zero : M} {P : Plain (GVal A M Ct) GKind} {Ms : Sent} {data perm ks0 ks1 snd rcv n : Nat}
    (hne : snd ≠ rcv) (hM : sentOf P = Ms) :
    Each N (permNet C S sd0 sd1 zero data perm ks0 ks1 snd rcv n) P fun _ P' => sentOf P' = Ms ++ permSent snd rcv n := by
  unfold permNet
  refine Each.bind (each_whenPadded hM) fun x P1 _ _ t1 => ?_
  refine Each.bind (each_whenPadded t1) fun p P2 _ _ t2 => ?_
  refine each_one GVal.count t2 fun ctrls P3 _ _ _ _ _ _ t3 => ?_
  rw [schedule_head (padExp_pos _)]
  simp only
  refine each_one GVal.count t3 fun c P4 _ _ _ _ _ _ t4 => ?_
  refine each_call2 GVal.count t4 fun vi vj P5 vs v5 w5 l5 _ f5 o5 _ t5 => ?_
  obtain ⟨l, k, rfl, rfl, hl⟩ := extractK_out f5
  refine Each.bind (each_switch C S sd0 sd1 hne t5 o5 rfl) fun y P6 _ _ t6 => ?_
  refine each_one GVal.count t6 fun cur P7 _ _ _ _ _ _ t7 => ?_
  refine Each.bind (each_local _ _ _ t7) fun z P8 _ _ t8 => ?_
  refine Each.weaken (each_whenPadded t8) fun _ P9 _ _ t9 => ?_
  refine t9.trans ?_
  rw [hl, show (lowIx (2 ^ padExp n) 1).length = 2 ^ padExp n / 2 from pairs_length n]
  rfl

end

section group
variable (C : Curve A) (S : Sym A I64 Ct Key Nonce) (sd0 sd1 : SendDraws Nonce) {N : Nat}

theorem splitK_out {d m : List I64} {a b : GVal A I64 Ct} (h : splitK [.msgs d, .msgs m] = some [a, b]) : b = .msgs m ∧ m.length = d.length := by
  unfold splitK at h
  split at h
  · next d' m' hh =>
    simp only [List.cons.injEq, GVal.msgs.injEq, and_true] at hh
    obtain ⟨rfl, rfl⟩ := hh
    split at h
    · next hl =>
      simp only [Option.some.injEq, List.cons.injEq, and_true] at h
      exact ⟨h.2.symm, hl⟩
    · simp at h
  · next hx => exact (hx d m rfl).elim

theorem agg1K_out {K : Nat} {vs : List (GVal A I64 Ct)} {v : GVal A I64 Ct} (h : agg1K K vs = some v) : v.count = K := by
  unfold agg1K at h
  split at h
  · simp only [Option.some.injEq] at h
    rw [← h]
    simp [GVal.count, segmentSum]
  · simp at h

theorem each_group {P : Plain (GVal A I64 Ct) GKind} {Ms : Sent} {data mask bins ks0 ks1 snd rcv hlp n K : Nat} (hne : snd ≠ rcv) (hsh : snd ≠ hlp)
    (hrh : rcv ≠ hlp) (hM : sentOf P = Ms) {d m : List I64} {b : List Int} {ld lm lb : Loc (GVal A I64 Ct) GKind} (hd : Is P data ld)
    (hm : Is P mask lm) (hb : Is P bins lb) (ed : ld.val = .msgs d) (em : lm.val = .msgs m) (eb : lb.val = .bits b) (tb : lb.ty = .bins) :
    Each N (groupNet C S sd0 sd1 data mask bins ks0 ks1 snd rcv hlp n K) P fun _ P' =>
      sentOf P' = Ms ++ (permSent snd rcv n ++ [(snd, hlp, .share, d.length), (rcv, hlp, .bins, b.length), (hlp, rcv, .partialSum, K)]) := by
  unfold groupNet
  refine each_one GVal.count hM fun p P1 _ _ l1 _ _ _ t1 => ?_
  refine each_call2 GVal.count t1 fun d0 d1 P2 vs v2 w2 l2 a2 f2 _ o2 t2 => ?_
  obtain ⟨r1, rfl, b1⟩ := args_cons a2 (hd.mono l1)
  obtain ⟨r2, rfl, b2⟩ := args_cons b1 (hm.mono l1)
  obtain rfl := args_nil b2
  rw [ed, em] at f2
  obtain ⟨rfl, hl⟩ := splitK_out f2
  refine Each.bind (each_perm C S sd0 sd1 hne t2) fun s0 P3 _ l3 t3 => ?_
  refine each_one GVal.count t3 fun a0 P4 _ _ l4 _ _ _ t4 => ?_
  refine each_move GVal.count hsh t4 ((o2.mono l3).mono l4) fun d1H P5 l5 _ t5 => ?_
  refine each_move GVal.count hrh t5 (((((hb.mono l1).mono l2).mono l3).mono l4).mono l5) fun bH P6 l6 _ t6 => ?_
  refine each_one GVal.count t6 fun a1 P7 _ _ l7 _ f7 o7 t7 => ?_
  refine each_move GVal.count hrh.symm t7 o7 fun a1R P8 l8 _ t8 => ?_
  refine each_last GVal.count t8 fun y P9 _ _ _ _ _ _ t9 => ?_
  show traffic GVal.count P9 = _
  rw [t9]
  have hm' : (GVal.msgs m : GVal A I64 Ct).count = d.length := hl
  have hb' : (GVal.bits b : GVal A I64 Ct).count = b.length := rfl
  simp only [agg1K_out f7, eb, tb, hm', hb', List.append_assoc, List.cons_append, List.nil_append]

end group

theorem run_sent {α : Type} {N : Nat} {c : Prog A M Ct α} {ls : List (Loc (GVal A M Ct) GKind)} {m : Sent}
    (h : Each N c ⟨ls, []⟩ fun _ S' => sentOf S' = [] ++ m) {a : α} {S' : Plain (GVal A M Ct) GKind} (hr : Runs N c ⟨ls, []⟩ a S') : sentOf S' = m :=
  (h (fun e he => by simp at he) a S' hr).2.2

section
variable (C : Curve A) (S : Sym A M Ct Key Nonce) {N : Nat}

/-- **C129, base transfer.**  One common point, and per pair of messages one public key, two points and two ciphertexts; whatever the choices,
the draws and the messages. -/
theorem ot_sent (sd : SendDraws Nonce) {snd rcv i choice ks : Nat} (hne : snd ≠ rcv) (m0 m1 : List M) (rest : List (Loc (GVal A M Ct) GKind)) {y : Nat}
    {P : Plain (GVal A M Ct) GKind} (hr : Runs N (otNet C S sd i 0 1 choice ks snd rcv)
      ⟨given snd .data (.msgs m0) :: given snd .data (.msgs m1) :: rest, []⟩ y P) : sentOf P = otSent i snd rcv m0.length :=
  run_sent (ls := given snd .data (.msgs m0) :: given snd .data (.msgs m1) :: rest)
    (each_ot C S sd (l := given snd .data (.msgs m0)) (m0 := 0) hne rfl rfl rfl) hr

/-- **C129, oblivious permutation.**  Two transfers of half the padded length: only the first layer of the network sends, so the messages do not
grow with its depth, and they depend on nothing but the number of elements. -/
theorem permutation_sent (sd0 sd1 : SendDraws Nonce) {zero : M} {data perm ks0 ks1 snd rcv n : Nat} (hne : snd ≠ rcv)
    (ls : List (Loc (GVal A M Ct) GKind)) {y : Nat} {P : Plain (GVal A M Ct) GKind}
    (hr : Runs N (permNet C S sd0 sd1 zero data perm ks0 ks1 snd rcv n) ⟨ls, []⟩ y P) : sentOf P = permSent snd rcv n :=
  run_sent (each_perm C S sd0 sd1 hne rfl) hr

end

/-- **C129, shuffle-based group-by.**  The permutation, the mask, the bins, and `K` partial sums; whatever the data, the bins and the draws. -/
theorem groupby_sent {Ct Key Nonce : Type} (C : Curve A) (S : Sym A I64 Ct Key Nonce) (sd0 sd1 : SendDraws Nonce) {N snd rcv hlp K : Nat} (hne : snd ≠ rcv)
    (hsh : snd ≠ hlp) (hrh : rcv ≠ hlp) (d m : List I64) (b : List Int) (hb : b.length = d.length) (k0 k1 : Nat → Int) {y : Nat}
    {P : Plain (GVal A I64 Ct) GKind} (hr : Runs N (groupProg C S sd0 sd1 snd rcv hlp d.length K) ⟨inputs snd rcv d m b k0 k1, []⟩ y P) :
    sentOf P = groupSent snd rcv hlp d.length K := by
  have := run_sent (ls := inputs snd rcv d m b k0 k1) (each_group C S sd0 sd1 (data := 0) (mask := 1) (bins := 2) (ks0 := 3) (ks1 := 4)
    (ld := given snd .data (.msgs d)) (lm := given snd .draw (.msgs m)) (lb := given rcv .bins (.bits b)) hne hsh hrh rfl rfl rfl rfl
    rfl rfl rfl rfl) hr
  rw [this, hb]
  rfl

/-- the padded length is less than twice the number of elements -/
theorem padded_lt (n : Nat) (hn : 1 < n) : n ≤ 2 ^ padExp n ∧ 2 ^ padExp n < 2 * n := by
  refine ⟨pad_le n, ?_⟩
  have h := Nat.pow_pred_clog_lt_self (b := 2) (by omega) (show 1 < max n 2 by omega)
  obtain ⟨j, hj⟩ : ∃ j, padExp n = j + 1 := ⟨padExp n - 1, by have := padExp_pos n; omega⟩
  have e : Nat.clog 2 (max n 2) = j + 1 := hj
  rw [e] at h
  rw [hj, pow_succ]
  simp only [Nat.pred_eq_sub_one, Nat.add_sub_cancel] at h
  omega

/-- **C129 (amounts)**  The permutation of `n` elements sends less than `10 n + 2` elements, though its network has `n log² n` switches. -/
theorem permutation_linear (n s r : Nat) (hn : 1 < n) : 5 * n + 2 ≤ total (permSent s r n) ∧ total (permSent s r n) < 10 * n + 2 := by
  have := padded_lt n hn
  have h2 : 2 ∣ 2 ^ padExp n := dvd_pow_self 2 (by have := padExp_pos n; omega)
  simp only [total, permSent, otSent, List.map_append, List.map_cons, List.map_nil, List.sum_append, List.sum_cons, List.sum_nil]
  omega

/-! ## The hypotheses are met -/

/-- two messages out of two pairs: there is a run, and it sends these 11 elements -/
example : ∃ y P, Runs 2 (otNet toyCurve toySym toySend 0 0 1 2 3 0 1)
      ⟨[given 0 .data (.msgs [10, 20]), given 0 .data (.msgs [11, 21]), given 1 .bins (.bits [1, 0]), given 1 .draw (scalars 2 fun _ => 3)], []⟩ y P ∧
    sentOf P = otSent 0 0 1 2 ∧ total (sentOf P) = 11 := by
  have hmem : ∀ e ∈ otBatch (toySend.withK fun _ => 3) [10, 20] [11, 21] [1, 0], (e.choice = 0 ∨ e.choice = 1) ∧ Ordinary toyCurve toySend.r e :=
    fun e he => by
      obtain ⟨i, hi, rfl⟩ := List.getElem_of_mem he
      simp only [otBatch, List.getElem_mapIdx, List.getElem_zip]
      obtain ⟨a1, a2, a3, a4, a5, a6⟩ := toy_draws_ok i
      exact ⟨(by decide : ∀ b ∈ ([1, 0] : List Int), b = 0 ∨ b = 1) _ (List.getElem_mem _), ⟨a1, a2, a3, a4, a5, a6⟩⟩
  have ht := base_ot_total toyCurve toyCurve_ok toySym toySym_ok toySend.r _ (fun e he => (hmem e he).1) fun e he => (hmem e he).2
  obtain ⟨v, hv⟩ := otRun_of (dr := toySend.withK fun _ => 3) ht
  obtain ⟨y, P, h, _⟩ := spec_ot (ok := fun _ _ _ => True) (N := 2) (i := 0) (m0 := 0) (m1 := 1) (choice := 2) (ks := 3) (snd := 0) (rcv := 1) (n := 2)
    (b := .bits [1, 0]) hv rfl rfl rfl rfl (by omega) (by omega) ⟨fun _ _ => trivial, trivial⟩
    (P := ⟨[given 0 .data (.msgs [10, 20]), given 0 .data (.msgs [11, 21]), given 1 .bins (.bits [1, 0]), given 1 .draw (scalars 2 fun _ => 3)], []⟩)
    ⟨_, is_input rfl, by simp, rfl⟩ ⟨_, is_input rfl, by simp, rfl⟩ ⟨_, is_input rfl, by simp, rfl⟩ ⟨_, is_input rfl, by simp, rfl⟩
  have hs := ot_sent toyCurve toySym toySend (by omega) [10, 20] [11, 21] _ h
  exact ⟨y, P, h, hs, by rw [hs]; rfl⟩

/-- a permutation of five elements: two transfers of four pairs, 42 elements in all -/
example : ∃ y P, Runs 2 (permNet toyCurve toySym toySend toySend 0 0 1 2 3 0 1 5)
      ⟨[given 0 .data (.msgs [10, 20, 30, 40, 50]), given 1 .data (.perm [4, 2, 0, 1, 3]), given 1 .draw (scalars (2 ^ padExp 5 / 2) fun _ => 3),
        given 1 .draw (scalars (2 ^ padExp 5 / 2) fun _ => 3)], []⟩ y P ∧
    sentOf P = permSent 0 1 5 := by
  obtain ⟨out, ho⟩ := apply_permutation_total toyCurve toyCurve_ok toySym toySym_ok _ _ toy_draws_ok toy_draws_ok 0 [10, 20, 30, 40, 50] [4, 2, 0, 1, 3]
  obtain ⟨v, w, hvw⟩ := permRun_of ho
  rw [← pairs_length]
  obtain ⟨y, P, h, _⟩ := spec_perm (ok := fun _ _ _ => True) (N := 2) (snd := 0) (rcv := 1) (data := 0) (perm := 1) (ks0 := 2) (ks1 := 3) hvw (by omega)
    (by omega) ⟨fun _ _ => trivial, trivial⟩ ⟨fun _ _ => trivial, trivial⟩ (td := .data) (tp := .data)
    (P := ⟨[given 0 .data (.msgs [10, 20, 30, 40, 50]), given 1 .data (.perm [4, 2, 0, 1, 3]), given 1 .draw (scalars (pairs 5).length fun _ => 3),
        given 1 .draw (scalars (pairs 5).length fun _ => 3)], []⟩)
    (is_input rfl) (is_input rfl) ⟨_, is_input rfl, by simp, rfl⟩ ⟨_, is_input rfl, by simp, rfl⟩
  exact ⟨y, P, h, permutation_sent toyCurve toySym toySend toySend (by omega) _ h⟩

/-- three elements in three bins among five parties -/
example : ∃ y P, Runs 5 (groupProg toyCurve toySym64 toySend toySend 3 1 4 3 3)
      ⟨inputs 3 1 [10, 20, 30] [7, -5, 100] [1, 0, 1] (fun _ => 3) (fun _ => 3), []⟩ y P ∧ sentOf P = groupSent 3 1 4 3 3 := by
  obtain ⟨_, _, _, _, h⟩ := group_run toyCurve toySym64 toySend toySend toyCurve_ok (by intros; rfl) (k0 := fun _ => 3) (k1 := fun _ => 3)
    toy_draws_ok toy_draws_ok (N := 5) (snd := 3) (rcv := 1) (hlp := 4) (K := 3) (by omega) (by omega) (by omega) [10, 20, 30] [7, -5, 100] [1, 0, 1]
    rfl rfl
  obtain ⟨y, P, h, _⟩ := h
  exact ⟨y, P, h, groupby_sent toyCurve toySym64 toySend toySend (by omega) (by omega) (by omega) [10, 20, 30] [7, -5, 100] [1, 0, 1] rfl _ _ h⟩

example : 5 * 1000 + 2 ≤ total (permSent 0 1 1000) ∧ total (permSent 0 1 1000) < 10 * 1000 + 2 := permutation_linear 1000 0 1 (by omega)

end Verif.Mpc.Shuf
