import Verif.Mpc.NetShuffle
import Verif.Mpc.NetProps
/-!
# The programs between the parties compute what the central models compute
-/
namespace Verif.Mpc.Shuf
open Verif.Simp

variable {A : Type} [AddCommGroup A] [DecidableEq A]
variable {M Ct Key Nonce : Type}

/-! ## Element-wise maps -/

theorem mapE_of_map {α β γ ε : Type} {f : β → Except ε γ} {g : α → β} : ∀ {l : List α} {out : List γ},
    mapE (fun a => f (g a)) l = .ok out → mapE f (l.map g) = .ok out
  | [], _, h => h
  | a :: l, out, h => by
    simp only [mapE, List.map_cons] at h ⊢
    cases ha : f (g a) with
    | error e => simp [ha] at h
    | ok b =>
      cases hl : mapE (fun a => f (g a)) l with
      | error e => simp [ha, hl] at h
      | ok bs =>
        rw [mapE_of_map hl]
        simpa [ha, hl] using h

theorem mapE_congr {α β ε ε' : Type} {f : α → Except ε β} {g : α → Except ε' β} : ∀ {l : List α} {out : List β},
    (∀ a ∈ l, ∀ b, f a = .ok b → g a = .ok b) → mapE f l = .ok out → mapE g l = .ok out
  | [], _, _, h => by simpa [mapE] using h
  | a :: l, out, hfg, h => by
    simp only [mapE] at h ⊢
    cases ha : f a with
    | error e => simp [ha] at h
    | ok b =>
      cases hl : mapE f l with
      | error e => simp [ha, hl] at h
      | ok bs =>
        rw [hfg a (by simp) b ha, mapE_congr (fun x hx => hfg x (by simp [hx])) hl]
        simpa [ha, hl] using h

theorem liftEc_ok {α : Type} {x : Except EcErr α} {a : α} (h : liftEc x = .ok a) : x = .ok a := by
  cases x <;> simp_all [liftEc]

/-! ## One transfer -/

/-- What one transfer sends: the common point, the public keys, the wrapped messages. -/
structure OtVals (A Ct : Type) where
  cpt : Option A
  pks : List (Option A)
  msgs : List (OtMsg A Ct)

/-- The phases of one transfer, on one machine. -/
structure OtRun (C : Curve A) (S : Sym A M Ct Key Nonce) (dr : OtDraws Nonce) (m0 m1 : List M) (bits : List Int)
    (v : OtVals A Ct) (out : List M) : Prop where
  cpt : v.cpt = ecMul C (ecGen C) dr.r
  pks : mapE (fun e : OtElem M Nonce => liftEc (receiverKeygen C v.cpt e.choice e.k)) (otBatch dr m0 m1 bits) = .ok v.pks
  msgs : mapE (encryptOne C S v.cpt) ((otBatch dr m0 m1 bits).zip v.pks) = .ok v.msgs
  out : mapE (decryptOne C S) ((otBatch dr m0 m1 bits).zip v.msgs) = .ok out

theorem otRun_of {C : Curve A} {S : Sym A M Ct Key Nonce} {dr : OtDraws Nonce} {m0 m1 : List M} {bits : List Int} {out : List M}
    (h : transfer C S dr.r (otBatch dr m0 m1 bits) = .ok out) : ∃ v, OtRun C S dr m0 m1 bits v out := by
  unfold transfer at h
  simp only at h
  cases h1 : mapE (fun e : OtElem M Nonce => liftEc (receiverKeygen C (ecMul C (ecGen C) dr.r) e.choice e.k)) (otBatch dr m0 m1 bits) with
  | error e => simp [h1] at h
  | ok pks =>
    simp only [h1] at h
    cases h2 : mapE (encryptOne C S (ecMul C (ecGen C) dr.r)) ((otBatch dr m0 m1 bits).zip pks) with
    | error e => simp [h2] at h
    | ok msgs =>
      simp only [h2] at h
      exact ⟨⟨_, pks, msgs⟩, rfl, h1, h2, h⟩

/-- what is sent is determined by the inputs and the draws -/
theorem OtRun.det {C : Curve A} {S : Sym A M Ct Key Nonce} {dr : OtDraws Nonce} {m0 m1 : List M} {bits : List Int} {v v' : OtVals A Ct}
    {out out' : List M} (h : OtRun C S dr m0 m1 bits v out) (h' : OtRun C S dr m0 m1 bits v' out') : v = v' := by
  obtain ⟨c, p, m⟩ := v
  obtain ⟨c', p', m'⟩ := v'
  have hc : c = c' := by have := h.cpt; have := h'.cpt; simp_all
  subst hc
  have hp : p = p' := by have := h.pks; have := h'.pks; simp_all
  subst hp
  have hm : m = m' := by have := h.msgs; have := h'.msgs; simp_all
  subst hm
  rfl

/-- The values a transfer sends, by name. -/
def otVal (v : OtVals A Ct) : OtPart → GVal A M Ct
  | .common => .point v.cpt
  | .pk => .points v.pks
  | .u0 => .points (v.msgs.map OtMsg.u0)
  | .c0 => .cts (v.msgs.map OtMsg.c0)
  | .u1 => .points (v.msgs.map OtMsg.u1)
  | .c1 => .cts (v.msgs.map OtMsg.c1)

variable {N : Nat} {ok : Loc (GVal A M Ct) GKind → Nat → Nat → Prop}

/-- `ok` accepts the messages of transfer `i`. -/
structure OtOk (ok : Loc (GVal A M Ct) GKind → Nat → Nat → Prop) (i snd rcv : Nat) (v : OtVals A Ct) : Prop where
  fwd : ∀ p, p ≠ .pk → ok ⟨.ot i p, [snd], otVal v p⟩ snd rcv
  back : ok ⟨.ot i .pk, [rcv], otVal v .pk⟩ rcv snd

section
variable {C : Curve A} {S : Sym A M Ct Key Nonce} {sd : SendDraws Nonce} {k : Nat → Int}

theorem batch_keys {dr : OtDraws Nonce} {m0 m1 : List M} {bits : List Int} {n : Nat} (h0 : m0.length = n) (h1 : m1.length = n)
    (hb : bits.length = n) :
    (otBatch dr m0 m1 bits).map (fun e => (e.choice, e.k)) = bits.zip ((List.range n).map dr.k) := by
  refine List.ext_getElem (by simp [otBatch, h0, h1, hb]) fun i g1 g2 => ?_
  simp [otBatch]

theorem keygen_call {dr : OtDraws Nonce} {m0 m1 : List M} {bits : List Int} {n : Nat} {v : OtVals A Ct} {out : List M}
    (h : OtRun C S dr m0 m1 bits v out) (h0 : m0.length = n) (h1 : m1.length = n) (hb : bits.length = n) {b : GVal A M Ct}
    (hbo : bitsOf b = some bits) :
    keygenK C [.point v.cpt, b, .scalars ((List.range n).map dr.k)] = some [.points v.pks, .scalars ((List.range n).map dr.k)] := by
  have e : mapE (fun e : Int × Int => receiverKeygen C v.cpt e.1 e.2) (bits.zip ((List.range n).map dr.k)) = .ok v.pks := by
    rw [← batch_keys h0 h1 hb]
    exact mapE_of_map (f := fun e : Int × Int => receiverKeygen C v.cpt e.1 e.2) (mapE_congr (fun a _ b hb => liftEc_ok hb) h.pks)
  simp only [keygenK, hbo, Option.bind_some]
  rw [if_pos (by simp [hb]), e]
  rfl

theorem zip_map_left' {α β γ : Type} (f : α → β) : ∀ (l : List α) (m : List γ), (l.map f).zip m = (l.zip m).map fun e => (f e.1, e.2)
  | [], _ => rfl
  | _ :: _, [] => rfl
  | a :: l, c :: m => by simp [zip_map_left' f l m]

theorem send_batch {m0 m1 : List M} {bits : List Int} {n : Nat} (h0 : m0.length = n) (h1 : m1.length = n) (hb : bits.length = n) :
    sendBatch sd m0 m1 = (otBatch (sd.withK k) m0 m1 bits).map fun e => { e with choice := 0, k := 0 } := by
  refine List.ext_getElem (by simp [sendBatch, otBatch, h0, h1, hb]) fun i g1 g2 => ?_
  simp [sendBatch, otBatch, SendDraws.withK]

theorem run_lengths {dr : OtDraws Nonce} {m0 m1 : List M} {bits : List Int} {n : Nat} {v : OtVals A Ct} {out : List M}
    (h : OtRun C S dr m0 m1 bits v out) (h0 : m0.length = n) (h1 : m1.length = n) (hb : bits.length = n) :
    v.pks.length = n ∧ v.msgs.length = n ∧ out.length = n := by
  have hl : (otBatch dr m0 m1 bits).length = n := by simp [otBatch, h0, h1, hb]
  have a := (mapE_get h.pks).1
  have b := (mapE_get h.msgs).1
  have c := (mapE_get h.out).1
  simp only [List.length_zip, hl] at a b c
  omega

theorem encrypt_call {m0 m1 : List M} {bits : List Int} {n : Nat} {v : OtVals A Ct} {out : List M}
    (h : OtRun C S (sd.withK k) m0 m1 bits v out) (h0 : m0.length = n) (h1 : m1.length = n) (hb : bits.length = n) :
    encryptK C S sd [.point v.cpt, .points v.pks, .msgs m0, .msgs m1] =
      some [otVal v .u0, otVal v .c0, otVal v .u1, otVal v .c1] := by
  have hl := (run_lengths h h0 h1 hb).1
  have e : mapE (encryptOne C S v.cpt) ((sendBatch sd m0 m1).zip v.pks) = .ok v.msgs := by
    rw [send_batch (k := k) h0 h1 hb, zip_map_left']
    exact mapE_of_map (f := encryptOne C S v.cpt) (g := fun e : OtElem M Nonce × Option A => ({ e.1 with choice := 0, k := 0 }, e.2))
      (mapE_congr (f := encryptOne C S v.cpt) (fun a _ b hb => hb) h.msgs)
  simp only [encryptK]
  rw [if_pos ⟨by omega, by omega⟩, e]
  rfl

theorem decrypt_call {dr : OtDraws Nonce} {m0 m1 : List M} {bits : List Int} {n : Nat} {v : OtVals A Ct} {out : List M}
    (h : OtRun C S dr m0 m1 bits v out) (h0 : m0.length = n) (h1 : m1.length = n) (hb : bits.length = n) {b : GVal A M Ct}
    (hbo : bitsOf b = some bits) :
    decryptK C S [otVal v .u0, otVal v .c0, otVal v .u1, otVal v .c1, .points v.pks, .scalars ((List.range n).map dr.k), b] = some (.msgs out) := by
  have hl := (run_lengths h h0 h1 hb).2.1
  have e : mapE (decOne C S) ((bits.zip ((List.range n).map dr.k)).zip
      (((v.msgs.map OtMsg.u0).zip (v.msgs.map OtMsg.c0)).zip ((v.msgs.map OtMsg.u1).zip (v.msgs.map OtMsg.c1)))) = .ok out := by
    have hz : (bits.zip ((List.range n).map dr.k)).zip
        (((v.msgs.map OtMsg.u0).zip (v.msgs.map OtMsg.c0)).zip ((v.msgs.map OtMsg.u1).zip (v.msgs.map OtMsg.c1)))
        = ((otBatch dr m0 m1 bits).zip v.msgs).map fun e => ((e.1.choice, e.1.k), (e.2.u0, e.2.c0), (e.2.u1, e.2.c1)) := by
      refine List.ext_getElem (by simp [otBatch, h0, h1, hb]) fun i g1 g2 => ?_
      simp [otBatch]
    rw [hz]
    refine mapE_of_map (f := decOne C S) (mapE_congr (fun a _ b hb => ?_) h.out)
    exact hb
  simp only [decryptK, otVal, hbo, Option.bind_some]
  rw [if_pos (by simp [hb, hl]), e]
  rfl

theorem spec_ot {i m0 m1 choice ks snd rcv n : Nat} {v0 v1 out : List M} {bits : List Int} {b : GVal A M Ct} {v : OtVals A Ct}
    (h : OtRun C S (sd.withK k) v0 v1 bits v out) (l0 : v0.length = n) (l1 : v1.length = n) (hb : bits.length = n)
    (hbo : bitsOf b = some bits) (hs : snd < N) (hr : rcv < N) (hok : OtOk ok i snd rcv v) {P : Plain (GVal A M Ct) GKind}
    (u0 : Uses snd P m0 (.msgs v0)) (u1 : Uses snd P m1 (.msgs v1)) (uc : Uses rcv P choice b)
    (uk : Uses rcv P ks (.scalars ((List.range n).map k))) :
    Spec N ok (otNet C S sd i m0 m1 choice ks snd rcv) P fun y P' => Own P' rcv y .loc (.msgs out) := by
  unfold otNet
  refine Spec.bind (uses_one (v := .point v.cpt) .nil (by rw [h.cpt]; rfl)) fun c P1 g1 hc => ?_
  refine Spec.bind (spec_move hc (by simp) hs hr (hok.fwd .common (by simp))) fun cR P2 g2 hcR => ?_
  refine spec_call2 (.cons hcR.uses (.cons (now! uc) (.cons (now! uk) .nil))) (keygen_call h l0 l1 hb hbo) fun pk kp P3 g3 hpk hkp => ?_
  refine Spec.bind (uses_one (.cons hpk.uses (.cons hkp.uses .nil)) (by rfl)) fun pk' P4 g4 hpk' => ?_
  refine Spec.bind (spec_move hpk' (by simp) hr hs hok.back) fun pkS P5 g5 hpkS => ?_
  refine spec_call4 (.cons (Is.uses (now! hc)) (.cons hpkS.uses (.cons (now! u0) (.cons (now! u1) .nil))))
    (encrypt_call h l0 l1 hb) fun U0 C0 U1 C1 P6 g6 hU0 hC0 hU1 hC1 => ?_
  refine Spec.bind (spec_move hU0 (by simp) hs hr (hok.fwd .u0 (by simp))) fun a P7 g7 ha => ?_
  refine Spec.bind (spec_move (now! hC0) (by simp) hs hr (hok.fwd .c0 (by simp))) fun b' P8 g8 hb' => ?_
  refine Spec.bind (spec_move (now! hU1) (by simp) hs hr (hok.fwd .u1 (by simp))) fun c' P9 g9 hc' => ?_
  refine Spec.bind (spec_move (now! hC1) (by simp) hs hr (hok.fwd .c1 (by simp))) fun d P10 g10 hd => ?_
  exact uses_one (.cons (Is.uses (now! ha)) (.cons (Is.uses (now! hb')) (.cons (Is.uses (now! hc')) (.cons hd.uses
    (.cons (Is.uses (now! hpk)) (.cons (Is.uses (now! hkp)) (.cons (now! uc) .nil))))))) (decrypt_call h l0 l1 hb hbo)

end

/-! ## Permutation -/

section
variable {C : Curve A} {S : Sym A M Ct Key Nonce} {sd0 sd1 : SendDraws Nonce} {k0 k1 : Nat → Int}

theorem spec_switch {x0 x1 ctrl ks0 ks1 snd rcv n : Nat} {a0 a1 y0 y1 : List M} {c : List Bool} {v w : OtVals A Ct}
    (h0 : OtRun C S (sd0.withK k0) a0 a1 (c.map bitInt) v y0) (h1 : OtRun C S (sd1.withK k1) a0 a1 (c.map fun b => 1 - bitInt b) w y1)
    (l0 : a0.length = n) (l1 : a1.length = n) (lc : c.length = n) (hs : snd < N) (hr : rcv < N)
    (ok0 : OtOk ok 0 snd rcv v) (ok1 : OtOk ok 1 snd rcv w) {P : Plain (GVal A M Ct) GKind}
    (u0 : Uses snd P x0 (.msgs a0)) (u1 : Uses snd P x1 (.msgs a1)) (uc : Uses rcv P ctrl (.ctrls c))
    (uk0 : Uses rcv P ks0 (.scalars ((List.range n).map k0))) (uk1 : Uses rcv P ks1 (.scalars ((List.range n).map k1))) :
    Spec N ok (switchNet C S sd0 sd1 x0 x1 ctrl ks0 ks1 snd rcv) P
      fun y P' => Own P' rcv y.1 .loc (.msgs y0) ∧ Own P' rcv y.2 .loc (.msgs y1) := by
  unfold switchNet
  refine Spec.bind (spec_ot h0 l0 l1 (by simpa using lc) rfl hs hr ok0 u0 u1 uc uk0) fun y P1 g1 hy => ?_
  refine Spec.bind (uses_one (.cons (now! uc) .nil) (by rfl)) fun inv P2 g2 hinv => ?_
  refine Spec.bind (spec_ot h1 l0 l1 (by simpa using lc) rfl hs hr ok1 (now! u0) (now! u1) hinv.uses (now! uk1)) fun z P3 g3 hz => ?_
  exact .ret ⟨now! hy, hz⟩

end

theorem scatter_congr {α : Type} {n : Nat} : ∀ (ps : List (Nat × α)) (f g : Nat → α), (∀ i < n, f i = g i) → ∀ i < n, scatter f ps i = scatter g ps i
  | [], _, _, h => h
  | p :: ps, f, g, h => by
    intro i hi
    simp only [scatter, List.foldl_cons]
    exact scatter_congr ps _ _ (fun j hj => by simp [h j hj]) i hi

theorem localStep_congr {α : Type} {k j : Nat} (hj : j < k) (c : List Bool) {f g : Nat → α} (h : ∀ i < 2 ^ k, f i = g i) :
    ∀ i < 2 ^ k, localStep (2 ^ k) (2 ^ j) c f i = localStep (2 ^ k) (2 ^ j) c g i := by
  have hm : ∀ p ∈ (lowIx (2 ^ k) (2 ^ j)).zip c, f p.1 = g p.1 ∧ f (p.1 ^^^ 2 ^ j) = g (p.1 ^^^ 2 ^ j) := fun p hp => by
    have := (mem_lowIx _ _ _).1 (List.of_mem_zip hp).1
    exact ⟨h _ this.1, h _ (xor_lt k j _ hj this.1)⟩
  have e1 : newLow (2 ^ k) (2 ^ j) c f = newLow (2 ^ k) (2 ^ j) c g := by
    unfold newLow
    exact List.map_congr_left fun p hp => by rw [(hm p hp).1, (hm p hp).2]
  have e2 : newHigh (2 ^ k) (2 ^ j) c f = newHigh (2 ^ k) (2 ^ j) c g := by
    unfold newHigh
    exact List.map_congr_left fun p hp => by rw [(hm p hp).1, (hm p hp).2]
  unfold localStep
  rw [e1, e2]
  exact scatter_congr _ _ _ (scatter_congr _ _ _ h)

theorem range_getD {α : Type} (n : Nat) (f : Nat → α) (z : α) (i : Nat) (hi : i < n) : ((List.range n).map f).getD i z = f i := by
  rw [List.getD_eq_getElem?_getD, List.getElem?_map, List.getElem?_range hi]
  rfl

theorem spec_localSteps {k ctrls rcv : Nat} {zero : M} {c : List Bool} : ∀ (rest : List (Nat × Nat)), Valid k rest → ∀ (off x : Nat) (f : Nat → M)
    {P : Plain (GVal A M Ct) GKind}, Uses rcv P ctrls (.ctrls c) → Own P rcv x .loc (.msgs ((List.range (2 ^ k)).map f)) →
    Spec N ok (localSteps zero (2 ^ k) ctrls rcv rest off x) P
      fun y P' => Own P' rcv y .loc (.msgs ((List.range (2 ^ k)).map (runLocal (2 ^ k) c rest off f)))
  | [], _, off, x, f, P, _, hx => .ret hx
  | (s, d) :: rest, hv, off, x, f, P, hc, hx => by
    obtain ⟨j, hj, hs, hd⟩ := hv (s, d) (by simp)
    simp only at hj hs hd
    subst hd
    unfold localSteps
    refine Spec.bind (uses_one (.cons hc .nil) (by rfl)) fun cs P1 g1 hcs => ?_
    refine Spec.bind (uses_one (.cons (Is.uses (now! hx)) (.cons hcs.uses .nil)) (by rfl)) fun y P2 g2 hy => ?_
    have e : (List.range (2 ^ k)).map (localStep (2 ^ k) (2 ^ j) (stepSlice c off (lowIx (2 ^ k) (2 ^ j)).length)
        fun i => ((List.range (2 ^ k)).map f).getD i zero) =
        (List.range (2 ^ k)).map (localStep (2 ^ k) (2 ^ j) (stepSlice c off (lowIx (2 ^ k) (2 ^ j)).length) f) :=
      List.map_congr_left fun i hi => localStep_congr (by omega) _ (fun i hi => range_getD _ _ _ _ hi) i (List.mem_range.1 hi)
    rw [e] at hy
    exact spec_localSteps rest (fun e he => hv e (by simp [he])) _ _ _ (now! hc) hy

section
variable {C : Curve A} {S : Sym A M Ct Key Nonce} {sd0 sd1 : SendDraws Nonce} {k0 k1 : Nat → Int}

/-- The control bits the receiver computes for the padded permutation. -/
def ctrlsOf (n : Nat) (perm : List Nat) : List Bool :=
  genControls (2 ^ padExp n) (schedule (padExp n)) (destOf (2 ^ padExp n) fun i =>
    (perm ++ List.range' n (2 ^ padExp n - n)).getD i 0)

/-- Number of pairs in the first step. -/
def pairs (n : Nat) : List Nat := lowIx (2 ^ padExp n) 1

/-- The two transfers of the permutation, on one machine. -/
structure PermRun (C : Curve A) (S : Sym A M Ct Key Nonce) (dr0 dr1 : OtDraws Nonce) (zero : M) (data : List M) (perm : List Nat)
    (v w : OtVals A Ct) (out : List M) : Prop where
  run : ∃ yi yj, OtRun C S dr0 ((pairs data.length).map fun i => (data ++ List.replicate (2 ^ padExp data.length - data.length) zero).getD i zero)
      ((pairs data.length).map fun i => (data ++ List.replicate (2 ^ padExp data.length - data.length) zero).getD (i ^^^ 1) zero)
      ((stepSlice (ctrlsOf data.length perm) 0 (pairs data.length).length).map bitInt) v yi ∧
    OtRun C S dr1 ((pairs data.length).map fun i => (data ++ List.replicate (2 ^ padExp data.length - data.length) zero).getD i zero)
      ((pairs data.length).map fun i => (data ++ List.replicate (2 ^ padExp data.length - data.length) zero).getD (i ^^^ 1) zero)
      ((stepSlice (ctrlsOf data.length perm) 0 (pairs data.length).length).map fun b => 1 - bitInt b) w yj ∧
    out = ((List.range (2 ^ padExp data.length)).map (runLocal (2 ^ padExp data.length) (ctrlsOf data.length perm) (schedule (padExp data.length)).tail
      (pairs data.length).length (scatter (scatter (fun _ => zero) ((pairs data.length).zip yi)) (((pairs data.length).map (· ^^^ 1)).zip yj)))).take
        data.length

theorem padExp_pos (n : Nat) : 0 < padExp n := by
  unfold padExp
  exact Nat.clog_pos (by omega) (by omega)

theorem schedule_head {k : Nat} (hk : 0 < k) : schedule k = (0, 1) :: (schedule k).tail := by
  obtain ⟨j, rfl⟩ : ∃ j, k = j + 1 := ⟨k - 1, by omega⟩
  have : schedule (j + 1) = (0, 1) :: ((List.range j).map Nat.succ).flatMap fun s => (List.range (s + 1)).map fun t => (s, 2 ^ (s - t)) := by
    unfold schedule
    rw [List.range_succ_eq_map, List.flatMap_cons]
    rfl
  rw [this]
  rfl

theorem permRun_of {dr0 dr1 : OtDraws Nonce} {zero : M} {data out : List M} {perm : List Nat}
    (h : applyPermutation C S dr0 dr1 zero data perm = .ok out) : ∃ v w, PermRun C S dr0 dr1 zero data perm v w out := by
  unfold applyPermutation at h
  simp only at h
  rw [schedule_head (padExp_pos _)] at h
  simp only [runNetwork] at h
  rw [← schedule_head (padExp_pos _)] at h
  cases hsw : secureSwitch C S dr0 dr1 ((pairs data.length).map fun i => (data ++ List.replicate (2 ^ padExp data.length - data.length) zero).getD i zero)
      ((pairs data.length).map fun i => (data ++ List.replicate (2 ^ padExp data.length - data.length) zero).getD (i ^^^ 1) zero)
      (stepSlice (ctrlsOf data.length perm) 0 (pairs data.length).length) with
  | error e =>
    unfold pairs ctrlsOf at hsw
    rw [hsw] at h
    cases h
  | ok y =>
    obtain ⟨yi, yj⟩ := y
    have hsw' := hsw
    unfold pairs ctrlsOf at hsw'
    rw [hsw'] at h
    simp only [Except.ok.injEq] at h
    unfold secureSwitch at hsw
    cases t0 : transfer C S dr0.r (otBatch dr0 ((pairs data.length).map fun i => (data ++ List.replicate (2 ^ padExp data.length - data.length) zero).getD i zero)
      ((pairs data.length).map fun i => (data ++ List.replicate (2 ^ padExp data.length - data.length) zero).getD (i ^^^ 1) zero)
      ((stepSlice (ctrlsOf data.length perm) 0 (pairs data.length).length).map bitInt)) with
    | error e => rw [t0] at hsw; cases hsw
    | ok z0 =>
      rw [t0] at hsw
      cases t1 : transfer C S dr1.r (otBatch dr1 ((pairs data.length).map fun i => (data ++ List.replicate (2 ^ padExp data.length - data.length) zero).getD i zero)
        ((pairs data.length).map fun i => (data ++ List.replicate (2 ^ padExp data.length - data.length) zero).getD (i ^^^ 1) zero)
        ((stepSlice (ctrlsOf data.length perm) 0 (pairs data.length).length).map fun b => 1 - bitInt b)) with
      | error e => rw [t1] at hsw; cases hsw
      | ok z1 =>
        rw [t1] at hsw
        simp only [Except.ok.injEq, Prod.mk.injEq] at hsw
        obtain ⟨rfl, rfl⟩ := hsw
        obtain ⟨v, hv⟩ := otRun_of t0
        obtain ⟨w, hw⟩ := otRun_of t1
        exact ⟨v, w, ⟨_, _, hv, hw, h.symm⟩⟩

theorem spec_whenPadded {c : Prop} [Decidable c] {r : Nat} {f : List (GVal A M Ct) → Option (GVal A M Ct)} {x : Nat} {t : GKind}
    {a b : GVal A M Ct} {P : Plain (GVal A M Ct) GKind} (hx : Own P r x t a) (hf : c → f [a] = some b) (hn : ¬ c → a = b) :
    Spec N ok (whenPadded c r f x) P fun y P' => Uses r P' y b := by
  unfold whenPadded
  by_cases hc : c
  · rw [if_pos hc]
    exact Spec.weaken (uses_one (.cons hx.uses .nil) (hf hc)) fun y P' _ hy => hy.uses
  · rw [if_neg hc, ← hn hc]
    exact .ret hx.uses

theorem slice_length {n : Nat} {perm : List Nat} : (stepSlice (ctrlsOf n perm) 0 (pairs n).length).length = (pairs n).length := by
  unfold ctrlsOf
  rw [schedule_head (padExp_pos n)]
  simp only [genControls, stepSlice, List.drop_zero, List.length_take, List.length_append]
  have : (stepCtrl (2 ^ padExp n) 0 1 (destOf (2 ^ padExp n) fun i => (perm ++ List.range' n (2 ^ padExp n - n)).getD i 0)).length = (pairs n).length := by
    simp [stepCtrl, pairs]
  omega

theorem spec_perm {data perm ks0 ks1 snd rcv : Nat} {zero : M} {d out : List M} {p : List Nat} {v w : OtVals A Ct} {td tp : GKind}
    (h : PermRun C S (sd0.withK k0) (sd1.withK k1) zero d p v w out) (hs : snd < N) (hr : rcv < N)
    (ok0 : OtOk ok 0 snd rcv v) (ok1 : OtOk ok 1 snd rcv w) {P : Plain (GVal A M Ct) GKind}
    (hd : Own P snd data td (.msgs d)) (hp : Own P rcv perm tp (.perm p))
    (uk0 : Uses rcv P ks0 (.scalars ((List.range (pairs d.length).length).map k0)))
    (uk1 : Uses rcv P ks1 (.scalars ((List.range (pairs d.length).length).map k1))) :
    Spec N ok (permNet C S sd0 sd1 zero data perm ks0 ks1 snd rcv d.length) P fun y P' => Uses rcv P' y (.msgs out) := by
  obtain ⟨yi, yj, r0, r1, rfl⟩ := h.run
  have hle := pad_le d.length
  unfold permNet
  refine Spec.bind (spec_whenPadded (b := .msgs (d ++ List.replicate (2 ^ padExp d.length - d.length) zero)) hd (fun _ => rfl) fun hc => ?_)
    fun x P1 g1 hx => ?_
  · have : 2 ^ padExp d.length - d.length = 0 := by omega
    rw [this]; simp
  refine Spec.bind (spec_whenPadded (b := .perm (p ++ List.range' d.length (2 ^ padExp d.length - d.length))) (hp.mono g1) (fun _ => rfl) fun hc => ?_)
    fun q P2 g2 hq => ?_
  · have : 2 ^ padExp d.length - d.length = 0 := by omega
    rw [this]; simp
  refine Spec.bind (uses_one (v := .ctrls (ctrlsOf d.length p)) (.cons hq .nil) (by rfl)) fun ct P3 g3 hct => ?_
  have hsch := schedule_head (padExp_pos d.length)
  rw [hsch]
  simp only
  refine Spec.bind (uses_one (v := .ctrls (stepSlice (ctrlsOf d.length p) 0 (pairs d.length).length)) (.cons hct.uses .nil) (by rfl))
    fun c P4 g4 hc => ?_
  refine spec_call2 (.cons (now! hx) .nil) (by rfl) fun vi vj P5 g5 hvi hvj => ?_
  refine Spec.bind (spec_switch r0 r1 (by simp) (by simp) slice_length hs hr ok0 ok1 hvi.uses hvj.uses (Is.uses (now! hc))
    (now! uk0) (now! uk1)) fun y P6 g6 hy => ?_
  refine Spec.bind (uses_one (.cons hy.1.uses (.cons hy.2.uses .nil)) (by rfl)) fun cur P7 g7 hcur => ?_
  have hv := schedule_valid (padExp d.length)
  refine Spec.bind (spec_localSteps (schedule (padExp d.length)).tail (fun e he => hv e (List.mem_of_mem_tail he)) _ _ _ (Is.uses (now! hct)) hcur)
    fun z P8 g8 hz => ?_
  refine spec_whenPadded hz (fun _ => rfl) fun hc => ?_
  rw [List.take_of_length_le (by simp; omega)]
  rfl

end

/-! ## Group-by -/

/-- What each kind of message of the group-by carries. -/
def sentVal (v w : OtVals A Ct) (mask : List I64) (bins : List Int) (K : Nat) : GKind → GVal A I64 Ct
  | .ot 0 p => otVal v p
  | .ot _ p => otVal w p
  | .share => .msgs mask
  | .bins => .bits bins
  | .partialSum => .msgs (segmentSum mask bins K)
  | _ => .point none

section
variable {C : Curve A} {S : Sym A I64 Ct Key Nonce} {sd0 sd1 : SendDraws Nonce} {k0 k1 : Nat → Int}

theorem spec_group {data mask bins ks0 ks1 snd rcv hlp K : Nat} {d m s0 : List I64} {b : List Int} {v w : OtVals A Ct} {td tm tb : GKind}
    {ok : Loc (GVal A I64 Ct) GKind → Nat → Nat → Prop}
    (h : PermRun C S (sd0.withK k0) (sd1.withK k1) 0 (List.zipWith (fun a m => a - m) d m) (argsort b) v w s0)
    (hm : m.length = d.length) (hs : snd < N) (hr : rcv < N) (hh : hlp < N)
    (ok0 : OtOk ok 0 snd rcv v) (ok1 : OtOk ok 1 snd rcv w) (okM : ok ⟨.share, [snd], .msgs m⟩ snd hlp) (okB : ok ⟨tb, [rcv], .bits b⟩ rcv hlp)
    (okS : ok ⟨.partialSum, [hlp], .msgs (segmentSum m b K)⟩ hlp rcv) {P : Plain (GVal A I64 Ct) GKind}
    (hd : Own P snd data td (.msgs d)) (hmk : Own P snd mask tm (.msgs m)) (hb : Own P rcv bins tb (.bits b))
    (uk0 : Uses rcv P ks0 (.scalars ((List.range (pairs d.length).length).map k0)))
    (uk1 : Uses rcv P ks1 (.scalars ((List.range (pairs d.length).length).map k1))) :
    Spec N ok (groupNet C S sd0 sd1 data mask bins ks0 ks1 snd rcv hlp d.length K) P fun y P' => Own P' rcv y .loc
      (.msgs (List.zipWith (· + ·) (segmentSum s0 ((argsort b).map fun p => b.getD p 0) K) (segmentSum m b K))) := by
  have hl : (List.zipWith (fun a m => a - m) d m).length = d.length := by simp [hm]
  unfold groupNet
  refine Spec.bind (uses_one (.cons hb.uses .nil) (by rfl)) fun p P1 g1 hp => ?_
  refine spec_call2 (v1 := .msgs (List.zipWith (fun a m => a - m) d m)) (v2 := .msgs m) (.cons (Is.uses (now! hd)) (.cons (Is.uses (now! hmk)) .nil))
    (by simp only [splitK]; rw [if_pos hm]) fun d0 d1 P2 g2 hd0 hd1 => ?_
  have hsp := spec_perm (N := N) (ok := ok) (data := d0) (perm := p) (ks0 := ks0) (ks1 := ks1) h hs hr ok0 ok1 hd0 (hp.mono g2)
    (by rw [hl]; exact now! uk0) (by rw [hl]; exact now! uk1)
  rw [hl] at hsp
  refine Spec.bind hsp fun s P3 g3 hs0 => ?_
  refine Spec.bind (uses_one (.cons hs0 (.cons (Is.uses (now! hb)) (.cons (Is.uses (now! hp)) .nil))) (by rfl)) fun a0 P4 g4 ha0 => ?_
  refine Spec.bind (spec_move (now! hd1) (by simp) hs hh okM) fun dH P5 g5 hdH => ?_
  refine Spec.bind (spec_move (now! hb) (by simp) hr hh okB) fun bH P6 g6 hbH => ?_
  refine Spec.bind (uses_one (.cons (Is.uses (now! hdH)) (.cons hbH.uses .nil)) (by rfl)) fun a1 P7 g7 ha1 => ?_
  refine Spec.bind (spec_move ha1 (by simp) hh hr okS) fun aR P8 g8 haR => ?_
  exact uses_one (.cons (Is.uses (now! ha0)) (.cons haR.uses .nil)) (by rfl)

end
end Verif.Mpc.Shuf
