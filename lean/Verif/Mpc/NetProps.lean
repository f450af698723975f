import Verif.Mpc.Net
/-!
# The protocols between the parties compute what the central models compute
-/
namespace Verif.Mpc.Net
open Verif.Kern Verif.Simp

/-- chains of extensions -/
macro "grow" : tactic => `(tactic| (repeat (first | exact Le.refl _ | assumption | (refine @Le.trans _ _ _ ?_ _ ?_ ?_; rotate_left 2; assumption))))
/-- a fact about an earlier program, now -/
macro "now!" h:term:max : term => `(($h).mono (by grow))

variable {A : Type} [AddCommGroup A] [DecidableEq A]
variable {N : Nat} {allowed : Kind → Nat → Nat → Prop}

theorem seqFin_of {ε α : Type} {n : Nat} {f : Fin n → Except ε α} {g : Fin n → α} (h : ∀ i, f i = .ok (g i)) : seqFin f = .ok g := by
  obtain ⟨g', hg⟩ := seqFin_total (f := f) fun i => ⟨_, h i⟩
  have : g' = g := funext fun i => by
    have := seqFin_ok hg i
    rw [h i] at this
    exact (Except.ok.inj this).symm
  rw [hg, this]

/-- a move, with the kind of what is moved -/
theorem move_own {x src dst : Nat} {S : Plain (Val A) Kind} {t : Kind} {v : Val A} (hx : Own S src x t v) (hs : src < N) (hd : dst < N)
    (hok : allowed t src dst) : Spec N (fun l s d => allowed l.ty s d) (move x src dst) S fun y S' => Own S' dst y t v :=
  spec_move hx (by simp) hs hd hok

/-- the three phases of one base transfer are the central one -/
theorem base_phases {C : Curve A} {E : IknpEnv A} {Cpt : Option A} {d : BaseDraw} {k : Bytes32} (h : iknpBaseOne C E Cpt d = .ok k) :
    ∃ pk U c0 c1, keygenOne C Cpt d.s d.kp = .ok pk ∧ encryptOne C E Cpt pk d.r d.k0 d.k1 = .ok (U, c0, c1) ∧
      decryptOne C E d.kp U c0 c1 d.s = .ok k := by
  unfold iknpBaseOne at h
  simp only at h
  cases h1 : ecSub C Cpt (ecMul C (ecGen C) d.kp) with
  | error e => simp [h1] at h
  | ok diff =>
    simp only [h1] at h
    cases h2 : viaBytes (if d.s then diff else ecMul C (ecGen C) d.kp) with
    | error e => simp [h2] at h
    | ok pk0 =>
      simp only [h2] at h
      cases h3 : viaBytes (ecMul C (ecGen C) d.r) with
      | error e => simp [h3] at h
      | ok u =>
        simp only [h3] at h
        cases h4 : ecSub C Cpt pk0 with
        | error e => simp [h4] at h
        | ok pk1 =>
          simp only [h4, Except.ok.injEq] at h
          refine ⟨if d.s then diff else ecMul C (ecGen C) d.kp, ecMul C (ecGen C) d.r, xor32 d.k0 (E.keyOf (ecMul C pk0 d.r)), xor32 d.k1 (E.keyOf (ecMul C pk1 d.r)), ?_, ?_, ?_⟩
          · unfold keygenOne; simp only [h1]
          · unfold encryptOne; simp only [h2, h4]
          · unfold decryptOne; simp only [h3, h]

section
variable (C : Curve A) (E : IknpEnv A) (rC : Int) (ds : Fin iknpK → BaseDraw)

/-- What the sender and the receiver hold after the extension. -/
structure IknpDone (S : Plain (Val A) Kind) (snd rcv n : Nat) (o : Nat × Nat × Nat) (r : IknpOut n) : Prop where
  t : Own S snd o.1 .secret (.rows n r.t)
  q : Own S rcv o.2.1 .secret (.rows n r.q)
  s : Own S snd o.2.2 .secret (.sel r.s)

theorem IknpDone.mono {S S' : Plain (Val A) Kind} {snd rcv n : Nat} {o : Nat × Nat × Nat} {r : IknpOut n} (h : IknpDone S snd rcv n o r)
    (g : Le S S') : IknpDone S' snd rcv n o r := ⟨Is.mono h.t g, Is.mono h.q g, Is.mono h.s g⟩

theorem spec_iknp {snd rcv n choice : Nat} (hs : snd < N) (hr : rcv < N) (hal : ∀ k a b, IknpMsg snd rcv k a b → allowed k a b)
    {c : Choice n} {r : IknpOut n} (h : iknpCore C E rC ds c = .ok r) {S : Plain (Val A) Kind} (hc : Uses rcv S choice (.choice n c)) :
    Spec N (fun l a b => allowed l.ty a b) (iknp C E rC ds choice snd rcv n) S fun o S' => IknpDone S' snd rcv n o r := by
  unfold iknpCore at h
  simp only at h
  cases hk : seqFin (fun i => iknpBaseOne C E (ecMul C (ecGen C) rC) (ds i)) with
  | error e => simp [hk] at h
  | ok ks =>
    simp only [hk, Except.ok.injEq] at h
    subst h
    choose pk U c0 c1 p1 p2 p3 using fun i => base_phases (seqFin_ok hk i)
    have e1 := seqFin_of p1
    have e2 := seqFin_of p2
    have e3 := seqFin_of p3
    unfold iknp
    refine Spec.bind (uses_one .nil (by rfl)) fun s S1 l1 hs1 => ?_
    refine spec_call2 .nil (by rfl) fun k0 k1 S2 l2 hk0 hk1 => ?_
    refine Spec.bind (uses_one .nil (by rfl)) fun cp S3 l3 hcp => ?_
    refine Spec.bind (move_own hcp hr hs (hal _ _ _ .common)) fun cS S4 l4 hcS => ?_
    refine spec_call2 (.cons hcS.uses (.cons (Is.uses (now! hs1)) .nil)) (by simp only [keygenK, e1, okOf]; rfl) fun pk' kp S5 l5 hpk hkp => ?_
    refine Spec.bind (uses_one (.cons hpk.uses (.cons hkp.uses .nil)) (by rfl)) fun pkx S6 l6 hpkx => ?_
    refine Spec.bind (move_own hpkx hs hr (hal _ _ _ .pk)) fun pkR S7 l7 hpkR => ?_
    refine spec_call3 (.cons (Is.uses (now! hcp)) (.cons hpkR.uses (.cons (Is.uses (now! hk0)) (.cons (Is.uses (now! hk1)) .nil))))
      (by simp only [encryptK, e2, okOf]; rfl) fun U' c0' c1' S8 l8 hU hc0 hc1 => ?_
    refine Spec.bind (move_own hU hr hs (hal _ _ _ .wrapped)) fun Us S9 l9 hUs => ?_
    refine Spec.bind (move_own (now! hc0) hr hs (hal _ _ _ .wrapped)) fun c0s S10 l10 hc0s => ?_
    refine Spec.bind (move_own (now! hc1) hr hs (hal _ _ _ .wrapped)) fun c1s S11 l11 hc1s => ?_
    refine Spec.bind (uses_one (.cons (Is.uses (now! hpk)) (.cons (Is.uses (now! hkp)) (.cons (Is.uses (now! hUs)) (.cons (Is.uses (now! hc0s))
      (.cons hc1s.uses (.cons (Is.uses (now! hs1)) .nil)))))) (by simp only [decryptK, e3, okOf]; rfl)) fun kS S12 l12 hkS => ?_
    refine Spec.bind (uses_one (.cons (Is.uses (now! hk0)) (.cons (Is.uses (now! hk1)) (.cons (now! hc) .nil)))
      (by simp only [calcU, dif_pos]; rfl)) fun u S13 l13 hu => ?_
    refine Spec.bind (move_own hu hr hs (hal _ _ _ .correction)) fun uS S14 l14 huS => ?_
    refine Spec.bind (uses_one (.cons (Is.uses (now! hkS)) (.cons huS.uses (.cons (Is.uses (now! hs1)) .nil)))
      (by simp only [calcT, dif_pos]; rfl)) fun t S15 l15 ht => ?_
    refine Spec.bind (uses_one (.cons (Is.uses (now! hk0)) .nil) (by rfl)) fun q S16 l16 hq => ?_
    exact .ret ⟨now! ht, hq, now! hs1⟩

/-- the extended transfer -/
theorem spec_transfer {snd rcv n d m0 m1 choice : Nat} (hs : snd < N) (hr : rcv < N) (hal : ∀ k a b, TransferMsg snd rcv k a b → allowed k a b)
    {v0 v1 out : Fin n → Fin d → Nat} {r : Fin n → Bool} (h : transferExt C E rC ds v0 v1 r = .ok out) {S : Plain (Val A) Kind}
    (hc : Uses rcv S choice (.choice n (.vec r))) (h0 : Uses snd S m0 (.bytes n d v0)) (h1 : Uses snd S m1 (.bytes n d v1)) :
    Spec N (fun l a b => allowed l.ty a b) (transfer C E rC ds m0 m1 choice snd rcv n) S fun y S' => Own S' rcv y .result (.bytes n d out) := by
  unfold transferExt at h
  cases hi : iknpCore C E rC ds (Choice.vec r) with
  | error e => simp [hi] at h
  | ok o =>
    simp only [hi] at h
    by_cases hd : d ≤ 32
    · rw [dif_pos hd] at h
      have h := Except.ok.inj h
      subst h
      unfold transfer
      refine Spec.bind (spec_iknp C E rC ds hs hr (fun k a b g => hal _ _ _ (.base g)) hi hc) fun p S1 l1 hp => ?_
      refine spec_call2 (.cons hp.t.uses (.cons hp.s.uses (.cons (now! h0) (.cons (now! h1) .nil))))
        (by simp only [encK]; rw [dif_pos ⟨trivial, trivial, trivial, hd⟩]) fun c0 c1 S2 l2 hc0 hc1 => ?_
      refine Spec.bind (move_own hc0 hs hr (hal _ _ _ .cipher)) fun c0' S3 l3 hc0' => ?_
      refine Spec.bind (move_own (now! hc1) hs hr (hal _ _ _ .cipher)) fun c1' S4 l4 hc1' => ?_
      refine Spec.weaken (uses_one (.cons (Is.uses (now! hp.q)) (.cons (now! hc) (.cons (Is.uses (now! hc0')) (.cons hc1'.uses .nil))))
        (by simp only [decK]; rw [dif_pos ⟨trivial, trivial, trivial, trivial, hd⟩])) fun y S' _ hy => ?_
      exact hy
    · rw [dif_neg hd] at h
      cases h

variable (mul : Blk → Blk → Blk)

/-- What the parties hold after the VOLE. -/
structure VoleDone (S : Plain (Val A) Kind) (snd rcv : Nat) (o : Nat × Nat × Nat × Nat) (r : VoleOut) : Prop where
  v : Own S snd o.1 .secret (.blks r.v)
  w : Own S rcv o.2.1 .secret (.blks r.w)
  u : Own S snd o.2.2.1 .secret (.blks r.u)
  delta : Own S rcv o.2.2.2 .secret (.blk r.delta)

theorem spec_vole {snd rcv : Nat} (hs : snd < N) (hr : rcv < N) (hal : ∀ k a b, VoleMsg snd rcv k a b → allowed k a b)
    {u : List Blk} {delta : Blk} {r : VoleOut} (h : vole mul C E rC ds u delta = .ok r) (S : Plain (Val A) Kind) :
    Spec N (fun l a b => allowed l.ty a b) (voleNet C E rC ds mul u delta snd rcv u.length) S fun o S' => VoleDone S' snd rcv o r := by
  unfold vole at h
  simp only at h
  cases hi : iknpCore C E rC ds (n := iknpK) (Choice.col fun i => blkBit delta i.val) with
  | error e => simp [hi] at h
  | ok o =>
    simp only [hi, Except.ok.injEq] at h
    subst h
    unfold voleNet
    refine spec_call2 .nil (by rfl) fun d0 b0 S1 l1 hd0 hb0 => ?_
    refine Spec.bind (uses_one (.cons hd0.uses (.cons hb0.uses .nil)) (by rfl)) fun d S2 l2 hd => ?_
    refine Spec.bind (uses_one (.cons (Is.uses (now! hd0)) (.cons (Is.uses (now! hb0)) .nil)) (by rfl)) fun b S3 l3 hb => ?_
    refine Spec.bind (spec_iknp C E rC ds hs hr (fun k a b g => hal _ _ _ (.base g)) hi hb.uses) fun p S4 l4 hp => ?_
    refine Spec.bind (uses_one .nil (by rfl)) fun uS S5 l5 huS => ?_
    refine spec_call2 (.cons (Is.uses (now! hp.t)) (.cons (Is.uses (now! hp.s)) (.cons huS.uses .nil)))
      (by simp only [senderRound]; rw [dif_pos ⟨trivial, trivial⟩]) fun m v S6 l6 hm hv => ?_
    refine Spec.bind (move_own hm hs hr (hal _ _ _ .corr)) fun mR S7 l7 hmR => ?_
    refine Spec.bind (uses_one (.cons (Is.uses (now! hp.q)) (.cons hmR.uses (.cons (Is.uses (now! hb)) .nil)))
      (by simp only [recvRound]; rw [dif_pos ⟨trivial, trivial⟩])) fun w S8 l8 hw => ?_
    refine .ret ⟨now! hv, ?_, now! huS, now! hd⟩
    have e : ∀ f g : Nat → Blk, (∀ j, j < u.length → f j = g j) → (List.range u.length).map f = (List.range u.length).map g :=
      fun f g hfg => List.map_congr_left fun j hj => hfg j (List.mem_range.1 hj)
    have := hw
    rw [e _ (fun j => xorLoop fun i => mmXor (E.aes (blkOfBytes (packByte (o.q i))) u.length j) (if blkBit delta i.val then
      mmXor (mmXor (E.aes (blkOfBytes (packByte (o.t i))) u.length j) (E.aes (blkOfBytes fun b => packByte (o.t i) b ^^^ packByte o.s b) u.length j))
        (mul (u.getD j (0, 0)) (xpow i.val)) else (0, 0)))] at this
    · exact this
    · intro j hj
      refine congrArg xorLoop (funext fun i => ?_)
      have hg : ∀ f : Nat → Blk, ((List.range u.length).map f).getD j (0, 0) = f j := fun f => by
        rw [List.getD_eq_getElem?_getD, List.getElem?_map, List.getElem?_eq_getElem (by simpa using hj)]
        simp
      rw [hg]
      rfl

theorem spec_silent {snd rcv n : Nat} (hs : snd < N) (hr : rcv < N) (hal : ∀ k a b, SilentMsg snd rcv k a b → allowed k a b)
    {uBase : List Blk} {delta : Blk} {seed : Bytes32} {r : VoleOut} (h : silentVole mul C E rC ds uBase delta seed n = some r)
    (S : Plain (Val A) Kind) :
    Spec N (fun l a b => allowed l.ty a b) (silentNet C E rC ds mul uBase delta seed snd rcv n uBase.length) S
      fun o S' => VoleDone S' snd rcv o r := by
  unfold silentVole at h
  cases hv : vole mul C E rC ds uBase delta with
  | error e => simp [hv] at h
  | ok b =>
    simp only [hv] at h
    cases e1 : expandSilent E seed n b.v with
    | none => simp [e1] at h
    | some v =>
      cases e2 : expandSilent E seed n b.w with
      | none => simp [e1, e2] at h
      | some w =>
        cases e3 : expandSilent E seed n b.u with
        | none => simp [e1, e2, e3] at h
        | some u =>
          simp only [e1, e2, e3, Option.some.injEq] at h
          subst h
          unfold silentNet
          refine Spec.bind (spec_vole C E rC ds mul hs hr (fun k a b g => hal _ _ _ (.base g)) hv S) fun o S1 l1 ho => ?_
          refine Spec.bind (uses_one .nil (by rfl)) fun sd S2 l2 hsd => ?_
          refine Spec.bind (move_own hsd hs hr (hal _ _ _ .seed)) fun sdR S3 l3 hsdR => ?_
          refine Spec.bind (uses_one (.cons (Is.uses (now! ho.v)) (.cons (Is.uses (now! hsd)) .nil))
            (by simp only [expandK, e1]; rfl)) fun v' S4 l4 hv' => ?_
          refine Spec.bind (uses_one (.cons (Is.uses (now! ho.w)) (.cons (Is.uses (now! hsdR)) .nil))
            (by simp only [expandK, e2]; rfl)) fun w' S5 l5 hw' => ?_
          refine Spec.bind (uses_one (.cons (Is.uses (now! ho.u)) (.cons (Is.uses (now! hsd)) .nil))
            (by simp only [expandK, e3]; rfl)) fun u' S6 l6 hu' => ?_
          exact .ret ⟨now! hv', now! hw', hu', now! ho.delta⟩

variable (solve : Solver) (wordsOf : Blk → Nat → Nat × Nat)

theorem spec_psi {sender receiver n xs ys : Nat} (hs : sender < N) (hr : receiver < N)
    (hal : ∀ k a b, PsiMsg sender receiver k a b → allowed k a b) {uBase : List Blk} {delta : Blk} {seed : Bytes32} {okvs : Blk}
    {vx vy : List Nat} {mask : List Bool}
    (h : psiIntersect mul solve C E rC ds uBase delta seed (wordsOf okvs) sender receiver n vx vy = some mask) {S : Plain (Val A) Kind}
    (hx : Uses sender S xs (.items vx)) (hy : Uses receiver S ys (.items vy)) :
    Spec N (fun l a b => allowed l.ty a b) (psiNet C E rC ds mul solve wordsOf uBase delta seed okvs sender receiver n xs ys) S
      fun y S' => Own S' receiver y .result (.mask mask) := by
  unfold psiIntersect at h
  by_cases h1 : sender = receiver
  · rw [if_pos h1] at h; cases h
  rw [if_neg h1] at h
  by_cases h2 : n = 0
  · rw [if_pos h2] at h; cases h
  rw [if_neg h2] at h
  by_cases h3 : vx.length = n
  swap
  · rw [if_pos h3] at h; cases h
  rw [if_neg (not_not_intro h3)] at h
  unfold rr22With at h
  cases ho : silentVole mul C E rC ds uBase delta seed (tableRr22 n) with
  | none => simp [ho] at h
  | some o =>
    simp only [ho] at h
    cases hp : solve (wordsOf okvs) vy (vy.map (hashItem E)) (tableRr22 n) with
    | error e => simp [hp] at h
    | ok p =>
      simp only [hp, Option.some.injEq] at h
      subst h
      unfold psiNet
      rw [if_neg h1, if_neg h2]
      refine Spec.bind (spec_silent C E rC ds mul hr hs (fun k a b g => hal _ _ _ (.base g)) ho S) fun q S1 l1 hq => ?_
      refine Spec.bind (uses_one .nil (by rfl)) fun sd S2 l2 hsd => ?_
      refine Spec.bind (move_own hsd hr hs (hal _ _ _ .seed)) fun sdS S3 l3 hsdS => ?_
      refine Spec.bind (uses_one (.cons (now! hy) (.cons (Is.uses (now! hq.u)) (.cons (Is.uses (now! hsd)) .nil)))
        (by simp only [recvOps, hp, okOf]; rfl)) fun qq S4 l4 hqq => ?_
      refine Spec.bind (move_own hqq hr hs (hal _ _ _ .masked)) fun qS S5 l5 hqS => ?_
      refine Spec.bind (uses_one (.cons (now! hx) (.cons hqS.uses (.cons (Is.uses (now! hq.w)) (.cons (Is.uses (now! hq.delta))
        (.cons (Is.uses (now! hsdS)) .nil))))) (by simp only [senderOps]; rw [if_pos h3])) fun tg S6 l6 htg => ?_
      refine Spec.bind (uses_one (.cons htg.uses .nil) (by rfl)) fun hh S7 l7 hhh => ?_
      refine Spec.bind (move_own hhh hs hr (hal _ _ _ .tag)) fun hR S8 l8 hhR => ?_
      exact uses_one (.cons (now! hy) (.cons (Is.uses (now! hq.v)) (.cons (Is.uses (now! hsd)) (.cons hhR.uses .nil)))) (by rfl)

theorem spec_unbalanced {server client serverN clientN xs ys : Nat} (hs : server < N) (hc : client < N)
    (hal : ∀ k a b, UnbalancedMsg server client k a b → allowed k a b) {s : Blk} {vx vy : List Nat} {mask : List Bool}
    (h : psiUnbalanced solve E s (wordsOf s) server client serverN clientN vx vy = some mask) {S : Plain (Val A) Kind}
    (hx : Uses server S xs (.items vx)) (hy : Uses client S ys (.items vy)) :
    Spec N (fun l a b => allowed l.ty a b) (unbalancedNet E solve wordsOf s server client serverN clientN xs ys) S
      fun y S' => Own S' client y .result (.mask mask) := by
  unfold psiUnbalanced at h
  by_cases h1 : server = client
  · rw [if_pos h1] at h; cases h
  rw [if_neg h1] at h
  by_cases h2 : clientN = 0 ∨ serverN = 0
  · rw [if_pos h2] at h; cases h
  rw [if_neg h2] at h
  cases hp : solve (wordsOf s) (vx.map (derivedKey E s)) (vx.map (derivedVal E s)) (tableBase serverN) with
  | error e => simp [hp] at h
  | ok t =>
    simp only [hp, Option.some.injEq] at h
    subst h
    unfold unbalancedNet
    rw [if_neg h1, if_neg h2]
    refine Spec.bind (uses_one .nil (by rfl)) fun sd S1 l1 hsd => ?_
    refine spec_call2 (.cons (now! hx) (.cons hsd.uses .nil)) (by rfl) fun k v S2 l2 hk hv => ?_
    refine Spec.bind (uses_one (.cons hk.uses (.cons hv.uses (.cons (Is.uses (now! hsd)) .nil)))
      (by simp only [solveK, hp, okOf]; rfl)) fun tt S3 l3 ht => ?_
    refine Spec.bind (move_own ht hs hc (hal _ _ _ .table)) fun tC S4 l4 htC => ?_
    refine Spec.bind (move_own (now! hsd) hs hc (hal _ _ _ .seed)) fun sdC S5 l5 hsdC => ?_
    refine spec_call2 (.cons (now! hy) (.cons hsdC.uses .nil)) (by rfl) fun k' e S6 l6 hk' he => ?_
    exact uses_one (.cons hk'.uses (.cons (Is.uses (now! htC)) (.cons he.uses (.cons (Is.uses (now! hsdC)) .nil)))) (by rfl)

theorem spec_oprf {snd rcv n inputs : Nat} (hs : snd < N) (hr : rcv < N) (hal : ∀ k a b, IknpMsg snd rcv k a b → allowed k a b)
    {xs : Fin n → Item} {key : OprfOut n} (h : evalOprf C E rC ds xs = .ok key) {S : Plain (Val A) Kind}
    (hx : Uses rcv S inputs (.inputs n xs)) :
    Spec N (fun l a b => allowed l.ty a b) (oprfNet C E rC ds inputs snd rcv n) S fun o S' =>
      Own S' snd o.1 .secret (.rows n key.t) ∧ Own S' snd o.2.1 .secret (.sel key.s) ∧ Own S' rcv o.2.2 .result (.digests n key.out) := by
  unfold evalOprf at h
  cases hi : iknpCore C E rC ds (Choice.mat fun j i => itemBit (xs j) i) with
  | error e => simp [hi] at h
  | ok o =>
    simp only [hi, Except.ok.injEq] at h
    subst h
    unfold oprfNet
    refine Spec.bind (uses_one (.cons hx .nil) (by rfl)) fun c S1 l1 hc => ?_
    refine Spec.bind (spec_iknp C E rC ds hs hr hal hi hc.uses) fun p S2 l2 hp => ?_
    refine Spec.bind (uses_one (.cons hp.q.uses (.cons (Is.uses (now! hc)) .nil)) (by rfl)) fun out S3 l3 hout => ?_
    refine spec_call2 (.cons (Is.uses (now! hp.t)) (.cons (Is.uses (now! hp.s)) .nil)) (by rfl) fun t s S4 l4 ht hs' => ?_
    exact .ret ⟨ht, hs', now! hout⟩

end
end Verif.Mpc.Net
