import Verif.Mpc.NetProps
import Verif.Mpc.LdpcRef
import Verif.Simp.Traffic
import Verif.Kern.OkvsOptProps
/-!
# How much the two-party protocols send (property C129)

Every message of every run, with its size in bytes: the contents of the array (elements times element size), without the encoding of the
transport.
-/
namespace Verif.Mpc.Net
open Verif.Kern Verif.Simp

variable {A : Type} [AddCommGroup A] [DecidableEq A]

/-- a list of 128-bit blocks: `(N, 2)` u64 -/
def blksSize (l : List Blk) : Nat := 16 * l.length

/-- **Specification** Bytes of the contents of a value.  Bits are stored as `uint8`, one per byte (extension.py:31-69); a point is 33 bytes
compressed when sent as a point (crypto_impl.py:91-98) and 65 bytes as an array (crypto_impl.py:241-255). -/
def Val.size : Val A → Nat
  | .sel _ => iknpK
  | .seeds _ => iknpK * 32
  | .point p => if p.isSome then 33 else 0
  | .points _ => iknpK * 65
  | .scalars _ => iknpK * 32
  | .rows n _ => n * iknpK
  | .cols n _ => iknpK * n
  | .choice n _ => n
  | .bytes n d _ => n * d
  | .blk _ => 16
  | .blks l => blksSize l
  | .grid f => ((List.finRange iknpK).map fun i => blksSize (f i)).sum
  | .seed _ => 32
  | .items l => 8 * l.length
  | .tags l => (l.map List.length).sum
  | .mask l => l.length
  | .inputs n _ => n * 16
  | .digests n _ => n * 32

/-- a list of messages: from, to, kind, bytes -/
abbrev Msgs := List (Nat × Nat × Kind × Nat)

/-- **Specification** the messages of the extension for `n` transfers; `c` is the size of the common point -/
def iknpMsgs (c s r n : Nat) : Msgs :=
  [(r, s, .common, c), (s, r, .pk, 128 * 65), (r, s, .wrapped, 128 * 65), (r, s, .wrapped, 128 * 32), (r, s, .wrapped, 128 * 32),
   (r, s, .correction, 128 * n)]

/-- **Specification** the messages of the VOLE for `n` correlations -/
def voleMsgs (c s r n : Nat) : Msgs := iknpMsgs c s r 128 ++ [(s, r, .voleCorr, 128 * (16 * n))]

/-- **Specification** the messages of the silent VOLE with `baseK` base correlations -/
def silentMsgs (c s r baseK : Nat) : Msgs := voleMsgs c s r baseK ++ [(s, r, .expandSeed, 32)]

/-- **Specification** the messages of the intersection of `n` sender items, with tables of `m` cells -/
def psiMsgs (c s r baseK m n : Nat) : Msgs :=
  silentMsgs c r s baseK ++ [(r, s, .okvsSeed, 16), (r, s, .masked, 16 * m), (s, r, .tag, 16 * n)]

section
variable (C : Curve A) (E : IknpEnv A) (rC : Int) (ds : Fin iknpK → BaseDraw) {N : Nat}

/-- size of the common point -/
def commonSize : Nat := (Val.point (ecMul C (ecGen C) rC)).size

/-- **Specification** traffic of a run -/
abbrev sends (S : Plain (Val A) Kind) : Msgs := traffic Val.size S

omit [AddCommGroup A] [DecidableEq A] in
theorem args_cons {S : Plain (Val A) Kind} {x : Nat} {xs : List Nat} {vs : List (Val A)} {l : Loc (Val A) Kind} (h : Args S (x :: xs) vs)
    (hx : Is S x l) : ∃ vs', vs = l.val :: vs' ∧ Args S xs vs' := by
  obtain ⟨ls, h1, rfl⟩ := h
  cases h1 with
  | cons a b =>
    have := Option.some.inj (a.symm.trans hx)
    subst this
    exact ⟨_, rfl, _, b, rfl⟩

omit [AddCommGroup A] [DecidableEq A] in
theorem args_nil {S : Plain (Val A) Kind} {vs : List (Val A)} (h : Args S [] vs) : vs = [] := by
  obtain ⟨ls, h1, rfl⟩ := h
  cases h1
  rfl

theorem keygenK_out {vs : List (Val A)} {a b : Val A} (h : keygenK C ds vs = some [a, b]) : ∃ p, a = .points p := by
  unfold keygenK at h
  split at h
  · simp only [Option.map_eq_some_iff, List.cons.injEq] at h
    obtain ⟨p, _, rfl, _⟩ := h
    exact ⟨p, rfl⟩
  · simp at h

theorem encryptK_out {vs : List (Val A)} {a b c : Val A} (h : encryptK C E ds vs = some [a, b, c]) :
    (∃ p, a = .points p) ∧ (∃ k, b = .seeds k) ∧ ∃ k, c = .seeds k := by
  unfold encryptK at h
  split at h
  · simp only [Option.map_eq_some_iff, List.cons.injEq] at h
    obtain ⟨p, _, rfl, rfl, rfl, _⟩ := h
    exact ⟨⟨_, rfl⟩, ⟨_, rfl⟩, _, rfl⟩
  · simp at h

omit [AddCommGroup A] [DecidableEq A] in
theorem calcU_out {n : Nat} {vs : List (Val A)} {a : Val A} (h : calcU E n vs = some a) : ∃ f, a = .cols n f := by
  unfold calcU at h
  split at h
  · split at h
    · simp only [Option.some.injEq] at h
      exact ⟨_, h.symm⟩
    · simp at h
  · simp at h

omit [AddCommGroup A] [DecidableEq A] in
theorem fstK_out {S : Plain (Val A) Kind} {x y : Nat} {vs : List (Val A)} {v : Val A} {l : Loc (Val A) Kind} (h : Args S [x, y] vs)
    (hf : fstK vs = some v) (hx : Is S x l) : v = l.val := by
  obtain ⟨vs', rfl, h'⟩ := args_cons h hx
  obtain ⟨ls, h1, rfl⟩ := h'
  cases h1 with
  | cons a b =>
    cases b
    exact (Option.some.inj hf).symm

theorem each_iknp {S : Plain (Val A) Kind} {M : Msgs} {choice snd rcv n : Nat} (hne : snd ≠ rcv) (hM : sends S = M) :
    Each N (iknp C E rC ds choice snd rcv n) S fun _ S' => sends S' = M ++ iknpMsgs (commonSize C rC) snd rcv n := by
  unfold iknp
  refine each_one Val.size hM fun s S1 _ _ _ _ _ _ m1 => ?_
  refine each_call2 Val.size m1 fun k0 k1 S2 _ _ _ _ _ _ _ _ m2 => ?_
  refine each_one Val.size m2 fun c S3 _ v3 _ _ f3 o3 m3 => ?_
  simp only [Option.some.injEq] at f3
  subst f3
  refine each_move Val.size hne.symm m3 o3 fun cS S4 _ _ m4 => ?_
  refine each_call2 Val.size m4 fun pk kp S5 vs v5 w5 _ a5 f5 o5 _ m5 => ?_
  obtain ⟨p, rfl⟩ := keygenK_out C ds f5
  refine each_one Val.size m5 fun pk' S6 vs6 v6 _ a6 f6 o6 m6 => ?_
  obtain rfl := fstK_out a6 f6 o5
  refine each_move Val.size hne m6 o6 fun pkR S7 _ _ m7 => ?_
  refine each_call3 Val.size m7 fun U c0 c1 S8 _ _ _ _ _ _ f8 oU o0 o1 m8 => ?_
  obtain ⟨⟨q, rfl⟩, ⟨e0, rfl⟩, ⟨e1, rfl⟩⟩ := encryptK_out C E ds f8
  refine each_move Val.size hne.symm m8 oU fun U' S9 l9 _ m9 => ?_
  refine each_move Val.size hne.symm m9 (o0.mono l9) fun c0' S10 l10 _ m10 => ?_
  refine each_move Val.size hne.symm m10 ((o1.mono l9).mono l10) fun c1' S11 _ _ m11 => ?_
  refine each_one Val.size m11 fun kS S12 _ _ _ _ _ _ m12 => ?_
  refine each_one Val.size m12 fun u S13 _ v13 _ _ f13 o13 m13 => ?_
  obtain ⟨g, rfl⟩ := calcU_out E f13
  refine each_move Val.size hne.symm m13 o13 fun uS S14 _ _ m14 => ?_
  refine each_one Val.size m14 fun t S15 _ _ _ _ _ _ m15 => ?_
  refine each_one Val.size m15 fun q S16 _ _ _ _ _ _ m16 => ?_
  refine Each.ret ?_
  show traffic Val.size S16 = _
  rw [m16]
  simp only [List.append_assoc, List.cons_append, List.nil_append]
  rfl

/-! ## The other protocols -/

omit [AddCommGroup A] [DecidableEq A] in
theorem encK_out {vs : List (Val A)} {a b : Val A} (h : encK E vs = some [a, b]) :
    ∃ n d n' d' m0 m1 f g, vs[2]? = some (.bytes n d m0) ∧ vs[3]? = some (.bytes n' d' m1) ∧ a = .bytes n d f ∧ b = .bytes n d g := by
  unfold encK at h
  split at h
  · split at h
    · next n t s n0 d0 m0 n1 d1 m1 hh =>
      simp only [Option.some.injEq, List.cons.injEq, and_true] at h
      obtain ⟨rfl, h2, h3, h4⟩ := hh
      exact ⟨_, _, _, _, _, _, _, _, rfl, rfl, h.1.symm, h.2.symm⟩
    · simp at h
  · simp at h

theorem each_transfer {S : Plain (Val A) Kind} {M : Msgs} {x0 x1 choice snd rcv n d : Nat} {l0 : Loc (Val A) Kind} {m0 : Fin n → Fin d → Nat}
    (hne : snd ≠ rcv) (hM : sends S = M) (h0 : Is S x0 l0) (hv : l0.val = .bytes n d m0) :
    Each N (transfer C E rC ds x0 x1 choice snd rcv n) S fun _ S' =>
      sends S' = M ++ (iknpMsgs (commonSize C rC) snd rcv n ++ [(snd, rcv, .cipher, n * d), (snd, rcv, .cipher, n * d)]) := by
  unfold transfer
  refine Each.bind (each_iknp C E rC ds hne hM) fun o S1 _ le1 m1 => ?_
  refine each_call2 Val.size m1 fun c0 c1 S2 vs v0 v1 le2 a2 f2 o0 o1 m2 => ?_
  have hb : ∃ f g, v0 = .bytes n d f ∧ v1 = .bytes n d g := by
    obtain ⟨k, e, k', e', y0, y1, f, g, h2, _, rfl, rfl⟩ := encK_out E f2
    obtain ⟨ls, g1, rfl⟩ := a2
    cases g1 with
    | cons _ g1 => cases g1 with
      | cons _ g1 => cases g1 with
        | cons g _ =>
          have := Option.some.inj (g.symm.trans (h0.mono le1))
          subst this
          simp only [List.map_cons, List.getElem?_cons_succ, List.getElem?_cons_zero, Option.some.injEq, hv] at h2
          injection h2 with e1 e2 e3
          subst e1; subst e2
          exact ⟨_, _, rfl, rfl⟩
  obtain ⟨f, g, rfl, rfl⟩ := hb
  refine each_move Val.size hne m2 o0 fun c0' S3 le3 _ m3 => ?_
  refine each_move Val.size hne m3 (o1.mono le3) fun c1' S4 _ _ m4 => ?_
  refine each_last Val.size m4 fun y S5 _ _ _ _ _ _ m5 => ?_
  show traffic Val.size S5 = _
  rw [m5]
  simp only [List.append_assoc, List.cons_append, List.nil_append]
  rfl

variable (mul : Blk → Blk → Blk)

omit [AddCommGroup A] [DecidableEq A] in
theorem senderRound_out {n : Nat} {vs : List (Val A)} {a b : Val A} (h : senderRound E mul n vs = some [a, b]) :
    a.size = 128 * (16 * n) ∧ ∃ l, b = .blks l ∧ l.length = n := by
  unfold senderRound at h
  split at h
  · split at h
    · simp only [Option.some.injEq, List.cons.injEq, and_true] at h
      refine ⟨?_, _, h.2.symm, by simp⟩
      rw [← h.1]
      simp only [Val.size, blksSize, List.length_map, List.length_range, List.map_const', List.sum_replicate, List.length_finRange, smul_eq_mul]
    · simp at h
  · simp at h

/-- what the VOLE's sender keeps, besides what was sent -/
theorem each_vole {S : Plain (Val A) Kind} {M : Msgs} {u : List Blk} {delta : Blk} {snd rcv n : Nat} (hne : snd ≠ rcv) (hM : sends S = M) :
    Each N (voleNet C E rC ds mul u delta snd rcv n) S fun o S' =>
      sends S' = M ++ voleMsgs (commonSize C rC) snd rcv n ∧ Is S' o.2.2.1 ⟨.secret, [snd], .blks u⟩ := by
  unfold voleNet
  refine each_call2 Val.size hM fun d0 b0 S1 _ _ _ _ _ _ _ _ m1 => ?_
  refine each_one Val.size m1 fun d S2 _ _ _ _ _ _ m2 => ?_
  refine each_one Val.size m2 fun b S3 _ _ _ _ _ _ m3 => ?_
  refine Each.bind (each_iknp C E rC ds hne m3) fun o S4 _ _ m4 => ?_
  refine each_one Val.size m4 fun uS S5 _ v5 _ _ f5 o5 m5 => ?_
  simp only [Option.some.injEq] at f5
  subst f5
  refine each_call2 Val.size m5 fun m v S6 _ _ _ le6 _ f6 o6 _ m6 => ?_
  refine each_move Val.size hne m6 o6 fun mR S7 le7 _ m7 => ?_
  refine each_one Val.size m7 fun w S8 _ _ le8 _ _ _ m8 => ?_
  refine Each.ret ⟨?_, ((o5.mono le6).mono le7).mono le8⟩
  show traffic Val.size S8 = _
  rw [m8, (senderRound_out E mul f6).1, List.append_assoc]
  rfl

theorem expandK_out {n : Nat} {vs : List (Val A)} {a : Val A} (h : expandK E n vs = some a) : ∃ l, a = .blks l ∧ l.length = n := by
  unfold expandK at h
  split at h
  · next b s =>
    simp only [Option.map_eq_some_iff] at h
    obtain ⟨l, h1, rfl⟩ := h
    refine ⟨l, rfl, ?_⟩
    rcases Nat.eq_zero_or_pos n with rfl | hn
    · simp [expandSilent, chunkSize] at h1
    · rw [expandSilent_eq E s n hn, Option.some.injEq] at h1
      rw [← h1]
      simp
  · simp at h

theorem each_silent {S : Plain (Val A) Kind} {M : Msgs} {u : List Blk} {delta : Blk} {seed : Bytes32} {snd rcv n baseK : Nat}
    (hne : snd ≠ rcv) (hM : sends S = M) :
    Each N (silentNet C E rC ds mul u delta seed snd rcv n baseK) S fun o S' =>
      sends S' = M ++ silentMsgs (commonSize C rC) snd rcv baseK ∧ ∃ l, l.length = n ∧ Is S' o.2.2.1 ⟨.secret, [snd], .blks l⟩ := by
  unfold silentNet
  refine Each.bind (each_vole C E rC ds mul hne hM) fun o S1 _ _ h1 => ?_
  obtain ⟨m1, _⟩ := h1
  refine each_one Val.size m1 fun sd S2 _ v2 _ _ f2 o2 m2 => ?_
  simp only [Option.some.injEq] at f2
  subst f2
  refine each_move Val.size hne m2 o2 fun sdR S3 _ _ m3 => ?_
  refine each_one Val.size m3 fun v S4 _ _ _ _ _ _ m4 => ?_
  refine each_one Val.size m4 fun w S5 _ _ _ _ _ _ m5 => ?_
  refine each_one Val.size m5 fun y S6 _ _ _ _ f6 o6 m6 => ?_
  obtain ⟨l, rfl, hl⟩ := expandK_out E f6
  refine Each.ret ⟨?_, l, hl, o6⟩
  show traffic Val.size S6 = _
  rw [m6, List.append_assoc]
  rfl

variable (solve : Solver) (wordsOf : Blk → Nat → Nat × Nat)

/-- **Specification** A solver gives a table of the size asked for. -/
def Sized (solve : Solver) : Prop := ∀ words keys values m t, solve words keys values m = .ok t → t.length = m

theorem solve_sized : Sized okvsSolve := by
  intro words keys values m t h
  unfold okvsSolve at h
  split at h
  · cases h
  · simp only at h
    split at h
    · cases h
    · rw [backSub_length h, List.length_replicate]

theorem solve_native_sized : Sized okvsSolveNative := by
  intro words keys values m t h
  unfold okvsSolveNative at h
  split at h
  · cases h; simp
  · exact solve_sized _ _ _ _ _ h

omit [AddCommGroup A] [DecidableEq A] in
theorem okOf_some {ε α : Type} {r : Except ε α} {a : α} (h : okOf r = some a) : r = .ok a := by
  cases r with
  | ok b => simp only [okOf, Option.some.injEq] at h; rw [h]
  | error e => simp [okOf] at h

omit [AddCommGroup A] [DecidableEq A] in
theorem recvOps_out (hz : Sized solve) {m : Nat} {vs : List (Val A)} {v : Val A} {l : List Blk} (hv : vs[1]? = some (.blks l)) (hl : l.length = m)
    (h : recvOps E solve wordsOf m vs = some v) : ∃ r, v = .blks r ∧ r.length = m := by
  unfold recvOps at h
  split at h
  · simp only [Option.map_eq_some_iff] at h
    obtain ⟨p, g, rfl⟩ := h
    simp only [List.getElem?_cons_succ, List.getElem?_cons_zero, Option.some.injEq, Val.blks.injEq] at hv
    subst hv
    refine ⟨_, rfl, ?_⟩
    rw [List.length_zipWith, hl, hz _ _ _ _ _ (okOf_some g), Nat.min_self]
  · simp at h

omit [AddCommGroup A] [DecidableEq A] in
theorem solveK_out (hz : Sized solve) {m : Nat} {vs : List (Val A)} {v : Val A}
    (h : solveK solve wordsOf m vs = some v) : ∃ r, v = .blks r ∧ r.length = m := by
  unfold solveK at h
  split at h
  · simp only [Option.map_eq_some_iff] at h
    obtain ⟨p, g, rfl⟩ := h
    exact ⟨_, rfl, hz _ _ _ _ _ (okOf_some g)⟩
  · simp at h

theorem each_psi (hz : Sized solve) {S : Plain (Val A) Kind} {M : Msgs} {u : List Blk} {delta : Blk} {seed : Bytes32} {okvs : Blk}
    {sender receiver n xs ys : Nat} (hM : sends S = M) :
    Each N (psiNet C E rC ds mul solve wordsOf u delta seed okvs sender receiver n xs ys) S fun _ S' =>
      sends S' = M ++ psiMsgs (commonSize C rC) sender receiver u.length (tableRr22 n) n := by
  unfold psiNet
  split
  · exact Each.fail
  next hne =>
  split
  · exact Each.fail
  refine Each.bind (each_silent C E rC ds mul (Ne.symm hne) hM) fun o S1 _ _ h1 => ?_
  obtain ⟨m1, l, hl, ou⟩ := h1
  refine each_one Val.size m1 fun sd S2 _ v2 le2 _ f2 o2 m2 => ?_
  simp only [Option.some.injEq] at f2
  subst f2
  refine each_move Val.size (Ne.symm hne) m2 o2 fun sdS S3 le3 _ m3 => ?_
  refine each_one Val.size m3 fun q S4 vs4 v4 _ a4 f4 o4 m4 => ?_
  have h1 : vs4[1]? = some (.blks l) := by
    obtain ⟨ls, g2, rfl⟩ := a4
    cases g2 with
    | cons _ g2 => cases g2 with
      | cons g _ =>
        have := Option.some.inj (g.symm.trans ((ou.mono le2).mono le3))
        simp [this]
  obtain ⟨r, rfl, hr⟩ := recvOps_out E solve wordsOf hz h1 hl f4
  refine each_move Val.size (Ne.symm hne) m4 o4 fun qS S5 _ _ m5 => ?_
  refine each_one Val.size m5 fun tg S6 _ v6 _ _ f6 o6 m6 => ?_
  have ht : ∃ r, v6 = .blks r ∧ r.length = n := by
    unfold senderOps at f6
    split at f6
    · split at f6
      · next hx =>
        simp only [Option.some.injEq] at f6
        refine ⟨_, f6.symm, ?_⟩
        simp [senderTags, okvsDecode, hx]
      · simp at f6
    · simp at f6
  obtain ⟨tl, rfl, htl⟩ := ht
  refine each_one Val.size m6 fun h S7 vs7 v7 _ a7 f7 o7 m7 => ?_
  have hh : v7 = .tags (tl.map (tagHash E)) := by
    obtain ⟨vs', rfl, a8⟩ := args_cons a7 o6
    obtain rfl := args_nil a8
    simpa [hashTrunc] using f7.symm
  subst hh
  refine each_move Val.size hne m7 o7 fun hR S8 _ _ m8 => ?_
  refine each_last Val.size m8 fun y S9 _ _ _ _ _ _ m9 => ?_
  show traffic Val.size S9 = _
  rw [m9]
  have hs : (Val.tags (tl.map (tagHash E)) : Val A).size = 16 * n := by
    simp only [Val.size, List.map_map]
    rw [show (List.length ∘ tagHash E) = fun _ => 16 from funext fun t => by simp [tagHash]]
    simp [htl, Nat.mul_comm]
  have hb : (Val.blks r : Val A).size = 16 * tableRr22 n := by rw [← hr]; rfl
  have ho : (Val.blk okvs : Val A).size = 16 := rfl
  simp only [hs, hb, ho, psiMsgs, List.append_assoc, List.cons_append, List.nil_append]

/-- **Specification** the messages of the unbalanced intersection, with a table of `m` cells -/
def unbalancedMsgs (server client m : Nat) : Msgs := [(server, client, .table, 16 * m), (server, client, .okvsSeed, 16)]

theorem each_unbalanced (hz : Sized solve) {S : Plain (Val A) Kind} {M : Msgs} {s : Blk} {server client serverN clientN xs ys : Nat}
    (hM : sends S = M) :
    Each N (unbalancedNet E solve wordsOf s server client serverN clientN xs ys) S fun _ S' =>
      sends S' = M ++ unbalancedMsgs server client (tableBase serverN) := by
  unfold unbalancedNet
  split
  · exact Each.fail
  next hne =>
  split
  · exact Each.fail
  refine each_one Val.size hM fun sd S1 _ v1 _ _ f1 o1 m1 => ?_
  simp only [Option.some.injEq] at f1
  subst f1
  refine each_call2 Val.size m1 fun k v S2 _ _ _ le2 _ _ _ _ m2 => ?_
  refine each_one Val.size m2 fun t S3 _ v3 le3 _ f3 o3 m3 => ?_
  obtain ⟨r, rfl, hr⟩ := solveK_out solve wordsOf hz f3
  refine each_move Val.size hne m3 o3 fun tC S4 le4 _ m4 => ?_
  refine each_move Val.size hne m4 (((o1.mono le2).mono le3).mono le4) fun sdC S5 _ _ m5 => ?_
  refine each_call2 Val.size m5 fun k' e S6 _ _ _ _ _ _ _ _ m6 => ?_
  refine each_last Val.size m6 fun y S7 _ _ _ _ _ _ m7 => ?_
  show traffic Val.size S7 = _
  rw [m7]
  simp only [Val.size, blksSize, hr, List.append_assoc, List.cons_append, List.nil_append, unbalancedMsgs]

end
end Verif.Mpc.Net
