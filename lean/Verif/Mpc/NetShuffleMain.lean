import Verif.Mpc.NetShuffleProps
import Verif.Simp.ChorViews
/-!
# Base transfer, oblivious permutation and shuffle-based group-by over the network (property C115)

Any number of parties, any ranks, any schedule of the parties and of the deliveries.
-/
namespace Verif.Mpc.Shuf
open Verif.Simp

variable {A : Type} [AddCommGroup A] [DecidableEq A]
variable {M Ct Key Nonce : Type}

/-- an input of one party -/
abbrev given (r : Nat) (t : GKind) (v : GVal A M Ct) : Loc (GVal A M Ct) GKind := ⟨t, [r], v⟩

/-- the first `n` of a sequence of scalars, an input of the party that draws them -/
abbrev scalars (n : Nat) (k : Nat → Int) : GVal A M Ct := .scalars ((List.range n).map k)

/-- **Specification** Program `c`, run by `N` parties on the inputs `ls`: it is traced, every schedule ends, every party ends with what it
holds in `S` and nothing else, every message is `allowed`, and `P` describes the result and what is held. -/
def Protocol {α : Type} (tr : GVal A M Ct → Bool) (N : Nat) (c : Prog A M Ct α) (ls : List (Loc (GVal A M Ct) GKind))
    (allowed : GKind → Nat → Nat → Prop) (P : α → Plain (GVal A M Ct) GKind → Prop) : Prop :=
  ∃ a S, RunsTo tr N c ls a S ∧ Messages allowed S ∧ P a S

theorem is_input {ls : List (Loc (GVal A M Ct) GKind)} {x : Nat} {l : Loc (GVal A M Ct) GKind} (h : ls[x]? = some l) : Is ⟨ls, []⟩ x l := h

section
variable (tr : GVal A M Ct → Bool) (C : Curve A) (S : Sym A M Ct Key Nonce)

/-- **C115, base transfer.**  The sender has two lists of `n` messages, the receiver `n` choice bits.  For ordinary draws, under every schedule the
receiver ends with the list of the chosen messages, and the only messages are the common point, the ephemeral points and the ciphertexts to
the receiver, and the public keys to the sender. -/
theorem ot_network (hC : CurveOk C) (hS : ∀ k n m, S.dec k (S.enc k n m) = some m) (sd : SendDraws Nonce) (k : Nat → Int)
    (hD : DrawsOk C (sd.withK k)) {N snd rcv n : Nat} (hs : snd < N) (hr : rcv < N) (m0 m1 : List M) (bits : List Int)
    (h0 : m0.length = n) (h1 : m1.length = n) (hb : bits.length = n) (hbit : ∀ b ∈ bits, b = 0 ∨ b = 1) :
    Protocol tr N (otNet C S sd 0 0 1 2 3 snd rcv)
      [given snd .data (.msgs m0), given snd .data (.msgs m1), given rcv .bins (.bits bits), given rcv .draw (scalars n k)]
      (OtMsgs 0 snd rcv) fun y P => ∃ out, Own P rcv y .loc (.msgs out) ∧ out.length = n ∧
        ∀ (j : Nat) b, bits[j]? = some b → out[j]? = if b = 1 then m1[j]? else m0[j]? := by
  have hmem : ∀ e ∈ otBatch (sd.withK k) m0 m1 bits, (e.choice = 0 ∨ e.choice = 1) ∧ Ordinary C sd.r e := fun e he => by
    obtain ⟨i, hi, rfl⟩ := List.getElem_of_mem he
    simp only [otBatch, List.getElem_mapIdx, List.getElem_zip]
    obtain ⟨a1, a2, a3, a4, a5, a6⟩ := hD i
    exact ⟨hbit _ (List.getElem_mem _), ⟨a1, a2, a3, a4, a5, a6⟩⟩
  have ht := base_ot_total C hC S hS sd.r (otBatch (sd.withK k) m0 m1 bits) (fun e he => (hmem e he).1) fun e he => (hmem e he).2
  obtain ⟨v, hv⟩ := otRun_of (dr := sd.withK k) ht
  refine Spec.runsTo tr (Spec.weaken (spec_ot hv h0 h1 hb rfl hs hr ⟨fun p hp => ?_, .pk⟩ ⟨_, is_input rfl, by simp, rfl⟩ ⟨_, is_input rfl, by simp, rfl⟩
    ⟨_, is_input rfl, by simp, rfl⟩ ⟨_, is_input rfl, by simp, rfl⟩) fun y P _ hy => ⟨_, hy, (run_lengths hv h0 h1 hb).2.2, fun j b hj => ?_⟩)
  · cases p with
    | common => exact .common
    | pk => exact absurd rfl hp
    | u0 => exact .u0
    | c0 => exact .c0
    | u1 => exact .u1
    | c1 => exact .c1
  · have hlt : j < n := by rw [← hb]; exact (List.getElem?_eq_some_iff.1 hj).1
    have hbj := (List.getElem?_eq_some_iff.1 hj).2
    rw [List.getElem?_eq_getElem (by simp [otBatch, h0, h1, hb, hlt]), List.getElem?_eq_getElem (by omega), List.getElem?_eq_getElem (by omega)]
    simp only [otBatch, List.getElem_map, List.getElem_mapIdx, List.getElem_zip, chosen, hbj]
    by_cases h : b = 1
    · rw [if_pos h, if_pos h]
    · rw [if_neg h, if_neg h]

/-- the pairs of the first step: the even positions -/
theorem pairs_even (m : Nat) : lowIx (2 * m) 1 = (List.range m).map (2 * ·) := by
  induction m with
  | zero => rfl
  | succ m ih =>
    have e1 : (2 * m) ^^^ 1 = 2 * m + 1 := by
      have := xor_low m 0 0 (by simp)
      simpa using this
    have e2 : (2 * m + 1) ^^^ 1 = 2 * m := by rw [← e1, xor_cancel]
    have : lowIx (2 * (m + 1)) 1 = lowIx (2 * m) 1 ++ [2 * m] := by
      unfold lowIx
      rw [show 2 * (m + 1) = 2 * m + 1 + 1 by omega, List.range_succ, List.range_succ, List.filter_append, List.filter_append, List.append_assoc]
      congr 1
      simp [e1, e2]
    rw [this, ih, List.range_succ, List.map_append]
    rfl

theorem pairs_length (n : Nat) : (pairs n).length = 2 ^ padExp n / 2 := by
  unfold pairs
  obtain ⟨j, hj⟩ : ∃ j, padExp n = j + 1 := ⟨padExp n - 1, by have := padExp_pos n; omega⟩
  rw [hj, pow_succ, Nat.mul_comm, pairs_even]
  simp

/-- **C115, permutation.**  The sender has a list, the receiver a permutation of its positions.  For ordinary draws, under every schedule the
receiver ends with the permuted list, and only the messages of two transfers are sent. -/
theorem permutation_network (hC : CurveOk C) (hS : ∀ k n m, S.dec k (S.enc k n m) = some m) (sd0 sd1 : SendDraws Nonce) (k0 k1 : Nat → Int)
    (h0 : DrawsOk C (sd0.withK k0)) (h1 : DrawsOk C (sd1.withK k1)) {N snd rcv : Nat} (hs : snd < N) (hr : rcv < N) (zero : M) (d : List M)
    (p : List Nat) (hp : p.Perm (List.range d.length)) :
    Protocol tr N (permNet C S sd0 sd1 zero 0 1 2 3 snd rcv d.length)
      [given snd .data (.msgs d), given rcv .data (.perm p), given rcv .draw (scalars (2 ^ padExp d.length / 2) k0),
        given rcv .draw (scalars (2 ^ padExp d.length / 2) k1)]
      (PermMsgs snd rcv) fun y P => ∃ out, Uses rcv P y (.msgs out) ∧ Gathers d p out := by
  obtain ⟨out, ho⟩ := apply_permutation_total C hC S hS _ _ h0 h1 zero d p
  have hg := apply_permutation_correct C hC S hS _ _ zero d p hp out ho
  obtain ⟨v, w, hvw⟩ := permRun_of ho
  have hok : ∀ (i : Nat) v, i < 2 → OtOk (fun (l : Loc (GVal A M Ct) GKind) a b => PermMsgs snd rcv l.ty a b) i snd rcv v := fun i v hi =>
    ⟨fun q hq => by
      refine .ot hi ?_
      cases q with
      | common => exact .common
      | pk => exact absurd rfl hq
      | u0 => exact .u0
      | c0 => exact .c0
      | u1 => exact .u1
      | c1 => exact .c1, .ot hi .pk⟩
  rw [← pairs_length]
  exact Spec.runsTo tr (Spec.weaken (spec_perm hvw hs hr (hok 0 v (by omega)) (hok 1 w (by omega)) (is_input rfl) (is_input rfl)
    ⟨_, is_input rfl, by simp, rfl⟩ ⟨_, is_input rfl, by simp, rfl⟩) fun y P _ hy => ⟨out, hy, hg⟩)

end

section group
variable (tr : GVal A I64 Ct → Bool) (C : Curve A) (S : Sym A I64 Ct Key Nonce) (sd0 sd1 : SendDraws Nonce)

/-- **Specification** The inputs of the group-by: the sender's data and mask, the receiver's bins and scalars. -/
abbrev inputs (snd rcv : Nat) (d m : List I64) (b : List Int) (k0 k1 : Nat → Int) : List (Loc (GVal A I64 Ct) GKind) :=
  [given snd .data (.msgs d), given snd .draw (.msgs m), given rcv .bins (.bits b), given rcv .draw (scalars (2 ^ padExp d.length / 2) k0),
    given rcv .draw (scalars (2 ^ padExp d.length / 2) k1)]

/-- the program of the group-by, on these inputs -/
abbrev groupProg (snd rcv hlp n K : Nat) : Prog A I64 Ct Nat := groupNet C S sd0 sd1 0 1 2 3 4 snd rcv hlp n K

/-- one run of the group-by, with the values of the messages -/
theorem group_run (hC : CurveOk C) (hS : ∀ k n m, S.dec k (S.enc k n m) = some m) {k0 k1 : Nat → Int}
    (h0 : DrawsOk C (sd0.withK k0)) (h1 : DrawsOk C (sd1.withK k1)) {N snd rcv hlp K : Nat} (hs : snd < N) (hr : rcv < N) (hh : hlp < N)
    (d m : List I64) (b : List Int) (hm : m.length = d.length) (hb : b.length = d.length) :
    ∃ v w s0, PermRun C S (sd0.withK k0) (sd1.withK k1) 0 (List.zipWith (fun a m => a - m) d m) (argsort b) v w s0 ∧
      Spec N (fun l x y => GroupMsgs snd rcv hlp l.ty x y ∧ l.val = sentVal v w m b K l.ty) (groupProg C S sd0 sd1 snd rcv hlp d.length K)
        ⟨inputs snd rcv d m b k0 k1, []⟩ fun y P => Own P rcv y .loc (.msgs ((List.range K).map (groupSum d b))) := by
  have ht := groupby_shuffle_total C hC S hS _ _ h0 h1 d m b K hm hb
  unfold groupbyShuffle at ht
  simp only at ht
  cases ha : applyPermutation C S (sd0.withK k0) (sd1.withK k1) 0 (List.zipWith (fun a m => a - m) d m) (argsort b) with
  | error e => rw [ha] at ht; cases ht
  | ok s0 =>
    rw [ha] at ht
    simp only [Except.ok.injEq] at ht
    obtain ⟨v, w, hvw⟩ := permRun_of ha
    refine ⟨v, w, s0, hvw, ?_⟩
    have hok : ∀ (i : Nat) u, i < 2 → (∀ q : OtPart, sentVal v w m b K (.ot i q) = otVal u q) →
        OtOk (fun (l : Loc (GVal A I64 Ct) GKind) x y => GroupMsgs snd rcv hlp l.ty x y ∧ l.val = sentVal v w m b K l.ty) i snd rcv u :=
      fun i u hi hu => ⟨fun q hq => by
        refine ⟨.perm (.ot hi ?_), (hu q).symm⟩
        cases q with
        | common => exact .common
        | pk => exact absurd rfl hq
        | u0 => exact .u0
        | c0 => exact .c0
        | u1 => exact .u1
        | c1 => exact .c1, .perm (.ot hi .pk), (hu .pk).symm⟩
    have hg := spec_group (N := N) (K := K) (data := 0) (mask := 1) (bins := 2) (ks0 := 3) (ks1 := 4) (hlp := hlp)
      (P := ⟨inputs snd rcv d m b k0 k1, []⟩) hvw hm hs hr hh (hok 0 v (by omega) fun _ => rfl) (hok 1 w (by omega) fun _ => rfl)
      ⟨.mask, rfl⟩ ⟨.bins, rfl⟩ ⟨.sums, rfl⟩ (is_input rfl) (is_input rfl) (is_input rfl)
      ⟨_, is_input rfl, by simp, by rw [pairs_length]⟩ ⟨_, is_input rfl, by simp, by rw [pairs_length]⟩
    rw [ht] at hg
    exact hg

/-- **C115, group-by.**  The sender has data, the receiver bins.  For ordinary draws and any mask, under every schedule the receiver ends with the
sum of the data in each of the `K` bins, modulo `2 ^ 64`; and the only messages are those of two transfers between sender and receiver, the
mask and the bins to the helper, and the helper's partial sums to the receiver. -/
theorem groupby_network (hC : CurveOk C) (hS : ∀ k n m, S.dec k (S.enc k n m) = some m) (k0 k1 : Nat → Int)
    (h0 : DrawsOk C (sd0.withK k0)) (h1 : DrawsOk C (sd1.withK k1)) {N snd rcv hlp : Nat} (hs : snd < N) (hr : rcv < N) (hh : hlp < N)
    (K : Nat) (d m : List I64) (b : List Int) (hm : m.length = d.length) (hb : b.length = d.length) :
    Protocol tr N (groupProg C S sd0 sd1 snd rcv hlp d.length K) (inputs snd rcv d m b k0 k1) (GroupMsgs snd rcv hlp)
      fun y P => Own P rcv y .loc (.msgs ((List.range K).map (groupSum d b))) := by
  obtain ⟨v, w, s0, _, h⟩ := group_run C S sd0 sd1 hC hS h0 h1 hs hr hh (K := K) d m b hm hb
  obtain ⟨a, P', h1, ⟨ms, h2, h3⟩, h4⟩ := h
  exact Spec.runsTo tr (allowed := GroupMsgs snd rcv hlp) ⟨a, P', h1, ⟨ms, h2, fun e he => (h3 e he).imp fun l hl => ⟨hl.1, hl.2.1⟩⟩, h4⟩

theorem permRun_det {dr0 dr1 : OtDraws Nonce} {d : List I64} {p : List Nat} {v w v' w' : OtVals A Ct} {o o' : List I64}
    (h : PermRun C S dr0 dr1 0 d p v w o) (h' : PermRun C S dr0 dr1 0 d p v' w' o') : v = v' ∧ w = w' := by
  obtain ⟨_, _, a, b, _⟩ := h.run
  obtain ⟨_, _, a', b', _⟩ := h'.run
  exact ⟨a.det a', b.det b'⟩

/-- **C115, what the helper sees.**  Whatever the data and whatever the receiver draws: with the same mask and the same bins, the helper holds the
same throughout. -/
theorem groupby_helper_view (hC : CurveOk C) (hS : ∀ k n m, S.dec k (S.enc k n m) = some m) (k0 k1 k0' k1' : Nat → Int)
    (h0 : DrawsOk C (sd0.withK k0)) (h1 : DrawsOk C (sd1.withK k1)) (h0' : DrawsOk C (sd0.withK k0')) (h1' : DrawsOk C (sd1.withK k1'))
    {N snd rcv hlp : Nat} (hs : snd < N) (hr : rcv < N) (hh : hlp < N) (hsr : snd ≠ rcv) (hsh : snd ≠ hlp) (hrh : rcv ≠ hlp)
    (K : Nat) (d d' m : List I64) (b : List Int) (hm : m.length = d.length) (hb : b.length = d.length) (hd : d'.length = d.length) :
    ∃ y P P', RunsTo tr N (groupProg C S sd0 sd1 snd rcv hlp d.length K) (inputs snd rcv d m b k0 k1) y P ∧
      RunsTo tr N (groupProg C S sd0 sd1 snd rcv hlp d.length K) (inputs snd rcv d' m b k0' k1') y P' ∧ SameAt hlp P P' := by
  obtain ⟨v, w, s0, _, h⟩ := group_run C S sd0 sd1 hC hS h0 h1 hs hr hh (K := K) d m b hm hb
  obtain ⟨v', w', s0', _, h'⟩ := group_run C S sd0 sd1 hC hS h0' h1' hs hr hh (K := K) d' m b (by omega) (by omega)
  rw [hd] at h'
  obtain ⟨y, P, P', g1, g2, g3, _⟩ := same_view tr hlp h h'
    (.cons ⟨rfl, rfl⟩ (.cons ⟨rfl, rfl⟩ (.cons ⟨rfl, rfl⟩ (.cons ⟨rfl, rfl⟩ (.cons ⟨rfl, rfl⟩ .nil)))))
    (.cons (by simp [Ne.symm hsh]) (.cons (by simp) (.cons (by simp) (.cons (by simp [Ne.symm hrh]) (.cons (by simp [Ne.symm hrh]) .nil)))))
    (fun t a ht => by
      cases ht with
      | perm hp => cases hp with | ot hi ho => cases ho <;> contradiction
      | mask => rfl
      | bins => rfl
      | sums => rfl)
  exact ⟨y, P, P', g1, g2, g3⟩

theorem groupSum_add {d d' m : List I64} {b : List Int} {k : Nat} (h : d'.length = d.length) (hm : m.length = d.length) :
    groupSum (List.zipWith (fun m e => m + e) m (List.zipWith (fun a c => a - c) d' d)) b k + groupSum d b k = groupSum m b k + groupSum d' b k := by
  unfold groupSum
  have hl : (List.zipWith (fun m e => m + e) m (List.zipWith (fun a c => a - c) d' d)).length = d.length := by simp [h, hm]
  rw [hl, h, hm, ← Finset.sum_add_distrib, ← Finset.sum_add_distrib]
  refine Finset.sum_congr rfl fun i hi => ?_
  rw [Finset.mem_range] at hi
  split
  · rw [List.getD_eq_getElem _ _ (by omega), List.getD_eq_getElem _ _ (by omega), List.getD_eq_getElem _ _ (by omega), List.getD_eq_getElem _ _ (by omega)]
    simp
    abel
  · simp

/-- **C115, what the receiver sees.**  Two data vectors with the same sum in every bin: for every mask of the first there is a mask of the second
(shifted by the difference, so each mask arises once) such that the receiver holds the same throughout both runs.  So for a uniform mask
nothing but the sums can be learned from what the receiver sees. -/
theorem groupby_receiver_view (hC : CurveOk C) (hS : ∀ k n m, S.dec k (S.enc k n m) = some m) (k0 k1 : Nat → Int)
    (h0 : DrawsOk C (sd0.withK k0)) (h1 : DrawsOk C (sd1.withK k1))
    {N snd rcv hlp : Nat} (hs : snd < N) (hr : rcv < N) (hh : hlp < N) (hsr : snd ≠ rcv) (hrh : rcv ≠ hlp)
    (K : Nat) (d d' m : List I64) (b : List Int) (hm : m.length = d.length) (hb : b.length = d.length) (hd : d'.length = d.length)
    (hsum : ∀ k < K, groupSum d b k = groupSum d' b k) :
    ∃ y P P', RunsTo tr N (groupProg C S sd0 sd1 snd rcv hlp d.length K) (inputs snd rcv d m b k0 k1) y P ∧
      RunsTo tr N (groupProg C S sd0 sd1 snd rcv hlp d.length K)
        (inputs snd rcv d' (List.zipWith (fun m e => m + e) m (List.zipWith (fun a c => a - c) d' d)) b k0 k1) y P' ∧ SameAt rcv P P' := by
  obtain ⟨v, w, s0, hp, h⟩ := group_run C S sd0 sd1 hC hS h0 h1 hs hr hh (K := K) d m b hm hb
  obtain ⟨v', w', s0', hp', h'⟩ := group_run C S sd0 sd1 hC hS h0 h1 hs hr hh (K := K) d'
    (List.zipWith (fun m e => m + e) m (List.zipWith (fun a c => a - c) d' d)) b (by simp [hm, hd]) (by omega)
  have e : List.zipWith (fun a m => a - m) d' (List.zipWith (fun m e => m + e) m (List.zipWith (fun a c => a - c) d' d)) =
      List.zipWith (fun a m => a - m) d m := by
    refine List.ext_getElem (by simp [hm, hd]) fun i g1 g2 => ?_
    simp
    abel
  rw [e] at hp'
  obtain ⟨rfl, rfl⟩ := permRun_det C S hp hp'
  have hseg : segmentSum m b K = segmentSum (List.zipWith (fun m e => m + e) m (List.zipWith (fun a c => a - c) d' d)) b K := by
    refine List.ext_getElem? fun k => ?_
    by_cases hk : k < K
    · rw [segmentSum_get _ _ K k hk (by omega), segmentSum_get _ _ K k hk (by simp [hm, hd, hb])]
      have := groupSum_add (k := k) (b := b) hd hm
      rw [← hsum k hk] at this
      rw [add_right_cancel this]
    · rw [List.getElem?_eq_none (by simp [segmentSum]; omega), List.getElem?_eq_none (by simp [segmentSum]; omega)]
  rw [hd] at h'
  obtain ⟨y, P, P', g1, g2, g3, _⟩ := same_view tr rcv h h'
    (.cons ⟨rfl, rfl⟩ (.cons ⟨rfl, rfl⟩ (.cons ⟨rfl, rfl⟩ (.cons ⟨rfl, rfl⟩ (.cons ⟨rfl, rfl⟩ .nil)))))
    (.cons (by simp [Ne.symm hsr]) (.cons (by simp [Ne.symm hsr]) (.cons (by simp) (.cons (by simp [hd]) (.cons (by simp [hd]) .nil)))))
    (fun t a ht => by
      cases ht with
      | perm hp => cases hp with
        | ot hi ho =>
          rename_i i
          cases ho <;> first | contradiction | (cases i <;> rfl)
      | mask => exact absurd rfl hrh
      | bins => rfl
      | sums => simp only [sentVal]; rw [hseg])
  exact ⟨y, P, P', g1, g2, g3⟩

/-- The public keys of a transfer are the same for other choice bits, if the receiver's scalars are reflected where the bits differ. -/
theorem same_keys (hC : CurveOk C) {M : Type} {S : Sym A M Ct Key Nonce} {sd : SendDraws Nonce} {k : Nat → Int} (hD : DrawsOk C (sd.withK k))
    {m0 m1 m0' m1' out out' : List M} {bits bits' : List Int} {v v' : OtVals A Ct} {n : Nat} {flip : Nat → Bool}
    (h : OtRun C S (sd.withK k) m0 m1 bits v out)
    (h' : OtRun C S (sd.withK fun i => if flip i then sd.r - k i else k i) m0' m1' bits' v' out')
    (l0 : m0.length = n) (l1 : m1.length = n) (lb : bits.length = n) (l0' : m0'.length = n) (l1' : m1'.length = n) (lb' : bits'.length = n)
    (hb : ∀ x ∈ bits, x = 0 ∨ x = 1) (hb' : ∀ x ∈ bits', x = 0 ∨ x = 1)
    (hf : ∀ (i : Nat) x y, bits[i]? = some x → bits'[i]? = some y → (flip i = true ↔ x ≠ y)) : v.pks = v'.pks := by
  have hl := (run_lengths h l0 l1 lb).1
  have hl' := (run_lengths h' l0' l1' lb').1
  have hcpt : v.cpt = ecMul C (ecGen C) sd.r := h.cpt
  have hcc : v'.cpt = v.cpt := h'.cpt.trans hcpt.symm
  have hw : PtWf v.cpt := by rw [hcpt]; exact wf_mul hC (wf_gen hC) _
  have hvc : val v.cpt = sd.r • C.G := by rw [hcpt, val_mul hC]; rfl
  refine List.ext_getElem (by omega) fun i g1 g2 => ?_
  have hi : i < n := by omega
  have e1 := (mapE_get h.pks).2 i ⟨m0[i], m1[i], bits[i], k i, sd.r0 i, sd.r1 i, sd.n0 i, sd.n1 i⟩ (by
    rw [List.getElem?_eq_getElem (by simp [otBatch, l0, l1, lb, hi])]; simp [otBatch, SendDraws.withK])
  have e2 := (mapE_get h'.pks).2 i ⟨m0'[i], m1'[i], bits'[i], if flip i then sd.r - k i else k i, sd.r0 i, sd.r1 i, sd.n0 i, sd.n1 i⟩ (by
    rw [List.getElem?_eq_getElem (by simp [otBatch, l0', l1', lb', hi])]; simp [otBatch, SendDraws.withK])
  obtain ⟨p, hp, hpi⟩ := e1
  obtain ⟨q, hq, hqi⟩ := e2
  have hp := liftEc_ok hp
  have hq := liftEc_ok hq
  simp only at hp hq
  rw [hcc] at hq
  rw [List.getElem?_eq_getElem g1] at hpi
  rw [List.getElem?_eq_getElem g2] at hqi
  rw [Option.some.inj hpi, Option.some.inj hqi]
  have bx := hb bits[i] (List.getElem_mem _)
  have bx' := hb' bits'[i] (List.getElem_mem _)
  have hfi := hf i bits[i] bits'[i] (List.getElem?_eq_getElem _) (List.getElem?_eq_getElem _)
  obtain ⟨d1, d2, d3, _⟩ := hD i
  simp only [SendDraws.withK] at d1 d2 d3
  generalize bits[i] = x at *
  generalize bits'[i] = y at *
  obtain ⟨wp, vp⟩ := keygen_val hC hw hp
  obtain ⟨wq, vq⟩ := keygen_val hC hw hq
  apply val_inj wp wq
  rw [vp, vq, hvc]
  have two : ∀ z : Int, (2 : Nat) • (z • C.G) = z • C.G + z • C.G := fun z => two_nsmul _
  by_cases hxy : x = y
  · have : flip i = false := by
      cases hfl : flip i with
      | false => rfl
      | true => exact absurd hxy (hfi.1 hfl)
    rw [this, hxy]
    rfl
  · have : flip i = true := hfi.2 hxy
    rw [this, if_pos rfl, two, two, sub_zsmul]
    rcases bx with rfl | rfl <;> rcases bx' with rfl | rfl
    · exact absurd rfl hxy
    · simp only [zero_zsmul, one_zsmul]; abel
    · simp only [zero_zsmul, one_zsmul]; abel
    · exact absurd rfl hxy

theorem reflected_ok {sd : SendDraws Nonce} {k : Nat → Int} (flip : Nat → Bool) (hD : DrawsOk C (sd.withK k)) :
    DrawsOk C (sd.withK fun i => if flip i then sd.r - k i else k i) := by
  intro i
  obtain ⟨d1, d2, d3, d4, d5, d6⟩ := hD i
  simp only [SendDraws.withK] at d1 d2 d3 d4 d5 d6 ⊢
  by_cases hf : flip i = true
  · rw [if_pos hf]
    refine ⟨d2, ?_, ?_, d4, d5, d6⟩
    · rwa [show sd.r - (sd.r - k i) = k i by omega]
    · rw [show sd.r - 2 * (sd.r - k i) = -(sd.r - 2 * k i) by omega]
      intro hz
      exact d3 (Int.emod_eq_zero_of_dvd (Int.dvd_neg.1 (Int.dvd_of_emod_eq_zero hz)))
  · rw [if_neg hf]
    exact ⟨d1, d2, d3, d4, d5, d6⟩

/-- **C115, what the sender sees.**  For any two vectors of bins there is a set of positions, fixed before anything is drawn, such that for all draws:
reflecting the receiver's scalars `k` to `r - k` at these positions (a map that undoes itself, `r` being the scalar of the common point) makes
the sender hold the same throughout the runs with the one and the other bins.  So for uniform scalars the sender learns nothing about the
bins. -/
theorem groupby_sender_view (hC : CurveOk C) (hS : ∀ k n m, S.dec k (S.enc k n m) = some m)
    {N snd rcv hlp : Nat} (hs : snd < N) (hr : rcv < N) (hh : hlp < N) (hsr : snd ≠ rcv) (hsh : snd ≠ hlp)
    (K : Nat) (d m : List I64) (b b' : List Int) (hm : m.length = d.length) (hb : b.length = d.length) (hb' : b'.length = d.length) :
    ∃ flip : Nat → Bool, ∀ (sd0 sd1 : SendDraws Nonce) (k0 k1 : Nat → Int), DrawsOk C (sd0.withK k0) → DrawsOk C (sd1.withK k1) →
      ∃ y P P', RunsTo tr N (groupProg C S sd0 sd1 snd rcv hlp d.length K) (inputs snd rcv d m b k0 k1) y P ∧
        RunsTo tr N (groupProg C S sd0 sd1 snd rcv hlp d.length K) (inputs snd rcv d m b'
          (fun i => if flip i then sd0.r - k0 i else k0 i) fun i => if flip i then sd1.r - k1 i else k1 i) y P' ∧ SameAt snd P P' := by
  have hl : (List.zipWith (fun a m => a - m) d m).length = d.length := by simp [hm]
  let c := stepSlice (ctrlsOf d.length (argsort b)) 0 (pairs d.length).length
  let c' := stepSlice (ctrlsOf d.length (argsort b')) 0 (pairs d.length).length
  have hc : c.length = (pairs d.length).length := slice_length
  have hc' : c'.length = (pairs d.length).length := slice_length
  refine ⟨fun i => c[i]? != c'[i]?, fun sd0 sd1 k0 k1 h0 h1 => ?_⟩
  obtain ⟨v, w, s0, hp, h⟩ := group_run C S sd0 sd1 hC hS h0 h1 hs hr hh (K := K) d m b hm hb
  obtain ⟨v', w', s0', hp', h'⟩ := group_run C S sd0 sd1 hC hS (reflected_ok C (fun i => c[i]? != c'[i]?) h0)
    (reflected_ok C (fun i => c[i]? != c'[i]?) h1) hs hr hh (K := K) d m b' hm hb'
  obtain ⟨yi, yj, r0, r1, _⟩ := hp.run
  obtain ⟨yi', yj', r0', r1', _⟩ := hp'.run
  rw [hl] at r0 r1 r0' r1'
  have bit : ∀ (l : List Bool) (x : Int), x ∈ l.map bitInt → x = 0 ∨ x = 1 := fun l x hx => by
    obtain ⟨e, _, rfl⟩ := List.mem_map.1 hx
    cases e <;> simp [bitInt]
  have bit' : ∀ (l : List Bool) (x : Int), x ∈ l.map (fun b => 1 - bitInt b) → x = 0 ∨ x = 1 := fun l x hx => by
    obtain ⟨e, _, rfl⟩ := List.mem_map.1 hx
    cases e <;> simp [bitInt]
  have differ : ∀ f : Bool → Int, (∀ x y, f x = f y → x = y) → ∀ (i : Nat) x y, (c.map f)[i]? = some x → (c'.map f)[i]? = some y →
      ((c[i]? != c'[i]?) = true ↔ x ≠ y) := fun f hf i x y hx hy => by
    rw [List.getElem?_map, Option.map_eq_some_iff] at hx hy
    obtain ⟨p, hp, rfl⟩ := hx
    obtain ⟨q, hq, rfl⟩ := hy
    rw [hp, hq]
    simp only [bne_iff_ne, ne_eq, Option.some.injEq]
    exact not_congr ⟨fun h => by rw [h], hf p q⟩
  have e0 : v.pks = v'.pks := same_keys C hC (n := (pairs d.length).length) h0 r0 r0' (by simp) (by simp) (by simpa using hc) (by simp) (by simp) (by simpa using hc')
    (bit c) (bit c') (differ bitInt (by decide))
  have e1 : w.pks = w'.pks := same_keys C hC (n := (pairs d.length).length) h1 r1 r1' (by simp) (by simp) (by simpa using hc) (by simp) (by simp) (by simpa using hc')
    (bit' c) (bit' c') (differ (fun b => 1 - bitInt b) (by decide))
  obtain ⟨y, P, P', g1, g2, g3, _⟩ := same_view tr snd h h'
    (.cons ⟨rfl, rfl⟩ (.cons ⟨rfl, rfl⟩ (.cons ⟨rfl, rfl⟩ (.cons ⟨rfl, rfl⟩ (.cons ⟨rfl, rfl⟩ .nil)))))
    (.cons (fun _ => rfl) (.cons (fun _ => rfl) (.cons (by simp [hsr]) (.cons (by simp [hsr]) (.cons (by simp [hsr]) .nil)))))
    (fun t a ht => by
      cases ht with
      | perm hp => cases hp with
        | ot hi ho =>
          rename_i i
          cases ho <;> first | contradiction | (cases i with | zero => simp only [sentVal, otVal, e0] | succ i => simp only [sentVal, otVal, e1])
      | mask => exact absurd rfl hsh
      | bins => exact absurd rfl hsh
      | sums => exact absurd rfl hsr)
  exact ⟨y, P, P', g1, g2, g3⟩

end group

/-! ## The hypotheses can be met -/

/-- draws for the toy curve of order 11 (models no code of its own) -/
def toySend : SendDraws Nat := ⟨5, fun _ => 1, fun _ => 2, fun i => i, fun i => i + 7⟩

theorem toy_draws_ok : DrawsOk toyCurve (toySend.withK fun _ => 3) := fun i => by simp only [toySend, SendDraws.withK]; decide

/-- an identity cipher over machine integers (models no code of its own) -/
def toySym64 : Sym (ZMod 11) I64 (Nat × I64) Nat Nat := ⟨fun _ => 0, fun _ n m => (n, m), fun _ c => some c.2⟩

/-- five parties; three of them sum `10, 20, 30` into bins `1, 0, 1` … -/
example : Protocol (fun _ => false) 5 (groupProg toyCurve toySym64 toySend toySend 3 1 4 3 3)
    (inputs 3 1 [10, 20, 30] [7, -5, 100] [1, 0, 1] (fun _ => 3) fun _ => 3) (GroupMsgs 3 1 4)
    fun y P => Own P 1 y .loc (.msgs [20, 40, 0]) := by
  have := groupby_network (fun _ => false) toyCurve toySym64 toySend toySend toyCurve_ok (by intros; rfl) (fun _ => 3) (fun _ => 3)
    toy_draws_ok toy_draws_ok (N := 5) (snd := 3) (rcv := 1) (hlp := 4) (by omega) (by omega) (by omega) 3 [10, 20, 30] [7, -5, 100] [1, 0, 1] rfl rfl
  have e : (List.range 3).map (groupSum ([10, 20, 30] : List I64) [1, 0, 1]) = [20, 40, 0] := by decide +kernel
  rw [e] at this
  exact this

/-- … the receiver cannot tell `10, 20, 30` from `15, 20, 25` … -/
example : ∃ y P P', RunsTo (fun _ => false) 5 (groupProg toyCurve toySym64 toySend toySend 3 1 4 3 3)
      (inputs 3 1 [10, 20, 30] [7, -5, 100] [1, 0, 1] (fun _ => 3) fun _ => 3) y P ∧
    RunsTo (fun _ => false) 5 (groupProg toyCurve toySym64 toySend toySend 3 1 4 3 3)
      (inputs 3 1 [15, 20, 25] [12, -5, 95] [1, 0, 1] (fun _ => 3) fun _ => 3) y P' ∧ SameAt 1 P P' := by
  have := groupby_receiver_view (fun _ => false) toyCurve toySym64 toySend toySend toyCurve_ok (by intros; rfl) (fun _ => 3) (fun _ => 3)
    toy_draws_ok toy_draws_ok (N := 5) (snd := 3) (rcv := 1) (hlp := 4) (by omega) (by omega) (by omega) (by omega) (by omega) 3 [10, 20, 30] [15, 20, 25]
    [7, -5, 100] [1, 0, 1] rfl rfl rfl (by decide +kernel)
  exact this

/-- … nor the sender bins `1, 0, 1` from `2, 2, 0`, nor the helper `10, 20, 30` from `0, 0, 0`; … -/
example : (∃ flip : Nat → Bool, ∀ (sd0 sd1 : SendDraws Nat) (k0 k1 : Nat → Int), DrawsOk toyCurve (sd0.withK k0) → DrawsOk toyCurve (sd1.withK k1) →
      ∃ y P P', RunsTo (fun _ => false) 5 (groupProg toyCurve toySym64 sd0 sd1 3 1 4 3 3) (inputs 3 1 [10, 20, 30] [7, -5, 100] [1, 0, 1] k0 k1) y P ∧
        RunsTo (fun _ => false) 5 (groupProg toyCurve toySym64 sd0 sd1 3 1 4 3 3) (inputs 3 1 [10, 20, 30] [7, -5, 100] [2, 2, 0]
          (fun i => if flip i then sd0.r - k0 i else k0 i) fun i => if flip i then sd1.r - k1 i else k1 i) y P' ∧ SameAt 3 P P') ∧
    ∃ y P P', RunsTo (fun _ => false) 5 (groupProg toyCurve toySym64 toySend toySend 3 1 4 3 3)
      (inputs 3 1 [10, 20, 30] [7, -5, 100] [1, 0, 1] (fun _ => 3) fun _ => 3) y P ∧
      RunsTo (fun _ => false) 5 (groupProg toyCurve toySym64 toySend toySend 3 1 4 3 3)
      (inputs 3 1 [0, 0, 0] [7, -5, 100] [1, 0, 1] (fun _ => 3) fun _ => 3) y P' ∧ SameAt 4 P P' :=
  ⟨groupby_sender_view (fun _ => false) toyCurve toySym64 toyCurve_ok (by intros; rfl) (by omega) (by omega) (by omega) (by omega) (by omega) 3
      [10, 20, 30] [7, -5, 100] [1, 0, 1] [2, 2, 0] rfl rfl rfl,
    groupby_helper_view (fun _ => false) toyCurve toySym64 toySend toySend toyCurve_ok (by intros; rfl) (fun _ => 3) (fun _ => 3) (fun _ => 3) (fun _ => 3)
      toy_draws_ok toy_draws_ok toy_draws_ok toy_draws_ok (by omega) (by omega) (by omega) (by omega) (by omega) (by omega) 3
      [10, 20, 30] [0, 0, 0] [7, -5, 100] [1, 0, 1] rfl rfl rfl⟩

/-- … a transfer of two messages delivers the chosen ones; … -/
example : Protocol (fun _ => false) 2 (otNet toyCurve toySym toySend 0 0 1 2 3 0 1)
    [given 0 .data (.msgs [10, 20]), given 0 .data (.msgs [11, 21]), given 1 .bins (.bits [1, 0]), given 1 .draw (scalars 2 fun _ => 3)]
    (OtMsgs 0 0 1) fun y P => ∃ out, Own P 1 y .loc (.msgs out) ∧ out.length = 2 ∧
      ∀ (j : Nat) b, ([1, 0] : List Int)[j]? = some b → out[j]? = if b = 1 then [11, 21][j]? else [10, 20][j]? :=
  ot_network (fun _ => false) toyCurve toySym toyCurve_ok toySym_ok toySend (fun _ => 3) toy_draws_ok (by omega) (by omega) [10, 20] [11, 21] [1, 0]
    rfl rfl rfl (by decide)

/-- … and the messages of the permutation are those of two transfers. -/
example : Protocol (fun _ => false) 2 (permNet toyCurve toySym toySend toySend 0 0 1 2 3 0 1 5)
    [given 0 .data (.msgs [10, 20, 30, 40, 50]), given 1 .data (.perm [4, 2, 0, 1, 3]), given 1 .draw (scalars (2 ^ padExp 5 / 2) fun _ => 3),
      given 1 .draw (scalars (2 ^ padExp 5 / 2) fun _ => 3)]
    (PermMsgs 0 1) fun y P => ∃ out, Uses 1 P y (.msgs out) ∧ Gathers [10, 20, 30, 40, 50] [4, 2, 0, 1, 3] out :=
  permutation_network (fun _ => false) toyCurve toySym toyCurve_ok toySym_ok toySend toySend (fun _ => 3) (fun _ => 3) toy_draws_ok toy_draws_ok
    (by omega) (by omega) 0 [10, 20, 30, 40, 50] [4, 2, 0, 1, 3] (by decide)

/-- The view of the receiver does depend on the data if the mask is kept: its first transfer carries the masked data. -/
example : List.zipWith (fun a m => a - m) ([10, 20, 30] : List I64) [7, -5, 100] ≠ List.zipWith (fun a m => a - m) [15, 20, 25] [7, -5, 100] := by
  decide +kernel

end Verif.Mpc.Shuf
