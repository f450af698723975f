import Verif.Mpc.NetGroupBfvProps
import Verif.Simp.ChorViews
/-!
# The group-by over homomorphic encryption, over the network (property C117)

Any number of parties, any ranks, any schedule of the parties and of the deliveries.
-/
namespace Verif.Mpc.Gb
open Verif.Simp

variable {t : Nat} (tr : BVal t → Bool)

/-- **Specification** The sender's data and the receiver's bins. -/
abbrev inputs (t snd rcv : Nat) (d b : List Int) : List (Loc (BVal t) BKind) := [⟨.data, [snd], .ints d⟩, ⟨.bins, [rcv], .ints b⟩]

/-- **Specification** The condition under which the code does not raise: the parties share a process, or every chunk of `2 ^ r` elements holds an
element of every bin (see `groupby_bfv_empty_bin_violated`). -/
def Runnable (r : Nat) (wire : Bool) (b : List Int) (n K : Nat) : Prop := wire = false ∨ AllBinsPresent (2 ^ r) b n K

theorem group_run [Fact (1 < t)] {r K N snd rcv : Nat} (wire : Bool) (d b : List Int) (hb : b.length = d.length) (hK : 0 < K)
    (hok : Runnable r wire b d.length K) (hs : snd < N) (hr : rcv < N) :
    Spec N (fun l x y => BfvMsgs r d.length K snd rcv l.ty x y ∧ l.val = sentVal t r K d b l.ty) (groupBfvNet t r wire 0 1 snd rcv d.length K)
      ⟨inputs t snd rcv d b, []⟩ fun y P => Own P rcv y .result (sentVal t r K d b .result) ∧
        (∃ x, Own P rcv x .rk (.key .secret)) ∧ ∀ i < numChunks (2 ^ r) d.length, ∃ x, Own P rcv x (.chunk i) (.ct (encChunk t r d i)) :=
  spec_group wire d b rfl hb hK hok hs hr rfl rfl

/-- **C117.**  The sender has data, the receiver bins.  If the code does not raise (`Runnable`) and every sum is within the centred range of the plaintext
modulus, then under every schedule the receiver ends with the sum of the data in each of the `K` bins; and the only messages are the
encrypted chunks, the public key, the evaluation keys, the encoder and the result to the receiver, and the encrypted sums to the sender. -/
theorem groupby_bfv_network_partial (ht : 1 < t) {r K N snd rcv : Nat} (wire : Bool) (d b : List Int) (hb : b.length = d.length) (hK : 0 < K)
    (hok : Runnable r wire b d.length K) (hs : snd < N) (hr : rcv < N)
    (hrange : ∀ k < K, 2 * (groupSum d b k) ≤ t - 1 ∧ -(t - 1 : Int) ≤ 2 * (groupSum d b k)) :
    ∃ y P, RunsTo tr N (groupBfvNet t r wire 0 1 snd rcv d.length K) (inputs t snd rcv d b) y P ∧
      Messages (BfvMsgs r d.length K snd rcv) P ∧ Own P rcv y .result (.ints ((List.range K).map (groupSum d b))) := by
  haveI : Fact (1 < t) := ⟨ht⟩
  obtain ⟨y, P, h1, ⟨m, h2, h3⟩, h4, _⟩ := group_run (t := t) wire d b hb hK hok hs hr
  have hv : sentVal t r K d b .result = .ints ((List.range K).map (groupSum d b)) := by
    simp only [sentVal, BVal.ints.injEq]
    refine List.map_congr_left fun k hk => ?_
    obtain ⟨g1, g2⟩ := hrange k (by simpa using hk)
    haveI : NeZero t := ⟨by omega⟩
    rw [ZMod.valMinAbs_spec]
    refine ⟨rfl, ?_, ?_⟩ <;> omega
  rw [hv] at h4
  exact Spec.runsTo tr (allowed := BfvMsgs r d.length K snd rcv) ⟨y, P, h1, ⟨m, h2, fun e he => (h3 e he).imp fun l hl => ⟨hl.1, hl.2.1⟩⟩, h4⟩

/-- **C117, what the sender sees.**  Two vectors of bins in which every sum is the same modulo the plaintext modulus: the sender holds the same
throughout both runs, every slot of every ciphertext it gets included.  So (noise apart) the sender learns nothing about the bins but the
sums it decrypts. -/
theorem groupby_bfv_sender_view_partial (ht : 1 < t) {r K N snd rcv : Nat} (wire : Bool) (d b b' : List Int) (hb : b.length = d.length)
    (hb' : b'.length = d.length) (hK : 0 < K) (hok : Runnable r wire b d.length K) (hok' : Runnable r wire b' d.length K)
    (hs : snd < N) (hr : rcv < N) (hsr : snd ≠ rcv)
    (hsum : ∀ k < K, ((groupSum d b k : Int) : ZMod t) = ((groupSum d b' k : Int) : ZMod t)) :
    ∃ y P P', RunsTo tr N (groupBfvNet t r wire 0 1 snd rcv d.length K) (inputs t snd rcv d b) y P ∧
      RunsTo tr N (groupBfvNet t r wire 0 1 snd rcv d.length K) (inputs t snd rcv d b') y P' ∧ SameAt snd P P' := by
  haveI : Fact (1 < t) := ⟨ht⟩
  obtain ⟨y, P, P', g1, g2, g3, _⟩ := same_view tr snd (group_run (t := t) wire d b hb hK hok hs hr) (group_run (t := t) wire d b' hb' hK hok' hs hr)
    (.cons ⟨rfl, rfl⟩ (.cons ⟨rfl, rfl⟩ .nil)) (.cons (fun _ => rfl) (.cons (by simp [hsr]) .nil))
    (fun k a hk => by
      cases hk with
      | sum h => unfold sentVal sumSlots; simp only; rw [hsum _ h]
      | chunk _ => rfl
      | pk => rfl
      | rk => rfl
      | gk => rfl
      | enc => rfl
      | result => exact absurd rfl hsr)
  exact ⟨y, P, P', g1, g2, g3⟩

/-- **C117, what the others see.**  Any party but sender and receiver holds the same whatever the data and the bins. -/
theorem groupby_bfv_outsider_view (ht : 1 < t) {r K N snd rcv : Nat} (wire : Bool) (d d' b b' : List Int) (hd : d'.length = d.length)
    (hb : b.length = d.length) (hb' : b'.length = d.length) (hK : 0 < K) (hok : Runnable r wire b d.length K)
    (hok' : Runnable r wire b' d.length K) (hs : snd < N) (hr : rcv < N) (p : Nat) (hps : p ≠ snd) (hpr : p ≠ rcv) :
    ∃ y P P', RunsTo tr N (groupBfvNet t r wire 0 1 snd rcv d.length K) (inputs t snd rcv d b) y P ∧
      RunsTo tr N (groupBfvNet t r wire 0 1 snd rcv d.length K) (inputs t snd rcv d' b') y P' ∧ SameAt p P P' := by
  haveI : Fact (1 < t) := ⟨ht⟩
  have h' := group_run (t := t) wire d' b' (by omega) hK (by rw [hd]; exact hok') hs hr
  rw [hd] at h'
  obtain ⟨y, P, P', g1, g2, g3, _⟩ := same_view tr p (group_run (t := t) wire d b hb hK hok hs hr) h'
    (.cons ⟨rfl, rfl⟩ (.cons ⟨rfl, rfl⟩ .nil)) (.cons (by simp [hps]) (.cons (by simp [hpr]) .nil))
    (fun k a hk => by cases hk <;> first | exact absurd rfl hps | exact absurd rfl hpr)
  exact ⟨y, P, P', g1, g2, g3⟩

/-- **C117, what the receiver sees (violated).**  The receiver must learn only the sums; but at the end of every run it holds a key that decrypts the
chunks it was sent, which are the sender's data. -/
theorem groupby_bfv_receiver_view_violated (ht : 1 < t) {r K N snd rcv : Nat} (wire : Bool) (d b : List Int) (hb : b.length = d.length)
    (hK : 0 < K) (hok : Runnable r wire b d.length K) (hs : snd < N) (hr : rcv < N) :
    ∃ y P, RunsTo tr N (groupBfvNet t r wire 0 1 snd rcv d.length K) (inputs t snd rcv d b) y P ∧ ∃ x key, Uses rcv P x (.key key) ∧
      ∀ j v, d[j]? = some v → ∃ z c slots, Uses rcv P z (.ct c) ∧ bfvDecrypt key (wireCt wire c) = some slots ∧
        slots (j % 2 ^ r) = ((v : Int) : ZMod t) := by
  haveI : Fact (1 < t) := ⟨ht⟩
  obtain ⟨y, P, h1, ⟨m, h2, h3⟩, h4, ⟨x, h5⟩, h6⟩ := group_run (t := t) wire d b hb hK hok hs hr
  refine ⟨y, P, h1.runsTo tr, x, .secret, h5.uses, fun j v hj => ?_⟩
  have hlt : j < d.length := (List.getElem?_eq_some_iff.1 hj).1
  have pos : 0 < 2 ^ r := Nat.two_pow_pos r
  have hi : j / 2 ^ r < numChunks (2 ^ r) d.length := by
    rw [Nat.div_lt_iff_lt_mul pos]
    have := chunks_cover (2 ^ r) d.length pos
    omega
  obtain ⟨z, hz⟩ := h6 _ hi
  refine ⟨z, _, (encChunk t r d (j / 2 ^ r)).slots, hz.uses, ?_, ?_⟩
  · unfold bfvDecrypt wireCt
    cases wire <;> rfl
  · have hq := Nat.mod_lt j pos
    have h := chunk_getD (2 ^ r) (0 : Int) d (j / 2 ^ r) (j % 2 ^ r) hq
    have hj' : j / 2 ^ r * 2 ^ r + j % 2 ^ r = j := by rw [Nat.mul_comm]; exact Nat.div_add_mod ..
    rw [hj', List.getD_eq_getElem?_getD, List.getD_eq_getElem?_getD, hj] at h
    show ((chunkOf (2 ^ r) 0 d (j / 2 ^ r)).map fun v => ((v : Int) : ZMod t)).getD (j % 2 ^ r) 0 = _
    rw [List.getD_eq_getElem?_getD, List.getElem?_map]
    cases hc : (chunkOf (2 ^ r) 0 d (j / 2 ^ r))[j % 2 ^ r]? with
    | none => rw [List.getElem?_eq_none_iff, chunk_length] at hc; omega
    | some w => rw [hc] at h; simpa using congrArg (fun v : Int => (v : ZMod t)) h

/-! ## The hypotheses can be met -/

theorem toy_runnable : Runnable 1 true [0, 1, 1, 0] 4 2 ∧ Runnable 1 true [1, 0, 0, 1] 4 2 := by
  unfold Runnable AllBinsPresent; decide +kernel

/-- five parties; party 3 has `1, 2, 3, -7`, party 1 the bins `0, 1, 1, 0`; slots of two … -/
example : ∃ y P, RunsTo (fun _ => false) 5 (groupBfvNet 1032193 1 true 0 1 3 1 4 2) (inputs 1032193 3 1 [1, 2, 3, -7] [0, 1, 1, 0]) y P ∧
    Messages (BfvMsgs 1 4 2 3 1) P ∧ Own P 1 y .result (.ints [-6, 5]) := by
  have := groupby_bfv_network_partial (t := 1032193) (fun _ => false) (by omega) (r := 1) (K := 2) (N := 5) (snd := 3) (rcv := 1) true
    [1, 2, 3, -7] [0, 1, 1, 0] rfl (by omega) toy_runnable.1 (by omega) (by omega) (by decide +kernel)
  have e : (List.range 2).map (groupSum ([1, 2, 3, -7] : List Int) [0, 1, 1, 0]) = [-6, 5] := by decide +kernel
  rw [e] at this
  exact this

/-- … the sender of `4, 4, 9, 9` cannot tell bins `0, 1, 1, 0` from `1, 0, 0, 1`, nor party 0 anything, … -/
example : (∃ y P P', RunsTo (fun _ => false) 5 (groupBfvNet 1032193 1 true 0 1 3 1 4 2) (inputs 1032193 3 1 [4, 4, 9, 9] [0, 1, 1, 0]) y P ∧
      RunsTo (fun _ => false) 5 (groupBfvNet 1032193 1 true 0 1 3 1 4 2) (inputs 1032193 3 1 [4, 4, 9, 9] [1, 0, 0, 1]) y P' ∧ SameAt 3 P P') ∧
    ∃ y P P', RunsTo (fun _ => false) 5 (groupBfvNet 1032193 1 true 0 1 3 1 4 2) (inputs 1032193 3 1 [1, 2, 3, -7] [0, 1, 1, 0]) y P ∧
      RunsTo (fun _ => false) 5 (groupBfvNet 1032193 1 true 0 1 3 1 4 2) (inputs 1032193 3 1 [4, 4, 9, 9] [1, 0, 0, 1]) y P' ∧ SameAt 0 P P' :=
  ⟨groupby_bfv_sender_view_partial (t := 1032193) (fun _ => false) (by omega) true [4, 4, 9, 9] [0, 1, 1, 0] [1, 0, 0, 1] rfl rfl (by omega)
      toy_runnable.1 toy_runnable.2 (by omega) (by omega) (by omega) (by decide +kernel),
    groupby_bfv_outsider_view (t := 1032193) (fun _ => false) (by omega) true [1, 2, 3, -7] [4, 4, 9, 9] [0, 1, 1, 0] [1, 0, 0, 1] rfl rfl rfl (by omega)
      toy_runnable.1 toy_runnable.2 (by omega) (by omega) 0 (by omega) (by omega)⟩

/-- … while different sums are different ciphertexts, … -/
example : sentVal 1032193 1 2 [1, 2, 3, -7] [0, 1, 1, 0] (.sum 0) ≠ sentVal 1032193 1 2 [1, 2, 3, -7] [1, 0, 0, 1] (.sum 0) := by
  intro h
  have := congrArg (fun v : BVal 1032193 => match v with | .ct c => c.slots 0 | _ => 0) h
  revert this
  decide +kernel

/-- … and the receiver reads off the data. -/
example := groupby_bfv_receiver_view_violated (t := 1032193) (fun _ => false) (by omega) (r := 1) (K := 2) (N := 5) (snd := 3) (rcv := 1) true
  [1, 2, 3, -7] [0, 1, 1, 0] rfl (by omega) toy_runnable.1 (by omega) (by omega)

end Verif.Mpc.Gb
