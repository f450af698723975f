import Verif.Mpc.Vole
/-
Model of the silent VOLE expansion, /repo/mplang/libs/mpc/ot/silent.py.
-/
namespace Verif.Mpc
open Verif.Kern

variable {A : Type} [AddCommGroup A] [DecidableEq A]

/-- `CHUNK_SIZE`. /repo/mplang/libs/mpc/ot/silent.py:86 -/
def chunkSize : Nat := 100000

/-- Key of row `j` of the mixing matrix: block `j` of the expansion of the master seed (the first
16 bytes of the public seed). /repo/mplang/libs/mpc/ot/silent.py:166-180 -/
def rowSeed (E : IknpEnv A) (seed : Bytes32) (baseK j : Nat) : Blk := E.aes (seedBlk seed) baseK j

/-- Entry of the mixing matrix for row `j` and offset `o` of a chunk of `len` positions.
/repo/mplang/libs/mpc/ot/silent.py:99-111 and 188-190 -/
def maskBit (E : IknpEnv A) (seed : Bytes32) (baseK len j o : Nat) : Bool :=
  blkBit (E.aes (rowSeed E seed baseK j) ((len + 127) / 128) (o / 128)) (o % 128)

/-- One output position: xor of the selected base elements, scanned from zero. The product of a
word with a 0/1 word is selection. /repo/mplang/libs/mpc/ot/silent.py:113-136 -/
def expandOne (base : List Blk) (mask : Nat → Bool) : Blk :=
  (List.range base.length).foldl
    (fun acc j => mmXor acc (if mask j then base.getD j (0, 0) else (0, 0))) (0, 0)

/-- Length of chunk `i`. /repo/mplang/libs/mpc/ot/silent.py:184 -/
def chunkLen (n i : Nat) : Nat := min chunkSize (n - i * chunkSize)

/-- `_run_expansion`: all chunks, concatenated; concatenating no chunk at all raises.
/repo/mplang/libs/mpc/ot/silent.py:158-206 -/
def expandSilent (E : IknpEnv A) (seed : Bytes32) (n : Nat) (base : List Blk) :
    Option (List Blk) :=
  let numChunks := (n + chunkSize - 1) / chunkSize
  if numChunks = 0 then none
  else some ((List.range numChunks).flatMap fun i =>
    (List.range (chunkLen n i)).map fun o =>
      expandOne base (fun j => maskBit E seed base.length (chunkLen n i) j o))

/-- `silent_vole_random_u`: base VOLE on `u_base`, then the same expansion of `v`, `w` and `u`.
/repo/mplang/libs/mpc/ot/silent.py:34-217 -/
def silentVole (mul : Blk → Blk → Blk) (C : Curve A) (E : IknpEnv A) (rC : Int)
    (ds : Fin iknpK → BaseDraw) (uBase : List Blk) (delta : Blk) (seed : Bytes32) (n : Nat) :
    Option VoleOut :=
  match vole mul C E rC ds uBase delta with
  | .error _ => none
  | .ok b =>
    match expandSilent E seed n b.v, expandSilent E seed n b.w, expandSilent E seed n b.u with
    | some v, some w, some u => some { v := v, w := w, u := u, delta := b.delta }
    | _, _, _ => none

/-! ### Positions -/

theorem chunks_eq {β : Type} (c n : Nat) (hc : 0 < c) (g : Nat → Nat → β) (k : Nat) :
    ((List.range k).flatMap fun i => (List.range (min c (n - i * c))).map fun o => g i o)
      = (List.range (min n (k * c))).map fun p => g (p / c) (p % c) := by
  induction k with
  | zero => simp
  | succ k ih =>
    rw [List.range_succ, List.flatMap_append, ih]
    have e : List.flatMap (fun i => (List.range (min c (n - i * c))).map fun o => g i o) [k]
        = (List.range (min c (n - k * c))).map fun o => g k o := by simp
    rw [e, Nat.succ_mul]
    by_cases hn : n ≤ k * c
    · have h1 : min c (n - k * c) = 0 := by omega
      have h2 : min n (k * c) = n := by omega
      have h3 : min n (k * c + c) = n := by omega
      rw [h1, h2, h3]; simp
    · have h2 : min n (k * c) = k * c := by omega
      have h3 : min n (k * c + c) = k * c + min c (n - k * c) := by omega
      rw [h2, h3, List.range_add, List.map_append, List.map_map]
      refine congrArg _ (List.map_congr_left ?_)
      intro o ho
      have ho' : o < c := by
        have := List.mem_range.1 ho; omega
      simp only [Function.comp]
      have d1 : (k * c + o) / c = k := by
        rw [Nat.add_comm, Nat.add_mul_div_right _ _ hc, Nat.div_eq_of_lt ho', Nat.zero_add]
      have d2 : (k * c + o) % c = o := by
        rw [Nat.add_comm, Nat.add_mul_mod_self_right, Nat.mod_eq_of_lt ho']
      rw [d1, d2]

theorem chunkSize_pos : 0 < chunkSize := by unfold chunkSize; omega

theorem expandSilent_eq (E : IknpEnv A) (seed : Bytes32) (n : Nat) (hn : 0 < n)
    (base : List Blk) :
    expandSilent E seed n base = some ((List.range n).map fun p =>
      expandOne base (fun j => maskBit E seed base.length (chunkLen n (p / chunkSize)) j
        (p % chunkSize))) := by
  unfold expandSilent
  have hc := chunkSize_pos
  have h1 : n ≤ (n + chunkSize - 1) / chunkSize * chunkSize := by
    have := Nat.div_add_mod (n + chunkSize - 1) chunkSize
    have h2 := Nat.mod_lt (n + chunkSize - 1) hc
    rw [Nat.mul_comm] at this
    omega
  have h0 : (n + chunkSize - 1) / chunkSize ≠ 0 := by
    intro h; rw [h] at h1; omega
  simp only
  rw [if_neg h0]
  have := chunks_eq chunkSize n hc (fun i o => expandOne base
    (fun j => maskBit E seed base.length (chunkLen n i) j o)) ((n + chunkSize - 1) / chunkSize)
  unfold chunkLen at this ⊢
  rw [this, Nat.min_eq_left h1]

/-! ### The correlation survives the expansion -/

theorem expandOne_eq (base : List Blk) (mask : Nat → Bool) :
    expandOne base mask
      = xorAll ((List.range base.length).map fun j => if mask j then base.getD j (0, 0) else (0, 0)) := by
  unfold expandOne
  rw [foldl_mmXor (fun j => if mask j then base.getD j (0, 0) else (0, 0)), zero_mmXor]

theorem getD_word {l : List Blk} (h : ∀ x ∈ l, WordPair x) (j : Nat) :
    WordPair (l.getD j (0, 0)) := by
  rw [List.getD_eq_getElem?_getD]
  by_cases hj : j < l.length
  · rw [List.getElem?_eq_getElem hj]; exact h _ (List.getElem_mem hj)
  · rw [List.getElem?_eq_none (by omega)]; exact zero_word

theorem xorAll_mul {mul : Blk → Blk → Blk} (hm : Kernel mul) {d : Blk} (hd : WordPair d)
    {l : List Blk} (h : ∀ x ∈ l, WordPair x) :
    mul (xorAll l) d = xorAll (l.map fun x => mul x d) := by
  rw [kernel_comm hm (xorAll_word h) hd, kernel_xorAll hm hd h]
  refine congrArg xorAll (List.map_congr_left ?_)
  intro x hx
  exact kernel_comm hm hd (h x hx)

theorem expandOne_linear {mul : Blk → Blk → Blk} (hm : Kernel mul) {d : Blk} (hd : WordPair d)
    {v u : List Blk} (hu : ∀ x ∈ u, WordPair x) (hl : v.length = u.length) (mask : Nat → Bool) :
    expandOne (List.zipWith (fun a x => xorB a (mul x d)) v u) mask
      = xorB (expandOne v mask) (mul (expandOne u mask) d) := by
  rw [expandOne_eq, expandOne_eq, expandOne_eq, xorAll_mul hm hd, xorB_eq, List.map_map]
  · have hlen : (List.zipWith (fun a x => xorB a (mul x d)) v u).length = u.length := by
      simp [hl]
    rw [hlen, hl, ← xorAll_map2]
    refine congrArg xorAll (List.map_congr_left ?_)
    intro j hj
    have hj' := List.mem_range.1 hj
    simp only [Function.comp]
    cases mask j with
    | false =>
      simp only [Bool.false_eq_true, if_false]
      rw [kernel_comm hm zero_word hd, kernel_zero hm hd]; rfl
    | true =>
      simp only [if_true]
      rw [List.getD_eq_getElem?_getD, List.getD_eq_getElem?_getD, List.getD_eq_getElem?_getD,
        List.getElem?_zipWith, List.getElem?_eq_getElem hj', List.getElem?_eq_getElem (hl ▸ hj')]
      rfl
  · intro x hx
    simp only [List.mem_map, List.mem_range] at hx
    obtain ⟨j, _, rfl⟩ := hx
    split
    · exact getD_word hu j
    · exact zero_word

/-- **C46** (silent): for every target length, base size, seeds and draws: the expanded vectors
have length `n` and satisfy `w = v xor u * delta` at every position. -/
theorem silent_vole_correlation (mul : Blk → Blk → Blk) (hm : Kernel mul) (C : Curve A)
    (hC : CurveOk C) (E : IknpEnv A) (rC : Int) (ds : Fin iknpK → BaseDraw) (uBase : List Blk)
    (delta : Blk) (hu : ∀ x ∈ uBase, WordPair x) (hd : WordPair delta) (seed : Bytes32) (n : Nat)
    (o : VoleOut) (h : silentVole mul C E rC ds uBase delta seed n = some o) :
    o.delta = delta ∧ o.u.length = n ∧ o.v.length = n ∧
      o.w = List.zipWith (fun v x => xorB v (mul x delta)) o.v o.u := by
  unfold silentVole at h
  cases hb : vole mul C E rC ds uBase delta with
  | error e => simp [hb] at h
  | ok b =>
    obtain ⟨h1, h2, h3, h4⟩ := vole_correlation mul hm C hC E rC ds uBase delta hu hd b hb
    by_cases hn : 0 < n
    · simp only [hb, expandSilent_eq E seed n hn, Option.some.injEq] at h
      subst h
      refine ⟨h2, by simp, by simp, ?_⟩
      simp only
      have hlv : b.v.length = b.u.length := by rw [h3, h1]
      have hlw : b.w.length = b.u.length := by rw [h4]; simp [hlv]
      apply List.ext_getElem?
      intro p
      rw [List.getElem?_zipWith, List.getElem?_map, List.getElem?_map, List.getElem?_map]
      by_cases hp : p < n
      · have hr : (List.range n)[p]? = some p := by
          rw [List.getElem?_eq_getElem (by simpa using hp)]; simp
        rw [hr]
        simp only [Option.map_some]
        rw [hlw, hlv]
        refine congrArg some ?_
        rw [← expandOne_linear hm hd (by rw [h1]; exact hu) hlv, ← h4]
      · rw [List.getElem?_eq_none (by simpa using hp)]; rfl
    · have : n = 0 := by omega
      subst this
      have h0 : (0 + chunkSize - 1) / chunkSize = 0 :=
        Nat.div_eq_of_lt (by have := chunkSize_pos; omega)
      simp [hb, expandSilent, h0] at h

/-- The expansion returns whenever the base protocol does and at least one element is asked
for. -/
theorem silent_total (mul : Blk → Blk → Blk) (C : Curve A) (hC : CurveOk C) (E : IknpEnv A)
    (rC : Int) (ds : Fin iknpK → BaseDraw) (uBase : List Blk) (delta : Blk) (seed : Bytes32)
    (n : Nat) (hn : 0 < n)
    (hk : ∀ i, (ds i).kp % C.N ≠ 0) (hr : ∀ i, (ds i).r % C.N ≠ 0)
    (hc : ∀ i, (rC - (ds i).kp) % C.N ≠ 0) :
    ∃ o, silentVole mul C E rC ds uBase delta seed n = some o := by
  obtain ⟨b, hb⟩ := vole_total mul C hC E rC ds uBase delta hk hr hc
  unfold silentVole
  rw [hb]
  simp only [expandSilent_eq E seed n hn]
  exact ⟨_, rfl⟩

example : ∃ o, silentVole gfMulNative toyCurve toyEnv 7 toyDraws [(5, 9), (2 ^ 63, 1)] (3, 2 ^ 63)
      (fun i => i) 250000 = some o ∧ o.u.length = 250000 ∧
    o.w = List.zipWith (fun v x => xorB v (gfMulNative x (3, 2 ^ 63))) o.v o.u := by
  obtain ⟨o, h⟩ := silent_total gfMulNative toyCurve toyCurve_ok toyEnv 7 toyDraws
    [(5, 9), (2 ^ 63, 1)] (3, 2 ^ 63) (fun i => i) 250000 (by omega)
    (fun _ => by show ((3 : Int) % 11 ≠ 0); decide) (fun _ => by show ((5 : Int) % 11 ≠ 0); decide)
    (fun _ => by show ((7 - 3 : Int) % 11 ≠ 0); decide)
  have := silent_vole_correlation gfMulNative (Or.inr rfl) toyCurve toyCurve_ok toyEnv 7 toyDraws _ _
    ?_ ?_ _ _ o h
  · exact ⟨o, h, this.2.1, this.2.2.2⟩
  · intro x hx
    simp only [List.mem_cons, List.not_mem_nil, or_false] at hx
    rcases hx with rfl | rfl <;> exact ⟨by decide, by decide⟩
  · exact ⟨by decide, by decide⟩

/-! ### C47: the mixing matrix repeats -/

/-- Where in the pseudo-random stream of a row the bit for position `p` is taken from: number of
blocks asked for, block, bit. -/
def maskSource (n p : Nat) : Nat × Nat × Nat :=
  ((chunkLen n (p / chunkSize) + 127) / 128, (p % chunkSize) / 128, (p % chunkSize) % 128)

/-- The output at a position depends only on the base vector and on the stream bits at
`maskSource`: positions with the same source always get the same value. -/
theorem silent_value_of_source (E : IknpEnv A) (seed : Bytes32) (n p q : Nat) (hp : p < n)
    (hq : q < n) (base out : List Blk) (h : expandSilent E seed n base = some out)
    (hs : maskSource n p = maskSource n q) : out[p]? = out[q]? := by
  rw [expandSilent_eq E seed n (by omega)] at h
  simp only [Option.some.injEq] at h
  subst h
  rw [List.getElem?_map, List.getElem?_map,
    List.getElem?_eq_getElem (by simpa using hp), List.getElem?_eq_getElem (by simpa using hq)]
  simp only [List.getElem_range, Option.map_some, maskBit]
  simp only [maskSource, Prod.mk.injEq] at hs
  rw [hs.1, hs.2.1, hs.2.2]

/-- **C47 is violated**: for every length from two chunks on, every seed, every expansion
function and every base vector, the second chunk repeats the first one: `u[p + 100000] = u[p]`
(and the same for `v` and `w`). -/
theorem silent_no_repeat_violated (E : IknpEnv A) (seed : Bytes32) (n : Nat) (hn : 200000 ≤ n)
    (base out : List Blk) (h : expandSilent E seed n base = some out) :
    ∀ p, p < 100000 → out[p + 100000]? = out[p]? ∧ p + 100000 < out.length := by
  intro p hp
  have hlen : out.length = n := by
    rw [expandSilent_eq E seed n (by omega)] at h
    simp only [Option.some.injEq] at h
    subst h; simp
  refine ⟨?_, by omega⟩
  apply silent_value_of_source E seed n _ _ (by omega) (by omega) base out h
  have d1 : (p + 100000) / 100000 = 1 := by omega
  have d2 : p / 100000 = 0 := by omega
  have m1 : (p + 100000) % 100000 = p := by omega
  have m2 : p % 100000 = p := by omega
  simp only [maskSource, chunkLen, chunkSize, d1, d2, m1, m2, Prod.mk.injEq, and_true]
  have e1 : min 100000 (n - 1 * 100000) = 100000 := by omega
  have e2 : min 100000 (n - 0 * 100000) = 100000 := by omega
  rw [e1, e2]

/-- **C47, what holds**: up to one chunk different positions use different stream bits. -/
theorem silent_no_repeat_partial (n : Nat) (hn : n ≤ 100000) (p q : Nat) (hp : p < n) (hq : q < n)
    (h : maskSource n p = maskSource n q) : p = q := by
  have m1 : p % 100000 = p := by omega
  have m2 : q % 100000 = q := by omega
  simp only [maskSource, chunkSize, m1, m2, Prod.mk.injEq] at h
  omega

example : ∃ out, expandSilent toyEnv (fun i => i) 250000 [(5, 9), (2 ^ 63, 1)] = some out ∧
    out[100005]? = out[5]? := by
  refine ⟨_, expandSilent_eq _ _ 250000 (by omega) _, ?_⟩
  exact (silent_no_repeat_violated toyEnv (fun i => i) 250000 (by omega) [(5, 9), (2 ^ 63, 1)] _
    (expandSilent_eq _ _ 250000 (by omega) _) 5 (by omega)).1

example : maskSource 5000 129 ≠ maskSource 5000 1 := by decide

end Verif.Mpc
