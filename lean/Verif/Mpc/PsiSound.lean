import Verif.Mpc.Psi
/-
Soundness half of RR22 stated down to the hash function: an item that is wrongly reported as common
exhibits either two different byte strings with the same truncated hash, or a linear relation
between the tables that involves the sender's secret `delta`.
Model: /repo/mplang/libs/mpc/psi/rr22.py (see Verif.Mpc.Psi).
-/
namespace Verif.Mpc
open Verif.Kern

variable {A : Type} [AddCommGroup A] [DecidableEq A]

/-- The eight bytes determine the word. -/
theorem le8_inj {a b : Nat} (ha : a < 2 ^ 64) (hb : b < 2 ^ 64) (h : le8 a = le8 b) : a = b := by
  have g : ∀ i, i < 8 → a / 256 ^ i % 256 = b / 256 ^ i % 256 := by
    intro i hi
    have := congrArg (fun l => l[i]?) h
    simpa [le8, hi] using this
  have h0 := g 0 (by decide); have h1 := g 1 (by decide); have h2 := g 2 (by decide)
  have h3 := g 3 (by decide); have h4 := g 4 (by decide); have h5 := g 5 (by decide)
  have h6 := g 6 (by decide); have h7 := g 7 (by decide)
  norm_num at h0 h1 h2 h3 h4 h5 h6 h7 ha hb
  omega

/-- Different tags are hashed as different byte strings. -/
theorem tagBytes_inj {t t' : Blk} (h : WordPair t) (h' : WordPair t')
    (he : tagBytes t = tagBytes t') : t = t' := by
  unfold tagBytes at he
  have h1 := List.append_cancel_left he
  have hl : (le8 t.1).length = (le8 t'.1).length := by simp [le8]
  obtain ⟨ha, hb⟩ := List.append_inj h1 hl
  exact Prod.ext (le8_inj h.1 h'.1 ha) (le8_inj h.2 h'.2 hb)

/-- Two byte strings that collide under the hash truncated to 16 bytes. -/
def Collision (hash : List Nat → Bytes32) : Prop :=
  ∃ a b : List Nat, a ≠ b ∧ ∀ i : Fin 32, i.val < 16 → hash a i = hash b i

theorem tagHash_collision (E : IknpEnv A) {t t' : Blk} (h : WordPair t) (h' : WordPair t')
    (he : tagHash E t = tagHash E t') : t = t' ∨ Collision E.hash := by
  by_cases hb : tagBytes t = tagBytes t'
  · exact .inl (tagBytes_inj h h' hb)
  · refine .inr ⟨_, _, hb, ?_⟩
    intro i hi
    have := congrArg (fun l => l[i.val]?) he
    simpa [tagHash, hi] using this

theorem silent_v_word {mul : Blk → Blk → Blk} {C : Curve A}
    {E : IknpEnv A} (hE : ∀ k l i, WordPair (E.aes k l i)) {rC : Int} {ds : Fin iknpK → BaseDraw}
    {uBase : List Blk} {delta : Blk} {seed : Bytes32} {n : Nat} {o : VoleOut}
    (h : silentVole mul C E rC ds uBase delta seed n = some o) : ∀ x ∈ o.v, WordPair x := by
  unfold silentVole at h
  cases hb : vole mul C E rC ds uBase delta with
  | error e => simp [hb] at h
  | ok b =>
    have hv : ∀ x ∈ b.v, WordPair x := by
      unfold vole at hb
      simp only at hb
      split at hb
      · cases hb
      · cases hb
        intro x hx
        simp only [List.mem_map] at hx
        obtain ⟨j, _, rfl⟩ := hx
        unfold xorLoop
        rw [foldl_mmXor]
        refine mmXor_word (hE _ _ _) (xorAll_word ?_)
        intro y hy
        rw [List.mem_map] at hy
        obtain ⟨i, _, rfl⟩ := hy
        exact hE _ _ _
    by_cases hn : 0 < n
    · simp only [hb, expandSilent_eq E seed n hn, Option.some.injEq] at h
      subst h
      intro x hx
      simp only [List.mem_map] at hx
      obtain ⟨p, _, rfl⟩ := hx
      exact expandOne_word hv _
    · have : n = 0 := by omega
      subst this
      have h0 : (0 + chunkSize - 1) / chunkSize = 0 :=
        Nat.div_eq_of_lt (by have := chunkSize_pos; omega)
      simp [hb, expandSilent, h0] at h

theorem at3_word {words : Nat → Nat × Nat} {m : Nat} {p : List Blk} (h : ∀ x ∈ p, WordPair x)
    (x : Nat) : WordPair (at3 words m p x) := by
  unfold at3 cell3
  exact mmXor_word (mmXor_word (getD_word h _) (getD_word h _)) (getD_word h _)

/-- **C50 (RR22), soundness**: when the protocol returns a mask and an item that is not among the
sender's items is marked as common, then either the hash function collides on two different byte
strings, or for one of the sender's items `x` the tag `V(x) + (P(x) + H(x)) * delta` equals the
receiver's own value `V(y)` although `x ≠ y`. -/
theorem rr22_wrong_mark (mul : Blk → Blk → Blk) (hm : Kernel mul) (C : Curve A) (hC : CurveOk C)
    (E : IknpEnv A) (hE : ∀ k l i, WordPair (E.aes k l i)) (rC : Int)
    (ds : Fin iknpK → BaseDraw) (uBase : List Blk) (delta : Blk) (seed : Bytes32)
    (hu : ∀ x ∈ uBase, WordPair x) (hd : WordPair delta)
    (words : Nat → Nat × Nat) (m : Nat) (h3 : 3 ≤ m) (xs ys : List Nat)
    (hx : ∀ x ∈ xs, x < 2 ^ 64) (hy : ∀ y ∈ ys, y < 2 ^ 64) (mask : List Bool)
    (h : rr22With mul okvsSolve C E rC ds uBase delta seed words m xs ys = some mask)
    (j y : Nat) (hj : ys[j]? = some y) (hmark : mask[j]? = some true) (hno : y ∉ xs) :
    Collision E.hash ∨
      ∃ (p v : List Blk) (x : Nat), p.length = m ∧ v.length = m ∧ x ∈ xs ∧ x ≠ y ∧
        mmXor (at3 words m v x) (mul (mmXor (at3 words m p x) (hashItem E x)) delta)
          = at3 words m v y := by
  cases ho : silentVole mul C E rC ds uBase delta seed m with
  | none => unfold rr22With at h; simp [ho] at h
  | some o =>
    cases hp : okvsSolve words ys (ys.map (hashItem E)) m with
    | error e => unfold rr22With at h; simp [ho, hp] at h
    | ok p =>
      have hH : ∀ x, x < 2 ^ 64 → WordPair (hashItem E x) := fun x hx =>
        mmXor_word (hE _ _ _) ⟨hx, by show 0 < 2 ^ 64; decide⟩
      have hvw : ∀ x ∈ ys.map (hashItem E), WordPair x := by
        intro x hxm
        rw [List.mem_map] at hxm
        obtain ⟨y, hym, rfl⟩ := hxm
        exact hH y (hy y hym)
      obtain ⟨hpl, _⟩ := okvs_decodes_every_key words ys _ m h3 (by simp) p hp
      have hpw := solve_word hvw hp
      have hvv := silent_v_word hE ho
      have hres := rr22_result mul hm okvsSolve C hC E hE rC ds uBase delta seed hu hd words m xs ys hx
        o ho p hp hpl hpw
      rw [h] at hres
      have hmask := Option.some.inj hres
      subst hmask
      rw [List.getElem?_map, hj] at hmark
      simp only [Option.map_some, Option.some.injEq, List.any_eq_true, beq_iff_eq] at hmark
      obtain ⟨x, hxm, he⟩ := hmark
      have hw1 : WordPair (tagOf mul E words m p o.v delta x) :=
        mmXor_word (at3_word hvv x) (kernel_word hm (mmXor_word (at3_word hpw x) (hH x (hx x hxm))) hd)
      rcases tagHash_collision E hw1 (at3_word hvv y) he with ht | hc
      · exact .inr ⟨p, o.v, x, hpl, (silent_vole_correlation mul hm C hC E rC ds uBase delta hu hd
          seed m o ho).2.2.1, hxm, fun e => hno (e ▸ hxm), ht⟩
      · exact .inl hc

/-- A run in which a receiver item is wrongly marked: with a hash that ignores its input the
hypotheses of the theorem are met and the collision side holds. -/
example : ∃ mask, rr22With gfMul okvsSolve toyCurve { psiEnv with hash := fun _ _ => 0 } 7 toyDraws
      [(5, 9)] (3, 2 ^ 63) (fun i => i) (pyWords 0xDEADBEEF 0xCAFEBABE) 7 [7] [10, 20, 30] = some mask ∧
    mask[1]? = some true ∧ 20 ∉ [7] := by
  have hu : ∀ x ∈ [((5, 9) : Blk)], WordPair x := by
    intro x hx
    simp only [List.mem_cons, List.not_mem_nil, or_false] at hx
    subst hx; exact ⟨by decide, by decide⟩
  have hd : WordPair (3, 2 ^ 63) := ⟨by decide, by decide⟩
  let E : IknpEnv (ZMod 11) := { psiEnv with hash := fun _ _ => 0 }
  obtain ⟨o, ho⟩ := silent_total gfMul toyCurve toyCurve_ok E 7 toyDraws [(5, 9)] (3, 2 ^ 63)
    (fun i => i) 7 (by omega)
    (fun _ => by show ((3 : Int) % 11 ≠ 0); decide) (fun _ => by show ((5 : Int) % 11 ≠ 0); decide)
    (fun _ => by show ((7 - 3 : Int) % 11 ≠ 0); decide)
  obtain ⟨p, hp, _, _⟩ := solve_peelable (pyWords 0xDEADBEEF 0xCAFEBABE) [10, 20, 30]
    ([10, 20, 30].map (hashItem E)) 7 (by omega) (by simp) toy_peelable
  refine ⟨_, by unfold rr22With; rw [ho]; simp only [E] at hp; simp only [hp]; rfl, ?_, by decide⟩
  simp [receiverMask, okvsDecode, senderTags, tagHash]

end Verif.Mpc
