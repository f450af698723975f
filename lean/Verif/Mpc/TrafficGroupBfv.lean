import Verif.Simp.Traffic
import Verif.Mpc.NetGroupBfvMain
/-!
# How much the group-by over homomorphic encryption sends (property C129)

Every message of every run, with its number of elements: a ciphertext, a key and the encoder are one each, an array its length.
-/
namespace Verif.Mpc.Gb
open Verif.Simp

variable {t : Nat}

/-- **Specification** number of elements of a value -/
def BVal.count : BVal t → Nat
  | .ints l => l.length
  | .ct _ => 1
  | .key _ => 1
  | .encoder => 1

/-- **Specification** The messages of the group-by of `n` elements into `K` bins, with `B` elements per ciphertext: one ciphertext per started
group of `B` elements, four keys, then one ciphertext per bin back, and the result. -/
def bfvSent (s r n K B : Nat) : List (Nat × Nat × BKind × Nat) :=
  ((List.range ((n + B - 1) / B)).map fun i => (s, r, .chunk i, 1)) ++ [(s, r, .pk, 1), (s, r, .rk, 1), (s, r, .gk, 1), (s, r, .enc, 1)] ++
    ((List.range K).map fun k => (r, s, .sum k, 1)) ++ [(s, r, .result, K)]

theorem mapM_length {α β : Type} {f : α → Option β} : ∀ {l : List α} {r : List β}, l.mapM f = some r → r.length = l.length := by
  intro l
  induction l with
  | nil => intro r h; simp at h; simp [h]
  | cons a l ih =>
    intro r h
    simp only [List.mapM_cons, Option.bind_eq_bind, Option.bind_eq_some_iff, Option.pure_def, Option.some.injEq] at h
    obtain ⟨b, _, bs, h2, rfl⟩ := h
    simp [ih h2]

theorem encryptK_out {r n : Nat} {vs rs : List (BVal t)} (h : encryptK r n vs = some rs) : ∀ v ∈ rs, v.count = 1 := by
  unfold encryptK at h
  split at h
  · split at h
    · simp only [Option.some.injEq] at h
      intro v hv
      rw [← h] at hv
      simp only [List.mem_map] at hv
      obtain ⟨i, _, rfl⟩ := hv
      rfl
    · simp at h
  · simp at h

theorem aggregateK_out {wire : Bool} {r K m : Nat} {vs rs : List (BVal t)} (h : aggregateK wire r K m vs = some rs) : ∀ v ∈ rs, v.count = 1 := by
  unfold aggregateK at h
  split at h
  · split at h
    · unfold sumsOf at h
      simp only [Option.map_eq_some_iff] at h
      obtain ⟨ys, _, rfl⟩ := h
      intro v hv
      simp only [List.mem_map] at hv
      obtain ⟨i, _, rfl⟩ := hv
      rfl
    · simp at h
  · simp at h

theorem decryptK_out {wire : Bool} {K : Nat} {vs : List (BVal t)} {v : BVal t} (h : decryptK wire K vs = some v) : v.count = K := by
  unfold decryptK at h
  split at h
  · next cs s h1 h2 =>
    split at h
    · simp at h
    · simp only [Option.map_eq_some_iff] at h
      obtain ⟨ys, h3, rfl⟩ := h
      have e1 := mapM_length h1
      have e2 := mapM_length h3
      have e3 := congrArg List.length h2
      simp only [List.length_drop, List.length_cons, List.length_nil, List.length_take] at e1 e3
      simp only [BVal.count, List.length_map]
      omega
  · simp at h

theorem map_zip_count {a b p : Nat} : ∀ {ts : List BKind} {rs : List (BVal t)}, rs.length = ts.length → (∀ v ∈ rs, v.count = 1) →
    (((ts.zip rs).map fun e => (⟨e.1, [p], e.2⟩ : Loc (BVal t) BKind)).map fun l => (a, b, l.ty, l.val.count)) = ts.map fun k => (a, b, k, 1) := by
  intro ts
  induction ts with
  | nil => intro rs _ _; rfl
  | cons k ts ih =>
    intro rs h1 h2
    cases rs with
    | nil => simp at h1
    | cons v rs =>
      simp only [List.zip_cons_cons, List.map_cons]
      rw [ih (by simpa using h1) fun w hw => h2 w (by simp [hw]), h2 v (by simp)]

theorem each_unpack5 {N r : Nat} {α : Type} {f : List (BVal t) → Option (List (BVal t))} {t1 t2 t3 t4 t5 : BKind} {args : List Nat}
    {S : Plain (BVal t) BKind} {M : List (Nat × Nat × BKind × Nat)} {k : Nat → Nat → Nat → Nat → Nat → Chor (BVal t) BKind α}
    {Q : α → Plain (BVal t) BKind → Prop} (hM : traffic BVal.count S = M)
    (hk : ∀ a b c d e S' vs v1 v2 v3 v4 v5, Le S S' → f vs = some [v1, v2, v3, v4, v5] → Is S' a ⟨t1, [r], v1⟩ → Is S' b ⟨t2, [r], v2⟩ →
      Is S' c ⟨t3, [r], v3⟩ → Is S' d ⟨t4, [r], v4⟩ → Is S' e ⟨t5, [r], v5⟩ → traffic BVal.count S' = M → Each N (k a b c d e) S' Q) :
    Each N ((several r f [t1, t2, t3, t4, t5] args).bind fun ys => unpack5 ys k) S Q := by
  refine each_several BVal.count hM fun ys S' vs rs le ha hf hl ho hM' => ?_
  match rs, hl, hf, ho with
  | [v1, v2, v3, v4, v5], _, hf, ho =>
    cases ho with
    | cons h1 h => cases h with
      | cons h2 h => cases h with
        | cons h3 h => cases h with
          | cons h4 h => cases h with
            | cons h5 h => cases h; exact hk _ _ _ _ _ S' vs v1 v2 v3 v4 v5 le hf h1 h2 h3 h4 h5 hM'

theorem keygenK_out {vs : List (BVal t)} {v1 v2 v3 v4 v5 : BVal t} (h : keygenK vs = some [v1, v2, v3, v4, v5]) :
    v1.count = 1 ∧ v3.count = 1 ∧ v4.count = 1 ∧ v5.count = 1 := by
  unfold keygenK at h
  split at h
  · simp only [Option.some.injEq, List.cons.injEq, and_true] at h
    obtain ⟨rfl, rfl, rfl, rfl, rfl⟩ := h
    exact ⟨rfl, rfl, rfl, rfl⟩
  · simp at h

/-- **C129, group-by over homomorphic encryption.**  Whatever the data, the bins and the run: one ciphertext per group of `2 ^ r` elements,
three keys and the encoder to the receiver, one ciphertext per bin back, and the result. -/
theorem groupby_bfv_sent {r K N snd rcv data bins n : Nat} (wire : Bool) (hne : snd ≠ rcv) (ls : List (Loc (BVal t) BKind)) {y : Nat}
    {P : Plain (BVal t) BKind} (hr : Runs N (groupBfvNet t r wire data bins snd rcv n K) ⟨ls, []⟩ y P) :
    traffic BVal.count P = bfvSent snd rcv n K (2 ^ r) := by
  have main : Each N (groupBfvNet t r wire data bins snd rcv n K) ⟨ls, []⟩ fun _ P => traffic BVal.count P = bfvSent snd rcv n K (2 ^ r) := by
    unfold groupBfvNet
    refine each_unpack5 (M := []) rfl fun pk sk rk gk enc P1 vs v1 v2 v3 v4 v5 _ f1 o1 _ o3 o4 o5 t1 => ?_
    obtain ⟨e1, e3, e4, e5⟩ := keygenK_out f1
    refine each_several BVal.count t1 fun cs P2 vs2 rs2 l2 _ f2 hl2 ho2 t2 => ?_
    refine Each.bind (each_moves BVal.count hne t2 ho2) fun csR P3 _ l3 t3 => ?_
    rw [map_zip_count hl2 (encryptK_out f2), List.nil_append] at t3
    refine each_move BVal.count hne t3 ((o1.mono l2).mono l3) fun pkR P4 l4 _ t4 => ?_
    refine each_move BVal.count hne t4 (((o3.mono l2).mono l3).mono l4) fun rkR P5 l5 _ t5 => ?_
    refine each_move BVal.count hne t5 ((((o4.mono l2).mono l3).mono l4).mono l5) fun gkR P6 l6 _ t6 => ?_
    refine each_move BVal.count hne t6 (((((o5.mono l2).mono l3).mono l4).mono l5).mono l6) fun encR P7 _ _ t7 => ?_
    refine each_several BVal.count t7 fun ss P8 vs8 rs8 _ _ f8 hl8 ho8 t8 => ?_
    refine Each.bind (each_moves BVal.count hne.symm t8 ho8) fun ssS P9 _ _ t9 => ?_
    rw [map_zip_count hl8 (aggregateK_out f8)] at t9
    refine each_one BVal.count t9 fun f P10 _ _ _ _ f10 o10 t10 => ?_
    have em : (move f snd rcv : Chor (BVal t) BKind Nat) = (move f snd rcv).bind .ret := rfl
    rw [em]
    refine each_move BVal.count hne t10 o10 fun y P11 _ _ t11 => Each.ret ?_
    rw [t11]
    simp only [decryptK_out f10, e1, e3, e4, e5, List.map_map, List.append_assoc, List.cons_append, List.nil_append, bfvSent]
    rfl
  exact (main (fun e he => by simp at he) y P hr).2.2

/-- **C129 (amounts)**  Less than `n / B + K + 5` ciphertexts and keys, and `K` numbers. -/
theorem bfv_total (s r n K B : Nat) (hB : 0 < B) : total (bfvSent s r n K B) = (n + B - 1) / B + 4 + 2 * K := by
  simp only [total, bfvSent, List.map_append, List.map_map, List.map_cons, List.map_nil, List.sum_append, List.sum_cons, List.sum_nil,
    Function.comp_def, List.map_const', List.sum_replicate, List.length_range, smul_eq_mul]
  omega

/-- four elements in two bins, two per ciphertext: there is a run, and it sends ten elements -/
example : ∃ y P, Runs 5 (groupBfvNet 1032193 1 true 0 1 3 1 4 2) ⟨inputs 1032193 3 1 [1, 2, 3, -7] [0, 1, 1, 0], []⟩ y P ∧
    traffic BVal.count P = bfvSent 3 1 4 2 2 ∧ total (traffic BVal.count P) = 10 := by
  haveI : Fact (1 < 1032193) := ⟨by omega⟩
  obtain ⟨y, P, h, _⟩ := group_run (t := 1032193) (r := 1) (K := 2) (N := 5) (snd := 3) (rcv := 1) true [1, 2, 3, -7] [0, 1, 1, 0] rfl (by omega)
    toy_runnable.1 (by omega) (by omega)
  have hs := groupby_bfv_sent (t := 1032193) true (by omega) _ h
  exact ⟨y, P, h, hs, by rw [hs]; exact bfv_total 3 1 4 2 2 (by omega)⟩

end Verif.Mpc.Gb
