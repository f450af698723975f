/-
Field operations: documented operands are safe and get the declared type; what is accepted beyond
them (C100).
-/
import Verif.Kern.Wrap

namespace Verif.Kern.Wrap

open Verif.Kern Verif.Kern.Native

theorem bnd {α β : Type} {x : Except Err α} {v : α} (h : x = .ok v) (f : α → Except Err β) :
    (x >>= f) = f v := by rw [h]; rfl

theorem dim0_cons (d : Nat) (s : List Nat) : dim0 (d :: s) = .ok d := rfl

theorem bnd_ok {α β : Type} {x : Except Err α} {f : α → Except Err β} {r : β}
    (h : (x >>= f) = .ok r) : ∃ v, x = .ok v ∧ f v = .ok r := by
  cases x with
  | error e => cases h
  | ok v => exact ⟨v, rfl, h⟩

theorem native_ok {α : Type} {x : Except Fault α} {v : α} : native x = .ok v ↔ x = .ok v := by
  cases x <;> simp [native]

theorem wordsOf_length : ∀ l : List Blk, (wordsOf l).length = 2 * l.length
  | [] => rfl
  | b :: l => by rw [wordsOf]; simp [wordsOf_length l]; omega

theorem decode_length (words : Nat → Nat × Nat) (keys storage : List Nat) (m : Nat) :
    ∀ (k i : Nat) (r : List Blk), decode words keys storage m i k = .ok r → r.length = k := by
  intro k
  induction k with
  | zero => intro i r h; rw [decode] at h; cases h; rfl
  | succ k ih =>
    intro i r h
    rw [decode] at h
    cases h1 : rd keys i with
    | error e => rw [h1] at h; cases h
    | ok key =>
      rw [bind_ok h1] at h
      by_cases hm : m = 0
      · rw [if_pos hm] at h; cases h
      · rw [if_neg hm] at h
        simp only at h
        cases h2 : load storage (indices m (words key)).1 with
        | error e => rw [h2] at h; cases h
        | ok v1 =>
          rw [bind_ok h2] at h
          cases h3 : load storage (indices m (words key)).2.1 with
          | error e => rw [h3] at h; cases h
          | ok v2 =>
            rw [bind_ok h3] at h
            cases h4 : load storage (indices m (words key)).2.2 with
            | error e => rw [h4] at h; cases h
            | ok v3 =>
              rw [bind_ok h4] at h
              cases h5 : decode words keys storage m (i + 1) k with
              | error e => rw [h5] at h; cases h
              | ok rest =>
                rw [bind_ok h5] at h
                cases h
                simp [ih _ _ h5]

theorem viewWords_length : ∀ (k : Nat) (l : List Nat), (viewWords k l).length = k
  | 0, _ => rfl
  | k + 1, l => by rw [viewWords]; simp [viewWords_length k]

/-- The operands the docstrings of the field operations ask for, of 64-bit words.
`/repo/mplang/dialects/field.py:139-205`: keys `(n,)`, values and storage `(·, 2)`, two seed words,
a table with at least one cell; factors of the same shape with a last axis of 2; seeds `(n, 2)` or
`n` seeds of 16 bytes; and for the sparse product a well-formed CSR matrix. -/
def Documented : Call Arr → Prop
  | .solve k v s m => 0 < m ∧ k.elem = .u64 ∧ v.elem = .u64 ∧ s.elem = .u64 ∧
      ∃ n, k.shape = [n] ∧ v.shape = [n, 2] ∧ s.shape = [2]
  | .decode k t s => k.elem = .u64 ∧ t.elem = .u64 ∧ s.elem = .u64 ∧
      ∃ n m, 0 < m ∧ k.shape = [n] ∧ t.shape = [m, 2] ∧ s.shape = [2]
  | .mul a b => a.elem = .u64 ∧ b.elem = .u64 ∧ a.shape = b.shape ∧ ∃ p, a.shape = p ++ [2]
  | .expand s _ => (s.elem = .u64 ∧ ∃ n, s.shape = [n, 2]) ∨ (s.elem = .u8 ∧ ∃ n, s.shape = [n, 16])
  | .ldpc x i p m n => x.elem = .u64 ∧ x.shape = [n, 2] ∧ m + 1 ≤ p.data.length ∧
      (∀ q ∈ p.data, q ≤ i.data.length) ∧ ∀ j ∈ i.data, j < n

/-- Every operand's buffer is as long as its shape says. -/
def OperandsWF : Call Arr → Prop
  | .solve k v s _ => k.WF ∧ v.WF ∧ s.WF
  | .decode k t s => k.WF ∧ t.WF ∧ s.WF
  | .mul a b => a.WF ∧ b.WF
  | .expand s _ => s.WF
  | .ldpc x i p _ _ => x.WF ∧ i.WF ∧ p.WF

theorem size_append (p q : List Nat) : size (p ++ q) = size p * size q := by
  induction p with
  | nil => simp [size]
  | cons d p ih => rw [List.cons_append, size, size, ih, Nat.mul_assoc]

theorem seedPair_ok {s : Arr} (h : s.data.length = 2) : ∃ p, seedPair s = .ok p := by
  unfold seedPair
  match s.data, h with
  | [a, b], _ => exact ⟨_, rfl⟩

theorem ldpcRow_total (msg : List Blk) : ∀ (l : List Nat) (acc : Blk), (∀ j ∈ l, j < msg.length) →
    ∃ x, ldpcRow msg l acc = some x := by
  intro l
  induction l with
  | nil => intro acc _; exact ⟨acc, rfl⟩
  | cons j l ih =>
    intro acc h
    have hj := h j (List.mem_cons_self ..)
    obtain ⟨x, hx⟩ := ih (mmXor acc msg[j]) (fun k hk => h k (List.mem_cons_of_mem _ hk))
    exact ⟨x, by rw [ldpcRow, List.getElem?_eq_getElem hj]; exact hx⟩

theorem ldpcEncode_total (msg : List Blk) (idx indptr : List Nat) (hi : ∀ j ∈ idx, j < msg.length) :
    ∀ (k i : Nat), i + k + 1 ≤ indptr.length →
      ∃ x, ldpcEncode msg idx indptr i k = some x ∧ x.length = k := by
  intro k
  induction k with
  | zero => intro i _; exact ⟨[], rfl, rfl⟩
  | succ k ih =>
    intro i h
    obtain ⟨xs, hxs, hl⟩ := ih (i + 1) (by omega)
    have h1 : i < indptr.length := by omega
    have h2 : i + 1 < indptr.length := by omega
    obtain ⟨x, hx⟩ := ldpcRow_total msg ((idx.take indptr[i + 1]).drop indptr[i]) (0, 0)
      (fun j hj => hi j (List.mem_of_mem_take (List.mem_of_mem_drop hj)))
    refine ⟨x :: xs, ?_, by simp [hl]⟩
    rw [ldpcEncode]
    unfold csrRow
    rw [List.getElem?_eq_getElem h1, List.getElem?_eq_getElem h2]
    simp only [hx, hxs]

theorem flatten_length_const {α : Type} (l : List (List α)) (k : Nat)
    (h : ∀ x ∈ l, x.length = k) : l.flatten.length = l.length * k := by
  induction l with
  | nil => simp
  | cons x l ih =>
    rw [List.flatten_cons, List.length_append, h x (List.mem_cons_self ..),
      ih (fun y hy => h y (List.mem_cons_of_mem _ hy)), List.length_cons, Nat.succ_mul]
    omega

/-- The seeds an `expand` call works on when its operand is a documented one. -/
theorem pair_documented {s : Arr} {n : Nat} (hw : s.WF)
    (h : (s.elem = .u64 ∧ s.shape = [n, 2]) ∨ (s.elem = .u8 ∧ s.shape = [n, 16])) :
    ∃ t, pairSeeds (viewSeeds s) = .ok t ∧ t.shape = [n, 2] ∧ t.data.length = 2 * n := by
  unfold Arr.WF at hw
  rcases h with ⟨he, hs⟩ | ⟨he, hs⟩
  · refine ⟨s, ?_, hs, ?_⟩
    · unfold viewSeeds
      rw [if_neg (by rw [he]; rintro ⟨h, _⟩; cases h)]
      unfold pairSeeds
      rw [hs]
      rfl
    · rw [hw, hs]; simp [size]; omega
  · have hlen : s.data.length = 16 * n := by rw [hw, hs]; simp [size]; omega
    refine ⟨⟨.u64, [n, 2], viewWords (s.data.length / 8) s.data⟩, ?_, rfl, ?_⟩
    · unfold viewSeeds
      rw [if_pos ⟨he, by rw [hs]; rfl⟩, hs]
      rfl
    · rw [viewWords_length, hlen]; omega

/-- **C100** (documented operands): every field operation on the operands its documentation asks
for runs without touching foreign memory and returns a tensor of exactly the declared element
type and shape, with as many words as the shape says. -/
theorem field_ops_sound (W : Words) (mul : Blk → Blk → Blk) (block : Blk → Nat → Blk)
    (c : Call Arr) (hw : OperandsWF c) (hd : Documented c) :
    ∃ v, exec W mul block c = .ok v ∧ declared (c.map Arr.ty) = .ok v.ty ∧ v.WF := by
  cases c with
  | solve k v s m =>
    obtain ⟨hm, _, hv, _, n, hk, hvs, hs⟩ := hd
    obtain ⟨w1, w2, w3⟩ := hw
    unfold Arr.WF at w1 w2 w3
    rw [hk] at w1; rw [hvs] at w2; rw [hs] at w3
    simp [size] at w1 w2 w3
    obtain ⟨p, hp⟩ := seedPair_ok w3
    obtain ⟨out, h1, h2, _⟩ := native_solve_safe (W p) k.data v.data n m hm (by omega) (by omega)
    refine ⟨⟨.u64, [m, 2], wordsOf out⟩, ?_, ?_, ?_⟩
    · show solveW W k v m s = _
      unfold solveW
      rw [bnd hp, hk, bnd (dim0_cons _ _), bnd (native_ok.2 h1)]
      rfl
    · show Except.ok (Ty.mk v.elem [m, 2]) = _
      rw [hv]; rfl
    · show (wordsOf out).length = size [m, 2]
      rw [wordsOf_length, h2]; simp [size]; omega
  | decode k t s =>
    obtain ⟨_, ht, _, n, m, hm, hk, hts, hs⟩ := hd
    obtain ⟨w1, w2, w3⟩ := hw
    unfold Arr.WF at w1 w2 w3
    rw [hk] at w1; rw [hts] at w2; rw [hs] at w3
    simp [size] at w1 w2 w3
    obtain ⟨p, hp⟩ := seedPair_ok w3
    have h1 := native_decode_safe (W p) k.data t.data n m hm (by omega) (by omega)
    refine ⟨⟨.u64, [n, 2], wordsOf (okvsDecode (W p) (k.data.take n) (spellBlocks t.data m) m)⟩,
      ?_, ?_, ?_⟩
    · show decodeW W k t s = _
      unfold decodeW
      rw [hts, bnd (dim0_cons _ _), bnd hp, hk, bnd (dim0_cons _ _), bnd (native_ok.2 h1)]
      rfl
    · show (dim0 k.shape >>= fun n => pure (Ty.mk t.elem [n, 2])) = _
      rw [hk, ht]; rfl
    · show (wordsOf _).length = size [n, 2]
      rw [wordsOf_length]; simp [size, okvsDecode, w1]; omega
  | mul a b =>
    obtain ⟨ha, _, hab, q, hq⟩ := hd
    obtain ⟨w1, w2⟩ := hw
    unfold Arr.WF at w1 w2
    have he : size a.shape = size q * 2 := by rw [hq, size_append]; simp [size]
    rw [← hab] at w2
    have h1 := (native_mul_safe_iff mul a.data b.data (size a.shape / 2)).2.1 (by omega) (by omega)
    refine ⟨⟨.u64, a.shape, wordsOf (List.zipWith mul (spellBlocks a.data (size a.shape / 2))
      (spellBlocks b.data (size a.shape / 2))) ++ List.replicate (size a.shape % 2) 0⟩, ?_, ?_, ?_⟩
    · show mulW mul a b = _
      unfold mulW
      rw [bnd (native_ok.2 h1)]
      rfl
    · show Except.ok (Ty.mk a.elem a.shape) = _
      rw [ha]; rfl
    · show (wordsOf _ ++ _).length = size a.shape
      rw [List.length_append, wordsOf_length]
      simp [spellBlocks]
      omega
  | expand s l =>
    have hn : ∃ n, (s.elem = .u64 ∧ s.shape = [n, 2]) ∨ (s.elem = .u8 ∧ s.shape = [n, 16]) := by
      rcases hd with ⟨h, n, hn⟩ | ⟨h, n, hn⟩
      · exact ⟨n, Or.inl ⟨h, hn⟩⟩
      · exact ⟨n, Or.inr ⟨h, hn⟩⟩
    obtain ⟨n, hn⟩ := hn
    obtain ⟨t, h1, h2, h3⟩ := pair_documented hw hn
    have hdim : dim0 s.shape = .ok n := by
      rcases hn with ⟨_, h⟩ | ⟨_, h⟩ <;> rw [h] <;> rfl
    have hne : s.shape ≠ [] := by rcases hn with ⟨_, h⟩ | ⟨_, h⟩ <;> rw [h] <;> simp
    have h4 := (native_expand_safe_iff block t.data l n).2.1 (by omega)
    refine ⟨⟨.u64, [n, l, 2], wordsOf (List.flatten
      ((spellBlocks t.data n).map (fun s => (List.range l).map (block s))))⟩, ?_, ?_, ?_⟩
    · show expandW block s l = _
      unfold expandW
      rw [if_neg (fun h => hne h.2), bnd h1, h2, bnd (dim0_cons _ _), bnd (native_ok.2 h4)]
      rfl
    · show (dim0 s.shape >>= fun n => pure (Ty.mk .u64 [n, l, 2])) = _
      rw [bnd hdim]; rfl
    · show (wordsOf _).length = size [n, l, 2]
      rw [wordsOf_length, flatten_length_const _ l (by
        intro x hx
        rw [List.mem_map] at hx
        obtain ⟨y, _, rfl⟩ := hx
        simp)]
      simp [size, spellBlocks]
      rw [Nat.mul_comm l 2, Nat.mul_left_comm]
  | ldpc x i p m n =>
    obtain ⟨hx, hxs, hp, hq, hi⟩ := hd
    obtain ⟨w1, _, _⟩ := hw
    unfold Arr.WF at w1
    rw [hxs] at w1
    simp [size] at w1
    have hsp : (spellBlocks x.data n).length = n := by simp [spellBlocks]
    have h1 := native_ldpc_agrees x.data i.data p.data (spellBlocks x.data n)
      (by rw [hsp]; omega) (holds_spell (by omega)) hq m 0
    obtain ⟨r, hr, hl⟩ := ldpcEncode_total (spellBlocks x.data n) i.data p.data
      (by rw [hsp]; exact hi) m 0 (by omega)
    rw [hr] at h1
    refine ⟨⟨.u64, [m, 2], wordsOf r⟩, ?_, ?_, ?_⟩
    · show ldpcW x i p m = _
      unfold ldpcW
      rw [hxs, bnd (dim0_cons _ _), bnd (native_ok.2 h1)]
      rfl
    · show Except.ok (Ty.mk x.elem [m, 2]) = _
      rw [hx]; rfl
    · show (wordsOf r).length = size [m, 2]
      rw [wordsOf_length, hl]; simp [size]; omega

/-- Non-vacuity: a documented call of each operation. -/
def wToy : Words := fun s k => (s.1 + k, s.2 + k)
/-- A block function for concrete cases. /repo/mplang/kernels/okvs.cpp:262-281 -/
def bToy : Blk → Nat → Blk := fun s j => mmXor s (j, 0)

example : Documented (.solve ⟨.u64, [2], [3, 4]⟩ ⟨.u64, [2, 2], [1, 2, 3, 4]⟩ ⟨.u64, [2], [0, 1]⟩ 5) ∧
    OperandsWF (.solve ⟨.u64, [2], [3, 4]⟩ ⟨.u64, [2, 2], [1, 2, 3, 4]⟩ ⟨.u64, [2], [0, 1]⟩ 5) := by
  refine ⟨⟨by decide, rfl, rfl, rfl, 2, rfl, rfl, rfl⟩, rfl, rfl, rfl⟩

example : exec wToy mmXor bToy (.expand ⟨.u8, [1, 16], [1, 0, 0, 0, 0, 0, 0, 0, 2, 0, 0, 0, 0, 0, 0, 0]⟩ 2)
    = .ok ⟨.u64, [1, 2, 2], [1, 2, 0, 2]⟩ := by decide +kernel

example : exec wToy mmXor bToy (.ldpc ⟨.u64, [2, 2], [1, 2, 4, 8]⟩ ⟨.u64, [3], [0, 0, 1]⟩
    ⟨.u64, [3], [0, 1, 3]⟩ 2 2) = .ok ⟨.u64, [2, 2], [1, 2, 5, 10]⟩ := by decide +kernel

/-- **C100** (any operands): a field operation that returns at all returns 64-bit words, and a
shape equal to the declared one -- except that `aes_expand` may regroup its seeds. -/
theorem field_ops_shape_partial (W : Words) (mul : Blk → Blk → Blk) (block : Blk → Nat → Blk)
    (c : Call Arr) (v : Arr) (hv : exec W mul block c = .ok v) :
    v.elem = .u64 ∧
    ((∀ s l, c ≠ .expand s l) → ∃ t, declared (c.map Arr.ty) = .ok t ∧ t.shape = v.shape) := by
  cases c with
  | solve k vv s m =>
    change solveW W k vv m s = .ok v at hv
    unfold solveW at hv
    obtain ⟨p, _, hv⟩ := bnd_ok hv
    obtain ⟨n, _, hv⟩ := bnd_ok hv
    obtain ⟨o, _, hv⟩ := bnd_ok hv
    cases hv
    exact ⟨rfl, fun _ => ⟨_, rfl, rfl⟩⟩
  | decode k t s =>
    change decodeW W k t s = .ok v at hv
    unfold decodeW at hv
    obtain ⟨m, _, hv⟩ := bnd_ok hv
    obtain ⟨p, _, hv⟩ := bnd_ok hv
    obtain ⟨n, hn, hv⟩ := bnd_ok hv
    obtain ⟨o, _, hv⟩ := bnd_ok hv
    cases hv
    refine ⟨rfl, fun _ => ⟨⟨t.elem, [n, 2]⟩, ?_, rfl⟩⟩
    show (dim0 k.shape >>= fun n => pure (Ty.mk t.elem [n, 2])) = _
    rw [bnd hn]; rfl
  | mul a b =>
    change mulW mul a b = .ok v at hv
    unfold mulW at hv
    obtain ⟨o, _, hv⟩ := bnd_ok hv
    cases hv
    exact ⟨rfl, fun _ => ⟨a.ty, rfl, rfl⟩⟩
  | expand s l =>
    change expandW block s l = .ok v at hv
    unfold expandW at hv
    split at hv
    · cases hv
    · obtain ⟨t, _, hv⟩ := bnd_ok hv
      obtain ⟨n, _, hv⟩ := bnd_ok hv
      obtain ⟨o, _, hv⟩ := bnd_ok hv
      cases hv
      exact ⟨rfl, fun h => absurd rfl (h s l)⟩
  | ldpc x i p m n =>
    change ldpcW x i p m = .ok v at hv
    unfold ldpcW at hv
    obtain ⟨d, _, hv⟩ := bnd_ok hv
    obtain ⟨o, _, hv⟩ := bnd_ok hv
    cases hv
    exact ⟨rfl, fun _ => ⟨_, rfl, rfl⟩⟩

/-! ### What the results contain -/

theorem spell_wordsOf : ∀ (l : List Blk), spellBlocks (wordsOf l) l.length = l := by
  intro l
  induction l with
  | nil => rfl
  | cons b l ih =>
    unfold spellBlocks at ih ⊢
    rw [wordsOf, List.length_cons, List.range_succ_eq_map, List.map_cons, List.map_map]
    refine congrArg₂ List.cons rfl ?_
    refine Eq.trans (List.map_congr_left ?_) ih
    intro i _
    have e1 : 2 * (i + 1) = 2 * i + 1 + 1 := by omega
    show (List.getD (b.1 :: b.2 :: wordsOf l) (2 * (i + 1)) 0,
      List.getD (b.1 :: b.2 :: wordsOf l) (2 * (i + 1) + 1) 0) = _
    rw [e1]
    simp only [List.getD_cons_succ]

/-- The blocks of a tensor: consecutive pairs of words. -/
def blocks (a : Arr) : List Blk := spellBlocks a.data (a.data.length / 2)

theorem blocks_wordsOf {e : Ek} {s : List Nat} (l : List Blk) : blocks ⟨e, s, wordsOf l⟩ = l := by
  unfold blocks
  have : (wordsOf l).length / 2 = l.length := by rw [wordsOf_length]; omega
  show spellBlocks (wordsOf l) ((wordsOf l).length / 2) = l
  rw [this, spell_wordsOf]

/-- **C100** (the store through the API): with at least three cells and documented operands, the
table returned by `solve_okvs` decodes, with `decode_okvs` under the same seed, to a tensor of the
values' own blocks -- or the keys cannot be peeled and every cell of the table is zero. -/
theorem field_store_round_trip (W : Words) (mul : Blk → Blk → Blk) (block : Blk → Nat → Blk)
    (k v s : Arr) (m s0 s1 : Nat) (hm : 3 ≤ m) (hw : OperandsWF (.solve k v s m))
    (hd : Documented (.solve k v s m)) (hs : s.data = [s0, s1]) :
    ∃ t, exec W mul block (.solve k v s m) = .ok t ∧
      ((Peelable Tri.cols (keyRows (W (s0, s1)) k.data m) ∧
          ∃ r, exec W mul block (.decode k t s) = .ok r ∧ blocks r = blocks v) ∨
        (¬ Peelable Tri.cols (keyRows (W (s0, s1)) k.data m) ∧
          blocks t = List.replicate m (0, 0))) := by
  obtain ⟨_, _, _, _, n, hk, hvs, hss⟩ := hd
  obtain ⟨w1, w2, _⟩ := hw
  unfold Arr.WF at w1 w2
  rw [hk] at w1; rw [hvs] at w2
  simp [size] at w1 w2
  have hp : seedPair s = .ok (s0, s1) := by unfold seedPair; rw [hs]
  obtain ⟨out, h1, h2, h3⟩ := native_store_decodes (W (s0, s1)) k.data v.data m hm (by omega)
  rw [w1] at h1 h3
  refine ⟨⟨.u64, [m, 2], wordsOf out⟩, ?_, ?_⟩
  · show solveW W k v m s = _
    unfold solveW
    rw [bnd hp, hk, bnd (dim0_cons _ _), bnd (native_ok.2 h1)]
    rfl
  · rcases h3 with ⟨hpe, hdec⟩ | ⟨hpe, hz⟩
    · left
      refine ⟨hpe, ⟨.u64, [n, 2], wordsOf (spellBlocks v.data n)⟩, ?_, ?_⟩
      · have hst : spellBlocks (wordsOf out) m = out := by rw [← h2, spell_wordsOf]
        have hd' := native_decode_safe (W (s0, s1)) k.data (wordsOf out) n m (by omega) (by omega)
          (by rw [wordsOf_length]; omega)
        rw [hst, List.take_of_length_le (by omega), hdec] at hd'
        show decodeW W k _ s = _
        unfold decodeW
        rw [bnd (dim0_cons _ _), bnd hp, hk, bnd (dim0_cons _ _), bnd (native_ok.2 hd')]
        rfl
      · rw [blocks_wordsOf]
        unfold blocks
        have : v.data.length / 2 = n := by omega
        rw [this]
    · right
      refine ⟨hpe, ?_⟩
      rw [blocks_wordsOf, hz]

example : exec wToy mmXor bToy (.solve ⟨.u64, [2], [3, 4]⟩ ⟨.u64, [2, 2], [1, 2, 3, 4]⟩ ⟨.u64, [2], [0, 1]⟩ 5)
    = .ok ⟨.u64, [5, 2], [3, 4, 0, 0, 1, 2, 0, 0, 0, 0]⟩ ∧
    exec wToy mmXor bToy (.decode ⟨.u64, [2], [3, 4]⟩ ⟨.u64, [5, 2], [3, 4, 0, 0, 1, 2, 0, 0, 0, 0]⟩
      ⟨.u64, [2], [0, 1]⟩) = .ok ⟨.u64, [2, 2], [1, 2, 3, 4]⟩ := by decide +kernel

/-- **C100** (products): on documented operands `mul` multiplies block by block. -/
theorem field_mul_blocks (W : Words) (mul : Blk → Blk → Blk) (block : Blk → Nat → Blk) (a b : Arr)
    (hw : OperandsWF (.mul a b)) (hd : Documented (.mul a b)) :
    ∃ v, exec W mul block (.mul a b) = .ok v ∧
      blocks v = List.zipWith mul (blocks a) (blocks b) := by
  obtain ⟨ha, _, hab, q, hq⟩ := hd
  obtain ⟨w1, w2⟩ := hw
  unfold Arr.WF at w1 w2
  have he : size a.shape = size q * 2 := by rw [hq, size_append]; simp [size]
  rw [← hab] at w2
  have h1 := (native_mul_safe_iff mul a.data b.data (size a.shape / 2)).2.1 (by omega) (by omega)
  have hz : size a.shape % 2 = 0 := by omega
  refine ⟨⟨.u64, a.shape, wordsOf (List.zipWith mul (spellBlocks a.data (size a.shape / 2))
      (spellBlocks b.data (size a.shape / 2)))⟩, ?_, ?_⟩
  · show mulW mul a b = _
    unfold mulW
    rw [bnd (native_ok.2 h1), hz]
    simp only [List.replicate_zero, List.append_nil]
    rfl
  · rw [blocks_wordsOf]
    unfold blocks
    rw [w1, w2]

example : Documented (.mul ⟨.u64, [2, 2], [1, 2, 3, 4]⟩ ⟨.u64, [2, 2], [5, 6, 7, 8]⟩) :=
  ⟨rfl, rfl, rfl, [2], rfl⟩

/-- **C100** (sparse products): on documented operands the native encoder returns the blocks of
the Python reference. -/
theorem field_ldpc_blocks (W : Words) (mul : Blk → Blk → Blk) (block : Blk → Nat → Blk)
    (x i p : Arr) (m n : Nat) (hw : OperandsWF (.ldpc x i p m n))
    (hd : Documented (.ldpc x i p m n)) :
    ∃ v, exec W mul block (.ldpc x i p m n) = .ok v ∧
      ldpcEncode (blocks x) i.data p.data 0 m = some (blocks v) := by
  obtain ⟨hx, hxs, hp, hq, hi⟩ := hd
  obtain ⟨w1, _, _⟩ := hw
  unfold Arr.WF at w1
  rw [hxs] at w1
  simp [size] at w1
  have hb : blocks x = spellBlocks x.data n := by
    unfold blocks
    have : x.data.length / 2 = n := by omega
    rw [this]
  have hsp : (spellBlocks x.data n).length = n := by simp [spellBlocks]
  have h1 := native_ldpc_agrees x.data i.data p.data (spellBlocks x.data n)
    (by rw [hsp]; omega) (holds_spell (by omega)) hq m 0
  obtain ⟨r, hr, hl⟩ := ldpcEncode_total (spellBlocks x.data n) i.data p.data
    (by rw [hsp]; exact hi) m 0 (by omega)
  rw [hr] at h1
  refine ⟨⟨.u64, [m, 2], wordsOf r⟩, ?_, ?_⟩
  · show ldpcW x i p m = _
    unfold ldpcW
    rw [hxs, bnd (dim0_cons _ _), bnd (native_ok.2 h1)]
    rfl
  · rw [blocks_wordsOf, hb, hr]

/-! ### Accepted operands outside the documentation -/

/-- The type rule accepts values for fewer keys, and the native solver then reads past the value
buffer (shown for all peelable keys in `native_solve_needs_values`). -/
theorem solve_short_values_violated :
    declared (.solve ⟨.u64, [3]⟩ ⟨.u64, [2, 2]⟩ ⟨.u64, [2]⟩ 8) = .ok ⟨.u64, [8, 2]⟩ ∧
    exec wToy mmXor bToy (.solve ⟨.u64, [3], [0, 1, 5]⟩ ⟨.u64, [2, 2], [7, 0, 9, 0]⟩
      ⟨.u64, [2], [0, 1]⟩ 8) = .error (.fault .oob) := by decide +kernel

/-- Multiplying a batch by one shared factor -- which broadcasting would allow and the type rule
accepts -- reads past the factor: for every batch of at least two elements. -/
theorem mul_broadcast_violated (W : Words) (mul : Blk → Blk → Blk) (block : Blk → Nat → Blk)
    (n x y : Nat) (d : List Nat) (hn : 2 ≤ n) :
    declared (.mul ⟨.u64, [n, 2]⟩ ⟨.u64, [2]⟩) = .ok ⟨.u64, [n, 2]⟩ ∧
    exec W mul block (.mul ⟨.u64, [n, 2], d⟩ ⟨.u64, [2], [x, y]⟩) = .error (.fault .oob) := by
  refine ⟨rfl, ?_⟩
  show mulW mul _ _ = _
  unfold mulW
  have hs : size [n, 2] / 2 = n := by simp [size]
  simp only [hs]
  have hk := native_mul_safe_iff mul d [x, y] n
  cases h : mulBatch mul d [x, y] 0 n with
  | ok r =>
    have := hk.1.1 ⟨r, h⟩
    simp at this
    omega
  | error f =>
    rw [hk.2.2 f h]
    rfl

/-- One seed given as a plain vector -- two words, or sixteen bytes -- passes the type rule and is
read as two seeds. -/
theorem single_seed_violated (W : Words) (mul : Blk → Blk → Blk) (block : Blk → Nat → Blk)
    (x y l : Nat) :
    declared (.expand ⟨.u64, [2]⟩ l) = .ok ⟨.u64, [2, l, 2]⟩ ∧
    exec W mul block (.expand ⟨.u64, [2], [x, y]⟩ l) = .error (.fault .oob) ∧
    declared (.expand ⟨.u8, [16]⟩ l) = .ok ⟨.u64, [16, l, 2]⟩ ∧
    exec W mul block (.expand ⟨.u8, [16], List.replicate 16 x⟩ l) = .error (.fault .oob) := by
  refine ⟨rfl, ?_, rfl, ?_⟩
  · show expandW block _ l = _
    unfold expandW
    rw [if_neg (fun h => by cases h.2)]
    rw [bnd (show pairSeeds (viewSeeds ⟨.u64, [2], [x, y]⟩) = .ok ⟨.u64, [2], [x, y]⟩ from rfl),
      bnd (show dim0 [2] = .ok 2 from rfl)]
    rfl
  · show expandW block _ l = _
    unfold expandW
    rw [if_neg (fun h => by cases h.2)]
    rw [bnd (show pairSeeds (viewSeeds ⟨.u8, [16], List.replicate 16 x⟩)
        = .ok ⟨.u64, [2], viewWords 2 (List.replicate 16 x)⟩ from by
          simp [viewSeeds, pairSeeds]),
      bnd (show dim0 [2] = .ok 2 from rfl)]
    rfl

/-- Seeds in wider rows are regrouped: the result has more rows than declared. -/
theorem wide_seeds_violated :
    declared (.expand ⟨.u64, [1, 4]⟩ 1) = .ok ⟨.u64, [1, 1, 2]⟩ ∧
    exec wToy mmXor bToy (.expand ⟨.u64, [1, 4], [1, 2, 3, 4]⟩ 1)
      = .ok ⟨.u64, [2, 1, 2], [1, 2, 3, 4]⟩ := by decide +kernel

/-- The declared element type is the operand's, the run time's is always 64 bits. -/
theorem element_type_violated :
    declared (.mul ⟨.u32, [1, 2]⟩ ⟨.u32, [1, 2]⟩) = .ok ⟨.u32, [1, 2]⟩ ∧
    exec wToy mmXor bToy (.mul ⟨.u32, [1, 2], [1, 2]⟩ ⟨.u32, [1, 2], [3, 4]⟩)
      = .ok ⟨.u64, [1, 2], [2, 6]⟩ := by decide +kernel

/-- A table of no cells passes the type rule and divides by zero in native code, for every
non-empty set of keys. -/
theorem no_cells_violated (W : Words) (mul : Blk → Blk → Blk) (block : Blk → Nat → Blk)
    (n : Nat) (k v : List Nat) (a b : Nat) (hn : 0 < n) (hk : k.length = n) :
    declared (.solve ⟨.u64, [n]⟩ ⟨.u64, [n, 2]⟩ ⟨.u64, [2]⟩ 0) = .ok ⟨.u64, [0, 2]⟩ ∧
    exec W mul block (.solve ⟨.u64, [n], k⟩ ⟨.u64, [n, 2], v⟩ ⟨.u64, [2], [a, b]⟩ 0)
      = .error (.fault .zeroDiv) := by
  refine ⟨rfl, ?_⟩
  show solveW W _ _ 0 _ = _
  unfold solveW
  rw [bnd (show seedPair ⟨.u64, [2], [a, b]⟩ = .ok (a, b) from rfl),
    bnd (show dim0 [n] = .ok n from rfl), native_solve_no_cells (W (a, b)) k v n hn (by omega)]
  rfl

/-- A storage vector without its second axis is read past its end. -/
theorem flat_storage_violated :
    declared (.decode ⟨.u64, [1]⟩ ⟨.u64, [3]⟩ ⟨.u64, [2]⟩) = .ok ⟨.u64, [1, 2]⟩ ∧
    exec wToy mmXor bToy (.decode ⟨.u64, [1], [0]⟩ ⟨.u64, [3], [1, 2, 3]⟩ ⟨.u64, [2], [0, 1]⟩)
      = .error (.fault .oob) := by decide +kernel

end Verif.Kern.Wrap
