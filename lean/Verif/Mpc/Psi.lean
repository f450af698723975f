import Verif.Mpc.Oprf
import Verif.Mpc.Silent
import Verif.Kern.OkvsSolve
/-
Model of the two private set intersection protocols,
/repo/mplang/libs/mpc/psi/rr22.py and /repo/mplang/libs/mpc/psi/unbalanced.py.

JAX runs with 64-bit integers enabled (the library's uint64 arithmetic needs it) and both parties
use the same kernel build; `words` is the OKVS hash under the session seed both parties hold.
-/
namespace Verif.Mpc
open Verif.Kern

variable {A : Type} [AddCommGroup A] [DecidableEq A]

/-- `get_okvs_expansion`, as a fraction. /repo/mplang/libs/mpc/psi/okvs_gct.py:32-71 -/
def expansion (n : Nat) : Nat × Nat :=
  if n ≤ 200 then (25, 1)
  else if n < 1000 then (12, 1)
  else if n ≤ 10000 then (16, 10)
  else if n ≤ 100000 then (14, 10)
  else (135, 100)

/-- `int(n * expansion)`; the product is computed exactly here, in floating point in the code
(the theorems below hold for every table size, so a rounding difference does not matter). -/
def tableBase (n : Nat) : Nat := n * (expansion n).1 / (expansion n).2

/-- The table size of RR22, rounded up to a multiple of 128.
/repo/mplang/libs/mpc/psi/rr22.py:112-115 -/
def tableRr22 (n : Nat) : Nat :=
  if tableBase n % 128 ≠ 0 then (tableBase n / 128 + 1) * 128 else tableBase n

/-- `H(x)`: one expansion block of the seed `(x, 0)`, xored with the seed.
/repo/mplang/libs/mpc/psi/rr22.py:153-165 and 220-232 -/
def hashItem (E : IknpEnv A) (x : Nat) : Blk := mmXor (E.aes (x, 0) 1 0) (x, 0)

/-- Little-endian bytes of a 64-bit word. -/
def le8 (w : Nat) : List Nat := (List.range 8).map fun i => w / 256 ^ i % 256

/-- The bytes hashed for a tag: the eight separator bytes and the two words of the tag are
concatenated as uint64, so each takes eight bytes.
/repo/mplang/libs/mpc/psi/rr22.py:269 with /repo/mplang/libs/mpc/ot/extension.py:86-95 -/
def tagBytes (t : Blk) : List Nat := (sepBytes 0x1111).flatMap le8 ++ (le8 t.1 ++ le8 t.2)

/-- The truncated hash of a tag. /repo/mplang/libs/mpc/psi/rr22.py:267-271 and 286-291 -/
def tagHash (E : IknpEnv A) (t : Blk) : List Nat :=
  (List.finRange 16).map fun i => E.hash (tagBytes t) ⟨i.val, by omega⟩

/-- A solver of the OKVS system: the Python or the native kernel. -/
abbrev Solver := (Nat → Nat × Nat) → List Nat → List Blk → Nat → Except OkvsErr (List Blk)

/-- Sender side: `K = Q * Delta + W`, one decode, and removal of `H(x) * Delta`.
/repo/mplang/libs/mpc/psi/rr22.py:200-245 -/
def senderTags (mul : Blk → Blk → Blk) (E : IknpEnv A) (words : Nat → Nat × Nat) (m : Nat)
    (xs : List Nat) (q w : List Blk) (delta : Blk) : List Blk :=
  let k := List.zipWith mmXor (q.map fun c => mul c delta) w
  List.zipWith mmXor (okvsDecode words xs k m) (xs.map fun x => mul (hashItem E x) delta)

/-- Receiver side: decode `V` at the own items and compare with all received hashes.
/repo/mplang/libs/mpc/psi/rr22.py:279-297 -/
def receiverMask (E : IknpEnv A) (words : Nat → Nat × Nat) (m : Nat) (ys : List Nat)
    (v : List Blk) (remote : List (List Nat)) : List Bool :=
  (okvsDecode words ys v m).map fun t => remote.any fun r => r == tagHash E t

/-- The protocol for a given table size: VOLE, encoding and masking by the receiver, tags by the
sender, verification by the receiver. `none` is an exception in one of the phases.
/repo/mplang/libs/mpc/psi/rr22.py:119-303 -/
def rr22With (mul : Blk → Blk → Blk) (solve : Solver) (C : Curve A) (E : IknpEnv A) (rC : Int)
    (ds : Fin iknpK → BaseDraw) (uBase : List Blk) (delta : Blk) (seed : Bytes32)
    (words : Nat → Nat × Nat) (m : Nat) (xs ys : List Nat) : Option (List Bool) :=
  match silentVole mul C E rC ds uBase delta seed m with
  | none => none
  | some o =>
    match solve words ys (ys.map (hashItem E)) m with
    | .error _ => none
    | .ok p =>
      let q := List.zipWith mmXor p o.u
      let tags := senderTags mul E words m xs q o.w o.delta
      some (receiverMask E words m ys o.v (tags.map (tagHash E)))

/-- `psi_intersect`. The sender's batch product needs exactly `n` items.
/repo/mplang/libs/mpc/psi/rr22.py:72-303 -/
def psiIntersect (mul : Blk → Blk → Blk) (solve : Solver) (C : Curve A) (E : IknpEnv A) (rC : Int)
    (ds : Fin iknpK → BaseDraw) (uBase : List Blk) (delta : Blk) (seed : Bytes32)
    (words : Nat → Nat × Nat) (sender receiver n : Nat) (xs ys : List Nat) : Option (List Bool) :=
  if sender = receiver then none
  else if n = 0 then none
  else if xs.length ≠ n then none
  else rr22With mul solve C E rC ds uBase delta seed words (tableRr22 n) xs ys

/-! ### Unbalanced protocol -/

/-- `KEY_DOMAIN`. /repo/mplang/libs/mpc/psi/unbalanced.py:114 -/
def keyDomain : Nat := 0xA5A5A5A5A5A5A5A5
/-- `VAL_DOMAIN`. /repo/mplang/libs/mpc/psi/unbalanced.py:116 -/
def valDomain : Nat := 0x5A5A5A5A5A5A5A5A

/-- `_prepare_key_seed` / `_prepare_val_seed`: wrapping uint64 arithmetic.
/repo/mplang/libs/mpc/psi/unbalanced.py:118-130 -/
def prepSeed (dom : Nat) (s : Blk) (x : Nat) : Blk :=
  (((x + s.1) % 2 ^ 64) ^^^ dom, ((x ^^^ s.2) + dom) % 2 ^ 64)

/-- Derived key of an item. /repo/mplang/libs/mpc/psi/unbalanced.py:133-139 -/
def derivedKey (E : IknpEnv A) (s : Blk) (x : Nat) : Nat := (E.aes (prepSeed keyDomain s x) 1 0).1

/-- Derived value of an item. /repo/mplang/libs/mpc/psi/unbalanced.py:142-148 -/
def derivedVal (E : IknpEnv A) (s : Blk) (x : Nat) : Blk := E.aes (prepSeed valDomain s x) 1 0

/-- `psi_unbalanced`. /repo/mplang/libs/mpc/psi/unbalanced.py:45-200 -/
def psiUnbalanced (solve : Solver) (E : IknpEnv A) (s : Blk) (words : Nat → Nat × Nat)
    (server client serverN clientN : Nat) (xs ys : List Nat) : Option (List Bool) :=
  if server = client then none
  else if clientN = 0 ∨ serverN = 0 then none
  else
    match solve words (xs.map (derivedKey E s)) (xs.map (derivedVal E s)) (tableBase serverN) with
    | .error _ => none
    | .ok table =>
      let dec := okvsDecode words (ys.map (derivedKey E s)) table table.length
      some (List.zipWith (fun d e : Blk => d.1 == e.1 && d.2 == e.2) dec
        (ys.map (derivedVal E s)))

/-! ### Algebra of one decode -/

theorem backSub_word (rows : List Tri) (values : List Blk) (hv : ∀ x ∈ values, WordPair x) :
    ∀ (st : List (Nat × Nat)) (out res : List Blk), (∀ x ∈ out, WordPair x) →
      backSub rows values st out = .ok res → ∀ x ∈ res, WordPair x
  | [], out, res, ho, h => by cases h; exact ho
  | (col, row) :: rest, out, res, ho, h => by
    rw [backSub] at h
    cases hr : values[row]? with
    | none => simp [hr] at h
    | some t =>
      simp only [hr] at h
      refine backSub_word rows values hv rest _ res ?_ h
      intro x hx
      rcases List.mem_or_eq_of_mem_set hx with hx | rfl
      · exact ho x hx
      · refine mmXor_word (hv t (List.mem_of_getElem? hr)) ?_
        unfold cell3
        exact mmXor_word (mmXor_word (getD_word ho _) (getD_word ho _)) (getD_word ho _)

theorem replicate_word (m : Nat) : ∀ x ∈ List.replicate m ((0, 0) : Blk), WordPair x := by
  intro x hx
  rw [List.mem_replicate] at hx
  rw [hx.2]; exact zero_word

theorem solve_word {words : Nat → Nat × Nat} {keys : List Nat} {values st : List Blk} {m : Nat}
    (hv : ∀ x ∈ values, WordPair x) (h : okvsSolve words keys values m = .ok st) :
    ∀ x ∈ st, WordPair x := by
  unfold okvsSolve at h
  split at h
  · cases h
  · simp only at h
    split at h
    · cases h
    · exact backSub_word _ _ hv _ _ _ (replicate_word m) h

theorem okvsSolve_length {words : Nat → Nat × Nat} {keys : List Nat} {values st : List Blk}
    {m : Nat} (hm : 3 ≤ m) (hv : values.length = keys.length)
    (h : okvsSolve words keys values m = .ok st) : st.length = m :=
  (okvs_decodes_every_key words keys values m hm hv st h).1

theorem mul_add_right {mul : Blk → Blk → Blk} (hm : Kernel mul) {a b d : Blk} (ha : WordPair a)
    (hb : WordPair b) (hd : WordPair d) : mul (mmXor a b) d = mmXor (mul a d) (mul b d) := by
  rw [kernel_comm hm (mmXor_word ha hb) hd, kernel_add hm hd ha hb, kernel_comm hm hd ha,
    kernel_comm hm hd hb]

/-- Decoding a table multiplied by a constant multiplies the decoded value. -/
theorem cell3_mul {mul : Blk → Blk → Blk} (hm : Kernel mul) {d : Blk} (hd : WordPair d)
    {p : List Blk} (hp : ∀ x ∈ p, WordPair x) (t : Tri) :
    cell3 (p.map fun c => mul c d) t = mul (cell3 p t) d := by
  have hg : ∀ i, (p.map fun c => mul c d).getD i (0, 0) = mul (p.getD i (0, 0)) d := by
    intro i
    rw [List.getD_eq_getElem?_getD, List.getD_eq_getElem?_getD, List.getElem?_map]
    by_cases hi : i < p.length
    · rw [List.getElem?_eq_getElem hi]; rfl
    · rw [List.getElem?_eq_none (by omega)]
      show (0, 0) = mul (0, 0) d
      rw [kernel_comm hm zero_word hd, kernel_zero hm hd]
  unfold cell3
  rw [hg, hg, hg, mul_add_right hm (mmXor_word (getD_word hp _) (getD_word hp _)) (getD_word hp _) hd,
    mul_add_right hm (getD_word hp _) (getD_word hp _) hd]

theorem cell3_xor {a b : List Blk} (h : a.length = b.length) (t : Tri) :
    cell3 (List.zipWith mmXor a b) t = mmXor (cell3 a t) (cell3 b t) := by
  have := fun i => getD_xorTables h i
  unfold xorTables at this
  unfold cell3
  rw [this, this, this]
  ac_rfl

theorem mmXor_swap (p u v : Blk) : mmXor (mmXor p u) (mmXor v u) = mmXor p v := by
  rw [mmXor_assoc, ← mmXor_assoc u v u, mmXor_comm u v, mmXor_cancel]

/-- `K = Q * Delta + W` is `P * Delta + V`. -/
theorem key_table {mul : Blk → Blk → Blk} (hm : Kernel mul) {d : Blk} (hd : WordPair d)
    {p u v : List Blk} (hp : ∀ x ∈ p, WordPair x) (hu : ∀ x ∈ u, WordPair x)
    (h1 : p.length = u.length) (h2 : v.length = u.length) :
    List.zipWith mmXor ((List.zipWith mmXor p u).map fun c => mul c d)
        (List.zipWith (fun v x => xorB v (mul x d)) v u)
      = List.zipWith mmXor (p.map fun c => mul c d) v := by
  induction p generalizing u v with
  | nil => rfl
  | cons a p ih =>
    match u, v with
    | [], _ => cases h1
    | _ :: _, [] => cases h2
    | b :: u, c :: v =>
      simp only [List.zipWith_cons_cons, List.map_cons]
      rw [ih (fun x hx => hp x (by simp [hx])) (fun x hx => hu x (by simp [hx]))
        (by simpa using h1) (by simpa using h2)]
      rw [mul_add_right hm (hp a (by simp)) (hu b (by simp)) hd, xorB_eq, mmXor_swap]

theorem expandOne_word {base : List Blk} (h : ∀ x ∈ base, WordPair x) (mask : Nat → Bool) :
    WordPair (expandOne base mask) := by
  rw [expandOne_eq]
  apply xorAll_word
  intro x hx
  rw [List.mem_map] at hx
  obtain ⟨j, _, rfl⟩ := hx
  split
  · exact getD_word h j
  · exact zero_word

theorem silent_u_word {mul : Blk → Blk → Blk} (hm : Kernel mul) {C : Curve A} (hC : CurveOk C)
    {E : IknpEnv A} {rC : Int} {ds : Fin iknpK → BaseDraw} {uBase : List Blk} {delta : Blk}
    (hu : ∀ x ∈ uBase, WordPair x) (hd : WordPair delta) {seed : Bytes32} {n : Nat} {o : VoleOut}
    (h : silentVole mul C E rC ds uBase delta seed n = some o) : ∀ x ∈ o.u, WordPair x := by
  unfold silentVole at h
  cases hb : vole mul C E rC ds uBase delta with
  | error e => simp [hb] at h
  | ok b =>
    have h1 := (vole_correlation mul hm C hC E rC ds uBase delta hu hd b hb).1
    by_cases hn : 0 < n
    · simp only [hb, expandSilent_eq E seed n hn, Option.some.injEq] at h
      subst h
      intro x hx
      simp only [List.mem_map] at hx
      obtain ⟨p, _, rfl⟩ := hx
      exact expandOne_word (by rw [h1]; exact hu) _
    · have : n = 0 := by omega
      subst this
      have h0 : (0 + chunkSize - 1) / chunkSize = 0 :=
        Nat.div_eq_of_lt (by have := chunkSize_pos; omega)
      simp [hb, expandSilent, h0] at h

/-! ### C50 -/

/-- Value of a table at one key, as the specification writes it: xor of the key's three cells. -/
def at3 (words : Nat → Nat × Nat) (m : Nat) (table : List Blk) (x : Nat) : Blk :=
  cell3 table (indices m (words x))

/-- The sender's tag for an item in terms of the three tables of the run. -/
def tagOf (mul : Blk → Blk → Blk) (E : IknpEnv A) (words : Nat → Nat × Nat) (m : Nat)
    (p v : List Blk) (delta : Blk) (x : Nat) : Blk :=
  mmXor (at3 words m v x) (mul (mmXor (at3 words m p x) (hashItem E x)) delta)

/-- **C50, exact result**: once the VOLE phase produced `o` and the receiver's encoding `p`, the
mask says at position `j` exactly whether some sender item has a tag with the same truncated hash
as the receiver's value of item `j`; the tag of `x` is `V(x) + (P(x) + H(x)) * Delta`. -/
theorem rr22_result (mul : Blk → Blk → Blk) (hm : Kernel mul) (solve : Solver) (C : Curve A)
    (hC : CurveOk C) (E : IknpEnv A) (hE : ∀ k l i, WordPair (E.aes k l i)) (rC : Int)
    (ds : Fin iknpK → BaseDraw) (uBase : List Blk) (delta : Blk) (seed : Bytes32)
    (hu : ∀ x ∈ uBase, WordPair x) (hd : WordPair delta)
    (words : Nat → Nat × Nat) (m : Nat) (xs ys : List Nat) (hx : ∀ x ∈ xs, x < 2 ^ 64)
    (o : VoleOut) (ho : silentVole mul C E rC ds uBase delta seed m = some o)
    (p : List Blk) (hp : solve words ys (ys.map (hashItem E)) m = .ok p) (hpl : p.length = m)
    (hpw : ∀ x ∈ p, WordPair x) :
    rr22With mul solve C E rC ds uBase delta seed words m xs ys
      = some (ys.map fun y => xs.any fun x =>
          tagHash E (tagOf mul E words m p o.v delta x) == tagHash E (at3 words m o.v y)) := by
  obtain ⟨h1, h2, h3, h4⟩ := silent_vole_correlation mul hm C hC E rC ds uBase delta hu hd seed m o ho
  have huw := silent_u_word hm hC hu hd ho
  unfold rr22With
  rw [ho]
  simp only [hp]
  refine congrArg some ?_
  have htags : senderTags mul E words m xs (List.zipWith mmXor p o.u) o.w o.delta
      = xs.map (tagOf mul E words m p o.v delta) := by
    unfold senderTags
    simp only
    rw [h1, h4, key_table hm hd hpw huw (by omega) (by omega)]
    unfold okvsDecode
    rw [List.zipWith_map, List.zipWith_self]
    refine List.map_congr_left ?_
    intro x hxm
    have hH : WordPair (hashItem E x) :=
      mmXor_word (hE _ _ _) ⟨hx x hxm, by show 0 < 2 ^ 64; decide⟩
    have hpx : WordPair (cell3 p (indices m (words x))) := by
      unfold cell3
      exact mmXor_word (mmXor_word (getD_word hpw _) (getD_word hpw _)) (getD_word hpw _)
    rw [cell3_xor (by simp; omega), cell3_mul hm hd hpw]
    unfold tagOf at3
    rw [mul_add_right hm hpx hH hd]
    ac_rfl
  rw [htags]
  unfold receiverMask okvsDecode
  rw [List.map_map]
  refine List.map_congr_left ?_
  intro y _
  simp only [Function.comp, List.map_map, List.any_map, at3]
  rfl

/-- **C50 (RR22)**: whenever the protocol with the Python kernels returns a mask, the mask has one
entry per receiver item, every receiver item that is also a sender item is marked at its own
position, and an item that is not a sender item is marked only if the tag of some other item has
the same truncated hash. -/
theorem rr22_complete (mul : Blk → Blk → Blk) (hm : Kernel mul) (C : Curve A) (hC : CurveOk C)
    (E : IknpEnv A) (hE : ∀ k l i, WordPair (E.aes k l i)) (rC : Int)
    (ds : Fin iknpK → BaseDraw) (uBase : List Blk) (delta : Blk) (seed : Bytes32)
    (hu : ∀ x ∈ uBase, WordPair x) (hd : WordPair delta)
    (words : Nat → Nat × Nat) (m : Nat) (h3 : 3 ≤ m) (xs ys : List Nat)
    (hx : ∀ x ∈ xs, x < 2 ^ 64) (hy : ∀ y ∈ ys, y < 2 ^ 64) (mask : List Bool)
    (h : rr22With mul okvsSolve C E rC ds uBase delta seed words m xs ys = some mask) :
    mask.length = ys.length ∧
    ∃ (p v : List Blk), p.length = m ∧ v.length = m ∧
      (∀ y ∈ ys, at3 words m p y = hashItem E y) ∧
      ∀ (j : Nat) (y : Nat), ys[j]? = some y →
        (y ∈ xs → mask[j]? = some true) ∧
        (mask[j]? = some true → y ∉ xs → ∃ x ∈ xs, x ≠ y ∧
          tagHash E (tagOf mul E words m p v delta x) = tagHash E (at3 words m v y)) := by
  cases ho : silentVole mul C E rC ds uBase delta seed m with
  | none => unfold rr22With at h; simp [ho] at h
  | some o =>
    cases hp : okvsSolve words ys (ys.map (hashItem E)) m with
    | error e => unfold rr22With at h; simp [ho, hp] at h
    | ok p =>
      have hvw : ∀ x ∈ ys.map (hashItem E), WordPair x := by
        intro x hxm
        rw [List.mem_map] at hxm
        obtain ⟨y, hym, rfl⟩ := hxm
        exact mmXor_word (hE _ _ _) ⟨hy y hym, by show 0 < 2 ^ 64; decide⟩
      obtain ⟨hpl, hdec⟩ := okvs_decodes_every_key words ys _ m h3 (by simp) p hp
      have hres := rr22_result mul hm okvsSolve C hC E hE rC ds uBase delta seed hu hd words m xs ys hx
        o ho p hp hpl (solve_word hvw hp)
      rw [h] at hres
      have hmask := Option.some.inj hres
      subst hmask
      have hat : ∀ y ∈ ys, at3 words m p y = hashItem E y := by
        unfold okvsDecode at hdec
        exact fun y hym => List.map_inj_left.1 hdec y hym
      refine ⟨by simp, p, o.v, hpl, (silent_vole_correlation mul hm C hC E rC ds uBase delta hu hd
        seed m o ho).2.2.1, hat, ?_⟩
      intro j y hj
      rw [List.getElem?_map, hj]
      simp only [Option.map_some, Option.some.injEq, List.any_eq_true, beq_iff_eq]
      constructor
      · intro hyx
        refine ⟨y, hyx, ?_⟩
        have hym := List.mem_of_getElem? hj
        unfold tagOf
        rw [hat y hym, mmXor_self, kernel_comm hm zero_word hd, kernel_zero hm hd, mmXor_zero]
      · rintro ⟨x, hxm, he⟩ hn
        exact ⟨x, hxm, fun e => hn (e ▸ hxm), he⟩

/-- The native solver returns a table of the right size with 64-bit words. -/
theorem native_solve_good {words : Nat → Nat × Nat} {keys : List Nat} {values st : List Blk}
    {m : Nat} (hm : 3 ≤ m) (hv : values.length = keys.length) (hw : ∀ x ∈ values, WordPair x)
    (h : okvsSolveNative words keys values m = .ok st) :
    st.length = m ∧ ∀ x ∈ st, WordPair x := by
  unfold okvsSolveNative at h
  split at h
  · cases h; exact ⟨by simp, replicate_word m⟩
  · exact ⟨okvsSolve_length hm hv h, solve_word hw h⟩

/-- **C50 (RR22), the part that holds with the native kernels**: if the receiver's items can be
peeled, no common element is missed. -/
theorem rr22_native_partial (mul : Blk → Blk → Blk) (hm : Kernel mul) (C : Curve A)
    (hC : CurveOk C) (E : IknpEnv A) (hE : ∀ k l i, WordPair (E.aes k l i)) (rC : Int)
    (ds : Fin iknpK → BaseDraw) (uBase : List Blk) (delta : Blk) (seed : Bytes32)
    (hu : ∀ x ∈ uBase, WordPair x) (hd : WordPair delta)
    (words : Nat → Nat × Nat) (m : Nat) (h3 : 3 ≤ m) (xs ys : List Nat)
    (hx : ∀ x ∈ xs, x < 2 ^ 64) (hy : ∀ y ∈ ys, y < 2 ^ 64)
    (hpeel : Peelable Tri.cols (keyRows words ys m)) (mask : List Bool)
    (h : rr22With mul okvsSolveNative C E rC ds uBase delta seed words m xs ys = some mask) :
    ∀ (j : Nat) (y : Nat), ys[j]? = some y → y ∈ xs → mask[j]? = some true := by
  obtain ⟨st, hst, _, _⟩ := solve_peelable words ys (ys.map (hashItem E)) m h3 (by simp) hpeel
  have hn : okvsSolveNative words ys (ys.map (hashItem E)) m = .ok st := by
    unfold okvsSolveNative; rw [hst]
  have h' : rr22With mul okvsSolve C E rC ds uBase delta seed words m xs ys = some mask := by
    unfold rr22With at h ⊢
    rw [hn] at h
    rw [hst]
    exact h
  obtain ⟨_, _, _, _, _, _, hall⟩ := rr22_complete mul hm C hC E hE rC ds uBase delta seed hu hd words m
    h3 xs ys hx hy mask h'
  exact fun j y hj hyx => (hall j y hj).1 hyx

theorem tableRr22_ge (n : Nat) (hn : 0 < n) : 3 ≤ tableRr22 n := by
  have hb : 1 ≤ tableBase n := by
    unfold tableBase expansion
    split
    · simp; omega
    · split
      · simp; omega
      · split
        · simp only; omega
        · split
          · simp only; omega
          · simp only; omega
  unfold tableRr22
  split
  · omega
  · rename_i h
    have : tableBase n % 128 = 0 := by omega
    omega

/-- **C50** for the API function: it refuses equal ranks and empty inputs, and otherwise never
misses a common element. -/
theorem psi_intersect_complete (mul : Blk → Blk → Blk) (hm : Kernel mul) (C : Curve A)
    (hC : CurveOk C) (E : IknpEnv A) (hE : ∀ k l i, WordPair (E.aes k l i)) (rC : Int)
    (ds : Fin iknpK → BaseDraw) (uBase : List Blk) (delta : Blk) (seed : Bytes32)
    (hu : ∀ x ∈ uBase, WordPair x) (hd : WordPair delta)
    (words : Nat → Nat × Nat) (sender receiver n : Nat) (xs ys : List Nat)
    (hx : ∀ x ∈ xs, x < 2 ^ 64) (hy : ∀ y ∈ ys, y < 2 ^ 64) (mask : List Bool)
    (h : psiIntersect mul okvsSolve C E rC ds uBase delta seed words sender receiver n xs ys
      = some mask) :
    sender ≠ receiver ∧ 0 < n ∧ mask.length = ys.length ∧
      ∀ (j : Nat) (y : Nat), ys[j]? = some y → y ∈ xs → mask[j]? = some true := by
  unfold psiIntersect at h
  split at h
  · cases h
  · rename_i hsr
    split at h
    · cases h
    · rename_i hn
      split at h
      · cases h
      · obtain ⟨hl, _, _, _, _, _, hall⟩ := rr22_complete mul hm C hC E hE rC ds uBase delta seed hu hd
          words _ (tableRr22_ge n (by omega)) xs ys hx hy mask h
        exact ⟨hsr, by omega, hl, fun j y hj hyx => (hall j y hj).1 hyx⟩

/-- **C50 (unbalanced)**: whenever the protocol returns, the mask has one entry per client item,
every client item that is a server item is marked, and an item is marked exactly when the table
decodes, at its derived key, to its derived value. -/
theorem unbalanced_complete (E : IknpEnv A) (s : Blk) (words : Nat → Nat × Nat)
    (server client serverN clientN : Nat) (xs ys : List Nat) (mask : List Bool)
    (h : psiUnbalanced okvsSolve E s words server client serverN clientN xs ys = some mask) :
    server ≠ client ∧ mask.length = ys.length ∧
    ∃ table, table.length = tableBase serverN ∧
      (∀ x ∈ xs, at3 words (tableBase serverN) table (derivedKey E s x) = derivedVal E s x) ∧
      ∀ (j : Nat) (y : Nat), ys[j]? = some y →
        (y ∈ xs → mask[j]? = some true) ∧
        (mask[j]? = some true ↔
          at3 words (tableBase serverN) table (derivedKey E s y) = derivedVal E s y) := by
  unfold psiUnbalanced at h
  split at h
  · cases h
  · rename_i hsc
    split at h
    · cases h
    · rename_i hn
      cases hs : okvsSolve words (xs.map (derivedKey E s)) (xs.map (derivedVal E s))
          (tableBase serverN) with
      | error e => simp [hs] at h
      | ok table =>
        simp only [hs, Option.some.injEq] at h
        have h3 : 3 ≤ tableBase serverN := by
          have : 0 < serverN := by omega
          unfold tableBase expansion
          split
          · simp; omega
          · split
            · simp; omega
            · split
              · simp only; omega
              · split
                · simp only; omega
                · simp only; omega
        obtain ⟨hl, hdec⟩ := okvs_decodes_every_key words _ _ _ h3 (by simp) table hs
        have hat : ∀ x ∈ xs, at3 words (tableBase serverN) table (derivedKey E s x)
            = derivedVal E s x := by
          unfold okvsDecode at hdec
          rw [List.map_map] at hdec
          exact fun x hx => List.map_inj_left.1 hdec x hx
        rw [hl] at h
        have hmask : mask = ys.map fun y =>
            decide (at3 words (tableBase serverN) table (derivedKey E s y) = derivedVal E s y) := by
          rw [← h]
          unfold okvsDecode
          rw [List.map_map, List.zipWith_map, List.zipWith_self]
          refine List.map_congr_left ?_
          intro y _
          simp only [Function.comp]
          rw [Bool.eq_iff_iff, Bool.and_eq_true, beq_iff_eq, beq_iff_eq, decide_eq_true_eq]
          exact ⟨fun h => Prod.ext h.1 h.2, fun h => by
            show (at3 words (tableBase serverN) table (derivedKey E s y)).1 = _ ∧
              (at3 words (tableBase serverN) table (derivedKey E s y)).2 = _
            rw [h]; exact ⟨rfl, rfl⟩⟩
        subst hmask
        refine ⟨hsc, by simp, table, hl, hat, ?_⟩
        intro j y hj
        rw [List.getElem?_map, hj]
        simp only [Option.map_some, Option.some.injEq, decide_eq_true_eq]
        exact ⟨hat y, trivial⟩

/-! ### Concrete runs -/

/-- Environment stand-in with 64-bit words and a hash that shows the first tag byte, for the
examples only. -/
def psiEnv : IknpEnv (ZMod 11) :=
  { keyOf := fun p i => (val p).val * 3 + i
    hash := fun l i => l.getD (64 + i.val) 0
    aes := fun k _ i => ((k.1 + 1 + i) % 2 ^ 64, k.2 % 2 ^ 64) }

theorem psiEnv_word (k : Blk) (l i : Nat) : WordPair (psiEnv.aes k l i) :=
  ⟨Nat.mod_lt _ (by decide), Nat.mod_lt _ (by decide)⟩

theorem toy_silent (mul : Blk → Blk → Blk) (uBase : List Blk) (delta : Blk) (m : Nat) (hm : 0 < m) :
    ∃ o, silentVole mul toyCurve psiEnv 7 toyDraws uBase delta (fun i => i) m = some o :=
  silent_total mul toyCurve toyCurve_ok psiEnv 7 toyDraws uBase delta (fun i => i) m hm
    (fun _ => by show ((3 : Int) % 11 ≠ 0); decide) (fun _ => by show ((5 : Int) % 11 ≠ 0); decide)
    (fun _ => by show ((7 - 3 : Int) % 11 ≠ 0); decide)

theorem toy_peelable : Peelable Tri.cols (keyRows (pyWords 0xDEADBEEF 0xCAFEBABE) [10, 20, 30] 7) :=
  (okvs_solves_iff_peelable _ _ [(1, 2), (3, 4), (5, 6)] 7 (by decide) rfl).1.1
    ⟨exampleTable, by decide +kernel⟩

/-- A run with three receiver items, two of which the sender also has. -/
example : ∃ mask, rr22With gfMul okvsSolve toyCurve psiEnv 7 toyDraws [(5, 9), (2 ^ 63, 1)]
      (3, 2 ^ 63) (fun i => i) (pyWords 0xDEADBEEF 0xCAFEBABE) 7 [30, 7, 10] [10, 20, 30] = some mask ∧
    mask.length = 3 ∧ mask[0]? = some true ∧ mask[2]? = some true := by
  have hu : ∀ x ∈ [((5, 9) : Blk), (2 ^ 63, 1)], WordPair x := by
    intro x hx
    simp only [List.mem_cons, List.not_mem_nil, or_false] at hx
    rcases hx with rfl | rfl <;> exact ⟨by decide, by decide⟩
  have hd : WordPair (3, 2 ^ 63) := ⟨by decide, by decide⟩
  obtain ⟨o, ho⟩ := toy_silent gfMul [(5, 9), (2 ^ 63, 1)] (3, 2 ^ 63) 7 (by omega)
  obtain ⟨p, hp, _, _⟩ := solve_peelable (pyWords 0xDEADBEEF 0xCAFEBABE) [10, 20, 30]
    ([10, 20, 30].map (hashItem psiEnv)) 7 (by omega) (by simp) toy_peelable
  have : ∃ mask, rr22With gfMul okvsSolve toyCurve psiEnv 7 toyDraws [(5, 9), (2 ^ 63, 1)]
      (3, 2 ^ 63) (fun i => i) (pyWords 0xDEADBEEF 0xCAFEBABE) 7 [30, 7, 10] [10, 20, 30]
      = some mask := by
    unfold rr22With
    rw [ho]
    simp only [hp]
    exact ⟨_, rfl⟩
  obtain ⟨mask, hmask⟩ := this
  obtain ⟨hl, _, _, _, _, _, hall⟩ := rr22_complete gfMul (Or.inl rfl) toyCurve toyCurve_ok psiEnv
    psiEnv_word 7 toyDraws _ _ _ hu hd _ 7 (by omega) _ _ (by simp) (by simp) mask hmask
  exact ⟨mask, hmask, hl, (hall 0 10 rfl).1 (by simp), (hall 2 30 rfl).1 (by simp)⟩

theorem psiEnv_tagHash (t t' : Blk) (h : tagHash psiEnv t = tagHash psiEnv t') :
    t.1 % 256 = t'.1 % 256 := by
  have key : ∀ t : Blk, (tagHash psiEnv t)[0]? = some (t.1 % 256) := by
    intro t
    unfold tagHash
    rw [List.getElem?_map]
    show some (psiEnv.hash (tagBytes t) ⟨0, _⟩) = _
    show some ((tagBytes t).getD 64 0) = _
    unfold tagBytes
    rw [List.getD_eq_getElem?_getD, List.getElem?_append_right (by decide)]
    have : ((sepBytes 0x1111).flatMap le8).length = 64 := by decide
    rw [this, List.getElem?_append_left (by simp [le8])]
    simp [le8]
  have := congrArg (fun l => l[0]?) h
  simp only [key, Option.some.injEq] at this
  exact this

/-- **C50 is violated with the native kernels**: when the receiver's items cannot be peeled the
native solver still reports success, the protocol returns a mask and misses common elements:
here both parties hold `[1, 2]` and nothing is marked. -/
theorem rr22_native_violated :
    ∃ (words : Nat → Nat × Nat) (mask : List Bool),
      psiIntersect gfMulNative okvsSolveNative toyCurve psiEnv 7 toyDraws [(5, 9)] (1, 0)
        (fun i => i) words 0 1 2 [1, 2] [1, 2] = some mask ∧ mask = [false, false] := by
  have hu : ∀ x ∈ [((5, 9) : Blk)], WordPair x := by
    intro x hx
    simp only [List.mem_cons, List.not_mem_nil, or_false] at hx
    subst hx; exact ⟨by decide, by decide⟩
  have hd : WordPair (1, 0) := ⟨by decide, by decide⟩
  have hm : tableRr22 2 = 128 := by decide
  obtain ⟨o, ho⟩ := toy_silent gfMulNative [(5, 9)] (1, 0) 128 (by omega)
  have hs : okvsSolveNative (fun _ => (0, 1)) [1, 2] ([1, 2].map (hashItem psiEnv)) 128
      = .ok (List.replicate 128 (0, 0)) := by
    unfold okvsSolveNative
    rw [solve_not_peelable (fun _ => (0, 1)) [1, 2] _ 128 (by omega) ?_]
    intro hp
    exact peelable_dup hp _ _ rfl (List.Sublist.refl _)
  refine ⟨fun _ => (0, 1), [false, false], ?_, rfl⟩
  unfold psiIntersect
  rw [if_neg (by decide), if_neg (by decide), if_neg (by simp), hm,
    rr22_result gfMulNative (Or.inr rfl) okvsSolveNative toyCurve toyCurve_ok psiEnv psiEnv_word 7
      toyDraws _ _ _ hu hd _ 128 [1, 2] [1, 2] (by simp) o ho _ hs (by simp) (replicate_word 128)]
  have h0 : ∀ y, at3 (fun _ => (0, 1)) 128 (List.replicate 128 ((0, 0) : Blk)) y = (0, 0) := by
    intro y
    show cell3 (List.replicate 128 ((0, 0) : Blk)) (indices 128 (0, 1)) = (0, 0)
    decide
  have hne : ∀ x ∈ [1, 2], ∀ y, (tagHash psiEnv
      (tagOf gfMulNative psiEnv (fun _ => (0, 1)) 128 (List.replicate 128 ((0, 0) : Blk)) o.v (1, 0) x)
      == tagHash psiEnv (at3 (fun _ => (0, 1)) 128 o.v y)) = false := by
    intro x hx y
    rw [beq_eq_false_iff_ne]
    intro he
    have := psiEnv_tagHash _ _ he
    unfold tagOf at this
    rw [h0] at this
    have hc : (gfMulNative (mmXor (0, 0) (hashItem psiEnv x)) (1, 0)).1 = 3 ∨
        (gfMulNative (mmXor (0, 0) (hashItem psiEnv x)) (1, 0)).1 = 1 := by
      simp only [List.mem_cons, List.not_mem_nil, or_false] at hx
      rcases hx with rfl | rfl
      · exact Or.inl (by decide +kernel)
      · exact Or.inr (by decide +kernel)
    have hv : at3 (fun _ => (0, 1)) 128 o.v x = at3 (fun _ => (0, 1)) 128 o.v y := rfl
    rw [hv] at this
    generalize (at3 (fun _ => (0, 1)) 128 o.v y) = V at this
    generalize hcc : gfMulNative (mmXor (0, 0) (hashItem psiEnv x)) (1, 0) = c at this hc
    change (V.1 ^^^ c.1) % 256 = V.1 % 256 at this
    have e := Nat.xor_mod_two_pow (a := V.1) (b := c.1) (n := 8)
    change (V.1 ^^^ c.1) % 256 = V.1 % 256 ^^^ c.1 % 256 at e
    rw [this] at e
    have e2 : c.1 % 256 = 0 := by
      have := congrArg (fun z => V.1 % 256 ^^^ z) e
      simp only [Nat.xor_self, ← Nat.xor_assoc, Nat.zero_xor] at this
      exact this.symm
    omega
  refine congrArg some ?_
  generalize List.replicate 128 ((0, 0) : Blk) = z at hne
  simp only [List.map_cons, List.map_nil, List.any_cons, List.any_nil, Bool.or_false]
  rw [hne 1 (by simp), hne 2 (by simp), hne 1 (by simp), hne 2 (by simp)]
  rfl

/-- **C50 is violated with the native kernels** in the unbalanced protocol as well: the server's
items cannot be peeled, the all-zero table is sent, and the client finds no common element although
it holds exactly the server's items. -/
theorem unbalanced_native_violated :
    ∃ words, psiUnbalanced okvsSolveNative psiEnv (11, 12) words 0 1 2 2 [1, 2] [1, 2]
      = some [false, false] := ⟨fun _ => (0, 1), by decide +kernel⟩

/-- **C50 (unbalanced), the part that holds with the native kernels**: if the derived keys of the
server's items can be peeled, no common element is missed. -/
theorem unbalanced_native_partial (E : IknpEnv A) (s : Blk) (words : Nat → Nat × Nat)
    (server client serverN clientN : Nat) (xs ys : List Nat) (mask : List Bool)
    (h3 : 3 ≤ tableBase serverN)
    (hpeel : Peelable Tri.cols (keyRows words (xs.map (derivedKey E s)) (tableBase serverN)))
    (h : psiUnbalanced okvsSolveNative E s words server client serverN clientN xs ys = some mask) :
    ∀ (j : Nat) (y : Nat), ys[j]? = some y → y ∈ xs → mask[j]? = some true := by
  obtain ⟨st, hst, _, _⟩ := solve_peelable words (xs.map (derivedKey E s))
    (xs.map (derivedVal E s)) (tableBase serverN) h3 (by simp) hpeel
  have hn : okvsSolveNative words (xs.map (derivedKey E s)) (xs.map (derivedVal E s))
      (tableBase serverN) = .ok st := by unfold okvsSolveNative; rw [hst]
  have h' : psiUnbalanced okvsSolve E s words server client serverN clientN xs ys = some mask := by
    unfold psiUnbalanced at h ⊢
    rw [hn] at h
    rw [hst]
    exact h
  obtain ⟨_, _, _, _, _, hall⟩ := unbalanced_complete E s words server client serverN clientN xs ys
    mask h'
  exact fun j y hj hyx => (hall j y hj).1 hyx

/-- A run of the unbalanced protocol: three server items, two of the client's three items among
them. -/
example : ∃ mask, psiUnbalanced okvsSolve psiEnv (11, 12) (pyWords 0xDEADBEEF 0xCAFEBABE) 0 1 3 3
    [4, 5, 6] [6, 9, 4] = some mask ∧ mask[0]? = some true ∧ mask[2]? = some true := by
  have h : (psiUnbalanced okvsSolve psiEnv (11, 12) (pyWords 0xDEADBEEF 0xCAFEBABE) 0 1 3 3
    [4, 5, 6] [6, 9, 4]).isSome = true := by decide +kernel
  obtain ⟨mask, hm⟩ := Option.isSome_iff_exists.1 h
  obtain ⟨_, _, _, _, _, hall⟩ := unbalanced_complete psiEnv _ _ _ _ _ _ _ _ mask hm
  exact ⟨mask, hm, (hall 0 6 rfl).1 (by simp), (hall 2 4 rfl).1 (by simp)⟩

end Verif.Mpc
