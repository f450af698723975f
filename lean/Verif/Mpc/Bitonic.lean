import Mathlib.Data.Nat.Log
import Mathlib.Data.List.Perm.Basic
import Mathlib.Data.Nat.Bitwise
import Verif.Mpc.BaseOt
/-
Model of the oblivious permutation network, /repo/mplang/libs/mpc/analytics/permutation.py.

Simplification: an array of length `n` is a function on `Nat` that is read below `n` only; the
arrays are one-dimensional (the element-wise transfer rejects other shapes).
-/
namespace Verif.Mpc

/-- `x.at[idx].set(vals)` for parallel index and value lists, later entries winning.
/repo/mplang/libs/mpc/analytics/permutation.py:91, 126-127, 296-297, 338-339 -/
def scatter {α : Type} (f : Nat → α) (ps : List (Nat × α)) : Nat → α :=
  ps.foldl (fun g p => fun q => if q = p.1 then p.2 else g q) f

/-- `indices[partners > indices]` with `partners = indices ^ step_dist`: the lower index of every
pair of a step. /repo/mplang/libs/mpc/analytics/permutation.py:102-107, 231-236 -/
def lowIx (n d : Nat) : List Nat := (List.range n).filter fun i => decide (i ^^^ d > i)

/-- Sort direction of the block holding index `i`: `(i // 2**(stage+1)) % 2 == 0`.
/repo/mplang/libs/mpc/analytics/permutation.py:110-113 -/
def ascAt (stage i : Nat) : Bool := (i / 2 ^ (stage + 1)) % 2 == 0

/-- `should_swap` of one pair. /repo/mplang/libs/mpc/analytics/permutation.py:116-122 -/
def shouldSwap (stage d : Nat) (cur : Nat → Nat) (i : Nat) : Bool :=
  if ascAt stage i then decide (cur i > cur (i ^^^ d)) else decide (cur i < cur (i ^^^ d))

/-- The control bits of one step. /repo/mplang/libs/mpc/analytics/permutation.py:122-124 -/
def stepCtrl (n stage d : Nat) (cur : Nat → Nat) : List Bool :=
  (lowIx n d).map (shouldSwap stage d cur)

/-- The new values at the lower indices: `where(ctrls, val_j, val_i)`.
/repo/mplang/libs/mpc/analytics/permutation.py:127, 335 -/
def newLow {α : Type} (n d : Nat) (ctrls : List Bool) (f : Nat → α) : List (Nat × α) :=
  ((lowIx n d).zip ctrls).map fun p => (p.1, if p.2 then f (p.1 ^^^ d) else f p.1)

/-- The new values at the upper indices: `where(ctrls, val_i, val_j)`.
/repo/mplang/libs/mpc/analytics/permutation.py:128, 336 -/
def newHigh {α : Type} (n d : Nat) (ctrls : List Bool) (f : Nat → α) : List (Nat × α) :=
  ((lowIx n d).zip ctrls).map fun p => (p.1 ^^^ d, if p.2 then f p.1 else f (p.1 ^^^ d))

/-- One local step: both halves of every pair are written back.
/repo/mplang/libs/mpc/analytics/permutation.py:126-131, 323-341 -/
def localStep {α : Type} (n d : Nat) (ctrls : List Bool) (f : Nat → α) : Nat → α :=
  scatter (scatter f (newLow n d ctrls f)) (newHigh n d ctrls f)

/-- The steps of the network, `(stage, step_dist)`, in order.
/repo/mplang/libs/mpc/analytics/permutation.py:97-99, 225-227 -/
def schedule (k : Nat) : List (Nat × Nat) :=
  (List.range k).flatMap fun s => (List.range (s + 1)).map fun t => (s, 2 ^ (s - t))

/-- The loop of `_compute_bitonic_sort_controls`: record the controls of a step, then update.
/repo/mplang/libs/mpc/analytics/permutation.py:94-133 -/
def genControls (n : Nat) : List (Nat × Nat) → (Nat → Nat) → List Bool
  | [], _ => []
  | (s, d) :: rest, cur =>
    let c := stepCtrl n s d cur
    c ++ genControls n rest (localStep n d c cur)

/-- `current.at[perm].set(arange(n))` on zeros.
/repo/mplang/libs/mpc/analytics/permutation.py:88-91 -/
def destOf (n : Nat) (perm : Nat → Nat) : Nat → Nat :=
  scatter (fun _ => 0) ((List.range n).map fun i => (perm i, i))

/-- `get_step_ctrls(controls, off, count)`: a slice of the control bits.
/repo/mplang/libs/mpc/analytics/permutation.py:210-222 -/
def stepSlice (all : List Bool) (off cnt : Nat) : List Bool := (all.drop off).take cnt

/-- The steps executed on the receiver. /repo/mplang/libs/mpc/analytics/permutation.py:316-352 -/
def runLocal {α : Type} (n : Nat) (all : List Bool) :
    List (Nat × Nat) → Nat → (Nat → α) → (Nat → α)
  | [], _, f => f
  | (_, d) :: rest, off, f =>
    let cnt := (lowIx n d).length
    runLocal n all rest (off + cnt) (localStep n d (stepSlice all off cnt) f)

/-- The draws of one batch of transfers: the sender's common scalar, and for every element the
receiver's key, the two ephemeral keys and the two nonces.
/repo/mplang/libs/mpc/ot/base.py:140-178 -/
structure OtDraws (Nonce : Type) where
  r : Int
  k : Nat → Int
  r0 : Nat → Int
  r1 : Nat → Int
  n0 : Nat → Nonce
  n1 : Nat → Nonce

/-- The batch handed to `ot.transfer(x0, x1, bits)`.
/repo/mplang/libs/mpc/ot/base.py:107-148 -/
def otBatch {M Nonce : Type} (dr : OtDraws Nonce) (x0 x1 : List M) (bits : List Int) :
    List (OtElem M Nonce) :=
  ((x0.zip x1).zip bits).mapIdx fun i p =>
    ⟨p.1.1, p.1.2, p.2, dr.k i, dr.r0 i, dr.r1 i, dr.n0 i, dr.n1 i⟩

variable {A : Type} [AddCommGroup A] [DecidableEq A]
variable {M Ct Key Nonce : Type}

/-- A control bit as the integer the transfer computes with. -/
def bitInt (b : Bool) : Int := if b then 1 else 0

/-- `secure_switch`: one transfer on the control bits and one on their complements.
/repo/mplang/libs/mpc/analytics/permutation.py:41-69 -/
def secureSwitch (C : Curve A) (S : Sym A M Ct Key Nonce) (dr0 dr1 : OtDraws Nonce)
    (x0 x1 : List M) (ctrls : List Bool) : Except OtErr (List M × List M) :=
  match transfer C S dr0.r (otBatch dr0 x0 x1 (ctrls.map bitInt)) with
  | .error e => .error e
  | .ok y0 =>
    match transfer C S dr1.r (otBatch dr1 x0 x1 (ctrls.map fun b => 1 - bitInt b)) with
    | .error e => .error e
    | .ok y1 => .ok (y0, y1)

/-- The network: the first step goes through `secure_switch` and is scattered into zeros on the
receiver; the rest runs locally. /repo/mplang/libs/mpc/analytics/permutation.py:198-352 -/
def runNetwork (C : Curve A) (S : Sym A M Ct Key Nonce) (dr0 dr1 : OtDraws Nonce) (zero : M)
    (n : Nat) (all : List Bool) (f : Nat → M) : List (Nat × Nat) → Except OtErr (Nat → M)
  | [] => .ok f
  | (_, d) :: rest =>
    let ix := lowIx n d
    match secureSwitch C S dr0 dr1 (ix.map f) (ix.map fun i => f (i ^^^ d))
        (stepSlice all 0 ix.length) with
    | .error e => .error e
    | .ok (yi, yj) =>
      let g := scatter (scatter (fun _ => zero) (ix.zip yi)) ((ix.map (· ^^^ d)).zip yj)
      .ok (runLocal n all rest ix.length g)

/-- `n_padded = 2 ** ceil(log2(max(n, 2)))`; the floating point logarithm is taken as exact.
/repo/mplang/libs/mpc/analytics/permutation.py:172 -/
def padExp (n : Nat) : Nat := Nat.clog 2 (max n 2)

/-- `apply_permutation` on a one-dimensional array: pad with zeros and the identity, compute the
controls, run the network, cut. /repo/mplang/libs/mpc/analytics/permutation.py:136-386 -/
def applyPermutation (C : Curve A) (S : Sym A M Ct Key Nonce) (dr0 dr1 : OtDraws Nonce) (zero : M)
    (data : List M) (perm : List Nat) : Except OtErr (List M) :=
  let n := data.length
  let k := padExp n
  let np := 2 ^ k
  let dat : Nat → M := fun i => (data ++ List.replicate (np - n) zero).getD i zero
  let prm : Nat → Nat := fun i => (perm ++ (List.range' n (np - n))).getD i 0
  let all := genControls np (schedule k) (destOf np prm)
  match runNetwork C S dr0 dr1 zero np all dat (schedule k) with
  | .error e => .error e
  | .ok out => .ok (((List.range np).map out).take n)

/-! ### One step -/

section step
variable {α : Type}

theorem scatter_keyed (g : Nat → α) (h : Nat → α) : ∀ (ks : List Nat) (f : Nat → α) (p : Nat),
    (∀ q ∈ ks, h q = g q) →
    scatter f (ks.map fun q => (q, h q)) p = if p ∈ ks then g p else f p := by
  intro ks
  induction ks with
  | nil => intro f p _; simp [scatter]
  | cons a l ih =>
    intro f p hg
    have := ih (fun q => if q = a then h a else f q) p (fun q hq => hg q (by simp [hq]))
    simp only [scatter, List.map_cons, List.foldl_cons] at this ⊢
    rw [this]
    by_cases hp : p ∈ l
    · simp [hp]
    · by_cases hpa : p = a
      · subst hpa; simp [hp, hg p (by simp)]
      · simp [hp, hpa]

theorem xor_two_pow (i j : Nat) : i ^^^ 2 ^ j = 2 ^ j * (i / 2 ^ j ^^^ 1) + i % 2 ^ j := by
  have h1 : (i ^^^ 2 ^ j) / 2 ^ j = i / 2 ^ j ^^^ 1 := by
    rw [Nat.xor_div_two_pow, Nat.div_self (Nat.two_pow_pos j)]
  have h2 : (i ^^^ 2 ^ j) % 2 ^ j = i % 2 ^ j := by
    rw [Nat.xor_mod_two_pow, Nat.mod_self, Nat.xor_zero]
  rw [← h1, ← h2, Nat.div_add_mod]

/-- In an aligned block the partner of a lower index is `2 ^ j` above it. -/
theorem xor_low (m r j : Nat) (hr : r < 2 ^ j) :
    (2 ^ (j + 1) * m + r) ^^^ 2 ^ j = 2 ^ (j + 1) * m + (2 ^ j + r) := by
  have e : 2 ^ (j + 1) * m + r = r + 2 ^ j * (2 * m) := by ring
  have hd : (2 ^ (j + 1) * m + r) / 2 ^ j = 2 * m := by
    rw [e, Nat.add_mul_div_left _ _ (Nat.two_pow_pos j), Nat.div_eq_of_lt hr, Nat.zero_add]
  have hm : (2 ^ (j + 1) * m + r) % 2 ^ j = r := by
    rw [e, Nat.add_mul_mod_self_left, Nat.mod_eq_of_lt hr]
  rw [xor_two_pow, hd, hm, Nat.xor_one_of_even (by simp)]
  ring

/-- ... and the partner of an upper index is `2 ^ j` below it. -/
theorem xor_high (m r j : Nat) (hr : r < 2 ^ j) :
    (2 ^ (j + 1) * m + (2 ^ j + r)) ^^^ 2 ^ j = 2 ^ (j + 1) * m + r := by
  rw [← xor_low m r j hr, Nat.xor_assoc, Nat.xor_self, Nat.xor_zero]

theorem xor_lt (k j p : Nat) (hj : j < k) (hp : p < 2 ^ k) : p ^^^ 2 ^ j < 2 ^ k :=
  Nat.xor_lt_two_pow hp (Nat.pow_lt_pow_right (by omega) hj)

theorem xor_ne (p j : Nat) : p ^^^ 2 ^ j ≠ p := by
  intro h
  have h2 : p ^^^ (p ^^^ 2 ^ j) = p ^^^ p := by rw [h]
  rw [← Nat.xor_assoc, Nat.xor_self, Nat.zero_xor] at h2
  exact absurd h2 (Nat.two_pow_pos j).ne'

theorem xor_cancel (p d : Nat) : (p ^^^ d) ^^^ d = p := by
  rw [Nat.xor_assoc, Nat.xor_self, Nat.xor_zero]

theorem mem_lowIx (n d i : Nat) : i ∈ lowIx n d ↔ i < n ∧ i < i ^^^ d := by
  simp [lowIx]

theorem mem_high (n d p : Nat) : p ∈ (lowIx n d).map (· ^^^ d) ↔ p ^^^ d < n ∧ p ^^^ d < p := by
  simp only [List.mem_map, mem_lowIx]
  constructor
  · rintro ⟨a, ⟨h1, h2⟩, rfl⟩
    rw [xor_cancel]; exact ⟨h1, h2⟩
  · rintro ⟨h1, h2⟩
    exact ⟨p ^^^ d, ⟨h1, by rw [xor_cancel]; exact h2⟩, xor_cancel p d⟩

/-- What a step does: index `p` keeps its value or takes its partner's. -/
def stepFn (d : Nat) (c : Nat → Bool) (f : Nat → α) (p : Nat) : α :=
  if c (min p (p ^^^ d)) then f (p ^^^ d) else f p

theorem zip_map_self {β γ : Type} (l : List β) (h : β → γ) : l.zip (l.map h) = l.map fun i => (i, h i) := by
  induction l with
  | nil => rfl
  | cons a l ih => simp [ih]

/-- Scattering the low values and then the high values over any starting array. -/
theorem scatter_step (n j : Nat) (c : Nat → Bool) (f base : Nat → α) (p : Nat) (hp : p < n) :
    scatter (scatter base ((lowIx n (2 ^ j)).map fun i => (i, if c i then f (i ^^^ 2 ^ j) else f i)))
      ((lowIx n (2 ^ j)).map fun i => (i ^^^ 2 ^ j, if c i then f i else f (i ^^^ 2 ^ j))) p
      = stepFn (2 ^ j) c f p := by
  set d := 2 ^ j with hd
  have hne : p ^^^ d ≠ p := xor_ne p j
  have e : ((lowIx n d).map fun i => (i ^^^ d, if c i then f i else f (i ^^^ d)))
      = ((lowIx n d).map (· ^^^ d)).map fun q => (q, if c (q ^^^ d) then f (q ^^^ d) else f q) := by
    rw [List.map_map]
    apply List.map_congr_left
    intro i _
    simp [xor_cancel]
  rw [e, scatter_keyed (fun q => if c (q ^^^ d) then f (q ^^^ d) else f q)
      (fun q => if c (q ^^^ d) then f (q ^^^ d) else f q) _ _ _ (fun _ _ => rfl),
    scatter_keyed (fun q => if c q then f (q ^^^ d) else f q)
      (fun q => if c q then f (q ^^^ d) else f q) _ _ _ (fun _ _ => rfl)]
  simp only [mem_high, mem_lowIx, stepFn]
  rcases Nat.lt_or_gt_of_ne hne with h | h
  · have : p ^^^ d < n := by omega
    simp [h, this, Nat.min_eq_right h.le]
  · have h' : ¬ (p ^^^ d < p) := by omega
    simp [h', h, hp, Nat.min_eq_left h.le]

theorem localStep_eq (n j : Nat) (c : Nat → Bool) (f : Nat → α) (p : Nat) (hp : p < n) :
    localStep n (2 ^ j) ((lowIx n (2 ^ j)).map c) f p = stepFn (2 ^ j) c f p := by
  unfold localStep newLow newHigh
  rw [zip_map_self]
  simp only [List.map_map]
  exact scatter_step n j c f f p hp

end step

/-! ### The network sorts -/

/-- A step on threshold bits. -/
def bstep (s d : Nat) (x : Nat → Bool) (p : Nat) : Bool :=
  if decide (p < p ^^^ d) == ascAt s p then x p && x (p ^^^ d) else x p || x (p ^^^ d)

/-- All steps of a schedule on threshold bits. -/
def brun (l : List (Nat × Nat)) (x : Nat → Bool) : Nat → Bool :=
  l.foldl (fun y e => bstep e.1 e.2 y) x

theorem ascAt_xor (s j p : Nat) (hj : j ≤ s) : ascAt s (p ^^^ 2 ^ j) = ascAt s p := by
  unfold ascAt
  rw [Nat.xor_div_two_pow, Nat.div_eq_of_lt (Nat.pow_lt_pow_right (by omega) (by omega : j < s + 1)),
    Nat.xor_zero]

theorem ascAt_block (s j m i : Nat) (hj : j ≤ s) (hi : i < 2 ^ (j + 1)) :
    ascAt s (2 ^ (j + 1) * m + i) = ascAt s (2 ^ (j + 1) * m) := by
  unfold ascAt
  obtain ⟨e, rfl⟩ := Nat.exists_eq_add_of_le hj
  have : 2 ^ (j + e + 1) = 2 ^ (j + 1) * 2 ^ e := by rw [← pow_add]; congr 1; omega
  rw [this, ← Nat.div_div_eq_div_mul, ← Nat.div_div_eq_div_mul,
    Nat.mul_add_div (Nat.two_pow_pos _), Nat.div_eq_of_lt hi, Nat.add_zero,
    Nat.mul_div_cancel_left _ (Nat.two_pow_pos _)]

/-- `x` on `[B, B+S)` is one interval of one value in the other. -/
def Bitonic (x : Nat → Bool) (B S : Nat) : Prop :=
  ∃ (v : Bool) (a b : Nat), ∀ i < S, x (B + i) = (v ^^ (decide (a ≤ i) && decide (i < b)))

/-- Ascending on `[B, B+S)`. -/
def Asc (x : Nat → Bool) (B S : Nat) : Prop := ∃ a : Nat, ∀ i < S, x (B + i) = decide (a ≤ i)

/-- Descending on `[B, B+S)`. -/
def Desc (x : Nat → Bool) (B S : Nat) : Prop := ∃ b : Nat, ∀ i < S, x (B + i) = decide (i < b)

/-- The AND and the OR of the halves of a bitonic sequence are bitonic, and one is constant. -/
theorem half_clean (x : Nat → Bool) (B h : Nat) (hx : Bitonic x B (2 * h)) (y z : Nat → Bool)
    (B1 B2 : Nat)
    (hy : ∀ i < h, y (B1 + i) = (x (B + i) && x (B + (h + i))))
    (hz : ∀ i < h, z (B2 + i) = (x (B + i) || x (B + (h + i)))) :
    Bitonic y B1 h ∧ Bitonic z B2 h ∧
      ((∀ i < h, y (B1 + i) = false) ∨ (∀ i < h, z (B2 + i) = true)) := by
  obtain ⟨v, a, b, hx⟩ := hx
  have hy' : ∀ i < h, y (B1 + i) = ((v ^^ (decide (a ≤ i) && decide (i < b))) &&
      (v ^^ (decide (a ≤ h + i) && decide (h + i < b)))) := fun i hi => by
    rw [hy i hi, hx i (by omega), hx (h + i) (by omega)]
  have hz' : ∀ i < h, z (B2 + i) = ((v ^^ (decide (a ≤ i) && decide (i < b))) ||
      (v ^^ (decide (a ≤ h + i) && decide (h + i < b)))) := fun i hi => by
    rw [hz i hi, hx i (by omega), hx (h + i) (by omega)]
  clear hx hy hz
  have key : ∀ (u w : Nat → Bool),
      (∀ i < h, u i = ((decide (a ≤ i) && decide (i < b)) && (decide (a ≤ h + i) && decide (h + i < b)))) →
      (∀ i < h, w i = ((decide (a ≤ i) && decide (i < b)) || (decide (a ≤ h + i) && decide (h + i < b)))) →
      Bitonic u 0 h ∧ Bitonic w 0 h ∧ ((∀ i < h, u i = false) ∨ (∀ i < h, w i = true)) := by
    intro u w hu hw
    by_cases c1 : b ≤ h
    · refine ⟨⟨false, 0, 0, fun i hi => ?_⟩, ⟨false, a, b, fun i hi => ?_⟩, Or.inl fun i hi => ?_⟩
      · rw [Nat.zero_add, hu i hi]; simp; omega
      · rw [Nat.zero_add, hw i hi]; simp; omega
      · rw [hu i hi]; simp; omega
    · by_cases c2 : h ≤ a
      · refine ⟨⟨false, 0, 0, fun i hi => ?_⟩, ⟨false, a - h, b - h, fun i hi => ?_⟩, Or.inl fun i hi => ?_⟩
        · rw [Nat.zero_add, hu i hi]; simp; omega
        · rw [Nat.zero_add, hw i hi, Bool.eq_iff_iff]; simp; omega
        · rw [hu i hi]; simp; omega
      · by_cases c3 : b - h ≤ a
        · refine ⟨⟨false, 0, 0, fun i hi => ?_⟩, ⟨true, b - h, a, fun i hi => ?_⟩, Or.inl fun i hi => ?_⟩
          · rw [Nat.zero_add, hu i hi]; simp; omega
          · rw [Nat.zero_add, hw i hi, Bool.eq_iff_iff]; simp; omega
          · rw [hu i hi]; simp; omega
        · refine ⟨⟨false, a, b - h, fun i hi => ?_⟩, ⟨true, 0, 0, fun i hi => ?_⟩, Or.inr fun i hi => ?_⟩
          · rw [Nat.zero_add, hu i hi, Bool.eq_iff_iff]; simp; omega
          · rw [Nat.zero_add, hw i hi, Bool.eq_iff_iff]; simp; omega
          · rw [hw i hi]; simp; omega
  cases v with
  | false =>
    obtain ⟨⟨v1, a1, b1, k1⟩, ⟨v2, a2, b2, k2⟩, k3⟩ := key (fun i => y (B1 + i)) (fun i => z (B2 + i))
      (fun i hi => by simpa using hy' i hi) (fun i hi => by simpa using hz' i hi)
    simp only [Nat.zero_add] at k1 k2
    exact ⟨⟨v1, a1, b1, k1⟩, ⟨v2, a2, b2, k2⟩, k3⟩
  | true =>
    obtain ⟨⟨v1, a1, b1, k1⟩, ⟨v2, a2, b2, k2⟩, k3⟩ := key (fun i => !z (B2 + i)) (fun i => !y (B1 + i))
      (fun i hi => by simp only [hz' i hi]; simp) (fun i hi => by simp only [hy' i hi]; simp)
    simp only [Nat.zero_add] at k1 k2
    refine ⟨⟨!v2, a2, b2, fun i hi => ?_⟩, ⟨!v1, a1, b1, fun i hi => ?_⟩, ?_⟩
    · have := k2 i hi
      rw [Bool.not_xor, ← this, Bool.not_not]
    · have := k1 i hi
      rw [Bool.not_xor, ← this, Bool.not_not]
    · rcases k3 with k3 | k3
      · right; intro i hi; simpa using k3 i hi
      · left; intro i hi; simpa using k3 i hi

/-- The steps of one stage from distance `2 ^ j` down to 1. -/
def down (s : Nat) : Nat → List (Nat × Nat)
  | 0 => [(s, 2 ^ 0)]
  | j + 1 => (s, 2 ^ (j + 1)) :: down s j

theorem down_eq (s : Nat) : ∀ j, (List.range (j + 1)).map (fun t => (s, 2 ^ (j - t))) = down s j := by
  intro j
  induction j with
  | zero => rfl
  | succ j ih =>
    rw [List.range_succ_eq_map, List.map_cons, List.map_map]
    refine congrArg₂ List.cons rfl ?_
    rw [← ih]
    apply List.map_congr_left
    intro t _
    simp

theorem bstep_low (s j m r : Nat) (x : Nat → Bool) (hj : j ≤ s) (hr : r < 2 ^ j) :
    bstep s (2 ^ j) x (2 ^ (j + 1) * m + r) =
      if ascAt s (2 ^ (j + 1) * m) then
        x (2 ^ (j + 1) * m + r) && x (2 ^ (j + 1) * m + (2 ^ j + r))
      else x (2 ^ (j + 1) * m + r) || x (2 ^ (j + 1) * m + (2 ^ j + r)) := by
  have hr' : r < 2 ^ (j + 1) := by rw [pow_succ]; omega
  unfold bstep
  rw [xor_low m r j hr, ascAt_block s j m r hj hr']
  have : 2 ^ (j + 1) * m + r < 2 ^ (j + 1) * m + (2 ^ j + r) := by
    have := Nat.two_pow_pos j; omega
  simp [this]

theorem bstep_high (s j m r : Nat) (x : Nat → Bool) (hj : j ≤ s) (hr : r < 2 ^ j) :
    bstep s (2 ^ j) x (2 ^ (j + 1) * m + (2 ^ j + r)) =
      if ascAt s (2 ^ (j + 1) * m) then
        x (2 ^ (j + 1) * m + r) || x (2 ^ (j + 1) * m + (2 ^ j + r))
      else x (2 ^ (j + 1) * m + r) && x (2 ^ (j + 1) * m + (2 ^ j + r)) := by
  have hr' : 2 ^ j + r < 2 ^ (j + 1) := by rw [pow_succ]; omega
  unfold bstep
  rw [xor_high m r j hr, ascAt_block s j m _ hj hr']
  have : ¬ (2 ^ (j + 1) * m + (2 ^ j + r) < 2 ^ (j + 1) * m + r) := by omega
  simp only [this]
  cases ascAt s (2 ^ (j + 1) * m) <;> simp [Bool.and_comm, Bool.or_comm]

theorem split_block {P : Nat → Prop} (j : Nat) (h1 : ∀ r < 2 ^ j, P r) (h2 : ∀ r < 2 ^ j, P (2 ^ j + r)) :
    ∀ i < 2 ^ (j + 1), P i := by
  intro i hi
  rw [pow_succ] at hi
  by_cases h : i < 2 ^ j
  · exact h1 i h
  · obtain ⟨r, rfl⟩ := Nat.exists_eq_add_of_le (not_lt.mp h)
    exact h2 r (by omega)

/-- A constant block stays constant. -/
theorem brun_const (s : Nat) (v : Bool) : ∀ (j : Nat) (x : Nat → Bool) (m : Nat), j ≤ s →
    (∀ i < 2 ^ (j + 1), x (2 ^ (j + 1) * m + i) = v) →
    ∀ i < 2 ^ (j + 1), brun (down s j) x (2 ^ (j + 1) * m + i) = v := by
  intro j
  induction j with
  | zero =>
    intro x m hj hx
    apply split_block (P := fun i => brun (down s 0) x (2 ^ (0 + 1) * m + i) = v)
    · intro r hr
      have := bstep_low s 0 m r x hj hr
      simp only [down, brun, List.foldl_cons, List.foldl_nil]
      rw [this, hx r (by omega), hx (2 ^ 0 + r) (by omega)]; simp
    · intro r hr
      have := bstep_high s 0 m r x hj hr
      simp only [down, brun, List.foldl_cons, List.foldl_nil]
      rw [this, hx r (by omega), hx (2 ^ 0 + r) (by omega)]; simp
  | succ j ih =>
    intro x m hj hx
    have hc : ∀ i < 2 ^ (j + 2), bstep s (2 ^ (j + 1)) x (2 ^ (j + 2) * m + i) = v := by
      apply split_block (P := fun i => bstep s (2 ^ (j + 1)) x (2 ^ (j + 2) * m + i) = v)
      · intro r hr
        have h2 : 2 ^ (j + 2) = 2 ^ (j + 1) * 2 := pow_succ _ _
        rw [bstep_low s (j + 1) m r x hj hr, hx r (by omega), hx (2 ^ (j + 1) + r) (by omega)]; simp
      · intro r hr
        have h2 : 2 ^ (j + 2) = 2 ^ (j + 1) * 2 := pow_succ _ _
        rw [bstep_high s (j + 1) m r x hj hr, hx r (by omega), hx (2 ^ (j + 1) + r) (by omega)]; simp
    have h2 : 2 ^ (j + 2) = 2 ^ (j + 1) * 2 := pow_succ _ _
    have e1 : 2 ^ (j + 2) * m = 2 ^ (j + 1) * (2 * m) := by rw [h2]; ring
    have e2 : ∀ r, 2 ^ (j + 2) * m + (2 ^ (j + 1) + r) = 2 ^ (j + 1) * (2 * m + 1) + r := fun r => by
      rw [h2]; ring
    have l := ih (bstep s (2 ^ (j + 1)) x) (2 * m) (by omega)
      (fun i hi => by rw [← e1]; exact hc i (by omega))
    have h := ih (bstep s (2 ^ (j + 1)) x) (2 * m + 1) (by omega)
      (fun i hi => by rw [← e2]; exact hc _ (by omega))
    apply split_block (P := fun i => brun (down s (j + 1)) x (2 ^ (j + 2) * m + i) = v)
    · intro r hr
      have := l r hr
      rw [e1]; exact this
    · intro r hr
      have := h r hr
      rw [e2]; exact this

/-- Merging a bitonic block sorts it in the direction of its stage. -/
theorem brun_merge (s : Nat) : ∀ (j : Nat) (x : Nat → Bool) (m : Nat), j ≤ s →
    Bitonic x (2 ^ (j + 1) * m) (2 ^ (j + 1)) →
    if ascAt s (2 ^ (j + 1) * m) then Asc (brun (down s j) x) (2 ^ (j + 1) * m) (2 ^ (j + 1))
    else Desc (brun (down s j) x) (2 ^ (j + 1) * m) (2 ^ (j + 1)) := by
  intro j
  induction j with
  | zero =>
    intro x m hj _
    have hl := bstep_low s 0 m 0 x hj (by simp)
    have hh := bstep_high s 0 m 0 x hj (by simp)
    have two : ∀ i < 2 ^ (0 + 1), i = 0 ∨ i = 2 ^ 0 + 0 := fun i hi => by simp at hi ⊢; omega
    simp only [Asc, Desc, down, brun, List.foldl_cons, List.foldl_nil]
    cases ha : ascAt s (2 ^ (0 + 1) * m) with
    | true =>
      rw [if_pos rfl]
      simp only [ha, if_true] at hl hh
      cases h0 : x (2 ^ (0 + 1) * m + 0) <;> cases h1 : x (2 ^ (0 + 1) * m + (2 ^ 0 + 0)) <;>
        simp only [h0, h1] at hl hh
      · refine ⟨2, fun i hi => ?_⟩
        rcases two i hi with rfl | rfl
        · rw [hl]; rfl
        · rw [hh]; rfl
      · refine ⟨1, fun i hi => ?_⟩
        rcases two i hi with rfl | rfl
        · rw [hl]; rfl
        · rw [hh]; rfl
      · refine ⟨1, fun i hi => ?_⟩
        rcases two i hi with rfl | rfl
        · rw [hl]; rfl
        · rw [hh]; rfl
      · refine ⟨0, fun i hi => ?_⟩
        rcases two i hi with rfl | rfl
        · rw [hl]; rfl
        · rw [hh]; rfl
    | false =>
      rw [if_neg (by simp)]
      simp only [ha, Bool.false_eq_true, if_false] at hl hh
      cases h0 : x (2 ^ (0 + 1) * m + 0) <;> cases h1 : x (2 ^ (0 + 1) * m + (2 ^ 0 + 0)) <;>
        simp only [h0, h1] at hl hh
      · refine ⟨0, fun i hi => ?_⟩
        rcases two i hi with rfl | rfl
        · rw [hl]; rfl
        · rw [hh]; rfl
      · refine ⟨1, fun i hi => ?_⟩
        rcases two i hi with rfl | rfl
        · rw [hl]; rfl
        · rw [hh]; rfl
      · refine ⟨1, fun i hi => ?_⟩
        rcases two i hi with rfl | rfl
        · rw [hl]; rfl
        · rw [hh]; rfl
      · refine ⟨2, fun i hi => ?_⟩
        rcases two i hi with rfl | rfl
        · rw [hl]; rfl
        · rw [hh]; rfl
  | succ j ih =>
    intro x m hj hx
    have h2 : 2 ^ (j + 2) = 2 ^ (j + 1) * 2 := pow_succ _ _
    have hB : 2 ^ (j + 1 + 1) * m = 2 ^ (j + 1) * (2 * m) := by rw [h2]; ring
    have hB2 : ∀ r, 2 ^ (j + 1 + 1) * m + (2 ^ (j + 1) + r) = 2 ^ (j + 1) * (2 * m + 1) + r := fun r => by
      rw [h2]; ring
    have hbl : ascAt s (2 ^ (j + 1) * (2 * m)) = ascAt s (2 ^ (j + 1 + 1) * m) := by rw [hB]
    have hbh : ascAt s (2 ^ (j + 1) * (2 * m + 1)) = ascAt s (2 ^ (j + 1 + 1) * m) := by
      rw [show 2 ^ (j + 1) * (2 * m + 1) = 2 ^ (j + 1 + 1) * m + 2 ^ (j + 1) by rw [h2]; ring]
      exact ascAt_block s (j + 1) m _ hj (by rw [h2]; have := Nat.two_pow_pos (j + 1); omega)
    have hx' : Bitonic x (2 ^ (j + 1 + 1) * m) (2 * 2 ^ (j + 1)) := by
      rw [Nat.mul_comm 2, ← h2]; exact hx
    set y := bstep s (2 ^ (j + 1)) x with hy
    have hlow : ∀ r < 2 ^ (j + 1), y (2 ^ (j + 1) * (2 * m) + r) =
        if ascAt s (2 ^ (j + 1 + 1) * m) then
          x (2 ^ (j + 1 + 1) * m + r) && x (2 ^ (j + 1 + 1) * m + (2 ^ (j + 1) + r))
        else x (2 ^ (j + 1 + 1) * m + r) || x (2 ^ (j + 1 + 1) * m + (2 ^ (j + 1) + r)) :=
      fun r hr => by
        have := bstep_low s (j + 1) m r x hj hr
        rw [← this, hB]
    have hhigh : ∀ r < 2 ^ (j + 1), y (2 ^ (j + 1) * (2 * m + 1) + r) =
        if ascAt s (2 ^ (j + 1 + 1) * m) then
          x (2 ^ (j + 1 + 1) * m + r) || x (2 ^ (j + 1 + 1) * m + (2 ^ (j + 1) + r))
        else x (2 ^ (j + 1 + 1) * m + r) && x (2 ^ (j + 1 + 1) * m + (2 ^ (j + 1) + r)) :=
      fun r hr => by
        have := bstep_high s (j + 1) m r x hj hr
        rw [← this, hB2]
    have run : brun (down s (j + 1)) x = brun (down s j) y := rfl
    have i1 := ih y (2 * m) (by omega)
    have i2 := ih y (2 * m + 1) (by omega)
    rw [hbl] at i1
    rw [hbh] at i2
    have join : ∀ Q : Nat → Prop, (∀ r < 2 ^ (j + 1), Q r) → (∀ r < 2 ^ (j + 1), Q (2 ^ (j + 1) + r)) →
        ∀ i < 2 ^ (j + 1 + 1), Q i := fun Q => split_block (P := Q) (j + 1)
    cases ha : ascAt s (2 ^ (j + 1 + 1) * m) with
    | true =>
      simp only [ha, if_true] at hlow hhigh i1 i2 ⊢
      obtain ⟨b1, b2, cr⟩ := half_clean x _ _ hx' y y _ _ hlow hhigh
      obtain ⟨a1, k1⟩ := i1 b1
      obtain ⟨a2, k2⟩ := i2 b2
      rcases cr with cr | cr
      · have hf := brun_const s false j y (2 * m) (by omega) cr
        refine ⟨2 ^ (j + 1) + a2, join _ ?_ ?_⟩
        · intro r hr
          rw [run, hB, hf r hr]; simp; omega
        · intro r hr
          rw [run, hB2, k2 r hr]; simp
      · have hf := brun_const s true j y (2 * m + 1) (by omega) cr
        refine ⟨min a1 (2 ^ (j + 1)), join _ ?_ ?_⟩
        · intro r hr
          rw [run, hB, k1 r hr, Bool.eq_iff_iff]; simp; omega
        · intro r hr
          rw [run, hB2, hf r hr]; simp
    | false =>
      simp only [ha, Bool.false_eq_true, if_false] at hlow hhigh i1 i2 ⊢
      obtain ⟨b2, b1, cr⟩ := half_clean x _ _ hx' y y _ _ hhigh hlow
      obtain ⟨a1, k1⟩ := i1 b1
      obtain ⟨a2, k2⟩ := i2 b2
      rcases cr with cr | cr
      · have hf := brun_const s false j y (2 * m + 1) (by omega) cr
        refine ⟨min a1 (2 ^ (j + 1)), join _ ?_ ?_⟩
        · intro r hr
          rw [run, hB, k1 r hr, Bool.eq_iff_iff]; simp; omega
        · intro r hr
          rw [run, hB2, hf r hr]; simp
      · have hf := brun_const s true j y (2 * m) (by omega) cr
        refine ⟨2 ^ (j + 1) + a2, join _ ?_ ?_⟩
        · intro r hr
          rw [run, hB, hf r hr]; simp; omega
        · intro r hr
          rw [run, hB2, k2 r hr]; simp

theorem brun_append (l1 l2 : List (Nat × Nat)) (x : Nat → Bool) :
    brun (l1 ++ l2) x = brun l2 (brun l1 x) := by
  simp [brun, List.foldl_append]

theorem schedule_succ (k : Nat) : schedule (k + 1) = schedule k ++ down k k := by
  simp only [schedule, List.range_succ, List.flatMap_append, List.flatMap_cons, List.flatMap_nil,
    List.append_nil]
  rw [← List.range_succ, down_eq]

/-- After `k` stages every aligned block of `2 ^ k` bits is sorted, ascending and descending in
turn. -/
theorem brun_schedule : ∀ (k m : Nat) (x : Nat → Bool),
    if m % 2 = 0 then Asc (brun (schedule k) x) (2 ^ k * m) (2 ^ k)
    else Desc (brun (schedule k) x) (2 ^ k * m) (2 ^ k) := by
  intro k
  induction k with
  | zero =>
    intro m x
    have one : ∀ i < 2 ^ 0, i = 0 := fun i hi => by simpa using hi
    split
    · refine ⟨if x (2 ^ 0 * m) then 0 else 1, fun i hi => ?_⟩
      rw [one i hi]
      simp only [schedule, brun, List.range_zero, List.flatMap_nil, List.foldl_nil, Nat.add_zero]
      cases x (2 ^ 0 * m) <;> simp
    · refine ⟨if x (2 ^ 0 * m) then 1 else 0, fun i hi => ?_⟩
      rw [one i hi]
      simp only [schedule, brun, List.range_zero, List.flatMap_nil, List.foldl_nil, Nat.add_zero]
      cases x (2 ^ 0 * m) <;> simp
  | succ k ih =>
    intro m x
    have lo := ih (2 * m) x
    have hi := ih (2 * m + 1) x
    rw [if_pos (by omega)] at lo
    rw [if_neg (by omega)] at hi
    obtain ⟨a, lo⟩ := lo
    obtain ⟨b, hi⟩ := hi
    have h2 : 2 ^ (k + 1) = 2 ^ k * 2 := pow_succ _ _
    have e1 : 2 ^ (k + 1) * m = 2 ^ k * (2 * m) := by rw [h2]; ring
    have e2 : ∀ r, 2 ^ (k + 1) * m + (2 ^ k + r) = 2 ^ k * (2 * m + 1) + r := fun r => by rw [h2]; ring
    have hbit : Bitonic (brun (schedule k) x) (2 ^ (k + 1) * m) (2 ^ (k + 1)) := by
      refine ⟨false, min a (2 ^ k), 2 ^ k + b, split_block _ ?_ ?_⟩
      · intro r hr
        rw [e1, lo r hr, Bool.eq_iff_iff]; simp; omega
      · intro r hr
        rw [e2, hi r hr, Bool.eq_iff_iff]; simp
    have mg := brun_merge k k (brun (schedule k) x) m (le_refl k) hbit
    rw [schedule_succ, brun_append]
    have hasc : ascAt k (2 ^ (k + 1) * m) = decide (m % 2 = 0) := by
      simp only [ascAt, Nat.mul_div_cancel_left _ (Nat.two_pow_pos _)]
      exact beq_eq_decide _ _
    rw [hasc] at mg
    by_cases hm : m % 2 = 0
    · rw [if_pos hm]; simpa [hm] using mg
    · rw [if_neg hm]; simpa [hm] using mg

end Verif.Mpc
