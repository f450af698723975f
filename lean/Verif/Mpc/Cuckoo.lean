import Verif.Mpc.Oprf
/-
Model of the batch cuckoo insertion, /repo/mplang/libs/mpc/psi/cuckoo.py.

Arrays are functions on indices, `-1` is kept as the integer the code uses.  When several items
write one cell in the same round JAX does not specify which write survives; the model allows any
of them (`Scatter`), so the theorems hold whatever the back end does.
-/
namespace Verif.Mpc
open Verif.Kern

/-- `NUM_HASH_FUNCTIONS`. /repo/mplang/libs/mpc/psi/cuckoo.py:44 -/
abbrev cuckooK : Nat := 3

/-- First eight bytes of an item as a little-endian word. cuckoo.py:70 -/
def itemKey (x : Item) : Nat :=
  (List.finRange 8).foldr (fun (k : Fin 8) acc => x ⟨k.val, by omega⟩ + 256 * acc) 0

/-- `a_base`: GOLDEN_RATIO_64, SPLITMIX64_GAMMA_1, SPLITMIX64_GAMMA_2.
/repo/mplang/libs/mpc/psi/cuckoo.py:78-80, /repo/mplang/libs/mpc/common/constants.py:21-29 -/
def aBase : Nat → Nat
  | 0 => 0x9E3779B97F4A7C15
  | 1 => 0xBF58476D1CE4E5B9
  | _ => 0x94D049BB133111EB

/-- `b_base`: PI_FRAC_1, PI_FRAC_2, E_FRAC_1.
/repo/mplang/libs/mpc/psi/cuckoo.py:81, /repo/mplang/libs/mpc/common/constants.py:33-39 -/
def bBase : Nat → Nat
  | 0 => 0x243F6A8885A308D3
  | 1 => 0x13198A2E03707344
  | _ => 0xA4093822299F31D0

/-- `hash_to_positions`, entry `i` for one item: wrapping uint64 arithmetic, then modulo the table
size (the cast to int32 is exact for tables below 2^31).
/repo/mplang/libs/mpc/psi/cuckoo.py:49-94 -/
def hashPos (tableSize : Nat) (seed : Blk) (x : Item) (i : Nat) : Nat :=
  (((itemKey x ^^^ seed.1) * (aBase i ^^^ seed.1) + (bBase i ^^^ seed.2)) % 2 ^ 64) % tableSize

/-- With seed zero and item zero what is left is the addends; a key of one adds the multipliers. -/
example : (List.range 3).map (hashPos (2 ^ 64) (0, 0) fun _ => 0) = [0x243F6A8885A308D3, 0x13198A2E03707344, 0xA4093822299F31D0] ∧
    (List.range 3).map (hashPos (2 ^ 64) (0, 0) fun k => if k.val = 0 then 1 else 0) =
      [0x9E3779B97F4A7C15 + 0x243F6A8885A308D3, 0xBF58476D1CE4E5B9 + 0x13198A2E03707344, (0x94D049BB133111EB + 0xA4093822299F31D0) % 2 ^ 64] := by
  decide +kernel

/-- `cuckoo_lookup_positions`. /repo/mplang/libs/mpc/psi/cuckoo.py:187-202 -/
def lookupPos (tableSize : Nat) (seed : Blk) (x : Item) : List Nat :=
  (List.range cuckooK).map (hashPos tableSize seed x)

/-- State of the insertion: `item_to_pos`, `active_mask`, `table_slots`. cuckoo.py:125-135 -/
structure CState where
  pos : Nat → Int
  active : Nat → Bool
  slot : Nat → Int

/-- Initial state. /repo/mplang/libs/mpc/psi/cuckoo.py:125-135 -/
def cInit : CState := { pos := fun _ => -1, active := fun _ => true, slot := fun _ => -1 }

/-- `cand_pos`. cuckoo.py:140 -/
def candPos (s : CState) (cand : Nat → Nat) (i : Nat) : Int := if s.active i then (cand i : Int) else -1

/-- `is_occupied`: lookup at `max(cand_pos, 0)`. cuckoo.py:144-145, 176 -/
def isOcc (s : CState) (cand : Nat → Nat) (i : Nat) : Bool :=
  decide (s.slot (max (candPos s cand i) 0).toNat ≥ 0)

/-- `cand_pos_valid`. cuckoo.py:147 -/
def candValid (s : CState) (cand : Nat → Nat) (i : Nat) : Int :=
  if decide (candPos s cand i ≥ 0) && !isOcc s cand i then candPos s cand i else -1

/-- `write_pos`: the dump cell `table_size` for items without a valid proposal. cuckoo.py:154 -/
def writePos (tableSize : Nat) (s : CState) (cand : Nat → Nat) (i : Nat) : Nat :=
  if candValid s cand i ≥ 0 then (candValid s cand i).toNat else tableSize

/-- `table_slots` with the dump cell appended. cuckoo.py:151 -/
def extSlots (tableSize : Nat) (s : CState) (c : Nat) : Int := if c < tableSize then s.slot c else -1

/-- `x.at[ix].set(arange(n))`: a cell nobody writes keeps its value; a cell that is written gets
the value of one of its writers. cuckoo.py:159 -/
def Scatter (n : Nat) (old : Nat → Int) (ix : Nat → Nat) (new : Nat → Int) : Prop :=
  ∀ c, ((∀ i, i < n → ix i ≠ c) → new c = old c) ∧
    ((∃ i, i < n ∧ ix i = c) → ∃ i, i < n ∧ ix i = c ∧ new c = (i : Int))

/-- `success_round`. cuckoo.py:162-167 -/
def wins (tableSize : Nat) (s : CState) (cand : Nat → Nat) (new : Nat → Int) (i : Nat) : Bool :=
  decide (candValid s cand i ≥ 0) && decide (new (writePos tableSize s cand i) = (i : Int))

/-- State after a round in which the scatter produced `new`. cuckoo.py:171-176 -/
def commit (tableSize : Nat) (s : CState) (cand : Nat → Nat) (new : Nat → Int) : CState :=
  { pos := fun i => if wins tableSize s cand new i then candValid s cand i else s.pos i
    active := fun i => s.active i && !wins tableSize s cand new i
    slot := new }

/-- Rounds `k, k+1, …, K-1` of the loop; `cand i k` are the candidate positions of item `i`.
/repo/mplang/libs/mpc/psi/cuckoo.py:137-176 -/
inductive Rounds (n tableSize : Nat) (cand : Nat → Nat → Nat) : Nat → CState → CState → Prop
  | done (s : CState) : Rounds n tableSize cand cuckooK s s
  | round (k : Nat) (s t : CState) (new : Nat → Int) (hk : k < cuckooK)
      (hsc : Scatter n (extSlots tableSize s) (writePos tableSize s (fun i => cand i k)) new)
      (hrest : Rounds n tableSize cand (k + 1) (commit tableSize s (fun i => cand i k) new) t) :
      Rounds n tableSize cand k s t

/-- `cuckoo_insert_batch(items, table_size, seed)` can end in state `s`.
/repo/mplang/libs/mpc/psi/cuckoo.py:97-184 -/
def CuckooRun (items : List Item) (tableSize : Nat) (seed : Blk) (s : CState) : Prop :=
  Rounds items.length tableSize
    (fun i k => hashPos tableSize seed (items.getD i (fun _ => 0)) k) 0 cInit s

/-- The returned table: `items[max(slot, 0)]` masked with zero rows. cuckoo.py:179-181 -/
def finalRow (items : List Item) (s : CState) (c : Nat) : Item :=
  if s.slot c ≥ 0 then items.getD (max (s.slot c) 0).toNat (fun _ => 0) else fun _ => 0

/-- `success`. cuckoo.py:183 -/
def succeeded (s : CState) (i : Nat) : Bool := decide (s.pos i ≥ 0)

/-! ### Invariant -/

/-- What holds before round `k`. -/
structure CInv (n tableSize : Nat) (cand : Nat → Nat → Nat) (k : Nat) (s : CState) : Prop where
  pos_cases : ∀ i, i < n → s.pos i = -1 ∨
    ∃ p, p < tableSize ∧ s.pos i = (p : Int) ∧ s.slot p = (i : Int) ∧ ∃ k', k' < k ∧ cand i k' = p
  act : ∀ i, i < n → (s.active i = true ↔ s.pos i = -1)
  slot_cases : ∀ c, c < tableSize → s.slot c = -1 ∨
    ∃ i, i < n ∧ s.slot c = (i : Int) ∧ s.pos i = (c : Int)
  tried : ∀ i, i < n → s.pos i = -1 → ∀ k', k' < k → s.slot (cand i k') ≥ 0

theorem cinv_init (n tableSize : Nat) (cand : Nat → Nat → Nat) : CInv n tableSize cand 0 cInit where
  pos_cases := fun _ _ => Or.inl rfl
  act := fun _ _ => ⟨fun _ => rfl, fun _ => rfl⟩
  slot_cases := fun _ _ => Or.inl rfl
  tried := fun _ _ _ k' hk' => by omega

theorem candValid_cases (s : CState) (cand : Nat → Nat) (i : Nat) :
    (s.active i = true ∧ s.slot (cand i) < 0 ∧ candValid s cand i = (cand i : Int)) ∨
    (candValid s cand i = -1 ∧ (s.active i = false ∨ s.slot (cand i) ≥ 0)) := by
  unfold candValid isOcc candPos
  cases ha : s.active i with
  | false => right; simp
  | true =>
    simp only [if_true]
    have e : (max (cand i : Int) 0).toNat = cand i := by omega
    rw [e]
    by_cases h : s.slot (cand i) ≥ 0
    · right; simp [h]
    · left
      refine ⟨trivial, by omega, ?_⟩
      have : (0 : Int) ≤ (cand i : Int) := by omega
      simp [h, this]

theorem cinv_step {n tableSize : Nat} {cand : Nat → Nat → Nat} {k : Nat} {s : CState}
    (hc : ∀ i k', i < n → cand i k' < tableSize) (h : CInv n tableSize cand k s) {new : Nat → Int}
    (hsc : Scatter n (extSlots tableSize s) (writePos tableSize s (fun i => cand i k)) new) :
    CInv n tableSize cand (k + 1) (commit tableSize s (fun i => cand i k) new) ∧
    (∀ c, c < tableSize → s.slot c ≥ 0 → new c = s.slot c) := by
  have hcase := fun i => candValid_cases s (fun i => cand i k) i
  -- a writer of a real cell had a valid proposal for it
  have hwr : ∀ i c, c < tableSize → writePos tableSize s (fun i => cand i k) i = c →
      s.active i = true ∧ s.slot c < 0 ∧ candValid s (fun i => cand i k) i = (c : Int) ∧ cand i k = c := by
    intro i c hct hw
    unfold writePos at hw
    rcases hcase i with ⟨h1, h2, h3⟩ | ⟨h1, _⟩
    · rw [h3, if_pos (by omega)] at hw
      have : cand i k = c := by omega
      subst this
      exact ⟨h1, h2, h3, rfl⟩
    · rw [h1, if_neg (by omega)] at hw; omega
  have hkeep : ∀ c, c < tableSize → s.slot c ≥ 0 → new c = s.slot c := by
    intro c hct hs
    have := (hsc c).1 (by
      intro i hi hw
      have := (hwr i c hct hw).2.1
      omega)
    rw [this, extSlots, if_pos hct]
  have hpos_old : ∀ i, i < n → s.active i = false → ∃ p, p < tableSize ∧ s.pos i = (p : Int) ∧
      s.slot p = (i : Int) ∧ ∃ k', k' < k ∧ cand i k' = p := by
    intro i hi ha
    rcases h.pos_cases i hi with h1 | h1
    · have := (h.act i hi).2 h1; rw [ha] at this; cases this
    · exact h1
  have hwin : ∀ i, wins tableSize s (fun i => cand i k) new i = true →
      s.active i = true ∧ s.slot (cand i k) < 0 ∧
      candValid s (fun i => cand i k) i = (cand i k : Int) ∧ new (cand i k) = (i : Int) := by
    intro i hw
    unfold wins at hw
    rw [Bool.and_eq_true, decide_eq_true_eq, decide_eq_true_eq] at hw
    rcases hcase i with ⟨h1, h2, h3⟩ | ⟨h1, _⟩
    · refine ⟨h1, h2, h3, ?_⟩
      have := hw.2
      unfold writePos at this
      rw [h3, if_pos (by omega)] at this
      simpa using this
    · rw [h1] at hw; omega
  refine ⟨⟨?_, ?_, ?_, ?_⟩, hkeep⟩
  · intro i hi
    simp only [commit]
    by_cases hw : wins tableSize s (fun i => cand i k) new i = true
    · rw [if_pos hw]
      obtain ⟨h1, h2, h3, h4⟩ := hwin i hw
      exact Or.inr ⟨cand i k, hc i k hi, h3, h4, k, by omega, rfl⟩
    · rw [if_neg hw]
      rcases h.pos_cases i hi with h1 | ⟨p, hp1, hp2, hp3, k', hk1, hk2⟩
      · exact Or.inl h1
      · exact Or.inr ⟨p, hp1, hp2, by rw [hkeep p hp1 (by omega)]; exact hp3, k', by omega, hk2⟩
  · intro i hi
    simp only [commit]
    by_cases hw : wins tableSize s (fun i => cand i k) new i = true
    · obtain ⟨_, _, h3, _⟩ := hwin i hw
      rw [if_pos hw, h3]
      simp only [hw, Bool.not_true, Bool.and_false, Bool.false_eq_true, false_iff]
      omega
    · rw [if_neg hw]
      simp only [hw, Bool.not_false, Bool.and_true]
      exact h.act i hi
  · intro c hct
    simp only [commit]
    by_cases hex : ∃ i, i < n ∧ writePos tableSize s (fun i => cand i k) i = c
    · obtain ⟨i, hi, hw, hn⟩ := (hsc c).2 hex
      obtain ⟨h1, h2, h3, h4⟩ := hwr i c hct hw
      right
      refine ⟨i, hi, hn, ?_⟩
      have hwin' : wins tableSize s (fun i => cand i k) new i = true := by
        unfold wins
        rw [hw, hn, h3]
        simp
      rw [if_pos hwin', h3]
    · have hc' := (hsc c).1 (fun i hi hw => hex ⟨i, hi, hw⟩)
      rw [extSlots, if_pos hct] at hc'
      rcases h.slot_cases c hct with h1 | ⟨i, hi, h1, h2⟩
      · left; rw [hc', h1]
      · right
        refine ⟨i, hi, by rw [hc', h1], ?_⟩
        have hnw : wins tableSize s (fun i => cand i k) new i ≠ true := by
          intro hw
          have ha := (hwin i hw).1
          have := (h.act i hi).1 ha
          omega
        rw [if_neg hnw, h2]
  · intro i hi hp k' hk'
    simp only [commit] at hp ⊢
    have hnw : wins tableSize s (fun i => cand i k) new i ≠ true := by
      intro hw
      rw [if_pos hw, (hwin i hw).2.2.1] at hp
      omega
    rw [if_neg hnw] at hp
    have ha := (h.act i hi).2 hp
    by_cases hkk : k' = k
    · subst hkk
      rcases hcase i with ⟨_, h2, h3⟩ | ⟨_, h2⟩
      · have hw : writePos tableSize s (fun i => cand i k') i = cand i k' := by
          unfold writePos; rw [h3, if_pos (by omega)]; omega
        obtain ⟨i', _, _, hn⟩ := (hsc (cand i k')).2 ⟨i, hi, hw⟩
        omega
      · rcases h2 with h2 | h2
        · rw [ha] at h2; cases h2
        · rw [hkeep _ (hc i k' hi) h2]; exact h2
    · have := h.tried i hi hp k' (by omega)
      rw [hkeep _ (hc i k' hi) this]; exact this

theorem rounds_inv {n tableSize : Nat} {cand : Nat → Nat → Nat}
    (hc : ∀ i k', i < n → cand i k' < tableSize) {k : Nat} {s t : CState}
    (hr : Rounds n tableSize cand k s t) (h : CInv n tableSize cand k s) :
    CInv n tableSize cand cuckooK t ∧ ∀ c, c < tableSize → s.slot c ≥ 0 → t.slot c = s.slot c := by
  induction hr with
  | done s => exact ⟨h, fun _ _ _ => rfl⟩
  | round k s t new hk hsc _ ih =>
    obtain ⟨h1, h2⟩ := cinv_step hc h hsc
    obtain ⟨h3, h4⟩ := ih h1
    refine ⟨h3, ?_⟩
    intro c hct hs
    have e := h2 c hct hs
    rw [h4 c hct (by show new c ≥ 0; rw [e]; exact hs)]
    exact e

theorem hashPos_lt (tableSize : Nat) (ht : 0 < tableSize) (seed : Blk) (x : Item) (i : Nat) :
    hashPos tableSize seed x i < tableSize := Nat.mod_lt _ ht

/-! ### C51 -/

/-- **C51**: for every batch, table size, seed and outcome of the concurrent writes:
an item reported as inserted sits in one of the positions its lookup probes, and the slot table
names it there; two inserted items never share a slot; every table row is either zero or the item
whose position it is; every item reported as failed found all its positions taken. -/
theorem cuckoo_valid (items : List Item) (tableSize : Nat) (ht : 0 < tableSize) (seed : Blk)
    (s : CState) (h : CuckooRun items tableSize seed s) :
    (∀ i x, items[i]? = some x → succeeded s i = true →
      ∃ p, p ∈ lookupPos tableSize seed x ∧ p < tableSize ∧ s.pos i = (p : Int) ∧
        s.slot p = (i : Int) ∧ finalRow items s p = x) ∧
    (∀ i j, i < items.length → j < items.length → succeeded s i = true → succeeded s j = true →
      s.pos i = s.pos j → i = j) ∧
    (∀ c, c < tableSize → (s.slot c = -1 ∧ finalRow items s c = fun _ => 0) ∨
      ∃ (i : Nat) (x : Item), items[i]? = some x ∧ s.slot c = (i : Int) ∧ s.pos i = (c : Int) ∧
        succeeded s i = true ∧ finalRow items s c = x) ∧
    (∀ i x, items[i]? = some x → succeeded s i = false →
      ∀ p ∈ lookupPos tableSize seed x, ∃ j, j < items.length ∧ j ≠ i ∧ s.pos j = (p : Int)) := by
  obtain ⟨hinv, _⟩ := rounds_inv (fun i k' _ => hashPos_lt tableSize ht seed _ k') h
    (cinv_init _ _ _)
  have hget : ∀ i x, items[i]? = some x → i < items.length ∧ items.getD i (fun _ => 0) = x := by
    intro i x hx
    obtain ⟨hi, rfl⟩ := List.getElem?_eq_some_iff.1 hx
    exact ⟨hi, by rw [List.getD_eq_getElem?_getD, hx]; rfl⟩
  have hrow : ∀ i p : Nat, s.slot p = (i : Int) →
      finalRow items s p = items.getD i (fun _ => 0) := by
    intro i p hs
    unfold finalRow
    rw [hs, if_pos (by omega)]
    have : (max (i : Int) 0).toNat = i := by omega
    rw [this]
  refine ⟨?_, ?_, ?_, ?_⟩
  · intro i x hx hs
    obtain ⟨hi, hgx⟩ := hget i x hx
    unfold succeeded at hs
    rw [decide_eq_true_eq] at hs
    rcases hinv.pos_cases i hi with h1 | ⟨p, hp1, hp2, hp3, k', hk1, hk2⟩
    · omega
    · refine ⟨p, ?_, hp1, hp2, hp3, by rw [hrow i p hp3, hgx]⟩
      unfold lookupPos
      rw [List.mem_map]
      exact ⟨k', List.mem_range.2 hk1, by rw [← hk2]; simp only [hgx]⟩
  · intro i j hi hj hsi hsj hij
    unfold succeeded at hsi hsj
    rw [decide_eq_true_eq] at hsi hsj
    rcases hinv.pos_cases i hi with h1 | ⟨p, _, hp2, hp3, _⟩
    · omega
    · rcases hinv.pos_cases j hj with h2 | ⟨q, _, hq2, hq3, _⟩
      · omega
      · have : p = q := by omega
        subst this
        omega
  · intro c hct
    rcases hinv.slot_cases c hct with h1 | ⟨i, hi, h1, h2⟩
    · left
      refine ⟨h1, ?_⟩
      unfold finalRow
      rw [h1, if_neg (by omega)]
    · right
      refine ⟨i, items[i], List.getElem?_eq_getElem hi, h1, h2, ?_, ?_⟩
      · unfold succeeded; rw [h2]; simp
      · rw [hrow i c h1, List.getD_eq_getElem?_getD, List.getElem?_eq_getElem hi]; rfl
  · intro i x hx hs p hp
    obtain ⟨hi, hgx⟩ := hget i x hx
    unfold succeeded at hs
    rw [decide_eq_false_iff_not] at hs
    have hm : s.pos i = -1 := by
      rcases hinv.pos_cases i hi with h1 | ⟨p, _, hp2, _⟩
      · exact h1
      · omega
    unfold lookupPos at hp
    rw [List.mem_map] at hp
    obtain ⟨k', hk', rfl⟩ := hp
    have htr := hinv.tried i hi hm k' (List.mem_range.1 hk')
    simp only [hgx] at htr
    rcases hinv.slot_cases _ (hashPos_lt tableSize ht seed x k') with h1 | ⟨j, hj, h1, h2⟩
    · omega
    · exact ⟨j, hj, fun e => by rw [e] at h2; omega, h2⟩

/-- States in which round `k` can start. -/
inductive Before (n tableSize : Nat) (cand : Nat → Nat → Nat) : Nat → CState → Prop
  | start : Before n tableSize cand 0 cInit
  | next (k : Nat) (s : CState) (new : Nat → Int) (h : Before n tableSize cand k s)
      (hsc : Scatter n (extSlots tableSize s) (writePos tableSize s (fun i => cand i k)) new) :
      Before n tableSize cand (k + 1) (commit tableSize s (fun i => cand i k) new)

theorem before_inv {n tableSize : Nat} {cand : Nat → Nat → Nat}
    (hc : ∀ i k', i < n → cand i k' < tableSize) {k : Nat} {s : CState}
    (h : Before n tableSize cand k s) : CInv n tableSize cand k s := by
  induction h with
  | start => exact cinv_init _ _ _
  | next k s new _ hsc ih => exact (cinv_step hc ih hsc).1

/-- **C51**: a slot occupied when some round starts keeps its item to the end. -/
theorem cuckoo_keeps (items : List Item) (tableSize : Nat) (ht : 0 < tableSize) (seed : Blk)
    (k : Nat) (s t : CState)
    (hs : Before items.length tableSize
      (fun i k => hashPos tableSize seed (items.getD i (fun _ => 0)) k) k s)
    (h : Rounds items.length tableSize
      (fun i k => hashPos tableSize seed (items.getD i (fun _ => 0)) k) k s t) :
    ∀ c, c < tableSize → s.slot c ≥ 0 → t.slot c = s.slot c :=
  (rounds_inv (fun i k' _ => hashPos_lt tableSize ht seed _ k') h
    (before_inv (fun i k' _ => hashPos_lt tableSize ht seed _ k') hs)).2

/-! ### The runs exist -/

/-- Last write wins, as on the CPU back end. -/
def lastWrite (old : Nat → Int) (ix : Nat → Nat) : Nat → Nat → Int
  | 0 => old
  | n + 1 => fun c => if ix n = c then (n : Int) else lastWrite old ix n c

theorem lastWrite_scatter (old : Nat → Int) (ix : Nat → Nat) :
    ∀ n, Scatter n old ix (lastWrite old ix n)
  | 0 => fun c => ⟨fun _ => rfl, by rintro ⟨i, hi, _⟩; omega⟩
  | n + 1 => by
    intro c
    have ih := lastWrite_scatter old ix n c
    by_cases hn : ix n = c
    · refine ⟨fun h => absurd hn (h n (by omega)), fun _ => ⟨n, by omega, hn, ?_⟩⟩
      simp [lastWrite, hn]
    · simp only [lastWrite, hn, if_false]
      refine ⟨fun h => ih.1 (fun i hi => h i (by omega)), ?_⟩
      rintro ⟨i, hi, hic⟩
      have : i ≠ n := fun e => hn (e ▸ hic)
      obtain ⟨j, hj, h1, h2⟩ := ih.2 ⟨i, by omega, hic⟩
      exact ⟨j, by omega, h1, h2⟩

/-- One round with last write wins. -/
def roundLast (n tableSize : Nat) (cand : Nat → Nat → Nat) (k : Nat) (s : CState) : CState :=
  commit tableSize s (fun i => cand i k)
    (lastWrite (extSlots tableSize s) (writePos tableSize s (fun i => cand i k)) n)

/-- Every batch has a run. -/
theorem cuckoo_run_exists (items : List Item) (tableSize : Nat) (seed : Blk) :
    ∃ s, CuckooRun items tableSize seed s := by
  let cand : Nat → Nat → Nat := fun i k =>
    hashPos tableSize seed (items.getD i (fun _ => 0)) k
  refine ⟨roundLast items.length tableSize cand 2 (roundLast items.length tableSize cand 1
    (roundLast items.length tableSize cand 0 cInit)), ?_⟩
  refine Rounds.round 0 _ _ _ (by decide) (lastWrite_scatter _ _ _) ?_
  refine Rounds.round 1 _ _ _ (by decide) (lastWrite_scatter _ _ _) ?_
  refine Rounds.round 2 _ _ _ (by decide) (lastWrite_scatter _ _ _) ?_
  exact Rounds.done _

/-- Three items, five cells: a run places all of them. -/
example : ∃ s, CuckooRun [fun _ => 1, fun _ => 2, fun _ => 3] 5 (7, 9) s ∧
    succeeded s 0 = true ∧ succeeded s 1 = true ∧ succeeded s 2 = true := by
  let cand : Nat → Nat → Nat := fun i k =>
    hashPos 5 (7, 9) ([(fun _ => 1 : Item), fun _ => 2, fun _ => 3].getD i (fun _ => 0)) k
  refine ⟨roundLast 3 5 cand 2 (roundLast 3 5 cand 1 (roundLast 3 5 cand 0 cInit)), ?_,
    by decide +kernel, by decide +kernel, by decide +kernel⟩
  refine Rounds.round 0 _ _ _ (by decide) (lastWrite_scatter _ _ _) ?_
  refine Rounds.round 1 _ _ _ (by decide) (lastWrite_scatter _ _ _) ?_
  refine Rounds.round 2 _ _ _ (by decide) (lastWrite_scatter _ _ _) ?_
  exact Rounds.done _

/-- Items that share their first eight bytes share all candidate positions, so in every run at
most three of them are placed, however large the table. -/
theorem cuckoo_shared_prefix (items : List Item) (tableSize : Nat) (ht : 0 < tableSize) (seed : Blk)
    (s : CState) (h : CuckooRun items tableSize seed s) (key : Nat) (ix : List Nat) (hnd : ix.Nodup)
    (hix : ∀ i ∈ ix, ∃ x, items[i]? = some x ∧ itemKey x = key ∧ succeeded s i = true) :
    ix.length ≤ 3 := by
  obtain ⟨h1, h2, _, _⟩ := cuckoo_valid items tableSize ht seed s h
  let cells : List Nat := (List.range cuckooK).map fun i =>
    (((key ^^^ seed.1) * (aBase i ^^^ seed.1) + (bBase i ^^^ seed.2)) % 2 ^ 64) % tableSize
  have hsub : ix.map (fun i => (s.pos i).toNat) ⊆ cells := by
    intro p hp
    rw [List.mem_map] at hp
    obtain ⟨i, hi, rfl⟩ := hp
    obtain ⟨x, hx, hk, hs⟩ := hix i hi
    obtain ⟨q, hq, _, hpq, _⟩ := h1 i x hx hs
    have : (s.pos i).toNat = q := by omega
    rw [this]
    unfold lookupPos hashPos at hq
    rw [hk] at hq
    exact hq
  have hnd2 : (ix.map (fun i => (s.pos i).toNat)).Nodup := by
    apply List.Nodup.map_on _ hnd
    intro i hi j hj hij
    obtain ⟨x, hx, _, hs⟩ := hix i hi
    obtain ⟨y, hy, _, hs'⟩ := hix j hj
    apply h2 i j (List.getElem?_eq_some_iff.1 hx).1 (List.getElem?_eq_some_iff.1 hy).1 hs hs'
    unfold succeeded at hs hs'
    rw [decide_eq_true_eq] at hs hs'
    omega
  have := (List.subperm_of_subset hnd2 hsub).length_le
  simpa [cells] using this

end Verif.Mpc
