import Verif.Sgb.Predict
import Mathlib.Data.List.GetD
import Mathlib.Algebra.Order.Field.Rat
/-!
# SecureBoost training: where samples go (libs/ml/sgb.py), property C74

The split search is arbitrary here: for each level it delivers which nodes stop, which party wins a node, and every party's own
best feature and bin for each node.  What is modelled is what the code does with them: the tree arrays, the sample's node, the
merge over parties.  Every array operation is elementwise over samples, so the model follows one sample.  Values and bin
boundaries are in a linear order `D` (NaN is not modelled).
-/
namespace Verif.Sgb

variable {D V : Type}

/-- Python/JAX indexing of an array of length `n` by a possibly negative index: wrap once, then clamp. -/
def jaxIdx (n : Nat) (i : Int) : Nat :=
  let j := if i < 0 then i + n else i
  min j.toNat (n - 1)

/-- `compute_bin_indices` (sgb.py:148-151): `digitize(x, bins, right=True)` on increasing bins, the number of boundaries below `x` -/
def digitize [LinearOrder D] (bins : List D) (x : D) : Nat := (bins.filter (· < x)).length

/-- What the split search delivers for the `2^level` nodes of a level (sgb.py:1304-1346): `stop i` is `gain <= 0 or not finite`. -/
structure Choice where
  stop : Nat → Bool
  best : Nat → Nat
  feat : Nat → Nat → Int
  thr : Nat → Nat → Nat

/-- The part of the training state that concerns the tree and one sample. -/
structure St (D : Type) where
  feature : Nat → Nat → Int
  threshold : Nat → Nat → D
  isLeaf : Nat → Int
  owner : Nat → Int
  bt : Nat

/-- What the parties hold: bin boundaries per party and feature, and the sample's values. -/
structure World (D : Type) where
  bins : Nat → Int → List D
  row : Nat → Int → D
  /-- storing a boundary in the float32 threshold array (sgb.py:1248, 1127) -/
  cast : D → D
  /-- `inf` -/
  top : D

/-- `a.at[indices].set(v)` for the indices of a level (sgb.py:1290-1295) -/
def setLevel {α : Type} (L : Nat) (v : Nat → α) (a : Nat → α) : Nat → α := fun k =>
  if 2 ^ L - 1 ≤ k ∧ k < 2 ^ (L + 1) - 1 then v (k - (2 ^ L - 1)) else a k

/-- `init_array` calls of `build_tree` (sgb.py:1246-1251) -/
def init (w : World D) : St D where
  feature := fun _ _ => -1
  threshold := fun _ _ => w.top
  isLeaf := fun _ => 0
  owner := fun _ => -1
  bt := 0

/-- `bins_arr[best_feat, best_thresh_idx]`: JAX clamps the second index -/
def boundary (w : World D) (p : Nat) (f : Int) (t : Nat) : D := (w.bins p f).getD (min t ((w.bins p f).length - 1)) w.top

/-- `update_is_leaf` (sgb.py:757-765) -/
def newLeaf (c : Choice) (L : Nat) (s : St D) : Nat → Int := setLevel L (fun i => if c.stop i then 1 else 0) s.isLeaf

/-- `op.at[ci].set(bp)` (sgb.py:1052-1061) -/
def newOwner (c : Choice) (L : Nat) (s : St D) : Nat → Int := setLevel L (fun i => (c.best i : Int)) s.owner

/-- `update_party_feats` (sgb.py:1095-1106) -/
def newFeature (c : Choice) (L : Nat) (s : St D) (p : Nat) : Nat → Int := fun k =>
  let tmp := setLevel L (c.feat p) (s.feature p) k
  let tmp := if newLeaf c L s k ≠ 0 then -1 else tmp
  if newOwner c L s k = (p : Int) then tmp else -1

/-- `update_party_thresholds` (sgb.py:1115-1131) -/
def newThreshold (w : World D) (c : Choice) (L : Nat) (s : St D) (p : Nat) : Nat → D := fun k =>
  let tmp := setLevel L (fun i => w.cast (boundary w p (c.feat p i) (c.thr p i))) (s.threshold p) k
  let tmp := if newLeaf c L s k ≠ 0 then w.top else tmp
  if newOwner c L s k = (p : Int) then tmp else w.top

/-- `update_bt` (sgb.py:768-785) at party `p`; `bt_level = bt - (2^level - 1)` may be negative -/
def partyBt [LinearOrder D] (w : World D) (c : Choice) (L : Nat) (s : St D) (p : Nat) : Nat :=
  let i := jaxIdx (2 ^ L) ((s.bt : Int) - (2 ^ L - 1))
  let f := c.feat p i
  let next := if digitize (w.bins p f) (w.row p f) ≤ c.thr p i then 2 * s.bt + 1 else 2 * s.bt + 2
  if newLeaf c L s s.bt ≠ 0 then s.bt else next

/-- `merge_bt_updates` (sgb.py:1180-1203): scan over the nodes of the level -/
def mergeBt (cur : Nat) (tmp : Nat → Nat) (best : Nat → Nat) (off : Nat) : List Nat → Nat → Nat
  | [], acc => acc
  | i :: is, acc => mergeBt cur tmp best off is (if cur = off + i then tmp (best i) else acc)

/-- One level of `build_tree` (sgb.py:1284-1375 with `_update_tree_state`, 1010-1220) -/
def stepLevel [LinearOrder D] (w : World D) (c : Choice) (L : Nat) (s : St D) : St D where
  feature := newFeature c L s
  threshold := newThreshold w c L s
  isLeaf := newLeaf c L s
  owner := newOwner c L s
  bt := mergeBt s.bt (partyBt w c L s) c.best (2 ^ L - 1) (List.range (2 ^ L)) s.bt

/-- The level loop (sgb.py:1284) -/
def levels [LinearOrder D] (w : World D) (cs : Nat → Choice) : Nat → St D
  | 0 => init w
  | L + 1 => stepLevel w (cs L) L (levels w cs L)

/-- `build_tree` (sgb.py:1212-1404): the levels, then the last level made leaves; `value` is whatever leaf values are computed -/
def finish (d : Nat) (s : St D) : St D := { s with isLeaf := setLevel d (fun _ => 1) s.isLeaf }

/-- the tree returned -/
def treeOf (s : St D) (value : Nat → V) : Tree D V :=
  { feature := s.feature, threshold := s.threshold, value := value, isLeaf := s.isLeaf, owner := s.owner }

/-! ## Proof -/

theorem digitize_le [LinearOrder D] {bins : List D} (hs : bins.Pairwise (· ≤ ·)) (x : D) (t : Nat) (ht : t < bins.length) :
    digitize bins x ≤ t ↔ x ≤ bins[t] := by
  unfold digitize
  induction bins generalizing t with
  | nil => simp at ht
  | cons b r ih =>
    rw [List.pairwise_cons] at hs
    cases t with
    | zero =>
      by_cases hb : b < x
      · simp [List.filter_cons, hb]
      · have : r.filter (· < x) = [] := by
          rw [List.filter_eq_nil_iff]
          intro y hy
          simp only [decide_eq_true_eq, not_lt]
          exact le_trans (not_lt.1 hb) (hs.1 y hy)
        simp [List.filter_cons, hb, this, not_lt.1 hb]
    | succ t =>
      have ht' : t < r.length := by simpa using ht
      by_cases hb : b < x
      · simp only [List.filter_cons, hb, decide_true, if_true, List.length_cons, List.getElem_cons_succ]
        rw [← ih hs.2 t ht']
        omega
      · have : r.filter (· < x) = [] := by
          rw [List.filter_eq_nil_iff]
          intro y hy
          simp only [decide_eq_true_eq, not_lt]
          exact le_trans (not_lt.1 hb) (hs.1 y hy)
        have hle : x ≤ r[t] := le_trans (not_lt.1 hb) (hs.1 _ (List.getElem_mem ht'))
        simp [List.filter_cons, hb, this, hle]

theorem mergeBt_other (cur : Nat) (tmp best : Nat → Nat) (off : Nat) :
    ∀ (l : List Nat) (acc : Nat), (∀ i ∈ l, cur ≠ off + i) → mergeBt cur tmp best off l acc = acc
  | [], _, _ => rfl
  | i :: is, acc, h => by
    unfold mergeBt
    rw [if_neg (h i (List.mem_cons_self ..))]
    exact mergeBt_other cur tmp best off is acc fun j hj => h j (List.mem_cons_of_mem _ hj)

theorem mergeBt_hit (tmp best : Nat → Nat) (off i : Nat) :
    ∀ (l : List Nat) (acc : Nat), i ∈ l → mergeBt (off + i) tmp best off l acc = tmp (best i) := by
  intro l
  induction l with
  | nil => intro _ h; cases h
  | cons j js ih =>
    intro acc h
    unfold mergeBt
    by_cases hj : i ∈ js
    · exact ih _ hj
    · have : j = i := by
        rcases List.mem_cons.1 h with h | h
        · exact h.symm
        · exact absurd h hj
      subst this
      rw [if_pos rfl, mergeBt_other]
      intro k hk he
      have : j = k := by omega
      subst this
      exact hj hk

theorem pow_pred (L : Nat) : 2 ^ (L + 1) - 1 = 2 * (2 ^ L - 1) + 1 := by
  have := Nat.two_pow_pos L
  rw [Nat.pow_succ]; omega

theorem jaxIdx_in {n i : Nat} (h : i < n) : jaxIdx n (i : Int) = i := by
  unfold jaxIdx
  rw [if_neg (by omega)]
  simp only [Int.toNat_natCast]
  omega

/-- Two trees with the same splits below `B` have the same walks up to `2 * B`. -/
theorem walk_agree {Θ : Type} {le : D → Θ → Bool} {row : Nat → Int → D} {t u : Tree Θ V} {B : Nat}
    (h : ∀ a, a < B → t.isLeaf a = 0 → u.isLeaf a = 0 ∧ child le u row a = child le t row a) {k : Nat} (hw : WalkTo le t row k) :
    k ≤ 2 * B → WalkTo le u row k := by
  induction hw with
  | root => intro _; exact .root
  | @step a _ hl ih =>
    intro hk
    have hb := child_bounds le t row a
    obtain ⟨h1, h2⟩ := h a (by omega) hl
    rw [← h2]
    exact .step (ih (by omega)) h1

/-- The comparison of the prediction -/
def leD [LinearOrder D] : D → D → Bool := fun x y => decide (x ≤ y)

/-- Loop invariant of the level loop. -/
structure LInv [LinearOrder D] (w : World D) (P L : Nat) (s : St D) : Prop where
  owned : ∀ a, a < 2 ^ L - 1 → s.isLeaf a = 0 → 0 ≤ s.owner a ∧ s.owner a < P
  walk : WalkTo leD (treeOf s (fun _ => ())) w.row s.bt
  range : s.bt < 2 ^ (L + 1) - 1
  place : 2 ^ L - 1 ≤ s.bt ∨ s.isLeaf s.bt ≠ 0

/-- The assumptions on the split search and the data: the winning party exists, and its bin for a node that is split is one of
the boundaries of the feature, sorted and stored without rounding. -/
structure Sound [LinearOrder D] (w : World D) (P L : Nat) (c : Choice) : Prop where
  best : ∀ i, i < 2 ^ L → c.best i < P
  sorted : ∀ p f, (w.bins p f).Pairwise (· ≤ ·)
  thr : ∀ i, i < 2 ^ L → c.stop i = false → c.thr (c.best i) i < (w.bins (c.best i) (c.feat (c.best i) i)).length
  exact' : ∀ p f, ∀ b ∈ w.bins p f, w.cast b = b

theorem level_old {α : Type} {L k : Nat} {v a : Nat → α} (h : k < 2 ^ L - 1) : setLevel L v a k = a k := by
  unfold setLevel; rw [if_neg (by omega)]

theorem level_new {α : Type} {L i : Nat} {v a : Nat → α} (h : i < 2 ^ L) : setLevel L v a (2 ^ L - 1 + i) = v i := by
  unfold setLevel
  have := pow_pred L
  have h2 := Nat.two_pow_pos L
  rw [if_pos (by omega)]
  congr 1; omega

theorem step_agree [LinearOrder D] {w : World D} {P L : Nat} {s : St D} {c : Choice} (h : LInv w P L s) :
    ∀ a, a < 2 ^ L - 1 → (treeOf s (fun _ => ())).isLeaf a = 0 → (treeOf (stepLevel w c L s) (fun _ => ())).isLeaf a = 0 ∧
      child leD (treeOf (stepLevel w c L s) (fun _ => ())) w.row a = child leD (treeOf s (fun _ => ())) w.row a := by
  intro a ha hl
  have e1 : newLeaf c L s a = s.isLeaf a := level_old ha
  have e2 : newOwner c L s a = s.owner a := level_old ha
  have hl' : s.isLeaf a = 0 := hl
  have ho : s.owner a = ((s.owner a).toNat : Int) := by
    have := (h.owned a ha hl').1; omega
  refine ⟨by show newLeaf c L s a = 0; rw [e1, hl'], ?_⟩
  have e3 : newFeature c L s (s.owner a).toNat a = s.feature (s.owner a).toNat a := by
    unfold newFeature
    simp only [e1, e2, hl', ne_eq, not_true_eq_false, if_false, level_old ha]
    rw [if_pos ho]
  have e4 : newThreshold w c L s (s.owner a).toNat a = s.threshold (s.owner a).toNat a := by
    unfold newThreshold
    simp only [e1, e2, hl', ne_eq, not_true_eq_false, if_false, level_old ha]
    rw [if_pos ho]
  show (if leD (w.row (newOwner c L s a).toNat (newFeature c L s (newOwner c L s a).toNat a))
      (newThreshold w c L s (newOwner c L s a).toNat a) = true then _ else _) = _
  rw [e2, e3, e4]
  rfl

theorem linv_step [LinearOrder D] {w : World D} {P L : Nat} {s : St D} {c : Choice} (h : LInv w P L s) (hc : Sound w P L c) :
    LInv w P (L + 1) (stepLevel w c L s) := by
  have hp := pow_pred L
  have hp2 := pow_pred (L + 1)
  have h2 := Nat.two_pow_pos L
  have hw' : WalkTo leD (treeOf (stepLevel w c L s) (fun _ => ())) w.row s.bt :=
    walk_agree (step_agree h) h.walk (by have := h.range; omega)
  have hown : ∀ a, a < 2 ^ (L + 1) - 1 → newLeaf c L s a = 0 → 0 ≤ newOwner c L s a ∧ newOwner c L s a < P := by
    intro a ha hl
    by_cases hlo : a < 2 ^ L - 1
    · have e1 : newLeaf c L s a = s.isLeaf a := level_old hlo
      have e2 : newOwner c L s a = s.owner a := level_old hlo
      rw [e2]; exact h.owned a hlo (by rw [← e1]; exact hl)
    · obtain ⟨i, rfl⟩ := Nat.exists_eq_add_of_le (Nat.le_of_not_lt hlo)
      have hi : i < 2 ^ L := by omega
      have e2 : newOwner c L s (2 ^ L - 1 + i) = (c.best i : Int) := level_new hi
      rw [e2]
      have := hc.best i hi
      omega
  by_cases hlo : s.bt < 2 ^ L - 1
  · -- the sample stopped at an upper level
    have hleaf : s.isLeaf s.bt ≠ 0 := by
      rcases h.place with h | h
      · omega
      · exact h
    have hbt : (stepLevel w c L s).bt = s.bt := by
      show mergeBt _ _ _ _ _ _ = _
      exact mergeBt_other _ _ _ _ _ _ (by intro i _; omega)
    refine ⟨hown, by rw [hbt]; exact hw', by rw [hbt]; omega, ?_⟩
    right
    rw [hbt]
    show newLeaf c L s s.bt ≠ 0
    rw [show newLeaf c L s s.bt = s.isLeaf s.bt from level_old hlo]
    exact hleaf
  · obtain ⟨i, hi⟩ := Nat.exists_eq_add_of_le (Nat.le_of_not_lt hlo)
    have hi2 : i < 2 ^ L := by have := h.range; omega
    have hbt : (stepLevel w c L s).bt = partyBt w c L s (c.best i) := by
      show mergeBt _ _ _ _ _ _ = _
      rw [hi]
      exact mergeBt_hit _ _ _ _ _ _ (List.mem_range.2 hi2)
    have hidx : jaxIdx (2 ^ L) ((s.bt : Int) - (2 ^ L - 1)) = i := by
      have : ((s.bt : Int) - (2 ^ L - 1)) = (i : Int) := by
        rw [hi]; push_cast [Nat.one_le_two_pow]; omega
      rw [this, jaxIdx_in hi2]
    have hleaf : newLeaf c L s s.bt = if c.stop i then 1 else 0 := by
      rw [hi]; exact level_new hi2
    cases hstop : c.stop i with
    | true =>
      have e : partyBt w c L s (c.best i) = s.bt := by
        unfold partyBt
        simp only [hleaf, hstop, if_true]
        rw [if_pos (by decide)]
      refine ⟨hown, by rw [hbt, e]; exact hw', by rw [hbt, e]; have := h.range; omega, Or.inr ?_⟩
      rw [hbt, e]
      show newLeaf c L s s.bt ≠ 0
      rw [hleaf, hstop]; decide
    | false =>
      have hz : newLeaf c L s s.bt = 0 := by rw [hleaf, hstop]; rfl
      have ht := hc.thr i hi2 hstop
      have e : partyBt w c L s (c.best i) = child leD (treeOf (stepLevel w c L s) (fun _ => ())) w.row s.bt := by
        have e2 : newOwner c L s s.bt = (c.best i : Int) := by rw [hi]; exact level_new hi2
        have e3 : newFeature c L s (c.best i) s.bt = c.feat (c.best i) i := by
          unfold newFeature
          simp only [hz, e2, ne_eq, not_true_eq_false, if_false, if_true]
          rw [hi]; exact level_new hi2
        have e4 : newThreshold w c L s (c.best i) s.bt
            = (w.bins (c.best i) (c.feat (c.best i) i))[c.thr (c.best i) i] := by
          unfold newThreshold
          simp only [hz, e2, ne_eq, not_true_eq_false, if_false, if_true]
          rw [hi, level_new hi2]
          unfold boundary
          rw [show min (c.thr (c.best i) i) ((w.bins (c.best i) (c.feat (c.best i) i)).length - 1) = c.thr (c.best i) i by omega,
            List.getD_eq_getElem _ _ ht]
          exact hc.exact' _ _ _ (List.getElem_mem ht)
        show _ = if leD (w.row (newOwner c L s s.bt).toNat (newFeature c L s (newOwner c L s s.bt).toNat s.bt))
          (newThreshold w c L s (newOwner c L s s.bt).toNat s.bt) = true then _ else _
        unfold partyBt
        simp only [hidx, hz, ne_eq, not_true_eq_false, if_false]
        rw [e2, Int.toNat_natCast, e3, e4]
        unfold leD
        simp only [decide_eq_true_eq]
        by_cases hd : digitize (w.bins (c.best i) (c.feat (c.best i) i)) (w.row (c.best i) (c.feat (c.best i) i)) ≤ c.thr (c.best i) i
        · rw [if_pos hd, if_pos ((digitize_le (hc.sorted _ _) _ _ ht).1 hd)]
        · rw [if_neg hd, if_neg (fun x => hd ((digitize_le (hc.sorted _ _) _ _ ht).2 x))]
      have hb := child_bounds leD (treeOf (stepLevel w c L s) (fun _ => ())) w.row s.bt
      refine ⟨hown, ?_, ?_, Or.inl ?_⟩
      · rw [hbt, e]; exact .step hw' hz
      · rw [hbt, e]; have := h.range; omega
      · rw [hbt, e]; omega

theorem linv_init [LinearOrder D] (w : World D) (P : Nat) : LInv w P 0 (init w) where
  owned := by intro a h; simp at h
  walk := .root
  range := by show 0 < _; decide
  place := Or.inl (Nat.le_refl 0)

theorem linv_levels [LinearOrder D] (w : World D) (P d : Nat) (cs : Nat → Choice) (hc : ∀ L, L < d → Sound w P L (cs L)) :
    LInv w P d (levels w cs d) := by
  induction d with
  | zero => exact linv_init w P
  | succ d ih => exact linv_step (ih fun L hL => hc L (by omega)) (hc d (by omega))

/-- **C74** (first half): whatever the split search answers, as long as winners exist, the tree built is well formed, so that
`predict_is_walk` applies to it.  The thresholds play no role in this. -/
theorem built_tree_well_formed [LinearOrder D] (w : World D) (P d : Nat) (cs : Nat → Choice) (value : Nat → V)
    (hb : ∀ L, L < d → ∀ i, i < 2 ^ L → (cs L).best i < P) :
    WellFormed (treeOf (finish d (levels w cs d)) value) (2 ^ (d + 1) - 1) P := by
  have hp := pow_pred d
  have own : ∀ d, (∀ L, L < d → ∀ i, i < 2 ^ L → (cs L).best i < P) → ∀ a, a < 2 ^ d - 1 →
      0 ≤ (levels w cs d).owner a ∧ (levels w cs d).owner a < P := by
    intro d
    induction d with
    | zero => intro _ a ha; simp at ha
    | succ d ih =>
      intro hb a ha
      show 0 ≤ newOwner (cs d) d (levels w cs d) a ∧ newOwner (cs d) d (levels w cs d) a < P
      by_cases hlo : a < 2 ^ d - 1
      · rw [show newOwner (cs d) d (levels w cs d) a = (levels w cs d).owner a from level_old hlo]
        exact ih (fun L hL => hb L (by omega)) a hlo
      · obtain ⟨i, rfl⟩ := Nat.exists_eq_add_of_le (Nat.le_of_not_lt hlo)
        have hpd := pow_pred d
        have h2 := Nat.two_pow_pos d
        have hi : i < 2 ^ d := by omega
        rw [show newOwner (cs d) d (levels w cs d) (2 ^ d - 1 + i) = ((cs d).best i : Int) from level_new hi]
        have := hb d (by omega) i hi
        omega
  refine ⟨by omega, ?_, ?_⟩
  · intro i h1 h2
    show setLevel d (fun _ => 1) _ i ≠ 0
    unfold setLevel
    rw [if_pos (by omega)]
    exact Int.one_ne_zero
  · intro i h1 _
    exact own d hb i (by omega)

/-- **C74**: whatever the split search answers, if the chosen bins are boundaries of the chosen features, sorted and stored
exactly, then the node a training sample ends in is the leaf that prediction finds for the same values: the prediction for a
training row is the value of the leaf it was counted in. -/
theorem training_matches_prediction_partial [LinearOrder D] (w : World D) (P d : Nat) (cs : Nat → Choice) (value : Nat → V)
    (hP : 0 < P) (hc : ∀ L, L < d → Sound w P L (cs L)) :
    predictTree leD (treeOf (finish d (levels w cs d)) value) w.row (2 ^ (d + 1) - 1) P = value (finish d (levels w cs d)).bt := by
  have hp := pow_pred d
  have wf := built_tree_well_formed w P d cs value (fun L hL i hi => (hc L hL).best i hi)
  have inv := linv_levels w P d cs hc
  obtain ⟨k, ⟨_, _, _, h4⟩, hu⟩ := predict_is_walk leD (treeOf (finish d (levels w cs d)) value) w.row (2 ^ (d + 1) - 1) P hP wf
  have hw : WalkTo leD (treeOf (finish d (levels w cs d)) value) w.row (levels w cs d).bt := by
    have : ∀ {k}, WalkTo leD (treeOf (levels w cs d) (fun _ => ())) w.row k → k ≤ 2 * (2 ^ d - 1) →
        WalkTo leD (treeOf (finish d (levels w cs d)) value) w.row k := by
      intro k hk
      induction hk with
      | root => intro _; exact .root
      | @step a _ hl ih =>
        intro hle
        have hb := child_bounds leD (treeOf (levels w cs d) (fun _ => ())) w.row a
        have hlt : a < 2 ^ d - 1 := by omega
        have : WalkTo leD (treeOf (finish d (levels w cs d)) value) w.row
            (child leD (treeOf (finish d (levels w cs d)) value) w.row a) := by
          refine .step (ih (by omega)) ?_
          show setLevel d (fun _ => 1) (levels w cs d).isLeaf a = 0
          rw [level_old hlt]; exact hl
        exact this
    exact this inv.walk (by have := inv.range; omega)
  have hl : (treeOf (finish d (levels w cs d)) value).isLeaf (levels w cs d).bt ≠ 0 := by
    show setLevel d (fun _ => 1) (levels w cs d).isLeaf (levels w cs d).bt ≠ 0
    rcases inv.place with h | h
    · unfold setLevel
      rw [if_pos ⟨h, inv.range⟩]
      exact Int.one_ne_zero
    · by_cases hlt : (levels w cs d).bt < 2 ^ d - 1
      · rw [level_old hlt]; exact h
      · unfold setLevel
        rw [if_pos ⟨by omega, inv.range⟩]
        exact Int.one_ne_zero
  rw [h4, ← hu _ hw hl]
  rfl

/-- **C74** disagreement, index out of range: `n_buckets = max_bin + 1` while a feature has `max_bin - 1` boundaries
(sgb.py:1753, 131), so the search may answer the bin `max_bin - 1` behind the last boundary.  Training then sends everybody
left, but the stored threshold is the last boundary (JAX clamps the index), and prediction sends the values above it right.
Here `max_bin = 4`, boundaries 1, 2, 3, the value 9. -/
theorem clamped_threshold_violated :
    let w : World Int := { bins := fun _ _ => [1, 2, 3], row := fun _ _ => 9, cast := id, top := 1000000 }
    let c : Choice := { stop := fun _ => false, best := fun _ => 0, feat := fun _ _ => 0, thr := fun _ _ => 3 }
    (finish 1 (levels w (fun _ => c) 1)).bt = 1 ∧
    predictTree leD (treeOf (finish 1 (levels w (fun _ => c) 1)) id) w.row 3 1 = 2 := by
  refine ⟨by decide +kernel, by decide +kernel⟩

/-- float32 rounding of a natural number: 24 significant bits, ties to even -/
def roundF32 (n : Nat) : Nat :=
  if n < 2 ^ 24 then n else
    let u := 2 ^ (Nat.log2 n - 23)
    let q := n / u
    let r := n % u
    (if 2 * r < u then q else if 2 * r = u then (if q % 2 = 0 then q else q + 1) else q + 1) * u

/-- **C74** disagreement, rounding: thresholds live in a float32 array (sgb.py:1248), so with float64 features (the numpy default)
the boundary 16777217 is stored as 16777216, and the training sample 16777217, counted on the left, is predicted on the right. -/
theorem rounded_threshold_violated :
    let w : World Nat := { bins := fun _ _ => [16777217], row := fun _ _ => 16777217, cast := roundF32, top := 2 ^ 127 }
    let c : Choice := { stop := fun _ => false, best := fun _ => 0, feat := fun _ _ => 0, thr := fun _ _ => 0 }
    (finish 1 (levels w (fun _ => c) 1)).bt = 1 ∧
    predictTree leD (treeOf (finish 1 (levels w (fun _ => c) 1)) id) w.row 3 1 = 2 := by
  refine ⟨by decide +kernel, by decide +kernel⟩

/-- non-vacuity: two parties, two levels, one node stopping early -/
example :
    let w : World Int := { bins := fun p _ => if p = 0 then [1, 2, 3] else [10, 20], row := fun p f => if p = 0 then f + 2 else 15,
                           cast := id, top := 1000000 }
    let c : Choice := { stop := fun i => decide (i = 1), best := fun i => i, feat := fun _ _ => 0, thr := fun _ _ => 1 }
    (∀ L, L < 2 → Sound w 2 L c) ∧
    predictTree leD (treeOf (finish 2 (levels w (fun _ => c) 2)) id) w.row 7 2 = 3 := by
  refine ⟨fun L hL => ⟨?_, ?_, ?_, ?_⟩, by decide +kernel⟩
  · intro i hi
    have : 2 ^ L ≤ 2 ^ 1 := Nat.pow_le_pow_right (by decide) (by omega)
    show i < 2; omega
  · intro p f; show List.Pairwise _ (if p = 0 then _ else _); split <;> decide
  · intro i _ _; show 1 < (if i = 0 then [1, 2, 3] else [10, 20]).length; split <;> decide
  · intro p f b _; rfl

end Verif.Sgb
