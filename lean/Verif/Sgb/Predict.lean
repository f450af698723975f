import Mathlib.Data.List.Basic
import Mathlib.Tactic.Ring
/-!
# SecureBoost prediction (libs/ml/sgb.py): property C73

Every operation of the prediction works row by row, so the model follows one sample.  Arrays over nodes are functions on node
numbers; inner nodes are `i < n / 2` with `n` odd, so the children written to, `2i+1` and `2i+2`, are inside the arrays.  Feature values `D` are compared with thresholds `Θ` by an arbitrary
relation (`<=` on floats, NaN included).  `data_arr[:, feat_idx]` is total in JAX (indices wrap or clamp), so a party's row is a
total function of the index.
-/
namespace Verif.Sgb

/-- `Tree` (sgb.py:66-75): per party features and thresholds; leaf values, leaf mask (`0` is a split) and owners. -/
structure Tree (Θ V : Type) where
  feature : Nat → Nat → Int
  threshold : Nat → Nat → Θ
  value : Nat → V
  isLeaf : Nat → Int
  owner : Nat → Int

variable {D Θ V : Type}

/-- One row of the location matrix: a count per node. -/
abbrev Locs := Nat → Int

/-- `locs.at[:, k].add(v)` -/
def addAt (l : Locs) (k : Nat) (v : Int) : Locs := fun j => if j = k then l j + v else l j

/-- `locs.at[:, k].set(v)` -/
def setAt (l : Locs) (k : Nat) (v : Int) : Locs := fun j => if j = k then v else l j

/-- `data_arr[:, feat_idx] <= thresh` for party `p` at node `i` (sgb.py:1442-1444) -/
def goLeft (le : D → Θ → Bool) (t : Tree Θ V) (row : Nat → Int → D) (p i : Nat) : Bool :=
  le (row p (t.feature p i)) (t.threshold p i)

/-- `process_my_split` (sgb.py:1440-1449) -/
def mySplit (left : Bool) (i : Nat) (l : Locs) : Locs :=
  let here := l i
  let g : Int := if left then 1 else 0
  setAt (addAt (addAt l (2 * i + 1) (here * g)) (2 * i + 2) (here * (1 - g))) i 0

/-- `propagate_both` (sgb.py:1454-1458) -/
def propagateBoth (i : Nat) (l : Locs) : Locs :=
  let here := l i
  setAt (addAt (addAt l (2 * i + 1) here) (2 * i + 2) here) i 0

/-- `propagate` (sgb.py:1437-1462) for party `p` -/
def propagate (le : D → Θ → Bool) (t : Tree Θ V) (row : Nat → Int → D) (p i : Nat) (l : Locs) : Locs :=
  if t.isLeaf i = 0 ∧ t.owner i = (p : Int) then mySplit (goLeft le t row p i) i l
  else if t.isLeaf i = 0 then propagateBoth i l
  else l

/-- `fori_loop(0, k, propagate, …)` (sgb.py:1464) -/
def propagateTo (le : D → Θ → Bool) (t : Tree Θ V) (row : Nat → Int → D) (p : Nat) : Nat → Locs → Locs
  | 0, l => l
  | k + 1, l => propagate le t row p k (propagateTo le t row p k l)

/-- `predict_tree_single_party` (sgb.py:1411-1468): start with all samples at the root, run over the inner nodes -/
def singleParty (le : D → Θ → Bool) (t : Tree Θ V) (row : Nat → Int → D) (n p : Nat) : Locs :=
  propagateTo le t row p (n / 2) (setAt (fun _ => 0) 0 1)

/-- `jnp.argmax` of a boolean row: the first true position, 0 when there is none -/
def argmaxBool (m : Nat → Bool) (n : Nat) : Nat := ((List.range n).find? m).getD 0

/-- `predict_tree` (sgb.py:1471-1524) for `P` parties: consensus of the masks, first leaf in consensus, its value -/
def predictTree (le : D → Θ → Bool) (t : Tree Θ V) (row : Nat → Int → D) (n P : Nat) : V :=
  let consensus : Nat → Bool := fun k => (List.range P).all fun p => decide (singleParty le t row n p k > 0)
  t.value (argmaxBool (fun k => consensus k && decide (t.isLeaf k ≠ 0)) n)

/-! ## Specification: walking down one tree with all features at hand -/

/-- The child of a split node for this sample: the owner's feature against the owner's threshold. -/
def child (le : D → Θ → Bool) (t : Tree Θ V) (row : Nat → Int → D) (i : Nat) : Nat :=
  if le (row (t.owner i).toNat (t.feature (t.owner i).toNat i)) (t.threshold (t.owner i).toNat i) then 2 * i + 1 else 2 * i + 2

/-- `WalkTo i`: following the splits from the root one comes through node `i`. -/
inductive WalkTo (le : D → Θ → Bool) (t : Tree Θ V) (row : Nat → Int → D) : Nat → Prop
  | root : WalkTo le t row 0
  | step {i : Nat} : WalkTo le t row i → t.isLeaf i = 0 → WalkTo le t row (child le t row i)

/-- A tree over `n = 2^(d+1) - 1` nodes as `build_tree` makes it (sgb.py:1346-1393): the last level consists of leaves, and each
split is owned by one of the `P` parties. -/
structure WellFormed (t : Tree Θ V) (n P : Nat) : Prop where
  odd : n % 2 = 1
  last : ∀ i, n / 2 ≤ i → i < n → t.isLeaf i ≠ 0
  owned : ∀ i, i < n / 2 → t.isLeaf i = 0 → 0 ≤ t.owner i ∧ t.owner i < P

/-! ## Proof -/

/-- Reached by party `p`'s own knowledge: every ancestor is a split, and own splits are followed. -/
inductive Reach (le : D → Θ → Bool) (t : Tree Θ V) (row : Nat → Int → D) (p : Nat) : Nat → Prop
  | root : Reach le t row p 0
  | left {i : Nat} : Reach le t row p i → t.isLeaf i = 0 → (t.owner i = (p : Int) → goLeft le t row p i = true) →
      Reach le t row p (2 * i + 1)
  | right {i : Nat} : Reach le t row p i → t.isLeaf i = 0 → (t.owner i = (p : Int) → goLeft le t row p i = false) →
      Reach le t row p (2 * i + 2)

theorem reach_left_iff {le : D → Θ → Bool} {t : Tree Θ V} {row : Nat → Int → D} {p i : Nat} :
    Reach le t row p (2 * i + 1) ↔ Reach le t row p i ∧ t.isLeaf i = 0 ∧ (t.owner i = (p : Int) → goLeft le t row p i = true) := by
  constructor
  · intro h
    generalize hk : 2 * i + 1 = k at h
    cases h with
    | root => omega
    | @left j h1 h2 h3 => obtain rfl : i = j := by omega
                          exact ⟨h1, h2, h3⟩
    | right h1 h2 h3 => omega
  · rintro ⟨h1, h2, h3⟩; exact .left h1 h2 h3

theorem reach_right_iff {le : D → Θ → Bool} {t : Tree Θ V} {row : Nat → Int → D} {p i : Nat} :
    Reach le t row p (2 * i + 2) ↔ Reach le t row p i ∧ t.isLeaf i = 0 ∧ (t.owner i = (p : Int) → goLeft le t row p i = false) := by
  constructor
  · intro h
    generalize hk : 2 * i + 2 = k at h
    cases h with
    | root => omega
    | left h1 h2 h3 => omega
    | @right j h1 h2 h3 => obtain rfl : i = j := by omega
                           exact ⟨h1, h2, h3⟩
  · rintro ⟨h1, h2, h3⟩; exact .right h1 h2 h3

/-- Loop invariant: after the nodes below `k`, a sample is at the reached nodes that are not yet split. -/
def Inv (le : D → Θ → Bool) (t : Tree Θ V) (row : Nat → Int → D) (p k : Nat) (l : Locs) : Prop :=
  ∀ j, (l j = 1 ∨ l j = 0) ∧ (l j = 1 ↔ Reach le t row p j ∧ j < 2 * k + 1 ∧ (k ≤ j ∨ t.isLeaf j ≠ 0))

theorem inv_init (le : D → Θ → Bool) (t : Tree Θ V) (row : Nat → Int → D) (p : Nat) :
    Inv le t row p 0 (setAt (fun _ => 0) 0 1) := by
  intro j
  unfold setAt
  by_cases h : j = 0
  · subst h
    simp [Reach.root]
  · simp [h]

theorem inv_step {le : D → Θ → Bool} {t : Tree Θ V} {row : Nat → Int → D} {p k : Nat} {l : Locs} (h : Inv le t row p k l) :
    Inv le t row p (k + 1) (propagate le t row p k l) := by
  have hk := h k
  have h1 := h (2 * k + 1)
  have h2 := h (2 * k + 2)
  have z1 : l (2 * k + 1) = 0 := by
    rcases h1.1 with e | e
    · have := (h1.2.1 e).2.1; omega
    · exact e
  have z2 : l (2 * k + 2) = 0 := by
    rcases h2.1 with e | e
    · have := (h2.2.1 e).2.1; omega
    · exact e
  have hkr : l k = 1 ↔ Reach le t row p k := by
    rw [hk.2]
    exact ⟨fun x => x.1, fun x => ⟨x, by omega, Or.inl (Nat.le_refl k)⟩⟩
  intro j
  by_cases hl : t.isLeaf k = 0
  · -- a split: the two children receive, the node is cleared
    have key : ∃ a b : Int, propagate le t row p k l = setAt (addAt (addAt l (2 * k + 1) a) (2 * k + 2) b) k 0 ∧
        (a = 1 ∨ a = 0) ∧ (b = 1 ∨ b = 0) ∧
        (a = 1 ↔ Reach le t row p (2 * k + 1)) ∧ (b = 1 ↔ Reach le t row p (2 * k + 2)) := by
      unfold propagate
      by_cases ho : t.owner k = (p : Int)
      · rw [if_pos ⟨hl, ho⟩]
        refine ⟨_, _, rfl, ?_, ?_, ?_, ?_⟩
        · cases goLeft le t row p k <;> rcases hk.1 with e | e <;> simp [e]
        · cases goLeft le t row p k <;> rcases hk.1 with e | e <;> simp [e]
        · rw [reach_left_iff, ← hkr]
          cases hg : goLeft le t row p k <;> simp [hl, ho]
        · rw [reach_right_iff, ← hkr]
          cases hg : goLeft le t row p k <;> simp [hl, ho]
      · rw [if_neg (fun x => ho x.2), if_pos hl]
        refine ⟨_, _, rfl, hk.1, hk.1, ?_, ?_⟩
        · rw [reach_left_iff, hkr]; simp [hl, ho]
        · rw [reach_right_iff, hkr]; simp [hl, ho]
    obtain ⟨a, b, he, ha, hb, ha1, hb1⟩ := key
    rw [he]
    unfold setAt addAt
    by_cases c0 : j = k
    · subst c0
      rw [if_pos rfl]
      refine ⟨Or.inr rfl, ?_⟩
      constructor
      · intro x; cases x
      · rintro ⟨_, _, x | x⟩
        · omega
        · exact absurd hl x
    · simp only [if_neg c0]
      by_cases c1 : j = 2 * k + 1
      · subst c1
        have : ¬ 2 * k + 1 = 2 * k + 2 := by omega
        simp only [if_true, if_neg this, z1, Int.zero_add]
        refine ⟨ha, ha1.trans ⟨fun x => ⟨x, by omega, Or.inl (by omega)⟩, fun x => x.1⟩⟩
      · by_cases c2 : j = 2 * k + 2
        · subst c2
          simp only [if_true, if_neg c1, z2, Int.zero_add]
          refine ⟨hb, hb1.trans ⟨fun x => ⟨x, by omega, Or.inl (by omega)⟩, fun x => x.1⟩⟩
        · simp only [if_neg c1, if_neg c2]
          refine ⟨(h j).1, (h j).2.trans ?_⟩
          constructor
          · rintro ⟨x, y, z⟩
            refine ⟨x, by omega, ?_⟩
            rcases z with z | z
            · exact Or.inl (by omega)
            · exact Or.inr z
          · rintro ⟨x, y, z⟩
            refine ⟨x, by omega, ?_⟩
            rcases z with z | z
            · exact Or.inl (by omega)
            · exact Or.inr z
  · have he : propagate le t row p k l = l := by
      unfold propagate
      rw [if_neg (fun x => hl x.1), if_neg hl]
    rw [he]
    refine ⟨(h j).1, (h j).2.trans ?_⟩
    constructor
    · rintro ⟨x, y, z⟩
      refine ⟨x, by omega, ?_⟩
      by_cases c : j = k
      · subst c; exact Or.inr hl
      · rcases z with z | z
        · exact Or.inl (by omega)
        · exact Or.inr z
    · rintro ⟨x, y, z⟩
      have n1 : j ≠ 2 * k + 1 := by
        rintro rfl; exact hl (reach_left_iff.1 x).2.1
      have n2 : j ≠ 2 * k + 2 := by
        rintro rfl; exact hl (reach_right_iff.1 x).2.1
      refine ⟨x, by omega, ?_⟩
      rcases z with z | z
      · exact Or.inl (by omega)
      · exact Or.inr z

theorem inv_to (le : D → Θ → Bool) (t : Tree Θ V) (row : Nat → Int → D) (p : Nat) :
    ∀ k, Inv le t row p k (propagateTo le t row p k (setAt (fun _ => 0) 0 1))
  | 0 => inv_init le t row p
  | k + 1 => inv_step (inv_to le t row p k)

/-- A party's final mask: the leaves it reaches. -/
theorem single_party_mask {t : Tree Θ V} {n P : Nat} (w : WellFormed t n P) (le : D → Θ → Bool) (row : Nat → Int → D) (p j : Nat)
    (hj : j < n) : singleParty le t row n p j > 0 ↔ Reach le t row p j ∧ t.isLeaf j ≠ 0 := by
  have h := inv_to le t row p (n / 2) j
  have ho := w.odd
  unfold singleParty
  constructor
  · intro hp
    have e : propagateTo le t row p (n / 2) (setAt (fun _ => 0) 0 1) j = 1 := by
      rcases h.1 with e | e
      · exact e
      · omega
    obtain ⟨x, _, z⟩ := h.2.1 e
    refine ⟨x, ?_⟩
    rcases z with z | z
    · exact w.last j z hj
    · exact z
  · rintro ⟨x, y⟩
    rw [h.2.2 ⟨x, by omega, Or.inr y⟩]
    decide

theorem walk_child {le : D → Θ → Bool} {t : Tree Θ V} {row : Nat → Int → D} {k i : Nat} (h : WalkTo le t row k)
    (hk : k = 2 * i + 1 ∨ k = 2 * i + 2) : WalkTo le t row i ∧ t.isLeaf i = 0 ∧ k = child le t row i := by
  cases h with
  | root => omega
  | @step a h1 h2 =>
    have hc : child le t row a = 2 * a + 1 ∨ child le t row a = 2 * a + 2 := by
      unfold child; split
      · exact Or.inl rfl
      · exact Or.inr rfl
    obtain rfl : a = i := by omega
    exact ⟨h1, h2, rfl⟩

theorem walk_reach {le : D → Θ → Bool} {t : Tree Θ V} {row : Nat → Int → D} {k : Nat} (h : WalkTo le t row k) (p : Nat) :
    Reach le t row p k := by
  induction h with
  | root => exact .root
  | @step i _ h2 ih =>
    unfold child
    split
    · next hg =>
      exact .left ih h2 (fun ho => by rw [ho] at hg; exact hg)
    · next hg =>
      refine .right ih h2 (fun ho => ?_)
      rw [ho] at hg
      exact Bool.eq_false_iff.2 hg

theorem reach_walk {le : D → Θ → Bool} {t : Tree Θ V} {row : Nat → Int → D} {n P : Nat} (w : WellFormed t n P) :
    ∀ k, k < n → (∀ p, p < P → Reach le t row p k) → 0 < P → WalkTo le t row k := by
  intro k
  induction k using Nat.strongRecOn with
  | _ k ih =>
    intro hk hr hP
    have ho := w.odd
    rcases Nat.eq_zero_or_pos k with rfl | hpos
    · exact .root
    · obtain ⟨i, hi⟩ : ∃ i, k = 2 * i + 1 ∨ k = 2 * i + 2 := ⟨(k - 1) / 2, by omega⟩
      have hall : ∀ p, p < P → Reach le t row p i ∧ t.isLeaf i = 0 ∧
          (t.owner i = (p : Int) → goLeft le t row p i = decide (k = 2 * i + 1)) := by
        intro p hp
        rcases hi with rfl | rfl
        · obtain ⟨a, b, c⟩ := reach_left_iff.1 (hr p hp)
          exact ⟨a, b, fun x => by simp [c x]⟩
        · obtain ⟨a, b, c⟩ := reach_right_iff.1 (hr p hp)
          exact ⟨a, b, fun x => by rw [c x]; simp⟩
      have hleaf := (hall 0 hP).2.1
      have hw : WalkTo le t row i := ih i (by omega) (by omega) (fun p hp => (hall p hp).1) hP
      obtain ⟨h0, h1⟩ := w.owned i (by omega) hleaf
      have hown : t.owner i = ((t.owner i).toNat : Int) := by omega
      have hd := (hall (t.owner i).toNat (by omega)).2.2 hown
      have hc : k = child le t row i := by
        unfold child
        unfold goLeft at hd
        rw [hd]
        rcases hi with rfl | rfl <;> simp
      rw [hc]
      exact .step hw hleaf

/-- the walk as a sequence that stops at leaves -/
def path (le : D → Θ → Bool) (t : Tree Θ V) (row : Nat → Int → D) : Nat → Nat
  | 0 => 0
  | s + 1 => if t.isLeaf (path le t row s) = 0 then child le t row (path le t row s) else path le t row s

theorem walk_path {le : D → Θ → Bool} {t : Tree Θ V} {row : Nat → Int → D} {k : Nat} (h : WalkTo le t row k) :
    ∃ s, path le t row s = k := by
  induction h with
  | root => exact ⟨0, rfl⟩
  | step _ h2 ih =>
    obtain ⟨s, rfl⟩ := ih
    exact ⟨s + 1, if_pos h2⟩

theorem path_stays {le : D → Θ → Bool} {t : Tree Θ V} {row : Nat → Int → D} {s : Nat} (h : t.isLeaf (path le t row s) ≠ 0) :
    ∀ d, path le t row (s + d) = path le t row s
  | 0 => rfl
  | d + 1 => by
    have ih := path_stays h d
    show (if t.isLeaf (path le t row (s + d)) = 0 then _ else path le t row (s + d)) = _
    rw [ih, if_neg h]

theorem walk_unique {le : D → Θ → Bool} {t : Tree Θ V} {row : Nat → Int → D} {k j : Nat} (hk : WalkTo le t row k)
    (hkl : t.isLeaf k ≠ 0) (hj : WalkTo le t row j) (hjl : t.isLeaf j ≠ 0) : k = j := by
  obtain ⟨a, rfl⟩ := walk_path hk
  obtain ⟨b, rfl⟩ := walk_path hj
  rcases Nat.le_total a b with h | h
  · obtain ⟨d, rfl⟩ := Nat.exists_eq_add_of_le h
    exact (path_stays hkl d).symm
  · obtain ⟨d, rfl⟩ := Nat.exists_eq_add_of_le h
    exact path_stays hjl d

theorem child_bounds (le : D → Θ → Bool) (t : Tree Θ V) (row : Nat → Int → D) (i : Nat) :
    2 * i + 1 ≤ child le t row i ∧ child le t row i ≤ 2 * i + 2 := by
  unfold child; split <;> omega

/-- In a well formed tree the walk ends at a leaf. -/
theorem walk_ends {le : D → Θ → Bool} {t : Tree Θ V} {row : Nat → Int → D} {n P : Nat} (w : WellFormed t n P) :
    ∃ k, WalkTo le t row k ∧ t.isLeaf k ≠ 0 ∧ k < n := by
  have ho := w.odd
  have key : ∀ m k, n - k ≤ m → k < n → WalkTo le t row k → ∃ k, WalkTo le t row k ∧ t.isLeaf k ≠ 0 ∧ k < n := by
    intro m
    induction m with
    | zero => intro k h1 h2; omega
    | succ m ih =>
      intro k h1 h2 h3
      by_cases hl : t.isLeaf k = 0
      · have hk : k < n / 2 := by
          by_contra hc
          exact w.last k (by omega) h2 hl
        have hb := child_bounds le t row k
        exact ih (child le t row k) (by omega) (by omega) (.step h3 hl)
      · exact ⟨k, h3, hl, h2⟩
  exact key n 0 (by omega) (by omega) .root

theorem find_unique {m : Nat → Bool} {n k : Nat} (hk : k < n) (hm : m k = true) (hu : ∀ j, j < n → m j = true → j = k) :
    argmaxBool m n = k := by
  unfold argmaxBool
  have hs : ((List.range n).find? m).isSome = true := by
    rw [List.find?_isSome]
    exact ⟨k, List.mem_range.2 hk, hm⟩
  obtain ⟨j, hj⟩ := Option.isSome_iff_exists.1 hs
  rw [hj]
  exact hu j (List.mem_range.1 (List.mem_of_find?_eq_some hj)) (List.find?_some hj)

/-- **C73**: for every well formed tree, every split of the features among the parties and every sample, the federated
prediction is the value of the leaf that walking down the tree with all features reaches, and there is exactly one such leaf. -/
theorem predict_is_walk (le : D → Θ → Bool) (t : Tree Θ V) (row : Nat → Int → D) (n P : Nat) (hP : 0 < P) (w : WellFormed t n P) :
    ∃ k, (WalkTo le t row k ∧ t.isLeaf k ≠ 0 ∧ k < n ∧ predictTree le t row n P = t.value k) ∧
      ∀ j, WalkTo le t row j → t.isLeaf j ≠ 0 → j = k := by
  obtain ⟨k, h1, h2, h3⟩ := walk_ends (le := le) (row := row) w
  refine ⟨k, ⟨h1, h2, h3, ?_⟩, fun j hj hl => walk_unique hj hl h1 h2⟩
  unfold predictTree
  refine congrArg t.value (find_unique h3 ?_ ?_)
  · rw [Bool.and_eq_true, List.all_eq_true]
    refine ⟨fun p _ => ?_, decide_eq_true h2⟩
    exact decide_eq_true ((single_party_mask w le row p k h3).2 ⟨walk_reach h1 p, h2⟩)
  · intro j hj hm
    rw [Bool.and_eq_true, List.all_eq_true] at hm
    have hl : t.isLeaf j ≠ 0 := of_decide_eq_true hm.2
    have hr : ∀ p, p < P → Reach le t row p j := fun p hp =>
      ((single_party_mask w le row p j hj).1 (of_decide_eq_true (hm.1 p (List.mem_range.2 hp)))).1
    exact walk_unique (reach_walk w j hj hr hP) hl h1 h2

/-- non-vacuity: depth two, two parties owning one split each, a leaf at depth one -/
def toyTree : Tree Nat Nat where
  feature := fun p i => if p = 0 ∧ i = 0 then 1 else if p = 1 ∧ i = 2 then 0 else -1
  threshold := fun p i => if p = 0 ∧ i = 0 then 5 else if p = 1 ∧ i = 2 then 7 else 1000
  value := fun i => 10 * i
  isLeaf := fun i => if i = 0 ∨ i = 2 then 0 else 1
  owner := fun i => if i = 0 then 0 else if i = 2 then 1 else -1

theorem toyTree_wf : WellFormed toyTree 7 2 where
  odd := by decide
  last := by intro i h1 h2; have : i = 3 ∨ i = 4 ∨ i = 5 ∨ i = 6 := by omega
             rcases this with rfl | rfl | rfl | rfl <;> decide
  owned := by intro i h1 h2; have : i = 0 ∨ i = 1 ∨ i = 2 := by omega
              rcases this with rfl | rfl | rfl
              · decide
              · exact absurd h2 (by decide)
              · decide

example : predictTree (fun a b => decide (a ≤ b)) toyTree (fun p f => if p = 0 then (if f = 1 then 9 else 0) else 8) 7 2 = 60 := by
  decide +kernel

end Verif.Sgb
