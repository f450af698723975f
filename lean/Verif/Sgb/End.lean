import Verif.Sgb.Hist
import Mathlib.Tactic.FieldSimp
import Mathlib.Algebra.BigOperators.Field
/-!
# SecureBoost from end to end (libs/ml/sgb.py): properties C74, C77, C78
-/
namespace Verif.Sgb
open Finset

variable {D : Type} [LinearOrder D]

/-! ## The training of `Verif.Sgb.Train` routes samples as `Routed` asks -/

/-- Whether the split search stopped at a node (numbered over the whole tree), see `update_is_leaf` (sgb.py:757-765) -/
def leafOf (cs : Nat → Choice) (k : Nat) : Bool := (cs (Nat.log2 (k + 1))).stop (k - (2 ^ Nat.log2 (k + 1) - 1))

theorem log2_level {L i : Nat} (hi : i < 2 ^ L) : Nat.log2 (2 ^ L - 1 + i + 1) = L := by
  have h2 := Nat.two_pow_pos L
  rw [Nat.log2_eq_iff (by omega)]
  rw [Nat.pow_succ]; omega

theorem leafOf_level (cs : Nat → Choice) {L i : Nat} (hi : i < 2 ^ L) : leafOf cs (2 ^ L - 1 + i) = (cs L).stop i := by
  unfold leafOf
  rw [log2_level hi]
  congr 1; omega

/-- where a sample is before level `L`: in that level, or in a leaf above -/
theorem place_of (w : World D) (cs : Nat → Choice) : ∀ L, ((2 ^ L - 1 ≤ (levels w cs L).bt ∧ (levels w cs L).bt < 2 ^ (L + 1) - 1) ∨
      ((levels w cs L).bt < 2 ^ L - 1 ∧ leafOf cs (levels w cs L).bt = true)) ∧
    (leafOf cs (levels w cs L).bt = true → (levels w cs (L + 1)).bt = (levels w cs L).bt) ∧
    (leafOf cs (levels w cs L).bt = false →
      (levels w cs (L + 1)).bt = 2 * (levels w cs L).bt + 1 ∨ (levels w cs (L + 1)).bt = 2 * (levels w cs L).bt + 2) := by
  intro L
  have step : ∀ L, ((2 ^ L - 1 ≤ (levels w cs L).bt ∧ (levels w cs L).bt < 2 ^ (L + 1) - 1) ∨
      ((levels w cs L).bt < 2 ^ L - 1 ∧ leafOf cs (levels w cs L).bt = true)) →
      (leafOf cs (levels w cs L).bt = true → (levels w cs (L + 1)).bt = (levels w cs L).bt) ∧
      (leafOf cs (levels w cs L).bt = false →
        (levels w cs (L + 1)).bt = 2 * (levels w cs L).bt + 1 ∨ (levels w cs (L + 1)).bt = 2 * (levels w cs L).bt + 2) := by
    intro L h
    have hp := pow_pred L
    show (_ → (stepLevel w (cs L) L (levels w cs L)).bt = _) ∧ (_ → (stepLevel w (cs L) L (levels w cs L)).bt = _ ∨ (stepLevel w (cs L) L (levels w cs L)).bt = _)
    generalize hs : levels w cs L = s at h ⊢
    rcases h with ⟨h1, h2⟩ | ⟨h1, h2⟩
    · obtain ⟨i, hi⟩ := Nat.exists_eq_add_of_le h1
      have hi2 : i < 2 ^ L := by omega
      have hbt : (stepLevel w (cs L) L s).bt = partyBt w (cs L) L s ((cs L).best i) := by
        show mergeBt _ _ _ _ _ _ = _
        rw [hi]
        exact mergeBt_hit _ _ _ _ _ _ (List.mem_range.2 hi2)
      have hleaf : newLeaf (cs L) L s s.bt = if (cs L).stop i then 1 else 0 := by rw [hi]; exact level_new hi2
      have hlo : leafOf cs s.bt = (cs L).stop i := by rw [hi]; exact leafOf_level cs hi2
      rw [hlo, hbt]
      unfold partyBt
      cases hst : (cs L).stop i with
      | true => exact ⟨fun _ => by simp [hleaf, hst], fun h => Bool.noConfusion h⟩
      | false =>
        refine ⟨fun h => Bool.noConfusion h, fun _ => ?_⟩
        simp only [hleaf, hst, Bool.false_eq_true, if_false, ne_eq, not_true_eq_false]
        split
        · exact Or.inl rfl
        · exact Or.inr rfl
    · rw [h2]
      refine ⟨fun _ => ?_, fun h => Bool.noConfusion h⟩
      show mergeBt _ _ _ _ _ _ = _
      exact mergeBt_other _ _ _ _ _ _ (by intro i _; omega)
  have place : ∀ L, (2 ^ L - 1 ≤ (levels w cs L).bt ∧ (levels w cs L).bt < 2 ^ (L + 1) - 1) ∨
      ((levels w cs L).bt < 2 ^ L - 1 ∧ leafOf cs (levels w cs L).bt = true) := by
    intro L
    induction L with
    | zero => left; exact ⟨Nat.le_refl 0, by show 0 < _; decide⟩
    | succ L ih =>
      have hp := pow_pred L
      have hp2 := pow_pred (L + 1)
      have := step L ih
      cases hl : leafOf cs (levels w cs L).bt with
      | true =>
        rw [this.1 hl]
        right
        refine ⟨?_, hl⟩
        rcases ih with h | h <;> omega
      | false =>
        rcases ih with h | h
        · left
          rcases this.2 hl with e | e <;> omega
        · rw [h.2] at hl; exact Bool.noConfusion hl
  exact ⟨place L, step L (place L)⟩

/-- **C77**: the training loop moves samples as the subtraction theorem asks, so `subtraction_correct` applies to it. -/
theorem levels_routed (ws : Nat → World D) (cs : Nat → Choice) (m : Nat) :
    Routed (leafOf cs) (fun L s => (levels (ws s) cs L).bt) m where
  root := fun _ _ => rfl
  stay := fun L s _ h => ((place_of (ws s) cs L).2.1) h
  move := fun L s _ h => ((place_of (ws s) cs L).2.2) h

/-! ## A party on its own: nothing is assumed about the split search (C74) -/

/-- The bin of a feature of the active party, as the split search sees it (`compute_indices_vmap`, sgb.py:1768-1784) -/
def apBin (ws : Nat → World D) (s f : Nat) : Nat := digitize ((ws s).bins 0 f) ((ws s).row 0 f)

/-- The answers of the active party's split search for level `L` when the samples are in the nodes `bt` (`_find_splits_ap` and
`update_is_leaf`, sgb.py:821-853, 757-765), no other party taking part -/
def apChoice (ws : Nat → World D) (m nf nb : Nat) (gh : Nat → ℚ × ℚ) (lam gamma mcw : ℚ) (L : Nat) (bt : Nat → Nat) : Choice :=
  let r (i : Nat) := bestSplit (localHist m nb gh (fun s => (bt s : Int) - (2 ^ L - 1 : Nat)) (apBin ws) i) nf nb lam gamma mcw
  { stop := fun i => !decide (0 < (r i).1), best := fun _ => 0, feat := fun _ i => ((r i).2.1 : Int), thr := fun _ i => (r i).2.2 }

/-- The level loop feeds each level's search with the nodes the samples are in. -/
def ApTrained (ws : Nat → World D) (m nf nb d : Nat) (gh : Nat → ℚ × ℚ) (lam gamma mcw : ℚ) (cs : Nat → Choice) : Prop :=
  ∀ L, L < d → cs L = apChoice ws m nf nb gh lam gamma mcw L (fun s => (levels (ws s) cs L).bt)

theorem levels_congr (w : World D) (cs ds : Nat → Choice) : ∀ L, (∀ k, k < L → cs k = ds k) → levels w cs L = levels w ds L
  | 0, _ => rfl
  | L + 1, h => by
    show stepLevel w (cs L) L (levels w cs L) = stepLevel w (ds L) L (levels w ds L)
    rw [levels_congr w cs ds L (fun k hk => h k (by omega)), h L (by omega)]

/-- There is such a run for every data set. -/
theorem apTrained_exists (ws : Nat → World D) (m nf nb : Nat) (gh : Nat → ℚ × ℚ) (lam gamma mcw : ℚ) :
    ∀ d, ∃ cs, ApTrained ws m nf nb d gh lam gamma mcw cs
  | 0 => ⟨fun _ => ⟨fun _ => true, fun _ => 0, fun _ _ => 0, fun _ _ => 0⟩, fun _ h => absurd h (Nat.not_lt_zero _)⟩
  | d + 1 => by
    obtain ⟨cs, h⟩ := apTrained_exists ws m nf nb gh lam gamma mcw d
    let c := apChoice ws m nf nb gh lam gamma mcw d (fun s => (levels (ws s) cs d).bt)
    refine ⟨fun k => if k = d then c else cs k, ?_⟩
    have agree : ∀ L, L ≤ d → ∀ s, levels (ws s) (fun k => if k = d then c else cs k) L = levels (ws s) cs L := by
      intro L hL s
      exact levels_congr _ _ _ L fun k hk => if_neg (by omega)
    intro L hL
    rcases Nat.lt_or_ge L d with hlt | hge
    · show (if L = d then c else cs L) = _
      rw [if_neg (by omega), h L hlt]
      congr 1
      funext s
      rw [agree L (by omega) s]
    · obtain rfl : L = d := by omega
      show (if L = L then c else cs L) = _
      rw [if_pos rfl]
      show apChoice _ _ _ _ _ _ _ _ _ _ = _
      congr 1
      funext s
      rw [agree L (Nat.le_refl _) s]

theorem digitize_lt (bins : List D) (x : D) : digitize bins x ≤ bins.length := List.length_filter_le _ _

/-- **C74** for a model without passive parties: with a positive `min_child_weight` and boundaries that float32 can store, the
prediction for every training sample is the value of the leaf the sample was counted in, for every data set, depth and parameters.
The split search is the real one here, and its answers are never out of range. -/
theorem single_party_training_matches_prediction {V : Type} (ws : Nat → World D) (m nf maxBin d : Nat) (gh : Nat → ℚ × ℚ) (lam gamma mcw : ℚ)
    (cs : Nat → Choice) (value : Nat → V) (s : Nat)
    (hrun : ApTrained ws m nf (maxBin + 1) d gh lam gamma mcw cs)
    (hnf : 0 < nf) (hmb : 2 ≤ maxBin) (hmcw : 0 < mcw)
    (hlen : ∀ s p f, ((ws s).bins p f).length = maxBin - 1)
    (hsort : ∀ s p f, ((ws s).bins p f).Pairwise (· ≤ ·))
    (hcast : ∀ s p f, ∀ b ∈ (ws s).bins p f, (ws s).cast b = b) :
    predictTree leD (treeOf (finish d (levels (ws s) cs d)) value) (ws s).row (2 ^ (d + 1) - 1) 1 =
      value (finish d (levels (ws s) cs d)).bt := by
  refine training_matches_prediction_partial (ws s) 1 d cs value (by omega) fun L hL => ?_
  have hb : ∀ s f, s < m → f < nf → apBin ws s f < maxBin + 1 - 1 := by
    intro s f _ _
    have := digitize_lt ((ws s).bins 0 f) ((ws s).row 0 f)
    rw [hlen] at this
    unfold apBin
    omega
  refine ⟨?_, hsort s, ?_, hcast s⟩
  · intro i _; rw [hrun L hL]; exact Nat.zero_lt_one
  · intro i _ hstop
    rw [hlen]
    rw [hrun L hL] at hstop ⊢
    have hpos : 0 < (bestSplit (localHist m (maxBin + 1) gh (fun s => (((levels (ws s) cs L).bt : Nat) : Int) - (2 ^ L - 1 : Nat))
        (apBin ws) i) nf (maxBin + 1) lam gamma mcw).1 := by
      have : (!decide (0 < (bestSplit (localHist m (maxBin + 1) gh (fun s => (((levels (ws s) cs L).bt : Nat) : Int) - (2 ^ L - 1 : Nat))
        (apBin ws) i) nf (maxBin + 1) lam gamma mcw).1)) = false := hstop
      simpa using this
    have := local_split_in_range m nf (maxBin + 1) gh (fun s => (((levels (ws s) cs L).bt : Nat) : Int) - (2 ^ L - 1 : Nat)) (apBin ws) i
      lam gamma mcw hnf (by omega) hb hmcw (by
        intro e
        rw [e] at hpos
        exact absurd hpos (not_lt.2 bot_le))
    show _ < maxBin - 1
    have e : maxBin + 1 - 2 = maxBin - 1 := by omega
    rw [e] at this
    exact this

/-- Samples with values 0, 1, 2, … and boundaries 0, 1, 2, for the example below. -/
def toyWs (s : Nat) : World Int := { bins := fun _ _ => [0, 1, 2], row := fun _ _ => (s : Int), cast := id, top := 100 }

/-- non-vacuity: four such samples, labels 0, 0, 1, 1 -/
example : ∃ cs, ApTrained toyWs 4 1 (4 + 1) 2 (fun s => (if s < 2 then 1 else -1, 1)) 1 0 1 cs ∧
    predictTree leD (treeOf (finish 2 (levels (toyWs 3) cs 2)) id) (toyWs 3).row (2 ^ (2 + 1) - 1) 1 = (finish 2 (levels (toyWs 3) cs 2)).bt := by
  obtain ⟨cs, h⟩ := apTrained_exists toyWs 4 1 (4 + 1) (fun s => (if s < 2 then 1 else -1, 1)) 1 0 1 2
  refine ⟨cs, h, ?_⟩
  have hs : ∀ s p f, ((toyWs s).bins p f).Pairwise (· ≤ ·) := fun _ _ _ => by
    show List.Pairwise (· ≤ ·) [(0 : Int), 1, 2]; decide
  have := single_party_training_matches_prediction toyWs 4 1 4 2 _ 1 0 1 cs (id : Nat → Nat) 3 h (by omega) (by omega) (by norm_num)
    (fun _ _ _ => rfl) hs (fun _ _ _ _ _ => rfl)
  exact this

/-! ## Leaf values (C78) -/

variable {F : Type} [Field F] [LinearOrder F] [IsStrictOrderedRing F]

/-- `compute_leaf_values` (sgb.py:788-808) over `m` samples with final nodes `bt` -/
def leafValue (m : Nat) (gh : Nat → F × F) (bt : Nat → Nat) (isLeaf : Nat → Int) (lam : F) (k : Nat) : F :=
  let g := ∑ s ∈ range m, if bt s = k then (gh s).1 else 0
  let h := ∑ s ∈ range m, if bt s = k then (gh s).2 else 0
  let safe := if h = 0 then 1 else h
  if isLeaf k ≠ 0 ∧ h ≠ 0 then -g / (safe + lam) else 0

/-- The regularised second order loss of giving the samples of `S` the value `v`. -/
def leafLoss (S : Finset Nat) (gh : Nat → F × F) (lam v : F) : F := ∑ s ∈ S, ((gh s).1 * v + (gh s).2 * v ^ 2 / 2) + lam * v ^ 2 / 2

theorem leafLoss_eq (S : Finset Nat) (gh : Nat → F × F) (lam v : F) :
    leafLoss S gh lam v = (∑ s ∈ S, (gh s).1) * v + (∑ s ∈ S, (gh s).2 + lam) * v ^ 2 / 2 := by
  unfold leafLoss
  rw [sum_add_distrib, ← sum_mul, ← sum_div, ← sum_mul]
  ring

/-- **C78**: the value of a leaf minimises the regularised second order loss over exactly the training samples that *prediction*
sends to that leaf, for every number of parties, whatever the split search answered (under the conditions of C74, and positive
hessians, which the sigmoid gives).  `nodes s` is the node a sample ends in and `predicted` says what prediction answers for it. -/
theorem leaf_value_optimal_partial (ws : Nat → World D) (P m d : Nat) (gh : Nat → F × F) (lam : F) (cs : Nat → Choice) (s : Nat) (hs : s < m)
    (hP : 0 < P) (hc : ∀ s L, L < d → Sound (ws s) P L (cs L)) (hlam : 0 ≤ lam) (hh : ∀ s, s < m → 0 < (gh s).2) :
    let nodes (s : Nat) : Nat := predictTree leD (treeOf (finish d (levels (ws s) cs d)) id) (ws s).row (2 ^ (d + 1) - 1) P
    let value := leafValue m gh (fun s => (finish d (levels (ws s) cs d)).bt) (finish d (levels (ws s) cs d)).isLeaf lam
    let predicted := predictTree leD (treeOf (finish d (levels (ws s) cs d)) value) (ws s).row (2 ^ (d + 1) - 1) P
    ∀ v, leafLoss ((range m).filter fun u => nodes u = nodes s) gh lam predicted ≤
      leafLoss ((range m).filter fun u => nodes u = nodes s) gh lam v := by
  intro nodes value predicted v
  have hn : ∀ u, nodes u = (finish d (levels (ws u) cs d)).bt := fun u =>
    training_matches_prediction_partial (ws u) P d cs id hP (hc u)
  have hp : predicted = value (finish d (levels (ws s) cs d)).bt :=
    training_matches_prediction_partial (ws s) P d cs value hP (hc s)
  rw [leafLoss_eq, leafLoss_eq]
  have hleaf : (finish d (levels (ws s) cs d)).isLeaf (finish d (levels (ws s) cs d)).bt ≠ 0 := by
    have inv := linv_levels (ws s) P d cs (hc s)
    have hpw := pow_pred d
    show setLevel d (fun _ => 1) (levels (ws s) cs d).isLeaf (levels (ws s) cs d).bt ≠ 0
    rcases inv.place with h | h
    · unfold setLevel
      rw [if_pos ⟨h, inv.range⟩]
      exact Int.one_ne_zero
    · by_cases hlt : (levels (ws s) cs d).bt < 2 ^ d - 1
      · rw [level_old hlt]; exact h
      · unfold setLevel
        rw [if_pos ⟨by omega, inv.range⟩]
        exact Int.one_ne_zero
  have eG : ∑ u ∈ (range m).filter (fun u => nodes u = nodes s), (gh u).1 =
      ∑ u ∈ range m, if (finish d (levels (ws u) cs d)).bt = (finish d (levels (ws s) cs d)).bt then (gh u).1 else 0 := by
    rw [sum_filter]
    exact sum_congr rfl fun u _ => by rw [hn u, hn s]
  have eH : ∑ u ∈ (range m).filter (fun u => nodes u = nodes s), (gh u).2 =
      ∑ u ∈ range m, if (finish d (levels (ws u) cs d)).bt = (finish d (levels (ws s) cs d)).bt then (gh u).2 else 0 := by
    rw [sum_filter]
    exact sum_congr rfl fun u _ => by rw [hn u, hn s]
  have hHpos : 0 < ∑ u ∈ (range m).filter (fun u => nodes u = nodes s), (gh u).2 := by
    refine sum_pos (fun u hu => hh u (mem_range.1 (mem_filter.1 hu).1)) ⟨s, ?_⟩
    exact mem_filter.2 ⟨mem_range.2 hs, rfl⟩
  have hval : predicted = -(∑ u ∈ (range m).filter (fun u => nodes u = nodes s), (gh u).1) /
      (∑ u ∈ (range m).filter (fun u => nodes u = nodes s), (gh u).2 + lam) := by
    rw [hp]
    show leafValue _ _ _ _ _ _ = _
    unfold leafValue
    rw [eH] at hHpos ⊢
    rw [eG]
    simp only
    rw [if_pos ⟨hleaf, ne_of_gt hHpos⟩, if_neg (ne_of_gt hHpos)]
  generalize ∑ u ∈ (range m).filter (fun u => nodes u = nodes s), (gh u).1 = G at *
  generalize ∑ u ∈ (range m).filter (fun u => nodes u = nodes s), (gh u).2 = H at *
  have hA : 0 < H + lam := by linarith
  rw [hval]
  have key : G * v + (H + lam) * v ^ 2 / 2 - (G * (-G / (H + lam)) + (H + lam) * (-G / (H + lam)) ^ 2 / 2) =
      (H + lam) / 2 * (v + G / (H + lam)) ^ 2 := by
    field_simp
    ring
  have : 0 ≤ (H + lam) / 2 * (v + G / (H + lam)) ^ 2 := mul_nonneg (by linarith) (sq_nonneg _)
  linarith

/-- non-vacuity: two samples on either side of the split at 1; the value of the left leaf is -g/(h+λ) = -3/(2+1) -/
example :
    let ws : Nat → World Int := fun s => { bins := fun _ _ => [1], row := fun _ _ => (2 * s : Int), cast := id, top := 100 }
    let c : Choice := { stop := fun _ => false, best := fun _ => 0, feat := fun _ _ => 0, thr := fun _ _ => 0 }
    (∀ s L, L < 1 → Sound (ws s) 1 L c) ∧
    leafValue 2 (fun s => ((s : ℚ) + 3, 2)) (fun s => (finish 1 (levels (ws s) (fun _ => c) 1)).bt)
      (finish 1 (levels (ws 0) (fun _ => c) 1)).isLeaf 1 1 = -1 := by
  intro ws c
  refine ⟨fun s L _ => ⟨fun _ _ => Nat.zero_lt_one, fun _ _ => List.pairwise_singleton _ _, fun _ _ _ => Nat.zero_lt_one, fun _ _ _ _ => rfl⟩, ?_⟩
  have h0 : (finish 1 (levels (ws 0) (fun _ => c) 1)).bt = 1 := by decide +kernel
  have h1 : (finish 1 (levels (ws 1) (fun _ => c) 1)).bt = 2 := by decide +kernel
  have h2 : (finish 1 (levels (ws 0) (fun _ => c) 1)).isLeaf 1 = 1 := by decide +kernel
  unfold leafValue
  norm_num [sum_range_succ, h0, h1, h2]

end Verif.Sgb
