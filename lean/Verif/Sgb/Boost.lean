import Verif.Sgb.Predict
import Mathlib.Analysis.SpecialFunctions.Sigmoid
import Mathlib.Analysis.SpecialFunctions.Log.Deriv
import Mathlib.Algebra.Order.Round
import Mathlib.Data.ZMod.ValMinAbs
import Mathlib.Tactic.Linarith
import Mathlib.Tactic.FieldSimp
import Mathlib.Tactic.NormNum
/-!
# SecureBoost: the boosting loop and its statistics (libs/ml/sgb.py): properties C101, C102

Arrays of floats are lists of reals.  The tree builder of a round is an arbitrary function of the round, the gradients and
their quantised versions (it draws fresh encryption randomness in every round); what the builder does is in `Verif.Sgb.Train`,
`Hist` and `Split`.
-/
namespace Verif.Sgb.Boost
open Verif.Sgb

/-- `sigmoid` (sgb.py:101-104) -/
noncomputable def sigmoid (x : ℝ) : ℝ := 1 / (1 + Real.exp (-x))

/-- `jnp.clip(x, lo, hi)` -/
noncomputable def clip (lo hi x : ℝ) : ℝ := min (max x lo) hi

/-- `jnp.mean` of a vector -/
noncomputable def mean (y : List ℝ) : ℝ := y.sum / y.length

/-- `compute_init_pred` (sgb.py:94-98) -/
noncomputable def initPred (y : List ℝ) : ℝ :=
  let p := clip (1 / 10 ^ 15) (1 - 1 / 10 ^ 15) (mean y)
  Real.log (p / (1 - p))

/-- `compute_gh` (sgb.py:107-113) for one sample -/
noncomputable def gh (y x : ℝ) : ℝ × ℝ :=
  let p := sigmoid x
  (p - y, p * (1 - p))

/-- `DEFAULT_FXP_BITS`, `fxp_scale` (sgb.py:56, 1601) -/
def fxpScale : ℕ := 2 ^ 15

/-- `jnp.round`: to the nearest integer, ties to even -/
noncomputable def roundEven (x : ℝ) : ℤ :=
  if Int.fract x = 1 / 2 then (if Even ⌊x⌋ then ⌊x⌋ else ⌊x⌋ + 1) else round x

/-- `quantize_gh` (sgb.py:116-119) for one number -/
noncomputable def quantize (x : ℝ) : ℤ := roundEven (x * fxpScale)

/-- `dequantize` and the division in `_process_decrypted_jit` (sgb.py:122-125, 480-481) -/
noncomputable def dequantize (q : ℤ) : ℝ := (q : ℝ) / fxpScale

inductive Err | value | runtime | type
  deriving DecidableEq, Repr

/-- `curr_y + lr * t_pred` on vectors, with the broadcasting of vectors of length one (sgb.py:1555-1556, 1665-1666) -/
noncomputable def addScaled (lr : ℝ) (a b : List ℝ) : Except Err (List ℝ) :=
  if a.length = b.length then .ok (List.zipWith (fun x y => x + lr * y) a b)
  else if a.length = 1 then .ok (b.map fun y => a.headD 0 + lr * y)
  else if b.length = 1 then .ok (a.map fun x => x + lr * b.headD 0)
  else .error .type

/-- Constructor arguments of `SecureBoost` used here (sgb.py:1697-1738) -/
structure Cfg where
  nEstimators : Nat
  lr : ℝ
  maxDepth : Nat
  maxBin : Int
  parties : Nat

/-- `TreeEnsemble` (sgb.py:80-86) -/
structure Ensemble (Θ : Type) where
  trees : List (Tree Θ ℝ)
  init : ℝ

/-- A `SecureBoost` object -/
structure Model (Θ : Type) where
  cfg : Cfg
  model : Option (Ensemble Θ)

variable {D Θ : Type}

/-- `SecureBoost.__init__` (sgb.py:1725-1738) -/
def new (c : Cfg) : Except Err (Model Θ) := if c.maxBin < 2 then .error .value else .ok ⟨c, none⟩

/-- `n_nodes = 2 ** (max_depth + 1) - 1` -/
def nNodes (c : Cfg) : Nat := 2 ^ (c.maxDepth + 1) - 1

/-- The loop of `fit_tree_ensemble` (sgb.py:1622-1672): `k` rounds to go, `r` is `_tree_idx`, `yp` is `y_pred`.  `y` has one label
per sample (`compute_gh` on vectors of one length). -/
noncomputable def fitLoop (le : D → Θ → Bool) (c : Cfg) (build : Nat → List (ℝ × ℝ) → List (ℤ × ℤ) → Tree Θ ℝ)
    (rows : List (Nat → Int → D)) (y : List ℝ) : Nat → Nat → List ℝ → List (Tree Θ ℝ) → Except Err (List (Tree Θ ℝ))
  | 0, _, _, trees => .ok trees
  | k + 1, r, yp, trees =>
    let ghs := List.zipWith gh y yp
    let t := build r ghs (ghs.map fun p => (quantize p.1, quantize p.2))
    match addScaled c.lr yp (rows.map fun row => predictTree le t row (nNodes c) c.parties) with
    | .error e => .error e
    | .ok yp' => fitLoop le c build rows y k (r + 1) yp' (trees ++ [t])

/-- `SecureBoost.fit` (sgb.py:1740-1815): `init * jnp.ones(n)`, then the rounds; replaces the model -/
noncomputable def fit (le : D → Θ → Bool) (m : Model Θ) (build : Nat → List (ℝ × ℝ) → List (ℤ × ℤ) → Tree Θ ℝ)
    (rows : List (Nat → Int → D)) (y : List ℝ) (nSamples : Nat) : Except Err (Model Θ) :=
  match fitLoop le m.cfg build rows y m.cfg.nEstimators 0 (List.replicate nSamples (initPred y)) [] with
  | .error e => .error e
  | .ok trees => .ok { m with model := some ⟨trees, initPred y⟩ }

/-- The loop of `predict_ensemble` (sgb.py:1551-1563) -/
noncomputable def addTrees (le : D → Θ → Bool) (c : Cfg) (rows : List (Nat → Int → D)) :
    List (Tree Θ ℝ) → List ℝ → Except Err (List ℝ)
  | [], yp => .ok yp
  | t :: ts, yp =>
    match addScaled c.lr yp (rows.map fun row => predictTree le t row (nNodes c) c.parties) with
    | .error e => .error e
    | .ok yp' => addTrees le c rows ts yp'

/-- `SecureBoost.predict` with `predict_ensemble` (sgb.py:1817-1843, 1529-1571) -/
noncomputable def predict (le : D → Θ → Bool) (m : Model Θ) (rows : List (Nat → Int → D)) (nSamples : Nat) :
    Except Err (List ℝ) :=
  match m.model with
  | none => .error .runtime
  | some e =>
    match addTrees le m.cfg rows e.trees (List.replicate nSamples e.init) with
    | .error er => .error er
    | .ok logits => .ok (logits.map sigmoid)

open Classical in
/-- `compute_metrics` (sgb.py:1852-1855): the share of labels equal to the predicted class -/
noncomputable def accuracy (prob y : List ℝ) : ℝ :=
  mean (List.zipWith (fun p l => if (if p > 1 / 2 then (1 : ℝ) else 0) = l then 1 else 0) prob y)

/-- `SecureBoost.evaluate` (sgb.py:1849-1861) -/
noncomputable def evaluate (le : D → Θ → Bool) (m : Model Θ) (rows : List (Nat → Int → D)) (y : List ℝ) (nSamples : Nat) :
    Except Err ℝ :=
  match predict le m rows nSamples with
  | .error e => .error e
  | .ok prob => .ok (accuracy prob y)

/-! ## Specification -/

/-- The score of a sample under some trees: the base score plus the shrunken values of the leaves that walking down from the root
(`path`, at most `d` steps) reaches. -/
noncomputable def score (le : D → Θ → Bool) (c : Cfg) (base : ℝ) (trees : List (Tree Θ ℝ)) (row : Nat → Int → D) : ℝ :=
  base + (trees.map fun t => c.lr * t.value (path le t row c.maxDepth)).sum

/-- The log loss of a label under a score. -/
noncomputable def logLoss (y x : ℝ) : ℝ := -(y * Real.log (sigmoid x) + (1 - y) * Real.log (1 - sigmoid x))

/-! ## The walk takes at most `max_depth` steps -/

theorem path_lower {le : D → Θ → Bool} {t : Tree Θ ℝ} {row : Nat → Int → D} :
    ∀ s, t.isLeaf (path le t row s) ≠ 0 ∨ 2 ^ s - 1 ≤ path le t row s
  | 0 => Or.inr (by simp)
  | s + 1 => by
    unfold path
    by_cases h : t.isLeaf (path le t row s) = 0
    · rw [if_pos h]
      rcases path_lower (le := le) (t := t) (row := row) s with h1 | h1
      · exact absurd h h1
      · have := child_bounds le t row (path le t row s)
        have hp := Nat.two_pow_pos s
        exact Or.inr (by rw [Nat.pow_succ]; omega)
    · rw [if_neg h]
      exact Or.inl h

theorem path_walk {le : D → Θ → Bool} {t : Tree Θ ℝ} {row : Nat → Int → D} : ∀ s, WalkTo le t row (path le t row s)
  | 0 => .root
  | s + 1 => by
    unfold path
    by_cases h : t.isLeaf (path le t row s) = 0
    · rw [if_pos h]; exact .step (path_walk s) h
    · rw [if_neg h]; exact path_walk s

theorem path_in {le : D → Θ → Bool} {t : Tree Θ ℝ} {row : Nat → Int → D} {n P : Nat} (w : WellFormed t n P) :
    ∀ s, path le t row s < n
  | 0 => by have := w.odd; show 0 < n; omega
  | s + 1 => by
    have ih := path_in (le := le) (row := row) w s
    have ho := w.odd
    unfold path
    by_cases h : t.isLeaf (path le t row s) = 0
    · rw [if_pos h]
      have hk : path le t row s < n / 2 := by
        by_contra hc
        exact w.last _ (by omega) ih h
      have := child_bounds le t row (path le t row s)
      omega
    · rw [if_neg h]; exact ih

theorem predict_path (le : D → Θ → Bool) (t : Tree Θ ℝ) (row : Nat → Int → D) (d P : Nat) (hP : 0 < P)
    (w : WellFormed t (2 ^ (d + 1) - 1) P) :
    predictTree le t row (2 ^ (d + 1) - 1) P = t.value (path le t row d) := by
  obtain ⟨k, ⟨_, _, _, h4⟩, hu⟩ := predict_is_walk le t row _ P hP w
  rw [h4]
  have hl : t.isLeaf (path le t row d) ≠ 0 := by
    rcases path_lower (le := le) (t := t) (row := row) d with h | h
    · exact h
    · have hin := path_in (le := le) (row := row) w d
      have := Nat.two_pow_pos d
      exact w.last _ (by rw [Nat.pow_succ]; omega) hin
  rw [hu _ (path_walk d) hl]

/-! ## The loops -/

theorem addScaled_map {R : Type} (lr : ℝ) (rows : List R) (f g : R → ℝ) :
    addScaled lr (rows.map f) (rows.map g) = .ok (rows.map fun r => f r + lr * g r) := by
  unfold addScaled
  rw [if_pos (by simp)]
  congr 1
  induction rows with
  | nil => rfl
  | cons a r ih => simp [ih]

theorem score_snoc (le : D → Θ → Bool) (c : Cfg) (base : ℝ) (ts : List (Tree Θ ℝ)) (t : Tree Θ ℝ) (row : Nat → Int → D) :
    score le c base (ts ++ [t]) row = score le c base ts row + c.lr * t.value (path le t row c.maxDepth) := by
  unfold score
  simp [add_assoc]

/-- The builder answers well formed trees; `built_tree_well_formed` proves it of `build_tree`. -/
def Builds (c : Cfg) (build : Nat → List (ℝ × ℝ) → List (ℤ × ℤ) → Tree Θ ℝ) : Prop :=
  ∀ r a b, WellFormed (build r a b) (nNodes c) c.parties

theorem addTrees_score (le : D → Θ → Bool) (c : Cfg) (hP : 0 < c.parties) (base : ℝ) (rows : List (Nat → Int → D)) :
    ∀ (ts pre : List (Tree Θ ℝ)), (∀ t ∈ ts, WellFormed t (nNodes c) c.parties) →
      addTrees le c rows ts (rows.map (score le c base pre)) = .ok (rows.map (score le c base (pre ++ ts)))
  | [], pre, _ => by simp [addTrees]
  | t :: ts, pre, hw => by
    unfold addTrees
    have h1 : (rows.map fun row => predictTree le t row (nNodes c) c.parties) =
        rows.map fun row => t.value (path le t row c.maxDepth) := by
      refine List.map_congr_left fun row _ => predict_path le t row c.maxDepth c.parties hP (hw t List.mem_cons_self)
    rw [h1, addScaled_map]
    simp only []
    have h2 : (rows.map fun r => score le c base pre r + c.lr * t.value (path le t r c.maxDepth)) =
        rows.map (score le c base (pre ++ [t])) :=
      List.map_congr_left fun row _ => (score_snoc le c base pre t row).symm
    rw [h2, addTrees_score le c hP base rows ts (pre ++ [t]) fun u hu => hw u (List.mem_cons_of_mem _ hu)]
    simp

theorem start_score (le : D → Θ → Bool) (c : Cfg) (base : ℝ) (rows : List (Nat → Int → D)) :
    List.replicate rows.length base = rows.map (score le c base ([] : List (Tree Θ ℝ))) := by
  have : score le c base ([] : List (Tree Θ ℝ)) = fun _ => base := by funext r; simp [score]
  rw [this]
  simp [List.map_const']

/-- The gradients of a round as the property states them: the derivatives' formulas at the scores of the trees so far. -/
noncomputable def roundInput (le : D → Θ → Bool) (c : Cfg) (base : ℝ) (rows : List (Nat → Int → D)) (y : List ℝ)
    (trees : List (Tree Θ ℝ)) : List (ℝ × ℝ) := List.zipWith gh y (rows.map (score le c base trees))

/-- The rounds as a specification: tree `r` is built at the scores of the trees before it. -/
noncomputable def grow (le : D → Θ → Bool) (c : Cfg) (build : Nat → List (ℝ × ℝ) → List (ℤ × ℤ) → Tree Θ ℝ) (base : ℝ)
    (rows : List (Nat → Int → D)) (y : List ℝ) : Nat → List (Tree Θ ℝ)
  | 0 => []
  | r + 1 =>
    let ts := grow le c build base rows y r
    let i := roundInput le c base rows y ts
    ts ++ [build r i (i.map fun p => (quantize p.1, quantize p.2))]

theorem grow_length (le : D → Θ → Bool) (c : Cfg) (build) (base : ℝ) (rows : List (Nat → Int → D)) (y : List ℝ) :
    ∀ r, (grow (Θ := Θ) le c build base rows y r).length = r
  | 0 => rfl
  | r + 1 => by simp [grow, grow_length le c build base rows y r]

theorem grow_take (le : D → Θ → Bool) (c : Cfg) (build) (base : ℝ) (rows : List (Nat → Int → D)) (y : List ℝ) (r : Nat) :
    ∀ n, r ≤ n → (grow (Θ := Θ) le c build base rows y n).take r = grow le c build base rows y r := by
  intro n
  induction n with
  | zero => intro h; obtain rfl : r = 0 := by omega
            rfl
  | succ n ih =>
    intro h
    rcases Nat.eq_or_lt_of_le h with rfl | h'
    · exact List.take_of_length_le (by rw [grow_length])
    · have hn := grow_length (Θ := Θ) le c build base rows y n
      have : grow (Θ := Θ) le c build base rows y (n + 1) = grow le c build base rows y n ++
          [build n (roundInput le c base rows y (grow le c build base rows y n))
            ((roundInput le c base rows y (grow le c build base rows y n)).map fun p => (quantize p.1, quantize p.2))] := rfl
      rw [this, List.take_append_of_le_length (by omega), ih (by omega)]

theorem grow_wf {le : D → Θ → Bool} {c : Cfg} {build} (hb : Builds c build) (base : ℝ) (rows : List (Nat → Int → D)) (y : List ℝ) :
    ∀ r, ∀ t ∈ grow (Θ := Θ) le c build base rows y r, WellFormed t (nNodes c) c.parties
  | 0, t, h => by cases h
  | r + 1, t, h => by
    rcases List.mem_append.1 h with h | h
    · exact grow_wf hb base rows y r t h
    · rw [List.mem_singleton.1 h]; exact hb _ _ _

theorem fitLoop_grow (le : D → Θ → Bool) (c : Cfg) (hP : 0 < c.parties) (build) (hb : Builds c build) (base : ℝ)
    (rows : List (Nat → Int → D)) (y : List ℝ) :
    ∀ k r, fitLoop (Θ := Θ) le c build rows y k r (rows.map (score le c base (grow le c build base rows y r)))
      (grow le c build base rows y r) = .ok (grow le c build base rows y (r + k))
  | 0, r => rfl
  | k + 1, r => by
    unfold fitLoop
    simp only []
    generalize hi : List.zipWith gh y (rows.map (score le c base (grow le c build base rows y r))) = i
    have hi' : roundInput le c base rows y (grow le c build base rows y r) = i := hi
    generalize ht : build r i (i.map fun p => (quantize p.1, quantize p.2)) = t
    have hw : WellFormed t (nNodes c) c.parties := by rw [← ht]; exact hb _ _ _
    have h1 : (rows.map fun row => predictTree le t row (nNodes c) c.parties) =
        rows.map fun row => t.value (path le t row c.maxDepth) :=
      List.map_congr_left fun row _ => predict_path le t row c.maxDepth c.parties hP hw
    rw [h1, addScaled_map]
    simp only []
    have hg : grow le c build base rows y (r + 1) = grow le c build base rows y r ++ [t] := by
      rw [grow, hi', ht]
    have h2 : (rows.map fun x => score le c base (grow le c build base rows y r) x + c.lr * t.value (path le t x c.maxDepth)) =
        rows.map (score le c base (grow le c build base rows y (r + 1))) := by
      rw [hg]
      exact List.map_congr_left fun row _ => (score_snoc le c base _ t row).symm
    rw [h2, ← hg, fitLoop_grow le c hP build hb base rows y k (r + 1)]
    congr 2
    omega

/-- **C101** Boosting: fitting succeeds and yields `n_estimators` trees; tree `r` was built from the gradients of the log loss at
exactly the scores that the first `r` trees give the training samples when *predicting*; and the fitted model answers for every
new sample the sigmoid of base score plus shrunken leaf values. -/
theorem boosting_sound (le : D → Θ → Bool) (m : Model Θ) (hP : 0 < m.cfg.parties) (build) (hb : Builds m.cfg build)
    (rows : List (Nat → Int → D)) (y : List ℝ) :
    ∃ e, fit le m build rows y rows.length = .ok { m with model := some e } ∧ e.init = initPred y ∧
      e.trees.length = m.cfg.nEstimators ∧
      (∀ r (h : r < e.trees.length), e.trees[r] =
        let i := List.zipWith gh y (rows.map (score le m.cfg e.init (e.trees.take r)))
        build r i (i.map fun p => (quantize p.1, quantize p.2))) ∧
      ∀ rows' : List (Nat → Int → D), predict le { m with model := some e } rows' rows'.length =
        .ok (rows'.map fun row => sigmoid (score le m.cfg e.init e.trees row)) := by
  have hrun := fitLoop_grow le m.cfg hP build hb (initPred y) rows y m.cfg.nEstimators 0
  rw [Nat.zero_add] at hrun
  have h0 : fitLoop le m.cfg build rows y m.cfg.nEstimators 0 (List.replicate rows.length (initPred y)) [] =
      .ok (grow le m.cfg build (initPred y) rows y m.cfg.nEstimators) := by
    rw [start_score (Θ := Θ) le m.cfg (initPred y) rows]; exact hrun
  refine ⟨⟨grow le m.cfg build (initPred y) rows y m.cfg.nEstimators, initPred y⟩, ?_, rfl, grow_length .., ?_, ?_⟩
  · unfold fit
    rw [h0]
  · intro r h
    simp only [grow_length] at h
    simp only []
    rw [grow_take le m.cfg build (initPred y) rows y r _ (by omega)]
    have h1 := grow_take le m.cfg build (initPred y) rows y (r + 1) m.cfg.nEstimators (by omega)
    have h2 : (grow le m.cfg build (initPred y) rows y m.cfg.nEstimators)[r]? = (grow le m.cfg build (initPred y) rows y (r + 1))[r]? := by
      rw [← h1, List.getElem?_take, if_pos (by omega)]
    have h3 : (grow le m.cfg build (initPred y) rows y (r + 1))[r]? = some (build r
        (roundInput le m.cfg (initPred y) rows y (grow le m.cfg build (initPred y) rows y r))
        ((roundInput le m.cfg (initPred y) rows y (grow le m.cfg build (initPred y) rows y r)).map fun p => (quantize p.1, quantize p.2))) := by
      rw [grow]
      rw [List.getElem?_append_right (by rw [grow_length])]
      simp [grow_length]
    rw [h3, List.getElem?_eq_getElem (by rw [grow_length]; omega)] at h2
    exact Option.some.inj h2
  · intro rows'
    unfold predict
    simp only []
    rw [start_score (Θ := Θ) le m.cfg (initPred y) rows',
      addTrees_score le m.cfg hP (initPred y) rows' _ [] (grow_wf hb _ _ _ _)]
    simp [Function.comp_def]

/-- **C101** Fewer rounds are a prefix: the model with `k` estimators has the first `k` trees of the model with more. -/
theorem fewer_rounds_prefix (le : D → Θ → Bool) (c : Cfg) (hP : 0 < c.parties) (build) (hb : Builds c build)
    (rows : List (Nat → Int → D)) (y : List ℝ) (k : Nat) (hk : k ≤ c.nEstimators) {e e' : Ensemble Θ} {m m' : Model Θ}
    (h : fit le ⟨c, none⟩ build rows y rows.length = .ok m) (he : m.model = some e)
    (h' : fit le ⟨{ c with nEstimators := k }, none⟩ build rows y rows.length = .ok m') (he' : m'.model = some e') :
    e'.trees = e.trees.take k ∧ e'.init = e.init := by
  have hr := fitLoop_grow le c hP build hb (initPred y) rows y c.nEstimators 0
  have hr' := fitLoop_grow le { c with nEstimators := k } hP build hb (initPred y) rows y k 0
  have hs := start_score (Θ := Θ) le c (initPred y) rows
  have hs' := start_score (Θ := Θ) le { c with nEstimators := k } (initPred y) rows
  rw [Nat.zero_add] at hr hr'
  unfold fit at h h'
  rw [hs] at h
  rw [hs'] at h'
  have a : fitLoop le c build rows y c.nEstimators 0 (rows.map (score le c (initPred y) ([] : List (Tree Θ ℝ)))) [] =
    .ok (grow le c build (initPred y) rows y c.nEstimators) := hr
  have a' : fitLoop le { c with nEstimators := k } build rows y k 0
      (rows.map (score le { c with nEstimators := k } (initPred y) ([] : List (Tree Θ ℝ)))) [] =
    .ok (grow le { c with nEstimators := k } build (initPred y) rows y k) := hr'
  simp only [a] at h
  simp only [a'] at h'
  cases h; cases h'
  cases he; cases he'
  refine ⟨?_, rfl⟩
  simp only []
  rw [grow_take le c build _ rows y k _ hk]
  have : ∀ n, grow le { c with nEstimators := k } build (initPred y) rows y n = grow le c build (initPred y) rows y n := by
    intro n
    induction n with
    | zero => rfl
    | succ n ih =>
      rw [grow, grow, ih]
      rfl
  exact this k

/-- **C101** A model can be made exactly for two or more bins; it starts unfitted, with the settings given. -/
theorem new_accepts_iff (c : Cfg) (m : Model Θ) : new c = .ok m ↔ 2 ≤ c.maxBin ∧ m = ⟨c, none⟩ := by
  unfold new
  by_cases h : c.maxBin < 2
  · rw [if_pos h]
    exact ⟨fun e => (by cases e), fun e => absurd e.1 (by omega)⟩
  · rw [if_neg h]
    exact ⟨fun e => (by cases e; exact ⟨by omega, rfl⟩), fun e => (by rw [e.2])⟩

/-- **C101** A model that was not fitted refuses to predict and to evaluate. -/
theorem unfitted_refuses (le : D → Θ → Bool) (c : Cfg) (rows : List (Nat → Int → D)) (y : List ℝ) (n : Nat) {m : Model Θ}
    (h : new c = .ok m) : predict le m rows n = .error .runtime ∧ evaluate le m rows y n = .error .runtime ∧ 2 ≤ c.maxBin := by
  unfold new at h
  split at h
  · cases h
  · next hm =>
    cases h
    exact ⟨rfl, rfl, by omega⟩

/-- Outside C101: a wrong `n_samples` is not noticed when it is one (or when there is one row): broadcasting fits the
vectors to each other, while without trees the answer has `n_samples` entries. -/
theorem one_sample_broadcast (le : D → Θ → Bool) (c : Cfg) (t : Tree Θ ℝ) (base : ℝ) (rows : List (Nat → Int → D))
    (h : rows.length ≠ 1) : ∃ p, predict le ⟨c, some ⟨[t], base⟩⟩ rows 1 = .ok p ∧ p.length = rows.length := by
  refine ⟨((rows.map fun row => predictTree le t row (nNodes c) c.parties).map fun y => base + c.lr * y).map sigmoid, ?_, by simp⟩
  unfold predict addTrees addScaled
  simp only [List.length_replicate, List.length_map]
  rw [if_neg (fun e => h e.symm)]
  simp [addTrees]

/-! ## Statistics: C102 -/

theorem sigmoid_eq (x : ℝ) : sigmoid x = Real.sigmoid x := by
  rw [Real.sigmoid_def, sigmoid, one_div]

/-- **C102** Predictions are probabilities: strictly between 0 and 1. -/
theorem probability_range (le : D → Θ → Bool) (m : Model Θ) (rows : List (Nat → Int → D)) (n : Nat) {p : List ℝ}
    (h : predict le m rows n = .ok p) : ∀ q ∈ p, 0 < q ∧ q < 1 := by
  unfold predict at h
  split at h
  · cases h
  · split at h
    · cases h
    · cases h
      intro q hq
      obtain ⟨x, _, rfl⟩ := List.mem_map.1 hq
      rw [sigmoid_eq]
      exact ⟨Real.sigmoid_pos x, Real.sigmoid_lt_one x⟩

/-- **C102** `compute_gh` delivers the first and second derivative of the log loss by the score. -/
theorem gradients_are_derivatives (y x : ℝ) :
    HasDerivAt (logLoss y) (gh y x).1 x ∧ HasDerivAt (fun s => (gh y s).1) (gh y x).2 x := by
  have hs : sigmoid = Real.sigmoid := funext sigmoid_eq
  have hd := Real.hasDerivAt_sigmoid x
  have h0 := (Real.sigmoid_pos x).ne'
  have h1 : (1 - Real.sigmoid x) ≠ 0 := by have := Real.sigmoid_lt_one x; linarith
  have hlogd : HasDerivAt (logLoss y) (-(y * (Real.sigmoid x * (1 - Real.sigmoid x) / Real.sigmoid x) +
      (1 - y) * (-(Real.sigmoid x * (1 - Real.sigmoid x)) / (1 - Real.sigmoid x)))) x := by
    have e : logLoss y = fun s => -(y * Real.log (Real.sigmoid s) + (1 - y) * Real.log (1 - Real.sigmoid s)) := by
      funext s; unfold logLoss; rw [hs]
    rw [e]
    exact (((hd.log h0).const_mul y).add (((hd.const_sub 1).log h1).const_mul (1 - y))).neg
  refine ⟨?_, ?_⟩
  · convert hlogd using 1
    unfold gh
    simp only [hs]
    field_simp
    ring
  · have e : (fun s => (gh y s).1) = fun s => Real.sigmoid s - y := by funext s; unfold gh; simp only [hs]
    rw [e]
    have : (gh y x).2 = Real.sigmoid x * (1 - Real.sigmoid x) := by unfold gh; simp only [hs]
    rw [this]
    exact hd.sub_const y

/-- **C102** For labels between 0 and 1 gradients lie strictly between -1 and 1 and Hessians in (0, 1/4]. -/
theorem gradient_range (y x : ℝ) (h0 : 0 ≤ y) (h1 : y ≤ 1) :
    |(gh y x).1| < 1 ∧ 0 < (gh y x).2 ∧ (gh y x).2 ≤ 1 / 4 := by
  have a := Real.sigmoid_pos x
  have b := Real.sigmoid_lt_one x
  unfold gh
  simp only [sigmoid_eq]
  refine ⟨by rw [abs_lt]; constructor <;> linarith, mul_pos a (by linarith), ?_⟩
  nlinarith [sq_nonneg (Real.sigmoid x - 1 / 2)]

theorem sigmoid_logit {p : ℝ} (h0 : 0 < p) (h1 : p < 1) : sigmoid (Real.log (p / (1 - p))) = p := by
  unfold sigmoid
  have hq : 0 < 1 - p := by linarith
  rw [Real.exp_neg, Real.exp_log (div_pos h0 hq)]
  field_simp
  ring

/-- **C102** The base score predicts the (clipped) share of positive labels. -/
theorem base_score_is_mean (y : List ℝ) : sigmoid (initPred y) = clip (1 / 10 ^ 15) (1 - 1 / 10 ^ 15) (mean y) := by
  unfold initPred
  have hlo : (1 / 10 ^ 15 : ℝ) ≤ clip (1 / 10 ^ 15) (1 - 1 / 10 ^ 15) (mean y) := by
    unfold clip
    exact le_min (le_max_right _ _) (by norm_num)
  have hhi : clip (1 / 10 ^ 15) (1 - 1 / 10 ^ 15) (mean y) ≤ 1 - 1 / 10 ^ 15 := min_le_right _ _
  have p1 : (0 : ℝ) < 1 / 10 ^ 15 := by norm_num
  exact sigmoid_logit (by linarith) (by linarith)

theorem loss_sum (y : List ℝ) (x : ℝ) :
    (y.map fun l => logLoss l x).sum = -(y.sum * Real.log (sigmoid x) + (y.length - y.sum) * Real.log (1 - sigmoid x)) := by
  induction y with
  | nil => simp
  | cons a r ih =>
    simp only [List.map_cons, List.sum_cons, List.length_cons, ih]
    unfold logLoss
    push_cast
    ring

/-- **C102** The base score is the best constant: no other score for all samples has a smaller total log loss (both classes
present, fewer than 10^15 samples, so that clipping does not interfere). -/
theorem base_score_optimal (y : List ℝ) (hne : y ≠ []) (hlo : 1 / 10 ^ 15 ≤ mean y) (hhi : mean y ≤ 1 - 1 / 10 ^ 15) (x : ℝ) :
    (y.map fun l => logLoss l (initPred y)).sum ≤ (y.map fun l => logLoss l x).sum := by
  have p1 : (0 : ℝ) < 1 / 10 ^ 15 := by norm_num
  have hb := base_score_is_mean y
  have hc : clip (1 / 10 ^ 15) (1 - 1 / 10 ^ 15) (mean y) = mean y := by
    unfold clip; rw [max_eq_left hlo, min_eq_left hhi]
  rw [hc] at hb
  rw [loss_sum, loss_sum, hb]
  have hn : (0 : ℝ) < y.length := by
    have : 0 < y.length := List.length_pos_iff.2 hne
    exact_mod_cast this
  have hs : y.sum = mean y * y.length := by unfold mean; field_simp
  have hm0 : 0 < mean y := by linarith
  have hm1 : 0 < 1 - mean y := by linarith
  have q0 : 0 < sigmoid x := by rw [sigmoid_eq]; exact Real.sigmoid_pos x
  have q1 : 0 < 1 - sigmoid x := by rw [sigmoid_eq]; have := Real.sigmoid_lt_one x; linarith
  rw [hs]
  generalize mean y = p at *
  generalize sigmoid x = q at *
  have e1 : Real.log q - Real.log p ≤ q / p - 1 := by
    rw [← Real.log_div q0.ne' hm0.ne']
    exact Real.log_le_sub_one_of_pos (div_pos q0 hm0)
  have e2 : Real.log (1 - q) - Real.log (1 - p) ≤ (1 - q) / (1 - p) - 1 := by
    rw [← Real.log_div q1.ne' hm1.ne']
    exact Real.log_le_sub_one_of_pos (div_pos q1 hm1)
  have f1 : p * (Real.log q - Real.log p) ≤ q - p := by
    have := mul_le_mul_of_nonneg_left e1 hm0.le
    have e : p * (q / p - 1) = q - p := by field_simp
    linarith
  have f2 : (1 - p) * (Real.log (1 - q) - Real.log (1 - p)) ≤ p - q := by
    have := mul_le_mul_of_nonneg_left e2 hm1.le
    have e : (1 - p) * ((1 - q) / (1 - p) - 1) = p - q := by field_simp; ring
    linarith
  have f3 : p * Real.log q + (1 - p) * Real.log (1 - q) ≤ p * Real.log p + (1 - p) * Real.log (1 - p) := by linarith
  have f4 := mul_le_mul_of_nonneg_left f3 hn.le
  have g : ∀ a b : ℝ, p * (y.length : ℝ) * a + ((y.length : ℝ) - p * y.length) * b = y.length * (p * a + (1 - p) * b) := by
    intro a b; ring
  rw [g, g]
  linarith

theorem roundEven_error (x : ℝ) : |(roundEven x : ℝ) - x| ≤ 1 / 2 := by
  unfold roundEven
  split
  · next h =>
    have hf : x = ⌊x⌋ + 1 / 2 := by rw [← h]; exact (Int.floor_add_fract x).symm
    split
    · rw [show ((⌊x⌋ : ℤ) : ℝ) - x = -(1 / 2) by linarith]
      norm_num
    · push_cast
      rw [show ((⌊x⌋ : ℤ) : ℝ) + 1 - x = 1 / 2 by linarith]
      norm_num
  · rw [abs_sub_comm]
    exact abs_sub_round x

/-- **C102** Quantising and dequantising moves a number by at most 2^-16. -/
theorem quantize_error (x : ℝ) : |dequantize (quantize x) - x| ≤ 1 / 2 ^ 16 := by
  have h := roundEven_error (x * fxpScale)
  have hs : (fxpScale : ℝ) = 2 ^ 15 := by unfold fxpScale; norm_num
  unfold dequantize quantize
  rw [hs] at h ⊢
  rw [show (roundEven (x * 2 ^ 15) : ℝ) / 2 ^ 15 - x = ((roundEven (x * 2 ^ 15) : ℝ) - x * 2 ^ 15) / 2 ^ 15 by ring, abs_div,
    abs_of_pos (by norm_num : (0 : ℝ) < 2 ^ 15), div_le_iff₀ (by norm_num)]
  calc _ ≤ 1 / 2 := h
    _ = 1 / 2 ^ 16 * 2 ^ 15 := by norm_num

/-- **C102** A bucket sum of quantised numbers is within `m / 2^16` of the true sum. -/
theorem histogram_error (v : List ℝ) : |dequantize (v.map quantize).sum - v.sum| ≤ v.length / 2 ^ 16 := by
  induction v with
  | nil => simp [dequantize]
  | cons a r ih =>
    have ha := quantize_error a
    simp only [List.map_cons, List.sum_cons, List.length_cons]
    have e : dequantize (quantize a + (r.map quantize).sum) = dequantize (quantize a) + dequantize (r.map quantize).sum := by
      unfold dequantize; push_cast; ring
    rw [e]
    have t : |dequantize (quantize a) + dequantize (r.map quantize).sum - (a + r.sum)| ≤
        |dequantize (quantize a) - a| + |dequantize (r.map quantize).sum - r.sum| := by
      have := abs_add_le (dequantize (quantize a) - a) (dequantize (r.map quantize).sum - r.sum)
      rwa [show dequantize (quantize a) - a + (dequantize (r.map quantize).sum - r.sum) =
        dequantize (quantize a) + dequantize (r.map quantize).sum - (a + r.sum) by ring] at this
    push_cast
    have : ((r.length : ℝ) + 1) / 2 ^ 16 = 1 / 2 ^ 16 + r.length / 2 ^ 16 := by ring
    linarith

theorem quantize_bound {x : ℝ} (h : |x| < 1) : |quantize x| ≤ 2 ^ 15 := by
  have hq := quantize_error x
  unfold dequantize at hq
  have hs : (fxpScale : ℝ) = 2 ^ 15 := by unfold fxpScale; norm_num
  rw [hs] at hq
  have h1 : |(quantize x : ℝ) / 2 ^ 15| < 1 + 1 / 2 ^ 16 := by
    have := abs_sub_abs_le_abs_sub ((quantize x : ℝ) / 2 ^ 15) x
    linarith
  rw [abs_div, abs_of_pos (by norm_num : (0 : ℝ) < 2 ^ 15), div_lt_iff₀ (by norm_num)] at h1
  have h2 : |(quantize x : ℝ)| < 2 ^ 15 + 1 := by
    have : (1 + 1 / 2 ^ 16 : ℝ) * 2 ^ 15 < 2 ^ 15 + 1 := by norm_num
    linarith
  have h3 : ((|quantize x| : ℤ) : ℝ) < ((2 ^ 15 + 1 : ℤ) : ℝ) := by push_cast; linarith
  have h4 := Int.cast_lt.1 h3
  omega

/-- What decryption and decoding make of a sum of encrypted numbers: the centred remainder modulo the plaintext modulus
(`decode_int64`, bfv_impl.py:392-405). -/
def decoded (t : Nat) (q : List ℤ) : ℤ := (((q.map fun z : ℤ => (z : ZMod t)).sum) : ZMod t).valMinAbs

theorem decoded_eq (t : Nat) [NeZero t] (q : List ℤ) (h : 2 * |q.sum| < t) : decoded t q = q.sum := by
  unfold decoded
  have e : (q.map fun z : ℤ => (z : ZMod t)).sum = ((q.sum : ℤ) : ZMod t) := by
    induction q with
    | nil => simp
    | cons a r ih => simp
  rw [e, ZMod.valMinAbs_spec]
  refine ⟨rfl, ?_⟩
  have := abs_lt.1 (show |q.sum * 2| < (t : ℤ) by rw [abs_mul]; simpa [mul_comm] using h)
  constructor
  · linarith [this.1]
  · linarith [this.2]

theorem sum_bound (v : List ℝ) (h : ∀ x ∈ v, |x| < 1) : |(v.map quantize).sum| ≤ v.length * 2 ^ 15 := by
  induction v with
  | nil => simp
  | cons a r ih =>
    have h1 := quantize_bound (h a List.mem_cons_self)
    have h2 := ih fun x hx => h x (List.mem_cons_of_mem _ hx)
    simp only [List.map_cons, List.sum_cons, List.length_cons]
    have h3 := abs_add_le (quantize a) (r.map quantize).sum
    push_cast
    linarith

/-- **C75** (partial) With the modulus the key generation uses by default, a bucket of at most fifteen samples keeps its gradient
sum: what is decrypted is within `m / 2^16` of the true sum.  In general `m * 2^16 < t` is enough. -/
theorem encrypted_sum_exact_partial (t : Nat) [NeZero t] (v : List ℝ) (h : ∀ x ∈ v, |x| < 1) (hm : v.length * 2 ^ 16 < t) :
    |dequantize (decoded t (v.map quantize)) - v.sum| ≤ v.length / 2 ^ 16 := by
  rw [decoded_eq t _ ?_]
  · exact histogram_error v
  · have := sum_bound v h
    have h2 : ((v.length * 2 ^ 16 : ℕ) : ℤ) < t := by exact_mod_cast hm
    push_cast at h2
    calc 2 * |(v.map quantize).sum| ≤ 2 * (v.length * 2 ^ 15) := by linarith
      _ = v.length * 2 ^ 16 := by ring
      _ < t := h2

theorem quantize_int (z : ℤ) : quantize ((z : ℝ) / 2 ^ 15) = z := by
  unfold quantize roundEven
  have hs : (fxpScale : ℝ) = 2 ^ 15 := by unfold fxpScale; norm_num
  have e : (z : ℝ) / 2 ^ 15 * fxpScale = z := by rw [hs]; field_simp
  rw [e, Int.fract_intCast, if_neg (by norm_num), round_intCast]

/-- **C75** disagreement: the keys are generated with the default modulus (sgb.py:1611, bfv.py keygen), which is too small for
the gradients of thirty-two samples: in the first round on balanced labels the thirty-two positive samples of a bucket have the
gradient sum -16, and the sum decrypted is about +15.5 -/
theorem default_modulus_overflow_violated :
    let v := List.replicate 32 (gh 1 (initPred (List.replicate 32 1 ++ List.replicate 32 0))).1
    v.sum = -16 ∧ dequantize (decoded 1032193 (v.map quantize)) = 507905 / 2 ^ 15 := by
  have hm : mean (List.replicate 32 (1 : ℝ) ++ List.replicate 32 0) = 1 / 2 := by
    unfold mean; simp; norm_num
  have h1 : (gh 1 (initPred (List.replicate 32 1 ++ List.replicate 32 0))).1 = ((-16384 : ℤ) : ℝ) / 2 ^ 15 := by
    unfold gh
    simp only []
    rw [base_score_is_mean, hm]
    unfold clip
    norm_num
  simp only [h1, List.map_replicate, quantize_int]
  refine ⟨by simp; norm_num, ?_⟩
  have : decoded 1032193 (List.replicate 32 (-16384)) = 507905 := by
    unfold decoded
    have e : (((List.replicate 32 (-16384 : ℤ)).map fun z : ℤ => (z : ZMod 1032193)).sum) = ((507905 : ℤ) : ZMod 1032193) := by
      decide +kernel
    rw [e]
    decide +kernel
  rw [this]
  unfold dequantize fxpScale
  norm_num

/-- **C102** The accuracy is the share of samples whose score has the right sign: class 1 is predicted exactly for positive scores. -/
theorem accuracy_spec (xs y : List ℝ) (hl : xs.length = y.length) :
    accuracy (xs.map sigmoid) y = ((xs.zip y).countP fun p => decide ((0 < p.1 ∧ p.2 = 1) ∨ (p.1 ≤ 0 ∧ p.2 = 0)) : ℕ) / y.length := by
  unfold accuracy mean
  have hcls : ∀ x : ℝ, sigmoid x > 1 / 2 ↔ 0 < x := by
    intro x
    rw [sigmoid_eq, show (1 / 2 : ℝ) = Real.sigmoid 0 by rw [Real.sigmoid_zero]; norm_num]
    exact Real.sigmoid_lt_iff
  have key : ∀ (xs y : List ℝ), xs.length = y.length →
      (List.zipWith (fun p l => if (if p > 1 / 2 then (1 : ℝ) else 0) = l then (1 : ℝ) else 0) (xs.map sigmoid) y).sum =
      ((xs.zip y).countP fun p => decide ((0 < p.1 ∧ p.2 = 1) ∨ (p.1 ≤ 0 ∧ p.2 = 0)) : ℕ) := by
    intro xs
    induction xs with
    | nil => intro y _; simp
    | cons x r ih =>
      intro y hy
      cases y with
      | nil => simp at hy
      | cons l s =>
        have := ih s (by simpa using hy)
        simp only [List.map_cons, List.zipWith_cons_cons, List.sum_cons, List.zip_cons_cons, List.countP_cons, this]
        push_cast
        rw [add_comm]
        congr 1
        have hx := hcls x
        by_cases hp : 0 < x
        · rw [if_pos (hx.2 hp)]
          by_cases hl : l = 1
          · simp [hl, hp]
          · rw [if_neg (fun e => hl e.symm)]
            simp [hl, hp, not_le.2 hp]
        · rw [if_neg (fun e => hp (hx.1 e))]
          by_cases hl : l = 0
          · simp [hl, not_lt.1 hp]
          · rw [if_neg (fun e => hl e.symm)]
            simp [hl, hp]
  rw [key xs y hl]
  simp [hl]

/-! ## Non-vacuity -/

/-- A builder for the examples: the root split at 5 of feature 0 of party 0, the leaves valued by the first gradient. -/
noncomputable def toyBuild : Nat → List (ℝ × ℝ) → List (ℤ × ℤ) → Tree Nat ℝ := fun r g _ =>
  { feature := fun _ _ => 0, threshold := fun _ _ => 5 + r,
    value := fun i => if i = 1 then -(g.headD (0, 0)).1 else (g.headD (0, 0)).2,
    isLeaf := fun i => if i = 0 then 0 else 1, owner := fun _ => 0 }

noncomputable def toyCfg : Cfg := ⟨2, 1 / 2, 1, 8, 1⟩

theorem toyBuilds : Builds toyCfg toyBuild := by
  intro r a b
  refine ⟨by decide, ?_, ?_⟩
  · intro i h1 h2
    have : nNodes toyCfg = 3 := by decide
    show (if i = 0 then (0 : Int) else 1) ≠ 0
    rw [if_neg (by omega)]
    decide
  · intro i h1 h2
    exact ⟨by show (0 : Int) ≤ 0; omega, by show (0 : Int) < 1; omega⟩

example : ∃ e, fit (fun a b => decide (a ≤ b)) ⟨toyCfg, none⟩ toyBuild [fun _ _ => 3, fun _ _ => 9] [1, 0] 2 =
    .ok { cfg := toyCfg, model := some e } ∧ e.init = initPred [1, 0] ∧ e.trees.length = 2 :=
  (boosting_sound (fun a b => decide (a ≤ b)) ⟨toyCfg, none⟩ (by decide) toyBuild toyBuilds [fun _ _ => 3, fun _ _ => 9] [1, 0]).imp
    fun _ h => ⟨h.1, h.2.1, h.2.2.1⟩

/-- balanced labels: base score 0, prediction 1/2 -/
example : sigmoid (initPred [1, 0]) = 1 / 2 := by
  rw [base_score_is_mean]; unfold clip mean; norm_num

example : (1 / 10 ^ 15 : ℝ) ≤ mean [1, 0, 0, 1] ∧ mean [1, 0, 0, 1] ≤ 1 - 1 / 10 ^ 15 := by unfold mean; norm_num

example : ∀ x ∈ List.replicate 15 (-1 / 2 : ℝ), |x| < 1 := by
  intro x h; rw [(List.mem_replicate.1 h).2]; norm_num [abs_lt]

example : (List.replicate 15 (-1 / 2 : ℝ)).length * 2 ^ 16 < 1032193 := by simp

example : ∃ m : Model Nat, new toyCfg = .ok m := ⟨⟨toyCfg, none⟩, by unfold new; rw [if_neg (by decide)]⟩

end Verif.Sgb.Boost
