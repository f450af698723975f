import Verif.Sgb.KernelsProps
/-!
# SecureBoost among parties with its array computations: the properties (C116)
-/
namespace Verif.Sgb.Kernels
open Verif.Sgb Verif.Sgb.Boost Verif.Simp Verif.Comm

variable {D X G : Type} [LinearOrder D]

/-- **C116, training, prediction and evaluation by the parties.**  Parties `ap, pps…` (distinct ranks below `N`) hold their columns of
`samples` and of `samples'`, the active party holds the labels `y` and `y'`; the depth is positive (or there are no passive parties).  Then
`fit; predict; evaluate` ends under every schedule without an error.  The model is the encoding of trees `ts` that are `Grown`: as many as
configured, each built level by level from the search's answers, its leaf values made of the gradients at the scores of the trees before
it.  The active party alone gets, for every row of `samples'`, the sigmoid of the base score plus learning rate times the values of the
leaves the row is led to by the splits; and the accuracy of these. -/
theorem session_predicts_partial (S : Search D X G) {N ap : Nat} {pps : List Nat} (tr : SVal D X G → Bool) (hR : Protocol.Ranks N ap pps) (c : Cfg) (lam : ℝ)
    (hP : c.parties = pps.length + 1) (hd : 0 < c.maxDepth ∨ pps = []) (samples samples' : List (Nat → Int → D)) (y y' : List ℝ)
    (hy : y.length = samples.length) (hy' : y'.length = samples'.length) :
    let K := ker S c.maxDepth c.lr lam samples.length samples'.length
    let test := Protocol.rowArgs ap pps ((ap :: pps).length + 2)
    let probs (ts : List (Tree D ℝ)) : List ℝ := samples'.map fun row =>
      sigmoid (initPred y + (ts.map fun t => c.lr * t.value (path leD t row c.maxDepth)).sum)
    ∃ ts r S', Grown S c lam samples y ts ∧
      Simp.RunsTo tr N ((Protocol.fit K ap pps 0 (Protocol.rowArgs ap pps 1) c.maxDepth c.nEstimators).bind fun m =>
          (Protocol.pred K ap m test).bind fun p => (Protocol.eval K ap m test ((ap :: pps).length + 1)).bind fun s => .ret (m, p, s))
        (Protocol.inputs ap pps (.labels y) (colsOf (pps.length + 1) samples) (.labels y') (colsOf (pps.length + 1) samples')) r S' ∧
      Protocol.OnlyAllowed ap pps S' ∧
      Protocol.Holds ap pps S' r.1 ⟨ts.map (encode (pps.length + 1)), .num (initPred y)⟩ ∧
      S'.vals[r.2.1]? = some ⟨.prob, [ap], .reals (probs ts)⟩ ∧
      S'.vals[r.2.2]? = some ⟨.score, [ap], .num (accuracy (probs ts) y')⟩ := by
  intro K test probs
  obtain ⟨ts, hts, hfit⟩ := fit_ok S lam samples'.length samples (fun p => (ap :: pps).getD p 0) pps.length c hP y hy
  have hpred := pred_ok S lam (fun p => (ap :: pps).getD p 0) pps.length c hP (initPred y) samples.length samples' ts
    (fun t ht => grown_wf S lam samples hts ht)
  have heval : Protocol.evalC K ⟨ts.map (encode (pps.length + 1)), .num (initPred y)⟩ (rowsOf (fun p => (ap :: pps).getD p 0) pps.length samples')
      (.labels y') = some (.num (accuracy (probs ts) y')) := by
    unfold Protocol.evalC
    rw [hpred]
    simp only [Option.bind_eq_bind, Option.bind_some]
    rw [show K.score = scoreK from rfl]
    unfold scoreK
    simp only
    rw [if_pos (by simp [hy'])]
    rfl
  rw [← rows_ok] at hfit hpred heval
  obtain ⟨r, S', h1, h2, h3, h4, h5⟩ := Protocol.session_correct_partial K tr hR (y := .labels y) (y' := .labels y') (X := colsOf (pps.length + 1) samples)
    (X' := colsOf (pps.length + 1) samples') (by simp [colsOf]) (by simp [colsOf]) hd hfit hpred heval
  exact ⟨ts, r, S', hts, h1, h2, h3, h4, h5⟩

theorem path_value {Θ V W : Type} (le : D → Θ → Bool) (s : St Θ) (v : Nat → V) (w : Nat → W) (row : Nat → Int → D) :
    ∀ k, path le (treeOf s v) row k = path le (treeOf s w) row k
  | 0 => rfl
  | k + 1 => by
    simp only [path]
    rw [path_value le s v w row k]
    rfl

theorem sound_of {S : Search D X G} {P L : Nat} {samples : List (Nat → Int → D)} (hS : Exact S P samples) {c : Choice} (hc : Chosen S P L c)
    (row : Nat → Int → D) : Sound (world S samples row) P L c := by
  obtain ⟨x, h1, h2⟩ := hc
  refine ⟨fun i _ => (h2 i).1, hS.sorted, fun i _ hs => ?_, hS.kept⟩
  rw [(h1 _).1, (h1 _).2]
  rw [(h2 i).2.2] at hs
  exact hS.within L _ i _ (h2 i).1 hs

/-- a training sample is led by the finished tree to the node it was counted in -/
theorem path_is_node {S : Search D X G} {P d : Nat} {lam : ℝ} {samples : List (Nat → Int → D)} (hP : 0 < P) (hS : Exact S P samples) {g : List (ℝ × ℝ)}
    {cs : Nat → Choice} {t : Tree D ℝ} (hb : BuiltFrom S P d lam samples g cs t) (row : Nat → Int → D) :
    path leD t row d = (levels (world S samples row) cs d).bt := by
  have hsd : ∀ L, L < d → Sound (world S samples row) P L (cs L) := fun L hL => sound_of hS (hb.1 L hL) row
  have h1 := training_matches_prediction_partial (world S samples row) P d cs (fun k => (k : ℝ)) hP hsd
  have hwf := built_tree_well_formed (world S samples row) P d cs (fun k => (k : ℝ)) fun L hL i hi => (hsd L hL).best i hi
  have h2 := predict_path leD _ row d P hP hwf
  have h3 : (finish d (levels (world S samples row) cs d)).bt = (levels (world S samples row) cs d).bt := rfl
  have h4 : (world S samples row).row = row := rfl
  rw [h4, h2, h3] at h1
  have h5 := Nat.cast_injective h1
  rw [← h5, hb.2]
  obtain ⟨e1, e2, e3, e4⟩ := levels_row S samples cs row (fun _ _ => S.top) d
  have : ∀ (v : Nat → ℝ) k, path leD (treeOf (finish d (levels (world S samples fun _ _ => S.top) cs d)) v) row k =
      path leD (treeOf (finish d (levels (world S samples row) cs d)) v) row k := by
    intro v k
    unfold treeOf finish
    simp only [e1, e2, e3, e4]
  rw [this]
  exact path_value _ _ _ _ _ _

theorem leafValue_congr {m : Nat} {g : Nat → ℝ × ℝ} {b b' : Nat → Nat} {leaf : Nat → Int} {lam : ℝ} {k : Nat} (h : ∀ u ∈ Finset.range m, b u = b' u) :
    leafValue m g b leaf lam k = leafValue m g b' leaf lam k := by
  unfold leafValue
  have e : ∀ f : Nat → ℝ, ∑ s ∈ Finset.range m, (if b s = k then f s else 0) = ∑ s ∈ Finset.range m, if b' s = k then f s else 0 :=
    fun f => Finset.sum_congr rfl fun u hu => by rw [h u hu]
  rw [e, e]

/-- **C116, what the leaves are worth.**  Provided the search keeps to its boundaries (`Exact`, see C74 for what happens otherwise): in every
tree of the model, for every training sample, the value of the leaf the *finished tree* leads the sample to minimises the regularised
second order loss, with the gradients at the scores of the earlier trees, over exactly the training samples led to that leaf. -/
theorem trained_leaves_optimal_partial {S : Search D X G} {c : Cfg} {lam : ℝ} {samples : List (Nat → Int → D)} {y : List ℝ} {ts : List (Tree D ℝ)}
    (hts : Grown S c lam samples y ts) (hP : 0 < c.parties) (hS : Exact S c.parties samples) (hy : y.length = samples.length) (hlam : 0 ≤ lam)
    {r : Nat} {t : Tree D ℝ} (ht : ts[r]? = some t) {s : Nat} (hs : s < samples.length) (v : ℝ) :
    let grads := roundInput leD c (initPred y) samples y (ts.take r)
    let leaf (u : Nat) : Nat := path leD t (samples.getD u fun _ _ => S.top) c.maxDepth
    let together := (Finset.range samples.length).filter fun u => leaf u = leaf s
    leafLoss together (fun u => grads.getD u (0, 0)) lam (t.value (leaf s)) ≤ leafLoss together (fun u => grads.getD u (0, 0)) lam v := by
  intro grads leaf together
  obtain ⟨cs, hb⟩ := hts.2 r t ht
  let ws : Nat → World D := fun u => world S samples (samples.getD u fun _ _ => S.top)
  have hsd : ∀ u L, L < c.maxDepth → Sound (ws u) c.parties L (cs L) := fun u L hL => sound_of hS (hb.1 L hL) _
  have hpos : ∀ u, u < samples.length → 0 < (grads.getD u (0, 0)).2 := by
    intro u hu
    have hl : u < grads.length := by simp only [grads, roundInput, List.length_zipWith, List.length_map]; omega
    rw [List.getD_eq_getElem?_getD, List.getElem?_eq_getElem hl, Option.getD_some]
    simp only [grads, roundInput, List.getElem_zipWith, Boost.gh]
    have h1 : ∀ x, sigmoid x < 1 := fun x => by rw [sigmoid_eq]; exact Real.sigmoid_lt_one x
    have h0 : ∀ x, 0 < sigmoid x := fun x => by rw [sigmoid_eq]; exact Real.sigmoid_pos x
    exact mul_pos (h0 _) (sub_pos.2 (h1 _))
  have hopt := leaf_value_optimal_partial ws c.parties samples.length c.maxDepth (fun u => grads.getD u (0, 0)) lam cs s hs hP hsd hlam hpos
  simp only at hopt
  have hnode : ∀ u, leaf u = (levels (ws u) cs c.maxDepth).bt := fun u => path_is_node hP hS hb _
  have hn : ∀ u, predictTree leD (treeOf (finish c.maxDepth (levels (ws u) cs c.maxDepth)) id) (ws u).row (2 ^ (c.maxDepth + 1) - 1) c.parties =
      (levels (ws u) cs c.maxDepth).bt := fun u => training_matches_prediction_partial (ws u) c.parties c.maxDepth cs id hP (hsd u)
  have hv : ∀ value : Nat → ℝ, predictTree leD (treeOf (finish c.maxDepth (levels (ws s) cs c.maxDepth)) value) (ws s).row (2 ^ (c.maxDepth + 1) - 1) c.parties =
      value (levels (ws s) cs c.maxDepth).bt := fun value => training_matches_prediction_partial (ws s) c.parties c.maxDepth cs value hP (hsd s)
  simp only [hn, hv] at hopt
  have hset : together = (Finset.range samples.length).filter fun u => (levels (ws u) cs c.maxDepth).bt = (levels (ws s) cs c.maxDepth).bt := by
    simp only [together, hnode]
  have hval : t.value (leaf s) = leafValue samples.length (fun u => grads.getD u (0, 0)) (fun u => (finish c.maxDepth (levels (ws u) cs c.maxDepth)).bt)
      (finish c.maxDepth (levels (ws s) cs c.maxDepth)).isLeaf lam (levels (ws s) cs c.maxDepth).bt := by
    rw [hnode, hb.2]
    show leafValue _ _ _ _ _ _ = _
    have e3 := (levels_row S samples cs (samples.getD s fun _ _ => S.top) (fun _ _ => S.top) c.maxDepth).2.2.1
    have hl : (finish c.maxDepth (levels (world S samples fun _ _ => S.top) cs c.maxDepth)).isLeaf = (finish c.maxDepth (levels (ws s) cs c.maxDepth)).isLeaf := by
      unfold finish; simp only [ws, e3]
    rw [hl]
    have hbt : ∀ u ∈ Finset.range samples.length, (samples.map fun row => (levels (world S samples row) cs c.maxDepth).bt).getD u 0 =
        (finish c.maxDepth (levels (ws u) cs c.maxDepth)).bt := by
      intro u hu
      rw [getD_map_lt _ (Finset.mem_range.1 hu)]
      simp only [ws, finish]
      rw [List.getD_eq_getElem?_getD, List.getElem?_eq_getElem (Finset.mem_range.1 hu), Option.getD_some]
    exact leafValue_congr hbt
  rw [hset, hval]
  exact hopt v

/-! ## Examples -/

/-- a search over whole numbers: boundaries 5 and 10, always the first feature, the root cut at 5, below it at 10 -/
def toySearch : Search Int Nat Int where
  bins := fun _ _ => [5, 10]
  cast := id
  top := 1000
  wins := fun a b => decide (b < a)
  stop := fun g => decide (g ≤ 0)
  apHist := fun L _ => L + 2
  split := fun n x => (fun i => x, fun _ => 0, fun _ => if n = 1 then 0 else 1)
  nodeMap := fun L _ => L
  left := fun _ => 0
  fhe := fun _ _ _ _ => 0
  outs := fun _ _ => 2
  decrypt := fun i _ _ => i + 1
  combine := fun a b => a + b
  pk := 1
  sk := 2
  relin := 3
  galois := 4
  encoder := 5
  encrypt := fun _ _ _ => (6, 7)
  chunks := 3

/-- the hypotheses of `session_predicts_partial` and `trained_leaves_optimal_partial` hold for three parties, two samples -/
example : Protocol.Ranks 4 2 [0, 3] ∧ Exact toySearch 3 [fun _ _ => 4, fun p _ => 7 + p] ∧
    (⟨2, 1 / 2, 2, 8, 3⟩ : Cfg).parties = [0, 3].length + 1 ∧ 0 < (⟨2, 1 / 2, 2, 8, 3⟩ : Cfg).maxDepth := by
  refine ⟨⟨by decide, by decide⟩, ⟨fun _ _ => ?_, fun _ _ _ _ => rfl, fun L x i p _ _ => ?_⟩, rfl, by decide⟩
  · show [(5 : Int), 10].Pairwise (· ≤ ·)
    decide
  · show (if 2 ^ L = 1 then 0 else 1) < 2
    by_cases h : 2 ^ L = 1
    · rw [if_pos h]; decide
    · rw [if_neg h]; decide

/-- with it there is a model of two trees, so the theorems speak of something -/
example : ∃ ts, Grown toySearch ⟨2, 1 / 2, 2, 8, 3⟩ 1 [fun _ _ => 4, fun p _ => 7 + p] [0, 1] ts ∧ ts.length = 2 := by
  obtain ⟨ts, h, _⟩ := fit_ok toySearch 1 0 [fun _ _ => 4, fun p _ => 7 + p] (fun p => p) 2 ⟨2, 1 / 2, 2, 8, 3⟩ rfl [0, 1] rfl
  exact ⟨ts, h, h.1⟩

end Verif.Sgb.Kernels
