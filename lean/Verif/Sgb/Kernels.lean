import Verif.Sgb.Protocol
import Verif.Sgb.Boost
import Verif.Sgb.End
/-!
# SecureBoost among parties with its array computations (libs/ml/sgb.py), property C116

`Verif.Sgb.Protocol` leaves the local computations open.  Here they are filled in: everything the tree, the samples' nodes, the leaf
values, the predictions, the gradients and the scores are made of is the array code of `sgb.py` (as modelled in `Train`, `Predict`,
`Boost`, `End`); what remains open, as arbitrary functions, is what the split search is told: binning, histograms, the best split of
each party's own columns, keys and ciphertexts (C75-C77, C103, C104).
-/
namespace Verif.Sgb.Kernels
open Verif.Sgb Verif.Sgb.Boost

/-- The arrays of the protocol.  `X`: ciphertexts, keys, node maps, histogram entries; `G`: gains.  Arrays over the nodes of the tree are
functions; arrays over the nodes of a level carry their length where it is used. (models no code of its own) -/
inductive SVal (D X G : Type)
  /-- a party's columns: per sample, feature number to value -/
  | rows (l : List (Int → D))
  | labels (y : List ℝ)
  | bins (b : Int → List D)
  | binIdx (l : List (Int → Nat))
  | num (x : ℝ)
  | reals (l : List ℝ)
  | gh (l : List (ℝ × ℝ))
  | quant (l : List ℤ)
  | ints (a : Nat → Int)
  | thrs (a : Nat → D)
  | vals (a : Nat → ℝ)
  /-- the samples' nodes -/
  | nodes (l : List Nat)
  /-- the same relative to the level -/
  | shifted (l : List Int)
  /-- the node numbers of a level -/
  | idx (L : Nat)
  | gains (g : Nat → G)
  | feats (n : Nat) (f : Nat → Int)
  | cuts (n : Nat) (t : Nat → Nat)
  | winner (b : Nat → Nat)
  | masks (l : List Locs)
  | hist (n : Nat) (x : X)
  | ext (x : X)

/-- What is left open: arbitrary functions. -/
structure Search (D X G : Type) where
  /-- `build_bins_equi_width` on a party's columns (sgb.py:130-145, 1768-1773) -/
  bins : List (Int → D) → Int → List D
  /-- storing a boundary in the float32 threshold array (sgb.py:1248, 1127) -/
  cast : D → D
  /-- `inf` -/
  top : D
  /-- the comparison of `jnp.argmax` (sgb.py:1337) -/
  wins : G → G → Bool
  /-- `(gains <= 0.0) | (~jnp.isfinite(gains))` (sgb.py:764) -/
  stop : G → Bool
  /-- `local_build_histogram` (sgb.py:159-183) -/
  apHist : Nat → List (SVal D X G) → X
  /-- `compute_best_split_from_hist` on the nodes of a level (sgb.py:186-239, 996-1006): gain, feature, bin -/
  split : Nat → X → (Nat → G) × (Nat → Int) × (Nat → Nat)
  /-- `get_subgroup_map`, `slice_left` (sgb.py:744-753, 927-934) -/
  nodeMap : Nat → List (SVal D X G) → X
  left : List (SVal D X G) → X
  /-- `_compute_histogram_chunk_batch` (sgb.py:299-439), its `j`-th ciphertext, and how many there are -/
  fhe : Nat → Nat → Nat → List (SVal D X G) → X
  outs : Nat → Nat → Nat
  /-- `_decrypt_batch` (sgb.py:491-520) -/
  decrypt : Nat → Nat → List (SVal D X G) → X
  /-- `derive_right_and_combine` (sgb.py:973-983) -/
  combine : X → X → X
  /-- `keygen_fn` (sgb.py:1606-1611) -/
  pk : X
  sk : X
  relin : X
  galois : X
  encoder : X
  /-- `slice_pad_encode_encrypt` (sgb.py:564-581): tree, chunk -/
  encrypt : Nat → Nat → List (SVal D X G) → X × X
  chunks : Nat

variable {D X G : Type} [LinearOrder D]

/-- `jnp.argmax` along the parties, from the second entry on: the first entry no later one beats (sgb.py:1337) -/
def argmaxFrom (wins : G → G → Bool) : G → Nat → Nat → List G → Nat
  | _, b, _, [] => b
  | g, b, i, x :: xs => if wins x g then argmaxFrom wins x i (i + 1) xs else argmaxFrom wins g b (i + 1) xs

/-- `jnp.argmax(stacked, axis=0)` at one node (sgb.py:1337) -/
def argmaxG (wins : G → G → Bool) : List G → Nat
  | [] => 0
  | g :: gs => argmaxFrom wins g 0 1 gs

/-- a gain array (models no code of its own) -/
def asGains : SVal D X G → Option (Nat → G)
  | .gains g => some g
  | _ => none

/-- an array of nodes (models no code of its own) -/
def asNodes : SVal D X G → Option (List Nat)
  | .nodes l => some l
  | _ => none

/-- a location matrix (models no code of its own) -/
def asMasks : SVal D X G → Option (List Locs)
  | .masks l => some l
  | _ => none

section
variable (S : Search D X G)

/-- `x - off` (sgb.py:1296-1299) -/
def btLevelK (L : Nat) : List (SVal D X G) → Option (SVal D X G)
  | [.nodes b] => some (.shifted (b.map fun x : Nat => (x : Int) - (2 ^ L - 1)))
  | _ => none

/-- `local_build_histogram` for `2 ** level` nodes (sgb.py:824-829) -/
def apHistK (L : Nat) (l : List (SVal D X G)) : Option (SVal D X G) := some (.hist (2 ^ L) (S.apHist L l))

/-- best splits of the nodes of a histogram (sgb.py:222-239, 996-1006) -/
def splitK : List (SVal D X G) → Option (List (SVal D X G))
  | [.hist n x] => some [.gains (S.split n x).1, .feats n (S.split n x).2.1, .cuts n (S.split n x).2.2]
  | _ => none

/-- `_decrypt_batch`: all nodes at the root level, the left children below it (sgb.py:886-893, 949-966) -/
def decryptK (i L : Nat) (l : List (SVal D X G)) : Option (SVal D X G) :=
  some (.hist (if L = 0 then 1 else 2 ^ (L - 1)) (S.decrypt i L l))

/-- `derive_right_and_combine`: parents and left children must have the same shape (sgb.py:973-983) -/
def combineK : List (SVal D X G) → Option (SVal D X G)
  | [.hist n a, .hist m b] => if m = n then some (.hist (2 * n) (S.combine a b)) else none
  | _ => none

/-- `find_global_best` (sgb.py:1335-1342) -/
def bestK (l : List (SVal D X G)) : Option (List (SVal D X G)) :=
  match l.mapM asGains with
  | some (g :: gs) => some [
      .gains fun i => ((g :: gs).map fun a => a i).getD (argmaxG S.wins ((g :: gs).map fun a => a i)) (g i),
      .winner fun i => argmaxG S.wins ((g :: gs).map fun a => a i)]
  | _ => none

/-- `update_is_leaf` (sgb.py:757-765) -/
def updLeafK : List (SVal D X G) → Option (SVal D X G)
  | [.ints a, .gains g, .idx L] => some (.ints (setLevel L (fun i => if S.stop (g i) then 1 else 0) a))
  | _ => none

/-- `op.at[ci].set(bp)` (sgb.py:1056) -/
def updOwnK : List (SVal D X G) → Option (SVal D X G)
  | [.ints a, .winner b, .idx L] => some (.ints (setLevel L (fun i => (b i : Int)) a))
  | _ => none

/-- `update_party_feats` (sgb.py:1095-1106) -/
def updFeatK (p : Nat) : List (SVal D X G) → Option (SVal D X G)
  | [.ints a, .feats _ f, .idx L, .ints own, .ints leaf] => some (.ints fun k =>
      if own k = (p : Int) then (if leaf k ≠ 0 then -1 else setLevel L f a k) else -1)
  | _ => none

/-- `update_party_thresholds` (sgb.py:1115-1131) -/
def updThrK (p : Nat) : List (SVal D X G) → Option (SVal D X G)
  | [.thrs a, .bins b, .feats _ f, .cuts _ t, .idx L, .ints own, .ints leaf] => some (.thrs fun k =>
      if own k = (p : Int) then (if leaf k ≠ 0 then S.top else
        setLevel L (fun i => S.cast ((b (f i)).getD (min (t i) ((b (f i)).length - 1)) S.top)) a k) else S.top)
  | _ => none

/-- `update_bt` (sgb.py:768-785) -/
def updBtK : List (SVal D X G) → Option (SVal D X G)
  | [.nodes bt, .shifted bl, .ints leaf, .binIdx bi, .feats n f, .cuts _ t] =>
    if bl.length = bt.length ∧ bi.length = bt.length then
      some (.nodes ((List.range bt.length).map fun s =>
        let here := bt.getD s 0
        let i := jaxIdx n (bl.getD s 0)
        let next := if bi.getD s (fun _ => 0) (f i) ≤ t i then 2 * here + 1 else 2 * here + 2
        if leaf here ≠ 0 then here else next))
    else none
  | _ => none

/-- `merge_bt_updates` (sgb.py:1180-1203): current nodes, each party's, winners, node numbers of the level -/
def mergeK : List (SVal D X G) → Option (SVal D X G)
  | .nodes bt :: rest =>
    match rest.reverse with
    | .idx L :: .winner b :: tmps =>
      match tmps.reverse.mapM asNodes with
      | some ts =>
        if ts.all (fun t => t.length = bt.length) then
          some (.nodes ((List.range bt.length).map fun s =>
            mergeBt (bt.getD s 0) (fun p => (ts.getD p []).getD s 0) b (2 ^ L - 1) (List.range (2 ^ L)) (bt.getD s 0)))
        else none
      | none => none
    | _ => none
  | _ => none

/-- `il.at[fi].set(1)` (sgb.py:1379) -/
def setLastK : List (SVal D X G) → Option (SVal D X G)
  | [.ints a, .idx d] => some (.ints (setLevel d (fun _ => 1) a))
  | _ => none

/-- `compute_leaf_values` (sgb.py:788-806) -/
noncomputable def leafValsK (lam : ℝ) : List (SVal D X G) → Option (SVal D X G)
  | [.gh g, .nodes bt, .ints leaf] =>
    if g.length = bt.length then
      some (.vals (leafValue bt.length (fun s => g.getD s (0, 0)) (fun s => bt.getD s 0) leaf lam))
    else none
  | _ => none

/-- `traverse_kernel` of party `p` on `n` nodes (sgb.py:1427-1468) -/
def traverseK (n p : Nat) : List (SVal D X G) → Option (SVal D X G)
  | [.rows d, .ints f, .thrs t, .ints leaf, .ints own] => some (.masks (d.map fun row =>
      singleParty leD (⟨fun _ => f, fun _ => t, fun _ => (), leaf, own⟩ : Tree D Unit) (fun _ => row) n p))
  | _ => none

/-- `aggregate_predictions` (sgb.py:1502-1516) -/
def aggregateK (n : Nat) (l : List (SVal D X G)) : Option (SVal D X G) :=
  match l.reverse with
  | .vals v :: .ints leaf :: ms =>
    match ms.reverse.mapM asMasks with
    | some (m :: ks) =>
      if (m :: ks).all (fun k => k.length = m.length) then
        some (.reals ((List.range m.length).map fun s =>
          v (argmaxBool (fun k => ((m :: ks).all fun a => decide (a.getD s (fun _ => 0) k > 0)) && decide (leaf k ≠ 0)) n)))
      else none
    | _ => none
  | _ => none

/-- bin boundaries of a party's columns (sgb.py:1768-1773) -/
def binsK : List (SVal D X G) → Option (SVal D X G)
  | [.rows d] => some (.bins (S.bins d))
  | _ => none

/-- `compute_bin_indices` for every column (sgb.py:148-151, 1774-1779) -/
def binIdxK : List (SVal D X G) → Option (SVal D X G)
  | [.rows d, .bins b] => some (.binIdx (d.map fun row f => digitize (b f) (row f)))
  | _ => none

/-- `compute_init_pred` (sgb.py:94-98, 1781-1785) -/
noncomputable def baseK : List (SVal D X G) → Option (SVal D X G)
  | [.labels y] => some (.num (initPred y))
  | _ => none

/-- `init * jnp.ones(n)` (sgb.py:1597-1600, 1541-1546) -/
def spreadK (n : Nat) : List (SVal D X G) → Option (SVal D X G)
  | [.num x] => some (.reals (List.replicate n x))
  | _ => none

/-- `compute_gh_quantized` (sgb.py:1621-1625) -/
noncomputable def ghK : List (SVal D X G) → Option (List (SVal D X G))
  | [.labels y, .reals p] =>
    if y.length = p.length then
      some [.gh (List.zipWith Boost.gh y p), .quant ((List.zipWith Boost.gh y p).map fun e => quantize e.1),
        .quant ((List.zipWith Boost.gh y p).map fun e => quantize e.2)]
    else none
  | _ => none

/-- the result of an array operation that may raise (models no code of its own) -/
def realsOf {ε : Type} : Except ε (List ℝ) → Option (SVal D X G)
  | .ok l => some (.reals l)
  | .error _ => none

/-- `curr_y + lr * t_pred` (sgb.py:1671-1672, 1551-1553) -/
noncomputable def addPredK (lr : ℝ) : List (SVal D X G) → Option (SVal D X G)
  | [.reals a, .reals b] => realsOf (addScaled lr a b)
  | _ => none

/-- `sigmoid` (sgb.py:1559-1562) -/
noncomputable def sigmoidK : List (SVal D X G) → Option (SVal D X G)
  | [.reals a] => some (.reals (a.map sigmoid))
  | _ => none

/-- `compute_metrics` (sgb.py:1856-1859) -/
noncomputable def scoreK : List (SVal D X G) → Option (SVal D X G)
  | [.reals p, .labels y] => if p.length = y.length then some (.num (accuracy p y)) else none
  | _ => none

/-- The local computations of SecureBoost with maximal depth `d`, learning rate `lr` and regularisation `lam`, for `m` training and `m'`
new samples (sgb.py, the places named at the fields of `Ker`). -/
noncomputable def ker (d : Nat) (lr lam : ℝ) (m m' : Nat) : Protocol.Ker (SVal D X G) where
  featInit := .ints fun _ => -1
  thrInit := .thrs fun _ => S.top
  valInit := .vals fun _ => 0
  leafInit := .ints fun _ => 0
  ownInit := .ints fun _ => -1
  btInit := .nodes (List.replicate m 0)
  level := .idx
  last := .idx d
  btLevel := btLevelK
  apHist := apHistK S
  apSplit := splitK S
  nodeMap := fun L l => some (.ext (S.nodeMap L l))
  left := fun l => some (.ext (S.left l))
  fhe := fun i L l => some ((List.range (S.outs i L)).map fun j => .ext (S.fhe i L j l))
  fheOuts := S.outs
  decrypt := decryptK S
  combine := combineK S
  split := splitK S
  best := bestK S
  updLeaf := updLeafK S
  updOwn := updOwnK
  updFeat := updFeatK
  updThr := updThrK S
  updBt := updBtK
  merge := mergeK
  setLast := setLastK
  leafVals := leafValsK lam
  traverse := traverseK (2 ^ (d + 1) - 1)
  aggregate := aggregateK (2 ^ (d + 1) - 1)
  bins := binsK S
  binIdx := binIdxK
  base := baseK
  spread := spreadK m
  keygen := fun _ => some [.ext S.pk, .ext S.sk, .ext S.relin, .ext S.galois, .ext S.encoder]
  gh := ghK
  encrypt := fun t c l => some [.ext (S.encrypt t c l).1, .ext (S.encrypt t c l).2]
  nChunks := S.chunks
  addPred := addPredK lr
  spreadNew := spreadK m'
  sigmoid := sigmoidK
  score := scoreK

end

/-! ## Specification -/

/-- What the parties hold of one sample `row` (party, feature number, value), with the boundaries made from the training `samples`. -/
def world (S : Search D X G) (samples : List (Nat → Int → D)) (row : Nat → Int → D) : World D where
  bins := fun p => S.bins (samples.map fun r => r p)
  row := row
  cast := S.cast
  top := S.top

/-- the columns of `P` parties, as the program gets them -/
def colsOf (P : Nat) (samples : List (Nat → Int → D)) : List (SVal D X G) := (List.range P).map fun p => .rows (samples.map fun r => r p)

/-- A tree as the parties hold it: features and thresholds by party. -/
def encode (P : Nat) (t : Tree D ℝ) : Protocol.Tree (SVal D X G) where
  splits := (List.range P).map fun p => (.ints (t.feature p), .thrs (t.threshold p))
  value := .vals t.value
  leaf := .ints t.isLeaf
  own := .ints t.owner

/-- The answers at level `L` are those of the search: for some histograms `x` of the parties, each party's feature and bin are the best
split of its histogram; at each node the winner is the first party no later one beats, and the node becomes a leaf iff the winner's gain
says so. -/
def Chosen (S : Search D X G) (P L : Nat) (c : Choice) : Prop :=
  ∃ x : Nat → X, (∀ p, c.feat p = (S.split (2 ^ L) (x p)).2.1 ∧ c.thr p = (S.split (2 ^ L) (x p)).2.2) ∧
    ∀ i, c.best i < P ∧ c.best i = argmaxG S.wins ((List.range P).map fun p => (S.split (2 ^ L) (x p)).1 i) ∧
      c.stop i = S.stop ((S.split (2 ^ L) (x (c.best i))).1 i)

/-- Tree `t` is what the level by level construction (`Train`) makes of the training samples for some answers `cs` of the split search, with
leaf values from the gradients `g` of the samples that ended in the leaf. -/
def BuiltFrom (S : Search D X G) (P d : Nat) (lam : ℝ) (samples : List (Nat → Int → D)) (g : List (ℝ × ℝ)) (cs : Nat → Choice) (t : Tree D ℝ) : Prop :=
  (∀ L, L < d → Chosen S P L (cs L)) ∧
  t = treeOf (finish d (levels (world S samples fun _ _ => S.top) cs d))
    (leafValue samples.length (fun s => g.getD s (0, 0))
      (fun s => (samples.map fun row => (levels (world S samples row) cs d).bt).getD s 0)
      (finish d (levels (world S samples fun _ _ => S.top) cs d)).isLeaf lam)

/-- The trees that training with configuration `c` on the `samples` with labels `y` makes: `c.nEstimators` of them, each built for the
gradients at the scores of the trees before it. -/
def Grown (S : Search D X G) (c : Cfg) (lam : ℝ) (samples : List (Nat → Int → D)) (y : List ℝ) (ts : List (Tree D ℝ)) : Prop :=
  ts.length = c.nEstimators ∧ ∀ (r : Nat) t, ts[r]? = some t →
    ∃ cs, BuiltFrom S c.parties c.maxDepth lam samples (roundInput leD c (initPred y) samples y (ts.take r)) cs t

/-- What the split search must not do for training and prediction to agree (C74): the boundaries of every party's columns are sorted and
stored without rounding, and the bin of a split that is made is one of them. -/
structure Exact (S : Search D X G) (P : Nat) (samples : List (Nat → Int → D)) : Prop where
  sorted : ∀ p f, (S.bins (samples.map fun r => r p) f).Pairwise (· ≤ ·)
  kept : ∀ p f, ∀ b ∈ S.bins (samples.map fun r => r p) f, S.cast b = b
  within : ∀ L x i p, p < P → S.stop ((S.split (2 ^ L) x).1 i) = false →
    (S.split (2 ^ L) x).2.2 i < (S.bins (samples.map fun r => r p) ((S.split (2 ^ L) x).2.1 i)).length

end Verif.Sgb.Kernels
