import Verif.Simp.ChorLogic
/-!
# SecureBoost as a program of several parties (libs/ml/sgb.py), property C112

`fit`, `predict` and `evaluate` of `SecureBoost` as they are written: which party computes what, what is sent to whom.  The local
array computations (JAX kernels, BFV calls) are parameters (`Ker`), arbitrary partial functions; their own properties are C73-C78 and
C101-C104.  The plain counterpart (`…C`) is the same algorithm with no parties and no transfers.
-/
namespace Verif.Sgb.Protocol
open Verif.Simp Verif.Comm

/-- What an object is, as far as the protocol is concerned (it stands for the object's type). -/
inductive Kind where
  | data (i : Nat) | label | bins (i : Nat) | binIdx (i : Nat) | base
  | pred | gh | quant | pk | sk | relin | galois | encoder | ct
  | feat (i : Nat) | thr (i : Nat) | leafVal | leaf | own | bt | idx | btLevel
  | hist | gain | bestFeat (i : Nat) | bestThr (i : Nat) | nodeMap | histCt | bestGain | bestParty | tmpBt (i : Nat)
  | mask (i : Nat) | prob | score
  deriving DecidableEq

/-- The local computations: arbitrary functions of the values passed to them.  `L` is the level, `i` the party's position
(0 = active party), `t` the tree, `c` the chunk.  Encryption is randomised: each call has its own function. -/
structure Ker (V : Type) where
  /-- `np.full` (sgb.py:1246-1251) -/
  featInit : V
  thrInit : V
  valInit : V
  leafInit : V
  ownInit : V
  btInit : V
  /-- `np.arange(n_level) + level_offset` (sgb.py:1288-1293), `np.arange(final_start, final_end)` (:1372-1375) -/
  level : Nat → V
  last : V
  /-- `x - off` (sgb.py:1296-1299) -/
  btLevel : Nat → List V → Option V
  /-- `make_local_build_histogram`, `local_compute_best_splits` (sgb.py:816-829) -/
  apHist : Nat → List V → Option V
  apSplit : List V → Option (List V)
  /-- `make_get_subgroup_map`, `slice_left` (sgb.py:744-753, 927-934) -/
  nodeMap : Nat → List V → Option V
  left : List V → Option V
  /-- `_compute_histogram_chunk_batch` (sgb.py:299-439) and the number of ciphertexts it returns (G and H together) -/
  fhe : Nat → Nat → List V → Option (List V)
  fheOuts : Nat → Nat → Nat
  /-- `_decrypt_batch` (sgb.py:491-520) -/
  decrypt : Nat → Nat → List V → Option V
  /-- `derive_right_and_combine`, `find_splits` (sgb.py:973-983, 996-1006) -/
  combine : List V → Option V
  split : List V → Option (List V)
  /-- `find_global_best` (sgb.py:1335-1342) -/
  best : List V → Option (List V)
  /-- `update_is_leaf`, `op.at[ci].set(bp)`, `update_party_feats`, `update_party_thresholds`, `update_bt`, `merge_bt_updates`
  (sgb.py:757-785, 1056, 1095-1131, 1176-1197) -/
  updLeaf : List V → Option V
  updOwn : List V → Option V
  updFeat : Nat → List V → Option V
  updThr : Nat → List V → Option V
  updBt : List V → Option V
  merge : List V → Option V
  /-- `il.at[fi].set(1)`, `make_compute_leaf_values` (sgb.py:1379, 788-806) -/
  setLast : List V → Option V
  leafVals : List V → Option V
  /-- `traverse_kernel`, `aggregate_predictions` (sgb.py:1427-1462, 1502-1516) -/
  traverse : Nat → List V → Option V
  aggregate : List V → Option V
  /-- `build_bins_equi_width`, `compute_bin_indices`, `compute_init_pred` (sgb.py:130-151, 1758-1785) -/
  bins : List V → Option V
  binIdx : List V → Option V
  base : List V → Option V
  /-- `init * jnp.ones(n)`, `keygen_fn`, `compute_gh_quantized`, `slice_pad_encode_encrypt`, `curr_y + lr * t_pred`
  (sgb.py:1597-1600, 1606-1611, 1621-1625, 564-581, 1671-1672) -/
  spread : List V → Option V
  keygen : List V → Option (List V)
  gh : List V → Option (List V)
  encrypt : Nat → Nat → List V → Option (List V)
  nChunks : Nat
  addPred : List V → Option V
  /-- prediction: `init * jnp.ones(n)` for the new rows, `update_pred`, `sigmoid`; `compute_metrics` (sgb.py:1541-1564, 1856-1859) -/
  spreadNew : List V → Option V
  sigmoid : List V → Option V
  score : List V → Option V

/-- What a party has: its rank, its columns, its part of the tree, the ciphertexts sent to it, its histogram of the previous level
(kept at the active party). -/
structure Party (X : Type) where
  i : Nat
  rank : Nat
  data : X
  bins : X
  binIdx : X

/-- A party during the building of a tree. -/
structure Work (X : Type) where
  pt : Party X
  feat : X
  thr : X
  g : List X
  h : List X
  parent : Option X

/-- The keys (sgb.py:1603-1615). -/
structure Keys (X : Type) where
  pk : X
  sk : X
  relin : X
  galois : X
  encoder : X

/-- The state of the level loop (sgb.py:1284-1366). -/
structure State (X : Type) where
  me : Work X
  others : List (Work X)
  leaf : X
  own : X
  bt : X

/-- `Tree` (sgb.py:67-80): feature and threshold per party -/
structure Tree (X : Type) where
  splits : List (X × X)
  value : X
  leaf : X
  own : X

/-- `TreeEnsemble` (sgb.py:83-90) -/
structure Model (X : Type) where
  trees : List (Tree X)
  base : X

/-- python tuple unpacking of a call's results (models no code of its own) -/
def two {X β : Type} (k : X → X → Option β) : Option (List X) → Option β
  | some [a, b] => k a b
  | _ => none
/-- the same for three results -/
def three {X β : Type} (k : X → X → X → Option β) : Option (List X) → Option β
  | some [a, b, c] => k a b c
  | _ => none

section plain
variable {V : Type} (K : Ker V)

/-! ## The algorithm without parties -/

/-- which samples are in which node; below the root only the left children (sgb.py:886-893, 925-934) -/
def nodesC (L : Nat) (m : V) : Option V := if L = 0 then some m else K.left [m]

/-- a call's results, of which there must be `n` -/
def exactly (n : Nat) : Option (List V) → Option (List V)
  | some l => if l.length = n then some l else none
  | none => none

/-- below the root the right children by subtraction (sgb.py:970-989) -/
def subtractC (L : Nat) (parent : Option V) (hist : V) : Option V :=
  if L = 0 then some hist else parent.bind fun p => K.combine [hist, p]

/-- One passive party's columns at one level (sgb.py:862-1012): histogram, then the best split of each node. -/
def passiveC (L : Nat) (k : Keys V) (btl : V) (q : Work V) : Option (Work V × V × V × V) := do
  let m ← K.nodeMap L [btl]
  let m ← nodesC K L m
  let cts ← exactly (K.fheOuts q.pt.i L) (K.fhe q.pt.i L (m :: q.pt.binIdx :: q.g ++ q.h ++ [k.encoder, k.relin, k.galois]))
  let hist ← K.decrypt q.pt.i L (cts ++ [k.sk, k.encoder])
  let hist ← subtractC K L q.parent hist
  three (fun g f t => some ({ q with parent := some hist }, g, f, t)) (K.split [hist])

/-- One party's update of its tree arrays and of the samples' nodes (sgb.py:1070-1172). -/
def updateC (idx own leaf bt btl : V) (q : Work V × V × V) : Option (Work V × V) := do
  let f ← K.updFeat q.1.pt.i [q.1.feat, q.2.1, idx, own, leaf]
  let t ← K.updThr q.1.pt.i [q.1.thr, q.1.pt.bins, q.2.1, q.2.2, idx, own, leaf]
  let b ← K.updBt [bt, btl, leaf, q.1.pt.binIdx, q.2.1, q.2.2]
  pure ({ q.1 with feat := f, thr := t }, b)

/-- the parties after the level (python lists; models no code of its own) -/
def stateC {X : Type} (ws : List (Work X)) (leaf own bt : X) : Option (State X) :=
  match ws with
  | me :: others => some ⟨me, others, leaf, own, bt⟩
  | [] => none

/-- One level (sgb.py:1284-1366). -/
def levelC (gh : V) (keys : Option (Keys V)) (L : Nat) (s : State V) : Option (State V) := do
  let idx := K.level L
  let btl ← K.btLevel L [s.bt]
  let h ← K.apHist L [gh, btl, s.me.pt.binIdx]
  three (fun g0 f0 t0 => do
    let ps ← s.others.mapM fun q => keys.bind fun k => passiveC K L k btl q
    two (fun bg bp => do
      let leaf ← K.updLeaf [s.leaf, bg, idx]
      let own ← K.updOwn [s.own, bp, idx]
      let us ← ((s.me, f0, t0) :: ps.map fun r => (r.1, r.2.2.1, r.2.2.2)).mapM (updateC K idx own leaf s.bt btl)
      let bt ← K.merge (s.bt :: us.map Prod.snd ++ [bp, idx])
      stateC (us.map Prod.fst) leaf own bt) (K.best (g0 :: ps.map fun r => r.2.1))) (K.apSplit [h])

/-- The level loop. -/
def levelsC (gh : V) (keys : Option (Keys V)) : Nat → State V → Option (State V)
  | 0, s => some s
  | L + 1, s => (levelsC gh keys L s).bind (levelC K gh keys L)

/-- `build_tree` (sgb.py:1212-1404) -/
def buildC (gh : V) (gcts hcts : List V) (keys : Option (Keys V)) (depth : Nat) (me : Party V) (others : List (Party V)) :
    Option (Tree V) := do
  let s ← levelsC K gh keys depth ⟨⟨me, K.featInit, K.thrInit, [], [], none⟩,
    others.map fun q => ⟨q, K.featInit, K.thrInit, gcts, hcts, none⟩, K.leafInit, K.ownInit, K.btInit⟩
  let leaf ← K.setLast [s.leaf, K.last]
  let value ← K.leafVals [gh, s.bt, leaf]
  pure ⟨(s.me :: s.others).map fun w => (w.feat, w.thr), value, leaf, s.own⟩

/-- `predict_tree` (sgb.py:1474-1526): `rows` are the parties' columns (position, rank, data) -/
def predictC (t : Tree V) (rows : List (Nat × Nat × V)) : Option V :=
  if t.splits.length < rows.length then none else
  ((rows.zip t.splits).mapM fun e => K.traverse e.1.1 [e.1.2.2, e.2.1, e.2.2, t.leaf, t.own]).bind fun ms =>
  K.aggregate (ms ++ [t.leaf, t.value])

/-- chunks of the encrypted gradients (sgb.py:523-587) -/
def encryptC (t : Nat) (k : Keys V) (qg qh : V) : Option (List (V × V)) :=
  (List.range K.nChunks).mapM fun c => two (fun a b => some (a, b)) (K.encrypt t c [qg, qh, k.encoder, k.pk])

/-- none if there are no passive parties (sgb.py:1633-1637) -/
def ciphersC (t : Nat) (keys : Option (Keys V)) (qg qh : V) : Option (List (V × V)) :=
  match keys with
  | none => some []
  | some k => encryptC K t k qg qh

/-- One round of boosting (sgb.py:1619-1679). -/
def roundC (label : V) (keys : Option (Keys V)) (depth : Nat) (me : Party V) (others : List (Party V)) (t : Nat) (pred : V) :
    Option (Tree V × V) :=
  three (fun gh qg qh => do
    let cts ← ciphersC K t keys qg qh
    let tree ← buildC K gh (cts.map Prod.fst) (cts.map Prod.snd) keys depth me others
    let p ← predictC K tree ((me :: others).map fun q => (q.i, q.rank, q.data))
    let pred ← K.addPred [pred, p]
    pure (tree, pred)) (K.gh [label, pred])

/-- The boosting rounds. -/
def roundsC (label : V) (keys : Option (Keys V)) (depth : Nat) (me : Party V) (others : List (Party V)) :
    Nat → V → Option (List (Tree V) × V)
  | 0, p => some ([], p)
  | n + 1, p => (roundsC label keys depth me others n p).bind fun r =>
      (roundC K label keys depth me others n r.2).map fun q => (r.1 ++ [q.1], q.2)

/-- the keys, needed only if there are passive parties (sgb.py:1602-1615) -/
def keysC (need : Bool) : Option (Option (Keys V)) :=
  if need then match K.keygen [] with
    | some [pk, sk, rk, gk, enc] => some (some ⟨pk, sk, rk, gk, enc⟩)
    | _ => none
  else some none

/-- a party's bins (sgb.py:1768-1779) -/
def prepC (q : Nat × Nat × V) : Option (Party V) := do
  let b ← K.bins [q.2.2]
  let x ← K.binIdx [q.2.2, b]
  pure ⟨q.1, q.2.1, q.2.2, b, x⟩

/-- the rest of `fit` once the bins are known (sgb.py:1788-1811, 1602-1685) -/
def trainC (label base p : V) (depth n : Nat) : List (Party V) → Option (Model V)
  | [] => none
  | me :: others => (keysC K (!others.isEmpty)).bind fun keys =>
      (roundsC K label keys depth me others n p).bind fun r => some ⟨r.1, base⟩

/-- `SecureBoost.fit` (sgb.py:1739-1811) with `fit_tree_ensemble` (:1573-1685); `rows` are (position, rank, columns) -/
def fitC (label : V) (rows : List (Nat × Nat × V)) (depth n : Nat) : Option (Model V) := do
  let ps ← rows.mapM (prepC K)
  let base ← K.base [label]
  let p ← K.spread [base]
  trainC K label base p depth n ps

/-- the trees one after the other (sgb.py:1547-1556) -/
def addTreesC (rows : List (Nat × Nat × V)) : List (Tree V) → V → Option V
  | [], y => some y
  | t :: ts, y => do
    let p ← predictC K t rows
    let y ← K.addPred [y, p]
    addTreesC rows ts y

/-- `SecureBoost.predict` (sgb.py:1813-1838) with `predict_ensemble` (:1529-1566) -/
def predC (m : Model V) (rows : List (Nat × Nat × V)) : Option V := do
  let y ← K.spreadNew [m.base]
  let y ← addTreesC K rows m.trees y
  K.sigmoid [y]

/-- `SecureBoost.evaluate` (sgb.py:1844-1866) -/
def evalC (m : Model V) (rows : List (Nat × Nat × V)) (label : V) : Option V := do
  let y ← predC K m rows
  K.score [y, label]

end plain

section protocol
variable {V : Type} (K : Ker V) (ap : Nat) (pps : List Nat)

/-! ## The program of the parties -/

/-- python tuple unpacking of a call's results (models no code of its own) -/
def take2 {β : Type} (ys : List Nat) (k : Nat → Nat → Chor V Kind β) : Chor V Kind β :=
  match ys with
  | [a, b] => k a b
  | _ => .fail
/-- the same for three results -/
def take3 {β : Type} (ys : List Nat) (k : Nat → Nat → Nat → Chor V Kind β) : Chor V Kind β :=
  match ys with
  | [a, b, c] => k a b c
  | _ => .fail

/-- an array constant made at a party (sgb.py:1240-1244) -/
def konst (rank : Nat) (v : V) (t : Kind) : Chor V Kind Nat := one rank (fun _ => some v) t []

/-- a value of the active party for party number `i`: sent unless the party is the active party itself (sgb.py:1073-1090, 1145-1150) -/
def bring (q : Party Nat) (x : Nat) : Chor V Kind Nat := if q.i = 0 then .ret x else move x ap q.rank

/-- histogram subtraction below the root (sgb.py:970-989) -/
def subtract (L : Nat) (parent : Option Nat) (hist : Nat) : Chor V Kind Nat :=
  if L = 0 then .ret hist else match parent with
    | none => .fail
    | some p => one ap K.combine .hist [hist, p]

/-- `_find_splits_pps`, one passive party (sgb.py:862-1012) with `fhe_histogram_optimized` (:590-667) and
`decrypt_histogram_results` (:670-735) -/
def passive (L : Nat) (k : Keys Nat) (btl : Nat) (q : Work Nat) : Chor V Kind (Work Nat × Nat × Nat × Nat) :=
  (move btl ap q.pt.rank).bind fun b => (move k.encoder ap q.pt.rank).bind fun e => (move k.relin ap q.pt.rank).bind fun rk =>
  (move k.galois ap q.pt.rank).bind fun gk => (one q.pt.rank (K.nodeMap L) .nodeMap [b]).bind fun m =>
  (if L = 0 then .ret m else one q.pt.rank K.left .nodeMap [m]).bind fun m =>
  (several q.pt.rank (K.fhe q.pt.i L) (List.replicate (K.fheOuts q.pt.i L) .histCt)
    (m :: q.pt.binIdx :: q.g ++ q.h ++ [e, rk, gk])).bind fun cts =>
  (each (fun y => move y q.pt.rank ap) cts).bind fun cts =>
  (one ap (K.decrypt q.pt.i L) .hist (cts ++ [k.sk, k.encoder])).bind fun hist =>
  (subtract K ap L q.parent hist).bind fun hist =>
  (several ap K.split [.gain, .bestFeat q.pt.i, .bestThr q.pt.i] [hist]).bind fun r =>
  take3 r fun g f t => .ret ({ q with parent := some hist }, g, f, t)

/-- `_update_tree_state`, the loop body for one party (sgb.py:1074-1172) -/
def update (idx own leaf bt btl : Nat) (q : Work Nat × Nat × Nat) : Chor V Kind (Work Nat × Nat) :=
  (bring ap q.1.pt q.2.1).bind fun bf => (bring ap q.1.pt q.2.2).bind fun bth => (bring ap q.1.pt idx).bind fun ci =>
  (bring ap q.1.pt own).bind fun op => (bring ap q.1.pt leaf).bind fun il =>
  (one q.1.pt.rank (K.updFeat q.1.pt.i) (.feat q.1.pt.i) [q.1.feat, bf, ci, op, il]).bind fun f =>
  (one q.1.pt.rank (K.updThr q.1.pt.i) (.thr q.1.pt.i) [q.1.thr, q.1.pt.bins, bf, bth, ci, op, il]).bind fun t =>
  (bring ap q.1.pt bt).bind fun b => (bring ap q.1.pt btl).bind fun bl =>
  (one q.1.pt.rank K.updBt (.tmpBt q.1.pt.i) [b, bl, il, q.1.pt.binIdx, bf, bth]).bind fun tmp =>
  (if q.1.pt.i = 0 then .ret tmp else move tmp q.1.pt.rank ap).bind fun tmp =>
  .ret ({ q.1 with feat := f, thr := t }, tmp)

/-- the body of the level loop of `build_tree` (sgb.py:1284-1366) with `_find_splits_ap` (:814-830) and `_update_tree_state` (:1015-1210) -/
def level (gh : Nat) (keys : Option (Keys Nat)) (L : Nat) (s : State Nat) : Chor V Kind (State Nat) :=
  (konst ap (K.level L) .idx).bind fun idx => (one ap (K.btLevel L) .btLevel [s.bt]).bind fun btl =>
  (one ap (K.apHist L) .hist [gh, btl, s.me.pt.binIdx]).bind fun h =>
  (several ap K.apSplit [.gain, .bestFeat 0, .bestThr 0] [h]).bind fun r => take3 r fun g0 f0 t0 =>
  (each (fun q => match keys with
    | none => .fail
    | some k => passive K ap L k btl q) s.others).bind fun ps =>
  (several ap K.best [.bestGain, .bestParty] (g0 :: ps.map fun r => r.2.1)).bind fun r => take2 r fun bg bp =>
  (one ap K.updLeaf .leaf [s.leaf, bg, idx]).bind fun leaf => (share ap pps leaf).bind fun leaf =>
  (one ap K.updOwn .own [s.own, bp, idx]).bind fun own => (share ap pps own).bind fun own =>
  (each (update K ap idx own leaf s.bt btl) ((s.me, f0, t0) :: ps.map fun r => (r.1, r.2.2.1, r.2.2.2))).bind fun us =>
  (one ap K.merge .bt (s.bt :: us.map Prod.snd ++ [bp, idx])).bind fun bt => (share ap pps bt).bind fun bt =>
  match stateC (us.map Prod.fst) leaf own bt with
  | some s => .ret s
  | none => .fail

/-- the level loop (sgb.py:1284) -/
def levels (gh : Nat) (keys : Option (Keys Nat)) : Nat → State Nat → Chor V Kind (State Nat)
  | 0, s => .ret s
  | L + 1, s => (levels gh keys L s).bind (level K ap pps gh keys L)

/-- `build_tree` (sgb.py:1212-1404) -/
def build (gh : Nat) (gcts hcts : List Nat) (keys : Option (Keys Nat)) (depth : Nat) (me : Party Nat) (others : List (Party Nat)) :
    Chor V Kind (Tree Nat) :=
  (each (fun q : Party Nat => (konst q.rank K.featInit (.feat q.i)).bind fun f => .ret (q, f)) (me :: others)).bind fun fs =>
  (each (fun e : Party Nat × Nat => (konst e.1.rank K.thrInit (.thr e.1.i)).bind fun t =>
    .ret (⟨e.1, e.2, t, [], [], none⟩ : Work Nat)) fs).bind fun ws =>
  (konst ap K.valInit .leafVal).bind fun _ => (konst ap K.leafInit .leaf).bind fun leaf =>
  (konst ap K.ownInit .own).bind fun own => (konst ap K.btInit .bt).bind fun bt =>
  match ws with
  | [] => .fail
  | w :: ws =>
    (each (fun q : Work Nat => (each (fun x => move x ap q.pt.rank) gcts).bind fun g =>
      (each (fun x => move x ap q.pt.rank) hcts).bind fun h => .ret { q with g := g, h := h }) ws).bind fun ws =>
    (levels K ap pps gh keys depth ⟨w, ws, leaf, own, bt⟩).bind fun s =>
    (konst ap K.last .idx).bind fun fin => (one ap K.setLast .leaf [s.leaf, fin]).bind fun leaf => (share ap pps leaf).bind fun leaf =>
    (one ap K.leafVals .leafVal [gh, s.bt, leaf]).bind fun value =>
    .ret ⟨(s.me :: s.others).map fun w => (w.feat, w.thr), value, leaf, s.own⟩

/-- `predict_tree` (sgb.py:1474-1526) -/
def predict (t : Tree Nat) (rows : List (Nat × Nat × Nat)) : Chor V Kind Nat :=
  if t.splits.length < rows.length then .fail else
  (each (fun e : (Nat × Nat × Nat) × (Nat × Nat) =>
    (one e.1.2.1 (K.traverse e.1.1) (.mask e.1.1) [e.1.2.2, e.2.1, e.2.2, t.leaf, t.own]).bind fun m =>
    if e.1.2.1 = ap then .ret m else move m e.1.2.1 ap) (rows.zip t.splits)).bind fun ms =>
  one ap K.aggregate .pred (ms ++ [t.leaf, t.value])

/-- `fhe_encrypt_gh` (sgb.py:523-587) -/
def encrypt (t : Nat) (k : Keys Nat) (qg qh : Nat) : Chor V Kind (List (Nat × Nat)) :=
  each (fun c => (several ap (K.encrypt t c) [.ct, .ct] [qg, qh, k.encoder, k.pk]).bind fun r => take2 r fun a b => .ret (a, b))
    (List.range K.nChunks)

/-- encryption, only if there are passive parties (sgb.py:1633-1637) -/
def ciphers (t : Nat) (keys : Option (Keys Nat)) (qg qh : Nat) : Chor V Kind (List (Nat × Nat)) :=
  match keys with
  | none => .ret []
  | some k => encrypt K ap t k qg qh

/-- one round of the loop in `fit_tree_ensemble` (sgb.py:1619-1679) -/
def round (label : Nat) (keys : Option (Keys Nat)) (depth : Nat) (me : Party Nat) (others : List (Party Nat)) (t : Nat) (pred : Nat) :
    Chor V Kind (Tree Nat × Nat) :=
  (several ap K.gh [.gh, .quant, .quant] [label, pred]).bind fun r => take3 r fun gh qg qh =>
  (ciphers K ap t keys qg qh).bind fun cts =>
  (build K ap pps gh (cts.map Prod.fst) (cts.map Prod.snd) keys depth me others).bind fun tree =>
  (predict K ap tree ((me :: others).map fun q : Party Nat => (q.i, q.rank, q.data))).bind fun p =>
  (one ap K.addPred .pred [pred, p]).bind fun pred => .ret (tree, pred)

/-- the rounds (sgb.py:1619) -/
def rounds (label : Nat) (keys : Option (Keys Nat)) (depth : Nat) (me : Party Nat) (others : List (Party Nat)) :
    Nat → Nat → Chor V Kind (List (Tree Nat) × Nat)
  | 0, p => .ret ([], p)
  | n + 1, p => (rounds label keys depth me others n p).bind fun r =>
      (round K ap pps label keys depth me others n r.2).bind fun q => .ret (r.1 ++ [q.1], q.2)

/-- `keygen_fn` at the active party (sgb.py:1602-1615) -/
def keygen : Chor V Kind (Option (Keys Nat)) :=
  if pps = [] then .ret none else
  (several ap K.keygen [.pk, .sk, .relin, .galois, .encoder] []).bind fun r => match r with
    | [pk, sk, rk, gk, enc] => .ret (some ⟨pk, sk, rk, gk, enc⟩)
    | _ => .fail

/-- `SecureBoost.fit` (sgb.py:1739-1811) with `fit_tree_ensemble` (:1573-1685) -/
def fit (label : Nat) (rows : List (Nat × Nat × Nat)) (depth n : Nat) : Chor V Kind (Model Nat) :=
  (each (fun q : Nat × Nat × Nat => (one q.2.1 K.bins (.bins q.1) [q.2.2]).bind fun b =>
    (one q.2.1 K.binIdx (.binIdx q.1) [q.2.2, b]).bind fun x => .ret (⟨q.1, q.2.1, q.2.2, b, x⟩ : Party Nat)) rows).bind fun ps =>
  match ps with
  | [] => .fail
  | me :: others =>
    (one ap K.base .base [label]).bind fun base => (one ap K.spread .pred [base]).bind fun p =>
    (keygen K ap pps).bind fun keys => (rounds K ap pps label keys depth me others n p).bind fun r =>
    .ret ⟨r.1, base⟩

/-- the loop of `predict_ensemble` (sgb.py:1547-1556) -/
def addTrees (rows : List (Nat × Nat × Nat)) : List (Tree Nat) → Nat → Chor V Kind Nat
  | [], y => .ret y
  | t :: ts, y => (predict K ap t rows).bind fun p => (one ap K.addPred .pred [y, p]).bind fun y => addTrees rows ts y

/-- `SecureBoost.predict` (sgb.py:1813-1838) with `predict_ensemble` (:1529-1566) -/
def pred (m : Model Nat) (rows : List (Nat × Nat × Nat)) : Chor V Kind Nat :=
  (one ap K.spreadNew .pred [m.base]).bind fun y => (addTrees K ap rows m.trees y).bind fun y => one ap K.sigmoid .prob [y]

/-- `SecureBoost.evaluate` (sgb.py:1844-1866) -/
def eval (m : Model Nat) (rows : List (Nat × Nat × Nat)) (label : Nat) : Chor V Kind Nat :=
  (pred K ap m rows).bind fun y => one ap K.score .score [y, label]

end protocol
end Verif.Sgb.Protocol
