import Verif.Simp.ChorArgs
import Verif.Sgb.ProtocolProps
/-!
# SecureBoost among parties: the properties (C112)
-/
namespace Verif.Sgb.Protocol
open Verif.Simp Verif.Comm

section
variable {V : Type} (K : Ker V) {N ap : Nat} {pps : List Nat}

/-! ## Specification -/

/-- the columns of the parties `ap, pps…`, in this order, each held by its party only -/
def columns (ap : Nat) (pps : List Nat) (X : List V) : List (Loc V Kind) := ((ap :: pps).zipIdx.zip X).map fun e => ⟨.data e.1.2, [e.1.1], e.2⟩
/-- the `all_datas` argument of the plain algorithm: position, rank, columns -/
def plainRows (ap : Nat) (pps : List Nat) (X : List V) : List (Nat × Nat × V) := ((ap :: pps).zipIdx.zip X).map fun e => (e.1.2, e.1.1, e.2)
/-- the `all_datas` argument of the program: objects `first, first + 1, …` -/
def rowArgs (ap : Nat) (pps : List Nat) (first : Nat) : List (Nat × Nat × Nat) := (ap :: pps).zipIdx.map fun e => (e.2, e.1, first + e.2)

/-- the inputs: training labels (at the active party) and columns, test labels and columns -/
def inputs (ap : Nat) (pps : List Nat) (y : V) (X : List V) (y' : V) (X' : List V) : List (Loc V Kind) :=
  [⟨.label, [ap], y⟩] ++ columns ap pps X ++ [⟨.label, [ap], y'⟩] ++ columns ap pps X'

/-- every message is allowed -/
def OnlyAllowed (ap : Nat) (pps : List Nat) (S : Plain V Kind) : Prop :=
  ∀ e ∈ S.sent, ∃ l, S.vals[e.2.2]? = some l ∧ Allowed ap pps l.ty e.1 e.2.1

/-- Where the parts of a model are: features and thresholds of the splits with the party whose columns they are about, leaf flags and
owners with everyone, leaf values and the base score with the active party only. -/
structure Holds (ap : Nat) (pps : List Nat) (S : Plain V Kind) (m : Model Nat) (M : Model V) : Prop where
  base : S.vals[m.base]? = some ⟨.base, [ap], M.base⟩
  count : m.trees.length = M.trees.length
  tree : ∀ (j : Nat) t T, m.trees[j]? = some t → M.trees[j]? = some T →
    S.vals[t.value]? = some ⟨.leafVal, [ap], T.value⟩ ∧ S.vals[t.leaf]? = some ⟨.leaf, sortedSet (ap :: pps), T.leaf⟩ ∧
    S.vals[t.own]? = some ⟨.own, sortedSet (ap :: pps), T.own⟩ ∧ t.splits.length = (ap :: pps).length ∧ T.splits.length = (ap :: pps).length ∧
    ∀ (i : Nat) s s' r, t.splits[i]? = some s → T.splits[i]? = some s' → (ap :: pps)[i]? = some r →
      S.vals[s.1]? = some ⟨.feat i, [r], s'.1⟩ ∧ S.vals[s.2]? = some ⟨.thr i, [r], s'.2⟩

/-! ## Theorems -/

theorem spec_runs {α : Type} (tr : V → Bool) {c : Chor V Kind α} {ls : List (Loc V Kind)} {P : α → Plain V Kind → Prop}
    (h : Spec N (ok V ap pps) c ⟨ls, []⟩ P) : ∃ a S', RunsTo tr N c ls a S' ∧ OnlyAllowed ap pps S' ∧ P a S' := by
  obtain ⟨a, S', h1, ⟨m, h2, h3⟩, h4⟩ := h
  refine ⟨a, S', ?_, fun e he => ?_, h4⟩
  · exact h1.runsTo tr
  · rw [h2] at he
    exact h3 e (by simpa using he)

theorem columns_length {X : List V} (h : X.length = (ap :: pps).length) : (columns ap pps X).length = (ap :: pps).length := by
  simp [columns, h]

theorem rows_rel {S : Plain V Kind} {X : List V} {pre post : List (Loc V Kind)} (hS : S.vals = pre ++ columns ap pps X ++ post)
    (h : X.length = (ap :: pps).length) : List.Forall₂ (RowRel S) (rowArgs ap pps pre.length) (plainRows ap pps X) := by
  rw [List.forall₂_iff_get]
  refine ⟨by simp [rowArgs, plainRows, h], fun i h1 h2 => ?_⟩
  have hi : i < (ap :: pps).length := by simpa [rowArgs] using h1
  have hiX : i < X.length := by omega
  simp only [List.get_eq_getElem, rowArgs, plainRows, List.getElem_map, List.getElem_zip, List.getElem_zipIdx, Nat.zero_add]
  refine ⟨rfl, rfl, ?_⟩
  show S.vals[pre.length + i]? = _
  rw [hS, List.append_assoc, List.getElem?_append_right (by omega), List.getElem?_append_left (by rw [columns_length h]; omega)]
  simp only [columns, List.getElem?_map, Nat.add_sub_cancel_left]
  rw [List.getElem?_eq_getElem (by simp only [List.length_zip, List.length_zipIdx]; omega)]
  simp only [Option.map_some, List.getElem_zip, List.getElem_zipIdx, Nat.zero_add]

theorem rows_order {X : List V} (h : X.length = (ap :: pps).length) : (plainRows ap pps X).map (fun Q => (Q.2.1, Q.1)) = (ap :: pps).zipIdx := by
  apply List.ext_getElem
  · simp [plainRows, h]
  · intro i h1 h2
    simp [plainRows]

theorem holds_of {depth : Nat} (hd : 0 < depth ∨ pps = []) {S : Plain V Kind} {m : Model Nat} {M : Model V}
    (h : ModelRel ap pps (ownAt ap pps depth) S m M) : Holds ap pps S m M := by
  refine ⟨h.base, h.trees.length_eq, fun j t T ht hT => ?_⟩
  obtain ⟨T', e1, e2⟩ := forall₂_get h.trees ht
  rw [hT] at e1
  cases e1
  have hl : t.splits.length = (ap :: pps).length := by rw [e2.splits.length_eq]; simp [e2.len]
  have ho : ownAt ap pps depth = sortedSet (ap :: pps) := by
    unfold ownAt
    by_cases hn : depth = 0
    · rw [if_pos hn]
      rcases hd with hd | rfl
      · omega
      · rfl
    · rw [if_neg hn]
  refine ⟨e2.value, e2.leaf, ho ▸ e2.own, hl, e2.len, fun i s s' r hs hs' hr => ?_⟩
  obtain ⟨e, g1, g2⟩ := forall₂_get e2.splits hs
  rw [List.getElem?_zip_eq_some] at g1
  obtain ⟨g1, g3⟩ := g1
  rw [hs'] at g3
  rw [List.getElem?_zipIdx, hr] at g1
  simp only [Option.map_some, Option.some.injEq, Nat.zero_add] at g1
  cases g3
  rw [← g1] at g2
  exact g2

/-- **C112, training.**  Let `ap, pps…` be distinct ranks of the `N` parties, `y` the labels and `X` the parties' columns, and let the
maximal depth be positive (or there be no passive parties).  If the algorithm run in one place on these data (`fitC`) gives model `M`,
then `SecureBoost.fit` run by the parties ends under every schedule; the model's parts are then held as `Holds` says, with the values
of `M`; and every message is `Allowed`. -/
theorem fit_correct_partial (tr : V → Bool) (hR : Ranks N ap pps) {y y' : V} {X X' : List V} (hX : X.length = (ap :: pps).length)
    {depth n : Nat} (hd : 0 < depth ∨ pps = []) {M : Model V} (hc : fitC K y (plainRows ap pps X) depth n = some M) :
    ∃ m S', RunsTo tr N (fit K ap pps 0 (rowArgs ap pps 1) depth n) (inputs ap pps y X y' X') m S' ∧ OnlyAllowed ap pps S' ∧
      Holds ap pps S' m M := by
  refine spec_runs tr (Spec.weaken (spec_fit K hR (S := ⟨inputs ap pps y X y' X', []⟩) (vlab := y) (by simp [Is, inputs])
    (rows_rel (pre := [⟨.label, [ap], y⟩]) (post := [⟨.label, [ap], y'⟩] ++ columns ap pps X') (by simp [inputs]) hX) (rows_order hX) hd hc)
    fun m S' _ hm => holds_of hd hm)

/-- **C112, training and evaluation.**  The same for `fit`, then `predict` and `evaluate` on other data: the active party gets the
probabilities and the accuracy of the algorithm run in one place, no other party gets them. -/
theorem session_correct_partial (tr : V → Bool) (hR : Ranks N ap pps) {y y' : V} {X X' : List V} (hX : X.length = (ap :: pps).length)
    (hX' : X'.length = (ap :: pps).length) {depth n : Nat} (hd : 0 < depth ∨ pps = []) {M : Model V} {v w : V}
    (hc : fitC K y (plainRows ap pps X) depth n = some M) (hv : predC K M (plainRows ap pps X') = some v)
    (hw : evalC K M (plainRows ap pps X') y' = some w) :
    ∃ r S', RunsTo tr N ((fit K ap pps 0 (rowArgs ap pps 1) depth n).bind fun m =>
        (pred K ap m (rowArgs ap pps ((ap :: pps).length + 2))).bind fun p =>
        (eval K ap m (rowArgs ap pps ((ap :: pps).length + 2)) ((ap :: pps).length + 1)).bind fun s => .ret (m, p, s))
      (inputs ap pps y X y' X') r S' ∧ OnlyAllowed ap pps S' ∧ Holds ap pps S' r.1 M ∧
      S'.vals[r.2.1]? = some ⟨.prob, [ap], v⟩ ∧ S'.vals[r.2.2]? = some ⟨.score, [ap], w⟩ := by
  refine spec_runs tr ?_
  refine Spec.bind (spec_fit K hR (S := ⟨inputs ap pps y X y' X', []⟩) (vlab := y) (by simp [Is, inputs])
    (rows_rel (pre := [⟨.label, [ap], y⟩]) (post := [⟨.label, [ap], y'⟩] ++ columns ap pps X') (by simp [inputs]) hX) (rows_order hX) hd hc)
    fun m S1 l1 hm => ?_
  have hpre : ([⟨.label, [ap], y⟩] ++ columns ap pps X ++ [⟨.label, [ap], y'⟩] : List (Loc V Kind)).length = (ap :: pps).length + 2 := by
    simp only [List.length_append, columns_length hX, List.length_singleton]; omega
  have hrows := rows_rel (S := ⟨inputs ap pps y X y' X', []⟩) (X := X') (pre := [⟨.label, [ap], y⟩] ++ columns ap pps X ++ [⟨.label, [ap], y'⟩]) (post := [])
    (by simp [inputs]) hX'
  rw [hpre] at hrows
  have hlab : Is (⟨inputs ap pps y X y' X', []⟩ : Plain V Kind) ((ap :: pps).length + 1) (at1 .label ap y') := by
    unfold Is inputs
    have : ([⟨.label, [ap], y⟩] ++ columns ap pps X : List (Loc V Kind)).length = (ap :: pps).length + 1 := by
      simp only [List.length_append, columns_length hX, List.length_singleton]; omega
    simp only
    rw [List.append_assoc, List.getElem?_append_right (by omega), this]
    simp
  refine Spec.bind (spec_pred K hR (ownAt_all hd) (rows_order hX') (up hm) (hrows.imp fun _ _ h => up h) hv) fun p S2 l2 hp => ?_
  refine Spec.bind (spec_eval K hR (ownAt_all hd) (rows_order hX') (up hm) (hrows.imp fun _ _ h => up h) (up hlab) hw) fun s S3 l3 hs => ?_
  exact .ret ⟨holds_of hd (up hm), up hp, hs⟩

end

/-! ## Examples and the case that fails -/

/-- kernels of an example: every result is a number computed from the arguments -/
def toyKer : Ker Nat where
  featInit := 1; thrInit := 2; valInit := 3; leafInit := 4; ownInit := 5; btInit := 6
  level := fun L => L
  last := 7
  btLevel := fun L l => some (l.sum + L)
  apHist := fun L l => some (2 * l.sum + L)
  apSplit := fun l => some [l.sum, 1, 2]
  nodeMap := fun L l => some (l.sum + L)
  left := fun l => some l.sum
  fhe := fun _ _ l => some [l.sum, l.length]
  fheOuts := fun _ _ => 2
  decrypt := fun _ _ l => some l.sum
  combine := fun l => some l.sum
  split := fun l => some [l.sum, 3, 4]
  best := fun l => some [l.sum, l.length]
  updLeaf := fun l => some l.sum
  updOwn := fun l => some l.sum
  updFeat := fun i l => some (l.sum + i)
  updThr := fun i l => some (l.sum + i)
  updBt := fun l => some l.sum
  merge := fun l => some l.sum
  setLast := fun l => some l.sum
  leafVals := fun l => some l.sum
  traverse := fun i l => some (l.sum + i)
  aggregate := fun l => some l.sum
  bins := fun l => some l.sum
  binIdx := fun l => some l.sum
  base := fun l => some l.sum
  spread := fun l => some l.sum
  keygen := fun _ => some [1, 2, 3, 4, 5]
  gh := fun l => some [l.sum, 8, 9]
  encrypt := fun _ _ l => some [l.sum, l.sum]
  nChunks := 2
  addPred := fun l => some l.sum
  spreadNew := fun l => some l.sum
  sigmoid := fun l => some l.sum
  score := fun l => some l.sum

/-- the hypotheses of `fit_correct_partial` and `session_correct_partial` hold for three parties, two trees of depth two -/
example : Ranks 4 2 [0, 3] ∧ (fitC toyKer 1 (plainRows 2 [0, 3] [10, 20, 30]) 2 2).isSome = true ∧
    ((fitC toyKer 1 (plainRows 2 [0, 3] [10, 20, 30]) 2 2).bind fun m => evalC toyKer m (plainRows 2 [0, 3] [11, 21, 31]) 1).isSome = true := by
  refine ⟨⟨by decide, by decide⟩, by decide +kernel, by decide +kernel⟩

/-- **C112 fails with `max_depth = 0` and a passive party**: the algorithm makes sense (every tree is a single leaf) and
`SecureBoost(max_depth=0)` is accepted, but `fit` raises an exception: the owners array, made at the active party only
(sgb.py:1246-1251), is used at the passive party by `predict_tree` (:1490-1497); only the level loop shares it. -/
theorem fit_depth_zero_violated :
    (fitC toyKer 1 (plainRows 0 [1] [10, 20]) 0 1).isSome = true ∧
    ((fit toyKer 0 [1] 0 (rowArgs 0 [1] 1) 0 1).trace (start (inputs 0 [1] 1 [10, 20] 1 [11, 21]))).isNone = true ∧
    ((fit toyKer 0 [1] 0 (rowArgs 0 [1] 1) 1 1).trace (start (inputs 0 [1] 1 [10, 20] 1 [11, 21]))).isSome = true := by
  refine ⟨by decide +kernel, by decide +kernel, by decide +kernel⟩

end Verif.Sgb.Protocol
