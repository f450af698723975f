import Verif.Serde.Binary
/-! Helper lemmas for the binary container. -/
namespace Verif.Serde

theorem packU32_spec {n : Nat} {h : List Nat} (hp : packU32 n = some h) :
    h.length = 4 ∧ ∀ r, unpackU32 (h ++ r) = some (n, r) := by
  simp only [packU32] at hp
  split at hp
  · simp only [Option.some.injEq] at hp; subst hp
    refine ⟨rfl, fun r => ?_⟩
    simp only [List.cons_append, List.nil_append, unpackU32, Option.some.injEq, Prod.mk.injEq, and_true]
    omega
  · cases hp

theorem unpackU32_short {d : List Nat} (h : d.length < 4) : unpackU32 d = none := by
  match d with
  | [] => rfl
  | [_] => rfl
  | [_, _] => rfl
  | [_, _, _] => rfl
  | _ :: _ :: _ :: _ :: _ => simp at h; omega

theorem unpackU32_take {d r : List Nat} {n : Nat} (h : unpackU32 d = some (n, r)) (k : Nat) (hk : 4 ≤ k) :
    unpackU32 (d.take k) = some (n, r.take (k - 4)) := by
  match d with
  | a :: b :: c :: e :: s =>
    simp only [unpackU32, Option.some.injEq, Prod.mk.injEq] at h
    obtain ⟨k', rfl⟩ : ∃ k', k = k' + 4 := ⟨k - 4, by omega⟩
    simp [List.take, unpackU32, h]

theorem packSegs_length_pos {s : List Nat} {r : List (List Nat)} {d : List Nat} (h : packSegs (s :: r) = some d) :
    4 ≤ d.length := by
  simp only [packSegs] at h
  split at h
  · rename_i hh t h1 h2
    simp only [Option.some.injEq] at h; subst h
    have := (packU32_spec h1).1
    simp; omega
  · cases h

theorem unpackSegsF_ne (n : Nat) (d : List Nat) (h : d ≠ []) :
    unpackSegsF (n + 1) d = match unpackU32 d with
      | none => none
      | some (len, r) =>
        if r.length < len then none
        else match unpackSegsF n (r.drop len) with
          | none => none
          | some ss => some (r.take len :: ss) := by
  cases d with
  | nil => exact absurd rfl h
  | cons a t => rfl

theorem unpackSegsF_pack (segs : List (List Nat)) (d : List Nat) (h : packSegs segs = some d) (n : Nat)
    (hn : d.length ≤ n) : unpackSegsF n d = some segs := by
  induction segs generalizing d n with
  | nil => simp only [packSegs, Option.some.injEq] at h; subst h; cases n <;> rfl
  | cons s r ih =>
    have hpos := packSegs_length_pos h
    simp only [packSegs] at h
    split at h
    · rename_i hh t h1 h2
      simp only [Option.some.injEq] at h; subst h
      obtain ⟨hl, hu⟩ := packU32_spec h1
      obtain ⟨m, rfl⟩ : ∃ m, n = m + 1 := ⟨n - 1, by omega⟩
      have hne : hh ++ s ++ t ≠ [] := by
        intro hc; simp only [hc, List.length_nil] at hpos; omega
      rw [unpackSegsF_ne _ _ hne, List.append_assoc, hu]
      have : ¬ (s ++ t).length < s.length := by simp
      simp only [this, if_false, List.take_left, List.drop_left]
      rw [ih t h2 m (by simp at hn; omega)]
    · cases h

/-- Truncated segment area: error, or a strict prefix of the segments. -/
theorem unpackSegsF_trunc (segs : List (List Nat)) (d : List Nat) (h : packSegs segs = some d) (k : Nat)
    (hk : k < d.length) (n : Nat) (hn : k ≤ n) :
    unpackSegsF n (d.take k) = none ∨
      ∃ s1 s2, segs = s1 ++ s2 ∧ s2 ≠ [] ∧ unpackSegsF n (d.take k) = some s1 := by
  induction segs generalizing d n k with
  | nil => simp only [packSegs, Option.some.injEq] at h; subst h; simp at hk
  | cons s r ih =>
    by_cases hk0 : k = 0
    · subst hk0
      right
      refine ⟨[], s :: r, rfl, by simp, ?_⟩
      cases n <;> rfl
    have hpos := packSegs_length_pos h
    obtain ⟨m, rfl⟩ : ∃ m, n = m + 1 := ⟨n - 1, by omega⟩
    have hne : d.take k ≠ [] := by
      intro hc
      rw [List.take_eq_nil_iff] at hc
      rcases hc with hc | hc
      · exact hk0 hc
      · simp [hc] at hpos
    rw [unpackSegsF_ne _ _ hne]
    by_cases hk4 : k < 4
    · left
      rw [unpackU32_short (by simp; omega)]
    simp only [packSegs] at h
    split at h
    · rename_i hh t h1 h2
      simp only [Option.some.injEq] at h; subst h
      obtain ⟨hl, hu⟩ := packU32_spec h1
      have hu' : unpackU32 ((hh ++ s ++ t).take k) = some (s.length, (s ++ t).take (k - 4)) := by
        apply unpackU32_take _ k (by omega)
        rw [List.append_assoc, hu]
      rw [hu']
      simp only [List.length_append] at hk hpos
      by_cases hs : ((s ++ t).take (k - 4)).length < s.length
      · left; simp only [hs, if_true]
      · simp only [hs, if_false]
        simp only [List.length_take, List.length_append] at hs
        have hdrop : ((s ++ t).take (k - 4)).drop s.length = t.take (k - 4 - s.length) := by
          rw [List.drop_take, List.drop_left]
        have htake : ((s ++ t).take (k - 4)).take s.length = s := by
          rw [List.take_take, Nat.min_eq_left (by omega), List.take_left]
        rw [hdrop, htake]
        rcases ih t h2 (k - 4 - s.length) (by omega) m (by omega) with h | ⟨s1, s2, h3, h4, h5⟩
        · left; rw [h]
        · right
          exact ⟨s :: s1, s2, by simp [h3], h4, by rw [h5]⟩
    · cases h

theorem mapOpt_none_of_head {α β : Type} (f : α → Option β) (x : α) (xs : List α) (h : f x = none) :
    mapOpt f (x :: xs) = none := by simp [mapOpt, h]

theorem mapOpt_none_of_tail {α β : Type} (f : α → Option β) (x : α) (xs : List α) (h : mapOpt f xs = none) :
    mapOpt f (x :: xs) = none := by
  simp only [mapOpt]; split
  · rfl
  · rw [h]

/-- no class kind is a builtin kind of the binary format -/
theorem tyToJson_kind2 (t : Ty) (j : Json) (h : tyToJson t = some j) :
    ∃ fs kind, j = .obj fs ∧ lookup "_kind" fs = some (.str kind) ∧
      kind ∉ ["_null", "_bool", "_int", "_float", "_str", "_list", "_tuple", "_dict", "_dict_pairs", "_bytes",
        "_ndarray", "_ndarray_object", "_pa_table", "tensor_impl.TensorValue", "table_impl.TableValue",
        "_bytes_bref", "_ndarray_bref", "_pa_table_bref"] ∧ kind ∉ leafKinds := by
  cases t <;> simp only [tyToJson] at h
  case named k s =>
    simp only [Option.some.injEq] at h; subst h
    refine ⟨_, k.kind, rfl, ?_, ?_, ?_⟩ <;> cases k <;>
      simp [setKey, lookup, NamedKind.kind, NamedKind.field, leafKinds]
  case table sch n =>
    split at h; · cases h
    simp only [Option.some.injEq] at h; subst h
    refine ⟨_, "mplang.TableType", rfl, ?_, by decide⟩
    by_cases hn : n = -1 <;> simp [setKey, lookup, hn]
  all_goals (try (split at h; · cases h))
  all_goals (try cases h)
  all_goals exact ⟨_, _, rfl, by simp [setKey, lookup]; rfl, by decide⟩

mutual
/-- serialisation only appends segments -/
theorem toBin_mono (v : PyVal) (s0 : List (List Nat)) (j : Json) (s1 : List (List Nat))
    (h : toBin v s0 = some (j, s1)) : s0 <+: s1 := by
  cases v with
  | ty t =>
    simp only [toBin, Option.map_eq_some_iff, Prod.mk.injEq] at h
    obtain ⟨_, _, _, rfl⟩ := h; exact List.prefix_refl _
  | bytes bs => simp [toBin, addSegment] at h; simp [← h.2]
  | ndarray d sh bs => simp [toBin, addSegment] at h; simp [← h.2]
  | paTable bs => simp [toBin, addSegment] at h; simp [← h.2]
  | tensor d sh bs => simp [toBin, addSegment] at h; simp [← h.2]
  | table bs => simp [toBin, addSegment] at h; simp [← h.2]
  | tensorObj sh xs =>
    simp only [toBin] at h; split at h; · cases h
    rename_i js s' hl; cases h; exact toBinList_mono xs s0 js _ hl
  | list xs =>
    simp only [toBin] at h; split at h; · cases h
    rename_i js s' hl; cases h; exact toBinList_mono xs s0 js _ hl
  | tuple xs =>
    simp only [toBin] at h; split at h; · cases h
    rename_i js s' hl; cases h; exact toBinList_mono xs s0 js _ hl
  | objarray sh xs =>
    simp only [toBin] at h; split at h; · cases h
    rename_i js s' hl; cases h; exact toBinList_mono xs s0 js _ hl
  | dict items =>
    simp only [toBin] at h; split at h
    · split at h; · cases h
      rename_i js s' hl; cases h; exact toBinPairs_mono items s0 js _ hl
    · split at h; · cases h
      rename_i js s' hl; cases h; exact toBinVals_mono items s0 js _ hl
  | _ => simp [toBin] at h; simp [← h.2]
theorem toBinList_mono (xs : List PyVal) (s0 : List (List Nat)) (js : List Json) (s1 : List (List Nat))
    (h : toBinList xs s0 = some (js, s1)) : s0 <+: s1 := by
  match xs with
  | [] => simp [toBinList] at h; simp [← h.2]
  | x :: r =>
    simp only [toBinList] at h; split at h; · cases h
    rename_i j s' hx; split at h; · cases h
    rename_i js' s'' hr; cases h
    exact (toBin_mono x s0 j s' hx).trans (toBinList_mono r s' js' _ hr)
theorem toBinPairs_mono (xs : List (PyVal × PyVal)) (s0 : List (List Nat)) (js : List (Json × Json))
    (s1 : List (List Nat)) (h : toBinPairs xs s0 = some (js, s1)) : s0 <+: s1 := by
  match xs with
  | [] => simp [toBinPairs] at h; simp [← h.2]
  | (k, v) :: r =>
    simp only [toBinPairs] at h; split at h; · cases h
    rename_i j s' hx; split at h; · cases h
    rename_i jv s'' hv; split at h; · cases h
    rename_i js' s3 hr; cases h
    exact (toBin_mono k s0 j s' hx).trans ((toBin_mono v s' jv s'' hv).trans (toBinPairs_mono r s'' js' _ hr))
theorem toBinVals_mono (xs : List (PyVal × PyVal)) (s0 : List (List Nat)) (js : List Json)
    (s1 : List (List Nat)) (h : toBinVals xs s0 = some (js, s1)) : s0 <+: s1 := by
  match xs with
  | [] => simp [toBinVals] at h; simp [← h.2]
  | (k, v) :: r =>
    simp only [toBinVals] at h; split at h; · cases h
    rename_i j s' hx; split at h; · cases h
    rename_i js' s'' hr; cases h
    exact (toBin_mono v s0 j s' hx).trans (toBinVals_mono r s' js' _ hr)
end

theorem getElem?_prefix {α : Type} {l l' : List α} (h : l <+: l') (i : Nat) (x : α) (hx : l[i]? = some x) :
    l'[i]? = some x := by
  obtain ⟨t, rfl⟩ := h
  rw [List.getElem?_append_left]
  · exact hx
  · exact (List.getElem?_eq_some_iff.mp hx).1

mutual
theorem fromBinF_toBin (eq : PyVal → PyVal → Bool) (v : PyVal) (hv : v.WF eq) (s0 s1 segs : List (List Nat)) (j : Json)
    (h : toBin v s0 = some (j, s1)) (hs : s1 <+: segs) (n : Nat) (hn : j.depth ≤ n) :
    fromBinF eq segs n j = some v := by
  obtain ⟨m, rfl⟩ := ne_zero_of_depth hn
  cases v with
  | none => simp [toBin] at h; obtain ⟨rfl, _⟩ := h; simp [fromBinF, fromJsonF, lookup]
  | bool b => simp [toBin] at h; obtain ⟨rfl, _⟩ := h; simp [fromBinF, fromJsonF, lookup]
  | int b => simp [toBin] at h; obtain ⟨rfl, _⟩ := h; simp [fromBinF, fromJsonF, lookup]
  | float b => simp [toBin] at h; obtain ⟨rfl, _⟩ := h; simp [fromBinF, fromJsonF, lookup]
  | str b => simp [toBin] at h; obtain ⟨rfl, _⟩ := h; simp [fromBinF, fromJsonF, lookup]
  | bytes bs =>
    simp [toBin, addSegment] at h
    obtain ⟨rfl, rfl⟩ := h
    have : segs[s0.length]? = some bs := getElem?_prefix hs _ _ (by simp)
    simp [fromBinF, lookup, getSeg, segAt, this]
  | ndarray d sh bs =>
    simp [toBin, addSegment] at h
    obtain ⟨rfl, rfl⟩ := h
    have : segs[s0.length]? = some bs := getElem?_prefix hs _ _ (by simp)
    simp [fromBinF, lookup, getSeg, segAt, this, natsOf_shape]
  | paTable bs =>
    simp [toBin, addSegment] at h
    obtain ⟨rfl, rfl⟩ := h
    have : segs[s0.length]? = some bs := getElem?_prefix hs _ _ (by simp)
    simp [fromBinF, lookup, getSeg, segAt, this]
  | table bs =>
    simp [toBin, addSegment, withKind, setKey] at h
    obtain ⟨rfl, rfl⟩ := h
    have : segs[s0.length]? = some bs := getElem?_prefix hs _ _ (by simp)
    simp [fromBinF, lookup, tableFromBin, segAt, this]
  | tensor d sh bs =>
    simp [toBin, addSegment, withKind, setKey] at h
    obtain ⟨rfl, rfl⟩ := h
    have : segs[s0.length]? = some bs := getElem?_prefix hs _ _ (by simp)
    simp [fromBinF, lookup, tensorFromBin, getSeg, segAt, getStr, getShape, jshape, natsOf_shape, this]
  | leaf r =>
    simp [toBin] at h
    obtain ⟨rfl, rfl⟩ := h
    obtain ⟨fs, h1, h2, h3⟩ := leaf_roundtrip r hv
    obtain ⟨h4, h5⟩ := leaf_kind_mem r
    simp only [List.mem_cons, List.not_mem_nil, or_false, not_or] at h5
    rw [h1]
    simp [fromBinF, h2, h3, h4, h5]
  | tensorObj sh xs =>
    simp only [toBin] at h; split at h; · cases h
    rename_i js s' hl; cases h
    simp only [PyVal.WF] at hv
    simp [withKind, setKey, Json.depth, depthFields] at hn
    have ih := fromBinF_toBinList eq xs hv s0 _ segs js hl hs m (by omega)
    simp [withKind, setKey, fromBinF, lookup, tensorFromBin, tensorFromJson, getStr, jsonArr, getShape, jshape,
      natsOf_shape, ih]
  | list xs =>
    simp only [toBin] at h; split at h; · cases h
    rename_i js s' hl; cases h
    simp only [PyVal.WF] at hv
    simp [Json.depth, depthFields] at hn
    have ih := fromBinF_toBinList eq xs hv s0 _ segs js hl hs m (by omega)
    simp [fromBinF, lookup, ih]
  | tuple xs =>
    simp only [toBin] at h; split at h; · cases h
    rename_i js s' hl; cases h
    simp only [PyVal.WF] at hv
    simp [Json.depth, depthFields] at hn
    have ih := fromBinF_toBinList eq xs hv s0 _ segs js hl hs m (by omega)
    simp [fromBinF, lookup, ih]
  | objarray sh xs =>
    simp only [toBin] at h; split at h; · cases h
    rename_i js s' hl; cases h
    simp only [PyVal.WF] at hv
    simp [Json.depth, depthFields] at hn
    have ih := fromBinF_toBinList eq xs hv s0 _ segs js hl hs m (by omega)
    simp [fromBinF, lookup, ih, natsOf_shape]
  | dict items =>
    simp only [PyVal.WF] at hv
    simp only [toBin] at h; split at h
    · split at h; · cases h
      rename_i ps s' hl; cases h
      simp [Json.depth, depthFields] at hn
      have ih := fromBinF_toBinPairs eq items hv.1 s0 _ segs ps hl hs m (by omega)
      simp [fromBinF, lookup, ih, dictBuild_id eq items hv.2]
    · rename_i ks hks
      split at h; · cases h
      rename_i js s' hl; cases h
      simp [Json.depth, depthFields] at hn
      have ih := fromBinF_toBinVals eq items hv.1 s0 _ segs js hl hs m ks hks (by omega)
      have hk := strKeys_length items ks hks
      have hz : (ks.zip (items.map Prod.snd)).map (fun p => (PyVal.str p.1, p.2)) = items := by
        have h1 : (ks.zip (items.map Prod.snd)).map (fun p => (PyVal.str p.1, p.2))
            = (ks.map PyVal.str).zip (items.map Prod.snd) := by
          rw [List.zip_map_left]; rfl
        rw [h1, ← hk, zip_fst_snd]
      simp only [fromBinF, lookup]
      simp [ih, hz, dictBuild_id eq items hv.2]
  | ty t =>
    simp only [toBin, Option.map_eq_some_iff, Prod.mk.injEq] at h
    obtain ⟨j', h, rfl, rfl⟩ := h
    simp only [PyVal.WF] at hv
    have h1 := tyFromJsonF_toJson t hv j' h (m + 1) hn
    obtain ⟨fs, kind, rfl, hk, hne, hne2⟩ := tyToJson_kind2 t j' h
    simp only [tyFromJsonF, hk] at h1
    simp only [List.mem_cons, List.not_mem_nil, or_false, not_or] at hne
    simp [fromBinF, hk, hne, hne2, h1]
theorem fromBinF_toBinList (eq : PyVal → PyVal → Bool) (xs : List PyVal) (hv : WFList eq xs)
    (s0 s1 segs : List (List Nat)) (js : List Json)
    (h : toBinList xs s0 = some (js, s1)) (hs : s1 <+: segs) (n : Nat) (hn : depthList js ≤ n) :
    mapOpt (fromBinF eq segs n) js = some xs := by
  match xs with
  | [] => simp [toBinList] at h; obtain ⟨rfl, _⟩ := h; rfl
  | x :: r =>
    simp only [toBinList] at h; split at h; · cases h
    rename_i j s' hx; split at h; · cases h
    rename_i js' s'' hr; cases h
    simp only [WFList] at hv
    simp only [depthList] at hn
    have h1 := fromBinF_toBin eq x hv.1 s0 s' segs j hx ((toBinList_mono r _ _ _ hr).trans hs) n (by omega)
    have h2 := fromBinF_toBinList eq r hv.2 s' _ segs js' hr hs n (by omega)
    simp [mapOpt, h1, h2]
theorem fromBinF_toBinPairs (eq : PyVal → PyVal → Bool) (xs : List (PyVal × PyVal)) (hv : WFPairs eq xs)
    (s0 s1 segs : List (List Nat)) (ps : List (Json × Json))
    (h : toBinPairs xs s0 = some (ps, s1)) (hs : s1 <+: segs) (n : Nat)
    (hn : depthList (ps.map fun p => Json.arr [p.1, p.2]) ≤ n + 1) :
    mapOpt (decPair (fromBinF eq segs n)) (ps.map fun p => Json.arr [p.1, p.2]) = some xs := by
  match xs with
  | [] => simp [toBinPairs] at h; obtain ⟨rfl, _⟩ := h; rfl
  | (k, v) :: r =>
    simp only [toBinPairs] at h; split at h; · cases h
    rename_i j s' hx; split at h; · cases h
    rename_i jv s'' hv'; split at h; · cases h
    rename_i js' s3 hr; cases h
    simp only [WFPairs] at hv
    simp [depthList, Json.depth] at hn
    have p2 := (toBinPairs_mono r _ _ _ hr).trans hs
    have h1 := fromBinF_toBin eq k hv.1 s0 s' segs j hx ((toBin_mono v _ _ _ hv').trans p2) n (by omega)
    have h2 := fromBinF_toBin eq v hv.2.1 s' s'' segs jv hv' p2 n (by omega)
    have h3 := fromBinF_toBinPairs eq r hv.2.2 s'' _ segs js' hr hs n (by omega)
    simp [mapOpt, decPair, h1, h2, h3]
theorem fromBinF_toBinVals (eq : PyVal → PyVal → Bool) (xs : List (PyVal × PyVal)) (hv : WFPairs eq xs)
    (s0 s1 segs : List (List Nat)) (js : List Json)
    (h : toBinVals xs s0 = some (js, s1)) (hs : s1 <+: segs) (n : Nat) (ks : List String)
    (hks : strKeys xs = some ks) (hn : depthFields (ks.zip js) ≤ n) :
    mapFields (fromBinF eq segs n) (ks.zip js) = some (ks.zip (xs.map Prod.snd)) := by
  match xs with
  | [] => simp [toBinVals] at h; obtain ⟨rfl, _⟩ := h; simp [mapFields]
  | (k, v) :: r =>
    simp only [toBinVals] at h; split at h; · cases h
    rename_i jv s' hx; split at h; · cases h
    rename_i js' s'' hr; cases h
    simp only [WFPairs] at hv
    simp only [strKeys] at hks
    split at hks; · cases hks
    rename_i s hs'
    split at hks; · cases hks
    rename_i ss hss
    simp only [Option.some.injEq] at hks; subst hks
    simp [depthFields] at hn
    have h1 := fromBinF_toBin eq v hv.2.1 s0 s' segs jv hx ((toBinVals_mono r _ _ _ hr).trans hs) n (by omega)
    have h2 := fromBinF_toBinVals eq r hv.2.2 s' _ segs js' hr hs n ss hss (by omega)
    simp [mapFields, h1, h2]
end

/-! missing segments are detected -/

mutual
theorem fromBinF_missing (eq : PyVal → PyVal → Bool) (v : PyVal) (s0 s1 segs : List (List Nat)) (j : Json)
    (h : toBin v s0 = some (j, s1)) (h0 : s0.length ≤ segs.length) (h1 : segs.length < s1.length) (n : Nat) :
    fromBinF eq segs n j = none := by
  cases n with
  | zero => simp [fromBinF]
  | succ m =>
  cases v with
  | bytes bs =>
    simp [toBin, addSegment] at h
    obtain ⟨rfl, rfl⟩ := h
    simp at h1
    have : segs[s0.length]? = none := by simp; omega
    simp [fromBinF, lookup, getSeg, segAt, this]
  | ndarray d sh bs =>
    simp [toBin, addSegment] at h
    obtain ⟨rfl, rfl⟩ := h
    simp at h1
    have : segs[s0.length]? = none := by simp; omega
    simp [fromBinF, lookup, getSeg, segAt, this]
  | paTable bs =>
    simp [toBin, addSegment] at h
    obtain ⟨rfl, rfl⟩ := h
    simp at h1
    have : segs[s0.length]? = none := by simp; omega
    simp [fromBinF, lookup, getSeg, segAt, this]
  | table bs =>
    simp [toBin, addSegment, withKind, setKey] at h
    obtain ⟨rfl, rfl⟩ := h
    simp at h1
    have : segs[s0.length]? = none := by simp; omega
    simp [fromBinF, lookup, tableFromBin, segAt, this]
  | tensor d sh bs =>
    simp [toBin, addSegment, withKind, setKey] at h
    obtain ⟨rfl, rfl⟩ := h
    simp at h1
    have : segs[s0.length]? = none := by simp; omega
    simp [fromBinF, lookup, tensorFromBin, getSeg, segAt, getStr, getShape, jshape, natsOf_shape, this]
  | tensorObj sh xs =>
    simp only [toBin] at h; split at h; · cases h
    rename_i js s' hl; cases h
    have ih := fromBinF_missingList eq xs s0 _ segs js hl h0 h1 m
    simp [withKind, setKey, fromBinF, lookup, tensorFromBin, tensorFromJson, getStr, jsonArr, getShape, jshape,
      natsOf_shape, ih]
  | list xs =>
    simp only [toBin] at h; split at h; · cases h
    rename_i js s' hl; cases h
    have ih := fromBinF_missingList eq xs s0 _ segs js hl h0 h1 m
    simp [fromBinF, lookup, ih]
  | tuple xs =>
    simp only [toBin] at h; split at h; · cases h
    rename_i js s' hl; cases h
    have ih := fromBinF_missingList eq xs s0 _ segs js hl h0 h1 m
    simp [fromBinF, lookup, ih]
  | objarray sh xs =>
    simp only [toBin] at h; split at h; · cases h
    rename_i js s' hl; cases h
    have ih := fromBinF_missingList eq xs s0 _ segs js hl h0 h1 m
    simp [fromBinF, lookup, ih]
  | dict items =>
    simp only [toBin] at h; split at h
    · split at h; · cases h
      rename_i ps s' hl; cases h
      have ih := fromBinF_missingPairs eq items s0 _ segs ps hl h0 h1 m
      simp [fromBinF, lookup, ih]
    · rename_i ks hks
      split at h; · cases h
      rename_i js s' hl; cases h
      have ih := fromBinF_missingVals eq items s0 _ segs js hl h0 h1 m ks hks
      simp [fromBinF, lookup, ih]
  | ty t =>
    simp only [toBin, Option.map_eq_some_iff, Prod.mk.injEq] at h
    obtain ⟨j', h, rfl, rfl⟩ := h
    omega
  | _ => simp [toBin] at h; obtain ⟨_, rfl⟩ := h; omega
theorem fromBinF_missingList (eq : PyVal → PyVal → Bool) (xs : List PyVal)
    (s0 s1 segs : List (List Nat)) (js : List Json)
    (h : toBinList xs s0 = some (js, s1)) (h0 : s0.length ≤ segs.length) (h1 : segs.length < s1.length) (n : Nat) :
    mapOpt (fromBinF eq segs n) js = none := by
  match xs with
  | [] => simp [toBinList] at h; obtain ⟨_, rfl⟩ := h; omega
  | x :: r =>
    simp only [toBinList] at h; split at h; · cases h
    rename_i j s' hx; split at h; · cases h
    rename_i js' s'' hr; cases h
    by_cases hm : segs.length < s'.length
    · exact mapOpt_none_of_head _ _ _ (fromBinF_missing eq x s0 s' segs j hx h0 hm n)
    · exact mapOpt_none_of_tail _ _ _ (fromBinF_missingList eq r s' _ segs js' hr (by omega) h1 n)
theorem fromBinF_missingPairs (eq : PyVal → PyVal → Bool) (xs : List (PyVal × PyVal))
    (s0 s1 segs : List (List Nat)) (ps : List (Json × Json))
    (h : toBinPairs xs s0 = some (ps, s1)) (h0 : s0.length ≤ segs.length) (h1 : segs.length < s1.length) (n : Nat) :
    mapOpt (decPair (fromBinF eq segs n)) (ps.map fun p => Json.arr [p.1, p.2]) = none := by
  match xs with
  | [] => simp [toBinPairs] at h; obtain ⟨_, rfl⟩ := h; omega
  | (k, v) :: r =>
    simp only [toBinPairs] at h; split at h; · cases h
    rename_i j s' hx; split at h; · cases h
    rename_i jv s'' hv'; split at h; · cases h
    rename_i js' s3 hr; cases h
    by_cases hm : segs.length < s'.length
    · exact mapOpt_none_of_head _ _ _ (by simp [decPair, fromBinF_missing eq k s0 s' segs j hx h0 hm n])
    · by_cases hm2 : segs.length < s''.length
      · refine mapOpt_none_of_head _ _ _ ?_
        simp only [decPair, fromBinF_missing eq v s' s'' segs jv hv' (by omega) hm2 n]
        split <;> rfl
      · exact mapOpt_none_of_tail _ _ _ (fromBinF_missingPairs eq r s'' _ segs js' hr (by omega) h1 n)
theorem fromBinF_missingVals (eq : PyVal → PyVal → Bool) (xs : List (PyVal × PyVal))
    (s0 s1 segs : List (List Nat)) (js : List Json)
    (h : toBinVals xs s0 = some (js, s1)) (h0 : s0.length ≤ segs.length) (h1 : segs.length < s1.length) (n : Nat)
    (ks : List String) (hks : strKeys xs = some ks) :
    mapFields (fromBinF eq segs n) (ks.zip js) = none := by
  match xs with
  | [] => simp [toBinVals] at h; obtain ⟨_, rfl⟩ := h; omega
  | (k, v) :: r =>
    simp only [toBinVals] at h; split at h; · cases h
    rename_i jv s' hx; split at h; · cases h
    rename_i js' s'' hr; cases h
    simp only [strKeys] at hks
    split at hks; · cases hks
    rename_i s hs'
    split at hks; · cases hks
    rename_i ss hss
    simp only [Option.some.injEq] at hks; subst hks
    by_cases hm : segs.length < s'.length
    · simp [mapFields, fromBinF_missing eq v s0 s' segs jv hx h0 hm n]
    · have := fromBinF_missingVals eq r s' _ segs js' hr (by omega) h1 n ss hss
      simp only [List.zip_cons_cons, mapFields, this]
      split <;> rfl
end

end Verif.Serde
