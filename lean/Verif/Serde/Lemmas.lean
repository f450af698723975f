import Verif.Serde.Model
/-! Helper lemmas for the JSON round trips. -/
namespace Verif.Serde

theorem mapOpt_map {α β : Type} (f : β → Option α) (g : α → β) (xs : List α)
    (h : ∀ x ∈ xs, f (g x) = some x) : mapOpt f (xs.map g) = some xs := by
  induction xs with
  | nil => rfl
  | cons x xs ih =>
    simp only [List.map_cons, mapOpt]
    rw [h x (by simp), ih (fun y hy => h y (by simp [hy]))]

theorem mapOpt_nums (xs : List Int) :
    mapOpt Json.asNum (xs.map Json.num) = some xs :=
  mapOpt_map _ _ _ (fun _ _ => rfl)

theorem natsOf_shape (sh : List Nat) : natsOf (.arr (sh.map fun n : Nat => Json.num n)) = some sh := by
  simp only [natsOf]
  exact mapOpt_map _ _ _ (fun x _ => by simp)

theorem mk_some {t : Ty} (h : t.localOk = true) : mk t = some t := by simp [mk, h]

theorem depth_pos (j : Json) : 0 < j.depth := by
  cases j <;> simp [Json.depth]

theorem ne_zero_of_depth {j : Json} {n : Nat} (h : j.depth ≤ n) : ∃ m, n = m + 1 :=
  ⟨n - 1, by have := depth_pos j; omega⟩

mutual
theorem tyFromJsonF_toJson (t : Ty) (hv : t.valid = true) (j : Json) (h : tyToJson t = some j) (n : Nat)
    (hn : j.depth ≤ n) : tyFromJsonF n j = some t := by
  obtain ⟨m, rfl⟩ := ne_zero_of_depth hn
  cases t with
  | int b s =>
    simp only [tyToJson, Option.some.injEq] at h; subst h
    simp only [Ty.valid] at hv
    simp [withKind, setKey, tyFromJsonF, lookup, tyClassFromJson, getNum, getBool, mk, hv]
  | float b =>
    simp only [tyToJson, Option.some.injEq] at h; subst h
    simp only [Ty.valid] at hv
    simp [withKind, setKey, tyFromJsonF, lookup, tyClassFromJson, getNum, mk, hv]
  | complex b =>
    simp only [tyToJson, Option.some.injEq] at h; subst h
    simp only [Ty.valid, Ty.localOk] at hv
    simp [withKind, setKey, Json.depth, depthFields] at hn
    obtain ⟨k, rfl⟩ : ∃ k, m = k + 1 := ⟨m - 1, by omega⟩
    simp [withKind, setKey, tyFromJsonF, lookup, tyClassFromJson, getNum, mk, hv, Ty.localOk]
  | tensor e sh =>
    simp only [tyToJson] at h
    split at h; · cases h
    rename_i je hje
    simp only [Option.some.injEq] at h; subst h
    simp only [Ty.valid, Bool.and_eq_true] at hv
    simp [withKind, setKey, Json.depth, depthFields] at hn
    have ih := tyFromJsonF_toJson e hv.1 je hje m (by omega)
    simp [withKind, setKey, tyFromJsonF, lookup, tyClassFromJson, getNums, mapOpt_nums, mk, hv, ih]
  | vector e sz =>
    simp only [tyToJson] at h
    split at h; · cases h
    rename_i je hje
    simp only [Option.some.injEq] at h; subst h
    simp only [Ty.valid, Bool.and_eq_true] at hv
    simp [withKind, setKey, Json.depth, depthFields] at hn
    have ih := tyFromJsonF_toJson e hv.1 je hje m (by omega)
    simp [withKind, setKey, tyFromJsonF, lookup, tyClassFromJson, getNum, mk, hv, ih]
  | table sch nr =>
    simp only [tyToJson] at h
    split at h; · cases h
    rename_i js hjs
    simp only [Option.some.injEq] at h; subst h
    simp only [Ty.valid, Bool.and_eq_true] at hv
    by_cases hnr : nr = -1
    · subst hnr
      simp [withKind, setKey, Json.depth, depthFields] at hn
      have ih := schemaFromJson_toJson sch hv.1.1 js hjs m (by omega)
      simp [withKind, setKey, tyFromJsonF, lookup, tyClassFromJson, mk, hv, ih]
    · simp [withKind, setKey, Json.depth, depthFields, hnr] at hn
      have ih := schemaFromJson_toJson sch hv.1.1 js hjs m (by omega)
      simp [withKind, setKey, tyFromJsonF, lookup, tyClassFromJson, mk, hv, ih, hnr]
  | custom k =>
    simp only [tyToJson, Option.some.injEq] at h; subst h
    simp only [Ty.valid] at hv
    simp [withKind, setKey, tyFromJsonF, lookup, tyClassFromJson, getStr, mk, hv]
  | ss p e =>
    simp only [tyToJson] at h
    split at h; · cases h
    rename_i jp hjp
    simp only [Option.some.injEq] at h; subst h
    simp only [Ty.valid] at hv
    simp [withKind, setKey, Json.depth, depthFields] at hn
    have ih := tyFromJsonF_toJson p hv jp hjp m (by omega)
    simp [withKind, setKey, tyFromJsonF, lookup, tyClassFromJson, mk, Ty.localOk, ih]
  | mp v ps =>
    simp only [tyToJson] at h
    split at h; · cases h
    rename_i jv hjv
    simp only [Option.some.injEq] at h; subst h
    simp only [Ty.valid] at hv
    simp [withKind, setKey, Json.depth, depthFields] at hn
    have ih := tyFromJsonF_toJson v hv jv hjv m (by omega)
    cases ps with
    | none => simp [withKind, setKey, tyFromJsonF, lookup, tyClassFromJson, mk, Ty.localOk, ih]
    | some l => simp [withKind, setKey, tyFromJsonF, lookup, tyClassFromJson, mk, Ty.localOk, ih, mapOpt_nums]
  | named k s =>
    simp only [tyToJson, Option.some.injEq] at h; subst h
    cases k <;>
      simp [withKind, setKey, NamedKind.kind, NamedKind.field, tyFromJsonF, lookup, tyClassFromJson, getStr, mk,
        Ty.localOk]
  | bfvKey k sz =>
    simp only [tyToJson, Option.some.injEq] at h; subst h
    simp [withKind, setKey, tyFromJsonF, lookup, tyClassFromJson, getStr, getNum, mk, Ty.localOk]
  | bfvPlain v =>
    simp only [tyToJson] at h
    split at h; · cases h
    rename_i jv hjv
    simp only [Option.some.injEq] at h; subst h
    simp only [Ty.valid, Bool.and_eq_true] at hv
    simp [withKind, setKey, Json.depth, depthFields] at hn
    have ih := tyFromJsonF_toJson v hv.1 jv hjv m (by omega)
    simp [withKind, setKey, tyFromJsonF, lookup, tyClassFromJson, mk, Ty.localOk, ih, hv]
  | bfvCipher v =>
    simp only [tyToJson] at h
    split at h; · cases h
    rename_i jv hjv
    simp only [Option.some.injEq] at h; subst h
    simp only [Ty.valid, Bool.and_eq_true] at hv
    simp [withKind, setKey, Json.depth, depthFields] at hn
    have ih := tyFromJsonF_toJson v hv.1 jv hjv m (by omega)
    simp [withKind, setKey, tyFromJsonF, lookup, tyClassFromJson, mk, Ty.localOk, ih, hv]
  | bfvEncoder sz =>
    simp only [tyToJson, Option.some.injEq] at h; subst h
    simp [withKind, setKey, tyFromJsonF, lookup, tyClassFromJson, getNum, mk, Ty.localOk]
  | teeQuote =>
    simp only [tyToJson, Option.some.injEq] at h; subst h
    simp [withKind, setKey, tyFromJsonF, lookup, tyClassFromJson]
  | teeMeasurement =>
    simp only [tyToJson, Option.some.injEq] at h; subst h
    simp [withKind, setKey, tyFromJsonF, lookup, tyClassFromJson]
  | pheKey s p => simp [tyToJson] at h
  | phePlain b => simp [tyToJson] at h
  | pheCipher s => simp [tyToJson] at h
theorem schemaFromJson_toJson (sch : List (String × Ty)) (hv : validSchema sch = true)
    (js : List (String × Json)) (h : schemaToJson sch = some js) (n : Nat) (hn : depthFields js ≤ n) :
    mapFields (tyFromJsonF n) js = some sch := by
  match sch with
  | [] => simp only [schemaToJson, Option.some.injEq] at h; subst h; rfl
  | (c, t) :: r =>
    simp only [schemaToJson] at h
    split at h; · cases h
    rename_i j hj
    split at h; · cases h
    rename_i js' hjs'
    simp only [Option.some.injEq] at h; subst h
    simp only [validSchema, Bool.and_eq_true] at hv
    simp only [depthFields] at hn
    have h1 := tyFromJsonF_toJson t hv.1 j hj n (by omega)
    have h2 := schemaFromJson_toJson r hv.2 js' hjs' n (by omega)
    simp [mapFields, h1, h2]
end

/-! base64 -/

theorem b64Val_char : ∀ n, n < 64 → b64Val (b64Char n) = some n := by decide
theorem b64Char_ne_pad : ∀ n, n < 64 → b64Char n ≠ '=' := by decide

theorem b64Char_ascii : ∀ n, n < 64 → (b64Char n).toNat < 128 := by decide

theorem b64Loop_0 (l p n : Nat) (h : n < 64) (r : List Char) :
    b64Loop 0 l p (b64Char n :: r) = b64Loop 1 n 0 r := by
  rw [b64Loop, if_neg (b64Char_ne_pad n h), b64Val_char n h]; rfl

theorem b64Loop_1 (l p n : Nat) (h : n < 64) (r : List Char) :
    b64Loop 1 l p (b64Char n :: r) = (b64Loop 2 (n % 16) 0 r).map ((l * 4 + n / 16) :: ·) := by
  rw [b64Loop, if_neg (b64Char_ne_pad n h), b64Val_char n h]; rfl

theorem b64Loop_2 (l p n : Nat) (h : n < 64) (r : List Char) :
    b64Loop 2 l p (b64Char n :: r) = (b64Loop 3 (n % 4) 0 r).map ((l * 16 + n / 4) :: ·) := by
  rw [b64Loop, if_neg (b64Char_ne_pad n h), b64Val_char n h]; rfl

theorem b64Loop_3 (l p n : Nat) (h : n < 64) (r : List Char) :
    b64Loop 3 l p (b64Char n :: r) = (b64Loop 0 0 0 r).map ((l * 64 + n) :: ·) := by
  rw [b64Loop, if_neg (b64Char_ne_pad n h), b64Val_char n h]; rfl

theorem b64Loop_enc (bs : List Nat) (h : ∀ b ∈ bs, b < 256) : b64Loop 0 0 0 (b64enc bs) = some bs := by
  fun_induction b64enc bs with
  | case1 => rfl
  | case2 a =>
    have ha := h a (by simp)
    rw [b64Loop_0 _ _ _ (by omega), b64Loop_1 _ _ _ (by omega)]
    simp [b64Loop]
    omega
  | case3 a b =>
    have ha := h a (by simp)
    have hb := h b (by simp)
    rw [b64Loop_0 _ _ _ (by omega), b64Loop_1 _ _ _ (by omega), b64Loop_2 _ _ _ (by omega)]
    simp [b64Loop]
    omega
  | case4 a b c r ih =>
    have ha := h a (by simp)
    have hb := h b (by simp)
    have hc := h c (by simp)
    rw [b64Loop_0 _ _ _ (by omega), b64Loop_1 _ _ _ (by omega), b64Loop_2 _ _ _ (by omega),
      b64Loop_3 _ _ _ (by omega), ih (fun x hx => h x (by simp [hx]))]
    simp
    omega

theorem b64enc_ascii (bs : List Nat) (h : ∀ b ∈ bs, b < 256) : ∀ c ∈ b64enc bs, c.toNat < 128 := by
  have k := b64Char_ascii
  fun_induction b64enc bs with
  | case1 => simp
  | case2 a =>
    have ha := h a (by simp)
    simp only [List.mem_cons, List.not_mem_nil, or_false]
    rintro c (rfl | rfl | rfl | rfl)
    · exact k _ (by omega)
    · exact k _ (by omega)
    · decide
    · decide
  | case3 a b =>
    have ha := h a (by simp)
    have hb := h b (by simp)
    simp only [List.mem_cons, List.not_mem_nil, or_false]
    rintro c (rfl | rfl | rfl | rfl)
    · exact k _ (by omega)
    · exact k _ (by omega)
    · exact k _ (by omega)
    · decide
  | case4 a b c r ih =>
    have ha := h a (by simp)
    have hb := h b (by simp)
    have hc := h c (by simp)
    simp only [List.mem_cons]
    rintro c (rfl | rfl | rfl | rfl | hr)
    · exact k _ (by omega)
    · exact k _ (by omega)
    · exact k _ (by omega)
    · exact k _ (by omega)
    · exact ih (fun x hx => h x (by simp [hx])) c hr

theorem b64dec_enc (bs : List Nat) (h : ∀ b ∈ bs, b < 256) : b64dec (b64enc bs) = some bs := by
  rw [b64dec, if_pos, b64Loop_enc bs h]
  simpa using b64enc_ascii bs h

/-! dicts -/

theorem dictSet_new (eq : PyVal → PyVal → Bool) (k v : PyVal) (d : List (PyVal × PyVal))
    (h : ∀ p ∈ d, eq p.1 k = false) : dictSet eq k v d = d ++ [(k, v)] := by
  induction d with
  | nil => rfl
  | cons p d ih =>
    obtain ⟨k', v'⟩ := p
    have := h (k', v') (by simp)
    simp only at this
    simp [dictSet, this, ih (fun p hp => h p (by simp [hp]))]

theorem dictBuild_aux (eq : PyVal → PyVal → Bool) (ps acc : List (PyVal × PyVal))
    (h : ((acc ++ ps).map Prod.fst).Pairwise (fun a b => eq a b = false)) :
    ps.foldl (fun d p => dictSet eq p.1 p.2 d) acc = acc ++ ps := by
  induction ps generalizing acc with
  | nil => simp
  | cons p ps ih =>
    simp only [List.foldl_cons]
    have hnew : ∀ q ∈ acc, eq q.1 p.1 = false := by
      intro q hq
      rw [List.map_append, List.pairwise_append] at h
      exact h.2.2 q.1 (List.mem_map_of_mem hq) p.1 (by simp)
    rw [dictSet_new eq p.1 p.2 acc hnew, ih]
    · simp
    · simpa using h

theorem dictBuild_id (eq : PyVal → PyVal → Bool) (ps : List (PyVal × PyVal))
    (h : (ps.map Prod.fst).Pairwise (fun a b => eq a b = false)) : dictBuild eq ps = ps := by
  have := dictBuild_aux eq ps [] (by simpa using h)
  simpa [dictBuild] using this

theorem strKeys_length (items : List (PyVal × PyVal)) (ks : List String) (h : strKeys items = some ks) :
    items.map Prod.fst = ks.map PyVal.str := by
  induction items generalizing ks with
  | nil => simp [strKeys] at h; simp [← h]
  | cons p r ih =>
    obtain ⟨k, v⟩ := p
    simp only [strKeys] at h
    split at h; · cases h
    rename_i s hs
    split at h; · cases h
    rename_i ss hss
    simp only [Option.some.injEq] at h; subst h
    have hk : k = .str s := by cases k <;> simp [PyVal.asStr?] at hs; simp [hs]
    simp [hk, ih _ hss]

theorem zip_fst_snd {α β : Type} (l : List (α × β)) : (l.map Prod.fst).zip (l.map Prod.snd) = l := by
  induction l with
  | nil => rfl
  | cons p r ih => simp [ih]

theorem getB64_jb64 (k : String) (fs : List (String × Json)) (bs : List Nat) (h : lookup k fs = some (jb64 bs))
    (hb : ∀ b ∈ bs, b < 256) : getB64 k fs = some bs := by
  simp [getB64, getStr, h, jb64, b64dec_enc bs hb]

theorem b64Items (cs : List (List Nat)) (h : ∀ c ∈ cs, ∀ b ∈ c, b < 256) : mapOpt b64Item (cs.map jb64) = some cs := by
  induction cs with
  | nil => rfl
  | cons c r ih =>
    have h1 : b64Item (jb64 c) = some c := by simp [b64Item, jb64, b64dec_enc c (h c (by simp))]
    simp [mapOpt, h1, ih fun c hc => h c (List.mem_cons_of_mem _ hc)]

theorem leaf_roundtrip (r : RtLeaf) (h : r.WF) :
    ∃ fs, r.toJson = .obj fs ∧ lookup "_kind" fs = some (.str r.kind) ∧ leafFromJson r.kind fs = some r := by
  refine ⟨_, rfl, ?_, ?_⟩
  · cases r <;> simp [RtLeaf.fields, setKey, lookup]
  · cases r
    case share m cs =>
      have h1 := b64Items cs h.2
      simp [RtLeaf.fields, RtLeaf.kind, setKey, lookup, leafFromJson, getStr, jsonArr, getB64, jb64,
        b64dec_enc m h.1]
      simpa [jb64] using h1
    all_goals
      simp only [RtLeaf.WF] at h
      simp [RtLeaf.fields, RtLeaf.kind, setKey, lookup, leafFromJson, keyFromJson, getStr, getB64, jb64,
        b64dec_enc _ h]

theorem leaf_kind_mem (r : RtLeaf) : r.kind ∈ leafKinds ∧
    r.kind ∉ ["_null", "_bool", "_int", "_float", "_str", "_list", "_tuple", "_dict", "_dict_pairs", "_bytes",
        "_ndarray", "_ndarray_object", "_pa_table", "tensor_impl.TensorValue", "table_impl.TableValue",
        "_bytes_bref", "_ndarray_bref", "_pa_table_bref"] := by
  cases r <;> simp [RtLeaf.kind, leafKinds]

theorem getShape_jshape (fs : List (String × Json)) (sh : List Nat) (h : lookup "shape" fs = some (jshape sh)) :
    getShape fs = some sh := by
  simp [getShape, h, jshape, natsOf_shape]

/-- no class kind is a builtin kind -/
theorem tyToJson_kind (t : Ty) (j : Json) (h : tyToJson t = some j) :
    ∃ fs kind, j = .obj fs ∧ lookup "_kind" fs = some (.str kind) ∧
      kind ∉ ["_null", "_bool", "_int", "_float", "_str", "_list", "_tuple", "_dict", "_dict_pairs", "_bytes",
        "_ndarray", "_ndarray_object", "_pa_table", "tensor_impl.TensorValue", "table_impl.TableValue"] ∧
      kind ∉ leafKinds := by
  cases t <;> simp only [tyToJson] at h
  case named k s =>
    simp only [Option.some.injEq] at h; subst h
    refine ⟨_, k.kind, rfl, ?_, ?_, ?_⟩ <;> cases k <;>
      first | simp [setKey, lookup, NamedKind.kind, NamedKind.field, leafKinds] | decide
  case table sch n =>
    split at h; · cases h
    simp only [Option.some.injEq] at h; subst h
    refine ⟨_, "mplang.TableType", rfl, ?_, by decide⟩
    by_cases hn : n = -1 <;> simp [setKey, lookup, hn]
  all_goals (try (split at h; · cases h))
  all_goals (try cases h)
  all_goals exact ⟨_, _, rfl, by simp [setKey, lookup]; rfl, by decide⟩

mutual
theorem fromJsonF_toJson (eq : PyVal → PyVal → Bool) (v : PyVal) (hv : v.WF eq) (j : Json)
    (h : toJson v = some j) (n : Nat) (hn : j.depth ≤ n) : fromJsonF eq n j = some v := by
  obtain ⟨m, rfl⟩ := ne_zero_of_depth hn
  cases v with
  | none => simp only [toJson, Option.some.injEq] at h; subst h; simp [fromJsonF, lookup]
  | bool b => simp only [toJson, Option.some.injEq] at h; subst h; simp [fromJsonF, lookup]
  | int b => simp only [toJson, Option.some.injEq] at h; subst h; simp [fromJsonF, lookup]
  | float b => simp only [toJson, Option.some.injEq] at h; subst h; simp [fromJsonF, lookup]
  | str b => simp only [toJson, Option.some.injEq] at h; subst h; simp [fromJsonF, lookup]
  | bytes bs =>
    simp only [toJson, Option.some.injEq] at h; subst h
    simp only [PyVal.WF] at hv
    simp [fromJsonF, lookup, b64dec_enc bs hv]
  | list xs =>
    simp only [toJson] at h
    split at h; · cases h
    rename_i js hjs
    simp only [Option.some.injEq] at h; subst h
    simp only [PyVal.WF] at hv
    simp [Json.depth, depthFields] at hn
    have ih := fromJsonF_toJsonList eq xs hv js hjs m (by omega)
    simp [fromJsonF, lookup, ih]
  | tuple xs =>
    simp only [toJson] at h
    split at h; · cases h
    rename_i js hjs
    simp only [Option.some.injEq] at h; subst h
    simp only [PyVal.WF] at hv
    simp [Json.depth, depthFields] at hn
    have ih := fromJsonF_toJsonList eq xs hv js hjs m (by omega)
    simp [fromJsonF, lookup, ih]
  | dict items =>
    simp only [toJson] at h
    simp only [PyVal.WF] at hv
    split at h
    · split at h; · cases h
      rename_i ps hps
      simp only [Option.some.injEq] at h; subst h
      simp [Json.depth, depthFields] at hn
      have ih := (fromJsonF_toJsonPairs eq items hv.1 ps hps m).1 (by omega)
      simp [fromJsonF, lookup, ih, dictBuild_id eq items hv.2]
    · rename_i ks hks
      split at h; · cases h
      rename_i ps hps
      simp only [Option.some.injEq] at h; subst h
      simp [Json.depth, depthFields] at hn
      have ih := (fromJsonF_toJsonPairs eq items hv.1 ps hps m).2 ks hks (by omega)
      have hk := strKeys_length items ks hks
      have hz : (ks.zip (items.map Prod.snd)).map (fun p => (PyVal.str p.1, p.2)) = items := by
        have h1 : (ks.zip (items.map Prod.snd)).map (fun p => (PyVal.str p.1, p.2))
            = (ks.map PyVal.str).zip (items.map Prod.snd) := by
          rw [List.zip_map_left]; rfl
        rw [h1, ← hk, zip_fst_snd]
      simp only [fromJsonF, lookup]
      simp [ih, hz, dictBuild_id eq items hv.2]
  | ty t =>
    simp only [toJson] at h
    simp only [PyVal.WF] at hv
    have h1 := tyFromJsonF_toJson t hv j h (m + 1) hn
    obtain ⟨fs, kind, rfl, hk, hne, hl⟩ := tyToJson_kind t j h
    simp only [tyFromJsonF, hk] at h1
    simp only [List.mem_cons, List.not_mem_nil, or_false, not_or] at hne
    simp [fromJsonF, hk, hne, h1, hl]
  | paTable ipc =>
    simp only [toJson, Option.some.injEq] at h; subst h
    simp only [PyVal.WF] at hv
    simp [fromJsonF, lookup, getB64, getStr, jb64, b64dec_enc ipc hv]
  | table ipc =>
    simp only [toJson, Option.some.injEq] at h; subst h
    simp only [PyVal.WF] at hv
    simp [fromJsonF, lookup, withKind, setKey, getB64, getStr, jb64, b64dec_enc ipc hv]
  | leaf r =>
    simp only [toJson, Option.some.injEq] at h; subst h
    simp only [PyVal.WF] at hv
    obtain ⟨fs, e, hk, hf⟩ := leaf_roundtrip r hv
    obtain ⟨hl, hne⟩ := leaf_kind_mem r
    simp only [List.mem_cons, List.not_mem_nil, or_false, not_or] at hne
    simp [e, fromJsonF, hk, hne, hl, hf]
  | tensor d sh bs =>
    simp only [toJson, Option.some.injEq] at h; subst h
    simp only [PyVal.WF] at hv
    simp [fromJsonF, lookup, withKind, setKey, tensorFromJson, getB64, getStr, jb64, b64dec_enc bs hv, getShape, jshape,
      natsOf_shape]
  | tensorObj sh xs =>
    simp only [toJson] at h
    split at h; · cases h
    rename_i js hjs
    simp only [Option.some.injEq] at h; subst h
    simp only [PyVal.WF] at hv
    simp [Json.depth, depthFields, withKind, setKey] at hn
    have ih := fromJsonF_toJsonList eq xs hv js hjs m (by omega)
    simp [fromJsonF, lookup, withKind, setKey, tensorFromJson, jsonArr, getStr, ih, getShape, jshape, natsOf_shape]
  | ndarray d sh bs =>
    simp only [toJson, Option.some.injEq] at h; subst h
    simp only [PyVal.WF] at hv
    simp [fromJsonF, lookup, b64dec_enc bs hv, natsOf_shape]
  | objarray sh xs =>
    simp only [toJson] at h
    split at h; · cases h
    rename_i js hjs
    simp only [Option.some.injEq] at h; subst h
    simp only [PyVal.WF] at hv
    simp [Json.depth, depthFields] at hn
    have ih := fromJsonF_toJsonList eq xs hv js hjs m (by omega)
    simp [fromJsonF, lookup, ih, natsOf_shape]
theorem fromJsonF_toJsonList (eq : PyVal → PyVal → Bool) (xs : List PyVal) (hv : WFList eq xs) (js : List Json)
    (h : toJsonList xs = some js) (n : Nat) (hn : depthList js ≤ n) : mapOpt (fromJsonF eq n) js = some xs := by
  match xs with
  | [] => simp only [toJsonList, Option.some.injEq] at h; subst h; rfl
  | x :: r =>
    simp only [toJsonList] at h
    split at h; · cases h
    rename_i j hj
    split at h; · cases h
    rename_i js' hjs'
    simp only [Option.some.injEq] at h; subst h
    simp only [WFList] at hv
    simp only [depthList] at hn
    have h1 := fromJsonF_toJson eq x hv.1 j hj n (by omega)
    have h2 := fromJsonF_toJsonList eq r hv.2 js' hjs' n (by omega)
    simp [mapOpt, h1, h2]
theorem fromJsonF_toJsonPairs (eq : PyVal → PyVal → Bool) (xs : List (PyVal × PyVal)) (hv : WFPairs eq xs)
    (ps : List (Json × Json)) (h : toJsonPairs xs = some ps) (n : Nat) :
    (depthList (ps.map fun p => Json.arr [p.1, p.2]) ≤ n + 1 →
      mapOpt (decPair (fromJsonF eq n)) (ps.map fun p => Json.arr [p.1, p.2]) = some xs) ∧
    (∀ ks, strKeys xs = some ks → depthFields (ks.zip (ps.map Prod.snd)) ≤ n →
      mapFields (fromJsonF eq n) (ks.zip (ps.map Prod.snd)) = some (ks.zip (xs.map Prod.snd))) := by
  match xs with
  | [] =>
    simp only [toJsonPairs, Option.some.injEq] at h; subst h
    refine ⟨fun _ => rfl, fun ks _ _ => by simp [mapFields]⟩
  | (k, v) :: r =>
    simp only [toJsonPairs] at h
    split at h; · cases h
    rename_i jk hjk
    split at h; · cases h
    rename_i jv hjv
    split at h; · cases h
    rename_i ps' hps'
    simp only [Option.some.injEq] at h; subst h
    simp only [WFPairs] at hv
    have ih := fromJsonF_toJsonPairs eq r hv.2.2 ps' hps' n
    constructor
    · intro hn
      simp [depthList, Json.depth] at hn
      have h1 := fromJsonF_toJson eq k hv.1 jk hjk n (by omega)
      have h2 := fromJsonF_toJson eq v hv.2.1 jv hjv n (by omega)
      have h3 := ih.1 (by omega)
      simp [mapOpt, decPair, h1, h2, h3]
    · intro ks hks hn
      simp only [strKeys] at hks
      split at hks; · cases hks
      rename_i s hs
      split at hks; · cases hks
      rename_i ss hss
      simp only [Option.some.injEq] at hks; subst hks
      simp [depthFields] at hn
      have h2 := fromJsonF_toJson eq v hv.2.1 jv hjv n (by omega)
      have h3 := ih.2 ss hss (by omega)
      simp [mapFields, h2, h3]
end

end Verif.Serde
