import Verif.Tool.SortGraph
/-! # The sorted JSON of an object depends only on its normal form -/
namespace Verif.Tool
open Verif.Serde Verif.Graph

/-- `{k: f(v) for k, v in items}` where `f` may raise -/
def mapF {α β : Type} (f : α → Option β) : List (String × α) → Option (List (String × β))
  | [] => some []
  | (c, j) :: r => match f j with
    | none => none
    | some y => match mapF f r with
      | none => none
      | some ys => some ((c, y) :: ys)

theorem mapF_insKey {α β : Type} (f : α → Option β) (x : String × α) (l : List (String × α)) :
    mapF f (insKey x l) = (mapF f (x :: l)).map fun r => match r with | [] => [] | y :: ys => insKey y ys := by
  induction l with
  | nil =>
    simp only [insKey, mapF]
    cases f x.2 <;> rfl
  | cons y ys ih =>
    simp only [insKey]
    split
    · rename_i hle
      simp only [mapF]
      cases f x.2 with
      | none => rfl
      | some a =>
        simp only
        cases f y.2 with
        | none => rfl
        | some b =>
          simp only
          cases mapF f ys with
          | none => rfl
          | some r => simp [insKey, hle]
    · rename_i hle
      simp only [mapF, ih]
      cases f x.2 with
      | none => cases f y.2 <;> rfl
      | some a =>
        simp only
        cases f y.2 with
        | none => rfl
        | some b =>
          simp only
          cases mapF f ys with
          | none => rfl
          | some r => simp [insKey, hle]

theorem mapF_sortKeys {α β : Type} (f : α → Option β) (l : List (String × α)) :
    mapF f (sortKeys l) = (mapF f l).map sortKeys := by
  induction l with
  | nil => rfl
  | cons x xs ih =>
    simp only [sortKeys, mapF_insKey, mapF, ih]
    cases f x.2 with
    | none => rfl
    | some a => cases mapF f xs <;> rfl

/-- writing the values in normal form gives the same sorted items -/
theorem mapF_write {α : Type} (f : α → Option Json) (g : α → α) (l : List (String × α))
    (h : ∀ p ∈ l, (f (g p.2)).map Json.sorted = (f p.2).map Json.sorted) :
    (mapF f (l.map fun p => (p.1, g p.2))).map sortedFields = (mapF f l).map sortedFields := by
  induction l with
  | nil => rfl
  | cons x xs ih =>
    have h1 := h x (by simp)
    have h2 := ih fun p hp => h p (by simp [hp])
    simp only [List.map_cons, mapF]
    cases ha : f (g x.2) <;> cases hb : f x.2 <;>
      simp only [ha, hb, Option.map_none, Option.map_some, Option.some.injEq] at h1 ⊢
    · cases h1
    · cases h1
    · cases hc : mapF f (xs.map fun p => (p.1, g p.2)) <;> cases hd : mapF f xs <;>
        simp only [hc, hd, Option.map_none, Option.map_some, Option.some.injEq] at h2 ⊢
      · cases h2
      · cases h2
      · simp only [sortedFields, h1, h2]

/-- same for a dict whose items are sorted before writing -/
theorem mapF_write_sorted {α : Type} (f : α → Option Json) (g : α → α) (l : List (String × α))
    (h : ∀ p ∈ l, (f (g p.2)).map Json.sorted = (f p.2).map Json.sorted) :
    (mapF f (sortKeys (l.map fun p => (p.1, g p.2)))).map (fun r => Json.sorted (.obj r))
      = (mapF f l).map (fun r => Json.sorted (.obj r)) := by
  have hm := mapF_write f g l h
  rw [mapF_sortKeys, Option.map_map]
  have e : ((fun r => Json.sorted (.obj r)) ∘ sortKeys) = fun r : List (String × Json) => Json.sorted (.obj r) := by
    funext r
    simp only [Function.comp, Json.sorted, sortedFields_eq, sortKeys_map, sortKeys_idem]
  have e2 : (fun r : List (String × Json) => Json.sorted (.obj r)) = (fun r => Json.obj (sortKeys r)) ∘ sortedFields := by
    funext r; rfl
  rw [e, e2, ← Option.map_map, ← Option.map_map, hm]

theorem schemaToJson_eq (s : List (String × Ty)) : schemaToJson s = mapF tyToJson s := by
  induction s with
  | nil => rfl
  | cons x xs ih =>
    simp only [schemaToJson, mapF, ih]
    cases tyToJson x.2 with
    | none => rfl
    | some j => cases mapF tyToJson xs <;> rfl

theorem sortedFields_setKey (k : String) (v : Json) (fs : List (String × Json)) :
    sortedFields (setKey k v fs) = setKey k (Json.sorted v) (sortedFields fs) := by
  induction fs with
  | nil => rfl
  | cons x xs ih =>
    obtain ⟨c, j⟩ := x
    simp only [setKey, sortedFields]
    split
    · rfl
    · simp only [sortedFields, ih]

theorem attrsToJson_eq (s : List (String × PyVal)) : attrsToJson s = mapF toJson s := by
  induction s with
  | nil => rfl
  | cons x xs ih =>
    simp only [attrsToJson] at ih
    simp only [attrsToJson, mapOpt, mapF, ← ih]
    cases toJson x.2 with
    | none => rfl
    | some j => generalize mapOpt _ xs = r; cases r <;> rfl

/-- case split on a hypothesis `(x).map f = (y).map f` -/
theorem map_eq_cases {α β : Type} {f : α → β} {x y : Option α} (h : x.map f = y.map f) :
    (x = none ∧ y = none) ∨ ∃ a b, x = some a ∧ y = some b ∧ f a = f b := by
  cases x <;> cases y
  · exact .inl ⟨rfl, rfl⟩
  · cases h
  · cases h
  · exact .inr ⟨_, _, rfl, rfl, by simpa using h⟩

mutual
theorem tyToJson_norm (t : Ty) : (tyToJson (Ty.norm t)).map Json.sorted = (tyToJson t).map Json.sorted := by
  cases t with
  | tensor e sh =>
    simp only [Ty.norm, tyToJson]
    rcases map_eq_cases (tyToJson_norm e) with ⟨h1, h2⟩ | ⟨a, b, h1, h2, h3⟩ <;> simp only [h1, h2]
    simp only [Option.map_some, withKind, Json.sorted, sortedFields_setKey, sortedFields, h3]
  | vector e n =>
    simp only [Ty.norm, tyToJson]
    rcases map_eq_cases (tyToJson_norm e) with ⟨h1, h2⟩ | ⟨a, b, h1, h2, h3⟩ <;> simp only [h1, h2]
    simp only [Option.map_some, withKind, Json.sorted, sortedFields_setKey, sortedFields, h3]
  | table sch n =>
    simp only [Ty.norm, tyToJson, schemaToJson_eq]
    rw [normSchema_eq]
    have hm := mapF_write_sorted tyToJson Ty.norm sch (schemaToJson_norm sch)
    rcases map_eq_cases hm with ⟨h1, h2⟩ | ⟨a, b, h1, h2, h3⟩ <;> simp only [h1, h2]
    simp only [Json.sorted] at h3
    injection h3 with h3
    simp only [Option.map_some, withKind, Json.sorted, sortedFields_setKey, sortedFields, h3]
  | ss p enc =>
    simp only [Ty.norm, tyToJson]
    rcases map_eq_cases (tyToJson_norm p) with ⟨h1, h2⟩ | ⟨a, b, h1, h2, h3⟩ <;> simp only [h1, h2]
    simp only [Option.map_some, withKind, Json.sorted, sortedFields_setKey, sortedFields, h3]
  | mp v ps =>
    simp only [Ty.norm, tyToJson]
    rcases map_eq_cases (tyToJson_norm v) with ⟨h1, h2⟩ | ⟨a, b, h1, h2, h3⟩ <;> simp only [h1, h2]
    simp only [Option.map_some, withKind, Json.sorted, sortedFields_setKey, sortedFields, h3]
  | bfvPlain v =>
    simp only [Ty.norm, tyToJson]
    rcases map_eq_cases (tyToJson_norm v) with ⟨h1, h2⟩ | ⟨a, b, h1, h2, h3⟩ <;> simp only [h1, h2]
    simp only [Option.map_some, withKind, Json.sorted, sortedFields_setKey, sortedFields, h3]
  | bfvCipher v =>
    simp only [Ty.norm, tyToJson]
    rcases map_eq_cases (tyToJson_norm v) with ⟨h1, h2⟩ | ⟨a, b, h1, h2, h3⟩ <;> simp only [h1, h2]
    simp only [Option.map_some, withKind, Json.sorted, sortedFields_setKey, sortedFields, h3]
  | _ => rfl
theorem schemaToJson_norm (s : List (String × Ty)) :
    ∀ p ∈ s, (tyToJson (Ty.norm p.2)).map Json.sorted = (tyToJson p.2).map Json.sorted := by
  cases s with
  | nil => simp
  | cons x xs =>
    obtain ⟨c, t⟩ := x
    intro p hp
    rcases List.mem_cons.mp hp with rfl | hp
    · exact tyToJson_norm t
    · exact schemaToJson_norm xs p hp
end

theorem toJsonPairs_strs (l : List (String × PyVal)) :
    toJsonPairs (l.map fun p => (PyVal.str p.1, p.2)) =
      (mapF toJson l).map (List.map fun p => (Json.obj [("_kind", .str "_str"), ("v", .str p.1)], p.2)) := by
  induction l with
  | nil => rfl
  | cons x xs ih =>
    simp only [List.map_cons, toJsonPairs, toJson, mapF, ih]
    cases toJson x.2 with
    | none => rfl
    | some j => cases mapF toJson xs <;> rfl

theorem mapF_keys {α β : Type} (f : α → Option β) (l : List (String × α)) (r : List (String × β)) (h : mapF f l = some r) :
    r.map Prod.fst = l.map Prod.fst := by
  induction l generalizing r with
  | nil => simp [mapF] at h; subst h; rfl
  | cons x xs ih =>
    simp only [mapF] at h
    cases hf : f x.2 with
    | none => simp [hf] at h
    | some y => cases hm : mapF f xs with
      | none => simp [hf, hm] at h
      | some ys =>
        simp only [hf, hm, Option.some.injEq] at h
        subst h
        simp [ih ys hm]

theorem toJson_dict_strs (l : List (String × PyVal)) :
    toJson (.dict (l.map fun p => (PyVal.str p.1, p.2))) =
      (mapF toJson l).map fun r => .obj [("_kind", .str "_dict"), ("items", .obj r)] := by
  simp only [toJson, strKeys_strs, toJsonPairs_strs]
  cases h : mapF toJson l with
  | none => rfl
  | some r =>
    simp only [Option.map_some, List.map_map]
    rw [← mapF_keys _ _ _ h]
    have : List.map (Prod.snd ∘ fun p : String × Json => (Json.obj [("_kind", .str "_str"), ("v", .str p.1)], p.2)) r
        = r.map Prod.snd := rfl
    rw [this, zip_fst_snd]

theorem strKeys_some_eq (items : List (PyVal × PyVal)) (ks : List String) (h : strKeys items = some ks) :
    ∃ l : List (String × PyVal), items = l.map fun p => (PyVal.str p.1, p.2) := by
  induction items generalizing ks with
  | nil => exact ⟨[], rfl⟩
  | cons x xs ih =>
    obtain ⟨k, v⟩ := x
    simp only [strKeys] at h
    cases k with
    | str s =>
      simp only [PyVal.asStr?] at h
      cases hm : strKeys xs with
      | none => simp [hm] at h
      | some ss =>
        obtain ⟨l, rfl⟩ := ih ss hm
        exact ⟨(s, v) :: l, rfl⟩
    | _ => simp [PyVal.asStr?] at h

theorem asStr_norm (v : PyVal) : (PyVal.norm v).asStr? = v.asStr? := by
  cases v <;> rfl

theorem strKeys_normPairs (items : List (PyVal × PyVal)) : strKeys (normPairs items) = strKeys items := by
  induction items with
  | nil => rfl
  | cons x xs ih => obtain ⟨k, v⟩ := x; simp only [normPairs, strKeys, asStr_norm, ih]

/-- sort both components -/
def sortedPair (p : Json × Json) : Json × Json := (Json.sorted p.1, Json.sorted p.2)

mutual
/-- the sorted JSON of a value in normal form is the sorted JSON of the value -/
theorem toJson_norm (v : PyVal) : (toJson (PyVal.norm v)).map Json.sorted = (toJson v).map Json.sorted := by
  cases v with
  | ty t => simp only [PyVal.norm, toJson]; exact tyToJson_norm t
  | list xs =>
    simp only [PyVal.norm, toJson]
    rcases map_eq_cases (toJsonList_norm xs) with ⟨h1, h2⟩ | ⟨a, b, h1, h2, h3⟩ <;> simp only [h1, h2]
    simp only [Option.map_some, Json.sorted, sortedFields, h3]
  | tuple xs =>
    simp only [PyVal.norm, toJson]
    rcases map_eq_cases (toJsonList_norm xs) with ⟨h1, h2⟩ | ⟨a, b, h1, h2, h3⟩ <;> simp only [h1, h2]
    simp only [Option.map_some, Json.sorted, sortedFields, h3]
  | objarray sh xs =>
    simp only [PyVal.norm, toJson]
    rcases map_eq_cases (toJsonList_norm xs) with ⟨h1, h2⟩ | ⟨a, b, h1, h2, h3⟩ <;> simp only [h1, h2]
    simp only [Option.map_some, Json.sorted, sortedFields, h3]
  | tensorObj sh xs =>
    simp only [PyVal.norm, toJson]
    rcases map_eq_cases (toJsonList_norm xs) with ⟨h1, h2⟩ | ⟨a, b, h1, h2, h3⟩ <;> simp only [h1, h2]
    simp only [Option.map_some, withKind, Json.sorted, sortedFields_setKey, sortedFields, h3]
  | dict items =>
    cases hk : strKeys items with
    | none =>
      have hn : strKeys (normPairs items) = none := by rw [strKeys_normPairs, hk]
      simp only [PyVal.norm, normItems, hn, toJson, hk]
      rcases map_eq_cases (toJsonPairs_norm items) with ⟨h1, h2⟩ | ⟨a, b, h1, h2, h3⟩ <;> simp only [h1, h2]
      have h4 : ∀ c : List (Json × Json), sortedList (c.map fun p => .arr [p.1, p.2])
          = (c.map sortedPair).map fun p => .arr [p.1, p.2] := by
        intro c
        rw [sortedList_eq, List.map_map, List.map_map]
        apply List.map_congr_left
        intro p _
        rfl
      simp only [Option.map_some, Json.sorted, sortedFields, h4, h3]
    | some ks =>
      obtain ⟨l, hl⟩ := strKeys_some_eq items ks hk
      have hp := toJsonVals_norm items
      rw [hl] at hp ⊢
      rw [norm_dict_strs, toJson_dict_strs, toJson_dict_strs]
      have hm := mapF_write_sorted toJson PyVal.norm l (fun p hpm => hp (.str p.1, p.2) (List.mem_map.mpr ⟨p, hpm, rfl⟩))
      rcases map_eq_cases hm with ⟨h1, h2⟩ | ⟨a, b, h1, h2, h3⟩ <;> rw [h1, h2]
      simp only [Json.sorted] at h3
      injection h3 with h3
      simp only [Option.map_some, Json.sorted, sortedFields, h3]
  | _ => rfl
theorem toJsonList_norm (xs : List PyVal) :
    (toJsonList (normVals xs)).map sortedList = (toJsonList xs).map sortedList := by
  cases xs with
  | nil => rfl
  | cons x xs =>
    simp only [normVals, toJsonList]
    rcases map_eq_cases (toJson_norm x) with ⟨h1, h2⟩ | ⟨a, b, h1, h2, h3⟩ <;> simp only [h1, h2]
    rcases map_eq_cases (toJsonList_norm xs) with ⟨h4, h5⟩ | ⟨c, d, h4, h5, h6⟩ <;> simp only [h4, h5]
    simp only [Option.map_some, sortedList, h3, h6]
theorem toJsonPairs_norm (xs : List (PyVal × PyVal)) :
    (toJsonPairs (normPairs xs)).map (List.map sortedPair) = (toJsonPairs xs).map (List.map sortedPair) := by
  cases xs with
  | nil => rfl
  | cons x xs =>
    obtain ⟨k, v⟩ := x
    simp only [normPairs, toJsonPairs]
    rcases map_eq_cases (toJson_norm k) with ⟨h1, h2⟩ | ⟨a, b, h1, h2, h3⟩ <;> simp only [h1, h2]
    rcases map_eq_cases (toJson_norm v) with ⟨h4, h5⟩ | ⟨c, d, h4, h5, h6⟩ <;> simp only [h4, h5]
    rcases map_eq_cases (toJsonPairs_norm xs) with ⟨h7, h8⟩ | ⟨e, f, h7, h8, h9⟩ <;> simp only [h7, h8]
    simp only [Option.map_some, List.map_cons, sortedPair, h3, h6, h9]
theorem toJsonVals_norm (xs : List (PyVal × PyVal)) :
    ∀ p ∈ xs, (toJson (PyVal.norm p.2)).map Json.sorted = (toJson p.2).map Json.sorted := by
  cases xs with
  | nil => simp
  | cons x xs =>
    obtain ⟨k, v⟩ := x
    intro p hp
    rcases List.mem_cons.mp hp with rfl | hp
    · exact toJson_norm v
    · exact toJsonVals_norm xs p hp
end

theorem valToJson_norm (v : String × Ty) : (valToJson (normVal v)).map Json.sorted = (valToJson v).map Json.sorted := by
  simp only [valToJson, normVal]
  rcases map_eq_cases (tyToJson_norm v.2) with ⟨h1, h2⟩ | ⟨a, b, h1, h2, h3⟩ <;> simp only [h1, h2]
  simp only [Option.map_some, Json.sorted, sortedFields, h3]

theorem valsToJson_norm (vs : List (String × Ty)) :
    (mapOpt valToJson (vs.map normVal)).map sortedList = (mapOpt valToJson vs).map sortedList := by
  have := mapOpt_norm valToJson (fun v => valToJson (normVal v)) Json.sorted vs fun v _ => valToJson_norm v
  rw [mapOpt_comp]
  simpa only [← funext sortedList_eq] using this

mutual
/-- the sorted JSON of a graph in normal form is the sorted JSON of the graph -/
theorem grToJson_norm (g : Gr) : (grToJson (Gr.norm g)).map Json.sorted = (grToJson g).map Json.sorted := by
  cases g with
  | mk ins ops outs =>
    simp only [Gr.norm, grToJson]
    rcases map_eq_cases (valsToJson_norm ins) with ⟨h1, h2⟩ | ⟨a, b, h1, h2, h3⟩ <;> simp only [h1, h2]
    rcases map_eq_cases (opsToJson_norm ops) with ⟨h4, h5⟩ | ⟨c, d, h4, h5, h6⟩ <;> simp only [h4, h5]
    simp only [Option.map_some, withKind, Json.sorted, sortedFields_setKey, sortedFields, h3, h6]
theorem opToJson_norm (o : OpD) : (opToJson (OpD.norm o)).map Json.sorted = (opToJson o).map Json.sorted := by
  cases o with
  | mk opcode ins outs attrs regs name =>
    simp only [OpD.norm, opToJson, attrsToJson_eq, normAttrs]
    rcases map_eq_cases (valsToJson_norm outs) with ⟨h1, h2⟩ | ⟨a, b, h1, h2, h3⟩ <;> simp only [h1, h2]
    rcases map_eq_cases (mapF_write_sorted toJson PyVal.norm attrs fun p _ => toJson_norm p.2)
      with ⟨h4, h5⟩ | ⟨c, d, h4, h5, h6⟩ <;> simp only [h4, h5]
    rcases map_eq_cases (regsToJson_norm regs) with ⟨h7, h8⟩ | ⟨e, f, h7, h8, h9⟩ <;> simp only [h7, h8]
    simp only [Json.sorted] at h6
    injection h6 with h6
    have h10 : (ins.map Operand.norm).map (fun v => Json.str v.name) = ins.map fun v => Json.str v.name := by
      rw [List.map_map]; rfl
    simp only [Option.map_some, Json.sorted, sortedFields, h3, h6, h9, h10]
theorem opsToJson_norm (os : List OpD) : (opsToJson (normOps os)).map sortedList = (opsToJson os).map sortedList := by
  cases os with
  | nil => rfl
  | cons o os =>
    simp only [normOps, opsToJson]
    rcases map_eq_cases (opToJson_norm o) with ⟨h1, h2⟩ | ⟨a, b, h1, h2, h3⟩ <;> simp only [h1, h2]
    rcases map_eq_cases (opsToJson_norm os) with ⟨h4, h5⟩ | ⟨c, d, h4, h5, h6⟩ <;> simp only [h4, h5]
    simp only [Option.map_some, sortedList, h3, h6]
theorem regsToJson_norm (rs : List Gr) : (regsToJson (normGrs rs)).map sortedList = (regsToJson rs).map sortedList := by
  cases rs with
  | nil => rfl
  | cons r rs =>
    simp only [normGrs, regsToJson]
    rcases map_eq_cases (grToJson_norm r) with ⟨h1, h2⟩ | ⟨a, b, h1, h2, h3⟩ <;> simp only [h1, h2]
    rcases map_eq_cases (regsToJson_norm rs) with ⟨h4, h5⟩ | ⟨c, d, h4, h5, h6⟩ <;> simp only [h4, h5]
    simp only [Option.map_some, sortedList, h3, h6]
end

end Verif.Tool
