import Verif.Tool.Sort
/-! # Values and graphs read back from JSON with sorted keys -/
namespace Verif.Tool
open Verif.Serde Verif.Graph

/-! ## values -/

/-- sort the items if all keys are strings -/
def normItems (l : List (PyVal × PyVal)) : List (PyVal × PyVal) :=
  match strKeys l with
  | none => l
  | some ks => (sortKeys (ks.zip (l.map Prod.snd))).map fun p => (.str p.1, p.2)

mutual
/-- sort every string-keyed dict (and every table type) inside a value -/
def PyVal.norm : PyVal → PyVal
  | .list xs => .list (normVals xs)
  | .tuple xs => .tuple (normVals xs)
  | .dict items => .dict (normItems (normPairs items))
  | .ty t => .ty (Ty.norm t)
  | .objarray sh xs => .objarray sh (normVals xs)
  | .none => .none
  | .bool b => .bool b
  | .int n => .int n
  | .float n => .float n
  | .str s => .str s
  | .bytes b => .bytes b
  | .ndarray d s b => .ndarray d s b
  | .paTable b => .paTable b
  | .leaf r => .leaf r
  | .tensor d s b => .tensor d s b
  | .tensorObj sh xs => .tensorObj sh (normVals xs)
  | .table b => .table b
/-- see `PyVal.norm` -/
def normVals : List PyVal → List PyVal
  | [] => []
  | x :: xs => PyVal.norm x :: normVals xs
/-- see `PyVal.norm` -/
def normPairs : List (PyVal × PyVal) → List (PyVal × PyVal)
  | [] => []
  | (k, v) :: xs => (PyVal.norm k, PyVal.norm v) :: normPairs xs
end

theorem normVals_eq (xs : List PyVal) : normVals xs = xs.map PyVal.norm := by
  induction xs with
  | nil => rfl
  | cons x xs ih => simp [normVals, ih]

theorem normPairs_eq (xs : List (PyVal × PyVal)) :
    normPairs xs = xs.map fun p => (PyVal.norm p.1, PyVal.norm p.2) := by
  induction xs with
  | nil => rfl
  | cons x xs ih => simp [normPairs, ih]

/-- What is used of python's `==` on dict keys: on strings it is equality, and it does not look at the order of dict items
(no hashable key shows one). -/
structure PyEq (eq : PyVal → PyVal → Bool) : Prop where
  str : ∀ a b : String, eq (.str a) (.str b) = decide (a = b)
  norm : ∀ a b : PyVal, eq (PyVal.norm a) (PyVal.norm b) = eq a b

theorem mapOpt_norm {α β γ : Type} (f : α → Option β) (f' : α → Option β) (g : β → γ) (xs : List α)
    (h : ∀ x ∈ xs, (f' x).map g = (f x).map g) :
    (mapOpt f' xs).map (List.map g) = (mapOpt f xs).map (List.map g) := by
  induction xs with
  | nil => rfl
  | cons x xs ih =>
    have h1 := h x (by simp)
    have h2 := ih fun y hy => h y (by simp [hy])
    simp only [mapOpt]
    cases hf : f x <;> cases hf' : f' x <;> simp only [hf, hf', Option.map_none, Option.map_some] at h1 ⊢
    · cases h1
    · cases h1
    · rename_i a b
      simp only [Option.some.injEq] at h1
      cases hm : mapOpt f xs <;> cases hm' : mapOpt f' xs <;>
        simp only [hm, hm', Option.map_none, Option.map_some, Option.some.injEq] at h2 ⊢
      · cases h2
      · cases h2
      · simp [h1, h2]

theorem mapOpt_comp {α β γ : Type} (f : β → Option γ) (g : α → β) (xs : List α) :
    mapOpt f (xs.map g) = mapOpt (fun x => f (g x)) xs := by
  induction xs with
  | nil => rfl
  | cons x xs ih => simp only [List.map_cons, mapOpt, ih]

theorem mapFields_norm {β γ : Type} (f : Json → Option β) (g : β → γ) (s : Json → Json) (l : List (String × Json))
    (h : ∀ p ∈ l, (f (s p.2)).map g = (f p.2).map g) :
    (mapFields f (l.map fun p => (p.1, s p.2))).map (List.map fun p => (p.1, g p.2))
      = (mapFields f l).map (List.map fun p => (p.1, g p.2)) := by
  induction l with
  | nil => rfl
  | cons x xs ih =>
    have h1 := h x (by simp)
    have h2 := ih fun y hy => h y (by simp [hy])
    simp only [List.map_cons, mapFields]
    cases hf : f x.2 <;> cases hf' : f (s x.2) <;> simp only [hf, hf', Option.map_none, Option.map_some] at h1 ⊢
    · cases h1
    · cases h1
    · rename_i a b
      simp only [Option.some.injEq] at h1
      cases hm : mapFields f xs <;> cases hm' : mapFields f (xs.map fun p => (p.1, s p.2)) <;>
        simp only [hm, hm', Option.map_none, Option.map_some, Option.some.injEq] at h2 ⊢
      · cases h2
      · cases h2
      · simp [h1, h2]

theorem mapFields_keys {β : Type} (f : Json → Option β) (l : List (String × Json)) (r : List (String × β))
    (h : mapFields f l = some r) : r.map Prod.fst = l.map Prod.fst := by
  induction l generalizing r with
  | nil => simp [mapFields] at h; subst h; rfl
  | cons x xs ih =>
    simp only [mapFields] at h
    cases hf : f x.2 with
    | none => simp [hf] at h
    | some y => cases hm : mapFields f xs with
      | none => simp [hf, hm] at h
      | some ys =>
        simp only [hf, hm, Option.some.injEq] at h
        subst h
        simp [ih ys hm]

theorem dictSet_normPairs {eq : PyVal → PyVal → Bool} (he : PyEq eq) (k v : PyVal) (d : List (PyVal × PyVal)) :
    normPairs (dictSet eq k v d) = dictSet eq (PyVal.norm k) (PyVal.norm v) (normPairs d) := by
  induction d with
  | nil => rfl
  | cons x xs ih =>
    obtain ⟨k', v'⟩ := x
    simp only [dictSet, normPairs, he.norm]
    split
    · rfl
    · simp only [normPairs, ih]

theorem dictBuild_normPairs {eq : PyVal → PyVal → Bool} (he : PyEq eq) (ps : List (PyVal × PyVal)) :
    normPairs (dictBuild eq ps) = dictBuild eq (normPairs ps) := by
  have : ∀ (ps d : List (PyVal × PyVal)), normPairs (ps.foldl (fun d p => dictSet eq p.1 p.2 d) d)
      = (normPairs ps).foldl (fun d p => dictSet eq p.1 p.2 d) (normPairs d) := by
    intro ps
    induction ps with
    | nil => intro d; rfl
    | cons p ps ih => intro d; obtain ⟨k, v⟩ := p; simp only [List.foldl_cons, normPairs, ih, dictSet_normPairs he]
  exact this ps []

theorem strKeys_strs (l : List (String × PyVal)) :
    strKeys (l.map fun p => (PyVal.str p.1, p.2)) = some (l.map Prod.fst) := by
  induction l with
  | nil => rfl
  | cons x xs ih => simp only [List.map_cons, strKeys, PyVal.asStr?, ih]

theorem normItems_strs (l : List (String × PyVal)) :
    normItems (l.map fun p => (PyVal.str p.1, p.2)) = (sortKeys l).map fun p => (PyVal.str p.1, p.2) := by
  simp only [normItems, strKeys_strs]
  congr 2
  rw [List.map_map]
  exact zip_fst_snd l

theorem normPairs_strs (l : List (String × PyVal)) :
    normPairs (l.map fun p => (PyVal.str p.1, p.2))
      = (l.map fun p => (p.1, PyVal.norm p.2)).map fun p => (PyVal.str p.1, p.2) := by
  simp only [normPairs_eq, List.map_map]
  rfl

/-- a dict built from string keys, in normal form -/
theorem norm_dict_strs (l : List (String × PyVal)) :
    PyVal.norm (.dict (l.map fun p => (PyVal.str p.1, p.2)))
      = .dict ((sortKeys (l.map fun p => (p.1, PyVal.norm p.2))).map fun p => (PyVal.str p.1, p.2)) := by
  simp only [PyVal.norm, normPairs_strs, normItems_strs]

theorem dictBuild_strs {eq : PyVal → PyVal → Bool} (he : PyEq eq) (l : List (String × PyVal))
    (h : (l.map Prod.fst).Nodup) :
    dictBuild eq (l.map fun p => (PyVal.str p.1, p.2)) = l.map fun p => (PyVal.str p.1, p.2) := by
  apply dictBuild_id
  rw [List.map_map]
  have : (Prod.fst ∘ fun p : String × PyVal => (PyVal.str p.1, p.2)) = fun p => PyVal.str p.1 := rfl
  rw [this, List.pairwise_map]
  rw [List.Nodup, List.pairwise_map] at h
  exact h.imp fun {a b} hab => by simp [he.str, hab]

theorem natsOf_sorted (j : Json) : natsOf (Json.sorted j) = natsOf j := by
  cases j with
  | arr xs =>
    simp only [Json.sorted, natsOf]
    induction xs with
    | nil => rfl
    | cons x xs ih =>
      simp only [sortedList, mapOpt, ih]
      cases x <;> rfl
  | _ => rfl

theorem decPair_norm (f f' : Json → Option PyVal) (j : Json) (hj : DistinctKeys j)
    (h : ∀ x, DistinctKeys x → (f' x).map PyVal.norm = (f x).map PyVal.norm) :
    (decPair f' j).map (fun p => (PyVal.norm p.1, PyVal.norm p.2))
      = (decPair f j).map (fun p => (PyVal.norm p.1, PyVal.norm p.2)) := by
  cases j with
  | arr xs => cases xs with
    | nil => rfl
    | cons a r => cases r with
      | nil => rfl
      | cons b r =>
        simp only [DistinctKeys, distinctList] at hj
        have ha := h a hj.1
        have hb := h b hj.2.1
        simp only [decPair]
        cases h1 : f a <;> cases h1' : f' a <;>
          simp only [h1, h1', Option.map_none, Option.map_some, Option.some.injEq] at ha ⊢
        · cases ha
        · cases ha
        · cases h2 : f b <;> cases h2' : f' b <;>
            simp only [h2, h2', Option.map_none, Option.map_some, Option.some.injEq] at hb ⊢
          · cases hb
          · cases hb
          · simp [ha, hb]
  | _ => rfl

theorem decPair_sorted (f : Json → Option PyVal) (j : Json) :
    decPair f (Json.sorted j) = decPair (fun x => f (Json.sorted x)) j := by
  cases j with
  | arr xs => cases xs with
    | nil => rfl
    | cons a r => cases r with
      | nil => rfl
      | cons b r => rfl
  | _ => rfl

theorem list_norm {f f' : Json → Option PyVal} (xs : List Json) (hx : distinctList xs)
    (h : ∀ x, DistinctKeys x → (f' x).map PyVal.norm = (f x).map PyVal.norm) :
    (mapOpt f' xs).map normVals = (mapOpt f xs).map normVals := by
  have := mapOpt_norm f f' PyVal.norm xs fun x hm => h x (distinctList_mem hx x hm)
  simpa only [← funext normVals_eq] using this

/-- **sorted keys, values**: reading back gives the same value up to the order of dict items -/
theorem getB64_sorted {fs : List (String × Json)} (hd : (fs.map Prod.fst).Nodup) (k : String) :
    getB64 k (sortKeys (sortedFields fs)) = getB64 k fs := by
  simp only [getB64, getStr_sorted hd]

theorem getShape_sorted {fs : List (String × Json)} (hd : (fs.map Prod.fst).Nodup) :
    getShape (sortKeys (sortedFields fs)) = getShape fs := by
  simp only [getShape, lookup_sorted fs hd]
  cases lookup "shape" fs with
  | none => rfl
  | some j => simp only [Option.map_some, natsOf_sorted]

theorem jsonArr_sorted {fs : List (String × Json)} (hd : (fs.map Prod.fst).Nodup) (k : String) :
    jsonArr k (sortKeys (sortedFields fs)) = (jsonArr k fs).map sortedList := by
  simp only [jsonArr, lookup_sorted fs hd]
  cases lookup k fs with
  | none => rfl
  | some v => cases v <;> rfl

theorem mapOpt_b64Item_sorted (xs : List Json) : mapOpt b64Item (sortedList xs) = mapOpt b64Item xs := by
  induction xs with
  | nil => rfl
  | cons x xs ih =>
    have h : b64Item (Json.sorted x) = b64Item x := by cases x <;> rfl
    simp only [sortedList, mapOpt, ih, h]

theorem leafFromJson_sorted {fs : List (String × Json)} (hd : (fs.map Prod.fst).Nodup) (kind : String) :
    leafFromJson kind (sortKeys (sortedFields fs)) = leafFromJson kind fs := by
  simp only [leafFromJson, keyFromJson, getB64_sorted hd, getStr_sorted hd, jsonArr_sorted hd]
  cases jsonArr "share_chunks" fs with
  | none => rfl
  | some cs =>
    cases getB64 "meta" fs with
    | none => rfl
    | some m => simp [mapOpt_b64Item_sorted]

theorem fromJsonF_sorted {eq : PyVal → PyVal → Bool} (he : PyEq eq) (n : Nat) (j : Json) (hj : DistinctKeys j) :
    (fromJsonF eq n (Json.sorted j)).map PyVal.norm = (fromJsonF eq n j).map PyVal.norm := by
  induction n generalizing j with
  | zero => rfl
  | succ n ih =>
    cases j with
    | obj fs =>
      simp only [DistinctKeys] at hj
      have hsub : ∀ k v, lookup k fs = some v → DistinctKeys v :=
        fun k v h => distinctFields_mem hj.2 _ (lookup_mem_fields h)
      simp only [Json.sorted, fromJsonF, lookup_sorted fs hj.1]
      cases lookup "_kind" fs with
      | none => rfl
      | some k => cases k with
        | str kind =>
          simp only [Option.map_some, Json.sorted]
          by_cases h1 : kind = "_null"
          · simp only [if_pos h1]
          simp only [if_neg h1]
          by_cases h2 : kind = "_bool"
          · simp only [if_pos h2]
            cases lookup "v" fs with | none => rfl | some v => cases v <;> rfl
          simp only [if_neg h2]
          by_cases h3 : kind = "_int"
          · simp only [if_pos h3]
            cases lookup "v" fs with | none => rfl | some v => cases v <;> rfl
          simp only [if_neg h3]
          by_cases h4 : kind = "_float"
          · simp only [if_pos h4]
            cases lookup "v" fs with | none => rfl | some v => cases v <;> rfl
          simp only [if_neg h4]
          by_cases h5 : kind = "_str"
          · simp only [if_pos h5]
            cases lookup "v" fs with | none => rfl | some v => cases v <;> rfl
          simp only [if_neg h5]
          by_cases h6 : kind = "_list"
          · simp only [if_pos h6]
            cases hl : lookup "items" fs with
            | none => rfl
            | some v => cases v with
              | arr xs =>
                simp only [Option.map_some, Json.sorted, sortedList_eq, mapOpt_comp, Option.map_map]
                have := list_norm (f := fromJsonF eq n) (f' := fun x => fromJsonF eq n (Json.sorted x)) xs (hsub _ _ hl) ih
                have e : (PyVal.norm ∘ PyVal.list) = (PyVal.list ∘ normVals) := rfl
                rw [e, ← Option.map_map, ← Option.map_map, this]
              | _ => rfl
          simp only [if_neg h6]
          by_cases h7 : kind = "_tuple"
          · simp only [if_pos h7]
            cases hl : lookup "items" fs with
            | none => rfl
            | some v => cases v with
              | arr xs =>
                simp only [Option.map_some, Json.sorted, sortedList_eq, mapOpt_comp, Option.map_map]
                have := list_norm (f := fromJsonF eq n) (f' := fun x => fromJsonF eq n (Json.sorted x)) xs (hsub _ _ hl) ih
                have e : (PyVal.norm ∘ PyVal.tuple) = (PyVal.tuple ∘ normVals) := rfl
                rw [e, ← Option.map_map, ← Option.map_map, this]
              | _ => rfl
          simp only [if_neg h7]
          by_cases h8 : kind = "_dict"
          · simp only [if_pos h8]
            cases hl : lookup "items" fs with
            | none => rfl
            | some v => cases v with
              | obj js =>
                have hd := hsub _ _ hl
                simp only [DistinctKeys] at hd
                simp only [Option.map_some, Json.sorted, mapFields_sortKeys, sortedFields_eq, Option.map_map]
                have hm := mapFields_norm (fromJsonF eq n) PyVal.norm Json.sorted js
                  fun p hp => ih p.2 (distinctFields_mem hd.2 p hp)
                cases ha : mapFields (fromJsonF eq n) (js.map fun p => (p.1, Json.sorted p.2)) <;>
                  cases hb : mapFields (fromJsonF eq n) js <;>
                  simp only [ha, hb, Option.map_none, Option.map_some, Option.some.injEq] at hm ⊢
                · cases hm
                · cases hm
                · rename_i r' r
                  have hk : (r.map Prod.fst).Nodup := by rw [mapFields_keys _ _ _ hb]; exact hd.1
                  have hk' : (r'.map Prod.fst).Nodup := by
                    rw [mapFields_keys _ _ _ ha, List.map_map]; exact hd.1
                  simp only [Function.comp]
                  rw [dictBuild_strs he _ (sortKeys_nodup hk'), dictBuild_strs he _ hk, norm_dict_strs, norm_dict_strs,
                    sortKeys_map, sortKeys_map, sortKeys_idem, ← sortKeys_map, ← sortKeys_map, hm]
              | _ => rfl
          simp only [if_neg h8]
          by_cases h9 : kind = "_dict_pairs"
          · simp only [if_pos h9]
            cases hl : lookup "pairs" fs with
            | none => rfl
            | some v => cases v with
              | arr xs =>
                have hd := hsub _ _ hl
                simp only [DistinctKeys] at hd
                simp only [Option.map_some, Json.sorted, sortedList_eq, mapOpt_comp, decPair_sorted, Option.map_map]
                have hm := mapOpt_norm (decPair (fromJsonF eq n)) (decPair fun x => fromJsonF eq n (Json.sorted x))
                  (fun p => (PyVal.norm p.1, PyVal.norm p.2)) xs
                  fun x hx => decPair_norm _ _ x (distinctList_mem hd x hx) ih
                have e : (PyVal.norm ∘ fun ps => PyVal.dict (dictBuild eq ps))
                    = (fun ps => PyVal.dict (normItems (dictBuild eq ps)))
                      ∘ (List.map fun p => (PyVal.norm p.1, PyVal.norm p.2)) := by
                  funext ps
                  simp only [Function.comp, PyVal.norm, dictBuild_normPairs he, normPairs_eq]
                rw [e, ← Option.map_map, ← Option.map_map, hm]
              | _ => rfl
          simp only [if_neg h9]
          by_cases h10 : kind = "_bytes"
          · simp only [if_pos h10]
            cases lookup "data" fs with | none => rfl | some v => cases v <;> rfl
          simp only [if_neg h10]
          by_cases h11 : kind = "_ndarray"
          · simp only [if_pos h11]
            cases lookup "dtype" fs with
            | none => rfl
            | some d => cases d with
              | str d => cases lookup "shape" fs with
                | none => rfl
                | some sh => cases lookup "data" fs with
                  | none => rfl
                  | some v => cases v <;> first | rfl | simp only [Option.map_some, Json.sorted, natsOf_sorted]
              | _ => rfl
          simp only [if_neg h11]
          by_cases h12 : kind = "_ndarray_object"
          · simp only [if_pos h12]
            cases lookup "shape" fs with
            | none => rfl
            | some sh => cases hl : lookup "items" fs with
              | none => rfl
              | some v => cases v with
                | arr xs =>
                  simp only [Option.map_some, Json.sorted, sortedList_eq, mapOpt_comp, natsOf_sorted]
                  have hm := list_norm (f := fromJsonF eq n) (f' := fun x => fromJsonF eq n (Json.sorted x)) xs
                    (hsub _ _ hl) ih
                  cases natsOf sh with
                  | none => rfl
                  | some s =>
                    cases ha : mapOpt (fun x => fromJsonF eq n (Json.sorted x)) xs <;>
                      cases hb : mapOpt (fromJsonF eq n) xs <;>
                      simp only [ha, hb, Option.map_none, Option.map_some, Option.some.injEq] at hm ⊢
                    · cases hm
                    · cases hm
                    · simp only [PyVal.norm, hm]
                | _ => rfl
          simp only [if_neg h12]
          by_cases h13 : kind = "_pa_table"
          · simp only [if_pos h13, getB64_sorted hj.1]
          simp only [if_neg h13]
          by_cases h14 : kind = "tensor_impl.TensorValue"
          · simp only [if_pos h14, tensorFromJson, getB64_sorted hj.1, getShape_sorted hj.1, getStr_sorted hj.1,
              jsonArr_sorted hj.1]
            cases getShape fs with
            | none => rfl
            | some sh =>
              simp only
              split
              · simp only [jsonArr]
                cases hl : lookup "items" fs with
                | none => rfl
                | some v => cases v with
                  | arr xs =>
                    simp only [Option.map_some, sortedList_eq, mapOpt_comp, Option.map_map]
                    have hm := list_norm (f := fromJsonF eq n) (f' := fun x => fromJsonF eq n (Json.sorted x)) xs
                      (hsub _ _ hl) ih
                    cases ha : mapOpt (fun x => fromJsonF eq n (Json.sorted x)) xs <;>
                      cases hb : mapOpt (fromJsonF eq n) xs <;>
                      simp only [ha, hb, Option.map_none, Option.map_some, Option.some.injEq] at hm ⊢
                    · cases hm
                    · cases hm
                    · simp only [Function.comp, PyVal.norm, hm]
                  | _ => rfl
              · rfl
          simp only [if_neg h14]
          by_cases h15 : kind = "table_impl.TableValue"
          · simp only [if_pos h15, getB64_sorted hj.1]
          simp only [if_neg h15]
          by_cases h16 : kind ∈ leafKinds
          · simp only [if_pos h16, leafFromJson_sorted hj.1]
          simp only [if_neg h16]
          rw [tyClass_sorted _ _ fs hj.1 hj.2 (fun j h => tyFromJsonF_sorted n j h)]
          simp only [Option.map_map]
          have e : (PyVal.norm ∘ PyVal.ty ∘ Ty.norm) = (PyVal.norm ∘ PyVal.ty) := by
            funext t; simp only [Function.comp, PyVal.norm, Ty.norm_idem]
          rw [e]
        | _ => rfl
    | _ => rfl

theorem fromJson_sorted {eq : PyVal → PyVal → Bool} (he : PyEq eq) (j : Json) (hj : DistinctKeys j) :
    (fromJson eq (Json.sorted j)).map PyVal.norm = (fromJson eq j).map PyVal.norm := by
  simp only [fromJson, depth_sorted, fromJsonF_sorted he _ j hj]

/-! ## graphs -/

/-- normal form of the attributes of an operation -/
def normAttrs (as : List (String × PyVal)) : List (String × PyVal) :=
  sortKeys (as.map fun p => (p.1, PyVal.norm p.2))

/-- a value object in normal form -/
def Operand.norm (v : Operand) : Operand := ⟨v.own, v.name, Ty.norm v.ty⟩
/-- a named value in normal form -/
def normVal (v : String × Ty) : String × Ty := (v.1, Ty.norm v.2)

mutual
/-- sort every string-keyed dict inside a graph: attributes, attribute values, table columns -/
def Gr.norm : Gr → Gr
  | .mk ins ops outs => .mk (ins.map normVal) (normOps ops) outs
/-- see `Gr.norm` -/
def OpD.norm : OpD → OpD
  | .mk opcode ins outs attrs regs name =>
    .mk opcode (ins.map Operand.norm) (outs.map normVal) (normAttrs attrs) (normGrs regs) name
/-- see `Gr.norm` -/
def normOps : List OpD → List OpD
  | [] => []
  | o :: os => OpD.norm o :: normOps os
/-- see `Gr.norm` -/
def normGrs : List Gr → List Gr
  | [] => []
  | g :: gs => Gr.norm g :: normGrs gs
end

theorem normOps_eq (ops : List OpD) : normOps ops = ops.map OpD.norm := by
  induction ops with
  | nil => rfl
  | cons x xs ih => simp [normOps, ih]

theorem normGrs_eq (gs : List Gr) : normGrs gs = gs.map Gr.norm := by
  induction gs with
  | nil => rfl
  | cons x xs ih => simp [normGrs, ih]

/-- builder state in normal form -/
def B.norm (b : B) : B :=
  { inputs := b.inputs.map normVal, ops := b.ops.map OpD.norm, outputs := b.outputs, values := b.values.map normVal,
    vc := b.vc, oc := b.oc }

theorem B.norm_graph (b : B) : (B.norm b).graph = Gr.norm b.graph := by
  simp only [B.graph, B.norm, Gr.norm, normOps_eq]

theorem names_norm (vs : List (String × Ty)) : (vs.map normVal).map Prod.fst = vs.map Prod.fst := by
  rw [List.map_map]; rfl

theorem addValue_norm (b : B) (t : Ty) (n : Option String) :
    (B.norm b).addValue (Ty.norm t) n = (B.norm (b.addValue t n).1, (b.addValue t n).2.map normVal) := by
  cases n with
  | none =>
    simp only [B.addValue, B.norm, names_norm]
    split <;> simp [B.norm, normVal]
  | some n =>
    simp only [B.addValue, B.norm, names_norm]
    split <;> simp [B.norm, normVal]

theorem addValues_norm (b : B) (ts : List Ty) :
    (B.norm b).addValues (ts.map Ty.norm) = (B.norm (b.addValues ts).1, (b.addValues ts).2.map (List.map normVal)) := by
  induction ts generalizing b with
  | nil => rfl
  | cons t ts ih =>
    simp only [List.map_cons, B.addValues, addValue_norm]
    cases h : b.addValue t none with
    | mk b' o => cases o with
      | none => rfl
      | some v =>
        simp only [Option.map_some, ih]
        cases h2 : b'.addValues ts with
        | mk b'' o => cases o <;> rfl

theorem addOp_norm (b : B) (opcode : String) (ins : List Operand) (ts : List Ty) (as : List (String × PyVal))
    (rs : List Gr) (as' : List (String × PyVal)) (rs' : List Gr)
    (ha : normAttrs as' = normAttrs as) (hr : rs'.map Gr.norm = rs.map Gr.norm) :
    (((B.norm b).addOp opcode (ins.map Operand.norm) (some (ts.map Ty.norm)) as' rs').2
        = (b.addOp opcode ins (some ts) as rs).2.map (List.map Operand.norm)) ∧
    (((B.norm b).addOp opcode (ins.map Operand.norm) (some (ts.map Ty.norm)) as' rs').1.inputs
        = (B.norm (b.addOp opcode ins (some ts) as rs).1).inputs) := by
  simp only [B.addOp, outTypes, addValues_norm]
  cases h : b.addValues ts with
  | mk b' o => cases o with
    | none => exact ⟨rfl, rfl⟩
    | some vs =>
      refine ⟨?_, rfl⟩
      simp only [Option.map_some, List.map_map]
      rfl

theorem getVal_norm (k : String) (vs : List (String × Ty)) : getVal k (vs.map normVal) = (getVal k vs).map Ty.norm := by
  induction vs with
  | nil => rfl
  | cons v vs ih => obtain ⟨n, t⟩ := v; simp only [List.map_cons, normVal, getVal]; split <;> simp [← ih, normVal]

theorem resolveNames_norm (vs : List (String × Ty)) (ns : List String) :
    resolveNames (vs.map normVal) ns = (resolveNames vs ns).map (List.map Operand.norm) := by
  induction ns with
  | nil => rfl
  | cons n ns ih =>
    simp only [resolveNames] at ih
    simp only [resolveNames, mapOpt, ih]
    rw [getVal_norm]
    cases getVal n vs with
    | none => rfl
    | some t =>
      simp only [Option.map_some]
      generalize mapOpt _ ns = r
      cases r <;> rfl

theorem setVal_norm (k : String) (t : Ty) (vs : List (String × Ty)) :
    setVal k (Ty.norm t) (vs.map normVal) = (setVal k t vs).map normVal := by
  induction vs with
  | nil => rfl
  | cons v vs ih => obtain ⟨n, t'⟩ := v; simp only [List.map_cons, normVal, setVal]; split <;> simp [← ih, normVal]

theorem delVal_norm (k : String) (vs : List (String × Ty)) : delVal k (vs.map normVal) = (delVal k vs).map normVal := by
  simp only [delVal, List.filter_map]
  rfl

theorem renameOuts_norm (vs : List Operand) (ns : List String) (values : List (String × Ty)) :
    renameOuts (vs.map Operand.norm) ns (values.map normVal)
      = (renameOuts vs ns values).map fun r => (r.1.map normVal, r.2.map normVal) := by
  induction vs generalizing ns values with
  | nil => cases ns <;> rfl
  | cons v vs ih =>
    cases ns with
    | nil =>
      simp only [List.map_cons, renameOuts, Option.map_some, Option.some.injEq, Prod.mk.injEq, true_and, List.map_map]
      rfl
    | cons n ns =>
      simp only [List.map_cons, renameOuts, names_norm]
      by_cases h1 : v.name = n
      · rw [if_pos h1, if_pos (show (Operand.norm v).name = n from h1), ih]
        cases renameOuts vs ns values <;> simp [Operand.norm, normVal]
      · rw [if_neg h1, if_neg (show ¬ (Operand.norm v).name = n from h1)]
        by_cases h2 : v.name ∈ values.map Prod.fst
        · rw [if_pos h2, if_pos (show (Operand.norm v).name ∈ _ from h2)]
          have : setVal n (Operand.norm v).ty (delVal (Operand.norm v).name (values.map normVal))
              = (setVal n v.ty (delVal v.name values)).map normVal := by
            simp only [Operand.norm, delVal_norm, setVal_norm]
          rw [this, ih]
          cases renameOuts vs ns (setVal n v.ty (delVal v.name values)) <;> simp [Operand.norm, normVal]
        · rw [if_neg h2, if_neg (show ¬ (Operand.norm v).name ∈ _ from h2)]; rfl

theorem setLast_norm (os : List (String × Ty)) (name : String) (ops : List OpD) :
    setLast (os.map normVal) name (ops.map OpD.norm) = (setLast os name ops).map OpD.norm := by
  induction ops with
  | nil => rfl
  | cons o ops ih =>
    cases ops with
    | nil => cases o; rfl
    | cons o2 ops =>
      have h1 : setLast os name (o :: o2 :: ops) = o :: setLast os name (o2 :: ops) := by cases o; rfl
      have h2 : setLast (os.map normVal) name ((o :: o2 :: ops).map OpD.norm)
          = OpD.norm o :: setLast (os.map normVal) name ((o2 :: ops).map OpD.norm) := by
        simp only [List.map_cons]
        cases o; rfl
      rw [h1, h2, ih, List.map_cons]

/-- the second half of `opFromJson`: apply a decoded operation to the builder (edsl/graph.py:428-460) -/
def applyOp (b : B) (opcode : String) (ns : List String) (outs : List (String × Ty)) (attrs : List (String × PyVal))
    (regs : List Gr) (name : String) : Option B :=
  match resolveNames b.values ns with
  | none => none
  | some ins => match b.addOp opcode ins (some (outs.map Prod.snd)) attrs regs with
    | (_, none) => none
    | (b', some vs) => match renameOuts vs (outs.map Prod.fst) b'.values with
      | none => none
      | some (values, os) => some { b' with values := values, ops := setLast os name b'.ops }

theorem normAttrs_idem (as : List (String × PyVal)) (h : ∀ a ∈ as, PyVal.norm (PyVal.norm a.2) = PyVal.norm a.2) :
    normAttrs (normAttrs as) = normAttrs as := by
  simp only [normAttrs]
  rw [sortKeys_map, sortKeys_idem, ← sortKeys_map, List.map_map]
  congr 1
  apply List.map_congr_left
  intro a ha
  simp [h a ha]

theorem setLast_snoc (os : List (String × Ty)) (name : String) (pre : List OpD) (o : String) (i : List Operand)
    (outs : List (String × Ty)) (a : List (String × PyVal)) (r : List Gr) (n : String) :
    setLast os name (pre ++ [.mk o i outs a r n]) = pre ++ [.mk o i os a r (if name = "" then n else name)] := by
  induction pre with
  | nil => rfl
  | cons x pre ih =>
    cases pre with
    | nil => cases x; rfl
    | cons y pre =>
      have : setLast os name ((x :: y :: pre) ++ [.mk o i outs a r n])
          = x :: setLast os name ((y :: pre) ++ [.mk o i outs a r n]) := by cases x; rfl
      rw [this, ih]; rfl

/-- the normal form of the result depends only on the normal form of the arguments -/
theorem applyOp_norm (b b' : B) (hb : B.norm b' = B.norm b) (opcode : String) (ns : List String)
    (outs outs' : List (String × Ty)) (ho : outs'.map normVal = outs.map normVal)
    (attrs attrs' : List (String × PyVal)) (ha : normAttrs attrs' = normAttrs attrs) (regs regs' : List Gr)
    (hr : regs'.map Gr.norm = regs.map Gr.norm) (name : String) :
    (applyOp b' opcode ns outs' attrs' regs' name).map B.norm = (applyOp b opcode ns outs attrs regs name).map B.norm := by
  -- both sides are a function of normal forms
  have key : ∀ (b : B) (outs : List (String × Ty)) (attrs : List (String × PyVal)) (regs : List Gr),
      (applyOp b opcode ns outs attrs regs name).map B.norm =
        match resolveNames (B.norm b).values ns with
        | none => none
        | some ins => match (B.norm b).addValues ((outs.map normVal).map Prod.snd) with
          | (_, none) => none
          | (b', some vs) =>
            match renameOuts (vs.map fun v => ⟨true, v.1, v.2⟩) ((outs.map normVal).map Prod.fst) b'.values with
            | none => none
            | some (values, os) => some { b' with
                oc := b'.oc + 1, values := values,
                ops := b'.ops ++ [.mk opcode ins os (normAttrs attrs) (regs.map Gr.norm)
                  (if name = "" then opName b'.oc else name)] } := by
    intro b outs attrs regs
    have e1 : (outs.map normVal).map Prod.snd = (outs.map Prod.snd).map Ty.norm := by
      simp only [List.map_map]; rfl
    rw [e1, addValues_norm, names_norm]
    have e2 : (B.norm b).values = b.values.map normVal := rfl
    rw [e2, resolveNames_norm]
    simp only [applyOp, B.addOp, outTypes]
    cases resolveNames b.values ns with
    | none => rfl
    | some ins =>
      simp only [Option.map_some]
      cases h : b.addValues (outs.map Prod.snd) with
      | mk b1 o => cases o with
        | none => rfl
        | some vs =>
          simp only [Option.map_some]
          have e3 : (List.map (fun v : String × Ty => (⟨true, v.1, v.2⟩ : Operand)) (vs.map normVal))
              = (vs.map fun v => (⟨true, v.1, v.2⟩ : Operand)).map Operand.norm := by
            simp only [List.map_map]; rfl
          have e4 : (B.norm b1).values = b1.values.map normVal := rfl
          rw [e3, e4, renameOuts_norm]
          cases renameOuts (vs.map fun v => ⟨true, v.1, v.2⟩) (outs.map Prod.fst) b1.values with
          | none => rfl
          | some r =>
            obtain ⟨values, os⟩ := r
            simp only [Option.map_some, B.norm, setLast_snoc, List.map_append, List.map_cons, List.map_nil, OpD.norm,
              normGrs_eq]
  rw [key, key, hb, ho, ha, hr]

theorem opFromJson_apply (eq : PyVal → PyVal → Bool) (rec : Json → Option Gr) (b : B) (fs : List (String × Json)) :
    opFromJson eq rec b (.obj fs) = match getStr "opcode" fs, getArr "inputs" fs, getArr "outputs" fs, getObjD "attrs" fs,
        getArrD "regions" fs, getName fs with
    | some opcode, some jins, some jouts, some jattrs, some jregs, some name =>
      match mapOpt strFromJson jins, mapOpt valFromJson jouts, mapFields (fromJson eq) jattrs, mapOpt rec jregs with
      | some ns, some outs, some attrs, some regs => applyOp b opcode ns outs attrs regs name
      | _, _, _, _ => none
    | _, _, _, _, _, _ => none := rfl

theorem mapOpt_str_sorted (xs : List Json) : mapOpt strFromJson (sortedList xs) = mapOpt strFromJson xs := by
  induction xs with
  | nil => rfl
  | cons x xs ih => simp only [sortedList, mapOpt, ih]; cases x <;> rfl

theorem valFromJson_sorted (j : Json) (hj : DistinctKeys j) :
    valFromJson (Json.sorted j) = (valFromJson j).map normVal := by
  cases j with
  | obj fs =>
    simp only [DistinctKeys] at hj
    simp only [Json.sorted, valFromJson, getStr_sorted hj.1, lookup_sorted fs hj.1]
    cases getStr "name" fs with
    | none => rfl
    | some n => cases hl : lookup "type" fs with
      | none => rfl
      | some jt =>
        simp only [Option.map_some, tyFromJson_sorted jt (distinctFields_mem hj.2 _ (lookup_mem_fields hl)),
          Option.map_map]
        rfl
  | _ => rfl

theorem mapOpt_val_sorted (xs : List Json) (h : distinctList xs) :
    mapOpt valFromJson (sortedList xs) = (mapOpt valFromJson xs).map (List.map normVal) := by
  induction xs with
  | nil => rfl
  | cons x xs ih =>
    simp only [distinctList] at h
    simp only [sortedList, mapOpt, valFromJson_sorted x h.1, ih h.2]
    cases valFromJson x with
    | none => rfl
    | some v => cases mapOpt valFromJson xs <;> rfl

theorem normVal_idem (v : String × Ty) : normVal (normVal v) = normVal v := by
  simp only [normVal, Ty.norm_idem]

theorem map_normVal_idem (vs : List (String × Ty)) : (vs.map normVal).map normVal = vs.map normVal := by
  rw [List.map_map]
  exact List.map_congr_left fun v _ => normVal_idem v

section
variable {fs : List (String × Json)} (hd : (fs.map Prod.fst).Nodup)
include hd

theorem getArr_sorted (k : String) : getArr k (sortKeys (sortedFields fs)) = (getArr k fs).map sortedList := by
  simp only [getArr, lookup_sorted fs hd]
  cases lookup k fs with
  | none => rfl
  | some j => cases j <;> rfl

theorem getArrD_sorted (k : String) : getArrD k (sortKeys (sortedFields fs)) = (getArrD k fs).map sortedList := by
  simp only [getArrD, lookup_sorted fs hd]
  cases lookup k fs with
  | none => rfl
  | some j => cases j <;> rfl

theorem getObjD_sorted (k : String) :
    getObjD k (sortKeys (sortedFields fs)) = (getObjD k fs).map fun l => sortKeys (sortedFields l) := by
  simp only [getObjD, lookup_sorted fs hd]
  cases lookup k fs with
  | none => rfl
  | some j => cases j <;> rfl

theorem getName_sorted : getName (sortKeys (sortedFields fs)) = getName fs := by
  simp only [getName, lookup_sorted fs hd]
  cases lookup "name" fs with
  | none => rfl
  | some j => cases j <;> rfl
end

theorem getArr_distinct {fs : List (String × Json)} (hf : distinctFields fs) {k : String} {xs : List Json}
    (h : getArr k fs = some xs) : distinctList xs := by
  simp only [getArr] at h
  cases hl : lookup k fs with
  | none => simp [hl] at h
  | some j => cases j with
    | arr ys => simp [hl] at h; subst h; exact distinctFields_mem hf _ (lookup_mem_fields hl)
    | _ => simp [hl] at h

theorem getArrD_distinct {fs : List (String × Json)} (hf : distinctFields fs) {k : String} {xs : List Json}
    (h : getArrD k fs = some xs) : distinctList xs := by
  simp only [getArrD] at h
  cases hl : lookup k fs with
  | none => simp [hl] at h; subst h; trivial
  | some j => cases j with
    | arr ys => simp [hl] at h; subst h; exact distinctFields_mem hf _ (lookup_mem_fields hl)
    | _ => simp [hl] at h

theorem getObjD_distinct {fs : List (String × Json)} (hf : distinctFields fs) {k : String} {xs : List (String × Json)}
    (h : getObjD k fs = some xs) : distinctFields xs := by
  simp only [getObjD] at h
  cases hl : lookup k fs with
  | none => simp [hl] at h; subst h; trivial
  | some j => cases j with
    | obj ys => simp [hl] at h; subst h; exact (distinctFields_mem hf _ (lookup_mem_fields hl)).2
    | _ => simp [hl] at h

theorem attrs_sorted {eq : PyVal → PyVal → Bool} (he : PyEq eq) (ja : List (String × Json)) (h : distinctFields ja) :
    (mapFields (fromJson eq) (sortKeys (sortedFields ja))).map normAttrs = (mapFields (fromJson eq) ja).map normAttrs := by
  rw [mapFields_sortKeys, sortedFields_eq]
  have hm := mapFields_norm (fromJson eq) PyVal.norm Json.sorted ja
    fun p hp => fromJson_sorted he p.2 (distinctFields_mem h p hp)
  cases ha : mapFields (fromJson eq) (ja.map fun p => (p.1, Json.sorted p.2)) <;>
    cases hb : mapFields (fromJson eq) ja <;>
    simp only [ha, hb, Option.map_none, Option.map_some, Option.some.injEq] at hm ⊢
  · cases hm
  · cases hm
  · simp only [normAttrs]
    rw [sortKeys_map, sortKeys_idem, ← sortKeys_map, hm]

theorem opFromJson_sorted {eq : PyVal → PyVal → Bool} (he : PyEq eq) (rec : Json → Option Gr)
    (hrec : ∀ j, DistinctKeys j → (rec (Json.sorted j)).map Gr.norm = (rec j).map Gr.norm)
    (b b' : B) (hb : B.norm b' = B.norm b) (j : Json) (hj : DistinctKeys j) :
    (opFromJson eq rec b' (Json.sorted j)).map B.norm = (opFromJson eq rec b j).map B.norm := by
  cases j with
  | obj fs =>
    simp only [DistinctKeys] at hj
    simp only [Json.sorted, opFromJson_apply, getStr_sorted hj.1, getArr_sorted hj.1, getObjD_sorted hj.1,
      getArrD_sorted hj.1, getName_sorted hj.1]
    cases getStr "opcode" fs with
    | none => rfl
    | some opcode => cases h1 : getArr "inputs" fs with
      | none => rfl
      | some jins => cases h2 : getArr "outputs" fs with
        | none => rfl
        | some jouts => cases h3 : getObjD "attrs" fs with
          | none => rfl
          | some ja => cases h4 : getArrD "regions" fs with
            | none => rfl
            | some jr => cases getName fs with
              | none => rfl
              | some name =>
                simp only [Option.map_some, mapOpt_str_sorted, mapOpt_val_sorted _ (getArr_distinct hj.2 h2)]
                have ha := attrs_sorted he ja (getObjD_distinct hj.2 h3)
                have hr := mapOpt_norm rec (fun x => rec (Json.sorted x)) Gr.norm jr
                  fun x hx => hrec x (distinctList_mem (getArrD_distinct hj.2 h4) x hx)
                rw [← mapOpt_comp, ← sortedList_eq] at hr
                cases mapOpt strFromJson jins with
                | none => rfl
                | some ns => cases mapOpt valFromJson jouts with
                  | none => rfl
                  | some outs =>
                    simp only [Option.map_some]
                    cases ha1 : mapFields (fromJson eq) (sortKeys (sortedFields ja)) <;>
                      cases ha2 : mapFields (fromJson eq) ja <;>
                      simp only [ha1, ha2, Option.map_none, Option.map_some, Option.some.injEq] at ha ⊢
                    · cases ha
                    · cases ha
                    · cases hr1 : mapOpt rec (sortedList jr) <;> cases hr2 : mapOpt rec jr <;>
                        simp only [hr1, hr2, Option.map_none, Option.map_some, Option.some.injEq] at hr ⊢
                      · cases hr
                      · cases hr
                      · exact applyOp_norm b b' hb opcode ns outs _ (map_normVal_idem outs) _ _ ha _ _ hr name
  | _ => rfl

theorem opsFromJson_sorted {eq : PyVal → PyVal → Bool} (he : PyEq eq) (rec : Json → Option Gr)
    (hrec : ∀ j, DistinctKeys j → (rec (Json.sorted j)).map Gr.norm = (rec j).map Gr.norm)
    (js : List Json) (hj : distinctList js) (b b' : B) (hb : B.norm b' = B.norm b) :
    (opsFromJson eq rec (sortedList js) b').map B.norm = (opsFromJson eq rec js b).map B.norm := by
  induction js generalizing b b' with
  | nil => simp only [sortedList, opsFromJson, Option.map_some, hb]
  | cons j js ih =>
    simp only [distinctList] at hj
    have h1 := opFromJson_sorted he rec hrec b b' hb j hj.1
    simp only [sortedList, opsFromJson]
    cases ha : opFromJson eq rec b' (Json.sorted j) <;> cases hc : opFromJson eq rec b j <;>
      simp only [ha, hc, Option.map_none, Option.map_some, Option.some.injEq] at h1 ⊢
    · cases h1
    · cases h1
    · exact ih hj.2 _ _ h1

theorem addInputs_norm (ins : List (String × Ty)) (b b' : B) (hb : B.norm b' = B.norm b) :
    (addInputs (ins.map normVal) b').map B.norm = (addInputs ins b).map B.norm := by
  induction ins generalizing b b' with
  | nil => simp only [List.map_nil, addInputs, Option.map_some, hb]
  | cons v ins ih =>
    obtain ⟨n, t⟩ := v
    have e : (b'.values.map Prod.fst) = b.values.map Prod.fst := by
      have := congrArg (fun x : B => x.values.map Prod.fst) hb
      simpa only [B.norm, names_norm] using this
    simp only [List.map_cons, normVal, addInputs, B.addInput, B.addValue, e]
    by_cases h : n ∈ b.values.map Prod.fst
    · simp only [h, if_true, Option.map_none]
    · simp only [h, if_false]
      refine ih _ _ ?_
      simp only [B.norm, B.mk.injEq, List.map_append, List.map_cons, List.map_nil, normVal, Ty.norm_idem] at hb ⊢
      obtain ⟨h1, h2, h3, h4, h5, h6⟩ := hb
      refine ⟨?_, h2, h3, ?_, h5, h6⟩
      · exact congrArg (· ++ _) h1
      · exact congrArg (· ++ _) h4

theorem addOutputs_norm (ns : List String) (b b' : B) (hb : B.norm b' = B.norm b) :
    (addOutputs ns b').map B.norm = (addOutputs ns b).map B.norm := by
  induction ns generalizing b b' with
  | nil => simp only [addOutputs, Option.map_some, hb]
  | cons n ns ih =>
    have e : (b'.values.map Prod.fst) = b.values.map Prod.fst := by
      have := congrArg (fun x : B => x.values.map Prod.fst) hb
      simpa only [B.norm, names_norm] using this
    have ev : (getVal n b'.values).map Ty.norm = (getVal n b.values).map Ty.norm := by
      rw [← getVal_norm, ← getVal_norm]
      exact congrArg (fun x : B => getVal n x.values) hb
    simp only [addOutputs]
    cases h1 : getVal n b'.values <;> cases h2 : getVal n b.values <;>
      simp only [h1, h2, Option.map_none, Option.map_some, Option.some.injEq] at ev ⊢
    · cases ev
    · cases ev
    · simp only [B.addOutput, e]
      by_cases h : n ∈ b.values.map Prod.fst
      · simp only [h, and_self, if_true]
        refine ih _ _ ?_
        simp only [B.norm, B.mk.injEq] at hb ⊢
        obtain ⟨h1, h2, h3, h4, h5, h6⟩ := hb
        exact ⟨h1, h2, by rw [h3], h4, h5, h6⟩
      · simp only [h, and_false, if_false, Option.map_none]

/-- **sorted keys, graphs** -/
theorem grFromJsonF_sorted {eq : PyVal → PyVal → Bool} (he : PyEq eq) (n : Nat) (j : Json) (hj : DistinctKeys j) :
    (grFromJsonF eq n (Json.sorted j)).map Gr.norm = (grFromJsonF eq n j).map Gr.norm := by
  induction n generalizing j with
  | zero => rfl
  | succ n ih =>
    cases j with
    | obj fs =>
      simp only [DistinctKeys] at hj
      simp only [Json.sorted, grFromJsonF, lookup_sorted fs hj.1, getArr_sorted hj.1]
      cases lookup "_kind" fs with
      | none => rfl
      | some k => cases k with
        | str kind =>
          simp only [Option.map_some, Json.sorted]
          by_cases hk : kind = "mplang.Graph"
          · simp only [if_pos hk]
            cases h1 : getArr "inputs" fs with
            | none => rfl
            | some ji => cases h2 : getArr "operations" fs with
              | none => rfl
              | some jo => cases h3 : getArr "outputs" fs with
                | none => rfl
                | some jout =>
                  simp only [Option.map_some, mapOpt_str_sorted, mapOpt_val_sorted _ (getArr_distinct hj.2 h1)]
                  cases mapOpt valFromJson ji with
                  | none => rfl
                  | some ins => cases mapOpt strFromJson jout with
                    | none => rfl
                    | some outs =>
                      simp only [Option.map_some]
                      have hi := addInputs_norm ins {} {} rfl
                      cases ha : addInputs (ins.map normVal) {} <;> cases hb : addInputs ins {} <;>
                        simp only [ha, hb, Option.map_none, Option.map_some, Option.some.injEq] at hi ⊢
                      · cases hi
                      · cases hi
                      · rename_i b' b
                        have ho := opsFromJson_sorted he (grFromJsonF eq n) ih jo (getArr_distinct hj.2 h2) b b' hi
                        cases hc : opsFromJson eq (grFromJsonF eq n) (sortedList jo) b' <;>
                          cases hd : opsFromJson eq (grFromJsonF eq n) jo b <;>
                          simp only [hc, hd, Option.map_none, Option.map_some, Option.some.injEq] at ho ⊢
                        · cases ho
                        · cases ho
                        · have hf := addOutputs_norm outs _ _ ho
                          have e : (Gr.norm ∘ B.graph) = (B.graph ∘ B.norm) := funext fun b => (B.norm_graph b).symm
                          rw [Option.map_map, Option.map_map, e, ← Option.map_map, ← Option.map_map, hf]
          · simp only [if_neg hk]
        | _ => rfl
    | _ => rfl

theorem grFromJson_sorted {eq : PyVal → PyVal → Bool} (he : PyEq eq) (j : Json) (hj : DistinctKeys j) :
    (grFromJson eq (Json.sorted j)).map Gr.norm = (grFromJson eq j).map Gr.norm := by
  simp only [grFromJson, depth_sorted, grFromJsonF_sorted he _ j hj]

end Verif.Tool
