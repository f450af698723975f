import Verif.Serde.Lemmas
/-!
# Properties C01, C02, C04: JSON round trips, equality and hashing of types
-/
namespace Verif.Serde

/-! ## Specification vocabulary -/

mutual
/-- The type contains one of the PHE classes (`phe.KeyType`, `phe.PlaintextType`, `phe.CiphertextType`), which have no
registered serialisation. -/
def Ty.mentionsPhe : Ty → Bool
  | .pheKey .. | .phePlain .. | .pheCipher .. => true
  | .tensor e _ => e.mentionsPhe
  | .vector e _ => e.mentionsPhe
  | .table sch _ => schemaMentionsPhe sch
  | .ss p _ => p.mentionsPhe
  | .mp v _ => v.mentionsPhe
  | .bfvPlain v => v.mentionsPhe
  | .bfvCipher v => v.mentionsPhe
  | _ => false
/-- see `Ty.mentionsPhe` -/
def schemaMentionsPhe : List (String × Ty) → Bool
  | [] => false
  | (_, t) :: r => t.mentionsPhe || schemaMentionsPhe r
end

/-- a nested sample type used by the non-vacuity examples -/
def sampleTy : Ty :=
  .mp (.table [("id", .int 64 true), ("x", .tensor (.complex 32) [-1, 3])] 7) (some [0, 2])

/-! ## C01 -/

/-- C01. Every type object whose serialisation does not raise is recovered exactly by `from_json`. -/
theorem type_json_roundtrip (t : Ty) (hv : t.valid = true) (j : Json) (h : tyToJson t = some j) :
    tyFromJson j = some t :=
  tyFromJsonF_toJson t hv j h _ (Nat.le_refl _)

example : sampleTy.valid = true ∧ (tyToJson sampleTy).isSome = true := by decide

mutual
theorem tyToJson_none_iff (t : Ty) : tyToJson t = none ↔ t.mentionsPhe = true := by
  cases t with
  | tensor e sh => have := tyToJson_none_iff e; simp only [tyToJson, Ty.mentionsPhe]; split <;> simp_all
  | vector e sh => have := tyToJson_none_iff e; simp only [tyToJson, Ty.mentionsPhe]; split <;> simp_all
  | ss e sh => have := tyToJson_none_iff e; simp only [tyToJson, Ty.mentionsPhe]; split <;> simp_all
  | mp e sh => have := tyToJson_none_iff e; simp only [tyToJson, Ty.mentionsPhe]; split <;> simp_all
  | bfvPlain e => have := tyToJson_none_iff e; simp only [tyToJson, Ty.mentionsPhe]; split <;> simp_all
  | bfvCipher e => have := tyToJson_none_iff e; simp only [tyToJson, Ty.mentionsPhe]; split <;> simp_all
  | table sch n =>
    have := schemaToJson_none_iff sch; simp only [tyToJson, Ty.mentionsPhe]; split <;> simp_all
  | _ => simp [tyToJson, Ty.mentionsPhe]
theorem schemaToJson_none_iff (sch : List (String × Ty)) :
    schemaToJson sch = none ↔ schemaMentionsPhe sch = true := by
  match sch with
  | [] => simp [schemaToJson, schemaMentionsPhe]
  | (c, t) :: r =>
    have h1 := tyToJson_none_iff t
    have h2 := schemaToJson_none_iff r
    simp only [schemaToJson, schemaMentionsPhe]
    split
    · simp_all
    · split <;> simp_all
end

/-- C01, error branch: serialising a type raises exactly when it mentions a PHE class. -/
theorem type_json_raises_iff (t : Ty) : tyToJson t = none ↔ t.mentionsPhe = true := tyToJson_none_iff t

/-- C01, combined: a valid type without PHE component is serialised and read back unchanged. -/
theorem type_json_total_roundtrip (t : Ty) (hv : t.valid = true) (hp : t.mentionsPhe = false) :
    ∃ j, tyToJson t = some j ∧ tyFromJson j = some t := by
  cases h : tyToJson t with
  | none => rw [tyToJson_none_iff] at h; simp [hp] at h
  | some j => exact ⟨j, rfl, type_json_roundtrip t hv j h⟩

example : sampleTy.mentionsPhe = false := by decide

/-- C01: serialisation is injective on valid types: two different types never share a JSON form. -/
theorem type_json_injective (t t' : Ty) (hv : t.valid = true) (hv' : t'.valid = true) (j : Json)
    (h : tyToJson t = some j) (h' : tyToJson t' = some j) : t = t' := by
  have h1 := type_json_roundtrip t hv j h
  have h2 := type_json_roundtrip t' hv' j h'
  rw [h1] at h2; exact Option.some.inj h2

/-! ## C02 -/

/-- C02. Every value (nested lists, tuples, dicts, bytes, types, arrays, tables and the runtime values of the backends:
tensors, keys, points, quotes, secret shares) whose serialisation does not raise
is recovered exactly, container kinds, key types, key order and all.  `eq` is python's key equality; it only has to tell
apart the keys that are in one and the same dict. -/
theorem value_json_roundtrip (eq : PyVal → PyVal → Bool) (v : PyVal) (hv : v.WF eq) (j : Json)
    (h : toJson v = some j) : fromJson eq j = some v :=
  fromJsonF_toJson eq v hv j h _ (Nat.le_refl _)

/-- sample: dict with int keys holding a tuple, a dict that looks like a tagged object, bytes, a tensor of elliptic-curve
points, a numeric tensor and a secret share -/
def sampleVal : PyVal :=
  .dict [(.int 1, .tuple [.bool true, .int 1, .list []]),
         (.int 2, .dict [(.str "_kind", .str "_null"), (.str "v", .bytes [0, 255, 17])]),
         (.int 3, .tensorObj [2, 1] [.leaf (.ecPoint [4, 1]), .leaf (.ecPoint [4, 2])]),
         (.int 4, .list [.tensor "uint8" [2] [7, 8], .leaf (.share [1] [[2, 3], []]), .leaf (.symKey "x25519" [9])])]

/-- python key equality on ints and strings, for the example -/
def sampleEq : PyVal → PyVal → Bool
  | .int a, .int b => a == b
  | .str a, .str b => a == b
  | _, _ => false

example : sampleVal.WF sampleEq ∧ (toJson sampleVal).isSome = true := by
  refine ⟨?_, by decide⟩
  simp [sampleVal, PyVal.WF, WFPairs, WFList, RtLeaf.WF, sampleEq]

mutual
/-- the value contains no type object that mentions a PHE class -/
def PyVal.noPhe : PyVal → Bool
  | .ty t => !t.mentionsPhe
  | .list xs => noPheList xs
  | .tuple xs => noPheList xs
  | .objarray _ xs => noPheList xs
  | .tensorObj _ xs => noPheList xs
  | .dict ps => noPhePairs ps
  | _ => true
/-- see `PyVal.noPhe` -/
def noPheList : List PyVal → Bool
  | [] => true
  | x :: xs => x.noPhe && noPheList xs
/-- see `PyVal.noPhe` -/
def noPhePairs : List (PyVal × PyVal) → Bool
  | [] => true
  | (k, v) :: xs => k.noPhe && v.noPhe && noPhePairs xs
end

mutual
theorem toJson_total (v : PyVal) (h : v.noPhe = true) : ∃ j, toJson v = some j := by
  cases v with
  | ty t =>
    simp only [PyVal.noPhe, Bool.not_eq_true'] at h
    simp only [toJson]
    cases ht : tyToJson t with
    | none => rw [tyToJson_none_iff] at ht; simp [h] at ht
    | some j => exact ⟨j, rfl⟩
  | list xs => obtain ⟨js, hj⟩ := toJsonList_total xs (by simpa [PyVal.noPhe] using h); simp [toJson, hj]
  | tuple xs => obtain ⟨js, hj⟩ := toJsonList_total xs (by simpa [PyVal.noPhe] using h); simp [toJson, hj]
  | objarray s xs => obtain ⟨js, hj⟩ := toJsonList_total xs (by simpa [PyVal.noPhe] using h); simp [toJson, hj]
  | tensorObj s xs => obtain ⟨js, hj⟩ := toJsonList_total xs (by simpa [PyVal.noPhe] using h); simp [toJson, hj]
  | dict ps =>
    obtain ⟨js, hj⟩ := toJsonPairs_total ps (by simpa [PyVal.noPhe] using h)
    simp only [toJson, hj]; split <;> simp
  | _ => simp [toJson]
theorem toJsonList_total (xs : List PyVal) (h : noPheList xs = true) : ∃ js, toJsonList xs = some js := by
  match xs with
  | [] => simp [toJsonList]
  | x :: r =>
    simp only [noPheList, Bool.and_eq_true] at h
    obtain ⟨j, hj⟩ := toJson_total x h.1
    obtain ⟨js, hjs⟩ := toJsonList_total r h.2
    simp [toJsonList, hj, hjs]
theorem toJsonPairs_total (xs : List (PyVal × PyVal)) (h : noPhePairs xs = true) :
    ∃ js, toJsonPairs xs = some js := by
  match xs with
  | [] => simp [toJsonPairs]
  | (k, v) :: r =>
    simp only [noPhePairs, Bool.and_eq_true] at h
    obtain ⟨jk, hjk⟩ := toJson_total k h.1.1
    obtain ⟨jv, hjv⟩ := toJson_total v h.1.2
    obtain ⟨js, hjs⟩ := toJsonPairs_total r h.2
    simp [toJsonPairs, hjk, hjv, hjs]
end

/-- C02, totality: serialisation never raises on values free of PHE types, and the result reads back unchanged. -/
theorem value_json_total_roundtrip (eq : PyVal → PyVal → Bool) (v : PyVal) (hv : v.WF eq) (hp : v.noPhe = true) :
    ∃ j, toJson v = some j ∧ fromJson eq j = some v := by
  obtain ⟨j, hj⟩ := toJson_total v hp
  exact ⟨j, hj, value_json_roundtrip eq v hv j hj⟩

example : sampleVal.noPhe = true := by decide

/-! ## C04 -/

mutual
/-- the type contains no table with two or more columns -/
def Ty.noWideTable : Ty → Bool
  | .tensor e _ => e.noWideTable
  | .vector e _ => e.noWideTable
  | .table sch _ => sch.length ≤ 1 && schemaNoWide sch
  | .ss p _ => p.noWideTable
  | .mp v _ => v.noWideTable
  | .bfvPlain v => v.noWideTable
  | .bfvCipher v => v.noWideTable
  | _ => true
/-- see `Ty.noWideTable` -/
def schemaNoWide : List (String × Ty) → Bool
  | [] => true
  | (_, t) :: r => t.noWideTable && schemaNoWide r
end

/-- C04 is violated by the code: two table types that differ only in column order are equal but hash differently. -/
theorem type_eq_implies_hash_eq_violated :
    ∃ a b : Ty, a.valid = true ∧ b.valid = true ∧ a.eq b = true ∧ a.hkey ≠ b.hkey := by
  refine ⟨.table [("a", .int 8 true), ("b", .float 32)] (-1), .table [("b", .float 32), ("a", .int 8 true)] (-1),
    by decide, by decide, by simp [Ty.eq, schemaEq, colEq], ?_⟩
  intro h
  simp [Ty.hkey, schemaHkey] at h

mutual
theorem hkey_of_eq (a b : Ty) (ha : a.noWideTable = true) (hb : b.noWideTable = true) (h : a.eq b = true) :
    a.hkey = b.hkey := by
  cases a with
  | tensor e sh =>
    cases b <;> simp [Ty.eq] at h
    have := hkey_of_eq e _ (by simpa [Ty.noWideTable] using ha) (by simpa [Ty.noWideTable] using hb) h.1
    simp [Ty.hkey, this, h.2]
  | vector e sh =>
    cases b <;> simp [Ty.eq] at h
    have := hkey_of_eq e _ (by simpa [Ty.noWideTable] using ha) (by simpa [Ty.noWideTable] using hb) h.1
    simp [Ty.hkey, this, h.2]
  | ss e sh =>
    cases b <;> simp [Ty.eq] at h
    have := hkey_of_eq e _ (by simpa [Ty.noWideTable] using ha) (by simpa [Ty.noWideTable] using hb) h.1
    simp [Ty.hkey, this, h.2]
  | mp e sh =>
    cases b <;> simp [Ty.eq] at h
    have := hkey_of_eq e _ (by simpa [Ty.noWideTable] using ha) (by simpa [Ty.noWideTable] using hb) h.1
    simp [Ty.hkey, this, h.2]
  | bfvPlain e =>
    cases b <;> simp [Ty.eq] at h
    have := hkey_of_eq e _ (by simpa [Ty.noWideTable] using ha) (by simpa [Ty.noWideTable] using hb) h
    simp [Ty.hkey, this]
  | bfvCipher e =>
    cases b <;> simp [Ty.eq] at h
    have := hkey_of_eq e _ (by simpa [Ty.noWideTable] using ha) (by simpa [Ty.noWideTable] using hb) h
    simp [Ty.hkey, this]
  | table sch n =>
    cases b <;> simp [Ty.eq] at h
    rename_i sch' n'
    simp only [Ty.noWideTable, Bool.and_eq_true, decide_eq_true_eq] at ha hb
    have := schema_hkey_of_eq sch sch' ha.1 ha.2 hb.2 h.1.1 h.1.2
    simp [Ty.hkey, this, h.2]
  | _ => cases b <;> simp [Ty.eq] at h <;> simp [Ty.hkey, h]
theorem schema_hkey_of_eq (s s' : List (String × Ty)) (h1 : s.length ≤ 1) (ha : schemaNoWide s = true)
    (hb : schemaNoWide s' = true) (hl : s.length = s'.length) (h : schemaEq s s' = true) :
    schemaHkey s = schemaHkey s' := by
  match s with
  | [] =>
    match s' with
    | [] => rfl
    | _ :: _ => simp at hl
  | [(c, t)] =>
    match s' with
    | [] => simp at hl
    | _ :: _ :: _ => simp at hl
    | [(c', t')] =>
      simp only [schemaEq, colEq, Bool.and_true] at h
      split at h
      · rename_i hc
        simp only [schemaNoWide, Bool.and_true] at ha hb
        simp [schemaHkey, hc, hkey_of_eq t t' ha hb h]
      · cases h
  | _ :: _ :: _ => simp at h1
end

/-- C04, the part that holds: for types without a table of two or more columns, equal types feed the same data to the
hash function, hence hash equally.  Missing: tables with at least two columns, where the claim is false (see
`type_eq_implies_hash_eq_violated`). -/
theorem type_eq_implies_hash_eq_partial (a b : Ty) (ha : a.noWideTable = true) (hb : b.noWideTable = true)
    (h : a.eq b = true) : a.hkey = b.hkey := hkey_of_eq a b ha hb h

example : (Ty.mp (.table [("a", .int 8 true)] 3) (some [0])).noWideTable = true ∧
    (Ty.mp (.table [("a", .int 8 true)] 3) (some [0])).eq (.mp (.table [("a", .int 8 true)] 3) (some [0])) = true := by
  refine ⟨by decide, by simp [Ty.eq, schemaEq, colEq]⟩

end Verif.Serde
