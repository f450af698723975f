import Verif.Serde.Lemmas
import Verif.Graph.Props
/-!
# `json.dumps(.., sort_keys=True)` and what it forgets

`sort_keys=True` sorts the keys of every dict of the JSON tree.  `norm` sorts every string-keyed dict inside a type, a value
or a graph.  This file proves that writing with sorted keys and reading back gives an object with the same `norm`.
-/
namespace Verif.Tool
open Verif.Serde Verif.Graph

/-- insert by key -/
def insKey {β : Type} (x : String × β) : List (String × β) → List (String × β)
  | [] => [x]
  | y :: ys => if x.1 ≤ y.1 then x :: y :: ys else y :: insKey x ys

/-- sort the items of a dict by key (python sorts `str` by code points, so does `≤` on `String`) -/
def sortKeys {β : Type} : List (String × β) → List (String × β)
  | [] => []
  | x :: xs => insKey x (sortKeys xs)

section
variable {β γ : Type}

theorem insKey_perm (x : String × β) (l : List (String × β)) : (insKey x l).Perm (x :: l) := by
  induction l with
  | nil => exact .refl _
  | cons y ys ih =>
    simp only [insKey]
    split
    · exact .refl _
    · exact (List.Perm.cons y ih).trans (.swap x y ys)

theorem sortKeys_perm (l : List (String × β)) : (sortKeys l).Perm l := by
  induction l with
  | nil => exact .refl _
  | cons x xs ih => exact (insKey_perm x _).trans (ih.cons x)

theorem insKey_map (f : β → γ) (x : String × β) (l : List (String × β)) :
    insKey (x.1, f x.2) (l.map fun p => (p.1, f p.2)) = (insKey x l).map fun p => (p.1, f p.2) := by
  induction l with
  | nil => rfl
  | cons y ys ih =>
    simp only [insKey, List.map_cons]
    split
    · simp
    · simp [ih]

theorem sortKeys_map (f : β → γ) (l : List (String × β)) :
    sortKeys (l.map fun p => (p.1, f p.2)) = (sortKeys l).map fun p => (p.1, f p.2) := by
  induction l with
  | nil => rfl
  | cons x xs ih => simp only [List.map_cons, sortKeys, ih]; exact insKey_map f x _

/-- sorted by key -/
def Sorted (l : List (String × β)) : Prop := l.Pairwise fun a b => a.1 ≤ b.1

theorem insKey_sorted (x : String × β) (l : List (String × β)) (h : Sorted l) : Sorted (insKey x l) := by
  induction l with
  | nil => simp [insKey, Sorted]
  | cons y ys ih =>
    have hy := List.pairwise_cons.mp h
    simp only [insKey]
    split
    · rename_i hle
      refine List.pairwise_cons.mpr ⟨?_, h⟩
      intro z hz
      rcases List.mem_cons.mp hz with rfl | hz
      · exact hle
      · exact String.le_trans hle (hy.1 z hz)
    · rename_i hle
      refine List.pairwise_cons.mpr ⟨?_, ih hy.2⟩
      intro z hz
      rcases List.mem_cons.mp ((insKey_perm x ys).mem_iff.mp hz) with rfl | hz
      · exact (String.le_total y.1 z.1).resolve_right hle
      · exact hy.1 z hz

theorem sortKeys_sorted (l : List (String × β)) : Sorted (sortKeys l) := by
  induction l with
  | nil => exact List.Pairwise.nil
  | cons x xs ih => exact insKey_sorted x _ ih

theorem sortKeys_of_sorted (l : List (String × β)) (h : Sorted l) : sortKeys l = l := by
  induction l with
  | nil => rfl
  | cons x xs ih =>
    have hx := List.pairwise_cons.mp h
    simp only [sortKeys, ih hx.2]
    cases xs with
    | nil => rfl
    | cons y ys => simp only [insKey]; rw [if_pos (hx.1 y (by simp))]

theorem sortKeys_idem (l : List (String × β)) : sortKeys (sortKeys l) = sortKeys l :=
  sortKeys_of_sorted _ (sortKeys_sorted l)

theorem sortKeys_nodup {l : List (String × β)} (h : (l.map Prod.fst).Nodup) : ((sortKeys l).map Prod.fst).Nodup :=
  ((sortKeys_perm l).map Prod.fst).nodup_iff.mpr h
end

theorem lookup_perm {l l' : List (String × Json)} (hp : l.Perm l') (h : (l.map Prod.fst).Nodup) (k : String) :
    lookup k l = lookup k l' := by
  induction hp with
  | nil => rfl
  | cons x _ ih =>
    simp only [List.map_cons, List.nodup_cons] at h
    simp only [lookup, ih h.2]
  | swap x y l =>
    simp only [List.map_cons, List.nodup_cons, List.mem_cons, not_or] at h
    simp only [lookup]
    by_cases h1 : y.1 = k <;> by_cases h2 : x.1 = k <;> simp [h1, h2]
    exact absurd (h1.trans h2.symm) h.1.1
  | trans p1 p2 ih1 ih2 => rw [ih1 h, ih2 ((p1.map Prod.fst).nodup_iff.mp h)]

theorem lookup_map (f : Json → Json) (l : List (String × Json)) (k : String) :
    lookup k (l.map fun p => (p.1, f p.2)) = (lookup k l).map f := by
  induction l with
  | nil => rfl
  | cons x xs ih => simp only [List.map_cons, lookup]; split <;> simp [ih]

/-! ## sorting a JSON tree -/

mutual
/-- the JSON tree that `json.loads(json.dumps(j, sort_keys=True))` returns: every dict sorted by key
(tool/program.py:230-235, 287) -/
def Json.sorted : Json → Json
  | .arr xs => .arr (sortedList xs)
  | .obj fs => .obj (sortKeys (sortedFields fs))
  | .null => .null
  | .bool b => .bool b
  | .num n => .num n
  | .flt n => .flt n
  | .str s => .str s
/-- see `Json.sorted` -/
def sortedList : List Json → List Json
  | [] => []
  | x :: xs => Json.sorted x :: sortedList xs
/-- see `Json.sorted` -/
def sortedFields : List (String × Json) → List (String × Json)
  | [] => []
  | (k, x) :: xs => (k, Json.sorted x) :: sortedFields xs
end

theorem sortedList_eq (xs : List Json) : sortedList xs = xs.map Json.sorted := by
  induction xs with
  | nil => rfl
  | cons x xs ih => simp [sortedList, ih]

theorem sortedFields_eq (xs : List (String × Json)) : sortedFields xs = xs.map fun p => (p.1, Json.sorted p.2) := by
  induction xs with
  | nil => rfl
  | cons x xs ih => simp [sortedFields, ih]

mutual
/-- every dict in the tree has distinct keys, as python dicts do -/
def DistinctKeys : Json → Prop
  | .arr xs => distinctList xs
  | .obj fs => (fs.map Prod.fst).Nodup ∧ distinctFields fs
  | _ => True
/-- see `DistinctKeys` -/
def distinctList : List Json → Prop
  | [] => True
  | x :: xs => DistinctKeys x ∧ distinctList xs
/-- see `DistinctKeys` -/
def distinctFields : List (String × Json) → Prop
  | [] => True
  | (_, x) :: xs => DistinctKeys x ∧ distinctFields xs
end

theorem distinctList_mem {xs : List Json} (h : distinctList xs) : ∀ x ∈ xs, DistinctKeys x := by
  induction xs with
  | nil => simp
  | cons y ys ih =>
    simp only [distinctList] at h
    intro x hx
    rcases List.mem_cons.mp hx with rfl | hx
    · exact h.1
    · exact ih h.2 x hx

theorem distinctFields_mem {xs : List (String × Json)} (h : distinctFields xs) : ∀ p ∈ xs, DistinctKeys p.2 := by
  induction xs with
  | nil => simp
  | cons y ys ih =>
    simp only [distinctFields] at h
    intro x hx
    rcases List.mem_cons.mp hx with rfl | hx
    · exact h.1
    · exact ih h.2 x hx

theorem lookup_mem_fields {k : String} {l : List (String × Json)} {v : Json} (h : lookup k l = some v) : (k, v) ∈ l := by
  induction l with
  | nil => simp [lookup] at h
  | cons x xs ih =>
    simp only [lookup] at h
    split at h
    · rename_i hk; cases h; subst hk; simp
    · exact List.mem_cons_of_mem _ (ih h)

/-- reading a key of the sorted dict gives the sorted value -/
theorem lookup_sorted (fs : List (String × Json)) (h : (fs.map Prod.fst).Nodup) (k : String) :
    lookup k (sortKeys (sortedFields fs)) = (lookup k fs).map Json.sorted := by
  rw [sortedFields_eq, sortKeys_map, lookup_map, lookup_perm (sortKeys_perm fs) (sortKeys_nodup h)]

theorem depthList_eq (xs ys : List Json) (h : xs.map Json.depth = ys.map Json.depth) : depthList xs = depthList ys := by
  induction xs generalizing ys with
  | nil => cases ys with | nil => rfl | cons => simp at h
  | cons x xs ih => cases ys with
    | nil => simp at h
    | cons y ys =>
      simp only [List.map_cons, List.cons.injEq] at h
      simp only [depthList, h.1, ih ys h.2]

theorem depthFields_perm {l l' : List (String × Json)} (hp : l.Perm l') : depthFields l = depthFields l' := by
  induction hp with
  | nil => rfl
  | cons x _ ih => simp only [depthFields, ih]
  | swap x y l => simp only [depthFields]; omega
  | trans _ _ ih1 ih2 => rw [ih1, ih2]

mutual
theorem depth_sorted (j : Json) : (Json.sorted j).depth = j.depth := by
  cases j with
  | arr xs => simp only [Json.sorted, Json.depth, depthList_sorted xs]
  | obj fs =>
    simp only [Json.sorted, Json.depth]
    rw [depthFields_perm (sortKeys_perm _), depthFields_sorted fs]
  | _ => rfl
theorem depthList_sorted (xs : List Json) : depthList (sortedList xs) = depthList xs := by
  cases xs with
  | nil => rfl
  | cons x xs => simp only [sortedList, depthList, depth_sorted x, depthList_sorted xs]
theorem depthFields_sorted (fs : List (String × Json)) : depthFields (sortedFields fs) = depthFields fs := by
  cases fs with
  | nil => rfl
  | cons x xs => obtain ⟨k, x⟩ := x; simp only [sortedFields, depthFields, depth_sorted x, depthFields_sorted xs]
end

/-! ## types -/

mutual
/-- sort the columns of every table type inside `t` -/
def Ty.norm : Ty → Ty
  | .tensor e sh => .tensor (Ty.norm e) sh
  | .vector e n => .vector (Ty.norm e) n
  | .table sch n => .table (sortKeys (normSchema sch)) n
  | .ss p enc => .ss (Ty.norm p) enc
  | .mp v ps => .mp (Ty.norm v) ps
  | .bfvPlain v => .bfvPlain (Ty.norm v)
  | .bfvCipher v => .bfvCipher (Ty.norm v)
  | .int b s => .int b s
  | .float b => .float b
  | .complex b => .complex b
  | .custom k => .custom k
  | .named k s => .named k s
  | .bfvKey k n => .bfvKey k n
  | .bfvEncoder n => .bfvEncoder n
  | .teeQuote => .teeQuote
  | .teeMeasurement => .teeMeasurement
  | .pheKey s b => .pheKey s b
  | .phePlain b => .phePlain b
  | .pheCipher s => .pheCipher s
/-- see `Ty.norm` -/
def normSchema : List (String × Ty) → List (String × Ty)
  | [] => []
  | (c, t) :: r => (c, Ty.norm t) :: normSchema r
end

theorem normSchema_eq (s : List (String × Ty)) : normSchema s = s.map fun p => (p.1, Ty.norm p.2) := by
  induction s with
  | nil => rfl
  | cons x xs ih => simp [normSchema, ih]

mutual
theorem Ty.norm_idem (t : Ty) : Ty.norm (Ty.norm t) = Ty.norm t := by
  cases t with
  | tensor e sh => simp only [Ty.norm, Ty.norm_idem e]
  | vector e n => simp only [Ty.norm, Ty.norm_idem e]
  | table sch n =>
    simp only [Ty.norm, normSchema_eq (sortKeys _), ← sortKeys_map, ← normSchema_eq, normSchema_idem sch]
    rw [sortKeys_idem]
  | ss p enc => simp only [Ty.norm, Ty.norm_idem p]
  | mp v ps => simp only [Ty.norm, Ty.norm_idem v]
  | bfvPlain v => simp only [Ty.norm, Ty.norm_idem v]
  | bfvCipher v => simp only [Ty.norm, Ty.norm_idem v]
  | _ => rfl
theorem normSchema_idem (s : List (String × Ty)) : normSchema (normSchema s) = normSchema s := by
  cases s with
  | nil => rfl
  | cons x xs => obtain ⟨c, t⟩ := x; simp only [normSchema, Ty.norm_idem t, normSchema_idem xs]
end

theorem mk_norm (t : Ty) : mk (Ty.norm t) = (mk t).map Ty.norm := by
  have h : (Ty.norm t).localOk = t.localOk := by
    cases t <;> try rfl
    case vector e n => cases e <;> rfl
    case bfvPlain e => cases e <;> rfl
    case bfvCipher e => cases e <;> rfl
  simp only [mk, h]
  split <;> rfl

theorem mapFields_map {β : Type} (f : Json → Option β) (g : β → β) (s : Json → Json) (l : List (String × Json))
    (h : ∀ p ∈ l, f (s p.2) = (f p.2).map g) :
    mapFields f (l.map fun p => (p.1, s p.2)) = (mapFields f l).map fun r => r.map fun p => (p.1, g p.2) := by
  induction l with
  | nil => rfl
  | cons x xs ih =>
    simp only [List.map_cons, mapFields, h x (by simp), ih fun p hp => h p (by simp [hp])]
    cases f x.2 with
    | none => rfl
    | some y => cases mapFields f xs <;> rfl

theorem mapFields_insKey {β : Type} (f : Json → Option β) (x : String × Json) (l : List (String × Json)) :
    mapFields f (insKey x l) = (mapFields f (x :: l)).map fun r => match r with | [] => [] | y :: ys => insKey y ys := by
  induction l with
  | nil =>
    simp only [insKey, mapFields]
    cases f x.2 <;> rfl
  | cons y ys ih =>
    simp only [insKey]
    split
    · rename_i hle
      simp only [mapFields]
      cases f x.2 with
      | none => rfl
      | some a =>
        simp only
        cases f y.2 with
        | none => rfl
        | some b =>
          simp only
          cases mapFields f ys with
          | none => rfl
          | some r => simp [insKey, hle]
    · rename_i hle
      simp only [mapFields, ih]
      cases f x.2 with
      | none => cases f y.2 <;> rfl
      | some a =>
        simp only
        cases f y.2 with
        | none => rfl
        | some b =>
          simp only
          cases mapFields f ys with
          | none => rfl
          | some r => simp [insKey, hle]

theorem mapFields_sortKeys {β : Type} (f : Json → Option β) (l : List (String × Json)) :
    mapFields f (sortKeys l) = (mapFields f l).map sortKeys := by
  induction l with
  | nil => rfl
  | cons x xs ih =>
    simp only [sortKeys, mapFields_insKey, mapFields, ih]
    cases f x.2 with
    | none => rfl
    | some a => cases mapFields f xs <;> rfl

theorem mapOpt_asNum_sorted (xs : List Json) : mapOpt Json.asNum (sortedList xs) = mapOpt Json.asNum xs := by
  induction xs with
  | nil => rfl
  | cons x xs ih =>
    simp only [sortedList, mapOpt, ih]
    cases x <;> rfl

section
variable {fs : List (String × Json)} (hd : (fs.map Prod.fst).Nodup)
include hd

theorem getNum_sorted (k : String) : getNum k (sortKeys (sortedFields fs)) = getNum k fs := by
  simp only [getNum, lookup_sorted fs hd]
  cases lookup k fs with
  | none => rfl
  | some j => cases j <;> rfl

theorem getStr_sorted (k : String) : getStr k (sortKeys (sortedFields fs)) = getStr k fs := by
  simp only [getStr, lookup_sorted fs hd]
  cases lookup k fs with
  | none => rfl
  | some j => cases j <;> rfl

theorem getBool_sorted (k : String) : getBool k (sortKeys (sortedFields fs)) = getBool k fs := by
  simp only [getBool, lookup_sorted fs hd]
  cases lookup k fs with
  | none => rfl
  | some j => cases j <;> rfl

theorem getNums_sorted (k : String) : getNums k (sortKeys (sortedFields fs)) = getNums k fs := by
  simp only [getNums, lookup_sorted fs hd]
  cases lookup k fs with
  | none => rfl
  | some j => cases j <;> first | rfl | exact mapOpt_asNum_sorted _
end

theorem tyClass_sorted (rec : Json → Option Ty) (kind : String) (fs : List (String × Json))
    (hd : (fs.map Prod.fst).Nodup) (hf : distinctFields fs)
    (hrec : ∀ j, DistinctKeys j → rec (Json.sorted j) = (rec j).map Ty.norm) :
    tyClassFromJson rec kind (sortKeys (sortedFields fs)) = (tyClassFromJson rec kind fs).map Ty.norm := by
  have hr : ∀ k j, lookup k fs = some j → rec (Json.sorted j) = (rec j).map Ty.norm :=
    fun k j h => hrec j (distinctFields_mem hf _ (lookup_mem_fields h))
  simp only [tyClassFromJson, getNum_sorted hd, getStr_sorted hd, getBool_sorted hd, getNums_sorted hd,
    lookup_sorted fs hd]
  by_cases h1 : kind = "mplang.IntegerType"
  · rw [if_pos h1, if_pos h1]
    cases getNum "bitwidth" fs with
    | none => rfl
    | some b => cases getBool "signed" fs with
      | none => rfl
      | some s => exact mk_norm (.int b s)
  rw [if_neg h1, if_neg h1]
  by_cases h2 : kind = "mplang.FloatType"
  · rw [if_pos h2, if_pos h2]
    cases getNum "bitwidth" fs with
    | none => rfl
    | some b => exact mk_norm (.float b)
  rw [if_neg h2, if_neg h2]
  by_cases h3 : kind = "mplang.ComplexType"
  · rw [if_pos h3, if_pos h3]
    cases hl : lookup "inner_type" fs with
    | none => rfl
    | some j =>
      simp only [Option.map_some, Option.bind_eq_bind, Option.bind_some, hr _ _ hl]
      cases rec j with
      | none => rfl
      | some t => cases t <;> first | rfl | exact mk_norm (.complex _)
  rw [if_neg h3, if_neg h3]
  by_cases h4 : kind = "mplang.TensorType"
  · rw [if_pos h4, if_pos h4]
    cases hl : lookup "element_type" fs with
    | none => rfl
    | some j =>
      simp only [Option.map_some, Option.bind_eq_bind, Option.bind_some, hr _ _ hl]
      cases rec j with
      | none => rfl
      | some t => cases getNums "shape" fs with
        | none => rfl
        | some sh => exact mk_norm (.tensor t sh)
  rw [if_neg h4, if_neg h4]
  by_cases h5 : kind = "mplang.VectorType"
  · rw [if_pos h5, if_pos h5]
    cases hl : lookup "element_type" fs with
    | none => rfl
    | some j =>
      simp only [Option.map_some, Option.bind_eq_bind, Option.bind_some, hr _ _ hl]
      cases rec j with
      | none => rfl
      | some t => cases getNum "size" fs with
        | none => rfl
        | some n => exact mk_norm (.vector t n)
  rw [if_neg h5, if_neg h5]
  by_cases h6 : kind = "mplang.TableType"
  · rw [if_pos h6, if_pos h6]
    cases hl : lookup "schema" fs with
    | none => rfl
    | some j => cases j with
      | obj js =>
        have hjs := distinctFields_mem hf _ (lookup_mem_fields hl)
        simp only [DistinctKeys] at hjs
        have hm : mapFields rec (sortKeys (sortedFields js))
            = (mapFields rec js).map fun r => sortKeys (normSchema r) := by
          rw [mapFields_sortKeys, sortedFields_eq,
            mapFields_map rec Ty.norm Json.sorted js fun p hp => hrec p.2 (distinctFields_mem hjs.2 p hp)]
          cases mapFields rec js with
          | none => rfl
          | some r => simp [normSchema_eq]
        simp only [Option.map_some, Json.sorted, hm, Option.bind_eq_bind]
        cases mapFields rec js with
        | none => rfl
        | some sch =>
          simp only [Option.map_some, Option.bind_some]
          cases lookup "nrows" fs with
          | none => exact mk_norm (.table sch (-1))
          | some jn => cases jn <;> first | rfl | exact mk_norm (.table sch _)
      | _ => rfl
  rw [if_neg h6, if_neg h6]
  by_cases h7 : kind = "mplang.CustomType"
  · rw [if_pos h7, if_pos h7]
    cases getStr "kind" fs with
    | none => rfl
    | some b => exact mk_norm (.custom b)
  rw [if_neg h7, if_neg h7]
  by_cases h8 : kind = "mplang.SSType"
  · rw [if_pos h8, if_pos h8]
    cases hl : lookup "secret_type" fs with
    | none => rfl
    | some j =>
      simp only [Option.map_some, Option.bind_eq_bind, Option.bind_some, hr _ _ hl]
      cases rec j with
      | none => rfl
      | some t =>
        simp only [Option.map_some, Option.bind_some]
        cases lookup "enc_schema" fs with
        | none => exact mk_norm (.ss t "ss")
        | some je => cases je <;> first | rfl | exact mk_norm (.ss t _)
  rw [if_neg h8, if_neg h8]
  by_cases h9 : kind = "mplang.MPType"
  · rw [if_pos h9, if_pos h9]
    cases hl : lookup "value_type" fs with
    | none => rfl
    | some j =>
      simp only [Option.map_some, Option.bind_eq_bind, Option.bind_some, hr _ _ hl]
      cases rec j with
      | none => rfl
      | some t =>
        simp only [Option.map_some, Option.bind_some]
        cases lookup "parties" fs with
        | none => rfl
        | some je => cases je with
          | null => exact mk_norm (.mp t none)
          | arr xs =>
            simp only [Option.map_some, Json.sorted, mapOpt_asNum_sorted]
            cases mapOpt Json.asNum xs with
            | none => rfl
            | some ps => exact mk_norm (.mp t (some ps))
          | _ => rfl
  rw [if_neg h9, if_neg h9]
  have hn : ∀ (k : NamedKind) (f : String), (do mk (.named k (← getStr f fs)))
      = Option.map Ty.norm (do mk (.named k (← getStr f fs))) := by
    intro k f
    cases getStr f fs with
    | none => rfl
    | some b => exact mk_norm (.named k b)
  by_cases h10 : kind = "crypto.PointType"
  · rw [if_pos h10, if_pos h10]; exact hn _ _
  rw [if_neg h10, if_neg h10]
  by_cases h11 : kind = "crypto.ScalarType"
  · rw [if_pos h11, if_pos h11]; exact hn _ _
  rw [if_neg h11, if_neg h11]
  by_cases h12 : kind = "crypto.PrivateKeyType"
  · rw [if_pos h12, if_pos h12]; exact hn _ _
  rw [if_neg h12, if_neg h12]
  by_cases h13 : kind = "crypto.PublicKeyType"
  · rw [if_pos h13, if_pos h13]; exact hn _ _
  rw [if_neg h13, if_neg h13]
  by_cases h14 : kind = "crypto.SymmetricKeyType"
  · rw [if_pos h14, if_pos h14]; exact hn _ _
  rw [if_neg h14, if_neg h14]
  by_cases h15 : kind = "tee.AttestedKeyType"
  · rw [if_pos h15, if_pos h15]; exact hn _ _
  rw [if_neg h15, if_neg h15]
  by_cases h16 : kind = "bfv.KeyType"
  · rw [if_pos h16, if_pos h16]
    cases getStr "kind" fs with
    | none => rfl
    | some k => cases getNum "poly_modulus_degree" fs with
      | none => rfl
      | some n => exact mk_norm (.bfvKey k n)
  rw [if_neg h16, if_neg h16]
  by_cases h17 : kind = "bfv.PlaintextType"
  · rw [if_pos h17, if_pos h17]
    cases hl : lookup "vector_type" fs with
    | none => rfl
    | some j =>
      simp only [Option.map_some, Option.bind_eq_bind, Option.bind_some, hr _ _ hl]
      cases rec j with
      | none => rfl
      | some t => exact mk_norm (.bfvPlain t)
  rw [if_neg h17, if_neg h17]
  by_cases h18 : kind = "bfv.CiphertextType"
  · rw [if_pos h18, if_pos h18]
    cases hl : lookup "vector_type" fs with
    | none => rfl
    | some j =>
      simp only [Option.map_some, Option.bind_eq_bind, Option.bind_some, hr _ _ hl]
      cases rec j with
      | none => rfl
      | some t => exact mk_norm (.bfvCipher t)
  rw [if_neg h18, if_neg h18]
  by_cases h19 : kind = "bfv.EncoderType"
  · simp only [if_pos h19]
    cases getNum "poly_modulus_degree" fs with
    | none => rfl
    | some b => exact mk_norm (.bfvEncoder b)
  simp only [if_neg h19]
  by_cases h20 : kind = "tee.QuoteType"
  · simp only [if_pos h20]; rfl
  simp only [if_neg h20]
  by_cases h21 : kind = "tee.MeasurementType"
  · simp only [if_pos h21]; rfl
  simp only [if_neg h21]; rfl

theorem tyFromJsonF_sorted (n : Nat) (j : Json) (hj : DistinctKeys j) :
    tyFromJsonF n (Json.sorted j) = (tyFromJsonF n j).map Ty.norm := by
  induction n generalizing j with
  | zero => rfl
  | succ n ih =>
    cases j with
    | obj fs =>
      simp only [DistinctKeys] at hj
      simp only [Json.sorted, tyFromJsonF, lookup_sorted fs hj.1]
      cases lookup "_kind" fs with
      | none => rfl
      | some k => cases k <;> first | rfl | exact tyClass_sorted _ _ fs hj.1 hj.2 (fun j h => ih j h)
    | _ => rfl

/-- a type read from JSON with sorted keys: the same type with the columns of every table sorted -/
theorem tyFromJson_sorted (j : Json) (hj : DistinctKeys j) :
    tyFromJson (Json.sorted j) = (tyFromJson j).map Ty.norm := by
  simp only [tyFromJson, depth_sorted, tyFromJsonF_sorted _ j hj]

end Verif.Tool
