import Verif.Serde.JsonTextProps
import Verif.Serde.BinaryProps
import Verif.Serde.Props
import Verif.Crypto.Tee
/-!
# The wire formats of `edsl/serde.py`: `dumps`, `dumps_b64`, `dumps_binary`, down to bytes

Assumed: `gzip.decompress(gzip.compress(x)) == x` and `float(repr(x)) == x` (`Lib.Ok`).
-/
namespace Verif.Serde
open Verif.Tool Verif.Crypto

/-- the library functions under the wire formats -/
structure WireLib where
  F : FloatText
  compress : List Nat → List Nat
  decompress : List Nat → Option (List Nat)

/-- what the libraries promise -/
structure WireLib.Ok (L : WireLib) : Prop where
  floats : L.F.Ok
  gzip : ∀ b, (∀ x ∈ b, x < 256) → L.decompress (L.compress b) = some b
  bytes : ∀ b, (∀ x ∈ b, x < 256) → ∀ x ∈ L.compress b, x < 256

mutual
/-- `Printable` as a test: `json.dumps` raises `ValueError` on an int of more than `maxDigits` digits -/
def printable : Json → Bool
  | .num n => decide (n.natAbs < 10 ^ maxDigits)
  | .arr xs => printableL xs
  | .obj fs => printableF fs
  | _ => true
/-- see `printable` -/
def printableL : List Json → Bool
  | [] => true
  | x :: xs => printable x && printableL xs
/-- see `printable` -/
def printableF : List (String × Json) → Bool
  | [] => true
  | (_, x) :: xs => printable x && printableF xs
end

/-- `json.dumps(j, separators=(",", ":")).encode("utf-8")` (edsl/serde.py:365-366, 667) -/
def jsonBytes (L : WireLib) (j : Json) : List Nat := utf8Enc (String.ofList (jsonText L.F j))

/-- `json.loads(data.decode("utf-8"))` (edsl/serde.py:385, 700) -/
def bytesJson (L : WireLib) (d : List Nat) : Option Json :=
  match utf8Dec d with
  | .ok s => jsonLoads L.F s.toList
  | .error _ => none

/-- `dumps` (edsl/serde.py:354-369) -/
def dumps (L : WireLib) (compress : Bool) (v : PyVal) : Option (List Nat) :=
  match toJson v with
  | none => none
  | some j =>
    if printable j then some (if compress then L.compress (jsonBytes L j) else jsonBytes L j) else none

/-- `loads` (edsl/serde.py:372-386) -/
def loads (L : WireLib) (eq : PyVal → PyVal → Bool) (compressed : Bool) (d : List Nat) : Option PyVal :=
  match (if compressed then L.decompress d else some d) with
  | none => none
  | some d' =>
    match bytesJson L d' with
    | none => none
    | some j => fromJson eq j

/-- `dumps_b64` (edsl/serde.py:389-399) -/
def dumpsB64 (L : WireLib) (compress : Bool) (v : PyVal) : Option String :=
  (dumps L compress v).map fun d => String.ofList (b64enc d)

/-- `loads_b64` (edsl/serde.py:402-412) -/
def loadsB64 (L : WireLib) (eq : PyVal → PyVal → Bool) (compressed : Bool) (s : String) : Option PyVal :=
  match b64dec s.toList with
  | none => none
  | some d => loads L eq compressed d

/-- `dumps_binary` (edsl/serde.py:658-673), down to bytes -/
def dumpsBin (L : WireLib) (v : PyVal) : Option (List Nat) :=
  match toBin v [] with
  | none => none
  | some (j, _) => if printable j then dumpsBinary (jsonBytes L) v else none

/-- `loads_binary` (edsl/serde.py:676-730), down to bytes -/
def loadsBin (L : WireLib) (eq : PyVal → PyVal → Bool) (d : List Nat) : Option PyVal := loadsBinary (bytesJson L) eq d

mutual
/-- every python float inside the value is a `GoodFloat` -/
def PyVal.goodFloats : PyVal → Prop
  | .float b => GoodFloat b
  | .list xs => goodFloatsL xs
  | .tuple xs => goodFloatsL xs
  | .dict items => goodFloatsP items
  | .objarray _ xs => goodFloatsL xs
  | .tensorObj _ xs => goodFloatsL xs
  | _ => True
/-- see `PyVal.goodFloats` -/
def goodFloatsL : List PyVal → Prop
  | [] => True
  | x :: xs => x.goodFloats ∧ goodFloatsL xs
/-- see `PyVal.goodFloats` -/
def goodFloatsP : List (PyVal × PyVal) → Prop
  | [] => True
  | (k, v) :: xs => k.goodFloats ∧ v.goodFloats ∧ goodFloatsP xs
end

/-! ## What `to_json` produces -/

mutual
/-- distinct keys and good floats everywhere -/
def Clean : Json → Prop
  | .flt b => GoodFloat b
  | .arr xs => cleanL xs
  | .obj fs => (fs.map Prod.fst).Nodup ∧ cleanF fs
  | _ => True
/-- see `Clean` -/
def cleanL : List Json → Prop
  | [] => True
  | x :: xs => Clean x ∧ cleanL xs
/-- see `Clean` -/
def cleanF : List (String × Json) → Prop
  | [] => True
  | (_, x) :: xs => Clean x ∧ cleanF xs
end

mutual
theorem clean_distinct (j : Json) (h : Clean j) : DistinctKeys j ∧ FloatsOk j := by
  cases j with
  | arr xs => simp only [Clean] at h; simpa [DistinctKeys, FloatsOk] using clean_distinctL xs h
  | obj fs =>
    simp only [Clean] at h
    have := clean_distinctF fs h.2
    simp only [DistinctKeys, FloatsOk]
    exact ⟨⟨h.1, this.1⟩, this.2⟩
  | flt b => simpa [DistinctKeys, FloatsOk, Clean] using h
  | _ => simp [DistinctKeys, FloatsOk]
theorem clean_distinctL (xs : List Json) (h : cleanL xs) : distinctList xs ∧ floatsOkList xs := by
  cases xs with
  | nil => simp [distinctList, floatsOkList]
  | cons x xs =>
    simp only [cleanL] at h
    have h1 := clean_distinct x h.1
    have h2 := clean_distinctL xs h.2
    simp only [distinctList, floatsOkList]
    exact ⟨⟨h1.1, h2.1⟩, h1.2, h2.2⟩
theorem clean_distinctF (xs : List (String × Json)) (h : cleanF xs) : distinctFields xs ∧ floatsOkFields xs := by
  match xs with
  | [] => simp [distinctFields, floatsOkFields]
  | (k, x) :: xs =>
    simp only [cleanF] at h
    have h1 := clean_distinct x h.1
    have h2 := clean_distinctF xs h.2
    simp only [distinctFields, floatsOkFields]
    exact ⟨⟨h1.1, h2.1⟩, h1.2, h2.2⟩
end

mutual
theorem printable_iff (j : Json) : printable j = true ↔ Printable j := by
  cases j with
  | num n => simp only [printable, Printable, decide_eq_true_eq]
  | arr xs => simp only [printable, Printable]; exact printableL_iff xs
  | obj fs => simp only [printable, Printable]; exact printableF_iff fs
  | _ => simp [printable, Printable]
theorem printableL_iff (xs : List Json) : printableL xs = true ↔ printableList xs := by
  cases xs with
  | nil => simp [printableL, printableList]
  | cons x xs => simp only [printableL, printableList, Bool.and_eq_true, printable_iff x, printableL_iff xs]
theorem printableF_iff (xs : List (String × Json)) : printableF xs = true ↔ printableFields xs := by
  match xs with
  | [] => simp [printableF, printableFields]
  | (k, x) :: xs => simp only [printableF, printableFields, Bool.and_eq_true, printable_iff x, printableF_iff xs]
end

theorem cleanL_nums {α : Type} (f : α → Int) (xs : List α) : cleanL (xs.map fun x => Json.num (f x)) := by
  induction xs with
  | nil => trivial
  | cons x xs ih => exact ⟨trivial, ih⟩

theorem cleanL_strs {α : Type} (f : α → String) (xs : List α) : cleanL (xs.map fun x => Json.str (f x)) := by
  induction xs with
  | nil => trivial
  | cons x xs ih => exact ⟨trivial, ih⟩

theorem cleanL_num' (xs : List Int) : cleanL (xs.map Json.num) := cleanL_nums id xs

theorem cleanL_shape (xs : List Nat) : cleanL (xs.map fun n : Nat => Json.num n) := cleanL_nums Int.ofNat xs

theorem schemaToJson_keys (sch : List (String × Ty)) (js : List (String × Json)) (h : schemaToJson sch = some js) :
    js.map Prod.fst = sch.map Prod.fst := by
  induction sch generalizing js with
  | nil => simp only [schemaToJson, Option.some.injEq] at h; subst h; rfl
  | cons p sch ih =>
    obtain ⟨c, t⟩ := p
    simp only [schemaToJson] at h
    split at h; · cases h
    split at h; · cases h
    rename_i js' hjs'
    simp only [Option.some.injEq] at h; subst h
    simp [ih js' hjs']

mutual
theorem tyToJson_clean (t : Ty) (hv : t.valid = true) (j : Json) (h : tyToJson t = some j) : Clean j := by
  cases t with
  | int b s => simp only [tyToJson, Option.some.injEq] at h; subst h; simp [withKind, setKey, Clean, cleanF]
  | float b => simp only [tyToJson, Option.some.injEq] at h; subst h; simp [withKind, setKey, Clean, cleanF]
  | complex b => simp only [tyToJson, Option.some.injEq] at h; subst h; simp [withKind, setKey, Clean, cleanF]
  | tensor e sh =>
    simp only [tyToJson] at h
    split at h; · cases h
    rename_i je hje
    simp only [Option.some.injEq] at h; subst h
    simp only [Ty.valid, Bool.and_eq_true] at hv
    have ih := tyToJson_clean e hv.1 je hje
    simp [withKind, setKey, Clean, cleanF, ih, cleanL_num']
  | vector e n =>
    simp only [tyToJson] at h
    split at h; · cases h
    rename_i je hje
    simp only [Option.some.injEq] at h; subst h
    simp only [Ty.valid, Bool.and_eq_true] at hv
    have ih := tyToJson_clean e hv.1 je hje
    simp [withKind, setKey, Clean, cleanF, ih]
  | table sch n =>
    simp only [tyToJson] at h
    split at h; · cases h
    rename_i js hjs
    simp only [Option.some.injEq] at h; subst h
    simp only [Ty.valid, Bool.and_eq_true, decide_eq_true_eq] at hv
    have ih := schemaToJson_clean sch hv.1.1 js hjs
    have hk : (js.map Prod.fst).Nodup := by rw [schemaToJson_keys sch js hjs]; exact hv.1.2
    by_cases hn : n = -1 <;> simp [withKind, setKey, Clean, cleanF, ih, hk, hn]
  | custom k => simp only [tyToJson, Option.some.injEq] at h; subst h; simp [withKind, setKey, Clean, cleanF]
  | ss p enc =>
    simp only [tyToJson] at h
    split at h; · cases h
    rename_i je hje
    simp only [Option.some.injEq] at h; subst h
    simp only [Ty.valid] at hv
    have ih := tyToJson_clean p hv je hje
    simp [withKind, setKey, Clean, cleanF, ih]
  | mp v ps =>
    simp only [tyToJson] at h
    split at h; · cases h
    rename_i je hje
    simp only [Option.some.injEq] at h; subst h
    simp only [Ty.valid] at hv
    have ih := tyToJson_clean v hv je hje
    cases ps <;> simp [withKind, setKey, Clean, cleanF, ih, cleanL_num']
  | named k s =>
    simp only [tyToJson, Option.some.injEq] at h; subst h
    cases k <;> simp [withKind, setKey, Clean, cleanF, NamedKind.field]
  | bfvKey k n => simp only [tyToJson, Option.some.injEq] at h; subst h; simp [withKind, setKey, Clean, cleanF]
  | bfvPlain v =>
    simp only [tyToJson] at h
    split at h; · cases h
    rename_i je hje
    simp only [Option.some.injEq] at h; subst h
    simp only [Ty.valid, Bool.and_eq_true] at hv
    have ih := tyToJson_clean v hv.1 je hje
    simp [withKind, setKey, Clean, cleanF, ih]
  | bfvCipher v =>
    simp only [tyToJson] at h
    split at h; · cases h
    rename_i je hje
    simp only [Option.some.injEq] at h; subst h
    simp only [Ty.valid, Bool.and_eq_true] at hv
    have ih := tyToJson_clean v hv.1 je hje
    simp [withKind, setKey, Clean, cleanF, ih]
  | bfvEncoder n => simp only [tyToJson, Option.some.injEq] at h; subst h; simp [withKind, setKey, Clean, cleanF]
  | teeQuote => simp only [tyToJson, Option.some.injEq] at h; subst h; simp [withKind, setKey, Clean, cleanF]
  | teeMeasurement => simp only [tyToJson, Option.some.injEq] at h; subst h; simp [withKind, setKey, Clean, cleanF]
  | pheKey s p => simp [tyToJson] at h
  | phePlain b => simp [tyToJson] at h
  | pheCipher s => simp [tyToJson] at h
theorem schemaToJson_clean (sch : List (String × Ty)) (hv : validSchema sch = true) (js : List (String × Json))
    (h : schemaToJson sch = some js) : cleanF js := by
  match sch with
  | [] => simp only [schemaToJson, Option.some.injEq] at h; subst h; trivial
  | (c, t) :: r =>
    simp only [schemaToJson] at h
    split at h; · cases h
    rename_i j hj
    split at h; · cases h
    rename_i js' hjs'
    simp only [Option.some.injEq] at h; subst h
    simp only [validSchema, Bool.and_eq_true] at hv
    exact ⟨tyToJson_clean t hv.1 j hj, schemaToJson_clean r hv.2 js' hjs'⟩
end

theorem leaf_clean (r : RtLeaf) : Clean r.toJson := by
  cases r <;> simp [RtLeaf.toJson, RtLeaf.fields, withKind, setKey, Clean, cleanF, jb64]
  exact cleanL_strs _ _

theorem strKeys_nodup {eq : PyVal → PyVal → Bool} (hs : ∀ s, eq (.str s) (.str s) = true) (items : List (PyVal × PyVal))
    (h : (items.map Prod.fst).Pairwise (fun a b => eq a b = false)) (ks : List String) (hk : strKeys items = some ks) :
    ks.Nodup := by
  have e := strKeys_length items ks hk
  rw [e] at h
  rw [List.pairwise_map] at h
  refine List.Pairwise.imp ?_ h
  intro a b hab hne
  subst hne
  rw [hs a] at hab
  cases hab

theorem cleanF_zip (ks : List String) (js : List Json) (h : cleanL js) : cleanF (ks.zip js) := by
  induction ks generalizing js with
  | nil => trivial
  | cons k ks ih =>
    cases js with
    | nil => trivial
    | cons j js => exact ⟨h.1, ih js h.2⟩

theorem zip_nodup (ks : List String) (js : List Json) (h : ks.Nodup) : ((ks.zip js).map Prod.fst).Nodup := by
  induction ks generalizing js with
  | nil => simp
  | cons k ks ih =>
    cases js with
    | nil => simp
    | cons j js =>
      simp only [List.nodup_cons] at h
      simp only [List.zip_cons_cons, List.map_cons, List.nodup_cons]
      refine ⟨fun hm => h.1 ?_, ih js h.2⟩
      simp only [List.mem_map] at hm
      obtain ⟨p, hp, e⟩ := hm
      rw [← e]
      exact (List.of_mem_zip hp).1

theorem cleanL_pairs (ps : List (Json × Json)) (h : ∀ p ∈ ps, Clean p.1 ∧ Clean p.2) :
    cleanL (ps.map fun p => Json.arr [p.1, p.2]) := by
  induction ps with
  | nil => trivial
  | cons p ps ih =>
    have := h p (by simp)
    exact ⟨⟨this.1, this.2, trivial⟩, ih fun q hq => h q (by simp [hq])⟩

theorem cleanL_snds (ps : List (Json × Json)) (h : ∀ p ∈ ps, Clean p.1 ∧ Clean p.2) : cleanL (ps.map Prod.snd) := by
  induction ps with
  | nil => trivial
  | cons p ps ih => exact ⟨(h p (by simp)).2, ih fun q hq => h q (by simp [hq])⟩

mutual
theorem toJson_clean {eq : PyVal → PyVal → Bool} (hs : ∀ s, eq (.str s) (.str s) = true) (v : PyVal) (hv : v.WF eq)
    (hg : v.goodFloats) (j : Json) (h : toJson v = some j) : Clean j := by
  cases v with
  | none => simp only [toJson, Option.some.injEq] at h; subst h; simp [Clean, cleanF]
  | bool b => simp only [toJson, Option.some.injEq] at h; subst h; simp [Clean, cleanF]
  | int b => simp only [toJson, Option.some.injEq] at h; subst h; simp [Clean, cleanF]
  | float b =>
    simp only [toJson, Option.some.injEq] at h; subst h
    simp only [PyVal.goodFloats] at hg
    simp [Clean, cleanF, hg]
  | str b => simp only [toJson, Option.some.injEq] at h; subst h; simp [Clean, cleanF]
  | bytes bs => simp only [toJson, Option.some.injEq] at h; subst h; simp [Clean, cleanF]
  | list xs =>
    simp only [toJson] at h
    split at h; · cases h
    rename_i js hjs
    simp only [Option.some.injEq] at h; subst h
    simp only [PyVal.WF] at hv
    simp only [PyVal.goodFloats] at hg
    simp [Clean, cleanF, toJsonList_clean hs xs hv hg js hjs]
  | tuple xs =>
    simp only [toJson] at h
    split at h; · cases h
    rename_i js hjs
    simp only [Option.some.injEq] at h; subst h
    simp only [PyVal.WF] at hv
    simp only [PyVal.goodFloats] at hg
    simp [Clean, cleanF, toJsonList_clean hs xs hv hg js hjs]
  | dict items =>
    simp only [toJson] at h
    simp only [PyVal.WF] at hv
    simp only [PyVal.goodFloats] at hg
    split at h
    · split at h; · cases h
      rename_i ps hps
      simp only [Option.some.injEq] at h; subst h
      have ih := toJsonPairs_clean hs items hv.1 hg ps hps
      simp [Clean, cleanF, cleanL_pairs ps ih]
    · rename_i ks hks
      split at h; · cases h
      rename_i ps hps
      simp only [Option.some.injEq] at h; subst h
      have ih := toJsonPairs_clean hs items hv.1 hg ps hps
      simp only [Clean, cleanF, and_true, true_and]
      refine ⟨by simp, zip_nodup _ _ (strKeys_nodup hs items hv.2 ks hks), cleanF_zip _ _ (cleanL_snds ps ih)⟩
  | ty t =>
    simp only [toJson] at h
    simp only [PyVal.WF] at hv
    exact tyToJson_clean t hv j h
  | paTable ipc => simp only [toJson, Option.some.injEq] at h; subst h; simp [Clean, cleanF, jb64]
  | table ipc => simp only [toJson, Option.some.injEq] at h; subst h; simp [withKind, setKey, Clean, cleanF, jb64]
  | leaf r => simp only [toJson, Option.some.injEq] at h; subst h; exact leaf_clean r
  | tensor d sh bs =>
    simp only [toJson, Option.some.injEq] at h; subst h
    simp [withKind, setKey, Clean, cleanF, jb64, jshape, cleanL_shape]
  | tensorObj sh xs =>
    simp only [toJson] at h
    split at h; · cases h
    rename_i js hjs
    simp only [Option.some.injEq] at h; subst h
    simp only [PyVal.WF] at hv
    simp only [PyVal.goodFloats] at hg
    simp [withKind, setKey, Clean, cleanF, jshape, cleanL_shape, toJsonList_clean hs xs hv hg js hjs]
  | ndarray d sh bs =>
    simp only [toJson, Option.some.injEq] at h; subst h
    simp [Clean, cleanF, cleanL_shape]
  | objarray sh xs =>
    simp only [toJson] at h
    split at h; · cases h
    rename_i js hjs
    simp only [Option.some.injEq] at h; subst h
    simp only [PyVal.WF] at hv
    simp only [PyVal.goodFloats] at hg
    simp [Clean, cleanF, cleanL_shape, toJsonList_clean hs xs hv hg js hjs]
theorem toJsonList_clean {eq : PyVal → PyVal → Bool} (hs : ∀ s, eq (.str s) (.str s) = true) (xs : List PyVal)
    (hv : WFList eq xs) (hg : goodFloatsL xs) (js : List Json) (h : toJsonList xs = some js) : cleanL js := by
  match xs with
  | [] => simp only [toJsonList, Option.some.injEq] at h; subst h; trivial
  | x :: r =>
    simp only [toJsonList] at h
    split at h; · cases h
    rename_i j hj
    split at h; · cases h
    rename_i js' hjs'
    simp only [Option.some.injEq] at h; subst h
    simp only [WFList] at hv
    simp only [goodFloatsL] at hg
    exact ⟨toJson_clean hs x hv.1 hg.1 j hj, toJsonList_clean hs r hv.2 hg.2 js' hjs'⟩
theorem toJsonPairs_clean {eq : PyVal → PyVal → Bool} (hs : ∀ s, eq (.str s) (.str s) = true) (xs : List (PyVal × PyVal))
    (hv : WFPairs eq xs) (hg : goodFloatsP xs) (ps : List (Json × Json)) (h : toJsonPairs xs = some ps) :
    ∀ p ∈ ps, Clean p.1 ∧ Clean p.2 := by
  match xs with
  | [] => simp only [toJsonPairs, Option.some.injEq] at h; subst h; simp
  | (k, v) :: r =>
    simp only [toJsonPairs] at h
    split at h; · cases h
    rename_i jk hjk
    split at h; · cases h
    rename_i jv hjv
    split at h; · cases h
    rename_i ps' hps'
    simp only [Option.some.injEq] at h; subst h
    simp only [WFPairs] at hv
    simp only [goodFloatsP] at hg
    have h1 := toJson_clean hs k hv.1 hg.1 jk hjk
    have h2 := toJson_clean hs v hv.2.1 hg.2.1 jv hjv
    have h3 := toJsonPairs_clean hs r hv.2.2 hg.2.2 ps' hps'
    intro p hp
    rcases List.mem_cons.mp hp with rfl | hp
    · exact ⟨h1, h2⟩
    · exact h3 p hp
end

mutual
theorem toBin_clean {eq : PyVal → PyVal → Bool} (hs : ∀ s, eq (.str s) (.str s) = true) (v : PyVal) (hv : v.WF eq)
    (hg : v.goodFloats) (s0 s1 : List (List Nat)) (j : Json) (h : toBin v s0 = some (j, s1)) : Clean j := by
  cases v with
  | none => simp only [toBin, Option.some.injEq, Prod.mk.injEq] at h; obtain ⟨rfl, _⟩ := h; simp [Clean, cleanF]
  | bool b => simp only [toBin, Option.some.injEq, Prod.mk.injEq] at h; obtain ⟨rfl, _⟩ := h; simp [Clean, cleanF]
  | int b => simp only [toBin, Option.some.injEq, Prod.mk.injEq] at h; obtain ⟨rfl, _⟩ := h; simp [Clean, cleanF]
  | float b =>
    simp only [toBin, Option.some.injEq, Prod.mk.injEq] at h; obtain ⟨rfl, _⟩ := h
    simp only [PyVal.goodFloats] at hg
    simp [Clean, cleanF, hg]
  | str b => simp only [toBin, Option.some.injEq, Prod.mk.injEq] at h; obtain ⟨rfl, _⟩ := h; simp [Clean, cleanF]
  | bytes bs => simp only [toBin, Option.some.injEq, Prod.mk.injEq] at h; obtain ⟨rfl, _⟩ := h; simp [Clean, cleanF]
  | list xs =>
    simp only [toBin] at h
    split at h; · cases h
    rename_i js _ hjs
    simp only [Option.some.injEq, Prod.mk.injEq] at h; obtain ⟨rfl, _⟩ := h
    simp only [PyVal.WF] at hv
    simp only [PyVal.goodFloats] at hg
    simp [Clean, cleanF, toBinList_clean hs xs hv hg _ _ js hjs]
  | tuple xs =>
    simp only [toBin] at h
    split at h; · cases h
    rename_i js _ hjs
    simp only [Option.some.injEq, Prod.mk.injEq] at h; obtain ⟨rfl, _⟩ := h
    simp only [PyVal.WF] at hv
    simp only [PyVal.goodFloats] at hg
    simp [Clean, cleanF, toBinList_clean hs xs hv hg _ _ js hjs]
  | dict items =>
    simp only [toBin] at h
    simp only [PyVal.WF] at hv
    simp only [PyVal.goodFloats] at hg
    split at h
    · split at h; · cases h
      rename_i ps _ hps
      simp only [Option.some.injEq, Prod.mk.injEq] at h; obtain ⟨rfl, _⟩ := h
      have ih := toBinPairs_clean hs items hv.1 hg _ _ ps hps
      simp [Clean, cleanF, cleanL_pairs ps ih]
    · rename_i ks hks
      split at h; · cases h
      rename_i js _ hjs
      simp only [Option.some.injEq, Prod.mk.injEq] at h; obtain ⟨rfl, _⟩ := h
      have ih := toBinVals_clean hs items hv.1 hg _ _ js hjs
      simp only [Clean, cleanF, and_true, true_and]
      refine ⟨by simp, zip_nodup _ _ (strKeys_nodup hs items hv.2 ks hks), cleanF_zip _ _ ih⟩
  | ty t =>
    simp only [toBin, Option.map_eq_some_iff, Prod.mk.injEq] at h
    obtain ⟨j', h1, rfl, _⟩ := h
    simp only [PyVal.WF] at hv
    exact tyToJson_clean t hv _ h1
  | paTable ipc => simp only [toBin, Option.some.injEq, Prod.mk.injEq] at h; obtain ⟨rfl, _⟩ := h; simp [Clean, cleanF]
  | table ipc =>
    simp only [toBin, Option.some.injEq, Prod.mk.injEq] at h; obtain ⟨rfl, _⟩ := h
    simp [withKind, setKey, Clean, cleanF]
  | leaf r => simp only [toBin, Option.some.injEq, Prod.mk.injEq] at h; obtain ⟨rfl, _⟩ := h; exact leaf_clean r
  | tensor d sh bs =>
    simp only [toBin, Option.some.injEq, Prod.mk.injEq] at h; obtain ⟨rfl, _⟩ := h
    simp [withKind, setKey, Clean, cleanF, jshape, cleanL_shape]
  | tensorObj sh xs =>
    simp only [toBin] at h
    split at h; · cases h
    rename_i js _ hjs
    simp only [Option.some.injEq, Prod.mk.injEq] at h; obtain ⟨rfl, _⟩ := h
    simp only [PyVal.WF] at hv
    simp only [PyVal.goodFloats] at hg
    simp [withKind, setKey, Clean, cleanF, jshape, cleanL_shape, toBinList_clean hs xs hv hg _ _ js hjs]
  | ndarray d sh bs =>
    simp only [toBin, Option.some.injEq, Prod.mk.injEq] at h; obtain ⟨rfl, _⟩ := h
    simp [Clean, cleanF, cleanL_shape]
  | objarray sh xs =>
    simp only [toBin] at h
    split at h; · cases h
    rename_i js _ hjs
    simp only [Option.some.injEq, Prod.mk.injEq] at h; obtain ⟨rfl, _⟩ := h
    simp only [PyVal.WF] at hv
    simp only [PyVal.goodFloats] at hg
    simp [Clean, cleanF, cleanL_shape, toBinList_clean hs xs hv hg _ _ js hjs]
theorem toBinList_clean {eq : PyVal → PyVal → Bool} (hs : ∀ s, eq (.str s) (.str s) = true) (xs : List PyVal)
    (hv : WFList eq xs) (hg : goodFloatsL xs) (s0 s1 : List (List Nat)) (js : List Json)
    (h : toBinList xs s0 = some (js, s1)) : cleanL js := by
  match xs with
  | [] => simp only [toBinList, Option.some.injEq, Prod.mk.injEq] at h; obtain ⟨rfl, _⟩ := h; trivial
  | x :: r =>
    simp only [toBinList] at h
    split at h; · cases h
    rename_i j _ hj
    split at h; · cases h
    rename_i js' _ hjs'
    simp only [Option.some.injEq, Prod.mk.injEq] at h; obtain ⟨rfl, _⟩ := h
    simp only [WFList] at hv
    simp only [goodFloatsL] at hg
    exact ⟨toBin_clean hs x hv.1 hg.1 _ _ j hj, toBinList_clean hs r hv.2 hg.2 _ _ js' hjs'⟩
theorem toBinPairs_clean {eq : PyVal → PyVal → Bool} (hs : ∀ s, eq (.str s) (.str s) = true) (xs : List (PyVal × PyVal))
    (hv : WFPairs eq xs) (hg : goodFloatsP xs) (s0 s1 : List (List Nat)) (ps : List (Json × Json))
    (h : toBinPairs xs s0 = some (ps, s1)) : ∀ p ∈ ps, Clean p.1 ∧ Clean p.2 := by
  match xs with
  | [] => simp only [toBinPairs, Option.some.injEq, Prod.mk.injEq] at h; obtain ⟨rfl, _⟩ := h; simp
  | (k, v) :: r =>
    simp only [toBinPairs] at h
    split at h; · cases h
    rename_i jk _ hjk
    split at h; · cases h
    rename_i jv _ hjv
    split at h; · cases h
    rename_i ps' _ hps'
    simp only [Option.some.injEq, Prod.mk.injEq] at h; obtain ⟨rfl, _⟩ := h
    simp only [WFPairs] at hv
    simp only [goodFloatsP] at hg
    have h1 := toBin_clean hs k hv.1 hg.1 _ _ jk hjk
    have h2 := toBin_clean hs v hv.2.1 hg.2.1 _ _ jv hjv
    have h3 := toBinPairs_clean hs r hv.2.2 hg.2.2 _ _ ps' hps'
    intro p hp
    rcases List.mem_cons.mp hp with rfl | hp
    · exact ⟨h1, h2⟩
    · exact h3 p hp
theorem toBinVals_clean {eq : PyVal → PyVal → Bool} (hs : ∀ s, eq (.str s) (.str s) = true) (xs : List (PyVal × PyVal))
    (hv : WFPairs eq xs) (hg : goodFloatsP xs) (s0 s1 : List (List Nat)) (js : List Json)
    (h : toBinVals xs s0 = some (js, s1)) : cleanL js := by
  match xs with
  | [] => simp only [toBinVals, Option.some.injEq, Prod.mk.injEq] at h; obtain ⟨rfl, _⟩ := h; trivial
  | (k, v) :: r =>
    simp only [toBinVals] at h
    split at h; · cases h
    rename_i jv _ hjv
    split at h; · cases h
    rename_i js' _ hjs'
    simp only [Option.some.injEq, Prod.mk.injEq] at h; obtain ⟨rfl, _⟩ := h
    simp only [WFPairs] at hv
    simp only [goodFloatsP] at hg
    exact ⟨toBin_clean hs v hv.2.1 hg.2.1 _ _ jv hjv, toBinVals_clean hs r hv.2.2 hg.2.2 _ _ js' hjs'⟩
end

/-! ## The wire formats are lossless -/

theorem bytesJson_jsonBytes {L : WireLib} (hL : L.Ok) (j : Json) (hc : Clean j) (hp : printable j = true) :
    bytesJson L (jsonBytes L j) = some j := by
  have h := clean_distinct j hc
  simp only [bytesJson, jsonBytes, utf8_roundtrip, String.toList_ofList]
  exact jsonLoads_text hL.floats j ((printable_iff j).mp hp) h.2 h.1

/-- **C02** on the wire: whatever `dumps` writes, `loads` reads back as the same value, compressed or not.  The value is any
value python can hold (`WF`) whose NaNs are python's own; `eq` is python's key equality, of which only reflexivity on
strings is used. -/
theorem dumps_loads {L : WireLib} (hL : L.Ok) {eq : PyVal → PyVal → Bool} (hs : ∀ s, eq (.str s) (.str s) = true)
    (v : PyVal) (hv : v.WF eq) (hg : v.goodFloats) (c : Bool) (d : List Nat) (h : dumps L c v = some d) :
    loads L eq c d = some v := by
  unfold dumps at h
  split at h
  · cases h
  · rename_i j hj
    split at h
    · rename_i hp
      cases h
      have hb := bytesJson_jsonBytes hL j (toJson_clean hs v hv hg j hj) hp
      have hr := value_json_roundtrip eq v hv j hj
      cases c
      · simp [loads, hb, hr]
      · simp [loads, hL.gzip _ (utf8_bytes _), jsonBytes]
        rw [jsonBytes] at hb
        rw [hb]
        exact hr
    · cases h

theorem dumps_bytes {L : WireLib} (hL : L.Ok) (c : Bool) (v : PyVal) (d : List Nat) (h : dumps L c v = some d) :
    ∀ b ∈ d, b < 256 := by
  unfold dumps at h
  split at h
  · cases h
  · split at h
    · cases h
      cases c
      · exact utf8_bytes _
      · exact hL.bytes _ (utf8_bytes _)
    · cases h

/-- **C02** for the base64 form used inside HTTP bodies. -/
theorem dumpsB64_loads {L : WireLib} (hL : L.Ok) {eq : PyVal → PyVal → Bool} (hs : ∀ s, eq (.str s) (.str s) = true)
    (v : PyVal) (hv : v.WF eq) (hg : v.goodFloats) (c : Bool) (d : String) (h : dumpsB64 L c v = some d) :
    loadsB64 L eq c d = some v := by
  simp only [dumpsB64, Option.map_eq_some_iff] at h
  obtain ⟨b, hb, rfl⟩ := h
  simp only [loadsB64, String.toList_ofList, b64dec_enc b (dumps_bytes hL c v b hb)]
  exact dumps_loads hL hs v hv hg c b hb

/-- **C02**: `dumps` fails exactly on values with a PHE type inside, or with an int of more than 4300 digits in their JSON
form. -/
theorem dumps_fails_iff (L : WireLib) (c : Bool) (v : PyVal) :
    dumps L c v = none ↔ toJson v = none ∨ ∃ j, toJson v = some j ∧ ¬ Printable j := by
  unfold dumps
  cases h : toJson v with
  | none => simp
  | some j =>
    by_cases hp : printable j = true
    · simp [hp, (printable_iff j).mp hp]
    · simp [hp, ← printable_iff j]

/-- **C03** down to bytes: no assumption about the JSON text is left. -/
theorem dumpsBin_loads {L : WireLib} (hL : L.Ok) {eq : PyVal → PyVal → Bool} (hs : ∀ s, eq (.str s) (.str s) = true)
    (v : PyVal) (hv : v.WF eq) (hg : v.goodFloats) (d : List Nat) (h : dumpsBin L v = some d) : loadsBin L eq d = some v := by
  unfold dumpsBin at h
  split at h
  · cases h
  · rename_i j segs hj
    split at h
    · rename_i hp
      have hb := bytesJson_jsonBytes hL j (toBin_clean hs v hv hg _ _ j hj) hp
      simp only [dumpsBinary, hj] at h
      simp only [loadsBin, loadsBinary, container_roundtrip _ _ _ h, hb]
      exact fromBinF_toBin eq v hv [] segs segs j hj (List.prefix_refl _) _ (Nat.le_refl _)
    · cases h

/-- **C03** down to bytes: every proper prefix of a `dumps_binary` output is rejected. -/
theorem dumpsBin_truncation_rejected {L : WireLib} (hL : L.Ok) {eq : PyVal → PyVal → Bool}
    (hs : ∀ s, eq (.str s) (.str s) = true) (v : PyVal) (hv : v.WF eq) (hg : v.goodFloats) (d : List Nat)
    (h : dumpsBin L v = some d) (k : Nat) (hk : k < d.length) : loadsBin L eq (d.take k) = none := by
  unfold dumpsBin at h
  split at h
  · cases h
  · rename_i j segs hj
    split at h
    · rename_i hp
      have hb := bytesJson_jsonBytes hL j (toBin_clean hs v hv hg _ _ j hj) hp
      simp only [dumpsBinary, hj] at h
      rcases container_truncation _ _ _ h k hk with h1 | ⟨kept, lost, h2, h3, h4⟩
      · simp [loadsBin, loadsBinary, h1]
      · simp only [loadsBin, loadsBinary, h4, hb]
        refine fromBinF_missing eq v [] segs kept j hj (by simp) ?_ _
        subst h2
        have := List.length_pos_iff.mpr h3
        simp; omega
    · cases h

end Verif.Serde
