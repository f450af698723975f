import Verif.Serde.Lemmas
/-!
# Model of the binary container of `mplang/edsl/serde.py` (lines 416-730)

Bytes are naturals below 256.  The JSON text codec of the metadata (`json.dumps(..).encode("utf-8")` and
`json.loads(..decode("utf-8"))`) is a parameter.
-/
namespace Verif.Serde

/-- `struct.pack("<I", n)`: 4 bytes little endian; raises for `n ≥ 2^32` (edsl/serde.py:667, 670). -/
def packU32 (n : Nat) : Option (List Nat) :=
  if n < 2 ^ 32 then some [n % 256, n / 256 % 256, n / 65536 % 256, n / 16777216 % 256] else none

/-- `struct.unpack_from("<I", data, offset)` on the remaining bytes; `none` if fewer than 4 bytes remain. -/
def unpackU32 : List Nat → Option (Nat × List Nat)
  | a :: b :: c :: d :: r => some (a + 256 * b + 65536 * c + 16777216 * d, r)
  | _ => none

/-- The segment part of `dumps_binary` (edsl/serde.py:669-671). -/
def packSegs : List (List Nat) → Option (List Nat)
  | [] => some []
  | s :: r => match packU32 s.length, packSegs r with
    | some h, some t => some (h ++ s ++ t)
    | _, _ => none

/-- `dumps_binary` after the metadata bytes and the segments are known (edsl/serde.py:664-673). -/
def packContainer (md : List Nat) (segs : List (List Nat)) : Option (List Nat) :=
  match packU32 md.length, packSegs segs with
  | some h, some t => some (h ++ md ++ t)
  | _, _ => none

/-- Segment loop of `loads_binary` (edsl/serde.py:717-727): `while offset < len(data)`, with its two truncation errors.
The first argument bounds the number of iterations (each consumes at least four bytes). -/
def unpackSegsF : Nat → List Nat → Option (List (List Nat))
  | _, [] => some []
  | 0, _ => none
  | n + 1, data => match unpackU32 data with
    | none => none                                         -- "segment length header incomplete"
    | some (len, r) =>
      if r.length < len then none                          -- "segment data incomplete"
      else match unpackSegsF n (r.drop len) with
        | none => none
        | some ss => some (r.take len :: ss)

/-- `loads_binary` up to the decoding of metadata (edsl/serde.py:691-727): returns metadata bytes and segments.
(The code parses the metadata before the segment loop; the order of the two only decides which error is raised.) -/
def unpackContainer (data : List Nat) : Option (List Nat × List (List Nat)) :=
  match unpackU32 data with
  | none => none                                           -- "missing metadata length header"
  | some (len, r) =>
    if r.length < len then none                            -- "metadata extends beyond buffer"
    else match unpackSegsF (r.drop len).length (r.drop len) with
      | none => none
      | some ss => some (r.take len, ss)

/-- `BinaryContext.add_segment` (edsl/serde.py:470-474): index of the new segment and the new segment list. -/
def addSegment (segs : List (List Nat)) (d : List Nat) : Nat × List (List Nat) := (segs.length, segs ++ [d])

mutual
/-- `_to_binary_json` (edsl/serde.py:481-588): like `to_json`, but numeric arrays and bytes go to a segment and leave a
`bref` index.  Threads the segment list.  Types and the leaf values have no `to_binary_json`, so they use `to_json`
(line 497); `TensorValue` and `TableValue` have one: backends/tensor_impl.py:162-182, backends/table_impl.py:595-606. -/
def toBin : PyVal → List (List Nat) → Option (Json × List (List Nat))
  | .ty t, segs => (tyToJson t).map fun j => (j, segs)
  | .none, segs => some (.obj [("_kind", .str "_null")], segs)
  | .bool b, segs => some (.obj [("_kind", .str "_bool"), ("v", .bool b)], segs)
  | .int n, segs => some (.obj [("_kind", .str "_int"), ("v", .num n)], segs)
  | .float f, segs => some (.obj [("_kind", .str "_float"), ("v", .flt f)], segs)
  | .str s, segs => some (.obj [("_kind", .str "_str"), ("v", .str s)], segs)
  | .objarray sh xs, segs => match toBinList xs segs with
    | Option.none => Option.none
    | some (js, segs') => some (.obj [("_kind", .str "_ndarray_object"),
        ("shape", .arr (sh.map fun n : Nat => Json.num n)), ("items", .arr js)], segs')
  | .ndarray d sh bs, segs =>
    let p := addSegment segs bs
    some (.obj [("_kind", .str "_ndarray_bref"), ("dtype", .str d),
        ("shape", .arr (sh.map fun n : Nat => Json.num n)), ("bref", .num p.1)], p.2)
  | .bytes bs, segs =>
    let p := addSegment segs bs
    some (.obj [("_kind", .str "_bytes_bref"), ("bref", .num p.1)], p.2)
  | .paTable ipc, segs =>
    let p := addSegment segs ipc
    some (.obj [("_kind", .str "_pa_table_bref"), ("bref", .num p.1)], p.2)
  | .leaf r, segs => some (r.toJson, segs)
  | .tensor d sh bs, segs =>
    let p := addSegment segs bs
    some (withKind "tensor_impl.TensorValue" [("kind", .str "numeric_bref"), ("dtype", .str d), ("shape", jshape sh),
        ("bref", .num p.1)], p.2)
  | .tensorObj sh xs, segs => match toBinList xs segs with
    | Option.none => Option.none
    | some (js, segs') => some (withKind "tensor_impl.TensorValue" [("kind", .str "object"), ("shape", jshape sh),
        ("items", .arr js)], segs')
  | .table ipc, segs =>
    let p := addSegment segs ipc
    some (withKind "table_impl.TableValue" [("ipc_bref", .num p.1)], p.2)
  | .list xs, segs => match toBinList xs segs with
    | Option.none => Option.none
    | some (js, segs') => some (.obj [("_kind", .str "_list"), ("items", .arr js)], segs')
  | .tuple xs, segs => match toBinList xs segs with
    | Option.none => Option.none
    | some (js, segs') => some (.obj [("_kind", .str "_tuple"), ("items", .arr js)], segs')
  | .dict items, segs => match strKeys items with
    | Option.none => match toBinPairs items segs with
      | Option.none => Option.none
      | some (ps, segs') =>
        some (.obj [("_kind", .str "_dict_pairs"), ("pairs", .arr (ps.map fun p => .arr [p.1, p.2]))], segs')
    | some ks => match toBinVals items segs with
      | Option.none => Option.none
      | some (js, segs') => some (.obj [("_kind", .str "_dict"), ("items", .obj (ks.zip js))], segs')
/-- list elements, left to right -/
def toBinList : List PyVal → List (List Nat) → Option (List Json × List (List Nat))
  | [], segs => some ([], segs)
  | x :: xs, segs => match toBin x segs with
    | Option.none => Option.none
    | some (j, segs') => match toBinList xs segs' with
      | Option.none => Option.none
      | some (js, segs'') => some (j :: js, segs'')
/-- dict items with non-string keys, key before value -/
def toBinPairs : List (PyVal × PyVal) → List (List Nat) → Option (List (Json × Json) × List (List Nat))
  | [], segs => some ([], segs)
  | (k, v) :: r, segs => match toBin k segs with
    | Option.none => Option.none
    | some (jk, s1) => match toBin v s1 with
      | Option.none => Option.none
      | some (jv, s2) => match toBinPairs r s2 with
        | Option.none => Option.none
        | some (ps, s3) => some ((jk, jv) :: ps, s3)
/-- dict items with string keys: only the values are serialised -/
def toBinVals : List (PyVal × PyVal) → List (List Nat) → Option (List Json × List (List Nat))
  | [], segs => some ([], segs)
  | (_, v) :: r, segs => match toBin v segs with
    | Option.none => Option.none
    | some (jv, s1) => match toBinVals r s1 with
      | Option.none => Option.none
      | some (js, s2) => some (jv :: js, s2)
end

/-- `segments[data[k]]` -/
def segAt (segs : List (List Nat)) (k : String) (fs : List (String × Json)) : Option (List Nat) :=
  match lookup k fs with
  | some (.num i) => if 0 ≤ i then segs[i.toNat]? else Option.none
  | _ => Option.none

/-- `segments[data["bref"]]` -/
def getSeg (segs : List (List Nat)) (fs : List (String × Json)) : Option (List Nat) := segAt segs "bref" fs

/-- `TensorValue.from_binary_json` (backends/tensor_impl.py:203-232) given the nested `_from_binary_json`.  The
base64 fallback is shared with `from_json`. -/
def tensorFromBin (rec : Json → Option PyVal) (segs : List (List Nat)) (fs : List (String × Json)) : Option PyVal :=
  if getStr "kind" fs = some "numeric_bref" then
    match getShape fs, getSeg segs fs, getStr "dtype" fs with
    | some sh, some bs, some d => some (.tensor d sh bs)
    | _, _, _ => none
  else tensorFromJson rec fs

/-- `TableValue.from_binary_json` (backends/table_impl.py:615-628) -/
def tableFromBin (segs : List (List Nat)) (fs : List (String × Json)) : Option PyVal :=
  match lookup "ipc_bref" fs with
  | some _ => (segAt segs "ipc_bref" fs).map .table
  | none => (getB64 "ipc" fs).map .table

/-- `_from_binary_json` (edsl/serde.py:581-650). Kinds handled by plain `from_json` are delegated as in lines 588-592;
registered classes without `from_binary_json` use `from_json` (line 640). -/
def fromBinF (eq : PyVal → PyVal → Bool) (segs : List (List Nat)) : Nat → Json → Option PyVal
  | 0, _ => Option.none
  | n + 1, .obj fs => match lookup "_kind" fs with
    | some (.str kind) =>
      if kind ∈ ["_null", "_bool", "_int", "_float", "_str", "_bytes", "_ndarray", "_pa_table"] then
        fromJsonF eq (n + 1) (.obj fs)
      else if kind = "_bytes_bref" then (getSeg segs fs).map .bytes
      else if kind = "_ndarray_bref" then match lookup "dtype" fs, lookup "shape" fs, getSeg segs fs with
        | some (.str d), some jsh, some bs => (natsOf jsh).map fun sh => .ndarray d sh bs
        | _, _, _ => Option.none
      else if kind = "_list" then match lookup "items" fs with
        | some (.arr xs) => (mapOpt (fromBinF eq segs n) xs).map .list
        | _ => Option.none
      else if kind = "_tuple" then match lookup "items" fs with
        | some (.arr xs) => (mapOpt (fromBinF eq segs n) xs).map .tuple
        | _ => Option.none
      else if kind = "_dict" then match lookup "items" fs with
        | some (.obj js) =>
          (mapFields (fromBinF eq segs n) js).map fun ps =>
            .dict (dictBuild eq (ps.map fun p => (.str p.1, p.2)))
        | _ => Option.none
      else if kind = "_dict_pairs" then match lookup "pairs" fs with
        | some (.arr xs) => (mapOpt (decPair (fromBinF eq segs n)) xs).map fun ps => .dict (dictBuild eq ps)
        | _ => Option.none
      else if kind = "_ndarray_object" then match lookup "shape" fs, lookup "items" fs with
        | some jsh, some (.arr xs) => match natsOf jsh, mapOpt (fromBinF eq segs n) xs with
          | some sh, some vs => some (.objarray sh vs)
          | _, _ => Option.none
        | _, _ => Option.none
      else if kind = "_pa_table_bref" then (getSeg segs fs).map .paTable
      else if kind = "tensor_impl.TensorValue" then tensorFromBin (fromBinF eq segs n) segs fs
      else if kind = "table_impl.TableValue" then tableFromBin segs fs
      else if kind ∈ leafKinds then (leafFromJson kind fs).map .leaf
      else (tyClassFromJson (tyFromJsonF n) kind fs).map .ty
    | _ => Option.none
  | _ + 1, _ => Option.none

/-- `dumps_binary` (edsl/serde.py:658-673) with the JSON text encoder as parameter. -/
def dumpsBinary (enc : Json → List Nat) (v : PyVal) : Option (List Nat) :=
  match toBin v [] with
  | Option.none => Option.none
  | some (j, segs) => packContainer (enc j) segs

/-- `loads_binary` (edsl/serde.py:676-730) with the JSON text decoder as parameter. -/
def loadsBinary (dec : List Nat → Option Json) (eq : PyVal → PyVal → Bool) (data : List Nat) : Option PyVal :=
  match unpackContainer data with
  | Option.none => Option.none
  | some (md, segs) => match dec md with
    | Option.none => Option.none
    | some j => fromBinF eq segs j.depth j

end Verif.Serde
