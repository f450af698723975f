/-!
# Model of `mplang/edsl/typing.py` and `mplang/edsl/serde.py` (JSON part)

Exceptions are modelled by `none`.  JSON text (python's `json.dumps`/`json.loads`) and gzip are not modelled
here: the model works on the JSON tree that those functions print and parse.
-/
namespace Verif.Serde

/-! ## JSON trees -/

/-- JSON tree as produced by `serde.to_json` (edsl/serde.py:136-256).  `flt` carries the IEEE bit pattern of a
python float.  An object is an insertion-ordered association list, like a python `dict`. -/
inductive Json where
  | null
  | bool (b : Bool)
  | num (n : Int)
  | flt (bits : Nat)
  | str (s : String)
  | arr (xs : List Json)
  | obj (fs : List (String × Json))

/-- `data.get(k)` / `data[k]` on a JSON object (python dict lookup). -/
def lookup (k : String) : List (String × Json) → Option Json
  | [] => none
  | (k', v) :: r => if k' = k then some v else lookup k r

/-- `data[k] = v`: python dict assignment, replaces in place or appends. -/
def setKey (k : String) (v : Json) : List (String × Json) → List (String × Json)
  | [] => [(k, v)]
  | (k', v') :: r => if k' = k then (k, v) :: r else (k', v') :: setKey k v r

/-- `[f(x) for x in xs]` where `f` may raise. -/
def mapOpt {α β : Type} (f : α → Option β) : List α → Option (List β)
  | [] => some []
  | x :: xs => match f x with
    | none => none
    | some y => match mapOpt f xs with
      | none => none
      | some ys => some (y :: ys)

mutual
/-- Nesting depth of a JSON tree; used only as the recursion bound of the decoders. -/
def Json.depth : Json → Nat
  | .arr xs => depthList xs + 1
  | .obj fs => depthFields fs + 1
  | _ => 1
/-- see `Json.depth` -/
def depthList : List Json → Nat
  | [] => 0
  | x :: xs => max x.depth (depthList xs)
/-- see `Json.depth` -/
def depthFields : List (String × Json) → Nat
  | [] => 0
  | (_, x) :: xs => max x.depth (depthFields xs)
end

/-! ## Types -/

/-- The type classes with exactly one string field and a registered serialisation:
dialects/crypto.py:33-175 (PointType, ScalarType, PrivateKeyType, PublicKeyType, SymmetricKeyType) and
dialects/tee.py:113-156 (AttestedKeyType). -/
inductive NamedKind where
  | point | scalar | privKey | pubKey | symKey | attestedKey
  deriving DecidableEq, Repr

/-- Every type class of edsl/typing.py:180-866, dialects/{crypto,bfv,tee}.py and dialects/phe.py:87-150.
* `complex` stores the bitwidth of its `inner_type`, which the constructor forces to be a `FloatType`
  (edsl/typing.py:302-319).
* `phe*` are the three PHE classes; they have no `_serde_kind` (dialects/phe.py:87-150). -/
inductive Ty where
  | int (bitwidth : Int) (signed : Bool)
  | float (bitwidth : Int)
  | complex (innerBitwidth : Int)
  | tensor (elem : Ty) (shape : List Int)
  | vector (elem : Ty) (size : Int)
  | table (schema : List (String × Ty)) (nrows : Int)
  | custom (kind : String)
  | ss (pt : Ty) (enc : String)
  | mp (value : Ty) (parties : Option (List Int))
  | named (k : NamedKind) (s : String)
  | bfvKey (kind : String) (n : Int)
  | bfvPlain (vec : Ty)
  | bfvCipher (vec : Ty)
  | bfvEncoder (n : Int)
  | teeQuote
  | teeMeasurement
  | pheKey (scheme : String) (isPublic : Bool)
  | phePlain (bitwidth : Int)
  | pheCipher (scheme : String)

/-- `isinstance(t, ScalarType)` (edsl/typing.py:177-183; phe.PlaintextType / CiphertextType are subclasses). -/
def Ty.isScalar : Ty → Bool
  | .int .. | .float .. | .complex .. | .phePlain .. | .pheCipher .. => true
  | _ => false

/-- `isinstance(t, VectorType)`. -/
def Ty.isVector : Ty → Bool
  | .vector .. => true
  | _ => false

/-- `bitwidth <= 0 or (bitwidth & (bitwidth-1)) != 0` is the reject test (edsl/typing.py:215-217). -/
def bitwidthOk (b : Int) : Bool := 0 < b && (b.toNat &&& (b.toNat - 1)) == 0

/-- `bitwidth not in (16, 32, 64, 128)` is the reject test (edsl/typing.py:265-267). -/
def floatOk (b : Int) : Bool := b == 16 || b == 32 || b == 64 || b == 128

/-- `dim < -1 or dim == 0` is the reject test for tensor dims and table row counts
(edsl/typing.py:404-414 and 583-590). -/
def dimOk (d : Int) : Bool := !(d < -1 || d == 0)

/-- python `str.strip() == ""` for the blank-kind test (edsl/typing.py:685-688).  Simplification: whitespace is
`Char.isWhitespace` (ASCII blanks), python also strips some Unicode blanks. -/
def blank (s : String) : Bool := s.toList.all Char.isWhitespace

/-- Constructor checks of one class, not looking inside component types:
IntegerType :215, FloatType :265, ComplexType :312, TensorType :393-414, VectorType :520-528, TableType :583-590,
CustomType :683-688; all other classes accept anything. -/
def Ty.localOk : Ty → Bool
  | .int b _ => bitwidthOk b
  | .float b => floatOk b
  | .complex b => floatOk b
  | .tensor _ sh => sh.all dimOk
  | .vector e n => e.isScalar && 0 < n
  | .table _ n => dimOk n
  | .custom k => !blank k
  | .bfvPlain v => v.isVector
  | .bfvCipher v => v.isVector
  | _ => true

mutual
/-- A type object that python code can hold: every constructor check passed, for the type and its components, and
column names are distinct (they are dict keys).  For bfv plaintext/ciphertext the annotation `vector_type:
VectorType` is taken as a requirement (dialects/bfv.py:150,186: the constructor does not check it). -/
def Ty.valid : Ty → Bool
  | .int b s => (Ty.int b s).localOk
  | .float b => (Ty.float b).localOk
  | .complex b => (Ty.complex b).localOk
  | .tensor e sh => e.valid && (Ty.tensor e sh).localOk
  | .vector e n => e.valid && (Ty.vector e n).localOk
  | .table sch n => validSchema sch && (sch.map Prod.fst).Nodup && (Ty.table sch n).localOk
  | .custom k => (Ty.custom k).localOk
  | .ss p _ => p.valid
  | .mp v _ => v.valid
  | .bfvPlain v => v.valid && v.isVector
  | .bfvCipher v => v.valid && v.isVector
  | _ => true
/-- see `Ty.valid` -/
def validSchema : List (String × Ty) → Bool
  | [] => true
  | (_, t) :: r => t.valid && validSchema r
end

/-- `_serde_kind` of the one-string classes (dialects/crypto.py:52,81,110,139,168; dialects/tee.py:149). -/
def NamedKind.kind : NamedKind → String
  | .point => "crypto.PointType"
  | .scalar => "crypto.ScalarType"
  | .privKey => "crypto.PrivateKeyType"
  | .pubKey => "crypto.PublicKeyType"
  | .symKey => "crypto.SymmetricKeyType"
  | .attestedKey => "tee.AttestedKeyType"

/-- JSON field name of the string (dialects/crypto.py `curve`/`suite`, dialects/tee.py:152 `curve`). -/
def NamedKind.field : NamedKind → String
  | .point | .scalar | .attestedKey => "curve"
  | .privKey | .pubKey | .symKey => "suite"

/-- edsl/serde.py:159-163: `data = obj.to_json(); data["_kind"] = obj._serde_kind`. -/
def withKind (kind : String) (fs : List (String × Json)) : Json := .obj (setKey "_kind" (.str kind) fs)

mutual
/-- `serde.to_json(t)` for a type object: the class's own `to_json` plus the kind tag.  edsl/typing.py:237-242 (int),
284-289 (float), 331-339 (complex), 489-500 (tensor), 551-565 (vector), 634-647 (table), 728-733 (custom),
789-799 (ss), 856-866 (mp); dialects/crypto.py:54.., dialects/bfv.py:131-250, dialects/tee.py:105-187.
The PHE classes raise `TypeError` (edsl/serde.py:251-256). -/
def tyToJson : Ty → Option Json
  | .int b s => some (withKind "mplang.IntegerType" [("bitwidth", .num b), ("signed", .bool s)])
  | .float b => some (withKind "mplang.FloatType" [("bitwidth", .num b)])
  | .complex b => some (withKind "mplang.ComplexType"
      [("inner_type", withKind "mplang.FloatType" [("bitwidth", .num b)])])
  | .tensor e sh => match tyToJson e with
    | none => none
    | some je => some (withKind "mplang.TensorType" [("element_type", je), ("shape", .arr (sh.map .num))])
  | .vector e n => match tyToJson e with
    | none => none
    | some je => some (withKind "mplang.VectorType" [("element_type", je), ("size", .num n)])
  | .table sch n => match schemaToJson sch with
    | none => none
    | some js =>
      some (withKind "mplang.TableType"
        (("schema", .obj js) :: (if n ≠ -1 then [("nrows", .num n)] else [])))
  | .custom k => some (withKind "mplang.CustomType" [("kind", .str k)])
  | .ss p enc => match tyToJson p with
    | none => none
    | some jp => some (withKind "mplang.SSType" [("secret_type", jp), ("enc_schema", .str enc)])
  | .mp v ps => match tyToJson v with
    | none => none
    | some jv => some (withKind "mplang.MPType" [("value_type", jv),
        ("parties", match ps with | none => .null | some l => .arr (l.map .num))])
  | .named k s => some (withKind k.kind [(k.field, .str s)])
  | .bfvKey k n => some (withKind "bfv.KeyType" [("kind", .str k), ("poly_modulus_degree", .num n)])
  | .bfvPlain v => match tyToJson v with
    | none => none
    | some jv => some (withKind "bfv.PlaintextType" [("vector_type", jv)])
  | .bfvCipher v => match tyToJson v with
    | none => none
    | some jv => some (withKind "bfv.CiphertextType" [("vector_type", jv)])
  | .bfvEncoder n => some (withKind "bfv.EncoderType" [("poly_modulus_degree", .num n)])
  | .teeQuote => some (withKind "tee.QuoteType" [])
  | .teeMeasurement => some (withKind "tee.MeasurementType" [])
  | .pheKey .. | .phePlain .. | .pheCipher .. => none
/-- `{name: serde.to_json(t) for name, t in self.schema.items()}` (edsl/typing.py:636). -/
def schemaToJson : List (String × Ty) → Option (List (String × Json))
  | [] => some []
  | (c, t) :: r => match tyToJson t with
    | none => none
    | some j => match schemaToJson r with
      | none => none
      | some js => some ((c, j) :: js)
end

/-- read an int field: `data[k]` (KeyError when missing).  Simplification: a field of the wrong JSON type is an error
here, python would store it unchecked in a few classes. -/
def getNum (k : String) (fs : List (String × Json)) : Option Int :=
  match lookup k fs with | some (.num n) => some n | _ => none
/-- read a string field, see `getNum` -/
def getStr (k : String) (fs : List (String × Json)) : Option String :=
  match lookup k fs with | some (.str s) => some s | _ => none
/-- read a bool field, see `getNum` -/
def getBool (k : String) (fs : List (String × Json)) : Option Bool :=
  match lookup k fs with | some (.bool s) => some s | _ => none
/-- a JSON integer -/
def Json.asNum : Json → Option Int
  | .num n => some n
  | _ => none
/-- read a list-of-int field, see `getNum` -/
def getNums (k : String) (fs : List (String × Json)) : Option (List Int) :=
  match lookup k fs with
  | some (.arr xs) => mapOpt Json.asNum xs
  | _ => none

/-- run a class constructor: keep the object only if its checks pass (otherwise it raises). -/
def mk (t : Ty) : Option Ty := if t.localOk then some t else none

/-- `{name: f(j) for name, j in items}` -/
def mapFields {β : Type} (f : Json → Option β) : List (String × Json) → Option (List (String × β))
  | [] => some []
  | (c, j) :: r => match f j with
    | none => none
    | some y => match mapFields f r with
      | none => none
      | some ys => some ((c, y) :: ys)

/-- The `from_json` classmethod registered under `kind`, given the nested `serde.from_json` restricted to types.
edsl/typing.py:241 (int), 288 (float), 334 (complex), 496 (tensor), 558 (vector), 643 (table, `nrows` defaults to -1),
732 (custom), 796 (ss, `enc_schema` defaults to "ss"), 863 (mp); dialects/crypto.py:57.., dialects/bfv.py:137..250,
dialects/tee.py:108,154,185.  Unknown kinds raise (edsl/serde.py:347-351). -/
def tyClassFromJson (rec : Json → Option Ty) (kind : String) (fs : List (String × Json)) : Option Ty :=
  if kind = "mplang.IntegerType" then do
    let b ← getNum "bitwidth" fs
    let s ← getBool "signed" fs
    mk (.int b s)
  else if kind = "mplang.FloatType" then do
    let b ← getNum "bitwidth" fs
    mk (.float b)
  else if kind = "mplang.ComplexType" then do
    let j ← lookup "inner_type" fs
    let t ← rec j
    match t with
    | .float b => mk (.complex b)
    | _ => none
  else if kind = "mplang.TensorType" then do
    let j ← lookup "element_type" fs
    let t ← rec j
    let sh ← getNums "shape" fs
    mk (.tensor t sh)
  else if kind = "mplang.VectorType" then do
    let j ← lookup "element_type" fs
    let t ← rec j
    let n ← getNum "size" fs
    mk (.vector t n)
  else if kind = "mplang.TableType" then
    match lookup "schema" fs with
    | some (.obj js) => do
      let sch ← mapFields rec js
      match lookup "nrows" fs with
      | none => mk (.table sch (-1))
      | some (.num n) => mk (.table sch n)
      | _ => none
    | _ => none
  else if kind = "mplang.CustomType" then do
    let k ← getStr "kind" fs
    mk (.custom k)
  else if kind = "mplang.SSType" then do
    let j ← lookup "secret_type" fs
    let t ← rec j
    match lookup "enc_schema" fs with
    | none => mk (.ss t "ss")
    | some (.str e) => mk (.ss t e)
    | _ => none
  else if kind = "mplang.MPType" then do
    let j ← lookup "value_type" fs
    let t ← rec j
    match lookup "parties" fs with
    | some .null => mk (.mp t none)
    | some (.arr xs) => do
      let ps ← mapOpt Json.asNum xs
      mk (.mp t (some ps))
    | _ => none
  else if kind = "crypto.PointType" then do mk (.named .point (← getStr "curve" fs))
  else if kind = "crypto.ScalarType" then do mk (.named .scalar (← getStr "curve" fs))
  else if kind = "crypto.PrivateKeyType" then do mk (.named .privKey (← getStr "suite" fs))
  else if kind = "crypto.PublicKeyType" then do mk (.named .pubKey (← getStr "suite" fs))
  else if kind = "crypto.SymmetricKeyType" then do mk (.named .symKey (← getStr "suite" fs))
  else if kind = "tee.AttestedKeyType" then do mk (.named .attestedKey (← getStr "curve" fs))
  else if kind = "bfv.KeyType" then do
    let k ← getStr "kind" fs
    let n ← getNum "poly_modulus_degree" fs
    mk (.bfvKey k n)
  else if kind = "bfv.PlaintextType" then do
    let j ← lookup "vector_type" fs
    mk (.bfvPlain (← rec j))
  else if kind = "bfv.CiphertextType" then do
    let j ← lookup "vector_type" fs
    mk (.bfvCipher (← rec j))
  else if kind = "bfv.EncoderType" then do mk (.bfvEncoder (← getNum "poly_modulus_degree" fs))
  else if kind = "tee.QuoteType" then some .teeQuote
  else if kind = "tee.MeasurementType" then some .teeMeasurement
  else none

/-- `serde.from_json` on the JSON of a type (edsl/serde.py:259-351): dispatch on `_kind`.  The first argument bounds
the recursion depth.  The removal of `_kind` before the class's `from_json` (line 344) is skipped: no class reads it. -/
def tyFromJsonF : Nat → Json → Option Ty
  | 0, _ => none
  | n + 1, .obj fs => match lookup "_kind" fs with
    | some (.str kind) => tyClassFromJson (tyFromJsonF n) kind fs
    | _ => none
  | _ + 1, _ => none

/-- `serde.from_json` on the JSON of a type; recursion bound = depth of the tree. -/
def tyFromJson (j : Json) : Option Ty := tyFromJsonF j.depth j

/-! ## Equality and hashing of types -/

mutual
/-- `a == b` for type objects (the `__eq__` methods of edsl/typing.py and the dialects).  Tables compare their schema
as python dicts, i.e. regardless of column order (edsl/typing.py:611-614). -/
def Ty.eq : Ty → Ty → Bool
  | .int b s, .int b' s' => b == b' && s == s'
  | .float b, .float b' => b == b'
  | .complex b, .complex b' => b == b'
  | .tensor e sh, .tensor e' sh' => e.eq e' && sh == sh'
  | .vector e n, .vector e' n' => e.eq e' && n == n'
  | .table sch n, .table sch' n' => sch.length == sch'.length && schemaEq sch sch' && n == n'
  | .custom k, .custom k' => k == k'
  | .ss p e, .ss p' e' => p.eq p' && e == e'
  | .mp v ps, .mp v' ps' => v.eq v' && ps == ps'
  | .named k s, .named k' s' => k == k' && s == s'
  | .bfvKey k n, .bfvKey k' n' => k == k' && n == n'
  | .bfvPlain v, .bfvPlain v' => v.eq v'
  | .bfvCipher v, .bfvCipher v' => v.eq v'
  | .bfvEncoder n, .bfvEncoder n' => n == n'
  | .teeQuote, .teeQuote => true
  | .teeMeasurement, .teeMeasurement => true
  | .pheKey s p, .pheKey s' p' => s == s' && p == p'
  | .phePlain b, .phePlain b' => b == b'
  | .pheCipher s, .pheCipher s' => s == s'
  | _, _ => false
/-- dict comparison: every column of the left table is found in the right one with an equal type (the length test is
in `Ty.eq`). -/
def schemaEq : List (String × Ty) → List (String × Ty) → Bool
  | [], _ => true
  | (c, t) :: r, sch' => colEq c t sch' && schemaEq r sch'
/-- look column `c` up in the right table and compare -/
def colEq (c : String) (t : Ty) : List (String × Ty) → Bool
  | [] => false
  | (c', t') :: r => if c' = c then t.eq t' else colEq c t r
end

/-- The tuple that `__hash__` feeds to python's `hash`, as a tree (edsl/typing.py:232, 279, 326, 446, 546, 616, 707,
784, 851; dialects).  Python's tuple hash is a function of this tree, so equal trees hash equally. -/
inductive HKey where
  | s (x : String) | i (n : Int) | b (x : Bool) | l (xs : List HKey)

mutual
/-- `__hash__` argument; the table one uses `tuple(self.schema.items())`, i.e. in column order
(edsl/typing.py:616-617). -/
def Ty.hkey : Ty → HKey
  | .int b s => .l [.s "IntegerType", .i b, .b s]
  | .float b => .l [.s "FloatType", .i b]
  | .complex b => .l [.s "ComplexType", .l [.s "FloatType", .i b]]
  | .tensor e sh => .l [e.hkey, .l (sh.map .i)]
  | .vector e n => .l [.s "VectorType", e.hkey, .i n]
  | .table sch n => .l [.s "TableType", .l (schemaHkey sch), .i n]
  | .custom k => .l [.s "CustomType", .s k]
  | .ss p e => .l [.s "SSType", p.hkey, .s e]
  | .mp v ps => .l [.s "MPType", v.hkey, match ps with | none => .s "None" | some l => .l (l.map .i)]
  | .named k s => .l [.s k.kind, .s s]
  | .bfvKey k n => .l [.s "BFVKeyType", .s k, .i n]
  | .bfvPlain v => .l [.s "BFVPlaintextType", v.hkey]
  | .bfvCipher v => .l [.s "BFVCiphertextType", v.hkey]
  | .bfvEncoder n => .l [.s "BFVEncoder", .i n]
  | .teeQuote => .s "QuoteType"
  | .teeMeasurement => .s "MeasurementType"
  | .pheKey s p => .l [.s s, .b p]
  | .phePlain b => .l [.s "PlaintextType", .i b]
  | .pheCipher s => .l [.s "CiphertextType", .s s]
/-- items tuple of a table schema -/
def schemaHkey : List (String × Ty) → List HKey
  | [] => []
  | (c, t) :: r => .l [.s c, t.hkey] :: schemaHkey r
end

/-! ## base64 -/

/-- RFC 4648 alphabet used by `base64.b64encode` (edsl/serde.py:193, 249). -/
def b64Char (n : Nat) : Char :=
  if n < 26 then Char.ofNat (65 + n)
  else if n < 52 then Char.ofNat (97 + (n - 26))
  else if n < 62 then Char.ofNat (48 + (n - 52))
  else if n = 62 then '+' else '/'

/-- inverse of `b64Char` -/
def b64Val (c : Char) : Option Nat :=
  let n := c.toNat
  if 65 ≤ n ∧ n < 91 then some (n - 65)
  else if 97 ≤ n ∧ n < 123 then some (n - 97 + 26)
  else if 48 ≤ n ∧ n < 58 then some (n - 48 + 52)
  else if n = 43 then some 62
  else if n = 47 then some 63
  else none

/-- `base64.b64encode(data).decode("ascii")`; bytes are naturals below 256. -/
def b64enc : List Nat → List Char
  | [] => []
  | [a] => [b64Char (a / 4), b64Char (a % 4 * 16), '=', '=']
  | [a, b] => [b64Char (a / 4), b64Char (a % 4 * 16 + b / 16), b64Char (b % 16 * 4), '=']
  | a :: b :: c :: r =>
    b64Char (a / 4) :: b64Char (a % 4 * 16 + b / 16) :: b64Char (b % 16 * 4 + c / 64) :: b64Char (c % 64) :: b64enc r

/-- Main loop of CPython's `binascii.a2b_base64` (non-strict, as used by `base64.b64decode`): `q` characters of the
current quad have been read, `l` is `leftchar`, `p` is `pads`.  Characters outside the alphabet are skipped; a complete
padding ends the parse (the rest is ignored); an incomplete quad at the end of the text raises. -/
def b64Loop (q l p : Nat) : List Char → Option (List Nat)
  | [] => if q = 0 then some [] else none
  | c :: r =>
    if c = '=' then
      if 2 ≤ q then (if 4 ≤ q + (p + 1) then some [] else b64Loop q l (p + 1) r) else b64Loop q l p r
    else match b64Val c with
      | none => b64Loop q l p r
      | some v =>
        if q = 0 then b64Loop 1 v 0 r
        else if q = 1 then (b64Loop 2 (v % 16) 0 r).map ((l * 4 + v / 16) :: ·)
        else if q = 2 then (b64Loop 3 (v % 4) 0 r).map ((l * 16 + v / 4) :: ·)
        else (b64Loop 0 0 0 r).map ((l * 64 + v) :: ·)

/-- `base64.b64decode(text)` for a python string: non-ASCII text raises. -/
def b64dec (s : List Char) : Option (List Nat) :=
  if s.all fun c => c.toNat < 128 then b64Loop 0 0 0 s else none

/-! ## Values -/

/-- Registered runtime value classes whose JSON form has no nested objects and that have no binary form of their own:
`BytesValue`, `ECPointValue`, `PrivateKeyValue`, `PublicKeyValue`, `SymmetricKeyValue`
(backends/crypto_impl.py:41-75, 79-115, 467-548), `MockQuoteValue` (backends/tee_impl.py:48-78) and `SPUShareValue`
(backends/spu_impl.py:53-93; `libspu.Share` is its `meta` bytes and its `share_chunks`). -/
inductive RtLeaf where
  | bytesV (bs : List Nat)
  | ecPoint (bs : List Nat)
  | privKey (suite : String) (bs : List Nat)
  | pubKey (suite : String) (bs : List Nat)
  | symKey (suite : String) (bs : List Nat)
  | quote (platform : String) (pk : List Nat) (suite : String)
  | share (info : List Nat) (chunks : List (List Nat))
  deriving DecidableEq, Repr

/-- Python objects handled by `serde` (edsl/serde.py:136-256): plain scalars and containers, type objects, numeric and
object numpy arrays, pyarrow tables, and the runtime value classes of the backends: `leaf`s, `TensorValue` holding a
numeric array (`tensor`) or an object array (`tensorObj`) (backends/tensor_impl.py:50-232) and `TableValue` (`table`)
(backends/table_impl.py:545-625).  A dict is its insertion-ordered list of items.  Bytes are naturals below 256.  A
pyarrow table is identified with its Arrow IPC stream (pyarrow's own reader and writer are not modelled).  Not modelled:
BFV values (see Verif.Mpc.Groupby), `FunctionValue`, `SPUConfig`; array-likes converted to numpy;
`np.integer`/`np.floating` scalars are first converted to `int`/`float` by the code (lines 180-183) and so are outside the
round-trip claim. -/
inductive PyVal where
  | none
  | bool (b : Bool)
  | int (n : Int)
  | float (bits : Nat)
  | str (s : String)
  | bytes (bs : List Nat)
  | list (xs : List PyVal)
  | tuple (xs : List PyVal)
  | dict (items : List (PyVal × PyVal))
  | ty (t : Ty)
  | ndarray (dtype : String) (shape : List Nat) (data : List Nat)
  | objarray (shape : List Nat) (items : List PyVal)
  | paTable (ipc : List Nat)
  | leaf (r : RtLeaf)
  | tensor (dtype : String) (shape : List Nat) (data : List Nat)
  | tensorObj (shape : List Nat) (items : List PyVal)
  | table (ipc : List Nat)

/-- `base64.b64encode(data).decode("ascii")` as a JSON string -/
def jb64 (bs : List Nat) : Json := .str (String.ofList (b64enc bs))

/-- `list(shape)` as JSON -/
def jshape (sh : List Nat) : Json := .arr (sh.map fun n : Nat => Json.num n)

/-- `_serde_kind` of the leaf classes (crypto_impl.py:52, 87, 477, 505, 533; tee_impl.py:63; spu_impl.py:64) -/
def RtLeaf.kind : RtLeaf → String
  | .bytesV _ => "crypto_impl.BytesValue"
  | .ecPoint _ => "crypto_impl.ECPointValue"
  | .privKey .. => "crypto_impl.PrivateKeyValue"
  | .pubKey .. => "crypto_impl.PublicKeyValue"
  | .symKey .. => "crypto_impl.SymmetricKeyValue"
  | .quote .. => "tee_impl.MockQuoteValue"
  | .share .. => "spu_impl.SPUShareValue"

/-- `to_json` of the leaf classes: crypto_impl.py:68-69, 104-105, 482-486, 510-514, 538-542; tee_impl.py:66-71;
spu_impl.py:79-86 -/
def RtLeaf.fields : RtLeaf → List (String × Json)
  | .bytesV bs => [("data", jb64 bs)]
  | .ecPoint bs => [("data", jb64 bs)]
  | .privKey s bs => [("suite", .str s), ("key_bytes", jb64 bs)]
  | .pubKey s bs => [("suite", .str s), ("key_bytes", jb64 bs)]
  | .symKey s bs => [("suite", .str s), ("key_bytes", jb64 bs)]
  | .quote p pk s => [("platform", .str p), ("bound_pk", jb64 pk), ("suite", .str s)]
  | .share m cs => [("meta", jb64 m), ("share_chunks", .arr (cs.map jb64))]

/-- `data = obj.to_json(); data["_kind"] = obj._serde_kind` (edsl/serde.py:159-163) -/
def RtLeaf.toJson (r : RtLeaf) : Json := withKind r.kind r.fields

/-- `base64.b64decode(data[k])` -/
def getB64 (k : String) (fs : List (String × Json)) : Option (List Nat) :=
  match getStr k fs with
  | some s => b64dec s.toList
  | none => none

/-- `data[k]` that must be a list -/
def jsonArr (k : String) (fs : List (String × Json)) : Option (List Json) :=
  match lookup k fs with
  | some (.arr xs) => some xs
  | _ => none

/-- `base64.b64decode(chunk_b64)` -/
def b64Item : Json → Option (List Nat)
  | .str s => b64dec s.toList
  | _ => none

/-- kinds of the leaf classes in the class registry -/
def leafKinds : List String :=
  ["crypto_impl.BytesValue", "crypto_impl.ECPointValue", "crypto_impl.PrivateKeyValue", "crypto_impl.PublicKeyValue",
    "crypto_impl.SymmetricKeyValue", "tee_impl.MockQuoteValue", "spu_impl.SPUShareValue"]

/-- a suite name and key bytes (crypto_impl.py:488-493, 516-521, 544-548) -/
def keyFromJson (mk : String → List Nat → RtLeaf) (fs : List (String × Json)) : Option RtLeaf :=
  match getStr "suite" fs, getB64 "key_bytes" fs with
  | some s, some b => some (mk s b)
  | _, _ => none

/-- `from_json` of the leaf classes: crypto_impl.py:71-73, 107-109, 488-493, 516-521, 544-548; tee_impl.py:73-79;
spu_impl.py:88-95 -/
def leafFromJson (kind : String) (fs : List (String × Json)) : Option RtLeaf :=
  if kind = "crypto_impl.BytesValue" then (getB64 "data" fs).map .bytesV
  else if kind = "crypto_impl.ECPointValue" then (getB64 "data" fs).map .ecPoint
  else if kind = "crypto_impl.PrivateKeyValue" then keyFromJson .privKey fs
  else if kind = "crypto_impl.PublicKeyValue" then keyFromJson .pubKey fs
  else if kind = "crypto_impl.SymmetricKeyValue" then keyFromJson .symKey fs
  else if kind = "tee_impl.MockQuoteValue" then
    match getStr "platform" fs, getB64 "bound_pk" fs, getStr "suite" fs with
    | some p, some b, some s => some (.quote p b s)
    | _, _, _ => none
  else if kind = "spu_impl.SPUShareValue" then
    match getB64 "meta" fs, jsonArr "share_chunks" fs with
    | some m, some cs => (mapOpt b64Item cs).map (.share m)
    | _, _ => none
  else none

/-- `isinstance(k, str)` -/
def PyVal.asStr? : PyVal → Option String
  | .str s => some s
  | _ => Option.none

/-- All keys as strings, or `none` if some key is not a string: `has_non_string_keys` (edsl/serde.py:234). -/
def strKeys : List (PyVal × PyVal) → Option (List String)
  | [] => some []
  | (k, _) :: r => match k.asStr? with
    | Option.none => Option.none
    | some s => match strKeys r with
      | Option.none => Option.none
      | some ss => some (s :: ss)

mutual
/-- `serde.to_json` (edsl/serde.py:136-256), in the order of its tests.  The bool test precedes the int test; lists and
tuples get different kinds; a dict with any non-string key becomes a list of pairs.  Registered classes
(lines 159-163) use their own `to_json`: backends/tensor_impl.py:140-160, backends/table_impl.py:584-593. -/
def toJson : PyVal → Option Json
  | .ty t => tyToJson t
  | .none => some (.obj [("_kind", .str "_null")])
  | .bool b => some (.obj [("_kind", .str "_bool"), ("v", .bool b)])
  | .int n => some (.obj [("_kind", .str "_int"), ("v", .num n)])
  | .float f => some (.obj [("_kind", .str "_float"), ("v", .flt f)])
  | .str s => some (.obj [("_kind", .str "_str"), ("v", .str s)])
  | .objarray sh xs => match toJsonList xs with
    | Option.none => Option.none
    | some js => some (.obj [("_kind", .str "_ndarray_object"), ("shape", .arr (sh.map fun n : Nat => Json.num n)),
        ("items", .arr js)])
  | .ndarray d sh bs => some (.obj [("_kind", .str "_ndarray"), ("dtype", .str d),
        ("shape", .arr (sh.map fun n : Nat => Json.num n)), ("data", .str (String.ofList (b64enc bs)))])
  | .list xs => match toJsonList xs with
    | Option.none => Option.none
    | some js => some (.obj [("_kind", .str "_list"), ("items", .arr js)])
  | .tuple xs => match toJsonList xs with
    | Option.none => Option.none
    | some js => some (.obj [("_kind", .str "_tuple"), ("items", .arr js)])
  | .dict items => match strKeys items with
    | Option.none => match toJsonPairs items with
      | Option.none => Option.none
      | some ps => some (.obj [("_kind", .str "_dict_pairs"), ("pairs", .arr (ps.map fun p => .arr [p.1, p.2]))])
    | some ks => match toJsonPairs items with
      | Option.none => Option.none
      | some ps => some (.obj [("_kind", .str "_dict"), ("items", .obj (ks.zip (ps.map Prod.snd)))])
  | .bytes bs => some (.obj [("_kind", .str "_bytes"), ("data", .str (String.ofList (b64enc bs)))])
  | .paTable ipc => some (.obj [("_kind", .str "_pa_table"), ("data", jb64 ipc)])
  | .leaf r => some r.toJson
  | .tensor d sh bs => some (withKind "tensor_impl.TensorValue" [("kind", .str "numeric"), ("dtype", .str d),
        ("shape", jshape sh), ("data", jb64 bs)])
  | .tensorObj sh xs => match toJsonList xs with
    | Option.none => Option.none
    | some js => some (withKind "tensor_impl.TensorValue" [("kind", .str "object"), ("shape", jshape sh),
        ("items", .arr js)])
  | .table ipc => some (withKind "table_impl.TableValue" [("ipc", jb64 ipc)])
/-- `[to_json(item) for item in obj]` -/
def toJsonList : List PyVal → Option (List Json)
  | [] => some []
  | x :: xs => match toJson x with
    | Option.none => Option.none
    | some j => match toJsonList xs with
      | Option.none => Option.none
      | some js => some (j :: js)
/-- `[[to_json(k), to_json(v)] for k, v in obj.items()]` -/
def toJsonPairs : List (PyVal × PyVal) → Option (List (Json × Json))
  | [] => some []
  | (k, v) :: r => match toJson k with
    | Option.none => Option.none
    | some jk => match toJson v with
      | Option.none => Option.none
      | some jv => match toJsonPairs r with
        | Option.none => Option.none
        | some ps => some ((jk, jv) :: ps)
end

/-- python `d[k] = v` on an insertion-ordered dict, with key equality `eq` (python's `==` on hashable keys). -/
def dictSet (eq : PyVal → PyVal → Bool) (k v : PyVal) : List (PyVal × PyVal) → List (PyVal × PyVal)
  | [] => [(k, v)]
  | (k', v') :: r => if eq k' k then (k', v) :: r else (k', v') :: dictSet eq k v r

/-- dict comprehension: insert the pairs one after the other. -/
def dictBuild (eq : PyVal → PyVal → Bool) (ps : List (PyVal × PyVal)) : List (PyVal × PyVal) :=
  ps.foldl (fun d p => dictSet eq p.1 p.2 d) []

/-- read a list of naturals (numpy shape) -/
def natsOf (j : Json) : Option (List Nat) :=
  match j with
  | .arr xs => mapOpt (fun j => match j with | .num n => some n.toNat | _ => none) xs
  | _ => none

/-- `tuple(data["shape"])` -/
def getShape (fs : List (String × Json)) : Option (List Nat) :=
  match lookup "shape" fs with
  | some j => natsOf j
  | none => none

/-- `TensorValue.from_json` (backends/tensor_impl.py:184-201) given the nested `serde.from_json`; `kind` defaults to
"numeric". -/
def tensorFromJson (rec : Json → Option PyVal) (fs : List (String × Json)) : Option PyVal :=
  match getShape fs with
  | none => none
  | some sh =>
    if getStr "kind" fs = some "object" then
      match jsonArr "items" fs with
      | some xs => (mapOpt rec xs).map (.tensorObj sh)
      | none => none
    else match getB64 "data" fs, getStr "dtype" fs with
      | some bs, some d => some (.tensor d sh bs)
      | _, _ => none

/-- `pair[0], pair[1]` decoding of `_dict_pairs` (edsl/serde.py:305). -/
def decPair (f : Json → Option PyVal) (j : Json) : Option (PyVal × PyVal) :=
  match j with
  | .arr (a :: b :: _) => match f a with
    | none => none
    | some k => match f b with
      | none => none
      | some v => some (k, v)
  | _ => none

/-- `serde.from_json` (edsl/serde.py:259-351).  First argument bounds recursion depth; `eq` is python key equality used
when rebuilding dicts.  `bool(..)`/`int(..)`/`float(..)`/`str(..)` conversions of wrongly typed fields are errors here.
`np.frombuffer(..).reshape(..)` is represented by the triple (dtype, shape, bytes). -/
def fromJsonF (eq : PyVal → PyVal → Bool) : Nat → Json → Option PyVal
  | 0, _ => none
  | n + 1, .obj fs => match lookup "_kind" fs with
    | some (.str kind) =>
      if kind = "_null" then some .none
      else if kind = "_bool" then match lookup "v" fs with | some (.bool b) => some (.bool b) | _ => none
      else if kind = "_int" then match lookup "v" fs with | some (.num i) => some (.int i) | _ => none
      else if kind = "_float" then match lookup "v" fs with | some (.flt f) => some (.float f) | _ => none
      else if kind = "_str" then match lookup "v" fs with | some (.str s) => some (.str s) | _ => none
      else if kind = "_list" then match lookup "items" fs with
        | some (.arr xs) => (mapOpt (fromJsonF eq n) xs).map .list
        | _ => none
      else if kind = "_tuple" then match lookup "items" fs with
        | some (.arr xs) => (mapOpt (fromJsonF eq n) xs).map .tuple
        | _ => none
      else if kind = "_dict" then match lookup "items" fs with
        | some (.obj js) =>
          (mapFields (fromJsonF eq n) js).map fun ps =>
            .dict (dictBuild eq (ps.map fun p => (.str p.1, p.2)))
        | _ => none
      else if kind = "_dict_pairs" then match lookup "pairs" fs with
        | some (.arr xs) => (mapOpt (decPair (fromJsonF eq n)) xs).map fun ps => .dict (dictBuild eq ps)
        | _ => none
      else if kind = "_bytes" then match lookup "data" fs with
        | some (.str s) => (b64dec s.toList).map .bytes
        | _ => none
      else if kind = "_ndarray" then match lookup "dtype" fs, lookup "shape" fs, lookup "data" fs with
        | some (.str d), some jsh, some (.str s) =>
          match natsOf jsh, b64dec s.toList with
          | some sh, some bs => some (.ndarray d sh bs)
          | _, _ => none
        | _, _, _ => none
      else if kind = "_ndarray_object" then match lookup "shape" fs, lookup "items" fs with
        | some jsh, some (.arr xs) => match natsOf jsh, mapOpt (fromJsonF eq n) xs with
          | some sh, some vs => some (.objarray sh vs)
          | _, _ => none
        | _, _ => none
      else if kind = "_pa_table" then (getB64 "data" fs).map .paTable
      else if kind = "tensor_impl.TensorValue" then tensorFromJson (fromJsonF eq n) fs
      else if kind = "table_impl.TableValue" then (getB64 "ipc" fs).map .table
      else if kind ∈ leafKinds then (leafFromJson kind fs).map .leaf
      else (tyClassFromJson (tyFromJsonF n) kind fs).map .ty
    | _ => none
  | _ + 1, _ => none

/-- `serde.from_json` -/
def fromJson (eq : PyVal → PyVal → Bool) (j : Json) : Option PyVal := fromJsonF eq j.depth j

/-- byte strings hold bytes -/
def RtLeaf.WF : RtLeaf → Prop
  | .bytesV bs | .ecPoint bs | .privKey _ bs | .pubKey _ bs | .symKey _ bs | .quote _ bs _ => ∀ b ∈ bs, b < 256
  | .share m cs => (∀ b ∈ m, b < 256) ∧ ∀ c ∈ cs, ∀ b ∈ c, b < 256

mutual
/-- A value python can hold: bytes below 256, valid types, dict keys pairwise different under python equality `eq`
(a python dict cannot hold two equal keys). -/
def PyVal.WF (eq : PyVal → PyVal → Bool) : PyVal → Prop
  | .bytes bs => ∀ b ∈ bs, b < 256
  | .list xs => WFList eq xs
  | .tuple xs => WFList eq xs
  | .dict items => WFPairs eq items ∧ (items.map Prod.fst).Pairwise (fun a b => eq a b = false)
  | .ty t => t.valid = true
  | .ndarray _ _ bs => ∀ b ∈ bs, b < 256
  | .objarray _ xs => WFList eq xs
  | .paTable bs => ∀ b ∈ bs, b < 256
  | .leaf r => r.WF
  | .tensor _ _ bs => ∀ b ∈ bs, b < 256
  | .tensorObj _ xs => WFList eq xs
  | .table bs => ∀ b ∈ bs, b < 256
  | _ => True
/-- see `PyVal.WF` -/
def WFList (eq : PyVal → PyVal → Bool) : List PyVal → Prop
  | [] => True
  | x :: xs => x.WF eq ∧ WFList eq xs
/-- see `PyVal.WF` -/
def WFPairs (eq : PyVal → PyVal → Bool) : List (PyVal × PyVal) → Prop
  | [] => True
  | (k, v) :: xs => k.WF eq ∧ v.WF eq ∧ WFPairs eq xs
end

end Verif.Serde
