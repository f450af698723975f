import Verif.Serde.Model
/-!
# The JSON text codec (python's `json.dumps` / `json.loads`) as used by `edsl/serde.py`

`json.dumps` with `separators=(",", ":")` and the default `ensure_ascii=True`, `allow_nan=True` (edsl/serde.py:365, 627),
and `json.loads` (edsl/serde.py:385, 722).  The text is a list of characters.  These are library functions of CPython
(Lib/json/encoder.py, Modules/_json.c), modelled here completely except for the decimal text of a finite float, which is a
parameter (`FloatText`): CPython promises that `float(repr(x)) == x`.  Python's recursion limit is not modelled.
-/
namespace Verif.Serde

/-- Text of finite floats: `float.__repr__` and `float(str)` (encoder.py `floatstr`, _json.c `_match_number_unicode`).  A
float is its 64 bit pattern. -/
structure FloatText where
  fmt : Nat → List Char
  parse : List Char → Nat

/-- CPython `sys.get_int_max_str_digits()`: ints of more digits can neither be printed nor parsed. -/
def maxDigits : Nat := 4300

/-! ## Printing -/

/-- `"0123456789abcdef"[d]` (encoder.py `'\\u{0:04x}'.format(n)`) -/
def hexDigit (d : Nat) : Char := if d < 10 then Char.ofNat (48 + d) else Char.ofNat (87 + d)

/-- `'\\u{0:04x}'.format(n)` (encoder.py `py_encode_basestring_ascii`) -/
def uEsc (n : Nat) : List Char :=
  ['\\', 'u', hexDigit (n / 4096 % 16), hexDigit (n / 256 % 16), hexDigit (n / 16 % 16), hexDigit (n % 16)]

/-- One character of a string (encoder.py `ESCAPE_ASCII`, `ESCAPE_DCT`, surrogate pairs above U+FFFF). -/
def escChar (c : Char) : List Char :=
  if c = '"' then ['\\', '"']
  else if c = '\\' then ['\\', '\\']
  else if c = '\n' then ['\\', 'n']
  else if c = '\r' then ['\\', 'r']
  else if c = '\t' then ['\\', 't']
  else if c.toNat = 12 then ['\\', 'f']
  else if c.toNat = 8 then ['\\', 'b']
  else if 32 ≤ c.toNat ∧ c.toNat ≤ 126 then [c]
  else if c.toNat < 0x10000 then uEsc c.toNat
  else uEsc (0xd800 + (c.toNat - 0x10000) / 1024) ++ uEsc (0xdc00 + (c.toNat - 0x10000) % 1024)

/-- A string with its quotes (encoder.py `encode_basestring_ascii`). -/
def strText (s : String) : List Char := '"' :: s.toList.flatMap escChar ++ ['"']

/-- `int.__repr__` -/
def intText : Int → List Char
  | .ofNat n => Nat.toDigits 10 n
  | .negSucc n => '-' :: Nat.toDigits 10 (n + 1)

/-- A float by its bits (encoder.py `floatstr`): exponent field all ones is `NaN`, `Infinity` or `-Infinity`. -/
def floatText (F : FloatText) (bits : Nat) : List Char :=
  if bits / 2 ^ 52 % 2048 = 2047 then
    if bits % 2 ^ 52 ≠ 0 then ['N', 'a', 'N']
    else if bits / 2 ^ 63 = 0 then ['I', 'n', 'f', 'i', 'n', 'i', 't', 'y'] else ['-', 'I', 'n', 'f', 'i', 'n', 'i', 't', 'y']
  else F.fmt bits

mutual
/-- `json.dumps(j, separators=(",", ":"))` (edsl/serde.py:365, 627); see `Printable` for the ints it refuses -/
def jsonText (F : FloatText) : Json → List Char
  | .null => ['n', 'u', 'l', 'l']
  | .bool b => if b then ['t', 'r', 'u', 'e'] else ['f', 'a', 'l', 's', 'e']
  | .num n => intText n
  | .flt b => floatText F b
  | .str s => strText s
  | .arr [] => ['[', ']']
  | .arr (x :: xs) => '[' :: jsonText F x ++ jsonTextItems F xs
  | .obj [] => ['{', '}']
  | .obj ((k, x) :: xs) => '{' :: strText k ++ ':' :: jsonText F x ++ jsonTextFields F xs
/-- the rest of an array -/
def jsonTextItems (F : FloatText) : List Json → List Char
  | [] => [']']
  | x :: xs => ',' :: jsonText F x ++ jsonTextItems F xs
/-- the rest of an object -/
def jsonTextFields (F : FloatText) : List (String × Json) → List Char
  | [] => ['}']
  | (k, x) :: xs => ',' :: strText k ++ ':' :: jsonText F x ++ jsonTextFields F xs
end

mutual
/-- every int has at most `maxDigits` digits, otherwise `json.dumps` raises `ValueError` -/
def Printable : Json → Prop
  | .num n => n.natAbs < 10 ^ maxDigits
  | .arr xs => printableList xs
  | .obj fs => printableFields fs
  | _ => True
/-- see `Printable` -/
def printableList : List Json → Prop
  | [] => True
  | x :: xs => Printable x ∧ printableList xs
/-- see `Printable` -/
def printableFields : List (String × Json) → Prop
  | [] => True
  | (_, x) :: xs => Printable x ∧ printableFields xs
end

/-! ## Parsing -/

/-- JSON whitespace (decoder.py `WHITESPACE_STR`) -/
def isWs (c : Char) : Bool := c == ' ' || c == '\t' || c == '\n' || c == '\r'

/-- skip whitespace -/
def skipWs (cs : List Char) : List Char := cs.dropWhile isWs

/-- value of a hex digit (_json.c scanstring_unicode) -/
def hexVal (c : Char) : Option Nat :=
  if 48 ≤ c.toNat ∧ c.toNat ≤ 57 then some (c.toNat - 48)
  else if 97 ≤ c.toNat ∧ c.toNat ≤ 102 then some (c.toNat - 87)
  else if 65 ≤ c.toNat ∧ c.toNat ≤ 70 then some (c.toNat - 55)
  else none

/-- four hex digits -/
def hex4 (a b c d : Char) : Option Nat :=
  match hexVal a, hexVal b, hexVal c, hexVal d with
  | some a, some b, some c, some d => some (a * 4096 + b * 256 + c * 16 + d)
  | _, _, _, _ => none

/-- the one-letter escapes (decoder.py `BACKSLASH`) -/
def escVal (c : Char) : Option Nat :=
  if c = '"' then some 34 else if c = '\\' then some 92 else if c = '/' then some 47
  else if c = 'b' then some 8 else if c = 'f' then some 12 else if c = 'n' then some 10
  else if c = 'r' then some 13 else if c = 't' then some 9 else none

/-- The body of a string after its opening quote, as code units (a surrogate can only come from a `\u` escape), and the
text after the closing quote (_json.c scanstring_unicode with `strict=True`: raw control characters are rejected). -/
def strUnits : List Char → Option (List Nat × List Char)
  | [] => none
  | c :: r =>
    if c = '"' then some ([], r)
    else if c = '\\' then
      match r with
      | [] => none
      | e :: r1 =>
        if e = 'u' then
          match r1 with
          | h1 :: h2 :: h3 :: h4 :: r2 =>
            match hex4 h1 h2 h3 h4, strUnits r2 with
            | some u, some (us, q) => some (u :: us, q)
            | _, _ => none
          | _ => none
        else
          match escVal e, strUnits r1 with
          | some u, some (us, q) => some (u :: us, q)
          | _, _ => none
    else if c.toNat < 32 then none
    else
      match strUnits r with
      | some (us, q) => some (c.toNat :: us, q)
      | none => none

/-- Joining surrogate pairs (_json.c scanstring_unicode).  Simplification: a lone surrogate, which python keeps inside the
`str`, is an error here because Lean strings cannot hold it. -/
def joinUnits : List Nat → Option (List Char)
  | [] => some []
  | u :: r =>
    if 0xd800 ≤ u ∧ u ≤ 0xdbff then
      match r with
      | v :: r' =>
        if 0xdc00 ≤ v ∧ v ≤ 0xdfff then
          match joinUnits r' with
          | some cs => some (Char.ofNat (0x10000 + (u - 0xd800) * 1024 + (v - 0xdc00)) :: cs)
          | none => none
        else none
      | [] => none
    else if 0xdc00 ≤ u ∧ u ≤ 0xdfff then none
    else
      match joinUnits r with
      | some cs => some (Char.ofNat u :: cs)
      | none => none

/-- a string after its opening quote -/
def parseStr (cs : List Char) : Option (String × List Char) :=
  match strUnits cs with
  | some (us, r) =>
    match joinUnits us with
    | some s => some (String.ofList s, r)
    | none => none
  | none => none

/-- the integer part of a number without sign: `0` or a digit 1-9 followed by digits (_json.c _match_number_unicode) -/
def matchInt : List Char → Option (List Char × List Char)
  | [] => none
  | c :: r =>
    if c = '0' then some (['0'], r)
    else if c.isDigit then some (c :: r.takeWhile Char.isDigit, r.dropWhile Char.isDigit)
    else none

/-- an optional fraction: a dot followed by at least one digit -/
def matchFrac : List Char → List Char × List Char
  | '.' :: d :: r =>
    if d.isDigit then ('.' :: d :: r.takeWhile Char.isDigit, r.dropWhile Char.isDigit) else ([], '.' :: d :: r)
  | cs => ([], cs)

/-- an optional sign of an exponent -/
def matchSign : List Char → List Char × List Char
  | '+' :: r => (['+'], r)
  | '-' :: r => (['-'], r)
  | cs => ([], cs)

/-- an optional exponent: `e` or `E`, an optional sign, at least one digit -/
def matchExp : List Char → List Char × List Char
  | [] => ([], [])
  | e :: r =>
    if e = 'e' ∨ e = 'E' then
      match matchSign r with
      | (s, d :: r') =>
        if d.isDigit then (e :: s ++ d :: r'.takeWhile Char.isDigit, r'.dropWhile Char.isDigit) else ([], e :: r)
      | (_, []) => ([], e :: r)
    else ([], e :: r)

/-- the optional minus sign of a number -/
def splitNeg : List Char → Bool × List Char
  | [] => (false, [])
  | c :: r => if c = '-' then (true, r) else (false, c :: r)

/-- sign, integer part, fraction plus exponent (empty for an int), rest -/
def matchNumber (cs : List Char) : Option (Bool × List Char × List Char × List Char) :=
  match matchInt (splitNeg cs).2 with
  | none => none
  | some (ds, r1) =>
    some ((splitNeg cs).1, ds, (matchFrac r1).1 ++ (matchExp (matchFrac r1).2).1, (matchExp (matchFrac r1).2).2)

/-- a number: `int(text)` without fraction and exponent, else `float(text)` (_json.c _match_number_unicode) -/
def parseNum (F : FloatText) (cs : List Char) : Option (Json × List Char) :=
  match matchNumber cs with
  | none => none
  | some (neg, ds, fe, r) =>
    if fe = [] then
      if ds.length ≤ maxDigits then
        some (.num (if neg then -(Nat.ofDigitChars 10 ds 0 : Int) else (Nat.ofDigitChars 10 ds 0 : Int)), r)
      else none
    else some (.flt (F.parse ((if neg then ['-'] else []) ++ ds ++ fe)), r)

/-- `dict[k] = v` in the result of an object: a repeated key keeps its first place and its last value -/
def putField (k : String) (v : Json) : List (String × Json) → List (String × Json)
  | [] => [(k, v)]
  | (k', v') :: r => if k' = k then (k, v) :: r else (k', v') :: putField k v r

/-- `dict(pairs)` (_json.c _parse_object_unicode) -/
def mkDict (ps : List (String × Json)) : List (String × Json) := ps.foldl (fun d p => putField p.1 p.2 d) []

/-- the rest of the text after a literal prefix -/
def afterLit (lit : List Char) (cs : List Char) : Option (List Char) :=
  if lit.isPrefixOf cs then some (cs.drop lit.length) else none

/-- bits of `float('nan')` (decoder.py `NaN`) -/
def nanBits : Nat := 0x7ff8000000000000
/-- bits of `float('inf')` (decoder.py `PosInf`) -/
def infBits : Nat := 0x7ff0000000000000
/-- bits of `float('-inf')` (decoder.py `NegInf`) -/
def negInfBits : Nat := 0xfff0000000000000

/-- `null`, `true`, `false`, `NaN`, `Infinity`, `-Infinity` (_json.c scan_once_unicode; decoder.py `_CONSTANTS`: the bit
patterns of `float('nan')`, `float('inf')`, `float('-inf')`) -/
def literals : List (List Char × Json) :=
  [(['n', 'u', 'l', 'l'], .null), (['t', 'r', 'u', 'e'], .bool true), (['f', 'a', 'l', 's', 'e'], .bool false),
   (['N', 'a', 'N'], .flt nanBits), (['I', 'n', 'f', 'i', 'n', 'i', 't', 'y'], .flt infBits),
   (['-', 'I', 'n', 'f', 'i', 'n', 'i', 't', 'y'], .flt negInfBits)]

/-- one of the literals, or a number -/
def parseScalar (F : FloatText) (cs : List Char) : Option (Json × List Char) :=
  match literals.findSome? (fun l => (afterLit l.1 cs).map fun r => (l.2, r)) with
  | some x => some x
  | none => parseNum F cs

mutual
/-- `scan_once` (_json.c scan_once_unicode) -/
def parseVal (F : FloatText) : Nat → List Char → Option (Json × List Char)
  | 0, _ => none
  | n + 1, cs =>
    match cs with
    | '"' :: r =>
      match parseStr r with
      | some (s, q) => some (.str s, q)
      | none => none
    | '[' :: r =>
      match skipWs r with
      | ']' :: q => some (.arr [], q)
      | q =>
        match parseItems F n q with
        | some (xs, q') => some (.arr xs, q')
        | none => none
    | '{' :: r =>
      match skipWs r with
      | '}' :: q => some (.obj [], q)
      | q =>
        match parseFields F n q with
        | some (fs, q') => some (.obj (mkDict fs), q')
        | none => none
    | cs => parseScalar F cs
/-- the items of an array up to its closing bracket (_json.c _parse_array_unicode) -/
def parseItems (F : FloatText) : Nat → List Char → Option (List Json × List Char)
  | 0, _ => none
  | n + 1, cs =>
    match parseVal F n cs with
    | none => none
    | some (x, r) =>
      match skipWs r with
      | ']' :: q => some ([x], q)
      | ',' :: q =>
        match parseItems F n (skipWs q) with
        | some (xs, q') => some (x :: xs, q')
        | none => none
      | _ => none
/-- the members of an object up to its closing brace (_json.c _parse_object_unicode) -/
def parseFields (F : FloatText) : Nat → List Char → Option (List (String × Json) × List Char)
  | 0, _ => none
  | n + 1, cs =>
    match cs with
    | '"' :: r0 =>
      match parseStr r0 with
      | none => none
      | some (k, r1) =>
        match skipWs r1 with
        | ':' :: r2 =>
          match parseVal F n (skipWs r2) with
          | none => none
          | some (x, r) =>
            match skipWs r with
            | '}' :: q => some ([(k, x)], q)
            | ',' :: q =>
              match parseFields F n (skipWs q) with
              | some (fs, q') => some ((k, x) :: fs, q')
              | none => none
            | _ => none
        | _ => none
    | _ => none
end

/-- `json.loads(text)` (decoder.py `JSONDecoder.decode`): one value, then only whitespace.  The fuel `2 * length + 2` is never
the reason of a failure on printed text (`jsonLoads_text`). -/
def jsonLoads (F : FloatText) (cs : List Char) : Option Json :=
  match parseVal F (2 * cs.length + 2) (skipWs cs) with
  | some (j, r) => if skipWs r = [] then some j else none
  | none => none

end Verif.Serde
