import Verif.Model.RuleJson

/-! # The text of JSON documents: writing in Go, the C string, reading in Rust

Model of what `CreateRule` (sds-go/go/regex_rule.go 116-131) and `read_json` (sds-go/rust/src/native/mod.rs 19-23) do with
texts.  `encoding/json` and `serde_json` are modelled from their sources as far as the documents of this library go. -/

namespace Sds

/-! ## Go: `encoding/json` -/

/-- A document as Go has it: strings are bytes.  Maps are lists in the order of their sorted keys. -/
inductive GoJson where
  | null
  | num (n : Nat)
  | str (b : Bytes)
  | arr (l : List GoJson)
  | obj (fields : List (Str × GoJson))

/-- `hex[n]`. -/
def hexChar (n : Nat) : Char := Nat.digitChar (n % 16)

/-- `\u` and four hexadecimal digits. -/
def unicodeEscape (n : Nat) : Str :=
  ['\\', 'u', hexChar (n / 4096), hexChar (n / 256), hexChar (n / 16), hexChar n]

/-- How `encodeState.string` writes a character, with `escapeHTML`.  `short`: a version of Go that writes `\b` and `\f`
(1.22 and later). -/
def goChar (short : Bool) (c : Char) : Str :=
  if c = '"' ∨ c = '\\' then ['\\', c]
  else if c = '\n' then ['\\', 'n']
  else if c = '\r' then ['\\', 'r']
  else if c = '\t' then ['\\', 't']
  else if short = true ∧ c.toNat = 8 then ['\\', 'b']
  else if short = true ∧ c.toNat = 12 then ['\\', 'f']
  else if c.toNat < 0x20 ∨ c = '<' ∨ c = '>' ∨ c = '&' ∨ c.toNat = 0x2028 ∨ c.toNat = 0x2029 then unicodeEscape c.toNat
  else [c]

/-- The bytes of a string between the quotes, after skipping some.  An invalid byte is written as `\ufffd`, a character U+FFFD
as it is. -/
def goQuotedGo (short : Bool) : Nat → Bytes → Bytes
  | _, [] => []
  | k + 1, _ :: rest => goQuotedGo short k rest
  | 0, a :: rest =>
    (if utf8Char (goRune a rest).1 = (a :: rest).take ((goRune a rest).2 + 1) then utf8 (goChar short (goRune a rest).1)
      else utf8 (unicodeEscape 0xFFFD)) ++ goQuotedGo short (goRune a rest).2 rest

/-- A string. -/
def goQuoted (short : Bool) (b : Bytes) : Bytes := utf8 ['"'] ++ goQuotedGo short 0 b ++ utf8 ['"']

mutual
/-- `json.Marshal`.  The result of a `MarshalJSON` method is compacted, which changes nothing here. -/
def GoJson.text (short : Bool) : GoJson → Bytes
  | .null => utf8 "null".toList
  | .num n => utf8 (Nat.toDigits 10 n)
  | .str b => goQuoted short b
  | .arr l => utf8 ['['] ++ GoJson.textList short l ++ utf8 [']']
  | .obj fs => utf8 ['{'] ++ GoJson.textFields short fs ++ utf8 ['}']
/-- The elements of a slice. -/
def GoJson.textList (short : Bool) : List GoJson → Bytes
  | [] => []
  | [v] => v.text short
  | v :: w :: l => v.text short ++ utf8 [','] ++ GoJson.textList short (w :: l)
/-- The fields of a struct or a map. -/
def GoJson.textFields (short : Bool) : List (Str × GoJson) → Bytes
  | [] => []
  | [(k, v)] => goQuoted short (utf8 k) ++ utf8 [':'] ++ v.text short
  | (k, v) :: f :: l => goQuoted short (utf8 k) ++ utf8 [':'] ++ v.text short ++ utf8 [','] ++ GoJson.textFields short (f :: l)
end

/-- `MatchAction.MarshalJSON` (regex_rule.go 184-198). -/
def GoAction.doc (a : GoAction) : GoJson :=
  let common : List (Str × GoJson) := [("match_action".toList, .str a.type)]
  if a.type = goConst "Redact" then
    .obj (common ++ [("replacement".toList, .str a.redaction), ("type".toList, .str a.type)])
  else if a.type = goConst "PartialRedact" then
    .obj ([("character_count".toList, .num a.count), ("direction".toList, .str a.direction)] ++ common ++
      [("type".toList, .str a.type)])
  else .obj (common ++ [("type".toList, .str a.type)])

/-- A `[]string`. -/
def goStringsDoc : Option (List Bytes) → GoJson
  | none => .null
  | some l => .arr (l.map .str)

/-- `ProximityKeywordsConfig` (regex_rule.go 76-80). -/
def GoKeywords.doc (k : GoKeywords) : GoJson :=
  .obj [("look_ahead_character_count".toList, .num k.lookAhead), ("included_keywords".toList, goStringsDoc k.included),
    ("excluded_keywords".toList, goStringsDoc k.excluded)]

/-- `RegexRuleConfig` (regex_rule.go 15-21), with `SecondaryValidator.MarshalJSON` (176-180). -/
def GoRule.doc (g : GoRule) : GoJson :=
  .obj ([("id".toList, .str g.id), ("pattern".toList, .str g.pattern), ("match_action".toList, g.action.doc)] ++
    (match g.keywords with
      | none => []
      | some k => [("proximity_keywords".toList, k.doc)]) ++
    (if g.validator = [] then [] else [("validator".toList, .obj [("type".toList, .str g.validator)])]))

/-! ## The C string -/

/-- `C.CString` (regex_rule.go 122): the bytes and a zero.  `after`: what follows in memory. -/
def cString (data after : Bytes) : Bytes := data ++ 0 :: after

/-- `CStr::from_ptr` (native/mod.rs 20): the bytes up to the first zero. -/
def cStr (memory : Bytes) : Bytes := memory.takeWhile fun b => b ≠ 0

/-! ## Rust: `serde_json`

The functions return what is read and the rest of the text; `none` is an error.  Numbers that are not natural are errors (every
field that the rules read as a number is one; in other fields, which are ignored, `serde_json` would read over them). -/

/-- `parse_whitespace`. -/
def isJsonSpace (c : Char) : Bool := c = ' ' || c = '\n' || c = '\t' || c = '\r'

/-- The text after white space. -/
def skipSpace (s : Str) : Str := s.dropWhile isJsonSpace

/-- A hexadecimal digit. -/
def hexVal (c : Char) : Option Nat :=
  if '0' ≤ c ∧ c ≤ '9' then some (c.toNat - 48)
  else if 'a' ≤ c ∧ c ≤ 'f' then some (c.toNat - 87)
  else if 'A' ≤ c ∧ c ≤ 'F' then some (c.toNat - 55)
  else none

/-- `decode_hex_escape`: four hexadecimal digits. -/
def hexFour : Str → Option (Nat × Str)
  | a :: b :: c :: d :: r =>
    match hexVal a, hexVal b, hexVal c, hexVal d with
    | some a, some b, some c, some d => some (((a * 16 + b) * 16 + c) * 16 + d, r)
    | _, _, _, _ => none
  | _ => none

/-- The escapes of one character (`parse_escape`). -/
def shortEscape (c : Char) : Option Char :=
  if c = '"' then some '"'
  else if c = '\\' then some '\\'
  else if c = '/' then some '/'
  else if c = 'b' then some (Char.ofNat 8)
  else if c = 'f' then some (Char.ofNat 12)
  else if c = 'n' then some '\n'
  else if c = 'r' then some '\r'
  else if c = 't' then some '\t'
  else none

/-- `parse_unicode_escape`: after `\u`. -/
def readUnicode (s : Str) : Option (Char × Str) :=
  match hexFour s with
  | none => none
  | some (n, r) =>
    if 0xDC00 ≤ n ∧ n ≤ 0xDFFF then none
    else if 0xD800 ≤ n ∧ n ≤ 0xDBFF then
      match r with
      | '\\' :: 'u' :: r =>
        match hexFour r with
        | none => none
        | some (m, r) =>
          if 0xDC00 ≤ m ∧ m ≤ 0xDFFF then some (Char.ofNat ((n - 0xD800) * 1024 + (m - 0xDC00) + 0x10000), r)
          else none
      | _ => none
    else some (Char.ofNat n, r)

/-- `parse_escape`: after the backslash. -/
def readEscape : Str → Option (Char × Str)
  | [] => none
  | c :: r => if c = 'u' then readUnicode r else (shortEscape c).map fun x => (x, r)

/-- `parse_str`: after the opening quote; a control character is an error. -/
def readBody : Nat → Str → Option (Str × Str)
  | 0, _ => none
  | _ + 1, [] => none
  | fuel + 1, c :: r =>
    if c = '"' then some ([], r)
    else if c = '\\' then
      match readEscape r with
      | none => none
      | some (x, r) => (readBody fuel r).map fun p => (x :: p.1, p.2)
    else if c.toNat < 0x20 then none
    else (readBody fuel r).map fun p => (c :: p.1, p.2)

/-- A decimal digit. -/
def isJsonDigit (c : Char) : Bool := '0' ≤ c && c ≤ '9'

/-- `parse_integer`: no zero in front of another digit; a fraction or an exponent makes it no natural number. -/
def readNumber (s : Str) : Option (Nat × Str) :=
  let ds := s.takeWhile isJsonDigit
  let r := s.dropWhile isJsonDigit
  if ds = [] ∨ (ds.head? = some '0' ∧ ds.length ≠ 1) ∨ r.head? = some '.' ∨ r.head? = some 'e' ∨ r.head? = some 'E' then none
  else some (ds.foldl (fun n c => n * 10 + (c.toNat - 48)) 0, r)

/-- `parse_ident`. -/
def readWord (w : Str) (v : JVal) (s : Str) : Option (JVal × Str) :=
  if w.isPrefixOf s then some (v, s.drop w.length) else none

mutual
/-- A value; `depth` is how many levels of arrays and objects may still begin (`remaining_depth`, less one). -/
def readValue : Nat → Nat → Str → Option (JVal × Str)
  | 0, _, _ => none
  | fuel + 1, depth, s =>
    match skipSpace s with
    | [] => none
    | c :: r =>
      if c = 'n' then readWord "null".toList .null (c :: r)
      else if c = 't' then readWord "true".toList (.bool true) (c :: r)
      else if c = 'f' then readWord "false".toList (.bool false) (c :: r)
      else if c = '"' then (readBody (r.length + 1) r).map fun p => (.str p.1, p.2)
      else if c = '[' then
        match depth with
        | 0 => none
        | depth + 1 =>
          match skipSpace r with
          | ']' :: r => some (.arr [], r)
          | r => (readElements fuel depth r).map fun p => (.arr p.1, p.2)
      else if c = '{' then
        match depth with
        | 0 => none
        | depth + 1 =>
          match skipSpace r with
          | '}' :: r => some (.obj [], r)
          | r => (readMembers fuel depth r).map fun p => (.obj p.1, p.2)
      else (readNumber (c :: r)).map fun p => (.num p.1, p.2)
/-- The elements of an array and its end. -/
def readElements : Nat → Nat → Str → Option (List JVal × Str)
  | 0, _, _ => none
  | fuel + 1, depth, s =>
    match readValue fuel depth s with
    | none => none
    | some (v, r) =>
      match skipSpace r with
      | ']' :: r => some ([v], r)
      | ',' :: r => (readElements fuel depth r).map fun p => (v :: p.1, p.2)
      | _ => none
/-- The members of an object and its end. -/
def readMembers : Nat → Nat → Str → Option (List (Str × JVal) × Str)
  | 0, _, _ => none
  | fuel + 1, depth, s =>
    match skipSpace s with
    | '"' :: r =>
      match readBody (r.length + 1) r with
      | none => none
      | some (k, r) =>
        match skipSpace r with
        | ':' :: r =>
          match readValue fuel depth r with
          | none => none
          | some (v, r) =>
            match skipSpace r with
            | '}' :: r => some ([(k, v)], r)
            | ',' :: r => (readMembers fuel depth r).map fun p => ((k, v) :: p.1, p.2)
            | _ => none
        | _ => none
    | _ => none
end

/-- `serde_json::from_str`: a value, and nothing but white space after it. -/
def readJson (s : Str) : Option JVal :=
  match readValue (2 * s.length + 2) 127 s with
  | some (v, r) => if skipSpace r = [] then some v else none
  | none => none

/-- `read_json` (native/mod.rs 19-23) up to the tree. -/
def readJsonC (memory : Bytes) : Option JVal := readJson (lossy (cStr memory))

/-- `create_regex_rule` (native/rule.rs 10-26) on the memory it is pointed to. -/
def createRegexRule (D : Dates) (memory : Bytes) : Option RustRule := (readJsonC memory).bind (readRule D)

/-! ## Rust: writing (`serde_json::to_string`) -/

/-- `format_escaped_str_contents`. -/
def rustChar (c : Char) : Str :=
  if c = '"' ∨ c = '\\' then ['\\', c]
  else if c = '\n' then ['\\', 'n']
  else if c = '\r' then ['\\', 'r']
  else if c = '\t' then ['\\', 't']
  else if c.toNat = 8 then ['\\', 'b']
  else if c.toNat = 12 then ['\\', 'f']
  else if c.toNat < 0x20 then unicodeEscape c.toNat
  else [c]

/-- A string. -/
def rustString (s : Str) : Str := '"' :: (s.flatMap rustChar ++ ['"'])

mutual
/-- The compact text of a document. -/
def JVal.text : JVal → Str
  | .null => "null".toList
  | .bool true => "true".toList
  | .bool false => "false".toList
  | .num n => Nat.toDigits 10 n
  | .str s => rustString s
  | .arr l => '[' :: (JVal.textList l ++ [']'])
  | .obj fs => '{' :: (JVal.textFields fs ++ ['}'])
/-- The elements of an array. -/
def JVal.textList : List JVal → Str
  | [] => []
  | [v] => v.text
  | v :: w :: l => v.text ++ ',' :: JVal.textList (w :: l)
/-- The members of an object. -/
def JVal.textFields : List (Str × JVal) → Str
  | [] => []
  | [(k, v)] => rustString k ++ ':' :: v.text
  | (k, v) :: f :: l => rustString k ++ ':' :: (v.text ++ ',' :: JVal.textFields (f :: l))
end

end Sds
