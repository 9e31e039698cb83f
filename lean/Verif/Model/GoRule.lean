import Verif.Model.Codec
import Verif.Model.Action
import Verif.Model.Keywords
import Verif.Model.Scope
import Verif.Model.Validation

/-! # Rules configured in Go: their JSON form and how the Rust side reads it

JSON documents are trees here; their texts are in `Model/JsonText.lean`, and C86 says that `serde_json` reads from the text
written by Go's `encoding/json` the tree of this file.  What `encoding/json` does to strings which are not UTF-8 is modelled. -/

namespace Sds

/-- A JSON document.  Only natural numbers are produced by the Go code. -/
inductive JVal where
  | null
  | bool (b : Bool)
  | num (n : Nat)
  | str (s : Str)
  | arr (l : List JVal)
  | obj (fields : List (Str × JVal))

/-! ## Go -/

/-- `utf8.DecodeRuneInString`: an invalid byte is one U+FFFD on its own (also where Rust replaces a longer prefix). -/
def goRune (a : Nat) (rest : Bytes) : Char × Nat :=
  let (c, k) := lossyStep a rest
  if utf8Char c = (a :: rest).take (k + 1) then (c, k) else (replacementChar, 0)

/-- `goText` after skipping some bytes. -/
def goTextGo : Nat → Bytes → Str
  | _, [] => []
  | k + 1, _ :: rest => goTextGo k rest
  | 0, a :: rest => (goRune a rest).1 :: goTextGo (goRune a rest).2 rest

/-- The characters of the JSON string that `encoding/json` writes for a Go string. -/
def goText (b : Bytes) : Str := goTextGo 0 b

/-- `MatchAction` (regex_rule.go 93-102). -/
structure GoAction where
  type : Bytes
  redaction : Bytes
  count : Nat
  direction : Bytes
deriving DecidableEq

/-- `ProximityKeywordsConfig` (regex_rule.go 76-80); a nil slice is `none`. -/
structure GoKeywords where
  lookAhead : Nat
  included : Option (List Bytes)
  excluded : Option (List Bytes)
deriving DecidableEq

/-- `RegexRuleConfig` (regex_rule.go 15-21); a nil pointer is `none`. -/
structure GoRule where
  id : Bytes
  pattern : Bytes
  action : GoAction
  keywords : Option GoKeywords
  validator : Bytes
deriving DecidableEq

/-- `ExtraConfig` (regex_rule.go 53-56). -/
structure GoExtra where
  keywords : Option GoKeywords
  validator : Bytes
deriving DecidableEq

/-- A Go string constant. -/
def goConst (s : String) : Bytes := utf8 s.toList

/-- `CreateProximityKeywordsConfig` (regex_rule.go 60-72). -/
def goCreateKeywords (lookAhead : Nat) (included excluded : Option (List Bytes)) : GoKeywords :=
  ⟨lookAhead, some (included.getD []), some (excluded.getD [])⟩

/-- `NewMatchingRule` (regex_rule.go 104-114). -/
def goMatchingRule (id pattern : Bytes) (x : GoExtra) : GoRule :=
  ⟨id, pattern, ⟨goConst "None", [], 0, []⟩, x.keywords, x.validator⟩

/-- `NewRedactingRule` (regex_rule.go 134-145). -/
def goRedactingRule (id pattern value : Bytes) (x : GoExtra) : GoRule :=
  ⟨id, pattern, ⟨goConst "Redact", value, 0, []⟩, x.keywords, x.validator⟩

/-- `NewHashRule` (regex_rule.go 148-158). -/
def goHashRule (id pattern : Bytes) (x : GoExtra) : GoRule :=
  ⟨id, pattern, ⟨goConst "Hash", [], 0, []⟩, x.keywords, x.validator⟩

/-- `NewPartialRedactRule` (regex_rule.go 161-173). -/
def goPartialRule (id pattern : Bytes) (count : Nat) (direction : Bytes) (x : GoExtra) : GoRule :=
  ⟨id, pattern, ⟨goConst "PartialRedact", [], count, direction⟩, x.keywords, x.validator⟩

/-- `MatchAction.MarshalJSON` (regex_rule.go 184-198); maps are written with sorted keys. -/
def GoAction.json (a : GoAction) : JVal :=
  let common : List (Str × JVal) :=
    [("match_action".toList, .str (goText a.type))]
  if a.type = goConst "Redact" then
    .obj (common ++ [("replacement".toList, .str (goText a.redaction)), ("type".toList, .str (goText a.type))])
  else if a.type = goConst "PartialRedact" then
    .obj ([("character_count".toList, .num a.count), ("direction".toList, .str (goText a.direction))] ++ common ++
      [("type".toList, .str (goText a.type))])
  else .obj (common ++ [("type".toList, .str (goText a.type))])

/-- A `[]string`; a nil slice is written as `null`. -/
def goStrings : Option (List Bytes) → JVal
  | none => .null
  | some l => .arr (l.map (fun b => .str (goText b)))

/-- `json.Marshal` of `ProximityKeywordsConfig` by its tags. -/
def GoKeywords.json (k : GoKeywords) : JVal :=
  .obj [("look_ahead_character_count".toList, .num k.lookAhead), ("included_keywords".toList, goStrings k.included),
    ("excluded_keywords".toList, goStrings k.excluded)]

/-- `SecondaryValidator.MarshalJSON` (regex_rule.go 176-180). -/
def goValidatorJson (v : Bytes) : JVal := .obj [("type".toList, .str (goText v))]

/-- `json.Marshal` of `RegexRuleConfig` by its tags (15-21): a nil pointer and an empty validator are left out. -/
def GoRule.json (g : GoRule) : JVal :=
  .obj ([("id".toList, .str (goText g.id)), ("pattern".toList, .str (goText g.pattern)),
    ("match_action".toList, g.action.json)] ++
    (match g.keywords with
      | none => []
      | some k => [("proximity_keywords".toList, k.json)]) ++
    (if g.validator = [] then [] else [("validator".toList, goValidatorJson g.validator)]))

/-! ## Rust: what the derived `Deserialize` implementations accept -/

/-- A field of an object.  (A repeated field is an error in serde; Go writes none.) -/
def jField (fs : List (Str × JVal)) (k : String) : Option JVal := (fs.find? (fun f => f.1 == k.toList)).map (·.2)

/-- `String`. -/
def readStr : JVal → Option Str
  | .str s => some s
  | _ => none

/-- `usize`. -/
def readUsize : JVal → Option Nat
  | .num n => if n < 2 ^ 64 then some n else none
  | _ => none

/-- The elements of a `Vec<String>`. -/
def readStrs : List JVal → Option (List Str)
  | [] => some []
  | v :: vs =>
    match readStr v, readStrs vs with
    | some s, some r => some (s :: r)
    | _, _ => none

/-- `Vec<String>` with `default` and `DefaultOnNull` (regex_rule/config.rs 141-147). -/
def readVec : Option JVal → Option (List Str)
  | none => some []
  | some .null => some []
  | some (.arr l) => readStrs l
  | some _ => none

/-- A mandatory field. -/
def required {α : Type} (f : JVal → Option α) (v : Option JVal) : Option α := v.bind f

/-- A field of type `Option`: missing and `null` are `None`. -/
def optional {α : Type} (f : JVal → Option α) : Option JVal → Option (Option α)
  | none => some none
  | some .null => some none
  | some v => (f v).map some

/-- `PartialRedactDirection` with the count (match_action.rs 30-38). -/
def readDirection (n : Nat) (s : Str) : Option Action :=
  if s = "FirstCharacters".toList then some (.partialFirst n)
  else if s = "LastCharacters".toList then some (.partialLast n)
  else none

/-- `MatchAction` (match_action.rs 12-34), tagged by the field `type`; `Utf16Hash` is not compiled into the Go
library.  (serde also takes the tag from the first element of an array; Go writes objects.) -/
def readAction : JVal → Option Action
  | .obj fs =>
    match required readStr (jField fs "type") with
    | none => none
    | some t =>
      if t = "None".toList then some .none
      else if t = "Redact".toList then (required readStr (jField fs "replacement")).map .redact
      else if t = "Hash".toList then some .hash
      else if t = "PartialRedact".toList then
        match required readStr (jField fs "direction"), required readUsize (jField fs "character_count") with
        | some d, some n => readDirection n d
        | _, _ => none
      else none
  | _ => none

/-- `SecondaryValidator` (regex_rule/config.rs 150-160). -/
inductive RustValidator where
  | luhnChecksum
  | chineseIdChecksum
  | githubTokenChecksum
  | nhsCheckDigit
  | ibanChecker
  | nirChecksum
  | jwtExpirationChecker
deriving DecidableEq, Repr

/-- The variant of a name. -/
def validatorOf (t : Str) : Option RustValidator :=
  if t = "LuhnChecksum".toList then some .luhnChecksum
  else if t = "ChineseIdChecksum".toList then some .chineseIdChecksum
  else if t = "GithubTokenChecksum".toList then some .githubTokenChecksum
  else if t = "NhsCheckDigit".toList then some .nhsCheckDigit
  else if t = "IbanChecker".toList then some .ibanChecker
  else if t = "NirChecksum".toList then some .nirChecksum
  else if t = "JwtExpirationChecker".toList then some .jwtExpirationChecker
  else none

/-- `SecondaryValidator`, tagged by the field `type`. -/
def readValidator : JVal → Option RustValidator
  | .obj fs => (required readStr (jField fs "type")).bind validatorOf
  | _ => none

/-- `ProximityKeywordsConfig` (regex_rule/config.rs 136-148). -/
def readKeywords : JVal → Option KwConfig
  | .obj fs =>
    match required readUsize (jField fs "look_ahead_character_count"), readVec (jField fs "included_keywords"),
        readVec (jField fs "excluded_keywords") with
    | some n, some i, some e => some ⟨n, i, e⟩
    | _, _, _ => none
  | _ => none

/-- The elements of a `Vec`. -/
def readAll {α : Type} (f : JVal → Option α) : List JVal → Option (List α)
  | [] => some []
  | v :: vs =>
    match f v, readAll f vs with
    | some a, some r => some (a :: r)
    | _, _ => none

/-- `Vec<T>`. -/
def readList {α : Type} (f : JVal → Option α) : JVal → Option (List α)
  | .arr l => readAll f l
  | _ => none

/-- `u16`. -/
def jsonU16 : JVal → Option Nat
  | .num n => if n < 2 ^ 16 then some n else none
  | _ => none

/-- `u32`. -/
def jsonU32 : JVal → Option Nat
  | .num n => if n < 2 ^ 32 then some n else none
  | _ => none

/-- `PathSegment` (path.rs 15-20), with its tag in `type` and its content in `value`. -/
def readSeg : JVal → Option Seg
  | .obj fs =>
    match required readStr (jField fs "type") with
    | none => none
    | some t =>
      if t = "Field".toList then (required readStr (jField fs "value")).map .field
      else if t = "Index".toList then (required readUsize (jField fs "value")).map .index
      else none
  | _ => none

/-- `Path` (path.rs 10-13). -/
def readPath : JVal → Option Path
  | .obj fs => required (readList readSeg) (jField fs "segments")
  | _ => none

/-- The content of `Scope::Include`. -/
def readIncl : JVal → Option Scope
  | .obj fs =>
    match required (readList readPath) (jField fs "include"), required (readList readPath) (jField fs "exclude") with
    | some i, some e => some (.incl i e)
    | _, _ => none
  | _ => none

/-- `Scope` (scope.rs 4-14), with its tag in `type` and its content in `paths`. -/
def readScope : JVal → Option Scope
  | .obj fs =>
    match required readStr (jField fs "type") with
    | none => none
    | some t =>
      if t = "Include".toList then required readIncl (jField fs "paths")
      else if t = "Exclude".toList then (required (readList readPath) (jField fs "paths")).map .excl
      else none
  | _ => none

/-- A label (labels.rs 62-81): a list of exactly two strings. -/
def readLabel (v : JVal) : Option (Str × Str) :=
  match readList readStr v with
  | some [k, x] => some (k, x)
  | _ => none

/-- `Duration`: whole seconds and nanoseconds, which may be more than a second; the result is in nanoseconds. -/
def readDuration : JVal → Option Nat
  | .obj fs =>
    match required readUsize (jField fs "secs"), required jsonU32 (jField fs "nanos") with
    | some s, some n => if s + n / 1000000000 < 2 ^ 64 then some (s * 1000000000 + n) else none
    | _, _ => none
  | _ => none

/-- How chrono writes and reads `DateTime<Utc>`. -/
structure Dates where
  text : Nat → Str
  read : Str → Option Nat

/-- `DateTime<Utc>`. -/
def readDate (D : Dates) : JVal → Option Nat
  | .str s => D.read s
  | _ => none

/-- `AwsConfig` (match_validation/config.rs 11-18). -/
def readAwsConfig (D : Dates) : JVal → Option AwsConfig
  | .obj fs =>
    match required readStr (jField fs "aws_sts_endpoint"), optional (readDate D) (jField fs "forced_datetime_utc"),
        required readDuration (jField fs "timeout") with
    | some e, some d, some t => some ⟨e, d, t⟩
    | _, _, _ => none
  | _ => none

/-- `HttpMethod` (config.rs 37-44). -/
def readMethod (v : JVal) : Option HttpMethod :=
  match readStr v with
  | none => none
  | some t =>
    if t = "Get".toList then some .get
    else if t = "Post".toList then some .post
    else if t = "Put".toList then some .put
    else if t = "Delete".toList then some .delete
    else if t = "Patch".toList then some .patch
    else none

/-- `RequestHeader` (config.rs 46-51). -/
def readHeader : JVal → Option (Str × Str)
  | .obj fs =>
    match required readStr (jField fs "key"), required readStr (jField fs "value") with
    | some k, some v => some (k, v)
    | _, _ => none
  | _ => none

/-- `Range<u16>`. -/
def readRange : JVal → Option (Nat × Nat)
  | .obj fs =>
    match required jsonU16 (jField fs "start"), required jsonU16 (jField fs "end") with
    | some a, some b => some (a, b)
    | _, _ => none
  | _ => none

/-- `HttpValidatorOption` (config.rs 62-69). -/
def readOptions : JVal → Option Nat
  | .obj fs => required readDuration (jField fs "timeout")
  | _ => none

/-- `HttpValidatorConfig` (config.rs 71-79). -/
def readHttpConfig : JVal → Option HttpConfig
  | .obj fs =>
    match required (readList readStr) (jField fs "endpoints"), required readMethod (jField fs "method"),
        required (readList readHeader) (jField fs "request_header") with
    | some e, some m, some h =>
      match required (readList readRange) (jField fs "valid_http_status_code"),
          required (readList readRange) (jField fs "invalid_http_status_code"),
          required readOptions (jField fs "options") with
      | some v, some i, some t => some ⟨e, m, h, v, i, t⟩
      | _, _, _ => none
    | _, _, _ => none
  | _ => none

/-- `AwsType` (config.rs 30-35): the name of a variant, or an object with the name and the content of one.  (serde also
takes a variant without content from an object with `null`.) -/
def readAwsType (D : Dates) : JVal → Option VType
  | .str t =>
    if t = "AwsId".toList then some .awsId
    else if t = "AwsSession".toList then some .awsSession
    else none
  | .obj [(t, v)] => if t = "AwsSecret".toList then (readAwsConfig D v).map .awsSecret else none
  | _ => none

/-- `MatchValidationType` (config.rs 188-192). -/
def readValidation (D : Dates) : JVal → Option VType
  | .obj [(t, v)] =>
    if t = "Aws".toList then readAwsType D v
    else if t = "CustomHttp".toList then (readHttpConfig v).map .http
    else none
  | _ => none

/-- A field with a default (`#[serde(default)]`): `null` is not the default. -/
def defaulted {α : Type} (d : α) (f : JVal → Option α) : Option JVal → Option α
  | none => some d
  | some v => f v

/-- A field with a default that is also used for `null` (`DefaultOnNull`). -/
def defaultedNull {α : Type} (d : α) (f : JVal → Option α) : Option JVal → Option α
  | none => some d
  | some .null => some d
  | some v => f v

/-- `RegexRuleConfig` (regex_rule/config.rs 16-30). -/
structure RustRule where
  pattern : Str
  action : Action
  keywords : Option KwConfig
  validator : Option RustValidator
  scope : Scope
  labels : List (Str × Str)
  validation : Option VType
deriving DecidableEq

/-- `RegexRuleConfig` from JSON; unknown fields (`id`) are ignored. -/
def readRule (D : Dates) : JVal → Option RustRule
  | .obj fs =>
    match required readStr (jField fs "pattern"), required readAction (jField fs "match_action"),
        optional readKeywords (jField fs "proximity_keywords"), optional readValidator (jField fs "validator") with
    | some p, some a, some k, some v =>
      match defaulted (.excl []) readScope (jField fs "scope"), defaultedNull [] (readList readLabel) (jField fs "labels"),
          optional (readValidation D) (jField fs "match_validation_type") with
      | some s, some l, some t => some ⟨p, a, k, v, s, l, t⟩
      | _, _, _ => none
    | _, _, _, _ => none
  | _ => none

/-- `RegexRuleConfig.CreateRule` (regex_rule.go 116-131) with `create_regex_rule` (native/rule.rs 10-26): a document
that cannot be read panics in Rust (`unwrap`), which the caller sees as an error (`none`). -/
def goCreateRule (D : Dates) (g : GoRule) : Option RustRule := readRule D g.json

end Sds
