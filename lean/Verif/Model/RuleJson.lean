import Verif.Model.GoRule

/-! # Writing rule configurations as JSON

Model of the derived `Serialize` implementations of `RegexRuleConfig` (regex_rule/config.rs 16-30) and its parts.  As in
`GoRule`, JSON documents are trees.  The readers are in `GoRule`. -/

namespace Sds

/-- `MatchAction` (match_action.rs 12-34), tagged by `type`. -/
def writeAction : Action → JVal
  | .none => .obj [("type".toList, .str "None".toList)]
  | .redact r => .obj [("type".toList, .str "Redact".toList), ("replacement".toList, .str r)]
  | .hash => .obj [("type".toList, .str "Hash".toList)]
  | .utf16Hash => .obj [("type".toList, .str "Utf16Hash".toList)]
  | .partialFirst n => .obj [("type".toList, .str "PartialRedact".toList),
      ("direction".toList, .str "FirstCharacters".toList), ("character_count".toList, .num n)]
  | .partialLast n => .obj [("type".toList, .str "PartialRedact".toList),
      ("direction".toList, .str "LastCharacters".toList), ("character_count".toList, .num n)]

/-- `Vec<String>`. -/
def writeStrs (l : List Str) : JVal := .arr (l.map .str)

/-- `ProximityKeywordsConfig` (config.rs 136-148). -/
def writeKeywords (c : KwConfig) : JVal :=
  .obj [("look_ahead_character_count".toList, .num c.lookAhead), ("included_keywords".toList, writeStrs c.included),
    ("excluded_keywords".toList, writeStrs c.excluded)]

/-- `SecondaryValidator` (config.rs 150-160), tagged by `type`. -/
def writeValidator (v : RustValidator) : JVal :=
  .obj [("type".toList, .str (match v with
    | .luhnChecksum => "LuhnChecksum"
    | .chineseIdChecksum => "ChineseIdChecksum"
    | .githubTokenChecksum => "GithubTokenChecksum"
    | .nhsCheckDigit => "NhsCheckDigit"
    | .ibanChecker => "IbanChecker"
    | .nirChecksum => "NirChecksum"
    | .jwtExpirationChecker => "JwtExpirationChecker").toList)]

/-- `PathSegment` (path.rs 15-20). -/
def writeSeg : Seg → JVal
  | .field s => .obj [("type".toList, .str "Field".toList), ("value".toList, .str s)]
  | .index i => .obj [("type".toList, .str "Index".toList), ("value".toList, .num i)]

/-- `Path` (path.rs 10-13). -/
def writePath (p : Path) : JVal := .obj [("segments".toList, .arr (p.map writeSeg))]

/-- `Scope` (scope.rs 4-14). -/
def writeScope : Scope → JVal
  | .incl i e => .obj [("type".toList, .str "Include".toList), ("paths".toList,
      .obj [("include".toList, .arr (i.map writePath)), ("exclude".toList, .arr (e.map writePath))])]
  | .excl e => .obj [("type".toList, .str "Exclude".toList), ("paths".toList, .arr (e.map writePath))]

/-- `Labels` (labels.rs 92-103): a list of pairs of strings. -/
def writeLabels (l : List (Str × Str)) : JVal := .arr (l.map fun x => .arr [.str x.1, .str x.2])

/-- `Duration`. -/
def writeDuration (n : Nat) : JVal :=
  .obj [("secs".toList, .num (n / 1000000000)), ("nanos".toList, .num (n % 1000000000))]

/-- `None` is `null`. -/
def writeOption {α : Type} (f : α → JVal) : Option α → JVal
  | none => .null
  | some a => f a

/-- `AwsConfig` (match_validation/config.rs 11-18). -/
def writeAwsConfig (D : Dates) (c : AwsConfig) : JVal :=
  .obj [("aws_sts_endpoint".toList, .str c.endpoint),
    ("forced_datetime_utc".toList, writeOption (fun d => .str (D.text d)) c.forcedDatetime),
    ("timeout".toList, writeDuration c.timeout)]

/-- `HttpMethod` (config.rs 37-44). -/
def writeMethod : HttpMethod → JVal
  | .get => .str "Get".toList
  | .post => .str "Post".toList
  | .put => .str "Put".toList
  | .delete => .str "Delete".toList
  | .patch => .str "Patch".toList

/-- `RequestHeader` (config.rs 46-51). -/
def writeHeader (h : Str × Str) : JVal := .obj [("key".toList, .str h.1), ("value".toList, .str h.2)]

/-- `Range<u16>`. -/
def writeRange (r : Nat × Nat) : JVal := .obj [("start".toList, .num r.1), ("end".toList, .num r.2)]

/-- `HttpValidatorConfig` (config.rs 71-79). -/
def writeHttpConfig (c : HttpConfig) : JVal :=
  .obj [("endpoints".toList, writeStrs c.endpoints), ("method".toList, writeMethod c.method),
    ("request_header".toList, .arr (c.headers.map writeHeader)),
    ("valid_http_status_code".toList, .arr (c.valid.map writeRange)),
    ("invalid_http_status_code".toList, .arr (c.invalid.map writeRange)),
    ("options".toList, .obj [("timeout".toList, writeDuration c.timeout)])]

/-- `MatchValidationType` (config.rs 188-192) with `AwsType` (30-35). -/
def writeValidation (D : Dates) : VType → JVal
  | .awsId => .obj [("Aws".toList, .str "AwsId".toList)]
  | .awsSecret c => .obj [("Aws".toList, .obj [("AwsSecret".toList, writeAwsConfig D c)])]
  | .awsSession => .obj [("Aws".toList, .str "AwsSession".toList)]
  | .http c => .obj [("CustomHttp".toList, writeHttpConfig c)]

/-- `RegexRuleConfig` (regex_rule/config.rs 16-30). -/
def writeRule (D : Dates) (r : RustRule) : JVal :=
  .obj [("pattern".toList, .str r.pattern), ("match_action".toList, writeAction r.action),
    ("scope".toList, writeScope r.scope), ("proximity_keywords".toList, writeOption writeKeywords r.keywords),
    ("validator".toList, writeOption writeValidator r.validator), ("labels".toList, writeLabels r.labels),
    ("match_validation_type".toList, writeOption (writeValidation D) r.validation)]

end Sds
