import Verif.Model.Validation

/-! # Signing requests to AWS

Model of sds/src/match_validation/validator_utils.rs, and of the request that aws_validator.rs 142-158 sends.  The crate
`aws_sign_v4` is a parameter: what it signs is modelled, not how.  Headers that the HTTP client adds by itself (such as
`content-length`) are not modelled. -/

namespace Sds

/-- A `DateTime<Utc>`, as chrono splits it for formatting; a leap second is second 60. -/
structure Stamp where
  year : Int
  month : Nat
  day : Nat
  hour : Nat
  minute : Nat
  second : Nat
deriving DecidableEq, Repr

/-- A number with at least `n` digits. -/
def padded (n k : Nat) : Str :=
  let ds := Nat.toDigits 10 k
  List.replicate (n - ds.length) '0' ++ ds

/-- `%Y` of chrono: four digits, and a sign if the year has none or more than four. -/
def yearText (y : Int) : Str :=
  if 0 ≤ y ∧ y ≤ 9999 then padded 4 y.toNat
  else if 0 ≤ y then '+' :: padded 4 y.toNat
  else '-' :: padded 4 (-y).toNat

/-- `datetime.format("%Y%m%dT%H%M%SZ")` (validator_utils.rs 10). -/
def amzDate (t : Stamp) : Str :=
  yearText t.year ++ padded 2 t.month ++ padded 2 t.day ++ ['T'] ++ padded 2 t.hour ++ padded 2 t.minute ++ padded 2 t.second ++ ['Z']

/-- `HeaderMap`; names are in lower case. -/
abbrev Headers := List (Str × Str)

/-- `HeaderMap::insert`: the values that were there are replaced. -/
def Headers.insert (hs : Headers) (name value : Str) : Headers :=
  hs.filter (fun h => h.1 != name.map Char.toLower) ++ [(name.map Char.toLower, value)]

/-- `HeaderValue::from_str` accepts the text: no byte below 32 but the tabulator, and not 127. -/
def headerOk (s : Str) : Bool := s.all fun c => (32 ≤ c.toNat && c.toNat != 127) || c.toNat == 9

/-- `parse().unwrap()` to a `HeaderValue`. -/
def headerParse (s : Str) : Res Str := if headerOk s then .ok s else .panic

/-- `AwsConfig::default` (match_validation/config.rs 20-28). -/
def AwsConfig.default : AwsConfig := ⟨"https://sts.amazonaws.com".toList, none, 3000000000⟩

/-- What `AwsSign::new` is given (validator_utils.rs 23-33). -/
structure SignInput where
  method : Str
  url : Str
  time : Stamp
  headers : Headers
  region : Str
  id : Str
  secret : Str
  service : Str
  body : Str
deriving DecidableEq, Repr

/-- `AwsSign::new(..).sign()`; it panics if the URL cannot be parsed. -/
abbrev Sign := SignInput → Res Str

/-- `generate_aws_headers_and_body` (validator_utils.rs 3-37). -/
def awsHeadersAndBody (sign : Sign) (time : Stamp) (endpoint id secret : Str) : Res (Str × Headers) :=
  match headerParse (amzDate time), headerParse "identity".toList,
    headerParse "application/x-www-form-urlencoded; charset=utf-8".toList, headerParse "sts.us-east-1.amazonaws.com".toList with
  | .ok date, .ok encoding, .ok type, .ok host =>
    let headers : Headers := []
    let headers := headers.insert "X-Amz-Date".toList date
    let headers := headers.insert "Accept-Encoding".toList encoding
    let headers := headers.insert "Content-Type".toList type
    let headers := headers.insert "host".toList host
    let body := "Action=GetCallerIdentity&Version=2011-06-15".toList
    match sign ⟨"POST".toList, endpoint, time, headers, "us-east-1".toList, id, secret, "sts".toList, body⟩ with
    | .ok signature =>
      match headerParse signature with
      | .ok signature => .ok (body, headers.insert "authorization".toList signature)
      | .panic => .panic
      | .hang => .hang
    | .panic => .panic
    | .hang => .hang
  | _, _, _, _ => .panic

/-- A request as the client sends it. -/
structure SentReq where
  method : Str
  url : Str
  headers : Headers
  body : Str
  timeout : Nat
deriving DecidableEq, Repr

/-- The request for an id and a secret (aws_validator.rs 142-158).  `now` is the time; `split` is how chrono splits a time. -/
def awsSend (sign : Sign) (split : Nat → Stamp) (now : Nat) (r : AwsReq) : Res SentReq :=
  let datetime := match r.cfg.forcedDatetime with
    | some t => t
    | none => now
  match awsHeadersAndBody sign (split datetime) r.cfg.endpoint r.id r.secret with
  | .ok (body, headers) => .ok ⟨"POST".toList, r.cfg.endpoint, headers, body, r.cfg.timeout⟩
  | .panic => .panic
  | .hang => .hang

/-- The world seen by the validators (`Net`), given what the endpoint replies to what is sent. -/
def signedNet (sign : Sign) (split : Nat → Stamp) (now : Nat) (http : Nat → HttpReq → Reply) (word : Char → Bool)
    (reply : Nat → Nat → SentReq → Reply) : Net where
  http := http
  aws i j r :=
    match awsSend sign split now r with
    | .ok s => reply i j s
    | _ => .failed []
  signable r :=
    match awsSend sign split now r with
    | .ok _ => true
    | _ => false
  word := word

end Sds
