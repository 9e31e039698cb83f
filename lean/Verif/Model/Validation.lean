import Verif.Model.Apply

/-! # Match validation

Model of `Scanner::validate_matches` (sds/src/scanner/mod.rs 388-430), the validators it runs
(match_validation/aws_validator.rs, http_validator.rs), their configuration (config.rs), `MatchStatus::merge`
(match_status.rs) and the validator map made by `ScannerBuilder::build` (scanner/mod.rs 650-673).

The network is a parameter (`Net`): any reply to any request.  Every order left open by the code (hash map
iteration, completion order of the parallel checks) is a parameter too (`Sched`).  The groups of
`validate_matches` own disjoint vectors, so running them in parallel is modelled by running them one by one
(`Verif.Model.ParValidate` runs them in parallel, and C88 compares the two). -/

namespace Sds

/-- `str` comparison `a < b`: bytewise, which for UTF-8 is the order of the scalar values. -/
def strLt : Str → Str → Bool
  | _, [] => false
  | [], _ :: _ => true
  | a :: as, b :: bs => a.toNat < b.toNat || (a.toNat == b.toNat && strLt as bs)

/-- Position of the variant, as used by `derive(PartialOrd)` (match_status.rs 1-8). -/
def MatchStatus.variant : MatchStatus → Nat
  | .notChecked => 0
  | .notAvailable => 1
  | .invalid => 2
  | .error _ => 3
  | .valid => 4

/-- The derived `<` (match_status.rs 1-8): by variant, then by payload. -/
def MatchStatus.lt : MatchStatus → MatchStatus → Bool
  | .error a, .error b => strLt a b
  | a, b => a.variant < b.variant

/-- `MatchStatus::merge` (match_status.rs 13-17). -/
def MatchStatus.merge (self new : MatchStatus) : MatchStatus := if self.lt new then new else self

/-- `AwsConfig` (config.rs 11-18); a time limit is in nanoseconds. -/
structure AwsConfig where
  endpoint : Str
  forcedDatetime : Option Nat
  timeout : Nat
deriving DecidableEq, Repr

/-- `HttpMethod` (config.rs 37-44). -/
inductive HttpMethod where
  | get | post | put | delete | patch
deriving DecidableEq, Repr

/-- `HttpValidatorConfig` (config.rs 71-79); a header is a key and a value, a range is its two bounds. -/
structure HttpConfig where
  endpoints : List Str
  method : HttpMethod
  headers : List (Str × Str)
  valid : List (Nat × Nat)
  invalid : List (Nat × Nat)
  timeout : Nat
deriving DecidableEq, Repr

/-- `MatchValidationType` (config.rs 188-192) with `AwsType` (30-35). -/
inductive VType where
  | awsId
  | awsSecret (cfg : AwsConfig)
  | awsSession
  | http (cfg : HttpConfig)
deriving DecidableEq, Repr

/-- `InternalMatchValidationType` (config.rs 225-232). -/
inductive IType where
  | aws
  | http (endpoints : List Str)
deriving DecidableEq, Repr

/-- `get_internal_match_validation_type` (config.rs 202-209). -/
def VType.itype : VType → IType
  | .http cfg => .http cfg.endpoints
  | _ => .aws

/-- `can_create_match_validator` (config.rs 196-201). -/
def VType.canCreate : VType → Bool
  | .awsSecret _ => true
  | .http _ => true
  | _ => false

/-- A validator: `AwsValidator` or `HttpValidator` with its configuration. -/
inductive Validator where
  | aws (cfg : AwsConfig)
  | http (cfg : HttpConfig)
deriving DecidableEq, Repr

/-- `into_match_validator` (config.rs 210-222); `none` is the error. -/
def VType.validator : VType → Option Validator
  | .awsSecret cfg => some (.aws cfg)
  | .http cfg => some (.http cfg)
  | _ => none

/-- The first loop of `ScannerBuilder::build` (scanner/mod.rs 654-673) over the rules' validation types:
`match_validators_per_type` and `return_matches`; `none` is `InvalidMatchValidator`. -/
def buildValidators : List (Option VType) → List (IType × Validator) → Bool → Option (List (IType × Validator) × Bool)
  | [], vs, ret => some (vs, ret)
  | none :: rest, vs, ret => buildValidators rest vs ret
  | some t :: rest, vs, ret =>
    if t.canCreate then
      match t.validator with
      | none => none
      | some v =>
        if (vs.lookup t.itype).isSome then buildValidators rest vs ret
        else buildValidators rest (vs ++ [(t.itype, v)]) true
    else buildValidators rest vs ret

/-- Replace occurrences of `pat`, left to right; `skip` characters belong to the occurrence just replaced. -/
def replaceGo (pat by_ : Str) : Nat → Str → Str
  | _, [] => []
  | skip + 1, _ :: cs => replaceGo pat by_ skip cs
  | 0, c :: cs =>
    if pat.isPrefixOf (c :: cs) then by_ ++ replaceGo pat by_ (pat.length - 1) cs
    else c :: replaceGo pat by_ 0 cs

/-- `str::replace` for a non-empty pattern. -/
def replaceStr (pat by_ s : Str) : Str := replaceGo pat by_ 0 s

/-- `str::contains` for a non-empty pattern. -/
def containsStr (pat : Str) : Str → Bool
  | [] => false
  | c :: cs => pat.isPrefixOf (c :: cs) || containsStr pat cs

def hostVar : Str := ['$', 'H', 'O', 'S', 'T']
def matchVar : Str := ['$', 'M', 'A', 'T', 'C', 'H']

/-- `HttpValidatorConfig::new` (config.rs 82-114); `none` is either error. -/
def HttpConfig.new (endpoint : Str) (hosts : List Str) : Option HttpConfig :=
  if containsStr hostVar endpoint && hosts.isEmpty then none
  else if !containsStr hostVar endpoint && !hosts.isEmpty then none
  else
    let endpoints := hosts.map fun h => replaceStr hostVar h endpoint
    some ⟨if endpoints.isEmpty then [endpoint] else endpoints, .get, [], [(200, 300)], [(400, 500)],
      3000000000⟩

/-- `HttpValidatorConfigBuilder` (config.rs 117-125). -/
structure HttpBuilder where
  endpoint : Str
  hosts : List Str
  method : HttpMethod
  headers : List (Str × Str)
  valid : List (Nat × Nat)
  invalid : List (Nat × Nat)
  timeout : Nat
deriving DecidableEq, Repr

/-- `HttpValidatorConfigBuilder::build` (config.rs 176-185). -/
def HttpBuilder.build (b : HttpBuilder) : Option HttpConfig :=
  match HttpConfig.new b.endpoint b.hosts with
  | none => none
  | some c => some { c with method := b.method, headers := b.headers, valid := b.valid, invalid := b.invalid,
                            timeout := b.timeout }

/-- What `send()` returns: a response with a status code, or an error (with its text). -/
inductive Reply where
  | response (code : Nat)
  | failed (err : Str)
deriving DecidableEq, Repr

/-- The request made for a match by the HTTP validator (http_validator.rs 117-132). -/
structure HttpReq where
  method : HttpMethod
  endpoint : Str
  headers : List (Str × Str)
  timeout : Nat
deriving DecidableEq, Repr

/-- The request made for an id and a secret by the AWS validator (aws_validator.rs 142-158), before signing. -/
structure AwsReq where
  cfg : AwsConfig
  id : Str
  secret : Str
deriving DecidableEq, Repr

/-- The outside world.  `http k r` is the reply to request `r` made for match number `k` of its group (replies
may differ between equal requests); `aws i j r` likewise for the pair `(i, j)`; `signable r` says that the signed
`Authorization` value is a legal header value (`signature.parse().unwrap()`, validator_utils.rs);
`word` is the table of the regex crate of word characters outside of ASCII. -/
structure Net where
  http : Nat → HttpReq → Reply
  aws : Nat → Nat → AwsReq → Reply
  signable : AwsReq → Bool
  word : Char → Bool

/-- The class of `AWS_SECRET_REGEX` (aws_validator.rs 19-20): `[A-Za-z0-9\/+]`. -/
def isSecretChar (c : Char) : Bool := c.isAlphanum || c == '/' || c == '+'

/-- The characters of `\w` in Unicode mode. -/
def isWordIn (word : Char → Bool) (c : Char) : Bool :=
  if c.toNat < 128 then c.isAlphanum || c == '_' else word c

/-- `AWS_SECRET_REGEX` matches at the beginning of the text: `([A-Za-z0-9\/+]{40})\b`. -/
def secretAt (word : Char → Bool) (s : Str) : Bool :=
  (s.take 40).length == 40 && (s.take 40).all isSecretChar &&
    ((s.take 40).getLast?.any (isWordIn word) != (s.drop 40).head?.any (isWordIn word))

/-- `extract_aws_secret_from_match` (aws_validator.rs 70-76): the leftmost match, or nothing. -/
def extractSecret (word : Char → Bool) : Str → Str
  | [] => []
  | c :: s => if secretAt word (c :: s) then (c :: s).take 40 else extractSecret word s

/-- The secret that is sent for a match. -/
def Net.secretOf (net : Net) (m : Str) : Str := extractSecret net.word m

/-- The orders the code leaves open: iteration over the groups, completion of the parallel checks (`run`) and
iteration over the table of their results (`merge`). -/
structure Sched where
  groups : List IType → List IType
  awsRun : List (Nat × Nat) → List (Nat × Nat)
  awsMerge : List (Nat × Nat) → List (Nat × Nat)
  httpRun : List (Nat × Str) → List (Nat × Str)
  httpMerge : List (Nat × Str) → List (Nat × Str)

def unexpectedCode (code : Nat) : Str := "Unexpected HTTP status code ".toList ++ Nat.toDigits 10 code
def requestError (e : Str) : Str := "Error making HTTP request: ".toList ++ e

/-- `Range::contains`. -/
def inRange (code : Nat) (r : Nat × Nat) : Bool := r.1 ≤ code && code < r.2

/-- `HttpValidator::handle_reqwest_response` (http_validator.rs 24-44). -/
def HttpConfig.classify (cfg : HttpConfig) (code : Nat) : MatchStatus :=
  if cfg.valid.any (inRange code) then .valid
  else if cfg.invalid.any (inRange code) then .invalid
  else .error (unexpectedCode code)

/-- `RequestHeader::get_value_with_match` (config.rs 53-60). -/
def headerValue (value m : Str) : Str := replaceStr matchVar m value

/-- The request for one endpoint and match value (http_validator.rs 118-131). -/
def HttpConfig.request (cfg : HttpConfig) (endpoint value : Str) : HttpReq :=
  ⟨cfg.method, endpoint, cfg.headers.map (fun h => (h.1, headerValue h.2 value)), cfg.timeout⟩

/-- A hash map from keys to statuses, as a finite function. -/
abbrev Table (K : Type) := K → Option MatchStatus

/-- Run the checks in their order of completion; each one overwrites its own entry (`par_iter_mut`).  A panic in
one of them is propagated by rayon. -/
def runChecks {K : Type} [DecidableEq K] (check : K → MatchStatus → Res MatchStatus) :
    List K → Table K → Res (Table K)
  | [], t => Res.ok t
  | k :: ks, t =>
    match t k with
    | none => Res.panic
    | some s =>
      match check k s with
      | .panic => Res.panic
      | .hang => Res.hang
      | .ok s' => runChecks check ks (fun k' => if k' = k then some s' else t k')

/-- `matches[i].match_status.merge(s)`; the indices come from enumerating `matches`. -/
def mergeAt (ms : List RuleMatch) (i : Nat) (s : MatchStatus) : List RuleMatch :=
  ms.modify i fun m => { m with status := m.status.merge s }

/-- One entry of the hash map per match and endpoint (http_validator.rs 104-113): equal endpoints share one. -/
def httpKeys (cfg : HttpConfig) (n : Nat) : List (Nat × Str) :=
  (List.range n).flatMap fun i => cfg.endpoints.eraseDups.map fun e => (i, e)

/-- One HTTP check (http_validator.rs 116-145). -/
def httpCheck (net : Net) (cfg : HttpConfig) (ms : List RuleMatch) (k : Nat × Str) (_ : MatchStatus) : Res MatchStatus :=
  match (ms[k.1]?).bind (·.value) with
  | none => Res.panic
  | some v =>
    match net.http k.1 (cfg.request k.2 v) with
    | .response code => Res.ok (cfg.classify code)
    | .failed e => Res.ok (.error (requestError e))

/-- The update loop (http_validator.rs 149-151). -/
def httpMergeLoop (t : Table (Nat × Str)) : List (Nat × Str) → List RuleMatch → List RuleMatch
  | [], ms => ms
  | k :: ks, ms =>
    match t k with
    | none => httpMergeLoop t ks ms
    | some s => httpMergeLoop t ks (mergeAt ms k.1 s)

/-- `HttpValidator::validate` (http_validator.rs 101-153). -/
def httpValidate (net : Net) (sch : Sched) (cfg : HttpConfig) (ms : List RuleMatch) : Res (List RuleMatch) :=
  let keys := httpKeys cfg ms.length
  match runChecks (httpCheck net cfg ms) (sch.httpRun keys) (fun k => if k ∈ keys then some .notChecked else none) with
  | .panic => Res.panic
  | .hang => Res.hang
  | .ok t => Res.ok (httpMergeLoop t (sch.httpMerge keys) ms)

/-- The validation type of the rule of a match. -/
def vtypeOf (rules : List (Option VType)) (m : RuleMatch) : Option VType := (rules[m.rule]?).join

/-- The indices of the id and of the secret matches (aws_validator.rs 36-54).  (Indexing `scanner_rules` cannot
fail here: `validate_matches` has done the same before.) -/
def awsIds (rules : List (Option VType)) (ms : List RuleMatch) : List Nat :=
  (List.range ms.length).filter fun i => (ms[i]?).any fun m => vtypeOf rules m == some .awsId

def isSecret : Option VType → Bool
  | some (.awsSecret _) => true
  | _ => false

def awsSecrets (rules : List (Option VType)) (ms : List RuleMatch) : List Nat :=
  (List.range ms.length).filter fun i => (ms[i]?).any fun m => isSecret (vtypeOf rules m)

/-- All pairs (aws_validator.rs 56-66). -/
def awsPairs (rules : List (Option VType)) (ms : List RuleMatch) : List (Nat × Nat) :=
  (awsIds rules ms).flatMap fun i => (awsSecrets rules ms).map fun j => (i, j)

/-- `handle_reqwest_response` (aws_validator.rs 95-116). -/
def awsClassify (s : MatchStatus) (code : Nat) : MatchStatus :=
  if 200 ≤ code && code < 300 then .valid
  else if 400 ≤ code && code < 500 then .invalid
  else if 500 ≤ code && code < 600 then .error (unexpectedCode code)
  else s

def missingSecret : Str := "Missing match value for aws_secret".toList
def missingId : Str := "Missing match value for aws_id".toList

/-- One AWS check (aws_validator.rs 127-169). -/
def awsCheck (net : Net) (cfg : AwsConfig) (ms : List RuleMatch) (k : Nat × Nat) (s : MatchStatus) : Res MatchStatus :=
  match (ms[k.2]?).bind (·.value), (ms[k.1]?).bind (·.value) with
  | none, _ => Res.ok (.error missingSecret)
  | some _, none => Res.ok (.error missingId)
  | some secret, some id =>
    let req : AwsReq := ⟨cfg, id, net.secretOf secret⟩
    if net.signable req then
      match net.aws k.1 k.2 req with
      | .response code => Res.ok (awsClassify s code)
      | .failed e => Res.ok (.error (requestError e))
    else Res.panic

/-- `merge_returned_match_status_with_better_status` (aws_validator.rs 78-93). -/
def awsMergeLoop (t : Table (Nat × Nat)) : List (Nat × Nat) → List RuleMatch → List RuleMatch
  | [], ms => ms
  | k :: ks, ms =>
    match t k with
    | none => awsMergeLoop t ks ms
    | some s => awsMergeLoop t ks (mergeAt (mergeAt ms k.1 s) k.2 s)

/-- `AwsValidator::validate` (aws_validator.rs 118-176). -/
def awsValidate (net : Net) (sch : Sched) (cfg : AwsConfig) (rules : List (Option VType)) (ms : List RuleMatch) :
    Res (List RuleMatch) :=
  let keys := awsPairs rules ms
  match runChecks (awsCheck net cfg ms) (sch.awsRun keys) (fun k => if k ∈ keys then some .notChecked else none) with
  | .panic => Res.panic
  | .hang => Res.hang
  | .ok t => Res.ok (awsMergeLoop t (sch.awsMerge keys) ms)

/-- `MatchValidator::validate`. -/
def Validator.validate (net : Net) (sch : Sched) (rules : List (Option VType)) (ms : List RuleMatch) :
    Validator → Res (List RuleMatch)
  | .aws cfg => awsValidate net sch cfg rules ms
  | .http cfg => httpValidate net sch cfg ms

/-- Push a match onto the vector of its type (scanner/mod.rs 400-407). -/
def pushGroup (t : IType) (m : RuleMatch) : List (IType × List RuleMatch) → List (IType × List RuleMatch)
  | [] => [(t, [m])]
  | (t', ms) :: rest => if t' = t then (t', ms ++ [m]) :: rest else (t', ms) :: pushGroup t m rest

/-- The grouping loop (scanner/mod.rs 396-409). -/
def groupMatches (rules : List (Option VType)) :
    List RuleMatch → List (IType × List RuleMatch) → Res (List (IType × List RuleMatch))
  | [], gs => Res.ok gs
  | m :: ms, gs =>
    match rules[m.rule]? with
    | none => Res.panic
    | some none => groupMatches rules ms gs
    | some (some t) => groupMatches rules ms (pushGroup t.itype m gs)

/-- Validate the groups (scanner/mod.rs 412-421). -/
def validateGroups (net : Net) (sch : Sched) (rules : List (Option VType)) (vs : List (IType × Validator)) :
    List (IType × List RuleMatch) → Res (List (IType × List RuleMatch))
  | [] => Res.ok []
  | (t, ms) :: rest =>
    match (match vs.lookup t with
           | some v => v.validate net sch rules ms
           | none => Res.ok ms) with
    | .panic => Res.panic
    | .hang => Res.hang
    | .ok ms' =>
      match validateGroups net sch rules vs rest with
      | .panic => Res.panic
      | .hang => Res.hang
      | .ok rest' => Res.ok ((t, ms') :: rest')

def startIndexLe (a b : RuleMatch) : Bool := a.start ≤ b.start

/-- `Scanner::validate_matches` (scanner/mod.rs 388-430); `ok none` is `NoMatchValidationType`. -/
def validateMatches (net : Net) (sch : Sched) (rules : List (Option VType)) (vs : List (IType × Validator)) (ret : Bool)
    (ms : List RuleMatch) : Res (Option (List RuleMatch)) :=
  if !ret then Res.ok none
  else
    match groupMatches rules ms [] with
    | .panic => Res.panic
    | .hang => Res.hang
    | .ok gs =>
      match validateGroups net sch rules vs gs with
      | .panic => Res.panic
      | .hang => Res.hang
      | .ok gs' =>
        Res.ok (some (sortBy startIndexLe
          ((sch.groups (gs'.map (·.1))).flatMap fun t => (gs'.lookup t).getD [])))

end Sds
