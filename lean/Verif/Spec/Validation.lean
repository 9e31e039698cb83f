import Verif.Model.Validation
import Verif.Spec.Validators

/-! # What match validation should do -/

namespace Sds.Spec

/-- Text order: a proper prefix comes first, otherwise the first difference decides. -/
def TextLe (a b : Str) : Prop :=
  a <+: b ∨ ∃ p x y a' b', a = p ++ x :: a' ∧ b = p ++ y :: b' ∧ x.toNat < y.toNat

/-- `a` has at most the priority of `b`: not checked, not available, invalid, error (by message), valid. -/
inductive StatusLe : MatchStatus → MatchStatus → Prop where
  | notChecked (s) : StatusLe .notChecked s
  | notAvailable (s) : s ≠ .notChecked → StatusLe .notAvailable s
  | invalid (s) : s ≠ .notChecked → s ≠ .notAvailable → StatusLe .invalid s
  | error (a b) : TextLe a b → StatusLe (.error a) (.error b)
  | valid (s) : StatusLe s .valid

/-- `s` is the highest of the statuses satisfying `P`. -/
def Highest (P : MatchStatus → Prop) (s : MatchStatus) : Prop := P s ∧ ∀ x, P x → StatusLe x s

/-- The two matches agree in everything but the status. -/
def SameButStatus (a b : RuleMatch) : Prop := { a with status := .valid } = { b with status := .valid }

/-- `out` is `ins`, position by position, with statuses related by `P index in out`. -/
structure Updated (P : Nat → RuleMatch → MatchStatus → Prop) (ins outs : List RuleMatch) : Prop where
  len : outs.length = ins.length
  each : ∀ i a b, ins[i]? = some a → outs[i]? = some b → SameButStatus a b ∧ P i a b.status

/-- The code of a response lies in one of the half-open ranges. -/
def CodeIn (ranges : List (Nat × Nat)) (code : Nat) : Prop := ∃ lo hi, (lo, hi) ∈ ranges ∧ lo ≤ code ∧ code < hi

/-- Every order is a rearrangement of the keys it orders. -/
structure Fair (sch : Sched) : Prop where
  groups : ∀ l, (sch.groups l).Perm l
  awsRun : ∀ l, (sch.awsRun l).Perm l
  awsMerge : ∀ l, (sch.awsMerge l).Perm l
  httpRun : ∀ l, (sch.httpRun l).Perm l
  httpMerge : ∀ l, (sch.httpMerge l).Perm l

/-- Text with placeholders: the pieces between the placeholders. -/
def joinWith (sep : Str) : List Str → Str
  | [] => []
  | [p] => p
  | p :: ps => p ++ sep ++ joinWith sep ps

/-- `pat` occurs in `s`. -/
def OccursIn (pat s : Str) : Prop := ∃ a b, s = a ++ pat ++ b

/-- `out` is `s` with every occurrence of `pat` replaced. -/
def Substituted (pat by_ s out : Str) : Prop :=
  ∃ ps, ps ≠ [] ∧ (∀ p ∈ ps, ¬ OccursIn pat p) ∧ s = joinWith pat ps ∧ out = joinWith by_ ps

/-- The status an HTTP reply gives: the code classified by the configured ranges, valid ones first. -/
def HttpOutcome (cfg : HttpConfig) : Reply → MatchStatus → Prop
  | .response code, .valid => CodeIn cfg.valid code
  | .response code, .invalid => ¬ CodeIn cfg.valid code ∧ CodeIn cfg.invalid code
  | .response code, .error msg =>
    ¬ CodeIn cfg.valid code ∧ ¬ CodeIn cfg.invalid code ∧
      msg = "Unexpected HTTP status code ".toList ++ (toString code).toList
  | .failed e, .error msg => msg = "Error making HTTP request: ".toList ++ e
  | _, _ => False

/-- The request a configuration prescribes for a match text: method, endpoint and time limit as configured,
`$MATCH` in header values replaced by the text. -/
def HttpRequest (cfg : HttpConfig) (endpoint text : Str) (r : HttpReq) : Prop :=
  endpoint ∈ cfg.endpoints ∧ r.endpoint = endpoint ∧ r.method = cfg.method ∧ r.timeout = cfg.timeout ∧
    All2 (fun h g => g.1 = h.1 ∧ Substituted "$MATCH".toList text h.2 g.2) cfg.headers r.headers

/-- The outcomes of checking match number `i` with text `text` at all endpoints. -/
def HttpResult (net : Net) (cfg : HttpConfig) (i : Nat) (text : Str) (s : MatchStatus) : Prop :=
  ∃ e r, HttpRequest cfg e text r ∧ HttpOutcome cfg (net.http i r) s

/-- The rule of the match is declared to find AWS ids. -/
def IsAwsId (rules : List (Option VType)) (m : RuleMatch) : Prop := rules[m.rule]? = some (some .awsId)

/-- The rule of the match is declared to find AWS secrets. -/
def IsAwsSecret (rules : List (Option VType)) (m : RuleMatch) : Prop :=
  ∃ cfg, rules[m.rule]? = some (some (.awsSecret cfg))

/-- `i` is an id match and `j` a secret match of the list. -/
def AwsPair (rules : List (Option VType)) (ms : List RuleMatch) (i j : Nat) : Prop :=
  ∃ a b, ms[i]? = some a ∧ ms[j]? = some b ∧ IsAwsId rules a ∧ IsAwsSecret rules b

/-- The endpoint accepts the id of match `i` with the secret of match `j`. -/
def AwsAccepted (net : Net) (cfg : AwsConfig) (ms : List RuleMatch) (i j : Nat) : Prop :=
  ∃ a b id secret code, ms[i]? = some a ∧ ms[j]? = some b ∧ a.value = some id ∧ b.value = some secret ∧
    net.aws i j ⟨cfg, id, net.secretOf secret⟩ = .response code ∧ 200 ≤ code ∧ code < 300

/-- The outcome of checking the pair `(i, j)`. -/
inductive AwsResult (net : Net) (cfg : AwsConfig) (ms : List RuleMatch) (i j : Nat) : MatchStatus → Prop where
  | accepted : AwsAccepted net cfg ms i j → AwsResult net cfg ms i j .valid
  | noSecret (b) : ms[j]? = some b → b.value = none →
      AwsResult net cfg ms i j (.error "Missing match value for aws_secret".toList)
  | noId (a b secret) : ms[i]? = some a → ms[j]? = some b → b.value = some secret → a.value = none →
      AwsResult net cfg ms i j (.error "Missing match value for aws_id".toList)
  | refused (a b id secret code) : ms[i]? = some a → ms[j]? = some b → a.value = some id → b.value = some secret →
      net.aws i j ⟨cfg, id, net.secretOf secret⟩ = .response code → 400 ≤ code → code < 500 →
      AwsResult net cfg ms i j .invalid
  | server (a b id secret code) : ms[i]? = some a → ms[j]? = some b → a.value = some id → b.value = some secret →
      net.aws i j ⟨cfg, id, net.secretOf secret⟩ = .response code → 500 ≤ code → code < 600 →
      AwsResult net cfg ms i j (.error ("Unexpected HTTP status code ".toList ++ (toString code).toList))
  | failed (a b id secret e) : ms[i]? = some a → ms[j]? = some b → a.value = some id → b.value = some secret →
      net.aws i j ⟨cfg, id, net.secretOf secret⟩ = .failed e →
      AwsResult net cfg ms i j (.error ("Error making HTTP request: ".toList ++ e))

end Sds.Spec

namespace Sds.Spec

/-- The rule of the match has an AWS validation type. -/
def isAws (rules : List (Option VType)) (m : RuleMatch) : Bool :=
  match rules[m.rule]? with
  | some (some (.http _)) => false
  | some (some _) => true
  | _ => false

/-- The rule of the match is validated over HTTP at the given endpoints. -/
def usesEndpoints (rules : List (Option VType)) (es : List Str) (m : RuleMatch) : Bool :=
  match rules[m.rule]? with
  | some (some (.http cfg)) => decide (cfg.endpoints = es)
  | _ => false

/-- The rule of the match has a validation type. -/
def isValidated (rules : List (Option VType)) (m : RuleMatch) : Bool :=
  match rules[m.rule]? with
  | some (some _) => true
  | _ => false

/-- The configurations of the AWS secret rules, in order. -/
def secretConfigs (rules : List (Option VType)) : List AwsConfig :=
  rules.filterMap fun o => match o with
    | some (.awsSecret c) => some c
    | _ => none

/-- Everything of a match but its status. -/
def fixedPart (m : RuleMatch) : Nat × Path × ReplacementType × Nat × Nat × Int × Option Str :=
  (m.rule, m.path, m.rtype, m.start, m.stop, m.shift, m.value)

/-- The scanner has a rule it can validate with. -/
def HasValidator (rules : List (Option VType)) : Prop :=
  ∃ t, some t ∈ rules ∧ ((∃ cfg, t = .awsSecret cfg) ∨ ∃ cfg, t = .http cfg)

/-- Every request for a pair can be signed. -/
def Signable (net : Net) (cfg : AwsConfig) (rules : List (Option VType)) (ms : List RuleMatch) : Prop :=
  ∀ i j a b id secret, AwsPair rules ms i j → ms[i]? = some a → ms[j]? = some b → a.value = some id →
    b.value = some secret → net.signable ⟨cfg, id, net.secretOf secret⟩ = true

/-- What C39 asks of match number `i`. -/
def AwsClaim (net : Net) (cfg : AwsConfig) (rules : List (Option VType)) (ms : List RuleMatch) (i : Nat) (m : RuleMatch)
    (s : MatchStatus) : Prop :=
  (s = .valid ↔ m.status = .valid ∨ (∃ j, AwsPair rules ms i j ∧ AwsAccepted net cfg ms i j) ∨
    ∃ j, AwsPair rules ms j i ∧ AwsAccepted net cfg ms j i) ∧
  ((∀ j, ¬ AwsPair rules ms i j ∧ ¬ AwsPair rules ms j i) → s = m.status)

end Sds.Spec
