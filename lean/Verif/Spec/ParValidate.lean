import Verif.Model.ParValidate
import Verif.Spec.Validation

/-! # What the threads that validate matches should do together -/

namespace Sds.Spec

/-- The check that an event belongs to. -/
def keyOf : NetEvent → CheckKey
  | .sent k _ => k
  | .received k _ => k

/-- All that was sent and received for a check, in order. -/
def traffic (log : List NetEvent) (k : CheckKey) : List NetEvent := log.filter fun e => keyOf e = k

/-- For the check, exactly this was sent, and after that exactly this received. -/
def Exchanged (log : List NetEvent) (k : CheckKey) (r : Request) (a : Reply) : Prop :=
  traffic log k = [.sent k r, .received k a]

/-- Nothing was sent, or this request and nothing received yet, or this request and one reply. -/
def AtMostOnce (log : List NetEvent) (k : CheckKey) (r : Request) : Prop :=
  traffic log k = [] ∨ traffic log k = [.sent k r] ∨ ∃ a, Exchanged log k r a

/-- The rule of the match has the validation type. -/
def ofType (rules : List (Option VType)) : IType → RuleMatch → Bool
  | .aws => isAws rules
  | .http es => usesEndpoints rules es

/-- The request for the id in match `i` and the secret in match `j`. -/
def AwsRequest (word : Char → Bool) (cfg : AwsConfig) (rules : List (Option VType)) (ms : List RuleMatch) (i j : Nat)
    (r : AwsReq) : Prop :=
  AwsPair rules ms i j ∧ ∃ a b id secret, ms[i]? = some a ∧ ms[j]? = some b ∧ a.value = some id ∧
    b.value = some secret ∧ r = ⟨cfg, id, extractSecret word secret⟩

/-- The check `k` may send `r`. -/
inductive Prescribed (word : Char → Bool) (rules : List (Option VType)) (ms : List RuleMatch) :
    Validator → CheckKey → Request → Prop where
  | http (cfg i m text e r) : ms[i]? = some m → m.value = some text → HttpRequest cfg e text r →
      Prescribed word rules ms (.http cfg) (.http i e) (.http r)
  | aws (cfg i j r) : AwsRequest word cfg rules ms i j r →
      Prescribed word rules ms (.aws cfg) (.aws i j) (.aws r)

/-- The status that the reply of an AWS endpoint gives. -/
inductive AwsOutcome : Reply → MatchStatus → Prop where
  | accepted (code) : 200 ≤ code → code < 300 → AwsOutcome (.response code) .valid
  | refused (code) : 400 ≤ code → code < 500 → AwsOutcome (.response code) .invalid
  | server (code) : 500 ≤ code → code < 600 →
      AwsOutcome (.response code) (.error ("Unexpected HTTP status code ".toList ++ (toString code).toList))
  | failed (e) : AwsOutcome (.failed e) (.error ("Error making HTTP request: ".toList ++ e))

/-- The pair `(i, j)` ends with the status: a text is missing, or the reply says so. -/
inductive PairOutcome (log : List NetEvent) (rules : List (Option VType)) (ms : List RuleMatch) (i j : Nat) :
    MatchStatus → Prop where
  | noSecret (b) : AwsPair rules ms i j → ms[j]? = some b → b.value = none →
      PairOutcome log rules ms i j (.error "Missing match value for aws_secret".toList)
  | noId (a b secret) : AwsPair rules ms i j → ms[i]? = some a → ms[j]? = some b → b.value = some secret →
      a.value = none → PairOutcome log rules ms i j (.error "Missing match value for aws_id".toList)
  | reply (r a s) : Exchanged log (.aws i j) r a → AwsOutcome a s → PairOutcome log rules ms i j s

/-- What a validator should leave of the matches `ins` of its group, given what was sent and received: every match in its
place, only its status changed, to the highest of its status and those that the replies for it give. -/
def Judged (log : List NetEvent) (rules : List (Option VType)) (ins outs : List RuleMatch) : Option Validator → Prop
  | none => outs = ins
  | some (.http cfg) =>
    Updated (fun i m s => Highest (fun x => x = m.status ∨
      ∃ e r a, Exchanged log (.http i e) r a ∧ HttpOutcome cfg a x) s) ins outs
  | some (.aws _) =>
    Updated (fun i m s => Highest (fun x => x = m.status ∨ (∃ j, PairOutcome log rules ins i j x) ∨
      ∃ j, PairOutcome log rules ins j i x) s) ins outs

/-- Some check cannot even make its request: an HTTP match has no text, or the signature of an AWS request is not a
legal header value. -/
def FaultyGroup (sg : Signer) (rules : List (Option VType)) (ms : List RuleMatch) : Option Validator → Prop
  | none => False
  | some (.http cfg) => cfg.endpoints ≠ [] ∧ ∃ m ∈ ms, m.value = none
  | some (.aws cfg) => ∃ i j r, AwsRequest sg.word cfg rules ms i j r ∧ sg.signable r = false

end Sds.Spec
