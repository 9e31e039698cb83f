import Verif.Spec.ParValidate
import Verif.Spec.ScanValidate

/-! # Specification: where found texts are sent -/

namespace Sds.Spec

/-- The request was sent while the matches were validated. -/
def WasSent (groups : List Group) (r : Request) : Prop := ∃ g ∈ groups, ∃ k, .sent k r ∈ g.log

/-- The request tells the text of a match at an endpoint of the rule that found it, in the place of the placeholder in headers that
are configured for this endpoint. -/
def HttpToOwnEndpoint (rules : List (Option VType)) (ms : List RuleMatch) (r : HttpReq) : Prop :=
  ∃ m ∈ ms, ∃ own text cfg, rules[m.rule]? = some (some (.http own)) ∧ m.value = some text ∧ r.endpoint ∈ own.endpoints ∧
    some (.http cfg) ∈ rules ∧ r.endpoint ∈ cfg.endpoints ∧ r.method = cfg.method ∧
    All2 (fun h g => g.1 = h.1 ∧ Substituted "$MATCH".toList text h.2 g.2) cfg.headers r.headers

/-- The request tells the text of a match that was found by a rule for AWS ids and a part of the text of a match that was found by a
rule for AWS secrets, whose configuration is `own`. -/
def AwsTold (rules : List (Option VType)) (ms : List RuleMatch) (own : AwsConfig) (r : AwsReq) : Prop :=
  ∃ a ∈ ms, ∃ b ∈ ms, rules[a.rule]? = some (some .awsId) ∧ rules[b.rule]? = some (some (.awsSecret own)) ∧
    a.value = some r.id ∧ ∃ text before after, b.value = some text ∧ text = before ++ r.secret ++ after

/-- The request tells a text that a rule found in a string of the event, at an endpoint of this rule. -/
def HttpFromEvent (sc : Scanner) (blocked : List Nat) (leaves : List Leaf) (types : List (Option VType)) (r : HttpReq) : Prop :=
  ∃ l ∈ leaves, ∃ m text own cfg, FoundAs sc blocked leaves m l text ∧ types[m.rule]? = some (some (.http own)) ∧
    r.endpoint ∈ own.endpoints ∧ some (.http cfg) ∈ types ∧ r.endpoint ∈ cfg.endpoints ∧ r.method = cfg.method ∧
    All2 (fun h g => g.1 = h.1 ∧ Substituted "$MATCH".toList text h.2 g.2) cfg.headers r.headers

/-- The request tells an id and a part of a text that rules for AWS ids and for AWS secrets found in strings of the event. -/
def AwsFromEvent (sc : Scanner) (blocked : List Nat) (leaves : List Leaf) (types : List (Option VType)) (r : AwsReq) : Prop :=
  ∃ l ∈ leaves, ∃ l' ∈ leaves, ∃ a b text own before after, FoundAs sc blocked leaves a l r.id ∧ FoundAs sc blocked leaves b l' text ∧
    types[a.rule]? = some (some .awsId) ∧ types[b.rule]? = some (some (.awsSecret own)) ∧ text = before ++ r.secret ++ after

end Sds.Spec
