import Verif.Spec.Whereto

/-! # Specification: how many requests a validation sends -/

namespace Sds.Spec

/-- The number of requests in a record. -/
def sentIn : List NetEvent → Nat
  | [] => 0
  | .sent _ _ :: log => sentIn log + 1
  | .received _ _ :: log => sentIn log

/-- The number of requests that all groups have sent. -/
def requestsSent (groups : List Group) : Nat := (groups.map fun g => sentIn g.log).sum

/-- The number of different endpoints at which the rule of the match checks it; 0 if it is not validated over HTTP. -/
def checksOf (rules : List (Option VType)) (m : RuleMatch) : Nat :=
  match rules[m.rule]? with
  | some (some (.http cfg)) => cfg.endpoints.eraseDups.length
  | _ => 0

/-- The rule of the match finds AWS ids. -/
def isIdMatch (rules : List (Option VType)) (m : RuleMatch) : Bool :=
  match rules[m.rule]? with
  | some (some .awsId) => true
  | _ => false

/-- The rule of the match finds AWS secrets. -/
def isSecretMatch (rules : List (Option VType)) (m : RuleMatch) : Bool :=
  match rules[m.rule]? with
  | some (some (.awsSecret _)) => true
  | _ => false

end Sds.Spec
