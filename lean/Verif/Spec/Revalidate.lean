import Verif.Spec.ParValidate
import Verif.Spec.ScanValidate

/-! # Specification: validating matches that were validated before -/

namespace Sds.Spec

/-- The match as if it had never been validated. -/
def unchecked (m : RuleMatch) : RuleMatch := { m with status := .notChecked }

/-- `outs` are the matches `ms` of one validation type, each with the higher one of the status it has and the status that it has in
`news`. -/
def RaisedTo (ms news outs : List RuleMatch) : Prop :=
  ∃ each : List (RuleMatch × MatchStatus × MatchStatus), each.map (·.1) = ms ∧
    news.Perm (each.map fun x => { x.1 with status := x.2.1 }) ∧ outs.Perm (each.map fun x => { x.1 with status := x.2.2 }) ∧
    ∀ x ∈ each, Highest (fun s => s = x.1.status ∨ s = x.2.1) x.2.2

end Sds.Spec
