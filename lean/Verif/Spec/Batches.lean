import Verif.Spec.Revalidate

/-! # Specification: validating matches in several calls -/

namespace Sds.Spec

/-- No AWS id is in one of the lists and an AWS secret in the other. -/
def NoPairApart (rules : List (Option VType)) (xs ys : List RuleMatch) : Prop :=
  ∀ a ∈ xs, ∀ b ∈ ys, ¬ (IsAwsId rules a ∧ IsAwsSecret rules b) ∧ ¬ (IsAwsSecret rules a ∧ IsAwsId rules b)

/-- The two lists have the same matches, and each match has in the second list at least the status that it has in the first. -/
def NotLower (lows highs : List RuleMatch) : Prop :=
  ∃ each : List (RuleMatch × MatchStatus × MatchStatus), lows.Perm (each.map fun x => { x.1 with status := x.2.1 }) ∧
    highs.Perm (each.map fun x => { x.1 with status := x.2.2 }) ∧ ∀ x ∈ each, StatusLe x.2.1 x.2.2

end Sds.Spec
