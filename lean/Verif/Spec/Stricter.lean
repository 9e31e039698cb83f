import Verif.Spec.Search

/-! # Specification: rules with fewer checks -/

namespace Sds.Spec

/-- `lax` has the regex of `r`, no required keywords, a validator that accepts what the one of `r` accepts (or none), and the excluded
keywords of `r` or none. -/
structure Laxer (lax r : RegexRule) : Prop where
  rx : lax.rx = r.rx
  included : lax.included = none
  validator : ∀ v', lax.validator = some v' → ∃ v, r.validator = some v ∧ ∀ t, v t = true → v' t = true
  excluded : lax.excluded = none ∨ lax.excluded = r.excluded

/-- No match that passes the checks of the rule begins inside one of the given ranges. -/
def NoneInside (r : RegexRule) (c : Str) (l : List (Nat × Nat)) : Prop :=
  ∀ m ∈ l, ∀ p e, m.1 < p → p < m.2 → ¬ Genuine r c p e

end Sds.Spec
