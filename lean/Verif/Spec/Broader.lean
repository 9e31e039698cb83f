import Verif.Spec.Scope

/-! # Specification: scopes that reach further (C122)

Uses the data types `Path`, `Scope` only. -/

namespace Sds.Spec

/-- Every path of the first list is, or lies below, a path of the second. -/
def Under (qs qs' : List Path) : Prop := ∀ q ∈ qs, ∃ q' ∈ qs', q' <+: q

/-- The second scope includes at least as much, and excludes at least as much. -/
def Broader : Scope → Scope → Prop
  | .incl i e, .incl i' e' => Under i i' ∧ Under e e'
  | .incl _ e, .excl e' => Under e e'
  | .excl e, .excl e' => Under e e'
  | .excl _, .incl _ _ => False

/-- The same for the scopes of several rules. -/
def AllBroader (scopes scopes' : List Scope) : Prop :=
  scopes.length = scopes'.length ∧
    ∀ (i : Nat) (a b : Scope), scopes[i]? = some a → scopes'[i]? = some b → Broader a b

end Sds.Spec
