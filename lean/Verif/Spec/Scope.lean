import Verif.Model.Scope

/-! # Specification: scopes

Uses the data types `Path`, `Scope`, `Op` only. -/

namespace Sds.Spec

/-- `Deletes prev p q`: `q` is obtained from the path `p` by deleting some list indices, where an index directly
after a deleted one is deleted as well.  `prev` says whether the segment before `p` was deleted. -/
inductive Deletes : Bool → Path → Path → Prop
  | nil (prev : Bool) : Deletes prev [] []
  | keep {prev : Bool} {s : Seg} {p q : Path} :
      (prev = true → ∀ i, s ≠ .index i) → Deletes false p q → Deletes prev (s :: p) (s :: q)
  | delete {prev : Bool} {i : Nat} {p q : Path} : Deletes true p q → Deletes prev (.index i :: p) q

/-- The scope path `q` selects the string at path `p`: it is a prefix of `p`, where with implicit index
wildcards list indices of the prefix may be skipped. -/
def Selects (wildcards : Bool) (q p : Path) : Prop :=
  ∃ pre rest, p = pre ++ rest ∧ (if wildcards = true then Deletes false pre q else pre = q)

/-- A rule with this scope is run on the string at path `p`. -/
def Scans (wildcards : Bool) (p : Path) : Scope → Prop
  | .incl inc _ => ∃ q ∈ inc, Selects wildcards q p
  | .excl _ => True

/-- For a rule with this scope the string at path `p` is excluded. -/
def Excludes (wildcards : Bool) (p : Path) : Scope → Prop
  | .incl _ exc => ∃ q ∈ exc, Selects wildcards q p
  | .excl ps => ∃ q ∈ ps, Selects wildcards q p

/-- The strings visited by a sequence of calls, with their paths; `none` if it leaves the root. -/
def located : Path → List Op → Option (List (Path × Str))
  | _, [] => some []
  | p, .push s :: ops => located (p ++ [s]) ops
  | p, .pop :: ops => if p = [] then none else located p.dropLast ops
  | p, .visit c :: ops =>
    match located p ops with
    | some l => some ((p, c) :: l)
    | none => none

end Sds.Spec
