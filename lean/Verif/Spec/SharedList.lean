import Verif.Model.SharedList

/-! # Specification: calls on a shared list take effect one after another -/

namespace Sds.Spec
variable {R : Type}

/-- What a list does if its calls are made one after another: `OneByOne l p calls l' p'` says that a list with the rules `l`,
poisoned or not (`p`), becomes one with `l'` and `p'` by these calls, with these results. -/
inductive OneByOne : List R → Bool → List (Nat × ListCall R × ListRes R) → List R → Bool → Prop
  | nil {l p} : OneByOne l p [] l p
  | append {l i r calls l' p'} : OneByOne (l ++ [r]) false calls l' p' → OneByOne l false ((i, .append r, .appended) :: calls) l' p'
  | build {l i calls l' p'} : OneByOne l false calls l' p' → OneByOne l false ((i, .create, .built l) :: calls) l' p'
  | panic {l i calls l' p'} : OneByOne l true calls l' p' → OneByOne l false ((i, .create, .failed) :: calls) l' p'
  | lost {l i r calls l' p'} : OneByOne l true calls l' p' → OneByOne l true ((i, .append r, .dropped) :: calls) l' p'
  | refused {l i calls l' p'} : OneByOne l true calls l' p' → OneByOne l true ((i, .create, .failed) :: calls) l' p'

/-- Call `i` ended before call `j` began. -/
def EndsBefore (tr : List (ListEvent R)) (i j : Nat) : Prop :=
  ∃ a b res x, tr = a ++ b ∧ .ends i res ∈ a ∧ .begins j x ∈ b

/-- Call `i` is in front of call `j`. -/
def ComesFirst (calls : List (Nat × ListCall R × ListRes R)) (i j : Nat) : Prop :=
  ∃ a b, calls = a ++ b ∧ i ∈ a.map (·.1) ∧ j ∈ b.map (·.1)

/-- The calls that were seen can be put in an order (linearised): every call that ended is there with its result, no call is there
twice, calls that did not overlap keep their order, and one after another they make the list what it is. -/
structure LinearisedAs (tr : List (ListEvent R)) (l : List R) (p : Bool) (calls : List (Nat × ListCall R × ListRes R)) : Prop where
  began : ∀ x ∈ calls, .begins x.1 x.2.1 ∈ tr
  ended : ∀ i res, .ends i res ∈ tr → ∃ x, (i, x, res) ∈ calls
  once : (calls.map (·.1)).Nodup
  order : ∀ i j, EndsBefore tr i j → j ∈ calls.map (·.1) → ComesFirst calls i j
  effect : OneByOne [] false calls l p

/-- The rules of the calls of `append_rule_to_list` that began. -/
def appendedRules (tr : List (ListEvent R)) : List R :=
  tr.filterMap fun
    | .begins _ (.append r) => some r
    | _ => none

/-- Every call that began has ended. -/
def AllEnded (tr : List (ListEvent R)) : Prop := ∀ i x, .begins i x ∈ tr → ∃ res, .ends i res ∈ tr

end Sds.Spec
