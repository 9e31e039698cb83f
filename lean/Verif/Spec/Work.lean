import Verif.Spec.Kinds
import Verif.Spec.Search
import Verif.Model.Work

/-! # Specification: how many searches a scan may take -/

namespace Sds.Spec

/-- Another regex and other keywords answer these searches in the string as those of the rule do. -/
structure SameAnswers (r : RegexRule) (rx : Rx) (search : Str → Nat → Option (Nat × Nat)) (c : Str) (qs : List Query) : Prop where
  regex : ∀ p, .regex p ∈ qs → searchFrom r.rx c p = searchFrom rx c p
  keyword : ∀ p k, .keyword p ∈ qs → r.included = some k → k.search c p = search c p

/-- The rule with another regex and other keywords. -/
def askingOthers (r : RegexRule) (rx : Rx) (search : Str → Nat → Option (Nat × Nat)) : RegexRule :=
  ⟨rx, r.validator, r.included.map fun k => ⟨k.lookAhead, search, k.inPath⟩, r.excluded⟩

/-- The regex has no empty match, and the searches of the rule give what they should. -/
structure Searchable (r : RegexRule) : Prop where
  lawful : LawfulRx r.rx
  nonEmpty : NonEmptyRx r.rx
  keywords : ∀ k, r.included = some k → ∃ occ, LawfulKw k occ

/-- A bound of the number of searches in a string of `n` characters. -/
def searchBound (required kwPaths : Bool) (n : Nat) : Nat :=
  match required, kwPaths with
  | false, _ => n + 1
  | true, false => 4 * n + 4
  | true, true => 5 * n + 6

/-- The sum of a bound over all strings and all rules. -/
def totalBound (bound : RegexRule → Nat → Nat) (rules : List RegexRule) (leaves : List Leaf) : Nat :=
  (leaves.map fun l => (rules.map fun r => bound r l.text.length).sum).sum

/-- The counter after the calls (newest first). -/
def counted (calls : List (Call CountV)) : Nat := (cacheLeft calls 1).getD (0 : Nat)

/-- The searches made by a call of the rule with the number of the call. -/
def searchesOf (rules : List RegexRule) (kwPaths : Bool) (fuel : Str → Nat) (d : Due) : Nat :=
  match rules[d.index]? with
  | some r => (stringMatchesW r kwPaths d.excluded d.content d.path (fuel d.content)).2.length
  | none => 0

end Sds.Spec
