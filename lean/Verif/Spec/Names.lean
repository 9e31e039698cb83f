import Verif.Spec.Scan

/-! # Specification: what the path of a string decides -/

namespace Sds.Spec

/-- To the rules, the two paths are the same: the same rules are run there, for the same rules they are excluded, and what a rule
finds in a text does not depend on which of the two it is at. -/
def AlikeAt (sc : Scanner) (p p' : Path) : Prop :=
  ∀ rule ∈ sc.rules, (Scans sc.wildcards p rule.scope ↔ Scans sc.wildcards p' rule.scope) ∧
    (Excludes sc.wildcards p rule.scope ↔ Excludes sc.wildcards p' rule.scope) ∧
    ∀ c ex, rule.run c p ex = rule.run c p' ex

/-- The same texts in the same order, at places that are the same to the rules. -/
inductive SameTexts (sc : Scanner) : List Leaf → List Leaf → Prop
  | nil : SameTexts sc [] []
  | cons {l l' ls ls'} : l.text = l'.text → AlikeAt sc l.path l'.path → SameTexts sc ls ls' →
      SameTexts sc (l :: ls) (l' :: ls')

/-- The report of a match at this path. -/
def placedAt (p : Path) (o : RuleMatch) : RuleMatch := { o with path := p }

/-- The reports of the strings of an event, given those of each text. -/
def placed : List Leaf → List (List RuleMatch × Str) → List RuleMatch
  | l :: ls, r :: rs => r.1.map (placedAt l.path) ++ placed ls rs
  | _, _ => []

/-- No rule looks at the path of a string. -/
def PathBlind (sc : Scanner) : Prop :=
  ∀ rule ∈ sc.rules, rule.scope = .excl [] ∧ ∀ c p p' ex, rule.run c p ex = rule.run c p' ex

end Sds.Spec
