import Verif.Spec.Scan
import Verif.Model.Labels

/-! # Counters with labels (C84)

A scan adds to the counters of its scanner and of the rules of this scanner.  The labels of a counter are those of the
scanner, followed by those of the rule. -/

namespace Sds.Spec

/-- A scan that has returned: the scanner, the event, the rules that are blocked, the time it took, what became of the
event, the matches that were returned and the calls of `increment`. -/
structure Done (E : Type) where
  sc : LScanner
  event : E
  blocked : List Nat
  elapsed : Nat
  after : E
  out : List RuleMatch
  incs : List Incr

/-- The scan did this. -/
def Done.Ok {E : Type} (impl : EventImpl E) (d : Done E) : Prop :=
  scanL impl d.sc d.event d.blocked d.elapsed = Res.ok ((d.after, d.out), d.incs)

/-- The labels of the counters of rule number `r`. -/
def labelsOf (sc : LScanner) (r : Nat) : Option Labels := sc.rules[r]?.map fun rule => sc.labels ++ rule.labels

/-- The excluded keywords of rule number `r` rule out `n` matches in the string: none if the rule does not run or has no
excluded keywords. -/
def RuledOut (sc : LScanner) (blocked : List Nat) (l : Leaf) (r n : Nat) : Prop :=
  (∀ rule hits ex, sc.rules[r]? = some rule → rule.keywords = some hits → Applies sc.plain blocked l.path ex r rule.rule →
    n = hits l.text l.path ex) ∧
  ((¬ ∃ rule hits ex, sc.rules[r]? = some rule ∧ rule.keywords = some hits ∧
    Applies sc.plain blocked l.path ex r rule.rule) → n = 0)

/-- The sum over the rules of a scanner. -/
def overRules (sc : LScanner) (f : Nat → Nat) : Nat := ((List.range sc.rules.length).map f).sum

end Sds.Spec
