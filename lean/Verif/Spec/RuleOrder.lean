import Verif.Spec.Scan

/-! # Specification: scanners that differ in the order of their rules, or in a rule without redaction -/

namespace Sds.Spec

/-- `sc'` has the rules of `sc` in another order: rule number `i` has number `σ i` there, and `τ` leads back. -/
structure Reordered (sc sc' : Scanner) (σ τ : Nat → Nat) : Prop where
  to : ∀ i rule, sc.rules[i]? = some rule → sc'.rules[σ i]? = some rule ∧ τ (σ i) = i
  back : ∀ j rule, sc'.rules[j]? = some rule → sc.rules[τ j]? = some rule ∧ σ (τ j) = j
  wildcards : sc'.wildcards = sc.wildcards
  multipass : sc'.multipassEnabled = sc.multipassEnabled
  returnMatches : sc'.returnMatches = sc.returnMatches
  fp : sc'.fp = sc.fp

/-- The same rules are blocked. -/
def SameBlocked (sc : Scanner) (σ : Nat → Nat) (blocked blocked' : List Nat) : Prop :=
  ∀ i rule, sc.rules[i]? = some rule → (i ∈ blocked ↔ σ i ∈ blocked')

/-- Two rules that match the same range of a string, both with redaction or both without, are related. -/
def Ties (sc : Scanner) (blocked : List Nat) (leaves : List Leaf) (R : Nat → Nat → Prop) : Prop :=
  ∀ l ∈ leaves, ∀ m m', Kept sc blocked leaves l.path l.text m → Kept sc blocked leaves l.path l.text m' →
    m.st = m'.st → m.en = m'.en → redacting sc m.rule = redacting sc m'.rule → R m.rule m'.rule

/-- A report without the number of its rule. -/
def unnumbered (o : RuleMatch) : RuleMatch := { o with rule := 0 }

/-- The scanner with one more rule. -/
def withRule (sc : Scanner) (rule : CRule) : Scanner := { sc with rules := sc.rules ++ [rule] }

/-- The rule records no text in a field that is excluded for it (for example as no field is). -/
def RecordsNothing (wildcards : Bool) (rule : CRule) (leaves : List Leaf) : Prop :=
  ∀ l ∈ leaves, Excludes wildcards l.path rule.scope → ∀ f, rule.run l.text l.path true = Res.ok f → f.inserted = []

end Sds.Spec
