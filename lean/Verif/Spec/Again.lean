import Verif.Spec.Scan
import Verif.Spec.Engine

/-! # Specification: rules whose redacted events can be scanned again -/

namespace Sds.Spec
open Sds.Re

/-- The rule does not look at what surrounds a match: where a text that it matches somewhere occurs, it has a match, too
(perhaps a longer or a shorter one). -/
def Everywhere (r : RegexRule) : Prop :=
  ∀ c s e t, Genuine r c s e → TextAt c s e t → ∀ before after, ∃ e', Genuine r (before ++ t ++ after) (blen before) e'

/-- The expression has no assertions. -/
inductive NoLook : Node → Prop
  | eps : NoLook .eps
  | set (p : Char → Prop) : NoLook (.set p)
  | seq (l : List Node) : (∀ n ∈ l, NoLook n) → NoLook (.seq l)
  | alt (l : List Node) : (∀ n ∈ l, NoLook n) → NoLook (.alt l)
  | rep (lo : Nat) (hi : Option Nat) (greedy : Bool) (n : Node) : NoLook n → NoLook (.rep lo hi greedy n)
  | capture (name : Option Str) (n : Node) : NoLook n → NoLook (.capture name n)

/-- The texts that the rules match have no character in common with `u`. -/
def Foreign (rs : List RegexRule) (u : Str) : Prop :=
  ∀ r ∈ rs, ∀ c s e t, Genuine r c s e → TextAt c s e t → ∀ ch ∈ t, ch ∉ u

/-- The rules of the scanner that redact and are not blocked are the regex rules `rs`; they do not look at what surrounds a match,
have no required keywords, and replace every match by a text that is not empty and foreign to all of them. -/
structure Cleaning (sc : Scanner) (blocked : List Nat) (rs : List RegexRule) : Prop where
  rules : ∀ i rule, sc.rules[i]? = some rule → i ∉ blocked → rule.info.action ≠ .none →
    ∃ r ∈ rs, ∃ scope kp fuel, rule = r.toCRule rule.info scope kp fuel
  lawful : ∀ r ∈ rs, LawfulRx r.rx ∧ NonEmptyRx r.rx ∧ r.included = none ∧ Everywhere r
  foreign : ∀ i rule, sc.rules[i]? = some rule → i ∉ blocked → rule.info.action ≠ .none →
    ∀ t, redacted sc.fp rule.info.action t ≠ [] ∧ Foreign rs (redacted sc.fp rule.info.action t)

/-- In no string do two matches of rules with redaction overlap. -/
def RedactionsApart (sc : Scanner) (blocked : List Nat) (leaves : List Leaf) : Prop :=
  ∀ l ∈ leaves, ∀ m m', Kept sc blocked leaves l.path l.text m → Kept sc blocked leaves l.path l.text m' →
    redacting sc m.rule = true → redacting sc m'.rule = true → m ≠ m' → ¬ Overlap m m'

end Sds.Spec
