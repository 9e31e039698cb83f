import Verif.Spec.Apply
import Verif.Model.Search

/-! # Specification: searching one string

The regex engine, the checksum validator and the excluded keyword check are the given data of a rule. -/

namespace Sds.Spec

/-- What the regex engine guarantees: matches are ranges of the content on character boundaries. -/
def LawfulRx (rx : Rx) : Prop :=
  ∀ c p e, rx c p = some e → p ≤ e ∧ OnBoundary c p ∧ OnBoundary c e

/-- The regex has no empty match. -/
def NonEmptyRx (rx : Rx) : Prop := ∀ c p e, rx c p = some e → p < e

/-- `m` is the text of the content at `s..e`. -/
def TextAt (c : Str) (s e : Nat) (m : Str) : Prop := ∃ a b, c = a ++ m ++ b ∧ blen a = s ∧ blen a + blen m = e

/-- The regex matches at `s..e` and the text is accepted by the validator of the rule. -/
def Accepted (r : RegexRule) (c : Str) (s e : Nat) : Prop :=
  r.rx c s = some e ∧ ∀ v, r.validator = some v → ∃ m, TextAt c s e m ∧ v m = true

/-- Accepted, and the excluded keyword check (C26) finds nothing in front of it. -/
def Genuine (r : RegexRule) (c : Str) (s e : Nat) : Prop :=
  Accepted r c s e ∧ ∀ x, r.excluded = some x → containsExcluded x.eqc x.keywords x.lookAhead c s = Res.ok false

/-- The excluded keyword check does not panic on this content (C27). -/
def ChecksSafely (r : RegexRule) (c : Str) : Prop :=
  ∀ x, r.excluded = some x → ∀ p, OnBoundary c p → ∃ b, containsExcluded x.eqc x.keywords x.lookAhead c p = Res.ok b

/-- `l` lists the matches `P` from left to right: repeatedly the first one which starts at or after the end
of the previous one (at first: at or after `from`). -/
inductive Leftmost (P : Nat → Nat → Prop) : Nat → List (Nat × Nat) → Prop
  | nil {start : Nat} : (∀ p e, start ≤ p → ¬ P p e) → Leftmost P start []
  | cons {start s e : Nat} {l : List (Nat × Nat)} :
      start ≤ s → P s e → (∀ p q, start ≤ p → p < s → ¬ P p q) → Leftmost P e l →
      Leftmost P start ((s, e) :: l)

/-- The keyword search of a rule returns occurrences (`occ`) at or after the given start, and finds one if
there is any.  The engine is asked for the *earliest* match: it may return the occurrence that ends first
instead of the one that starts first. -/
structure LawfulKw (k : IncKw) (occ : Str → Nat → Nat → Prop) : Prop where
  sound : ∀ c start s e, k.search c start = some (s, e) → start ≤ s ∧ occ c s e
  complete : ∀ c start s e, occ c s e → start ≤ s →
    ∃ s' e', k.search c start = some (s', e') ∧ (s' ≤ s ∨ e' ≤ e)
  range : ∀ c s e, occ c s e → s < e ∧ OnBoundary c s ∧ OnBoundary c e

/-- At most `n` characters between the offsets `s ≤ t`. -/
def Within (c : Str) (s t n : Nat) : Prop := ∃ m, TextAt c s t m ∧ m.length ≤ n

end Sds.Spec
