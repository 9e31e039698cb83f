import Verif.Model.KeywordRegex
import Verif.Spec.Engine
import Verif.Spec.Keywords

/-! # Specification: what the regexes of keywords match, and what is expected of their engine -/

namespace Sds.Spec
open Sds.Re

/-- The flags at the beginning of a keyword regex: the default `u`, and `case_insensitive(true)` (proximity_keywords/mod.rs 230). -/
def keywordFlags : RFlagState := fun f => f = .unicode || f = .caseInsensitive

/-- The texts agree character by character, up to case. -/
inductive Variant (T : Tables) : Str → Str → Prop
  | nil : Variant T [] []
  | cons {k c : Char} {ks cs : Str} : T.same k c → Variant T ks cs → Variant T (k :: ks) (c :: cs)

/-- The word `lits` is written, up to case, as `mid` between `before` and `after`; if the keyword `kw` begins or ends with an
ASCII letter or digit, there is an ASCII word boundary at this end. -/
def Written (T : Tables) (kw lits before mid after : Str) : Prop :=
  Variant T lits mid ∧
  (∀ k, kw.head? = some k → AsciiAlnum k → Boundary AsciiWordChar before (mid ++ after)) ∧
  (∀ k, kw.getLast? = some k → AsciiAlnum k → Boundary AsciiWordChar (before ++ mid) after)

/-- The comparison of characters is that of the tables. -/
def Folds (T : Tables) (eqc : Char → Char → Bool) : Prop := ∀ a b, eqc a b = true ↔ T.same a b

/-- What the engine does with the text of a keyword regex: it builds a regex of every text that the crate reads (there is no
size limit, proximity_keywords/mod.rs 226), and a search for the earliest match from a start on finds a match of what was read if
there is one; it may find the one that ends first instead of the one that starts first. -/
def SearchesText (T : Tables) (engine : Str → Option (Str → Nat → Option (Nat × Nat))) : Prop :=
  ∀ text r, readRust text = some r → ∃ search, engine text = some search ∧
    (∀ c start s e, search c start = some (s, e) → start ≤ s ∧ MatchesAt T (rustMeaning T r keywordFlags).1 c s e) ∧
    (∀ c start s e, MatchesAt T (rustMeaning T r keywordFlags).1 c s e → start ≤ s →
      ∃ s' e', search c start = some (s', e') ∧ (s' ≤ s ∨ e' ≤ e))

end Sds.Spec
