import Verif.Model.Assemble
import Verif.Spec.Prefer
import Verif.Spec.Grammar
import Verif.Spec.Validators
import Verif.Spec.Search
import Verif.Spec.Keywords

/-! # Specification: what a configured rule is to find -/

namespace Sds.Spec
open Sds.Re

/-- The engine chooses leftmost-first in what the crate reads, and the search for keywords finds the first or the earliest
occurrence. -/
structure Faithful (T : Tables) (O : Outside) : Prop where
  engine : Builds T (firstTry T) O.build
  keywords : ∀ kws n inPath, kws ≠ [] → (∀ kw ∈ kws, kw ≠ []) →
    LawfulKw ⟨n, O.kwSearch kws, inPath⟩ (fun c s e => ∃ kw ∈ kws, kwMatchAt O.eqc kw c s = some e)

/-- The pattern of the rule is `a`, one for which the conversion is right, and matches no empty text. -/
structure Pattern (T : Tables) (r : RustRule) (a : Ast) : Prop where
  reads : Syntax.Denotes r.pattern a
  convertible : Convertible a
  neverEmpty : NeverEmpty T (meaning T a noFlags).1

/-- The rule has required keywords. -/
def Requires (r : RustRule) : Prop := ∃ k, r.keywords = some k ∧ k.included ≠ []

/-- The match `s..e` is one that the rule with the pattern `a` is to find, apart from required keywords: a backtracking search
for the pattern at `s` gives `e`, the validator accepts the text, and no excluded keyword is found in front. -/
def Asked (T : Tables) (O : Outside) (r : RustRule) (a : Ast) (c : Str) (s e : Nat) : Prop :=
  Preferred T (meaning T a noFlags).1 c s e ∧
  (∀ v, r.validator = some v → ∃ m, TextAt c s e m ∧ O.valid v m = true) ∧
  ∀ k, r.keywords = some k → k.excluded ≠ [] →
    containsExcluded O.eqc (k.excluded.map fun kw => (trim kw).filter fun c => c ≠ '-' ∧ c ≠ '_') k.lookAhead c s = Res.ok false

/-- The same for a rule with required keywords, which looks for no excluded ones. -/
def AskedNear (T : Tables) (O : Outside) (r : RustRule) (a : Ast) (c : Str) (s e : Nat) : Prop :=
  Preferred T (meaning T a noFlags).1 c s e ∧ ∀ v, r.validator = some v → ∃ m, TextAt c s e m ∧ O.valid v m = true

/-- One of the keywords, without white space around it, occurs at `s..e`. -/
def KeywordAt (O : Outside) (kws : List Str) (c : Str) (s e : Nat) : Prop :=
  ∃ kw ∈ kws, kwMatchAt O.eqc (trim kw) c s = some e

/-- The check of excluded keywords of the rule does not panic in the string `c`: never is what remains, without `-` and `_`, of
a whole window and one character more in front of a place and of the character at the place a single character of more than
one byte (C27). -/
def ExcludedSafe (r : RustRule) (c : Str) : Prop :=
  ∀ k, r.keywords = some k → k.excluded ≠ [] → ∀ pre post, c = pre ++ post → k.lookAhead < pre.length →
    ∀ x, ignoring (pre.drop (pre.length - (k.lookAhead + 1)) ++ post.take 1) = [x] → x.utf8Size = 1

/-- What the validators accept (see C31-C36). -/
def ValidText (O : Outside) : RustValidator → Str → Prop
  | .luhnChecksum, t => ∃ ds, Digits t ds ∧ ds ≠ [] ∧ luhnSum ds % 10 = 0
  | .chineseIdChecksum, t => ∃ ds, ChineseId t ds ∧ base2 ds % 11 = 1
  | .githubTokenChecksum, t => ∃ pre payload check, t = pre ++ '_' :: (payload ++ check) ∧
      (∀ c ∈ payload ++ check, AlphaNum c) ∧ payload ≠ [] ∧ check.length = 6 ∧
      Base62 check (O.crc payload)
  | .nhsCheckDigit, t => ∃ ds, Digits t ds ∧ NhsNumber ds
  | .ibanChecker, t => ∃ u, u.Sublist t ∧ (∀ c ∈ u, O.alnum c = true) ∧ (∀ c, O.alnum c = true → u.count c = t.count c) ∧
      O.iban u = true
  | .nirChecksum, t => ∃ ds a k, Digits t ds ∧ ds = a ++ k ∧ a.length = 13 ∧ k.length = 2 ∧ number k = 97 - number a % 97
  | .jwtExpirationChecker, t => ∃ h p s hj pj, t = h ++ '.' :: (p ++ '.' :: s) ∧ '.' ∉ h ∧ '.' ∉ p ∧ '.' ∉ s ∧
      O.decode h = some hj ∧ O.decode p = some pj ∧
      ∀ v, FieldIs pj "exp".toList v → ∃ n : Int, v = .int n ∧ O.now < n

end Sds.Spec
