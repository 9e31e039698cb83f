import Verif.Spec.Scan
import Verif.Spec.Validation

/-! # Specification: validating the matches of a scan -/

namespace Sds.Spec

/-- `types` are the validation types of the rules of the scanner, and match texts are returned iff `ret`. -/
structure TypesOf (sc : Scanner) (types : List (Option VType)) (ret : Bool) : Prop where
  len : types.length = sc.rules.length
  flags : ∀ i t, types[i]? = some t → ((infoOf sc i).hasValidation = true ↔ t ≠ none)
  returns : sc.returnMatches = ret

/-- The report `b` is about the text `u` of the string `l`, where its rule has a match. -/
def FoundAs (sc : Scanner) (blocked : List Nat) (leaves : List Leaf) (b : RuleMatch) (l : Leaf) (u : Str) : Prop :=
  b.path = l.path ∧ b.value = some u ∧ ∃ before after, l.text = before ++ u ++ after ∧
    Kept sc blocked leaves l.path l.text ⟨b.rule, blen before, blen before + blen u⟩

/-- Printable ASCII. -/
def Printable (s : Str) : Prop := ∀ c ∈ s, 32 ≤ c.toNat ∧ c.toNat < 127

/-- The signature of an AWS request contains the id and otherwise only printable characters: as the value of a header it
is accepted if the id is printable, and refused if the id has a line break (`HeaderValue` of the `http` crate). -/
structure SignsPrintable (net : Net) : Prop where
  printable : ∀ r, Printable r.id → net.signable r = true
  lineBreak : ∀ r, '\n' ∈ r.id → net.signable r = false

/-- Equal requests get equal replies. -/
structure Steady (net : Net) : Prop where
  http : ∀ i i' r, net.http i r = net.http i' r
  aws : ∀ i j i' j' r, net.aws i j r = net.aws i' j' r

/-- The endpoint accepts an id with the secret in a text. -/
def Accepts (net : Net) (cfg : AwsConfig) (id text : Str) : Prop :=
  ∃ code, net.aws 0 0 ⟨cfg, id, net.secretOf text⟩ = .response code ∧ 200 ≤ code ∧ code < 300

end Sds.Spec
