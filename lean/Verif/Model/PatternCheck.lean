import Verif.Model.Builder
import Verif.Model.Normalize

/-! # Regex validation from the text of the pattern

`validation.rs` on top of the parser and the conversion; the regex engine stays a parameter. -/

namespace Sds

/-- `From<ParseError> for RegexValidationError` (validation.rs 24-32). -/
def RegexErr.ofParse : Re.PErr → RegexErr
  | .invalidSyntax => .invalidSyntax
  | .exceededDepthLimit => .exceededDepthLimit
  | .exceededQuantifierLimit => .exceededQuantifierLimit

/-- `convert_to_rust_regex(input)?` (validation.rs 66). -/
def convertPattern (input : Str) : Res (Except RegexErr Str) :=
  match Re.convertToRustRegex input with
  | .ok (.ok p) => .ok (.ok p)
  | .ok (.error e) => .ok (.error (.ofParse e))
  | .panic => .panic
  | .hang => .hang

/-- `validate_and_create_regex` (validation.rs 64-72); `build` is `build_regex` (87-112), `matchesEmpty` is
`is_match("")`. -/
def validatePattern {V : Type} (build : Str → Nat → Except RegexErr V) (matchesEmpty : V → Bool) (input : Str) :
    Res (Except RegexErr V) :=
  match convertPattern input with
  | .ok (.ok p) =>
    match build p complexityLimit with
    | .error e => .ok (.error e)
    | .ok v => if matchesEmpty v then .ok (.error .matchesEmptyString) else .ok (.ok v)
  | .ok (.error e) => .ok (.error e)
  | .panic => .panic
  | .hang => .hang

/-- `validate_regex` (validation.rs 37-41). -/
def validateRegex {V : Type} (build : Str → Nat → Except RegexErr V) (matchesEmpty : V → Bool) (input : Str) :
    Res (Except RegexErr Unit) :=
  match validatePattern build matchesEmpty input with
  | .ok (.ok _) => .ok (.ok ())
  | .ok (.error e) => .ok (.error e)
  | .panic => .panic
  | .hang => .hang

end Sds
