import Verif.Model.GoErrors
import Verif.Spec.Builder

/-! # What callers of the Go package should be told -/

namespace Sds.Spec

open Sds

/-- The text a panic carries, if any. -/
inductive Carries : Payload → Str → Prop where
  | str (s) : Carries (.str s) s
  | string (s) : Carries (.string s) s

/-- A text is the text of a Go error. -/
def Says (b : Bytes) (s : String) : Prop := b = utf8 s.toList

/-- The complaint about a rule: its regex, else its action, else its keywords. -/
inductive Complaint {V : Type} (regexOf : Str → Except RegexErr V) (r : RuleCfg) : String → Prop where
  | regex {e} : regexOf r.pattern = .error e → Complaint regexOf r "invalid regex"
  | action {v} : regexOf r.pattern = .ok v → BadAction r.action → Complaint regexOf r "invalid match action"
  | keywords {v c} : regexOf r.pattern = .ok v → ¬ BadAction r.action → r.keywords = some c → ¬ WellFormed c →
      Complaint regexOf r "invalid keywords"

end Sds.Spec
