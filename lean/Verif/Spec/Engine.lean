import Verif.Spec.RustSyntax
import Verif.Spec.Search
import Verif.Model.PatternCheck

/-!
# Specification: what is expected of the regex engine, and patterns whose conversion keeps their meaning
-/

namespace Sds.Spec
open Sds.Re

/-- The expression can match the content at `s..e`. -/
def MatchesAt (T : Tables) (n : Node) (c : Str) (s e : Nat) : Prop :=
  ∃ before mid after, c = before ++ mid ++ after ∧ blen before = s ∧ blen before + blen mid = e ∧
    Spans T n before mid after

/-- How an engine chooses among the matches of an expression that start at a position (greedily, from left to right, or
otherwise): it gives one of them if there is one, and the choice does not depend on the bracketing of sequences. -/
structure Chooses (T : Tables) (pick : Node → Rx) : Prop where
  sound : ∀ n c s e, pick n c s = some e → MatchesAt T n c s e
  complete : ∀ n c s e, MatchesAt T n c s e → pick n c s ≠ none
  bracketing : ∀ n n', SameParts n n' → pick n = pick n'

/-- The engine builds from a text what the crate reads in it, or fails. -/
def Builds (T : Tables) (pick : Node → Rx) (build : Str → Nat → Except RegexErr Rx) : Prop :=
  ∀ text limit rx, build text limit = .ok rx → ∃ r, readRust text = some r ∧ rx = pick (rustMeaning T r rustDefaults).1

/-- The regex matches the empty text. -/
def matchesNothing (rx : Rx) : Bool := (rx [] 0).isSome

/-- The conditions of C68 and C71 under which the conversion of a pattern keeps its meaning, if the engine accepts it. -/
structure Convertible (a : Ast) : Prop where
  units : RepeatsUnits a
  spaces : NoIgnoreSpace a ∨ EscapedSpaces a
  ends : NoEndAssertion a
  ascii : AsciiSpaces a
  letters : NoLetterClass a ∨ NoIgnoreCase a

/-- No text is matched as the empty text. -/
def NeverEmpty (T : Tables) (n : Node) : Prop := ∀ before after, ¬ Spans T n before [] after

end Sds.Spec
