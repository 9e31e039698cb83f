import Verif.Spec.Undo
import Verif.Spec.Prefer

/-! # Specification: texts scanned line by line

The lines of a text are separated by one character `sep`, for instance a newline. -/

namespace Sds.Spec
open Sds.Re

/-- What the rule finds in two texts with the separator between them is what it finds in each of them alone. -/
def FindsApart (sep : Char) (rule : CRule) : Prop :=
  ∀ x y path, ∃ f g h, rule.run x path false = Res.ok f ∧ rule.run y path false = Res.ok g ∧
    rule.run (x ++ [sep] ++ y) path false = Res.ok h ∧
    h.matches_ = f.matches_ ++ g.matches_.map fun m => (blen (x ++ [sep]) + m.1, blen (x ++ [sep]) + m.2)

/-- The regex matches in two texts with the separator between them what it matches in each of them alone. -/
structure MatchesApart (sep : Char) (rx : Rx) : Prop where
  first : ∀ x y s, s ≤ blen x → rx (x ++ [sep] ++ y) s = rx x s
  second : ∀ x y s, rx (x ++ [sep] ++ y) (blen (x ++ [sep]) + s) = (rx y s).map (blen (x ++ [sep]) + ·)

/-- Neither the separator nor the text beyond it decides whether the condition holds: word boundaries, if the separator is no word
character, and the beginning and the end of a line, if it is a newline. -/
def LooksAtLine (T : Tables) (sep : Char) : Look → Prop
  | .lineStart | .lineEnd => sep = '\n'
  | .asciiWord | .notAsciiWord => ¬ AsciiWordChar sep
  | .unicodeWord | .notUnicodeWord => ¬ T.wordChar sep
  | .textStart | .textEnd | .textEndOrLastNewline => False

/-- The expression does not match the separator and its conditions do not look beyond it. -/
inductive StaysInLine (T : Tables) (sep : Char) : Node → Prop
  | eps : StaysInLine T sep .eps
  | set (p : Char → Prop) : ¬ p sep → StaysInLine T sep (.set p)
  | look (l : Look) : LooksAtLine T sep l → StaysInLine T sep (.look l)
  | seq (l : List Node) : (∀ n ∈ l, StaysInLine T sep n) → StaysInLine T sep (.seq l)
  | alt (l : List Node) : (∀ n ∈ l, StaysInLine T sep n) → StaysInLine T sep (.alt l)
  | rep (lo : Nat) (hi : Option Nat) (greedy : Bool) (n : Node) : StaysInLine T sep n → StaysInLine T sep (.rep lo hi greedy n)
  | capture (name : Option Str) (n : Node) : StaysInLine T sep n → StaysInLine T sep (.capture name n)

/-- The report of a match that is `d` code units further on in the new text and `s` code units further from its old place. -/
def furtherOn (d : Nat) (s : Int) (o : RuleMatch) : RuleMatch :=
  { o with start := d + o.start, stop := d + o.stop, shift := s + o.shift }

/-- The text with these lines. -/
def ofLines (sep : Char) : List Str → Str
  | [] => []
  | [l] => l
  | l :: ls => l ++ [sep] ++ ofLines sep ls

end Sds.Spec
