import Verif.Spec.Meaning
import Verif.Model.RustSyntax

/-!
# Specification: expressions up to the bracketing of sequences, and conditions on patterns
-/

namespace Sds.Spec
open Sds.Re

/-- One expression for a sequence of expressions. -/
def joined : List Node → Node
  | [n] => n
  | l => .seq l

mutual

/-- The expressions of which a sequence consists, in order, however the sequence is bracketed. -/
def parts : Node → List Node
  | .eps => []
  | .set p => [.set p]
  | .look l => [.look l]
  | .seq l => partsAll l
  | .alt l => [.alt (joinedEach l)]
  | .rep lo hi greedy n => [.rep lo hi greedy (joined (parts n))]
  | .capture name n => [.capture name (joined (parts n))]

/-- The parts of several expressions. -/
def partsAll : List Node → List Node
  | [] => []
  | n :: l => parts n ++ partsAll l

/-- Each expression as its sequence of parts. -/
def joinedEach : List Node → List Node
  | [] => []
  | n :: l => joined (parts n) :: joinedEach l

end

/-- The expressions differ only in the bracketing of sequences. -/
def SameParts (n n' : Node) : Prop := parts n = parts n'

/-- Operands of quantifiers that stay one unit when they are printed: not empty, no flags, no quotation of several
characters, neither `$` nor `\Z`. -/
def OneUnit : Ast → Prop
  | .empty => False
  | .flags _ => False
  | .concat _ => False
  | .assertion k => k ≠ .endLine ∧ k ≠ .endTextOptionalNewline
  | _ => True

/-- Every quantifier of the expression has such an operand. -/
def RepeatsUnits (a : Ast) : Prop := ∀ q b, PartOf (.repetition q b) a → OneUnit b

/-- The pattern nowhere sets the flag `x`. -/
def NoIgnoreSpace (a : Ast) : Prop :=
  (∀ f, PartOf (.flags f) a → .ignoreWhitespace ∉ f.add) ∧
  ∀ f b, PartOf (.group (.nonCapturing f) b) a → .ignoreWhitespace ∉ f.add

/-- Whitespace under a quantifier is escaped ASCII whitespace. -/
def EscapedSpaces (a : Ast) : Prop :=
  ∀ q l, PartOf (.repetition q (.literal l)) a → isWs l.c = true → l.escaped = true ∧ l.c.toNat < 128

/-- Every flag expression `(?...)` sets or clears some flag. -/
def FlagsGiven (a : Ast) : Prop := ∀ f, PartOf (.flags f) a → f.add ≠ [] ∨ f.remove ≠ []

/-- Every range of a class is in order. -/
def OrderedRanges (a : Ast) : Prop :=
  ∀ negated items, PartOf (.characterClass (.bracket negated items)) a → ∀ x y, .range x y ∈ items → x ≤ y

mutual

/-- The names of the groups of a pattern, in order. -/
def groupNames : Ast → List Str
  | .group (.namedCapturing name) inner => name :: groupNames inner
  | .group _ inner => groupNames inner
  | .repetition _ inner => groupNames inner
  | .concat l => groupNamesAll l
  | .alternation l => groupNamesAll l
  | _ => []

/-- The names in several patterns. -/
def groupNamesAll : List Ast → List Str
  | [] => []
  | a :: l => groupNames a ++ groupNamesAll l

end

/-- No name is given to two groups. -/
def DistinctNames (a : Ast) : Prop := (groupNames a).Nodup

end Sds.Spec
