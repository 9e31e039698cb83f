import Verif.Model.Parser

/-! # Specification: accepted patterns -/

namespace Sds.Spec
open Sds.Re

mutual

/-- How deep the groups of an expression nest. -/
def nesting : Ast → Nat
  | .empty => 0
  | .literal _ => 0
  | .concat l => nestings l
  | .group _ inner => nesting inner + 1
  | .characterClass _ => 0
  | .alternation l => nestings l
  | .repetition _ inner => nesting inner
  | .assertion _ => 0
  | .flags _ => 0

/-- How deep the groups of several expressions nest. -/
def nestings : List Ast → Nat
  | [] => 0
  | a :: l => max (nesting a) (nestings l)

end

mutual

/-- The height of an expression: how deep a recursive function over it recurses. -/
def height : Ast → Nat
  | .empty => 1
  | .literal _ => 1
  | .concat l => heights l + 1
  | .group _ inner => height inner + 1
  | .characterClass _ => 1
  | .alternation l => heights l + 1
  | .repetition _ inner => height inner + 1
  | .assertion _ => 1
  | .flags _ => 1

/-- The height of the highest of several expressions. -/
def heights : List Ast → Nat
  | [] => 0
  | a :: l => max (height a) (heights l)

end

/-- The pattern is read as this expression if the nesting of groups is not limited, that is, with some limit. -/
def ReadAs (pattern : Str) (a : Ast) : Prop := ∃ limit, parseWith limit (limit + 1) pattern = .ok (.ok a)

end Sds.Spec
