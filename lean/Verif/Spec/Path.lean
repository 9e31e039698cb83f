import Verif.Model.Path

/-! # Specification: paths -/

namespace Sds.Spec

/-- `pre` is an initial part of `p`. -/
def InitialPart (pre p : Path) : Prop := ∃ rest, p = pre ++ rest

/-- A strict total order that is consistent with equality. -/
structure StrictOrder {α : Type} (lt : α → α → Prop) : Prop where
  irrefl : ∀ a, ¬ lt a a
  trans : ∀ a b c, lt a b → lt b c → lt a c
  total : ∀ a b, lt a b ∨ a = b ∨ lt b a

/-- Lexicographic comparison of byte strings. -/
def bytesLt : List Nat → List Nat → Prop
  | _, [] => False
  | [], _ :: _ => True
  | a :: as, b :: bs => a < b ∨ (a = b ∧ bytesLt as bs)

/-- No field name contains a dot or an opening bracket, and the first segment is not the empty field name. -/
def PlainPath (p : Path) : Prop :=
  (∀ f, Seg.field f ∈ p → '.' ∉ f ∧ '[' ∉ f) ∧ p.head? ≠ some (.field [])

end Sds.Spec
