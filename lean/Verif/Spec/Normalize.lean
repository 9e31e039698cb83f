import Verif.Model.Normalize
import Verif.Spec.Parser

/-! # Specification: quantifier limit and inline flags -/

namespace Sds.Spec
open Sds.Re

/-- `PartOf a b`: the expression `a` is part of the expression `b`, at any depth. -/
inductive PartOf : Ast → Ast → Prop where
  | self (a : Ast) : PartOf a a
  | concat {a b : Ast} {l : List Ast} (hb : b ∈ l) (h : PartOf a b) : PartOf a (.concat l)
  | alternation {a b : Ast} {l : List Ast} (hb : b ∈ l) (h : PartOf a b) : PartOf a (.alternation l)
  | group {a b : Ast} {k : GroupKind} (h : PartOf a b) : PartOf a (.group k b)
  | repetition {a b : Ast} {q : Quantifier} (h : PartOf a b) : PartOf a (.repetition q b)

/-- The numbers written in a quantifier. -/
def counts : QuantifierKind → List Nat
  | .rangeExact n => [n]
  | .rangeMinMax n m => [n, m]
  | .rangeMin n => [n]
  | _ => []

/-- Every number in a quantifier of the expression is at most 3000. -/
def SmallCounts (a : Ast) : Prop :=
  ∀ q inner, PartOf (.repetition q inner) a → ∀ n ∈ counts q.kind, n ≤ 3000

/-- Every range `{n,m}` of the expression is ordered. -/
def OrderedCounts (a : Ast) : Prop :=
  ∀ q inner, PartOf (.repetition q inner) a → ∀ n m, q.kind = .rangeMinMax n m → n ≤ m

/-- Switch a flag. -/
def switch {α : Type} [DecidableEq α] (s : α → Bool) (f : α) (on : Bool) : α → Bool := fun x => if x = f then on else s x

/-- The flags in effect after an inline group of an SDS pattern: additions one after the other, then removals. -/
def flagsAfter (f : Flags) (s : Flag → Bool) : Flag → Bool :=
  f.remove.foldl (fun s x => switch s x false) (f.add.foldl (fun s x => switch s x true) s)

/-- The flags in effect after the items of a Rust flag group: in order, those after the negation are switched off. -/
def rustFlagsAfter : List RFlagsItem → Bool → (RFlag → Bool) → (RFlag → Bool)
  | [], _, s => s
  | .negation :: l, _, s => rustFlagsAfter l false s
  | .flag f :: l, on, s => rustFlagsAfter l on (switch s f on)

/-- The Rust counterpart of a flag, by the letters both syntaxes use. -/
def flagLetter : Flag → Char
  | .caseInsensitive => 'i'
  | .multiLine => 'm'
  | .dotMatchesNewLine => 's'
  | .ignoreWhitespace => 'x'

/-- The letters of the Rust flags. -/
def rustFlagLetter : RFlag → Char
  | .caseInsensitive => 'i'
  | .multiLine => 'm'
  | .dotMatchesNewLine => 's'
  | .unicode => 'u'
  | .ignoreWhitespace => 'x'

/-- What the Rust syntax asks of a flag group: no item twice (neither a flag nor the negation), and the negation is
not the last item. -/
def RustFlagsValid (items : List RFlagsItem) : Prop :=
  items.Nodup ∧ items.getLast? ≠ some .negation

end Sds.Spec
