import Verif.Spec.Assemble
import Verif.Spec.Near
import Verif.Spec.Scan
import Verif.Spec.Codec

/-! # Specification: what rules of the Go package do to an event of the Go package -/

namespace Sds.Spec
open Sds.Re

/-- The rule with the pattern `a` is to find the matches `found` in the text `c`, from left to right: those that its
configuration asks for; if it has required keywords, those of them that follow a keyword closely (see C85). -/
def Finds (T : Tables) (O : Outside) (r : RustRule) (a : Ast) (c : Str) (found : List (Nat × Nat)) : Prop :=
  (¬ Requires r ∧ Leftmost (Asked T O r a c) 0 found) ∨
  ∃ k l, r.keywords = some k ∧ k.included ≠ [] ∧ Leftmost (AskedNear T O r a c) 0 l ∧
    Near (KeywordAt O k.included c) (fun s p => Within c s p k.lookAhead) 0 l found

/-- In the text `c`, no required keyword overlaps a match of the rule; without required keywords, the check of excluded ones
does not panic. -/
structure Regular (T : Tables) (O : Outside) (r : RustRule) (a : Ast) (c : Str) : Prop where
  excluded : ¬ Requires r → ExcludedSafe r c
  apart : ∀ k, r.keywords = some k → ∀ s e p q, KeywordAt O k.included c s e → AskedNear T O r a c p q → e ≤ p ∨ q ≤ s

/-- The action of rule number `i`. -/
def actionAt (rs : List (RustRule × Ast)) (i : Nat) : Action :=
  match rs[i]? with
  | some x => x.1.action
  | none => .none

/-- The pieces into which the text is to be cut: the matches that remain of those that the rules are to find. -/
structure Cut (T : Tables) (O : Outside) (rs : List (RustRule × Ast)) (c : Str) (ps : List Piece) (tail : Str) : Prop where
  text : c = input ps tail
  resolved : ∃ (found : Nat → List (Nat × Nat)) (ks : List M), (∀ (i : Nat) x, rs[i]? = some x → Finds T O x.1 x.2 c (found i)) ∧
    (∀ m, m ∈ ks ↔ m.rule < rs.length ∧ (m.st, m.en) ∈ found m.rule) ∧
    IsResolution (fun i => decide (actionAt rs i ≠ .none)) ks (ranges 0 ps)

/-- The text after the actions. -/
def rewritten (O : Outside) (rs : List (RustRule × Ast)) (ps : List Piece) (tail : Str) : Str :=
  output (fun i t => redacted O.fp (actionAt rs i) t) ps tail

/-- The match that Go is to receive for one of the pieces of the string at the path `p`. -/
def Reported (O : Outside) (rs : List (RustRule × Ast)) (p : Path) (ps : List Piece) (m : GoMatch) : Prop :=
  ∃ before q after, ps = before ++ q :: after ∧ m.rule = q.rule ∧ m.path = utf8 (displayPath p) ∧
    m.rtype = kindOf (actionAt rs q.rule) ∧ m.start = blen (rewritten O rs before q.gap) ∧
    m.stop = blen (rewritten O rs (before ++ [q]) []) ∧
    m.shift = (blen (rewritten O rs (before ++ [q]) []) : Int) - blen (input (before ++ [q]) [])

/-- Bytes needed for a path in a response. -/
def pathCost : Path → Nat
  | [] => 0
  | .field f :: rest => 5 + blen f + pathCost rest
  | .index _ :: rest => 5 + pathCost rest

/-- Bytes that suffice for a string in a response, if its new text has at most `size` bytes. -/
def stringCost (size : Nat) (l : Leaf) : Nat :=
  6 + pathCost l.path + size + (blen l.text + 1) * (42 + blen (displayPath l.path))

/-- The text that follows `before`, with `value` in place of every match that a search from left to right finds in it. -/
inductive ReplacedAll (T : Tables) (n : Node) (value : Str) : Str → Str → Str → Prop
  | done {before rest : Str} : (∀ s e, blen before ≤ s → ¬ Preferred T n (before ++ rest) s e) →
      ReplacedAll T n value before rest rest
  | next {before gap text rest new : Str} :
      Preferred T n (before ++ (gap ++ text ++ rest)) (blen (before ++ gap)) (blen (before ++ gap ++ text)) →
      (∀ s e, blen before ≤ s → s < blen (before ++ gap) → ¬ Preferred T n (before ++ (gap ++ text ++ rest)) s e) →
      ReplacedAll T n value (before ++ gap ++ text) rest new →
      ReplacedAll T n value before (gap ++ text ++ rest) (gap ++ value ++ new)

end Sds.Spec
