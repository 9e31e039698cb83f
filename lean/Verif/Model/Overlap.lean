import Verif.Model.Action

/-! # Conflict resolution between matches of one string

Model of `Scanner::sort_and_remove_overlapping_rules` (sds/src/scanner/mod.rs 541-600). -/

namespace Sds

/-- `InternalRuleMatch` (rule_match.rs 40-55) without the custom indices, which are a function of the byte
offsets and the content (see `Enc` in `Model/Apply.lean`). -/
structure M where
  rule : Nat
  st : Nat
  en : Nat
deriving DecidableEq, Repr

/-- `InternalRuleMatch::len` (rule_match.rs 57-61); ranges come from regex matches, `st ≤ en`. -/
def M.len (m : M) : Nat := m.en - m.st

/-- The order in which candidates are processed: the comparison closure of mod.rs 548-567 before the final
`reverse` (the vector is sorted in reverse and popped off the back).  `mu` is `is_mutating` of the rule. -/
def prioLe (mu : Nat → Bool) (a b : M) : Bool :=
  if mu a.rule != mu b.rule then mu a.rule
  else if a.st != b.st then a.st < b.st
  else if a.len != b.len then a.len > b.len
  else a.rule ≤ b.rule

/-- Whether a popped candidate is kept (mod.rs 571-592).  `acc` is `retained_rules` reversed (its head is
`retained_rules.last()`). -/
def keepMatch (mu : Nat → Bool) (acc : List M) (m : M) : Bool :=
  if mu m.rule then
    match acc with
    | [] => true
    | last :: _ => !(decide (last.en > m.st))
  else
    acc.all fun r => !(decide (r.st < m.en) && decide (r.en > m.st))

/-- The loop of mod.rs 571-594; returns `retained_rules` reversed. -/
def retainLoop (mu : Nat → Bool) : List M → List M → List M
  | acc, [] => acc
  | acc, m :: ms =>
    if keepMatch mu acc m then retainLoop mu (m :: acc) ms else retainLoop mu acc ms

/-- `sort_unstable_by_key(utf8_start)` comparison (mod.rs 597). -/
def startLe (a b : M) : Bool := a.st ≤ b.st

/-- `sort_and_remove_overlapping_rules` (mod.rs 541-600).  `sortPrio` and `sortStart` are the two unstable
sorts; what they do on ties is unspecified, so they are parameters. -/
def resolveWith (sortPrio sortStart : List M → List M) (mu : Nat → Bool) (ms : List M) : List M :=
  sortStart (retainLoop mu [] (sortPrio ms)).reverse

/-- Insertion into a sorted list. -/
def insertBy {α : Type} (le : α → α → Bool) (a : α) : List α → List α
  | [] => [a]
  | b :: l => if le a b then a :: b :: l else b :: insertBy le a l

/-- Insertion sort (stable), the canonical sorting algorithm of the model. -/
def sortBy {α : Type} (le : α → α → Bool) : List α → List α
  | [] => []
  | a :: l => insertBy le a (sortBy le l)

/-- The instance with insertion sort used by the rest of the model; `C03` shows the choice is
irrelevant. -/
def resolve (mu : Nat → Bool) (ms : List M) : List M :=
  resolveWith (sortBy (prioLe mu)) (sortBy startLe) mu ms

end Sds
