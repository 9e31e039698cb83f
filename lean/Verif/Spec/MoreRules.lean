import Verif.Spec.RuleOrder

/-! # Specification: a scanner with one more rule -/

namespace Sds.Spec

/-- The same of the old rules are blocked; the new rule can be blocked or not. -/
def SameOldBlocked (sc : Scanner) (blocked blocked' : List Nat) : Prop :=
  ∀ r, r < sc.rules.length → (r ∈ blocked' ↔ r ∈ blocked)

/-- The new rule adds nothing to the texts that the multi-pass heuristic remembers. -/
def AddsNoText (sc : Scanner) (rule : CRule) (blocked' : List Nat) (leaves : List Leaf) : Prop :=
  sc.multipassEnabled = true → sc.rules.length ∈ blocked' ∨ RecordsNothing sc.wildcards rule leaves

/-- In the string, no match of the new rule overlaps one of another rule. -/
def StandsAlone (sc : Scanner) (rule : CRule) (blocked' : List Nat) (leaves : List Leaf) (l : Leaf) : Prop :=
  ∀ m m', Kept (withRule sc rule) blocked' leaves l.path l.text m → Kept (withRule sc rule) blocked' leaves l.path l.text m' →
    m.rule = sc.rules.length → m'.rule ≠ sc.rules.length → ¬ Overlap m m'

/-- The matches of the new rule, those that overlap them, those that overlap these, and so on. -/
inductive Reached (new : Nat) (kept : M → Prop) : M → Prop
  | start (m : M) : kept m → m.rule = new → Reached new kept m
  | step (a b : M) : Reached new kept a → kept b → Overlap a b → Reached new kept b

/-- The results of a string without (`os`, `new`) and with (`os'`, `new'`) the new rule: the string is cut in the same way, and
the only difference is that the matches of the new rule are left as they are and not reported. -/
def OnlyAdded (enc : Enc) (sc : Scanner) (rule : CRule) (blocked' : List Nat) (leaves : List Leaf) (l : Leaf)
    (os os' : List RuleMatch) (new new' : Str) : Prop :=
  let n := sc.rules.length
  let info := infoOf (withRule sc rule)
  let f := fun (r : Nat) (t : Str) => redacted sc.fp (info r).action t
  let f0 := fun (r : Nat) (t : Str) => if r = n then t else f r t
  ∃ (ps : List Piece) (tail : Str), l.text = input ps tail ∧
    new' = output f ps tail ∧ os' = reports enc.units info f sc.returnMatches l.path [] [] ps ∧
    new = output f0 ps tail ∧
    os = (reports enc.units info f0 sc.returnMatches l.path [] [] ps).filter (fun o => decide (o.rule ≠ n)) ∧
    (∀ m ∈ ranges 0 ps, Kept (withRule sc rule) blocked' leaves l.path l.text m) ∧
    (∀ m, Kept (withRule sc rule) blocked' leaves l.path l.text m → m.rule = n →
      m ∈ ranges 0 ps ∨ ∃ r ∈ ranges 0 ps, r.rule = n ∧ Overlap r m)

/-- The string is cut at the ranges `rs`, which are rewritten and reported as the scanner says. -/
def RewrittenAt (enc : Enc) (sc : Scanner) (l : Leaf) (rs : List M) (os : List RuleMatch) (new : Str) : Prop :=
  ∃ (ps : List Piece) (tail : Str), l.text = input ps tail ∧ rs = ranges 0 ps ∧
    os = reports enc.units (infoOf sc) (fun r t => redacted sc.fp (infoOf sc r).action t) sc.returnMatches l.path [] [] ps ∧
    new = output (fun r t => redacted sc.fp (infoOf sc r).action t) ps tail

end Sds.Spec
