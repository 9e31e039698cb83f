import Verif.Spec.Scan

/-! # Specification: undoing the redactions of a scan with its reports -/

namespace Sds.Spec

/-- The text cut after `n` code units. -/
def cutUnits (units : Str → Nat) : Nat → Str → Str × Str
  | _, [] => ([], [])
  | n, c :: cs =>
    if n = 0 then ([], c :: cs)
    else (c :: (cutUnits units (n - units [c]) cs).1, (cutUnits units (n - units [c]) cs).2)

/-- The text with every reported range replaced by the returned value.  The text starts at index `pos`. -/
def undo (units : Str → Nat) : Nat → Str → List RuleMatch → Str
  | _, s, [] => s
  | pos, s, o :: os =>
    let gap := cutUnits units (o.start - pos) s
    let new := cutUnits units (o.stop - o.start) gap.2
    gap.1 ++ o.value.getD [] ++ undo units o.stop new.2 os

/-- The reports for the string at a path. -/
def reportsAt (os : List RuleMatch) (p : Path) : List RuleMatch := os.filter fun o => decide (o.path = p)

end Sds.Spec
