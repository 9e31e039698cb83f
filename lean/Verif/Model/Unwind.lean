import Verif.Model.Scan

/-! # The event after a scan that panics

`Scanner::scan` (sds/src/scanner/mod.rs 316-386) changes the event in place, so that a caller that catches a panic has the event
in the state in which the panic left it.  The functions follow `editAll` and `scan` of `Model/Scan.lean` and give the event
instead of the result.  A scan that does not end has no such event; the value given here for it means nothing. -/

namespace Sds

/-- The event after the loop over the collected matches (mod.rs 343-377).  `visit_string_mut` follows the path before it calls
the closure and changes nothing on the way (event_json.rs 39-61 and 75-83, simple_event.rs 52-66), so that the event is the
same if there is no string at the path.  If it is the closure that panics, the event is `spoilt e path`, which can be
anything. -/
def editAllLeft {E : Type} (impl : EventImpl E) (sc : Scanner) (excluded : List Str) (spoilt : E → Path → E) :
    List PathMatches → E → E
  | [], e => e
  | pm :: rest, e =>
    match impl.mutAt e pm.path (editLeaf sc impl.enc excluded pm) with
    | .ok (e', _) => editAllLeft impl sc excluded spoilt rest e'
    | _ =>
      match impl.mutAt e pm.path (fun c => Res.ok (c, [])) with
      | .ok _ => spoilt e pm.path
      | _ => e

/-- The event after `Scanner::scan` (mod.rs 316-386).  `visit_event` takes the event as mutable, but does not change it
(event_json.rs 10-37 and 67-73, simple_event.rs 19-50). -/
def scanLeft {E : Type} (impl : EventImpl E) (sc : Scanner) (spoilt : E → Path → E) (e : E) (blocked : List Nat) : E :=
  match visitCombinations (RuleSet.new (sc.rules.map (·.scope)) sc.wildcards) (impl.ops e) with
  | .ok vs =>
    match runVisits sc blocked vs [] with
    | .ok (l, excluded) => editAllLeft impl sc excluded spoilt l e
    | _ => e
  | _ => e

end Sds
