import Verif.Model.Assemble
import Verif.Model.JsonText
import Verif.Model.Goroutines

/-! # Programs that use the Go package

The goroutines of `Goroutines` with what really crosses the interface: the JSON texts of rules in C memory, encoded events and
encoded responses, and the library of `Assemble` behind it. -/

namespace Sds

/-- What a goroutine does with the package.  Beside each rule stands what follows its C string in memory. -/
inductive GoUse where
  | create (x : Nat) (rules : List (GoRule × Bytes))
  | scanMap (x : Nat) (ev : GoFields) (reads : Nat)
  | scanText (x : Nat) (text : Bytes) (reads : Nat)
  | delete (x : Nat)

/-- The library behind the native interface: create_scanner.rs 16-26 and scan.rs 23-50.  A scan that never ends has no result
here; nothing is claimed of it. -/
def Outside.lib (O : Outside) : Lib RustRule Scanner Bytes Bytes where
  build rs :=
    match O.scanner {} rs with
    | .ok sc => .ok sc
    | .error e => .error e.code
  scan sc bytes :=
    match scanBinary sc bytes with
    | .ok (st, ms) =>
      match encodeResponse st ms with
      | some b => .data b
      | none => .nothing
    | .panic => .panic
    | .hang => .panic

/-- What `create_regex_rule` reads of a rule (regex_rule.go 115-132, native/rule.rs 10-26): `none` is an error.  `short`: the
form in which encoding/json writes backspace and form feed, see `JsonText`. -/
def GoRule.sent (D : Dates) (short : Bool) (r : GoRule × Bytes) : Option RustRule :=
  createRegexRule D (cString (r.1.doc.text short) r.2)

/-- The native side of a use: an event that cannot be encoded does not reach it (scanner.go 171-203). -/
def GoUse.op (D : Dates) (short : Bool) : GoUse → Option (GoOp RustRule Bytes)
  | .create x rules => some (.create x (rules.map (GoRule.sent D short)))
  | .scanMap x ev reads => ev.encode.map fun bytes => .scan x bytes reads
  | .scanText x text reads => some (.scan x (goEncodeString text) reads)
  | .delete x => some (.delete x)

/-- The operations of a goroutine. -/
def goOps (D : Dates) (short : Bool) (uses : List GoUse) : List (GoOp RustRule Bytes) := uses.filterMap (GoUse.op D short)

/-- The copy of the response (scanner.go 127-135): `none` is an error. -/
def goResponse : GoScanned Bytes → Res (Option Bytes)
  | .failed => .ok none
  | .nothing => .ok (some [])
  | .data b => (goBytes b).map some

/-- What `ScanEventsMap` does after `lowLevelScan` (scanner.go 138-152). -/
def finishMap (ev : GoFields) (r : GoScanned Bytes) : Res (Option (GoVal × GoResult)) :=
  match goResponse r with
  | .panic => .panic
  | .hang => .hang
  | .ok none => .ok none
  | .ok (some response) => decodeMap response (.map ev)

/-- What `Scan` does after `lowLevelScan` (scanner.go 154-192). -/
def finishText (text : Bytes) (r : GoScanned Bytes) : Res (Option GoResult) :=
  match goResponse r with
  | .panic => .panic
  | .hang => .hang
  | .ok none => .ok none
  | .ok (some response) =>
    match decodeResponse response with
    | .ok (some r) => .ok (some (if r.mutated then r else { r with event := text }))
    | .ok none => .ok none
    | .panic => .panic
    | .hang => .hang

end Sds
