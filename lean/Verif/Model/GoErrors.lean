import Verif.Model.Assemble
import Verif.Model.JsonText

/-! # How failures are reported to callers of the Go package

Model of sds-go/rust/src/native/mod.rs and of the error branches of scan.rs, create_scanner.rs, rule.rs, scanner.go and
regex_rule.go.  A Go error is represented by the bytes of its text. -/

namespace Sds

/-- What a panic carries (`Box<dyn Any + Send>`). -/
inductive Payload where
  | str (s : Str)
  | string (s : Str)
  | other
deriving DecidableEq, Repr

/-- The text used when nothing else is known (native/mod.rs 35, 71; scan.rs 57). -/
def noInformation : Str := "Rust panicked. No more information is available.".toList

/-- `convert_panic_to_go_error` (native/mod.rs 62-76): the `message` of the `GoError`. -/
def Payload.message : Payload → Str
  | .str s => s
  | .string s => s
  | .other => noInformation

/-- `CString::new`: `None` if there is a zero, else the bytes with a zero appended. -/
def cStringNew (s : Str) : Option Bytes := if 0 ∈ utf8 s then none else some (utf8 s ++ [0])

/-- `handle_go_error` (native/mod.rs 29-43), and the same in scan.rs 54-63: the memory `error_out` is made to point to. -/
def errorMemory (message : Str) : Bytes := (cStringNew message).getD (utf8 noInformation ++ [0])

/-- `CString::from_raw` in `free_string` (scan.rs 83-87): the size of the allocation it assumes, found by `strlen`. -/
def fromRawSize (memory : Bytes) : Nat := (cStr memory).length + 1

/-- The error of `lowLevelScan` (scanner.go 118-121); `C.GoString` reads up to the first zero. -/
def goScanError (errorString : Option Bytes) : Option Bytes :=
  errorString.map fun m => utf8 "internal panic: ".toList ++ cStr m

/-- What `scan` (scan.rs 12-69) stores in `error_out`: nothing unless it panicked. -/
def scanErrorOut : Option Payload → Option Bytes
  | none => none
  | some p => some (errorMemory p.message)

/-- What can happen inside of `create_scanner`. -/
inductive Creating where
  | scanner (address : Nat)
  | error (e : CreateErr)
  | panic (p : Payload)

/-- `create_scanner` (create_scanner.rs 10-36) with `handle_panic_ptr_return` (native/mod.rs 52-60): code and `error_out`. -/
def Creating.native : Creating → Int × Option Bytes
  | .scanner a => ((a : Int), none)
  | .error e => (e.code, none)
  | .panic p => (-5, some (errorMemory p.message))

/-- `CreateScanner` after the call (scanner.go 72-98). -/
def goCreateResult : Int × Option Bytes → Except Bytes Int
  | (id, errorString) =>
    if id < 0 then
      .error (if id = -1 then utf8 "unknown error".toList
        else if id = -2 then utf8 "invalid regex".toList
        else if id = -3 then utf8 "invalid keywords".toList
        else if id = -4 then utf8 "invalid match action".toList
        else if id = -5 then
          match errorString with
          | some m => utf8 "internal panic: ".toList ++ cStr m
          | none => utf8 "internal panic".toList
        else utf8 "unknown error".toList)
    else .ok id

/-- `create_regex_rule` (rule.rs 11-26), with `error_out` `None`: the address, or the code of a panic. -/
def ruleCode (address : Nat) : Option Payload → Int
  | none => (address : Int)
  | some _ => -5

/-- `CreateRule` after the call (regex_rule.go 125-131). -/
def goRuleResult (ptr : Int) : Except Bytes Int :=
  if ptr < 0 then .error (utf8 "Failed to create regex rule".toList) else .ok ptr

/-- `CreateScanner` (scanner.go 56-99), with its errors; `why`: the panic of `create_regex_rule` for a text it cannot read, `a`: the
address of the new scanner. -/
def goNewScanner (O : Outside) (D : Dates) (why : Payload) (a : Nat) (gs : List GoRule) : Except Bytes Int :=
  match goCreateRules D gs with
  | none => goRuleResult (ruleCode 0 (some why))
  | some rs =>
    match O.scanner {} rs with
    | .error e => goCreateResult (Creating.error e).native
    | .ok _ => goCreateResult (Creating.scanner a).native

end Sds
