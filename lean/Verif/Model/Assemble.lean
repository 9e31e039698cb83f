import Verif.Model.PatternCheck
import Verif.Model.GoRule
import Verif.Model.Validators
import Verif.Model.Codec

/-! # From configurations to scanners

Puts the models of the parts together: what `ScannerBuilder::build` makes of a list of rule configurations, and what
`CreateScanner` and `ScanEventsMap` of the Go package do with rules of the Go package. -/

namespace Sds

/-- The code outside of the library that a built scanner calls. -/
structure Outside where
  /-- `build_regex` (validation.rs 87-112) on the converted text -/
  build : Str → Nat → Except RegexErr Rx
  /-- case-insensitive comparison of characters in keyword regexes -/
  eqc : Char → Char → Bool
  /-- searching the content regex of required keywords with `earliest(true)` from a start on -/
  kwSearch : List Str → Str → Nat → Option (Nat × Nat)
  /-- `crc32fast::hash` -/
  crc : Str → Nat
  /-- base64 and JSON decoding of a segment of a JWT -/
  decode : Str → Option Json
  /-- the clock, which is not advanced here -/
  now : Int
  /-- `char::is_alphanumeric` -/
  alnum : Char → Bool
  /-- `parse::<Iban>().is_ok()` -/
  iban : Str → Bool
  /-- farmhash -/
  fp : Fingerprint

/-- `IbanChecker::is_valid_match` (iban_checker.rs 6-17). -/
def Outside.ibanValid (O : Outside) (t : Str) : Bool := O.iban (t.filter O.alnum)

/-- `SecondaryValidator::is_valid_match` (secondary_validation/mod.rs 41-59).  Two of the checks have `unwrap`s, which never
panic (C34, C35). -/
def Outside.valid (O : Outside) : RustValidator → Str → Bool
  | .luhnChecksum, t => luhnValid t
  | .chineseIdChecksum, t =>
    match chineseValid t with
    | .ok b => b
    | _ => false
  | .githubTokenChecksum, t =>
    match githubValid O.crc t with
    | .ok b => b
    | _ => false
  | .nhsCheckDigit, t => nhsValid t
  | .ibanChecker, t => O.ibanValid t
  | .nirChecksum, t => nirValid t
  | .jwtExpirationChecker, t => jwtValid O.decode O.now t

/-- `is_match("")`, as used in validation.rs 70. -/
def matchesEmptyText (rx : Rx) : Bool := (rx [] 0).isSome

/-- `get_memoized_regex` with `validate_and_create_regex` (regex_rule/config.rs 98), which returns what the latter returns
(C43) and never panics (C70). -/
def Outside.regexOf (O : Outside) (p : Str) : Except RegexErr Rx :=
  match validatePattern O.build matchesEmptyText p with
  | .ok r => r
  | _ => .error .invalidSyntax

/-- What building looks at in a configuration. -/
def RustRule.cfg (r : RustRule) : RuleCfg := ⟨r.pattern, r.action, r.keywords, r.validation⟩

/-- `look_ahead_character_count` of the compiled keywords (proximity_keywords/mod.rs 73-99). -/
def RustRule.lookAhead (r : RustRule) : Nat :=
  match r.keywords with
  | some k => k.lookAhead
  | none => 0

/-- The compiled rule (regex_rule/config.rs 109-125): what was compiled, and what is cloned from the configuration. -/
def Outside.rule (O : Outside) (kwPaths : Bool) (b : BuiltRule Rx) (r : RustRule) : CRule :=
  RegexRule.toCRule
    ⟨b.regex, r.validator.map O.valid,
      b.included.map fun kws => ⟨r.lookAhead, O.kwSearch kws, keywordInPath O.eqc kws⟩,
      b.excluded.map fun kws => ⟨O.eqc, r.lookAhead, kws⟩⟩
    ⟨b.action, b.vtype.isSome⟩ r.scope kwPaths (fun c => blen c + 1)

/-- `ScannerFeatures` (scanner/mod.rs 277-294) without `return_matches`, which the builder sets. -/
structure Features where
  keywordPaths : Bool := false
  wildcards : Bool := false
  multipass : Bool := true

/-- `ScannerBuilder::build` (scanner/mod.rs 650-715). -/
def Outside.scanner (O : Outside) (f : Features) (rules : List RustRule) : Except CreateErr Scanner :=
  match buildScanner O.regexOf (rules.map RustRule.cfg) with
  | .error e => .error e
  | .ok b => .ok ⟨List.zipWith (O.rule f.keywordPaths) b.rules rules, f.wildcards, f.multipass, b.returnMatches, O.fp⟩

/-- `CreateRule` of every rule (scanner.go 60-67): the first error ends it. -/
def goCreateRules (D : Dates) : List GoRule → Option (List RustRule)
  | [] => some []
  | g :: gs =>
    match goCreateRule D g with
    | none => none
    | some r =>
      match goCreateRules D gs with
      | none => none
      | some rs => some (r :: rs)

/-- `CreateScanner` (scanner.go 56-103) with create_scanner.rs 16-22: all features are the default ones; `none` is an error.
(The handles in between are in `Ffi`.) -/
def goScanner (O : Outside) (D : Dates) (gs : List GoRule) : Option Scanner :=
  match goCreateRules D gs with
  | none => none
  | some rs =>
    match O.scanner {} rs with
    | .error _ => none
    | .ok sc => some sc

/-- `CreateScanner` and then `ScanEventsMap`. -/
def goRun (O : Outside) (D : Dates) (gs : List GoRule) (ev : GoFields) : Res (Option (GoVal × GoResult)) :=
  match goScanner O D gs with
  | none => .ok none
  | some sc => scanEventsMap sc ev

end Sds
