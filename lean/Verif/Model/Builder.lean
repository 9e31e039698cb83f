import Verif.Model.Keywords
import Verif.Model.Action
import Verif.Model.Validation

/-! # Building a scanner, its error codes, its statistics, and regex validation -/

namespace Sds

/-! ## Regex validation -/

/-- `RegexValidationError` (validation.rs 6-22). -/
inductive RegexErr where
  | invalidSyntax
  | exceededDepthLimit
  | tooComplex
  | matchesEmptyString
  | exceededQuantifierLimit
deriving DecidableEq, Repr

/-- `REGEX_COMPLEXITY_LIMIT` (validation.rs 34). -/
def complexityLimit : Nat := 1000000

/-- The regex library: `convert_to_rust_regex`, `build_regex` (validation.rs 87-112) with its size limit, and whether
a regex matches the empty text. -/
structure RegexLib (V : Type) where
  convert : Str → Except RegexErr Str
  build : Str → Nat → Except RegexErr V
  matchesEmpty : V → Bool

/-- `is_regex_within_complexity_limit` (validation.rs 74-85). -/
def RegexLib.within {V : Type} (lib : RegexLib V) (p : Str) (limit : Nat) : Except RegexErr Bool :=
  match lib.build p limit with
  | .ok _ => .ok true
  | .error .tooComplex => .ok false
  | .error e => .error e

/-- The loop of `get_regex_complexity_estimate_very_slow` (validation.rs 54-61). -/
def RegexLib.bisect {V : Type} (lib : RegexLib V) (p : Str) (low high : Nat) : Except RegexErr Nat :=
  if h : low < high then
    match lib.within p (low + (high - low) / 2) with
    | .error e => .error e
    | .ok true => bisect lib p low (low + (high - low) / 2)
    | .ok false => bisect lib p (low + (high - low) / 2 + 1) high
  else .ok low
termination_by high - low
decreasing_by
  · omega
  · omega

/-- `get_regex_complexity_estimate_very_slow` (validation.rs 43-63). -/
def RegexLib.estimate {V : Type} (lib : RegexLib V) (input : Str) : Except RegexErr Nat :=
  match lib.convert input with
  | .error e => .error e
  | .ok p => lib.bisect p 1 (10 * complexityLimit)

/-- `validate_and_create_regex` (validation.rs 64-72). -/
def RegexLib.validate {V : Type} (lib : RegexLib V) (input : Str) : Except RegexErr V :=
  match lib.convert input with
  | .error e => .error e
  | .ok p =>
    match lib.build p complexityLimit with
    | .error e => .error e
    | .ok v => if lib.matchesEmpty v then .error .matchesEmptyString else .ok v

/-! ## The builder -/

/-- `CreateScannerError` (scanner/error.rs 26-41). -/
inductive CreateErr where
  | invalidRegex (e : RegexErr)
  | invalidKeywords (e : KwError)
  | invalidMatchAction
  | invalidMatchValidator
deriving DecidableEq, Repr

/-- The parts of `RegexRuleConfig` (regex_rule/config.rs 16-26) that matter for building; scope, labels and secondary
validator are copied. -/
structure RuleCfg where
  pattern : Str
  action : Action
  keywords : Option KwConfig
  vtype : Option VType
deriving DecidableEq, Repr

/-- `RegexCompiledRule` as made by `convert_to_compiled_rule`. -/
structure BuiltRule (V : Type) where
  index : Nat
  regex : V
  action : Action
  included : Option (List Str)
  excluded : Option (List Str)
  vtype : Option VType
  itype : Option IType

/-- `convert_to_compiled_rule` (regex_rule/config.rs 93-126).  `regexOf` is `get_memoized_regex` with
`validate_and_create_regex` (see C43 for what the memo may change). -/
def RuleCfg.compile {V : Type} (regexOf : Str → Except RegexErr V) (r : RuleCfg) (index : Nat) :
    Except CreateErr (BuiltRule V) :=
  match regexOf r.pattern with
  | .error e => .error (.invalidRegex e)
  | .ok v =>
    if r.action.validate then
      match (match r.keywords with | none => Except.ok (none, none) | some c => compileConfig c) with
      | .error e => .error (.invalidKeywords e)
      | .ok (inc, exc) => .ok ⟨index, v, r.action, inc, exc, r.vtype, r.vtype.map VType.itype⟩
    else .error .invalidMatchAction

/-- `rules.iter().enumerate().map(..).collect::<Result<Vec<_>, _>>()` (scanner/mod.rs 675-682). -/
def compileRules {V : Type} (regexOf : Str → Except RegexErr V) : List RuleCfg → Nat → Except CreateErr (List (BuiltRule V))
  | [], _ => .ok []
  | r :: rs, i =>
    match r.compile regexOf i with
    | .error e => .error e
    | .ok b =>
      match compileRules regexOf rs (i + 1) with
      | .error e => .error e
      | .ok bs => .ok (b :: bs)

/-- `Scanner` (scanner/mod.rs 296-304): the parts the builder computes. -/
structure BuiltScanner (V : Type) where
  rules : List (BuiltRule V)
  validators : List (IType × Validator)
  returnMatches : Bool

/-- `ScannerBuilder::build` (scanner/mod.rs 650-715). -/
def buildScanner {V : Type} (regexOf : Str → Except RegexErr V) (rules : List RuleCfg) : Except CreateErr (BuiltScanner V) :=
  match buildValidators (rules.map (·.vtype)) [] false with
  | none => .error .invalidMatchValidator
  | some (vs, ret) =>
    match compileRules regexOf rules 0 with
    | .error e => .error e
    | .ok bs => .ok ⟨bs, vs, ret⟩

/-! ## Error codes -/

/-- `impl From<CreateScannerError> for i64` (scanner/error.rs 9-18). -/
def CreateErr.code : CreateErr → Int
  | .invalidRegex _ => -2
  | .invalidKeywords _ => -3
  | .invalidMatchAction => -4
  | .invalidMatchValidator => -5

/-- What can happen inside the native `create_scanner` (create_scanner.rs 10-36): a scanner at some address, an error,
or a panic. -/
inductive CreateOutcome where
  | scanner (address : Nat)
  | error (e : CreateErr)
  | panic (message : Str)
deriving DecidableEq, Repr

/-- `create_scanner` with `handle_panic_ptr_return` (native/mod.rs 12-13, 52-60): the code returned and the message
stored through `error_out`.  An address is below 2^63, so that the cast keeps it. -/
def CreateOutcome.native : CreateOutcome → Int × Option Str
  | .scanner a => ((a : Int), none)
  | .error e => (e.code, none)
  | .panic m => (-5, some m)

/-- The error values of the Go binding (scanner.go). -/
inductive GoErr where
  | unknown
  | invalidRegex
  | invalidKeywords
  | invalidMatchAction
  | panic (message : Option Str)
deriving DecidableEq, Repr

/-- The decoding in Go's `CreateScanner` (scanner.go 69-97). -/
def goCreate : Int × Option Str → Except GoErr Int
  | (id, msg) =>
    if id < 0 then
      .error (if id = -1 then .unknown
        else if id = -2 then .invalidRegex
        else if id = -3 then .invalidKeywords
        else if id = -4 then .invalidMatchAction
        else if id = -5 then .panic msg
        else .unknown)
    else .ok id

/-! ## Statistics -/

/-- Where a client is: `ScannerBuilder::build` (scanner/mod.rs 699-704) and `Drop for Scanner` (603-609), with
`update_total_scanners` (stats.rs 45-50) as two steps. -/
inductive StatPc where
  /-- `build` has not reached the statistics -/
  | building
  /-- line 703, `fetch_add` returned this -/
  | counted (prev : Int)
  /-- `build` returned a scanner -/
  | alive
  /-- line 607, `fetch_add` returned this -/
  | uncounted (prev : Int)
  /-- dropped, or `build` returned an error -/
  | gone
deriving DecidableEq, Repr

structure StatWorld where
  creations : Nat
  deletions : Nat
  /-- `total_scanners_count` -/
  count : Int
  /-- `total_scanners`, as exported -/
  gauge : Int
  clients : List StatPc
deriving DecidableEq, Repr

def StatWorld.init : StatWorld := ⟨0, 0, 0, 0, []⟩

inductive StatStep : StatWorld → StatWorld → Prop where
  | spawn (w) : StatStep w { w with clients := w.clients ++ [.building] }
  | fail (w) (i : Nat) : w.clients[i]? = some .building → StatStep w { w with clients := w.clients.set i .gone }
  /-- `scanner_creations.increment(1)`, `fetch_add(1)` -/
  | add (w) (i : Nat) : w.clients[i]? = some .building →
      StatStep w { w with creations := w.creations + 1, count := w.count + 1, clients := w.clients.set i (.counted w.count) }
  /-- `total_scanners.set` -/
  | addSet (w) (i : Nat) (prev) : w.clients[i]? = some (.counted prev) →
      StatStep w { w with gauge := prev + 1, clients := w.clients.set i .alive }
  | drop (w) (i : Nat) : w.clients[i]? = some .alive →
      StatStep w { w with deletions := w.deletions + 1, count := w.count - 1, clients := w.clients.set i (.uncounted w.count) }
  | dropSet (w) (i : Nat) (prev) : w.clients[i]? = some (.uncounted prev) →
      StatStep w { w with gauge := prev - 1, clients := w.clients.set i .gone }

inductive StatReach : StatWorld → Prop where
  | init : StatReach .init
  | step {w w'} : StatReach w → StatStep w w' → StatReach w'

/-! ## The pool of caches -/

/-- `SharedPool::new` (scanner/shared_pool.rs 53-66): the number of stacks. -/
def poolStacks (count : Nat) : Nat :=
  if count ≤ 4 then 4 else if count ≤ 8 then 8 else if count ≤ 16 then 16 else if count ≤ 32 then 32 else 64

end Sds
