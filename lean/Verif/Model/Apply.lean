import Verif.Model.Overlap
import Verif.Model.Path

/-! # Applying match actions to one string

Model of `Scanner::apply_match_actions` and `apply_match_actions_for_string`
(sds/src/scanner/mod.rs 432-539) and of the `Encoding` trait (sds/src/encoding.rs). -/

namespace Sds

/-- `MatchStatus` (match_validation/match_status.rs 1-11). -/
inductive MatchStatus where
  | notChecked
  | notAvailable
  | invalid
  | error (msg : Str)
  | valid
deriving DecidableEq, Repr

/-- `RuleMatch` (rule_match.rs 6-38). -/
structure RuleMatch where
  rule : Nat
  path : Path
  rtype : ReplacementType
  start : Nat
  stop : Nat
  shift : Int
  value : Option Str
  status : MatchStatus
deriving DecidableEq, Repr

/-- The `Encoding` trait (encoding.rs 1-21), reduced to its observable effect: `idx content i` is the index
`calculate_indices` + `get_index` produce for byte offset `i` of `content`; `adjust_shift` adds
`units after - units before` to the shift.  Simplification: implementations whose shift is not additive in
this way are not covered. -/
structure Enc where
  idx : Str → Nat → Nat
  units : Str → Nat

/-- `Utf8Encoding` (encoding.rs 23-52): indices are byte offsets, the shift is the byte shift. -/
def Enc.utf8 : Enc := ⟨fun _ i => i, blen⟩

/-- What conflict resolution and action application need of a compiled rule: `get_match_action`, and
whether `get_match_validation_type` is `Some`. -/
structure RuleInfo where
  action : Action
  hasValidation : Bool
deriving DecidableEq, Repr

/-- `(x as isize + shift) as usize`.  A negative result wraps to a huge index in Rust, every later slice of
which panics; we make it an immediate panic (the theorems show it does not occur). -/
def toUsize (i : Int) : Res Nat := if 0 ≤ i then Res.ok i.toNat else Res.panic

/-- State threaded through `apply_match_actions`: content, `utf8_byte_delta`, `custom_index_delta`. -/
structure ApplyState where
  content : Str
  delta : Int
  cdelta : Int
deriving DecidableEq, Repr

/-- The mutation block of `apply_match_actions_for_string` (mod.rs 489-515). -/
def applyMutation (fp : Fingerprint) (enc : Enc) (a : Action) (m : M) (s : ApplyState) :
    Res ApplyState :=
  if a.isMutating then do
    let i ← toUsize (m.st + s.delta)
    let j ← toUsize (m.en + s.delta)
    let matched ← Res.ofOption (slice s.content i j)
    let r ← a.getReplacement fp matched
    match r with
    | none => pure s
    | some r => do
      let before ← Res.ofOption (slice matched r.start r.stop)
      let content ← Res.ofOption (replaceRange s.content (i + r.start) (i + r.stop) r.text)
      pure ⟨content, s.delta + (blen r.text - blen before : Int),
            s.cdelta + (enc.units r.text - enc.units before : Int)⟩
  else pure s

/-- `matched_content_copy` (mod.rs 473-487). -/
def matchValue (returnMatches : Bool) (m : M) (s : ApplyState) : Res (Option Str) :=
  if returnMatches then do
    let i ← toUsize (m.st + s.delta)
    let j ← toUsize (m.en + s.delta)
    let v ← Res.ofOption (slice s.content i j)
    pure (some v)
  else pure none

/-- `apply_match_actions_for_string` (mod.rs 456-539).  `orig` is the content at the time
`calculate_indices` ran (mod.rs 783-793), i.e. the unmodified string. -/
def applyOne (fp : Fingerprint) (enc : Enc) (returnMatches : Bool) (rules : List RuleInfo) (path : Path)
    (orig : Str) (m : M) (s : ApplyState) : Res (RuleMatch × ApplyState) := do
  let rule ← Res.ofOption rules[m.rule]?
  let cstart ← toUsize (enc.idx orig m.st + s.cdelta)
  let value ← matchValue returnMatches m s
  let s' ← applyMutation fp enc rule.action m s
  let cend ← toUsize (enc.idx orig m.en + s'.cdelta)
  pure
    (⟨m.rule, path, rule.action.replacementType, cstart, cend, s'.cdelta, value,
      if rule.hasValidation then .notChecked else .notAvailable⟩, s')

/-- The loop of `apply_match_actions` (mod.rs 434-453). -/
def applyLoop (fp : Fingerprint) (enc : Enc) (returnMatches : Bool) (rules : List RuleInfo) (path : Path)
    (orig : Str) : List M → ApplyState → Res (List RuleMatch × ApplyState)
  | [], s => pure ([], s)
  | m :: ms, s => do
    let (o, s') ← applyOne fp enc returnMatches rules path orig m s
    let (os, s'') ← applyLoop fp enc returnMatches rules path orig ms s'
    pure (o :: os, s'')

/-- `apply_match_actions` (mod.rs 434-453): the reported matches and the new content. -/
def applyMatchActions (fp : Fingerprint) (enc : Enc) (returnMatches : Bool) (rules : List RuleInfo)
    (path : Path) (content : Str) (ms : List M) : Res (List RuleMatch × Str) := do
  let (os, s) ← applyLoop fp enc returnMatches rules path content ms ⟨content, 0, 0⟩
  pure (os, s.content)

end Sds
