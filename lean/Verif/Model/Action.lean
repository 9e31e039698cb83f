import Verif.Model.Str

/-! # Match actions

Model of `sds/src/match_action.rs` and `sds/src/rule_match.rs` (replacement types). -/

namespace Sds

/-- `MatchAction` (match_action.rs 12-39).  `PartialRedact` is split by direction. -/
inductive Action where
  | none
  | redact (replacement : Str)
  | hash
  | utf16Hash
  | partialFirst (count : Nat)
  | partialLast (count : Nat)
deriving DecidableEq, Repr

/-- `ReplacementType` (rule_match.rs 63-70). -/
inductive ReplacementType where
  | none
  | placeholder
  | hash
  | partialStart
  | partialEnd
deriving DecidableEq, Repr

/-- The 64-bit fingerprint `farmhash::fingerprint64` of the UTF-8 bytes / of the little-endian UTF-16
bytes of a text.  External code: a parameter about which nothing is assumed. -/
structure Fingerprint where
  utf8 : Str → Nat
  utf16 : Str → Nat

/-- `format!("{hash:x}")`. -/
def hexLower (n : Nat) : Str := Nat.toDigits 16 n

/-- `MatchAction::validate` (match_action.rs 50-69): `true` is `Ok(())`. -/
def Action.validate : Action → Bool
  | .partialFirst n => n != 0
  | .partialLast n => n != 0
  | _ => true

/-- `MatchAction::is_mutating` (match_action.rs 72-82). -/
def Action.isMutating : Action → Bool
  | .none => false
  | _ => true

/-- `MatchAction::replacement_type` (match_action.rs 84-97). -/
def Action.replacementType : Action → ReplacementType
  | .none => .none
  | .redact _ => .placeholder
  | .hash => .hash
  | .utf16Hash => .hash
  | .partialFirst _ => .partialStart
  | .partialLast _ => .partialEnd

/-- `Replacement` (match_action.rs 198-203). -/
structure Replacement where
  start : Nat
  stop : Nat
  text : Str
deriving DecidableEq, Repr

/-- `String::from('*').repeat(n)` (match_action.rs 41, 169). -/
def stars (n : Nat) : Str := List.replicate n '*'

/-- `partial_redaction_first` (match_action.rs 150-173). -/
def partialRedactionFirst (n : Nat) (m : Str) : Res Replacement :=
  if m.length > n then do
    let e ← Res.ofOption (nthIdx m n)
    pure ⟨0, e, stars n⟩
  else
    pure ⟨0, blen m, stars n⟩

/-- `partial_redaction_last` (match_action.rs 175-195).  For `n = 0` the subtraction `n - 1` overflows
(panic with overflow checks; without them `nth_back(usize::MAX)` is `None` and `unwrap` panics). -/
def partialRedactionLast (n : Nat) (m : Str) : Res Replacement :=
  if m.length > n then
    if n = 0 then Res.panic
    else do
      let i ← Res.ofOption (nthBackIdx m (n - 1))
      pure ⟨i, blen m, stars n⟩
  else
    pure ⟨0, blen m, stars n⟩

/-- `MatchAction::get_replacement` (match_action.rs 99-133). -/
def Action.getReplacement (fp : Fingerprint) (a : Action) (m : Str) : Res (Option Replacement) :=
  match a with
  | .none => pure Option.none
  | .redact r => pure (some ⟨0, blen m, r⟩)
  | .hash => pure (some ⟨0, blen m, hexLower (fp.utf8 m)⟩)
  | .utf16Hash => pure (some ⟨0, blen m, hexLower (fp.utf16 m)⟩)
  | .partialFirst n => do
    let r ← partialRedactionFirst n m
    pure (some r)
  | .partialLast n => do
    let r ← partialRedactionLast n m
    pure (some r)

end Sds
