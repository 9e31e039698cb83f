import Verif.Model.Apply

/-! # Specification: the effect of match actions on one string

Uses the data types of the model and `blen` (number of UTF-8 bytes), none of its redaction functions. -/

namespace Sds.Spec

/-- What the text of a match must become. -/
def redacted (fp : Fingerprint) : Action → Str → Str
  | .none, t => t
  | .redact r, _ => r
  | .hash, t => Nat.toDigits 16 (fp.utf8 t)
  | .utf16Hash, t => Nat.toDigits 16 (fp.utf16 t)
  | .partialFirst n, t => List.replicate n '*' ++ t.drop n
  | .partialLast n, t => t.take (t.length - n) ++ List.replicate n '*'

/-- A byte offset of a string which is not inside a character. -/
def OnBoundary (s : Str) (n : Nat) : Prop := ∃ a b, s = a ++ b ∧ blen a = n

/-- Ranges of a string: on character boundaries, pairwise disjoint and in order. -/
def ValidRanges (s : Str) (ms : List M) : Prop :=
  (∀ m ∈ ms, m.st ≤ m.en ∧ OnBoundary s m.st ∧ OnBoundary s m.en) ∧
  ms.Pairwise (fun a b => a.en ≤ b.st)

/-- Every match belongs to an existing rule whose action passed validation. -/
def ValidRules (rules : List RuleInfo) (ms : List M) : Prop :=
  ∀ m ∈ ms, ∃ r, rules[m.rule]? = some r ∧
    r.action ≠ .partialFirst 0 ∧ r.action ≠ .partialLast 0

/-- The kind of replacement announced for an action. -/
def kindOf : Action → ReplacementType
  | .none => .none
  | .redact _ => .placeholder
  | .hash => .hash
  | .utf16Hash => .hash
  | .partialFirst _ => .partialStart
  | .partialLast _ => .partialEnd

/-- The edit a replacement describes: replace bytes `start..stop` of the match by the text. -/
def Edits (t : Str) (r : Replacement) (t' : Str) : Prop :=
  ∃ p b q, t = p ++ b ++ q ∧ r.start = blen p ∧ r.stop = blen p + blen b ∧ t' = p ++ r.text ++ q

/-- One match together with the unmatched text in front of it. -/
structure Piece where
  gap : Str
  text : Str
  rule : Nat
deriving DecidableEq, Repr

/-- The string cut into pieces and a tail. -/
def input : List Piece → Str → Str
  | [], tail => tail
  | p :: ps, tail => p.gap ++ p.text ++ input ps tail

/-- The same with the text of every match rewritten by `f rule`. -/
def output (f : Nat → Str → Str) : List Piece → Str → Str
  | [], tail => tail
  | p :: ps, tail => p.gap ++ f p.rule p.text ++ output f ps tail

/-- The byte ranges of the matches of the pieces, the first piece starting at byte `o`. -/
def ranges : Nat → List Piece → List M
  | _, [] => []
  | o, p :: ps =>
    ⟨p.rule, o + blen p.gap, o + blen p.gap + blen p.text⟩ ::
      ranges (o + blen p.gap + blen p.text) ps

/-- An encoding counts code units: the index of a byte offset is the number of code units before it. -/
structure LawfulEnc (enc : Enc) : Prop where
  units_append : ∀ a b, enc.units (a ++ b) = enc.units a + enc.units b
  idx_prefix : ∀ a b, enc.idx (a ++ b) (blen a) = enc.units a

/-- The report expected for each piece.  `inn`/`out` are the input/output text before the piece. -/
def reports (units : Str → Nat) (rules : Nat → RuleInfo) (f : Nat → Str → Str) (returnMatches : Bool)
    (path : Path) : Str → Str → List Piece → List RuleMatch
  | _, _, [] => []
  | inn, out, p :: ps =>
    let inn' := inn ++ p.gap ++ p.text
    let out' := out ++ p.gap ++ f p.rule p.text
    { rule := p.rule, path := path, rtype := kindOf (rules p.rule).action,
      start := units (out ++ p.gap), stop := units out',
      shift := (units out' : Int) - units inn',
      value := if returnMatches then some p.text else none,
      status := if (rules p.rule).hasValidation then .notChecked else .notAvailable } ::
    reports units rules f returnMatches path inn' out' ps

/-- What one report says, relative to the input and the output string. -/
def ReportOk (enc : Enc) (rm : Bool) (path : Path) (fp : Fingerprint) (info : RuleInfo)
    (s out : Str) (m : M) (o : RuleMatch) : Prop :=
  ∃ pi t qi po qo,
    s = pi ++ t ++ qi ∧ blen pi = m.st ∧ blen (pi ++ t) = m.en ∧
    out = po ++ redacted fp info.action t ++ qo ∧
    o = { rule := m.rule, path := path, rtype := kindOf info.action,
          start := enc.units po, stop := enc.units (po ++ redacted fp info.action t),
          shift := (enc.units (po ++ redacted fp info.action t) : Int) - enc.units (pi ++ t),
          value := if rm then some t else none,
          status := if info.hasValidation then .notChecked else .notAvailable }

end Sds.Spec
