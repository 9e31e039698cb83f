import Verif.Spec.Scan

/-! # Specification: how much a scan returns -/

namespace Sds.Spec

/-- The bytes of the strings of an event. -/
def bytesOf (leaves : List Leaf) : Nat := (leaves.map fun l => blen l.text).sum

/-- The characters of the strings of an event. -/
def charsOf (leaves : List Leaf) : Nat := (leaves.map fun l => l.text.length).sum

/-- The bytes of the values that are returned. -/
def valueBytes (os : List RuleMatch) : Nat := (os.map fun o => blen (o.value.getD [])).sum

/-- The bytes that an action puts in: the replacement, a fingerprint of 64 bits in hexadecimal, or the asterisks. -/
def putsIn : Action → Nat
  | .none => 0
  | .redact r => blen r
  | .hash | .utf16Hash => 16
  | .partialFirst n | .partialLast n => n

/-- Fingerprints have 64 bits. -/
def Bits64 (fp : Fingerprint) : Prop := ∀ t, fp.utf8 t < 2 ^ 64 ∧ fp.utf16 t < 2 ^ 64

end Sds.Spec
