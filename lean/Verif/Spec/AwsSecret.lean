import Verif.Spec.Meaning

/-! # Specification: the AWS secret in a match -/

namespace Sds.Spec

/-- The characters of an AWS secret. -/
def SecretChar (c : Char) : Prop :=
  ('A' ≤ c ∧ c ≤ 'Z') ∨ ('a' ≤ c ∧ c ≤ 'z') ∨ ('0' ≤ c ∧ c ≤ '9') ∨ c = '/' ∨ c = '+'

/-- An AWS secret: forty of these characters. -/
def IsSecret (k : Str) : Prop := k.length = 40 ∧ ∀ c ∈ k, SecretChar c

/-- No part of the text is an AWS secret. -/
def NoSecret (s : Str) : Prop := ∀ p k q, s = p ++ k ++ q → ¬ IsSecret k

/-- The only AWS secret in the text is `k`, between `p` and `q`: characters that cannot be part of a secret are around
it, and there is none elsewhere. -/
structure OnlySecret (p k q : Str) : Prop where
  secret : IsSecret k
  before : ∀ c, p.getLast? = some c → ¬ SecretChar c
  after : ∀ c, q.head? = some c → ¬ SecretChar c
  noneBefore : NoSecret p
  noneAfter : NoSecret q

/-- Word characters, with a table for those outside of ASCII. -/
def WordIn (word : Char → Bool) (c : Char) : Prop := if c.toNat < 128 then AsciiWordChar c else word c = true

/-- What `([A-Za-z0-9\/+]{40})\b` means. -/
def secretNode : Node := .seq [.capture none (.rep 40 (some 40) true (.set SecretChar)), .look .unicodeWord]

/-- The leftmost match of an expression in a text. -/
def LeftmostSpan (T : Tables) (n : Node) (s m : Str) : Prop :=
  ∃ p q, s = p ++ m ++ q ∧ Spans T n p m q ∧
    ∀ p' m' q', s = p' ++ m' ++ q' → Spans T n p' m' q' → p.length ≤ p'.length

end Sds.Spec
