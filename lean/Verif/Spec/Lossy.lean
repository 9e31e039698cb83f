import Verif.Model.Codec

/-! # What it means to read bytes that need not be UTF-8

Only the encoding of a single character is used; nothing here mentions the bounds of bytes. -/

namespace Sds
namespace Spec

/-- The bytes begin with the encoding of a character. -/
def StartsChar (b : Bytes) : Prop := ∃ c, utf8Char c <+: b

/-- The bytes could be continued to the encoding of a character. -/
def InChar (p : Bytes) : Prop := ∃ c, p <+: utf8Char c

/-- `p` is the maximal ill-formed part at the beginning of `p ++ rest` (The Unicode Standard, 3.9, D93b): it can
be continued to a character while no longer part can, or it is a single byte. -/
def IllFormedPart (p rest : Bytes) : Prop :=
  ¬ StartsChar (p ++ rest) ∧ p ≠ [] ∧
    ((InChar p ∧ ∀ q, q <+: rest → q ≠ [] → ¬ InChar (p ++ q)) ∨ (p.length = 1 ∧ ¬ InChar p))

/-- Decoding with one U+FFFD for each maximal ill-formed part. -/
inductive Decodes : Bytes → Str → Prop where
  | nil : Decodes [] []
  | char (c : Char) {rest : Bytes} {s : Str} : Decodes rest s → Decodes (utf8Char c ++ rest) (c :: s)
  | bad {p rest : Bytes} {s : Str} : IllFormedPart p rest → Decodes rest s → Decodes (p ++ rest) (Char.ofNat 0xFFFD :: s)

/-- Decoding with one U+FFFD for each byte that does not begin a character. -/
inductive DecodesBytewise : Bytes → Str → Prop where
  | nil : DecodesBytewise [] []
  | char (c : Char) {rest : Bytes} {s : Str} : DecodesBytewise rest s → DecodesBytewise (utf8Char c ++ rest) (c :: s)
  | bad (a : Nat) {rest : Bytes} {s : Str} : ¬ StartsChar (a :: rest) → DecodesBytewise rest s →
      DecodesBytewise (a :: rest) (Char.ofNat 0xFFFD :: s)

end Spec
end Sds
