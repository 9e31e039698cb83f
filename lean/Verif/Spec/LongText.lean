import Verif.Spec.Codec

/-! # Specification: the texts of an event -/

namespace Sds.Spec

mutual
/-- All strings and keys of an event. -/
def goTexts : GoVal → List Bytes
  | .str b => [b]
  | .map m => goTextsFields m
  | .list l => goTextsItems l
  | .other => []
def goTextsItems : GoItems → List Bytes
  | .nil => []
  | .cons v rest => goTexts v ++ goTextsItems rest
def goTextsFields : GoFields → List Bytes
  | .nil => []
  | .cons k v rest => k :: (goTexts v ++ goTextsFields rest)
end

/-- No byte is one of the first four control characters. -/
def Plain (t : Bytes) : Prop := ∀ x ∈ t, 4 ≤ x

/-- The length does not fit 32 bits. -/
def Long (t : Bytes) : Prop := 4294967296 ≤ t.length

end Sds.Spec
