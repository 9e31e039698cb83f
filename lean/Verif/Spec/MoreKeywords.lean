import Verif.Spec.Near

/-! # Specification: more required keywords, or a longer window -/

namespace Sds.Spec

/-- The keywords of `k` (`occ`) are keywords of `k'` (`occ'`), in texts and paths, and the window of `k'` is at least as long. -/
structure Wider (k : IncKw) (occ : Str → Nat → Nat → Prop) (k' : IncKw) (occ' : Str → Nat → Nat → Prop) : Prop where
  occ : ∀ c s e, occ c s e → occ' c s e
  inPath : ∀ t, k.inPath t = true → k'.inPath t = true
  lookAhead : k.lookAhead ≤ k'.lookAhead

end Sds.Spec
