import Verif.Spec.Search

/-! # Specification: which matches have a keyword near (C85) -/

namespace Sds.Spec

/-- Which of the matches `l`, given from left to right, a rule with required keywords finds if keywords count from `start` on.
`kw s e`: a keyword occurs at `s..e`; `win s p`: the offset `p` is in the window of a keyword that starts at `s`.

A match without a keyword whose window it is in is passed over.  Otherwise a first one of these keywords opens its window, and
all matches in this window are found.  After that, keywords count from the start of the last of these matches on. -/
inductive Near (kw win : Nat → Nat → Prop) : Nat → List (Nat × Nat) → List (Nat × Nat) → Prop
  | nil {start : Nat} : Near kw win start [] []
  | skip {start : Nat} {m : Nat × Nat} {l out : List (Nat × Nat)} :
      (∀ s e, kw s e → start ≤ s → ¬ win s m.1) → Near kw win start l out → Near kw win start (m :: l) out
  | window {start s e : Nat} {w : List (Nat × Nat)} {z : Nat × Nat} {l out : List (Nat × Nat)} :
      kw s e → start ≤ s →
      (∀ m, (w ++ [z]).head? = some m → ∀ s' e', kw s' e' → start ≤ s' → win s' m.1 → s ≤ s' ∨ e ≤ e') →
      (∀ m ∈ w ++ [z], win s m.1) → (∀ m, l.head? = some m → ¬ win s m.1) → Near kw win z.1 l out →
      Near kw win start (w ++ [z] ++ l) (w ++ [z] ++ out)

/-- No keyword overlaps a match of the regex. -/
def Apart (r : RegexRule) (occ : Str → Nat → Nat → Prop) (c : Str) : Prop :=
  ∀ s e p q, occ c s e → Accepted r c p q → e ≤ p ∨ q ≤ s

end Sds.Spec
