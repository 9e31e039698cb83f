import Verif.Model.Overlap

/-! # Specification: which candidate matches of a string should be reported

Uses only the record `M` (rule, start, end) of the model, none of its functions. -/

namespace Sds.Spec

/-- Two ranges share a byte. -/
def Overlap (a b : M) : Prop := a.st < b.en ∧ b.st < a.en

instance (a b : M) : Decidable (Overlap a b) := by unfold Overlap; infer_instance

/-- The documented priority: redacting rules first, then earlier start, then longer match, then lower rule
index.  `redacts` tells which rules redact. -/
def Higher (redacts : Nat → Bool) (a b : M) : Prop :=
  (redacts a.rule = true ∧ redacts b.rule = false) ∨
  (redacts a.rule = redacts b.rule ∧
    (a.st < b.st ∨ (a.st = b.st ∧ (b.en < a.en ∨ (b.en = a.en ∧ a.rule < b.rule)))))

instance (f : Nat → Bool) (a b : M) : Decidable (Higher f a b) := by unfold Higher; infer_instance

/-- A set of reports `res` is right for the candidates `cand`: only candidates are reported, and a candidate
is reported iff it overlaps no reported match of higher priority. -/
def IsResolution (redacts : Nat → Bool) (cand res : List M) : Prop :=
  (∀ m ∈ res, m ∈ cand) ∧
  ∀ m ∈ cand, (m ∈ res ↔ ¬ ∃ r ∈ res, Higher redacts r m ∧ Overlap r m)

/-- `f` is some sorting algorithm for `le` (nothing is said about ties). -/
def SortsBy (le : M → M → Bool) (f : List M → List M) : Prop :=
  ∀ l, (f l).Perm l ∧ (f l).Pairwise (fun a b => le a b = true)

end Sds.Spec
