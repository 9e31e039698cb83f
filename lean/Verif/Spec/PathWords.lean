import Verif.Spec.Keywords

/-! # Specification: the words of field names and keywords -/

namespace Sds.Spec

/-- An ASCII upper-case letter. -/
def Capital (c : Char) : Prop := 'A' ≤ c ∧ c ≤ 'Z'

/-- An ASCII lower-case letter or digit. -/
def Small (c : Char) : Prop := ('a' ≤ c ∧ c ≤ 'z') ∨ ('0' ≤ c ∧ c ≤ '9')

/-- A word: upper-case letters followed by lower-case letters and digits, as in `key`, `Key`, `KEY` and `APIkey2`. -/
def PlainWord (w : Str) : Prop :=
  ∃ us rs, w = us ++ rs ∧ w ≠ [] ∧ (∀ c ∈ us, Capital c) ∧ ∀ c ∈ rs, Small c

/-- `MadeOf n ws`: the name consists of the words, with one of `- _ . /` and the space between them or in camel
case. -/
inductive MadeOf : Str → List Str → Prop where
  | word {w : Str} (h : PlainWord w) : MadeOf w [w]
  | link {w n : Str} {ws : List Str} {c : Char} (h : PlainWord w) (hc : c ∈ ['-', '_', '.', ' ', '/'])
      (hn : MadeOf n ws) : MadeOf (w ++ c :: n) (w :: ws)
  | camel {w n : Str} {ws : List Str} {l c : Char} (h : PlainWord w) (hl : w.getLast? = some l) (hs : Small l)
      (hc : n.head? = some c) (hu : Capital c) (hn : MadeOf n ws) : MadeOf (w ++ n) (w :: ws)

/-- The name ends with a capital that is a camel-case word of its own, as in `planB`. -/
def EndsInHump (n : Str) : Prop := ∃ a x u, n = a ++ [x, u] ∧ Small x ∧ Capital u

/-- A word in lower case. -/
def lowered (w : Str) : Str := w.map Char.toLower

/-- `PathWords ok p ws`: the fields of the path satisfy `ok` and `ws` are their words; indices do not count. -/
inductive PathWords (ok : Str → Prop) : Path → List Str → Prop where
  | nil : PathWords ok [] []
  | index {i : Nat} {p : Path} {ws : List Str} (h : PathWords ok p ws) : PathWords ok (.index i :: p) ws
  | field {f : Str} {p : Path} {fs ws : List Str} (hf : MadeOf f fs) (hl : ok f) (h : PathWords ok p ws) :
      PathWords ok (.field f :: p) (fs ++ ws)

/-- A case folding that, within ASCII, relates a letter with itself and its other case only. -/
def FoldsAscii (eqc : Char → Char → Bool) : Prop :=
  ∀ k c : Char, k.toNat < 128 → c.toNat < 128 → (eqc k c = true ↔ k.toLower = c.toLower)

end Sds.Spec
