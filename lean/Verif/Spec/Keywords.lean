import Verif.Model.Keywords

/-! # Specification: proximity keywords

Uses the data types of the model and `blen` (number of UTF-8 bytes). -/

namespace Sds.Spec

def AsciiAlnum (c : Char) : Prop :=
  ('a' ≤ c ∧ c ≤ 'z') ∨ ('A' ≤ c ∧ c ≤ 'Z') ∨ ('0' ≤ c ∧ c ≤ '9')

def AsciiWord (c : Char) : Prop := AsciiAlnum c ∨ c = '_'

instance (c : Char) : Decidable (AsciiAlnum c) := by unfold AsciiAlnum; infer_instance
instance (c : Char) : Decidable (AsciiWord c) := by unfold AsciiWord; infer_instance

/-- The keyword and the text agree character by character, up to case. -/
inductive SameText (eqc : Char → Char → Bool) : Str → Str → Prop
  | nil : SameText eqc [] []
  | cons {k c : Char} {ks cs : Str} : eqc k c = true → SameText eqc ks cs → SameText eqc (k :: ks) (c :: cs)

/-- The keyword occurs as the text `m` between `before` and `after`: where the keyword begins or ends with an
ASCII letter or digit, no ASCII word character adjoins. -/
def Occurs (eqc : Char → Char → Bool) (kw before m after : Str) : Prop :=
  SameText eqc kw m ∧
  (∀ k, kw.head? = some k → AsciiAlnum k → ∀ c, before.getLast? = some c → ¬ AsciiWord c) ∧
  (∀ k, kw.getLast? = some k → AsciiAlnum k → ∀ c, after.head? = some c → ¬ AsciiWord c)

/-- A text without its `-` and `_` characters. -/
def ignoring (s : Str) : Str := s.filter fun c => c ≠ '-' ∧ c ≠ '_'

/-- One of the keywords occurs among the last `lookAhead` characters `w` before offset `p`, ignoring `-` and
`_` everywhere. -/
def InFront (eqc : Char → Char → Bool) (kws : List Str) (lookAhead : Nat) (content : Str) (p : Nat) : Prop :=
  ∃ u w post, content = u ++ w ++ post ∧ blen (u ++ w) = p ∧
    w.length ≤ lookAhead ∧ (w.length < lookAhead → u = []) ∧
    ∃ kw ∈ kws, ∃ l m r, ignoring w = l ++ m ++ r ∧
      Occurs eqc kw (ignoring u ++ l) m (r ++ ignoring post)

/-- The code points of white space in Unicode. -/
def whiteSpace : List Nat :=
  [0x0009, 0x000A, 0x000B, 0x000C, 0x000D, 0x0020, 0x0085, 0x00A0, 0x1680, 0x2000, 0x2001, 0x2002, 0x2003, 0x2004, 0x2005, 0x2006,
    0x2007, 0x2008, 0x2009, 0x200A, 0x2028, 0x2029, 0x202F, 0x205F, 0x3000]

/-- All characters are white space. -/
def Blank (s : Str) : Prop := ∀ c ∈ s, c.toNat ∈ whiteSpace

/-- White space around characters that are ignored. -/
def BlankIgnoring (s : Str) : Prop :=
  ∃ a m b, s = a ++ m ++ b ∧ Blank a ∧ Blank b ∧ ∀ c ∈ m, c = '-' ∨ c = '_'

/-- Well formed keyword configuration. -/
def WellFormed (c : KwConfig) : Prop :=
  1 ≤ c.lookAhead ∧ c.lookAhead ≤ 50 ∧ c.included.length ≤ 50 ∧ c.excluded.length ≤ 50 ∧
  (∀ k ∈ c.included, k.length ≤ c.lookAhead ∧ ¬ Blank k) ∧
  (∀ k ∈ c.excluded, k.length ≤ c.lookAhead ∧ ¬ BlankIgnoring k)

/-- `e` is the error of the first faulty keyword of the list; too long comes before blank. -/
def FirstFault (lookAhead : Nat) (blank : Str → Prop) (kws : List Str) (e : KwError) : Prop :=
  ∃ l k r, kws = l ++ k :: r ∧ (∀ x ∈ l, x.length ≤ lookAhead ∧ ¬ blank x) ∧
    ((k.length > lookAhead ∧ e = .keywordTooLong lookAhead) ∨
     (k.length ≤ lookAhead ∧ blank k ∧ e = .emptyKeyword))

/-- The fields of a path. -/
def fieldsOf : Path → List Str
  | [] => []
  | .field f :: p => f :: fieldsOf p
  | .index _ :: p => fieldsOf p

/-- Join with dots. -/
def dotJoin : List Str → Str
  | [] => []
  | [a] => a
  | a :: b :: r => a ++ '.' :: dotJoin (b :: r)

end Sds.Spec
