import Verif.Model.Parser

/-! # Specification: the syntax of patterns

All relations `R s j a` below say: the text `s` begins with the syntax of `a`, and `j` is the rest of the text. -/

namespace Sds.Spec.Syntax
open Sds.Re

/-! ## Numbers -/

/-- A decimal number with at least one digit. -/
inductive Decimal : Str → Nat → Prop
  | one {d : Nat} : d < 10 → Decimal [d.digitChar] d
  | more {ds : Str} {n d : Nat} : Decimal ds n → d < 10 → Decimal (ds ++ [d.digitChar]) (10 * n + d)

/-- The hexadecimal digit of value `d`, in either case. -/
def HexDigit (d : Nat) (c : Char) : Prop := d < 16 ∧ (c = d.digitChar ∨ c = d.digitChar.toUpper)

/-- A hexadecimal number; no digits stand for zero. -/
inductive Hexadecimal : Str → Nat → Prop
  | none : Hexadecimal [] 0
  | more {ds : Str} {n d : Nat} {c : Char} : Hexadecimal ds n → HexDigit d c → Hexadecimal (ds ++ [c]) (16 * n + d)

/-! ## Quantifiers -/

inductive Count : Str → Str → QuantifierKind → Prop
  | star (j : Str) : Count ('*' :: j) j .zeroOrMore
  | plus (j : Str) : Count ('+' :: j) j .oneOrMore
  | mark (j : Str) : Count ('?' :: j) j .zeroOrOne
  | exactly {ds : Str} {n : Nat} (j : Str) : Decimal ds n → n < 2 ^ 32 → Count ('{' :: (ds ++ '}' :: j)) j (.rangeExact n)
  | between {ds es : Str} {n m : Nat} (j : Str) : Decimal ds n → n < 2 ^ 32 → Decimal es m → m < 2 ^ 32 →
      Count ('{' :: (ds ++ ',' :: (es ++ '}' :: j))) j (.rangeMinMax n m)
  | atLeast {ds : Str} {n : Nat} (j : Str) : Decimal ds n → n < 2 ^ 32 → Count ('{' :: (ds ++ ',' :: '}' :: j)) j (.rangeMin n)

/-- A question mark after a quantifier makes it lazy. -/
inductive Quant : Str → Str → Quantifier → Prop
  | lazy {s j : Str} {k : QuantifierKind} : Count s ('?' :: j) k → Quant s j ⟨true, k⟩
  | greedy {s j : Str} {k : QuantifierKind} : Count s j k → j.head? ≠ some '?' → Quant s j ⟨false, k⟩

/-! ## Literals -/

/-- Letters that stand for a control character after a backslash. -/
def controlLetters : List (Char × Nat) :=
  [('a', 7), ('b', 8), ('e', 27), ('f', 12), ('n', 10), ('r', 13), ('t', 9), ('v', 11)]

/-- Characters that do not stand for themselves after a backslash. -/
def reservedEscapes : Str := "0123456789abcefgklnoprtuvxzABCEGKLNPQRUXZ".toList

/-- What follows a backslash, and the character it stands for. -/
inductive Escaped : Str → Str → Char → Prop
  | control {i : Nat} {l c : Char} (j : Str) : i < 26 → (l = Char.ofNat (97 + i) ∨ l = Char.ofNat (65 + i)) → c.toNat = i + 1 →
      Escaped ('c' :: l :: j) j c
  | letter {l : Char} {n : Nat} {c : Char} (j : Str) : (l, n) ∈ controlLetters → c.toNat = n → Escaped (l :: j) j c
  | braces {ds : Str} {n : Nat} {c : Char} (plus : Str) (j : Str) : plus = [] ∨ plus = ['+'] → Hexadecimal ds n → ds ≠ [] →
      c.toNat = n → Escaped ('x' :: '{' :: (plus ++ ds ++ '}' :: j)) j c
  | hex {ds : Str} {n : Nat} {c : Char} (j : Str) : Hexadecimal ds n → ds.length ≤ 2 →
      (ds.length = 2 ∨ ∀ x ∈ j.head?, ∀ d, ¬ HexDigit d x) → (ds = [] → j.head? = some '{' → '}' ∉ j) → c.toNat = n →
      Escaped ('x' :: (ds ++ j)) j c
  | itself {c : Char} (j : Str) : c ∉ reservedEscapes → Escaped (c :: j) j c

/-- A character that is not in `deny`, or an escape. -/
inductive Lit (deny : Str) : Str → Str → Literal → Prop
  | plain {c : Char} (j : Str) : c ≠ '\\' → c ∉ deny → Lit deny (c :: j) j ⟨c, false⟩
  | escaped {s j : Str} {c : Char} : Escaped s j c → Lit deny ('\\' :: s) j ⟨c, true⟩

/-- A quotation, up to the first `\E`. -/
inductive Quoted : Str → Str → Str → Prop
  | mk (t j : Str) : (∀ a b, t ++ ['\\', 'E'] = a ++ '\\' :: 'E' :: b → a = t) →
      Quoted ('\\' :: 'Q' :: (t ++ '\\' :: 'E' :: j)) j t

/-! ## Classes -/

def perlLetters : List (Char × PerlClass) :=
  [('d', .digit), ('s', .space), ('w', .word), ('D', .nonDigit), ('S', .nonSpace), ('W', .nonWord)]

inductive Perl : Str → Str → PerlClass → Prop
  | mk {l : Char} {p : PerlClass} (j : Str) : (l, p) ∈ perlLetters → Perl ('\\' :: l :: j) j p

inductive Property : Str → Str → UnicodePropertyClass → Prop
  | pos {n : String} (j : Str) : n ∈ unicodePropertyNames → Property ('\\' :: 'p' :: '{' :: (n.toList ++ '}' :: j)) j ⟨false, n.toList⟩
  | neg {n : String} (j : Str) : n ∈ unicodePropertyNames → Property ('\\' :: 'P' :: '{' :: (n.toList ++ '}' :: j)) j ⟨true, n.toList⟩

def posixNames : List (String × AsciiClassKind) :=
  [("alnum", .alnum), ("alpha", .alpha), ("ascii", .ascii), ("blank", .blank), ("cntrl", .cntrl), ("digit", .digit),
    ("graph", .graph), ("lower", .lower), ("print", .print), ("punct", .punct), ("space", .space), ("upper", .upper),
    ("word", .word), ("xdigit", .xdigit)]

inductive Posix : Str → Str → Bool × AsciiClassKind → Prop
  | pos {n : String} {k : AsciiClassKind} (j : Str) : (n, k) ∈ posixNames → Posix ('[' :: ':' :: (n.toList ++ ':' :: ']' :: j)) j (false, k)
  | neg {n : String} {k : AsciiClassKind} (j : Str) : (n, k) ∈ posixNames →
      Posix ('[' :: ':' :: '^' :: (n.toList ++ ':' :: ']' :: j)) j (true, k)

/-- A backslash and one of the letters. -/
def EscapeOf (letters : Str) (s : Str) : Prop := ∃ l ∈ letters, ∃ j, s = '\\' :: l :: j

/-- Elements of a bracketed class.  Classes come before ranges, and ranges before single characters. -/
inductive Item : Str → Str → List BracketItem → Prop
  | perl {s j : Str} {p : PerlClass} : Perl s j p → Item s j [.perl p]
  | horizontal (j : Str) : Item ('\\' :: 'h' :: j) j [.horizontalWhitespace]
  | notHorizontal (j : Str) : Item ('\\' :: 'H' :: j) j [.notHorizontalWhitespace]
  | vertical (j : Str) : Item ('\\' :: 'v' :: j) j [.verticalWhitespace]
  | notVertical (j : Str) : Item ('\\' :: 'V' :: j) j [.notVerticalWhitespace]
  | quoted {s j t : Str} : Quoted s j t → Item s j (t.map .literal)
  | posix {s j : Str} {neg : Bool} {k : AsciiClassKind} : Posix s j (neg, k) → Item s j [.ascii neg k]
  | property {s j : Str} {u : UnicodePropertyClass} : Property s j u → Item s j [.unicodeProperty u]
  | range {s m j : Str} {a b : Literal} : ¬ EscapeOf "dswDSWhHvV".toList s → (∀ k x, ¬ Posix s k x) → Lit [']'] s ('-' :: m) a →
      Lit [']'] m j b → Item s j [.range a.c b.c]
  | literal {s j : Str} {a : Literal} : ¬ EscapeOf "dswDSWhHvV".toList s → (∀ k x, ¬ Posix s k x) → Lit [']'] s j a →
      (∀ m k b, j = '-' :: m → ¬ Lit [']'] m k b) → Item s j [.literal a.c]

inductive Items : Str → Str → List BracketItem → Prop
  | nil (j : Str) : Items j j []
  | cons {s m j : Str} {x l : List BracketItem} : Item s m x → Items m j l → Items s j (x ++ l)

/-- A `]` at the beginning does not close the class, which must not be empty. -/
inductive Bracket : Str → Str → CharacterClass → Prop
  | mk {s s' m j : Str} {neg : Bool} {first items : List BracketItem} :
      ((s = '^' :: s' ∧ neg = true) ∨ (s.head? ≠ some '^' ∧ s' = s ∧ neg = false)) →
      ((s' = ']' :: m ∧ first = [.literal ']']) ∨ (s'.head? ≠ some ']' ∧ m = s' ∧ first = [])) →
      Items m (']' :: j) items → first ++ items ≠ [] → Bracket ('[' :: s) j (.bracket neg (first ++ items))

inductive Class : Str → Str → CharacterClass → Prop
  | dot (j : Str) : Class ('.' :: j) j .dot
  | horizontal (j : Str) : Class ('\\' :: 'h' :: j) j .horizontalWhitespace
  | notHorizontal (j : Str) : Class ('\\' :: 'H' :: j) j .notHorizontalWhitespace
  | vertical (j : Str) : Class ('\\' :: 'v' :: j) j .verticalWhitespace
  | notVertical (j : Str) : Class ('\\' :: 'V' :: j) j .notVerticalWhitespace
  | bracket {s j : Str} {c : CharacterClass} : Bracket s j c → Class s j c
  | perl {s j : Str} {p : PerlClass} : Perl s j p → Class s j (.perl p)
  | property {s j : Str} {u : UnicodePropertyClass} : Property s j u → Class s j (.unicodeProperty u)

/-! ## Expressions -/

def assertionTexts : List (Str × AssertionType) :=
  [(['\\', 'b'], .wordBoundary), (['\\', 'B'], .notWordBoundary), (['^'], .startLine), (['$'], .endLine), (['\\', 'A'], .startText),
    (['\\', 'z'], .endText), (['\\', 'Z'], .endTextOptionalNewline)]

def flagLetter : Flag → Char
  | .caseInsensitive => 'i'
  | .multiLine => 'm'
  | .dotMatchesNewLine => 's'
  | .ignoreWhitespace => 'x'

/-- Flags to add, then flags to remove after a `-`. -/
inductive FlagText : Str → Flags → Prop
  | add (l : List Flag) : FlagText (l.map flagLetter) ⟨l, []⟩
  | addRemove (l k : List Flag) : FlagText (l.map flagLetter ++ '-' :: k.map flagLetter) ⟨l, k⟩

/-- The name of a group: letters, digits and `_`, no digit first. -/
def GroupName (n : Str) : Prop :=
  (∀ c ∈ n, c.isAlphanum = true ∨ c = '_') ∧ ∃ c, n.head? = some c ∧ c.isDigit = false

/-- A list of expressions in sequence. -/
def joined : List Ast → Ast
  | [] => .empty
  | [a] => a
  | l => .concat l

/-- A list of alternatives. -/
def chosen : List Ast → Ast
  | [a] => a
  | l => .alternation l

/-- What may be followed by a quantifier; `E` is the syntax of the inner expressions of groups. -/
inductive Elem (E : Str → Str → Ast → Prop) : Str → Str → Ast → Prop
  | quote {s j t : Str} : Quoted s j t → Elem E s j (joined (t.map fun c => .literal ⟨c, true⟩))
  | flags {t : Str} {f : Flags} (j : Str) : FlagText t f → Elem E ('(' :: '?' :: (t ++ ')' :: j)) j (.flags f)
  | capturing {s j : Str} {a : Ast} : E s (')' :: j) a → Elem E ('(' :: s) j (.group .capturing a)
  | nonCapturing {t s j : Str} {f : Flags} {a : Ast} : FlagText t f → E s (')' :: j) a →
      Elem E ('(' :: '?' :: (t ++ ':' :: s)) j (.group (.nonCapturing f) a)
  | named {n s j : Str} {a : Ast} (p : Str) : p = [] ∨ p = ['P'] → GroupName n → E s (')' :: j) a →
      Elem E ('(' :: '?' :: (p ++ '<' :: (n ++ '>' :: s))) j (.group (.namedCapturing n) a)
  | quotedName {n s j : Str} {a : Ast} : GroupName n → E s (')' :: j) a →
      Elem E ('(' :: '?' :: '\'' :: (n ++ '\'' :: s)) j (.group (.namedCapturing n) a)
  | assertion {t : Str} {a : AssertionType} (j : Str) : (t, a) ∈ assertionTexts → Elem E (t ++ j) j (.assertion a)
  | cls {s j : Str} {c : CharacterClass} : Class s j c → Elem E s j (.characterClass c)
  | literal {s j : Str} {l : Literal} : ¬ EscapeOf "bdswDSWhHvV".toList s →
      Lit ['|', '[', '(', ')', '.', '+', '?', '*', '^', '$'] s j l → Elem E s j (.literal l)

/-- An element and the quantifier after it, if there is one. -/
inductive Atom (E : Str → Str → Ast → Prop) : Str → Str → Ast → Prop
  | bare {s j : Str} {a : Ast} : Elem E s j a → (∀ k q, ¬ Quant j k q) → Atom E s j a
  | repeated {s m j : Str} {a : Ast} {q : Quantifier} : Elem E s m a → Quant m j q → Atom E s j (.repetition q a)

inductive Atoms (E : Str → Str → Ast → Prop) : Str → Str → List Ast → Prop
  | nil (j : Str) : Atoms E j j []
  | cons {s m j : Str} {a : Ast} {l : List Ast} : Atom E s m a → Atoms E m j l → Atoms E s j (a :: l)

/-- Sequences separated by `|`. -/
inductive Alternatives (E : Str → Str → Ast → Prop) : Str → Str → List Ast → Prop
  | last {s j : Str} {l : List Ast} : Atoms E s j l → Alternatives E s j [joined l]
  | cons {s m j : Str} {l k : List Ast} : Atoms E s ('|' :: m) l → Alternatives E m j k → Alternatives E s j (joined l :: k)

/-- Expressions whose groups nest less than `n` deep. -/
def Expr : Nat → Str → Str → Ast → Prop
  | 0, _, _, _ => False
  | n + 1, s, j, a => ∃ l, Alternatives (Expr n) s j l ∧ a = chosen l

/-- The whole text is an expression. -/
def Denotes (s : Str) (a : Ast) : Prop := ∃ n, Expr n s [] a

end Sds.Spec.Syntax
