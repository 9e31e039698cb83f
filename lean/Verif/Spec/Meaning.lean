import Verif.Spec.Normalize

/-!
# Specification: what a pattern means

Both syntaxes are translated, independently of each other and of the conversion, to expressions without flags
(`Node`).  Translation resolves the flags in effect, scoping, character classes and ignored whitespace.
-/

namespace Sds.Spec
open Sds.Re

/-! ## Expressions -/

/-- Conditions on a position of a text. -/
inductive Look where
  /-- at the beginning of the text -/
  | textStart
  /-- at the beginning of the text or after a newline -/
  | lineStart
  /-- at the end of the text -/
  | textEnd
  /-- at the end of the text or before a newline -/
  | lineEnd
  /-- at the end of the text or before a newline that ends the text -/
  | textEndOrLastNewline
  /-- between an ASCII word character and something else -/
  | asciiWord
  /-- negation of `asciiWord` -/
  | notAsciiWord
  /-- between a Unicode word character and something else -/
  | unicodeWord
  /-- negation of `unicodeWord` -/
  | notUnicodeWord
deriving DecidableEq

/-- Expressions in which nothing depends on flags any more. -/
inductive Node where
  | eps
  | set (p : Char → Prop)
  | look (l : Look)
  | seq (l : List Node)
  /-- the first alternative that leads to a match is preferred -/
  | alt (l : List Node)
  /-- at least `lo` and, if there is a bound, at most `hi` times; `greedy` prefers more -/
  | rep (lo : Nat) (hi : Option Nat) (greedy : Bool) (n : Node)
  | capture (name : Option Str) (n : Node)

/-- What the Unicode tables say: which characters are case variants of each other (simple case folding) and which
characters have a property.  The laws are facts about the tables. -/
structure Tables where
  same : Char → Char → Prop
  prop : Str → Char → Prop
  wordChar : Char → Prop
  refl : ∀ a, same a a
  symm : ∀ {a b}, same a b → same b a
  trans : ∀ {a b c}, same a b → same b c → same a c
  /-- No character before `A` has a variant. -/
  low : ∀ {a b}, same a b → a.toNat < 65 → a = b
  /-- Only `K` (U+212A, Kelvin sign) and `S` (U+017F, long s) have variants outside of ASCII. -/
  ascii : ∀ {a b}, same a b → a.toNat < 128 → 128 ≤ b.toNat → a ∈ ['k', 'K', 's', 'S']

/-! ## When an expression matches -/

/-- ASCII word characters. -/
def AsciiWordChar (c : Char) : Prop :=
  ('a' ≤ c ∧ c ≤ 'z') ∨ ('A' ≤ c ∧ c ≤ 'Z') ∨ ('0' ≤ c ∧ c ≤ '9') ∨ c = '_'

/-- Exactly one side of a position has a character from the set. -/
def Boundary (w : Char → Prop) (before after : Str) : Prop :=
  (∃ c ∈ before.getLast?, w c) ↔ ¬ ∃ c ∈ after.head?, w c

/-- The condition holds at the position between `before` and `after`. -/
def LookAt (T : Tables) (l : Look) (before after : Str) : Prop :=
  match l with
  | .textStart => before = []
  | .lineStart => before = [] ∨ before.getLast? = some '\n'
  | .textEnd => after = []
  | .lineEnd => after = [] ∨ after.head? = some '\n'
  | .textEndOrLastNewline => after = [] ∨ after = ['\n']
  | .asciiWord => Boundary AsciiWordChar before after
  | .notAsciiWord => ¬ Boundary AsciiWordChar before after
  | .unicodeWord => Boundary T.wordChar before after
  | .notUnicodeWord => ¬ Boundary T.wordChar before after

/-- `Spans T n before mid after`: in the text `before ++ mid ++ after` the expression can match `mid`. -/
inductive Spans (T : Tables) : Node → Str → Str → Str → Prop where
  | eps {p q : Str} : Spans T .eps p [] q
  | set {P : Char → Prop} {c : Char} {p q : Str} (h : P c) : Spans T (.set P) p [c] q
  | look {l : Look} {p q : Str} (h : LookAt T l p q) : Spans T (.look l) p [] q
  | seqNil {p q : Str} : Spans T (.seq []) p [] q
  | seqCons {n : Node} {l : List Node} {p m m' q : Str} (h : Spans T n p m (m' ++ q))
      (h' : Spans T (.seq l) (p ++ m) m' q) : Spans T (.seq (n :: l)) p (m ++ m') q
  | alt {n : Node} {l : List Node} {p m q : Str} (hn : n ∈ l) (h : Spans T n p m q) : Spans T (.alt l) p m q
  | repZero {hi : Option Nat} {g : Bool} {n : Node} {p q : Str} : Spans T (.rep 0 hi g n) p [] q
  | repSucc {lo : Nat} {hi : Option Nat} {g : Bool} {n : Node} {p m m' q : Str} (hh : hi ≠ some 0)
      (h : Spans T n p m (m' ++ q)) (h' : Spans T (.rep (lo - 1) (hi.map (· - 1)) g n) (p ++ m) m' q) :
      Spans T (.rep lo hi g n) p (m ++ m') q
  | capture {name : Option Str} {n : Node} {p m q : Str} (h : Spans T n p m q) : Spans T (.capture name n) p m q

/-! ## Sets of characters -/

/-- The members of a set and, without regard to case, their variants. -/
def near (T : Tables) (i : Bool) (S : Char → Prop) : Char → Prop :=
  fun x => if i then ∃ y, S y ∧ T.same y x else S x

/-- A set or its complement. -/
def signed (negated : Bool) (S : Char → Prop) : Char → Prop := fun x => if negated then ¬ S x else S x

/-- A range of characters. -/
def between (a b : Char) : Char → Prop := fun x => a ≤ x ∧ x ≤ b

/-- Digits, ASCII whitespace and ASCII word characters: `\d`, `\s` and `\w`. -/
def perlSet : PerlClass → Char → Prop
  | .digit => between '0' '9'
  | .nonDigit => signed true (between '0' '9')
  | .space => fun x => x ∈ [' ', '\t', '\n', '\r', Char.ofNat 11, Char.ofNat 12]
  | .nonSpace => signed true fun x => x ∈ [' ', '\t', '\n', '\r', Char.ofNat 11, Char.ofNat 12]
  | .word => AsciiWordChar
  | .nonWord => signed true AsciiWordChar

/-- `\h`: space and tab. -/
def horizontal : Char → Prop := fun x => x = ' ' ∨ x = '\t'

/-- `\v`: newline, vertical tab, form feed, carriage return. -/
def vertical : Char → Prop := fun x => 10 ≤ x.toNat ∧ x.toNat ≤ 13

/-- The POSIX classes, by ranges of codes. -/
def posixSet : AsciiClassKind → List (Nat × Nat)
  | .alnum => [(0x30, 0x39), (0x41, 0x5A), (0x61, 0x7A)]
  | .alpha => [(0x41, 0x5A), (0x61, 0x7A)]
  | .ascii => [(0x00, 0x7F)]
  | .blank => [(0x09, 0x09), (0x20, 0x20)]
  | .cntrl => [(0x00, 0x1F), (0x7F, 0x7F)]
  | .digit => [(0x30, 0x39)]
  | .graph => [(0x21, 0x7E)]
  | .lower => [(0x61, 0x7A)]
  | .print => [(0x20, 0x7E)]
  | .punct => [(0x21, 0x2F), (0x3A, 0x40), (0x5B, 0x60), (0x7B, 0x7E)]
  | .space => [(0x09, 0x0D), (0x20, 0x20)]
  | .upper => [(0x41, 0x5A)]
  | .word => [(0x30, 0x39), (0x41, 0x5A), (0x5F, 0x5F), (0x61, 0x7A)]
  | .xdigit => [(0x30, 0x39), (0x41, 0x46), (0x61, 0x66)]

/-- The classes of the Rust crate (`regex_syntax::hir::translate::ascii_class`), as listed in its documentation. -/
def rustPosixSet : RAsciiKind → List (Nat × Nat)
  | .alnum => [('0'.toNat, '9'.toNat), ('A'.toNat, 'Z'.toNat), ('a'.toNat, 'z'.toNat)]
  | .alpha => [('A'.toNat, 'Z'.toNat), ('a'.toNat, 'z'.toNat)]
  | .ascii => [(0x00, 0x7F)]
  | .blank => [('\t'.toNat, '\t'.toNat), (' '.toNat, ' '.toNat)]
  | .cntrl => [(0x00, 0x1F), (0x7F, 0x7F)]
  | .digit => [('0'.toNat, '9'.toNat)]
  | .graph => [('!'.toNat, '~'.toNat)]
  | .lower => [('a'.toNat, 'z'.toNat)]
  | .print => [(' '.toNat, '~'.toNat)]
  | .punct => [('!'.toNat, '/'.toNat), (':'.toNat, '@'.toNat), ('['.toNat, '`'.toNat), ('{'.toNat, '~'.toNat)]
  | .space => [('\t'.toNat, '\r'.toNat), (' '.toNat, ' '.toNat)]
  | .upper => [('A'.toNat, 'Z'.toNat)]
  | .word => [('0'.toNat, '9'.toNat), ('A'.toNat, 'Z'.toNat), ('_'.toNat, '_'.toNat), ('a'.toNat, 'z'.toNat)]
  | .xdigit => [('0'.toNat, '9'.toNat), ('A'.toNat, 'F'.toNat), ('a'.toNat, 'f'.toNat)]

/-- Characters whose code is in one of the ranges. -/
def inRanges (l : List (Nat × Nat)) : Char → Prop := fun x => ∃ r ∈ l, r.1 ≤ x.toNat ∧ x.toNat ≤ r.2

/-! ## SDS patterns

The syntax is that of PCRE2 with UTF and without UCP (rust_regex_adapter.rs 436-438, 465; regex_parser.rs): `\d`, `\s`,
`\w` and the POSIX classes only match ASCII, flags set inside a group hold to its end. -/

/-- Flags in effect. -/
abbrev FlagState := Flag → Bool

/-- A part of a bracketed class. -/
def itemSet (T : Tables) (i : Bool) : BracketItem → Char → Prop
  | .literal c => near T i (· = c)
  | .range a b => near T i (between a b)
  | .perl p => perlSet p
  | .unicodeProperty u => signed u.negate (near T i (T.prop u.name))
  | .ascii negated k => signed negated fun x => x.toNat < 128 ∧ near T i (inRanges (posixSet k)) x
  | .horizontalWhitespace => horizontal
  | .notHorizontalWhitespace => signed true horizontal
  | .verticalWhitespace => vertical
  | .notVerticalWhitespace => signed true vertical

/-- A class. -/
def classSet (T : Tables) (s : FlagState) : CharacterClass → Char → Prop
  | .bracket negated items => signed negated fun x => ∃ it ∈ items, itemSet T (s .caseInsensitive) it x
  | .perl p => perlSet p
  | .dot => fun x => s .dotMatchesNewLine = true ∨ x ≠ '\n'
  | .horizontalWhitespace => horizontal
  | .notHorizontalWhitespace => signed true horizontal
  | .verticalWhitespace => vertical
  | .notVerticalWhitespace => signed true vertical
  | .unicodeProperty u => signed u.negate (near T (s .caseInsensitive) (T.prop u.name))

/-- An assertion. -/
def lookOf (s : FlagState) : AssertionType → Look
  | .wordBoundary => .asciiWord
  | .notWordBoundary => .notAsciiWord
  | .startLine => if s .multiLine then .lineStart else .textStart
  | .endLine => if s .multiLine then .lineEnd else .textEndOrLastNewline
  | .startText => .textStart
  | .endText => .textEnd
  | .endTextOptionalNewline => .textEndOrLastNewline

/-- How often a quantifier repeats. -/
def bounds : QuantifierKind → Nat × Option Nat
  | .zeroOrMore => (0, none)
  | .rangeExact n => (n, some n)
  | .rangeMinMax n m => (n, some m)
  | .rangeMin n => (n, none)
  | .zeroOrOne => (0, some 1)
  | .oneOrMore => (1, none)

mutual

/-- What an SDS pattern means, and the flags in effect after it. -/
def meaning (T : Tables) : Ast → FlagState → Node × FlagState
  | .empty, s => (.eps, s)
  | .literal l, s =>
    -- whitespace is ignored under `x` unless it is escaped
    if s .ignoreWhitespace = true ∧ l.escaped = false ∧ l.c ∈ [' ', '\t', '\n', '\r', Char.ofNat 11, Char.ofNat 12]
    then (.eps, s) else (.set (near T (s .caseInsensitive) (· = l.c)), s)
  | .concat l, s => let r := meaningList T l s; (.seq r.1, r.2)
  | .alternation l, s => let r := meaningList T l s; (.alt r.1, r.2)
  | .group .capturing a, s => (.capture none (meaning T a s).1, s)
  | .group (.namedCapturing name) a, s => (.capture (some name) (meaning T a s).1, s)
  | .group (.nonCapturing f) a, s => ((meaning T a (flagsAfter f s)).1, s)
  | .characterClass c, s => (.set (classSet T s c), s)
  | .repetition q a, s =>
    let r := meaning T a s
    (.rep (bounds q.kind).1 (bounds q.kind).2 (!q.isLazy) r.1, r.2)
  | .assertion k, s => (.look (lookOf s k), s)
  | .flags f, s => (.eps, flagsAfter f s)

/-- Several patterns from left to right. -/
def meaningList (T : Tables) : List Ast → FlagState → List Node × FlagState
  | [], s => ([], s)
  | a :: l, s =>
    let r := meaning T a s
    let rs := meaningList T l r.2
    (r.1 :: rs.1, rs.2)

end

/-! ## Patterns of the Rust crate

As `regex_syntax::hir::translate` and the documentation of `regex` describe it; in the fragment `RAst`. -/

/-- Flags in effect.  Only word boundaries look at `u`: the other parts of a converted pattern are never under
`-u`. -/
abbrev RFlagState := RFlag → Bool

mutual

/-- A part of a bracketed class: nested classes are closed under case and then negated; literals and ranges are
closed under case with the class they are in.  Unescaped whitespace is ignored under `x`. -/
def rustItemSet (T : Tables) (t : RFlagState) : RClassItem → Char → Prop
  | .literal l => fun x => x = l.c ∧ ¬ (t .ignoreWhitespace = true ∧ l.kind = .verbatim ∧ isWs l.c = true)
  | .range a b => between a.c b.c
  | .ascii negated k => signed negated (near T (t .caseInsensitive) (inRanges (rustPosixSet k)))
  | .unicode negated name => signed negated (near T (t .caseInsensitive) (T.prop name))
  | .bracketed negated item => signed negated (near T (t .caseInsensitive) (rustItemSet T t item))
  | .union items => rustItemsSet T t items

/-- A union. -/
def rustItemsSet (T : Tables) (t : RFlagState) : List RClassItem → Char → Prop
  | [] => fun _ => False
  | it :: l => fun x => rustItemSet T t it x ∨ rustItemsSet T t l x

end

/-- An assertion. -/
def rustLookOf (t : RFlagState) : RAssertionKind → Look
  | .startLine => if t .multiLine then .lineStart else .textStart
  | .endLine => if t .multiLine then .lineEnd else .textEnd
  | .startText => .textStart
  | .endText => .textEnd
  | .wordBoundary => if t .unicode then .unicodeWord else .asciiWord
  | .notWordBoundary => if t .unicode then .notUnicodeWord else .notAsciiWord

/-- How often a repetition repeats. -/
def rustBounds : RRepetitionKind → Nat × Option Nat
  | .zeroOrOne => (0, some 1)
  | .zeroOrMore => (0, none)
  | .oneOrMore => (1, none)
  | .exactly n => (n, some n)
  | .atLeast n => (n, none)
  | .bounded n m => (n, some m)

mutual

/-- What a pattern of the Rust crate means, and the flags in effect after it. -/
def rustMeaning (T : Tables) : RAst → RFlagState → Node × RFlagState
  | .empty, t => (.eps, t)
  | .flags items, t => (.eps, rustFlagsAfter items true t)
  | .literal l, t =>
    -- all whitespace of Unicode is ignored under `x` unless it is escaped
    if t .ignoreWhitespace = true ∧ l.kind = .verbatim ∧ isWs l.c = true then (.eps, t)
    else (.set (near T (t .caseInsensitive) (· = l.c)), t)
  | .dot, t => (.set fun x => t .dotMatchesNewLine = true ∨ x ≠ '\n', t)
  | .assertion k, t => (.look (rustLookOf t k), t)
  | .classUnicode negated name, t => (.set (signed negated (near T (t .caseInsensitive) (T.prop name))), t)
  | .classBracketed c, t => (.set (signed c.negated (near T (t .caseInsensitive) (rustItemSet T t c.item))), t)
  | .repetition k greedy a, t =>
    let r := rustMeaning T a t
    (.rep (rustBounds k).1 (rustBounds k).2 greedy r.1, r.2)
  | .group .captureIndex a, t => (.capture none (rustMeaning T a t).1, t)
  | .group (.captureName name) a, t => (.capture (some name) (rustMeaning T a t).1, t)
  | .group (.nonCapturing items) a, t => ((rustMeaning T a (rustFlagsAfter items true t)).1, t)
  | .alternation l, t => let r := rustMeaningList T l t; (.alt r.1, r.2)
  | .concat l, t => let r := rustMeaningList T l t; (.seq r.1, r.2)

/-- Several patterns from left to right. -/
def rustMeaningList (T : Tables) : List RAst → RFlagState → List Node × RFlagState
  | [], t => ([], t)
  | a :: l, t =>
    let r := rustMeaning T a t
    let rs := rustMeaningList T l r.2
    (r.1 :: rs.1, rs.2)

end

/-- The flags in effect at the beginning of an SDS pattern: none. -/
def noFlags : FlagState := fun _ => false

/-- The flags in effect at the beginning of a Rust pattern (`RegexBuilder` is used with its defaults): `u`. -/
def rustDefaults : RFlagState := fun f => f = .unicode

/-! ## Restrictions -/

/-- There is no `$` and no `\Z`. -/
def NoEndAssertion (a : Ast) : Prop :=
  ¬ PartOf (.assertion .endLine) a ∧ ¬ PartOf (.assertion .endTextOptionalNewline) a

/-- Outside of bracketed classes there is no whitespace other than that of ASCII. -/
def AsciiSpaces (a : Ast) : Prop :=
  ∀ l, PartOf (.literal l) a → isWs l.c = true → l.c.toNat < 128

/-- A class of ASCII characters that has one of the letters K and S. -/
def HasLetters : BracketItem → Prop
  | .perl p => p = .word ∨ p = .nonWord
  | .ascii _ k => k ∈ [.alnum, .alpha, .ascii, .graph, .lower, .print, .upper, .word]
  | _ => False

/-- The pattern has no such class. -/
def NoLetterClass (a : Ast) : Prop :=
  ¬ PartOf (.characterClass (.perl .word)) a ∧ ¬ PartOf (.characterClass (.perl .nonWord)) a ∧
  ∀ negated items, PartOf (.characterClass (.bracket negated items)) a → ∀ it ∈ items, ¬ HasLetters it

/-- The pattern nowhere sets the flag `i`. -/
def NoIgnoreCase (a : Ast) : Prop :=
  (∀ f, PartOf (.flags f) a → .caseInsensitive ∉ f.add) ∧
  ∀ f b, PartOf (.group (.nonCapturing f) b) a → .caseInsensitive ∉ f.add

end Sds.Spec
