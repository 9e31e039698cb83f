import Verif.Model.Parser
import Verif.Model.Keywords

/-!
# Conversion to the syntax of the Rust regex crate

Models sds/src/normalization/rust_regex_adapter.rs.

The syntax trees of the `regex-syntax` crate are modelled by `RAst`, restricted to the variants the conversion
produces, without spans and capture indexes.  `RAst.print` models `impl Display for Ast` of that crate
(regex_syntax::ast::print).
-/

namespace Sds.Re
open Sds

/-! ## Syntax trees of regex-syntax -/

/-- `regex_syntax::ast::LiteralKind`, the variants used (rust_regex_adapter.rs 20-21). -/
inductive RLiteralKind where
  | verbatim
  | metaChar
  | hexBrace
deriving DecidableEq, Repr

/-- `regex_syntax::ast::Literal`. -/
structure RLiteral where
  kind : RLiteralKind
  c : Char
deriving DecidableEq, Repr

/-- `regex_syntax::ast::Flag`, the variants used. -/
inductive RFlag where
  | caseInsensitive
  | multiLine
  | dotMatchesNewLine
  | unicode
  | ignoreWhitespace
deriving DecidableEq, Repr

/-- `regex_syntax::ast::FlagsItemKind`. -/
inductive RFlagsItem where
  | negation
  | flag (f : RFlag)
deriving DecidableEq, Repr

/-- `regex_syntax::ast::GroupKind`. -/
inductive RGroupKind where
  | captureIndex
  | captureName (name : Str)
  | nonCapturing (flags : List RFlagsItem)
deriving DecidableEq, Repr

/-- `regex_syntax::ast::ClassAsciiKind`. -/
inductive RAsciiKind where
  | alnum | alpha | ascii | blank | cntrl | digit | graph | lower | print | punct | space | upper | word | xdigit
deriving DecidableEq, Repr

/-- `regex_syntax::ast::ClassSetItem`; `bracketed` is a `ClassBracketed` whose set is one item. -/
inductive RClassItem where
  | literal (l : RLiteral)
  | range (start stop : RLiteral)
  | ascii (negated : Bool) (kind : RAsciiKind)
  | unicode (negated : Bool) (name : Str)
  | bracketed (negated : Bool) (item : RClassItem)
  | union (items : List RClassItem)
deriving Repr

/-- `regex_syntax::ast::ClassBracketed`; the set is one item, the conversion uses no set operations. -/
structure RBracketed where
  negated : Bool
  item : RClassItem
deriving Repr

/-- `regex_syntax::ast::RepetitionKind` with `RepetitionRange`. -/
inductive RRepetitionKind where
  | zeroOrOne
  | zeroOrMore
  | oneOrMore
  | exactly (n : Nat)
  | atLeast (n : Nat)
  | bounded (n m : Nat)
deriving DecidableEq, Repr

/-- `regex_syntax::ast::AssertionKind`, the variants used. -/
inductive RAssertionKind where
  | startLine
  | endLine
  | startText
  | endText
  | wordBoundary
  | notWordBoundary
deriving DecidableEq, Repr

/-- `regex_syntax::ast::Ast`. -/
inductive RAst where
  | empty
  | flags (items : List RFlagsItem)
  | literal (l : RLiteral)
  | dot
  | assertion (kind : RAssertionKind)
  | classUnicode (negated : Bool) (name : Str)
  | classBracketed (c : RBracketed)
  | repetition (kind : RRepetitionKind) (greedy : Bool) (inner : RAst)
  | group (kind : RGroupKind) (inner : RAst)
  | alternation (l : List RAst)
  | concat (l : List RAst)
deriving Repr

/-! ## Conversion -/

/-- `QUANTIFIER_LIMIT` (rust_regex_adapter.rs 28). -/
def quantifierLimit : Nat := 3000

/-- `ASCII_WHITESPACE_CHARS` (rust_regex_adapter.rs 27). -/
def asciiWhitespaceChars : List Char :=
  [Char.ofNat 0x0D, Char.ofNat 0x0A, Char.ofNat 0x09, Char.ofNat 0x0C, Char.ofNat 0x0B, Char.ofNat 0x20]

/-- `regex_syntax::is_meta_character`. -/
def isMetaCharacter (c : Char) : Bool :=
  ['\\', '.', '+', '*', '?', '(', ')', '|', '[', ']', '{', '}', '^', '$', '#', '&', '-', '~'].contains c

/-- `convert_literal` (rust_regex_adapter.rs 432-463).  `regex_syntax::is_escapeable_character` is true for all
characters below 32. -/
def convertLiteral (l : Literal) (kind : LiteralKind) : RLiteral :=
  { kind :=
      if isMetaCharacter l.c then .metaChar
      else if kind = .bracketedCharacterClass ∧ isWs l.c then .hexBrace
      else if kind = .normal ∧ asciiWhitespaceChars.contains l.c then
        if l.escaped then .hexBrace else .verbatim
      else if l.c.toNat < 32 then .hexBrace
      else .verbatim
    c := l.c }

/-- A literal of a bracketed class (as in rust_regex_adapter.rs 338-344). -/
def bracketLiteral (c : Char) : RClassItem :=
  .literal (convertLiteral { c := c, escaped := true } .bracketedCharacterClass)

/-- A range of a bracketed class (as in rust_regex_adapter.rs 347-363). -/
def bracketRange (start stop : Char) : RClassItem :=
  .range (convertLiteral { c := start, escaped := false } .bracketedCharacterClass)
    (convertLiteral { c := stop, escaped := false } .bracketedCharacterClass)

/-- `horizontal_whitespace` (rust_regex_adapter.rs 264-288). -/
def horizontalWhitespace (negated : Bool) : RBracketed :=
  { negated := negated, item := .union [bracketLiteral ' ', bracketLiteral '\t'] }

/-- `vertical_whitespace` (rust_regex_adapter.rs 290-330). -/
def verticalWhitespace (negated : Bool) : RBracketed :=
  { negated := negated
    item := .union [bracketLiteral (Char.ofNat 0x0B), bracketLiteral '\n', bracketLiteral (Char.ofNat 0x0C),
      bracketLiteral '\r'] }

/-- `perl_class_digit` (rust_regex_adapter.rs 477-500). -/
def perlClassDigit (negated : Bool) : RBracketed := { negated := negated, item := bracketRange '0' '9' }

/-- `perl_class_space` (rust_regex_adapter.rs 502-555). -/
def perlClassSpace (negated : Bool) : RBracketed :=
  { negated := negated
    item := .union [bracketLiteral '\r', bracketLiteral '\n', bracketLiteral '\t', bracketLiteral (Char.ofNat 0x0C),
      bracketLiteral (Char.ofNat 0x0B), bracketLiteral ' '] }

/-- `perl_class_word` (rust_regex_adapter.rs 557-626). -/
def perlClassWord (negated : Bool) : RBracketed :=
  { negated := negated
    item := .union [bracketRange 'a' 'z', bracketRange 'A' 'Z', bracketRange '0' '9',
      .literal (convertLiteral { c := '_', escaped := false } .bracketedCharacterClass)] }

/-- `convert_perl_class` (rust_regex_adapter.rs 466-475). -/
def convertPerlClass : PerlClass → RBracketed
  | .digit => perlClassDigit false
  | .space => perlClassSpace false
  | .word => perlClassWord false
  | .nonDigit => perlClassDigit true
  | .nonSpace => perlClassSpace true
  | .nonWord => perlClassWord true

/-- A bracketed class as an item of a class. -/
def RBracketed.toItem (b : RBracketed) : RClassItem := .bracketed b.negated b.item

/-- `convert_ascii_class_kind` (rust_regex_adapter.rs 405-422). -/
def convertAsciiClassKind : AsciiClassKind → RAsciiKind
  | .alnum => .alnum
  | .alpha => .alpha
  | .ascii => .ascii
  | .blank => .blank
  | .cntrl => .cntrl
  | .digit => .digit
  | .graph => .graph
  | .lower => .lower
  | .print => .print
  | .punct => .punct
  | .space => .space
  | .upper => .upper
  | .word => .word
  | .xdigit => .xdigit

/-- The loop body of `convert_bracket_items` (rust_regex_adapter.rs 336-400). -/
def convertBracketItem : BracketItem → RClassItem
  | .literal c => bracketLiteral c
  | .range start stop => bracketRange start stop
  | .perl c => (convertPerlClass c).toItem
  | .unicodeProperty u => .unicode u.negate u.name
  | .ascii negated kind => .ascii negated (convertAsciiClassKind kind)
  | .horizontalWhitespace => (horizontalWhitespace false).toItem
  | .notHorizontalWhitespace => (horizontalWhitespace true).toItem
  | .verticalWhitespace => (verticalWhitespace false).toItem
  | .notVerticalWhitespace => (verticalWhitespace true).toItem

/-- `convert_bracket_items` (rust_regex_adapter.rs 332-403). -/
def convertBracketItems (items : List BracketItem) : List RClassItem := items.map convertBracketItem

/-- `convert_flag` (rust_regex_adapter.rs 682-689). -/
def convertFlag : Flag → RFlag
  | .caseInsensitive => .caseInsensitive
  | .multiLine => .multiLine
  | .dotMatchesNewLine => .dotMatchesNewLine
  | .ignoreWhitespace => .ignoreWhitespace

/-- The discriminant of a flag, by which `derive(Ord)` orders (ast.rs 183-197). -/
def Flag.rank : Flag → Nat
  | .caseInsensitive => 0
  | .multiLine => 1
  | .dotMatchesNewLine => 2
  | .ignoreWhitespace => 3

/-- One step of `sortFlags`. -/
def insertFlag (f : Flag) : List Flag → List Flag
  | [] => [f]
  | g :: l => if f.rank ≤ g.rank then f :: g :: l else g :: insertFlag f l

/-- `Vec::sort` on flags.  The order is total, so the sorted list does not depend on the algorithm. -/
def sortFlags : List Flag → List Flag
  | [] => []
  | f :: l => insertFlag f (sortFlags l)

/-- `Vec::dedup`: drop consecutive repeated elements. -/
def dedup : List Flag → List Flag
  | [] => []
  | [a] => [a]
  | a :: b :: l => if a = b then dedup (b :: l) else a :: dedup (b :: l)

/-- `convert_flags` (rust_regex_adapter.rs 628-680). -/
def convertFlags (flags : Flags) : List RFlagsItem :=
  let addFlags := dedup (sortFlags flags.add)
  let removeFlags := dedup (sortFlags flags.remove)
  let flagsInBoth := removeFlags.filter fun f => addFlags.contains f
  let addFlags := flagsInBoth.foldl (fun l f => l.filter fun x => x ≠ f) addFlags
  addFlags.map (fun f => RFlagsItem.flag (convertFlag f)) ++
    if removeFlags.isEmpty then []
    else .negation :: removeFlags.map fun f => RFlagsItem.flag (convertFlag f)

/-- The match on the quantifier (rust_regex_adapter.rs 97-119). -/
def convertQuantifier : QuantifierKind → Except PErr RRepetitionKind
  | .zeroOrMore => .ok .zeroOrMore
  | .rangeExact n => if n > quantifierLimit then .error .exceededQuantifierLimit else .ok (.exactly n)
  | .rangeMinMax n m =>
    if n > quantifierLimit ∨ m > quantifierLimit then .error .exceededQuantifierLimit else .ok (.bounded n m)
  | .rangeMin n => if n > quantifierLimit then .error .exceededQuantifierLimit else .ok (.atLeast n)
  | .zeroOrOne => .ok .zeroOrOne
  | .oneOrMore => .ok .oneOrMore

/-- The match on the assertion (rust_regex_adapter.rs 124-227).  For `\Z` the recursive call on a literal tree
(lines 212-225) is already evaluated: it converts the repetition of an escaped newline followed by the end of the
text. -/
def convertAssertion : AssertionType → RAst
  | .wordBoundary => .group (.nonCapturing [.negation, .flag .unicode]) (.assertion .wordBoundary)
  | .notWordBoundary => .group (.nonCapturing [.negation, .flag .unicode]) (.assertion .notWordBoundary)
  | .startLine => .assertion .startLine
  | .endLine =>
    .concat [.repetition .zeroOrOne true (.literal { kind := .hexBrace, c := '\n' }), .assertion .endLine]
  | .startText => .assertion .startText
  | .endText => .assertion .endText
  | .endTextOptionalNewline =>
    .concat [.repetition .zeroOrOne true (.literal (convertLiteral { c := '\n', escaped := true } .normal)),
      .assertion .endText]

/-- The match on the character class (rust_regex_adapter.rs 228-260). -/
def convertClass : CharacterClass → RAst
  | .bracket negated items => .classBracketed { negated := negated, item := .union (convertBracketItems items) }
  | .perl c => .classBracketed (convertPerlClass c)
  | .dot => .dot
  | .unicodeProperty u => .classUnicode u.negate u.name
  | .horizontalWhitespace => .classBracketed (horizontalWhitespace false)
  | .notHorizontalWhitespace => .classBracketed (horizontalWhitespace true)
  | .verticalWhitespace => .classBracketed (verticalWhitespace false)
  | .notVerticalWhitespace => .classBracketed (verticalWhitespace true)

/-- The match on the group (rust_regex_adapter.rs 56-83). -/
def convertGroupKind : GroupKind → RGroupKind
  | .capturing => .captureIndex
  | .nonCapturing flags => .nonCapturing (convertFlags flags)
  | .namedCapturing name => .captureName name

mutual

/-- `convert_ast` (rust_regex_adapter.rs 47-262). -/
def convertAst : Ast → Except PErr RAst
  | .empty => .ok .empty
  | .literal l => .ok (.literal (convertLiteral l .normal))
  | .concat l =>
    match convertList l with
    | .ok l => .ok (.concat l)
    | .error e => .error e
  | .group kind inner =>
    match convertAst inner with
    | .ok inner => .ok (.group (convertGroupKind kind) inner)
    | .error e => .error e
  | .alternation l =>
    match convertList l with
    | .ok l => .ok (.alternation l)
    | .error e => .error e
  | .flags f => .ok (.flags (convertFlags f))
  | .repetition q inner =>
    match convertQuantifier q.kind with
    | .error e => .error e
    | .ok kind =>
      match convertAst inner with
      | .ok inner => .ok (.repetition kind (!q.isLazy) inner)
      | .error e => .error e
  | .assertion a => .ok (convertAssertion a)
  | .characterClass c => .ok (convertClass c)

/-- `list.iter().map(convert_ast).collect::<Result<_, _>>()` (rust_regex_adapter.rs 53, 87). -/
def convertList : List Ast → Except PErr (List RAst)
  | [] => .ok []
  | a :: l =>
    match convertAst a with
    | .error e => .error e
    | .ok a =>
      match convertList l with
      | .ok l => .ok (a :: l)
      | .error e => .error e

end

/-! ## Printing (regex_syntax::ast::print) -/

/-- A number in decimal. -/
def printNat (n : Nat) : Str := (toString n).toList

/-- A number in upper case hexadecimal. -/
def printHex (n : Nat) : Str := (Nat.toDigits 16 n).map fun c => if 'a' ≤ c ∧ c ≤ 'f' then Char.ofNat (c.toNat - 32) else c

/-- `Writer::fmt_literal`. -/
def RLiteral.print (l : RLiteral) : Str :=
  match l.kind with
  | .verbatim => [l.c]
  | .metaChar => ['\\', l.c]
  | .hexBrace => ['\\', 'x', '{'] ++ printHex l.c.toNat ++ ['}']

/-- `Writer::fmt_flags`. -/
def RFlagsItem.print : RFlagsItem → Char
  | .negation => '-'
  | .flag .caseInsensitive => 'i'
  | .flag .multiLine => 'm'
  | .flag .dotMatchesNewLine => 's'
  | .flag .unicode => 'u'
  | .flag .ignoreWhitespace => 'x'

/-- The names in `Writer::fmt_class_ascii`. -/
def RAsciiKind.name : RAsciiKind → Str
  | .alnum => "alnum".toList
  | .alpha => "alpha".toList
  | .ascii => "ascii".toList
  | .blank => "blank".toList
  | .cntrl => "cntrl".toList
  | .digit => "digit".toList
  | .graph => "graph".toList
  | .lower => "lower".toList
  | .print => "print".toList
  | .punct => "punct".toList
  | .space => "space".toList
  | .upper => "upper".toList
  | .word => "word".toList
  | .xdigit => "xdigit".toList

/-- `Writer::fmt_class_unicode` for a named class. -/
def printUnicode (negated : Bool) (name : Str) : Str :=
  ['\\', if negated then 'P' else 'p', '{'] ++ name ++ ['}']

mutual

/-- `Writer::visit_class_set_item_post`, `fmt_class_bracketed_pre` and `fmt_class_bracketed_post`. -/
def RClassItem.print : RClassItem → Str
  | .literal l => l.print
  | .range start stop => start.print ++ '-' :: stop.print
  | .ascii negated kind => ['[', ':'] ++ (if negated then ['^'] else []) ++ kind.name ++ [':', ']']
  | .unicode negated name => printUnicode negated name
  | .bracketed negated item => (if negated then ['[', '^'] else ['[']) ++ item.print ++ [']']
  | .union items => printItems items

/-- The items of a union. -/
def printItems : List RClassItem → Str
  | [] => []
  | item :: items => item.print ++ printItems items

end

/-- `Writer::fmt_assertion`. -/
def RAssertionKind.print : RAssertionKind → Str
  | .startLine => ['^']
  | .endLine => ['$']
  | .startText => ['\\', 'A']
  | .endText => ['\\', 'z']
  | .wordBoundary => ['\\', 'b']
  | .notWordBoundary => ['\\', 'B']

/-- `Writer::fmt_repetition`. -/
def RRepetitionKind.print : RRepetitionKind → Str
  | .zeroOrOne => ['?']
  | .zeroOrMore => ['*']
  | .oneOrMore => ['+']
  | .exactly n => '{' :: printNat n ++ ['}']
  | .atLeast n => '{' :: printNat n ++ [',', '}']
  | .bounded n m => '{' :: printNat n ++ ',' :: printNat m ++ ['}']

/-- `Writer::fmt_group_pre`. -/
def RGroupKind.print : RGroupKind → Str
  | .captureIndex => ['(']
  | .captureName name => ['(', '?', '<'] ++ name ++ ['>']
  | .nonCapturing flags => ['(', '?'] ++ flags.map RFlagsItem.print ++ [':']

mutual

/-- `impl Visitor for Writer`. -/
def RAst.print : RAst → Str
  | .empty => []
  | .flags items => ['(', '?'] ++ items.map RFlagsItem.print ++ [')']
  | .literal l => l.print
  | .dot => ['.']
  | .assertion kind => kind.print
  | .classUnicode negated name => printUnicode negated name
  | .classBracketed c => c.toItem.print
  | .repetition kind greedy inner => inner.print ++ kind.print ++ (if greedy then [] else ['?'])
  | .group kind inner => kind.print ++ inner.print ++ [')']
  | .alternation l => printAlternatives l
  | .concat l => printConcat l

/-- The elements of a concatenation. -/
def printConcat : List RAst → Str
  | [] => []
  | a :: l => a.print ++ printConcat l

/-- The alternatives with separators, `visit_alternation_in`. -/
def printAlternatives : List RAst → Str
  | [] => []
  | [a] => a.print
  | a :: l => a.print ++ '|' :: printAlternatives l

end

/-- `convert_to_rust_regex` (rust_regex_adapter.rs 39-43). -/
def convertToRustRegex (pattern : Str) : Res (Except PErr Str) :=
  match parseRegexPattern pattern with
  | .ok (.ok a) =>
    match convertAst a with
    | .ok r => .ok (.ok r.print)
    | .error e => .ok (.error e)
  | .ok (.error e) => .ok (.error e)
  | .panic => .panic
  | .hang => .hang

end Sds.Re
