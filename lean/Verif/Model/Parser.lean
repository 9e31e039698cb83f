import Verif.Model.Str

/-!
# The pattern parser

Models sds/src/parser: `ast.rs`, `error.rs`, `input.rs`, `regex_parser.rs`.  The combinators of the `nom` crate
(version 7) are modelled by the functions in the first part, with `nom`'s distinction between a recoverable error
(`err`) and a failure (`fail`), which stops backtracking.

Simplifications: a `Vec<Ast>` is a list and an `Rc` is its content; `Group` carries its inner expression next to a
`GroupKind` instead of inside it.
-/

namespace Sds.Re
open Sds

/-! ## Syntax trees (ast.rs) -/

/-- `Literal` (ast.rs 20-27). -/
structure Literal where
  c : Char
  escaped : Bool
deriving DecidableEq, Repr

/-- `Flag` (ast.rs 184-196). -/
inductive Flag where
  | caseInsensitive
  | multiLine
  | dotMatchesNewLine
  | ignoreWhitespace
deriving DecidableEq, Repr

/-- `Flags` (ast.rs 176-181). -/
structure Flags where
  add : List Flag
  remove : List Flag
deriving DecidableEq, Repr

/-- The variants of `Group` (ast.rs 29-51) without the inner expression. -/
inductive GroupKind where
  | capturing
  | nonCapturing (flags : Flags)
  | namedCapturing (name : Str)
deriving DecidableEq, Repr

/-- `UnicodePropertyClass` (ast.rs 65-69). -/
structure UnicodePropertyClass where
  negate : Bool
  name : Str
deriving DecidableEq, Repr

/-- `PerlCharacterClass` (ast.rs 93-101). -/
inductive PerlClass where
  | digit | space | word | nonDigit | nonSpace | nonWord
deriving DecidableEq, Repr

/-- `AsciiClassKind` (ast.rs 128-144). -/
inductive AsciiClassKind where
  | alnum | alpha | ascii | blank | cntrl | digit | graph | lower | print | punct | space | upper | word | xdigit
deriving DecidableEq, Repr

/-- `BracketCharacterClassItem` (ast.rs 109-120). -/
inductive BracketItem where
  | literal (c : Char)
  | range (start stop : Char)
  | perl (p : PerlClass)
  | unicodeProperty (u : UnicodePropertyClass)
  | ascii (negated : Bool) (kind : AsciiClassKind)
  | horizontalWhitespace
  | notHorizontalWhitespace
  | verticalWhitespace
  | notVerticalWhitespace
deriving DecidableEq, Repr

/-- `CharacterClass` (ast.rs 53-63). -/
inductive CharacterClass where
  | bracket (negated : Bool) (items : List BracketItem)
  | perl (p : PerlClass)
  | dot
  | horizontalWhitespace
  | notHorizontalWhitespace
  | verticalWhitespace
  | notVerticalWhitespace
  | unicodeProperty (u : UnicodePropertyClass)
deriving DecidableEq, Repr

/-- `QuantifierKind` (ast.rs 71-85). -/
inductive QuantifierKind where
  | zeroOrMore
  | rangeExact (n : Nat)
  | rangeMinMax (n m : Nat)
  | rangeMin (n : Nat)
  | zeroOrOne
  | oneOrMore
deriving DecidableEq, Repr

/-- `Quantifier` (ast.rs 87-91). -/
structure Quantifier where
  isLazy : Bool
  kind : QuantifierKind
deriving DecidableEq, Repr

/-- `AssertionType` (ast.rs 152-174). -/
inductive AssertionType where
  | wordBoundary
  | notWordBoundary
  | startLine
  | endLine
  | startText
  | endText
  | endTextOptionalNewline
deriving DecidableEq, Repr

/-- `Ast` (ast.rs 5-18). -/
inductive Ast where
  | empty
  | literal (l : Literal)
  | concat (l : List Ast)
  | group (kind : GroupKind) (inner : Ast)
  | characterClass (c : CharacterClass)
  | alternation (l : List Ast)
  | repetition (q : Quantifier) (inner : Ast)
  | assertion (a : AssertionType)
  | flags (f : Flags)
deriving Repr

/-! ## Parsers (nom, input.rs, error.rs) -/

/-- `ParseError` (error.rs 6-11). -/
inductive PErr where
  | invalidSyntax
  | exceededDepthLimit
  | exceededQuantifierLimit
deriving DecidableEq, Repr

/-- `Input` (input.rs 11-15). -/
structure Input where
  value : Str
  depth : Nat
deriving DecidableEq, Repr

/-- `nom::IResult`; `panic` is a Rust panic and `hang` is running out of fuel. -/
inductive PR (α : Type) where
  | ok (rest : Input) (a : α)
  | err (e : PErr)
  | fail (e : PErr)
  | panic
  | hang
deriving Repr

/-- A parser. -/
def Parser (α : Type) : Type := Input → PR α

/-- Run a parser and then another one on the rest, as with `?`. -/
def Parser.bind {α β : Type} (p : Parser α) (f : α → Parser β) : Parser β := fun i =>
  match p i with
  | .ok j a => f a j
  | .err e => .err e
  | .fail e => .fail e
  | .panic => .panic
  | .hang => .hang

instance : Monad Parser where
  pure a := fun i => .ok i a
  bind := Parser.bind

/-- `alt` of two parsers: the second one runs on the same input if the first one gives a recoverable error. -/
def Parser.orElse {α : Type} (p q : Parser α) : Parser α := fun i =>
  match p i with
  | .ok j a => .ok j a
  | .err _ => q i
  | .fail e => .fail e
  | .panic => .panic
  | .hang => .hang

/-- `nom::branch::alt`. -/
def alt {α : Type} : Parser α → List (Parser α) → Parser α
  | p, [] => p
  | p, q :: qs => Parser.orElse p (alt q qs)

/-- A recoverable error. -/
def error {α : Type} (e : PErr) : Parser α := fun _ => .err e

/-- An unrecoverable failure. -/
def failure {α : Type} (e : PErr) : Parser α := fun _ => .fail e

/-- The rest of the text after a prefix. -/
def stripPrefix : Str → Str → Option Str
  | [], s => some s
  | _ :: _, [] => none
  | t :: ts, c :: cs => if t = c then stripPrefix ts cs else none

/-- `tag`. -/
def tag (t : Str) : Parser Unit := fun i =>
  match stripPrefix t i.value with
  | some r => .ok { value := r, depth := i.depth } ()
  | none => .err .invalidSyntax

/-- `map(tag(t), |_| a)`. -/
def tagged {α : Type} (t : Str) (a : α) : Parser α := do
  tag t
  pure a

/-- The text before and from the first occurrence of `t`. -/
def splitBefore (t : Str) : Str → Option (Str × Str)
  | [] => if t = [] then some ([], []) else none
  | c :: cs =>
    if (stripPrefix t (c :: cs)).isSome then some ([], c :: cs)
    else
      match splitBefore t cs with
      | some (a, b) => some (c :: a, b)
      | none => none

/-- `take_until`. -/
def takeUntil (t : Str) : Parser Str := fun i =>
  match splitBefore t i.value with
  | some (a, b) => .ok { value := b, depth := i.depth } a
  | none => .err .invalidSyntax

/-- The first character if it satisfies a condition. -/
def satisfy (ok : Char → Bool) : Parser Char := fun i =>
  match i.value with
  | c :: cs => if ok c then .ok { value := cs, depth := i.depth } c else .err .invalidSyntax
  | [] => .err .invalidSyntax

/-- `one_of`. -/
def oneOf (l : Str) : Parser Char := satisfy fun c => decide (c ∈ l)

/-- `none_of`. -/
def noneOf (l : Str) : Parser Char := satisfy fun c => decide (c ∉ l)

/-- `eof`. -/
def eof : Parser Unit := fun i => if blen i.value = 0 then .ok i () else .err .invalidSyntax

/-- `opt`. -/
def opt {α : Type} (p : Parser α) : Parser (Option α) := fun i =>
  match p i with
  | .ok j a => .ok j (some a)
  | .err _ => .ok i none
  | .fail e => .fail e
  | .panic => .panic
  | .hang => .hang

/-- The loop of `many0` and `many1`. -/
def manyLoop {α : Type} (p : Parser α) : Nat → Parser (List α)
  | 0 => fun _ => .hang
  | n + 1 => fun i =>
    match p i with
    | .ok j a =>
      if blen j.value = blen i.value then .err .invalidSyntax
      else Parser.bind (manyLoop p n) (fun l => pure (a :: l)) j
    | .err _ => .ok i []
    | .fail e => .fail e
    | .panic => .panic
    | .hang => .hang

/-- `many0`.  The fuel is an upper bound of the number of rounds. -/
def many0 {α : Type} (p : Parser α) : Parser (List α) := fun i => manyLoop p (blen i.value + 1) i

/-- `many1`. -/
def many1 {α : Type} (p : Parser α) : Parser (List α) := do
  let a ← p
  let l ← many0 p
  pure (a :: l)

/-- `many_m_n(0, n, p)`. -/
def manyUpTo {α : Type} (p : Parser α) : Nat → Parser (List α)
  | 0 => pure []
  | n + 1 => fun i =>
    match p i with
    | .ok j a =>
      if blen j.value = blen i.value then .err .invalidSyntax
      else Parser.bind (manyUpTo p n) (fun l => pure (a :: l)) j
    | .err _ => .ok i []
    | .fail e => .fail e
    | .panic => .panic
    | .hang => .hang

/-- The loop of `separated_list1`. -/
def sepLoop {α : Type} (sep : Parser Unit) (p : Parser α) : Nat → Parser (List α)
  | 0 => fun _ => .hang
  | n + 1 => fun i =>
    match sep i with
    | .ok j _ =>
      if blen j.value = blen i.value then .err .invalidSyntax
      else
        match p j with
        | .ok k a => Parser.bind (sepLoop sep p n) (fun l => pure (a :: l)) k
        | .err _ => .ok i []
        | .fail e => .fail e
        | .panic => .panic
        | .hang => .hang
    | .err _ => .ok i []
    | .fail e => .fail e
    | .panic => .panic
    | .hang => .hang

/-- `separated_list1`. -/
def separatedList1 {α : Type} (sep : Parser Unit) (p : Parser α) : Parser (List α) := do
  let a ← p
  let l ← fun i => sepLoop sep p (blen i.value + 1) i
  pure (a :: l)

/-- `recognize`: the text that the parser consumed. -/
def recognize {α : Type} (p : Parser α) : Parser Str := fun i =>
  match p i with
  | .ok j _ => .ok j (i.value.take (i.value.length - j.value.length))
  | .err e => .err e
  | .fail e => .fail e
  | .panic => .panic
  | .hang => .hang

/-! ## Constants (regex_parser.rs 24-34) -/

/-- `ASCII_LETTERS` (regex_parser.rs 24). -/
def asciiLetters : Str := "abcdefghijklmnopqrstuvwxyzABCDEFGHIJKLMNOPQRSTUVWXYZ".toList

/-- `ASCII_LETTERS_WITH_UNDERSCORE` (regex_parser.rs 25). -/
def asciiLettersUnderscore : Str := "abcdefghijklmnopqrstuvwxyzABCDEFGHIJKLMNOPQRSTUVWXYZ_".toList

/-- `ASCII_ALPHANUMERIC_WITH_UNDERSCORE` (regex_parser.rs 26-27). -/
def asciiAlphanumericUnderscore : Str :=
  "abcdefghijklmnopqrstuvwxyzABCDEFGHIJKLMNOPQRSTUVWXYZ0123456789_".toList

/-- `HEX_DIGIT` (regex_parser.rs 28). -/
def hexDigits : Str := "0123456789ABCDEFabcdef".toList

/-- `ESCAPED_LITERAL_DENY_LIST` (regex_parser.rs 31). -/
def escapedLiteralDenyList : Str := "0123456789cgklopuxzABCEGKLNPQRUXZ".toList

/-- `BRACKETED_CHARACTER_CLASS_DENY_LIST` (regex_parser.rs 32). -/
def bracketDenyList : Str := [']']

/-- `LITERAL_DENY_LIST` (regex_parser.rs 33). -/
def literalDenyList : Str := ['|', '[', '(', ')', '.', '+', '?', '*', '^', '$']

/-- `RECURSION_LIMIT` (regex_parser.rs 34). -/
def recursionLimit : Nat := 50

/-- `UNICODE_PROPERTY_NAMES` (unicode_property_names.rs 1-198). -/
def unicodePropertyNames : List String := [
  "C", "Cc", "Cf", "Cn", "Co", "L", "Ll", "Lm", "Lo", "Lt", "Lu", "M", "Mc", "Me", "Mn", "N", "Nd", "Nl",
  "No", "P", "Pc", "Pd", "Pe", "Pf", "Pi", "Po", "Ps", "S", "Sc", "Sk", "Sm", "So", "Z", "Zl", "Zp", "Zs",
  "Adlam", "Ahom", "Anatolian_Hieroglyphs", "Arabic", "Armenian", "Avestan", "Balinese", "Bamum",
  "Bassa_Vah", "Batak", "Bengali", "Bhaiksuki", "Bopomofo", "Brahmi", "Braille", "Buginese", "Buhid",
  "Canadian_Aboriginal", "Carian", "Caucasian_Albanian", "Chakma", "Cham", "Cherokee", "Chorasmian",
  "Common", "Coptic", "Cuneiform", "Cypriot", "Cypro_Minoan", "Cyrillic", "Deseret", "Devanagari",
  "Dives_Akuru", "Dogra", "Duployan", "Egyptian_Hieroglyphs", "Elbasan", "Elymaic", "Ethiopic", "Georgian",
  "Glagolitic", "Gothic", "Grantha", "Greek", "Gujarati", "Gunjala_Gondi", "Gurmukhi", "Han", "Hangul",
  "Hanifi_Rohingya", "Hanunoo", "Hatran", "Hebrew", "Hiragana", "Imperial_Aramaic", "Inherited",
  "Inscriptional_Pahlavi", "Inscriptional_Parthian", "Javanese", "Kaithi", "Kannada", "Katakana",
  "Kayah_Li", "Kharoshthi", "Khitan_Small_Script", "Khmer", "Khojki", "Khudawadi", "Lao", "Latin",
  "Lepcha", "Limbu", "Linear_A", "Linear_B", "Lisu", "Lycian", "Lydian", "Mahajani", "Makasar",
  "Malayalam", "Mandaic", "Manichaean", "Marchen", "Masaram_Gondi", "Medefaidrin", "Meetei_Mayek",
  "Mende_Kikakui", "Meroitic_Cursive", "Meroitic_Hieroglyphs", "Miao", "Modi", "Mongolian", "Mro",
  "Multani", "Myanmar", "Nabataean", "Nandinagari", "New_Tai_Lue", "Newa", "Nko", "Nushu", "Ogham",
  "Ol_Chiki", "Old_Hungarian", "Old_Italic", "Old_North_Arabian", "Old_Permic", "Old_Persian",
  "Old_Sogdian", "Old_South_Arabian", "Old_Turkic", "Old_Uyghur", "Oriya", "Osage", "Osmanya",
  "Pahawh_Hmong", "Palmyrene", "Pau_Cin_Hau", "Phags_Pa", "Phoenician", "Psalter_Pahlavi", "Rejang",
  "Runic", "Samaritan", "Saurashtra", "Sharada", "Shavian", "Siddham", "SignWriting", "Sinhala", "Sogdian",
  "Sora_Sompeng", "Soyombo", "Sundanese", "Syloti_Nagri", "Syriac", "Tagalog", "Tagbanwa", "Tai_Le",
  "Tai_Tham", "Tai_Viet", "Takri", "Tamil", "Tangsa", "Tangut", "Telugu", "Thaana", "Thai", "Tibetan",
  "Tifinagh", "Tirhuta", "Toto", "Ugaritic", "Vai", "Vithkuqi", "Wancho", "Warang_Citi", "Yezidi", "Yi",
  "Zanabazar_Square"]

/-! ## Leaves -/

/-- `u32::from_str` on a string of decimal digits. -/
def parseU32 (s : Str) : Option Nat :=
  let n := s.foldl (fun n c => n * 10 + (c.toNat - 48)) 0
  if s ≠ [] ∧ n < 2 ^ 32 then some n else none

/-- `integer` (regex_parser.rs 526-531). -/
def integer : Parser Nat := do
  let digits ← many1 (oneOf "0123456789".toList)
  match parseU32 digits with
  | some n => pure n
  | none => error .invalidSyntax

/-- `quantifier_range_exact` (regex_parser.rs 140-145). -/
def quantifierRangeExact : Parser QuantifierKind := do
  tag ['{']
  let n ← integer
  tag ['}']
  pure (.rangeExact n)

/-- `quantifier_range_min_max` (regex_parser.rs 147-154). -/
def quantifierRangeMinMax : Parser QuantifierKind := do
  tag ['{']
  let n ← integer
  tag [',']
  let m ← integer
  tag ['}']
  pure (.rangeMinMax n m)

/-- `quantifier_range_min` (regex_parser.rs 156-162). -/
def quantifierRangeMin : Parser QuantifierKind := do
  tag ['{']
  let n ← integer
  tag [',']
  tag ['}']
  pure (.rangeMin n)

/-- `quantifier` (regex_parser.rs 121-138). -/
def quantifier : Parser Quantifier := do
  let kind ← alt (tagged ['*'] QuantifierKind.zeroOrMore)
    [tagged ['+'] .oneOrMore, tagged ['?'] .zeroOrOne, quantifierRangeExact, quantifierRangeMinMax,
      quantifierRangeMin]
  let isLazy ← opt (tag ['?'])
  pure { isLazy := isLazy.isSome, kind := kind }

/-- `assertion` (regex_parser.rs 164-174). -/
def assertion : Parser AssertionType :=
  alt (tagged ['\\', 'b'] AssertionType.wordBoundary)
    [tagged ['\\', 'B'] .notWordBoundary, tagged ['^'] .startLine, tagged ['$'] .endLine,
      tagged ['\\', 'A'] .startText, tagged ['\\', 'z'] .endText, tagged ['\\', 'Z'] .endTextOptionalNewline]

/-- `unicode_property_name` (regex_parser.rs 212-219). -/
def unicodePropertyName : Parser Str := do
  let name ← recognize (many0 (oneOf asciiLettersUnderscore))
  if name ∈ unicodePropertyNames.map String.toList then pure name else error .invalidSyntax

/-- `unicode_property_class` (regex_parser.rs 193-210). -/
def unicodePropertyClass : Parser UnicodePropertyClass :=
  alt (do
      tag ['\\', 'p', '{']
      let name ← unicodePropertyName
      tag ['}']
      pure { negate := false, name := name })
    [do
      tag ['\\', 'P', '{']
      let name ← unicodePropertyName
      tag ['}']
      pure { negate := true, name := name }]

/-- `perl_character_class` (regex_parser.rs 437-446). -/
def perlCharacterClass : Parser PerlClass :=
  alt (tagged ['\\', 'd'] PerlClass.digit)
    [tagged ['\\', 's'] .space, tagged ['\\', 'w'] .word, tagged ['\\', 'D'] .nonDigit,
      tagged ['\\', 'S'] .nonSpace, tagged ['\\', 'W'] .nonWord]

/-- `flag` (regex_parser.rs 305-312). -/
def flag : Parser Flag :=
  alt (tagged ['i'] Flag.caseInsensitive)
    [tagged ['m'] .multiLine, tagged ['s'] .dotMatchesNewLine, tagged ['x'] .ignoreWhitespace]

/-- `flags` (regex_parser.rs 292-303). -/
def flags : Parser Flags := do
  let add ← many0 flag
  let remove ← opt (do
    tag ['-']
    many0 flag)
  pure { add := add, remove := remove.getD [] }

/-- `flags_expression` (regex_parser.rs 221-226). -/
def flagsExpression : Parser Flags := do
  tag ['(', '?']
  let f ← flags
  tag [')']
  pure f

/-- `quoted_literals` (regex_parser.rs 368-373). -/
def quotedLiterals : Parser Str := do
  tag ['\\', 'Q']
  let literals ← takeUntil ['\\', 'E']
  tag ['\\', 'E']
  pure literals

/-- `quote_expression` (regex_parser.rs 107-119). -/
def quoteExpression : Parser Ast := do
  let chars ← quotedLiterals
  let literals := chars.map fun c => Ast.literal { c := c, escaped := true }
  match literals with
  | [] => pure .empty
  | [a] => pure a
  | _ => pure (.concat literals)

/-- `char::from_u32`. -/
def charFromU32 (n : Nat) : Option Char :=
  if n < 0xD800 ∨ (0xDFFF < n ∧ n < 0x110000) then some (Char.ofNat n) else none

/-- `char::to_digit(16)`. -/
def hexValue (c : Char) : Option Nat :=
  let n := c.toNat
  if 48 ≤ n ∧ n ≤ 57 then some (n - 48)
  else if 65 ≤ n ∧ n ≤ 70 then some (n - 55)
  else if 97 ≤ n ∧ n ≤ 102 then some (n - 87)
  else none

/-- The digits of a hexadecimal number. -/
def hexNumber : Str → Nat → Option Nat
  | [], n => some n
  | c :: cs, n =>
    match hexValue c with
    | some d => hexNumber cs (n * 16 + d)
    | none => none

/-- `u32::from_str_radix(s, 16)`: at least one digit, an optional leading `+`, no overflow. -/
def fromStrRadix16 (s : Str) : Option Nat :=
  let digits :=
    match s with
    | '+' :: rest => rest
    | _ => s
  if digits = [] then none
  else
    match hexNumber digits 0 with
    | some n => if n < 2 ^ 32 then some n else none
    | none => none

/-- `char::to_ascii_lowercase`. -/
def asciiLower (c : Char) : Nat :=
  let n := c.toNat
  if 65 ≤ n ∧ n ≤ 90 then n + 32 else n

/-- `escaped_control_sequence` (regex_parser.rs 469-474). -/
def escapedControlSequence : Parser Char := do
  tag ['c']
  let c ← oneOf asciiLetters
  match charFromU32 (asciiLower c - 97 + 1) with
  | some c => pure c
  | none => fun _ => .panic

/-- `hex_escaped_literal` (regex_parser.rs 476-497). -/
def hexEscapedLiteral : Parser Char := do
  let (hasBrace, hex) ← alt (do
      tag ['x', '{']
      let hex ← recognize (takeUntil ['}'])
      tag ['}']
      pure (true, hex))
    [do
      tag ['x']
      let hex ← recognize (manyUpTo (oneOf hexDigits) 2)
      pure (false, hex)]
  let value ← (if hasBrace then
      match fromStrRadix16 hex with
      | some n => pure n
      | none => failure .invalidSyntax
    else pure ((fromStrRadix16 hex).getD 0) : Parser Nat)
  match charFromU32 value with
  | some c => pure c
  | none => failure .invalidSyntax

/-- `escaped_literal` (regex_parser.rs 453-467). -/
def escapedLiteral : Parser Literal := do
  let c ← alt escapedControlSequence
    [tagged ['a'] (Char.ofNat 0x07), tagged ['b'] (Char.ofNat 0x08), tagged ['e'] (Char.ofNat 0x1B),
      tagged ['f'] (Char.ofNat 0x0C), tagged ['n'] '\n', tagged ['r'] '\r', tagged ['t'] '\t',
      tagged ['v'] (Char.ofNat 0x0B), hexEscapedLiteral]
  pure { c := c, escaped := true }

/-- `LiteralKind` (regex_parser.rs 448-451). -/
inductive LiteralKind where
  | bracketedCharacterClass
  | normal
deriving DecidableEq, Repr

/-- `literal` (regex_parser.rs 499-520). -/
def literal (kind : LiteralKind) : Parser Literal := do
  let backslash ← opt (tag ['\\'])
  if backslash.isSome then
    alt escapedLiteral [do
      let c ← noneOf escapedLiteralDenyList
      pure { c := c, escaped := true }]
  else
    let c ← (match kind with
      | .bracketedCharacterClass => noneOf bracketDenyList
      | .normal => noneOf literalDenyList : Parser Char)
    pure { c := c, escaped := false }

/-- `bracket_character_class_quoted_literals` (regex_parser.rs 375-385). -/
def bracketQuotedLiterals : Parser (List BracketItem) := do
  let literals ← quotedLiterals
  pure (literals.map BracketItem.literal)

/-- `bracket_character_class_ascii_class` (regex_parser.rs 387-414). -/
def bracketAsciiClass : Parser BracketItem := do
  tag ['[', ':']
  let negated ← opt (tag ['^'])
  let kind ← alt (tagged "alnum".toList AsciiClassKind.alnum)
    [tagged "alpha".toList .alpha, tagged "ascii".toList .ascii, tagged "blank".toList .blank,
      tagged "cntrl".toList .cntrl, tagged "digit".toList .digit, tagged "graph".toList .graph,
      tagged "lower".toList .lower, tagged "print".toList .print, tagged "punct".toList .punct,
      tagged "space".toList .space, tagged "upper".toList .upper, tagged "word".toList .word,
      tagged "xdigit".toList .xdigit]
  tag [':', ']']
  pure (.ascii negated.isSome kind)

/-- `bracket_character_class_item_literal` (regex_parser.rs 416-428). -/
def bracketItemLiteral : Parser BracketItem :=
  alt (do
      let l ← literal .bracketedCharacterClass
      pure (BracketItem.literal l.c))
    [do
      let c ← perlCharacterClass
      pure (.perl c),
     do
      let c ← unicodePropertyClass
      pure (.unicodeProperty c)]

/-- `bracket_character_class_item_range` (regex_parser.rs 430-435). -/
def bracketItemRange : Parser BracketItem := do
  let start ← literal .bracketedCharacterClass
  tag ['-']
  let stop ← literal .bracketedCharacterClass
  pure (.range start.c stop.c)

/-- `bracket_character_class_item` (regex_parser.rs 343-366). -/
def bracketItem : Parser (List BracketItem) :=
  alt (do
      let c ← perlCharacterClass
      pure [BracketItem.perl c])
    [tagged ['\\', 'h'] [.horizontalWhitespace],
     tagged ['\\', 'H'] [.notHorizontalWhitespace],
     tagged ['\\', 'v'] [.verticalWhitespace],
     tagged ['\\', 'V'] [.notVerticalWhitespace],
     bracketQuotedLiterals,
     do
      let item ← bracketAsciiClass
      pure [item],
     do
      let item ← bracketItemRange
      pure [item],
     do
      let item ← bracketItemLiteral
      pure [item]]

/-- `bracket_character_class` (regex_parser.rs 314-341). -/
def bracketCharacterClass : Parser CharacterClass := do
  tag ['[']
  let negated ← opt (tag ['^'])
  let closingBracket ← opt (tag [']'])
  let items ← many0 bracketItem
  let items := items.flatten
  tag [']']
  let items := if closingBracket.isSome then BracketItem.literal ']' :: items else items
  if items.isEmpty then error .invalidSyntax
  else pure (.bracket negated.isSome items)

/-- `character_class` (regex_parser.rs 176-191). -/
def characterClass : Parser CharacterClass :=
  alt (tagged ['.'] CharacterClass.dot)
    [tagged ['\\', 'h'] .horizontalWhitespace,
     tagged ['\\', 'H'] .notHorizontalWhitespace,
     tagged ['\\', 'v'] .verticalWhitespace,
     tagged ['\\', 'V'] .notVerticalWhitespace,
     bracketCharacterClass,
     do
      let c ← perlCharacterClass
      pure (.perl c),
     do
      let c ← unicodePropertyClass
      pure (.unicodeProperty c)]

/-- `capture_group_name` (regex_parser.rs 533-540). -/
def captureGroupName : Parser Str :=
  recognize (do
    let _ ← oneOf asciiLettersUnderscore
    many0 (oneOf asciiAlphanumericUnderscore))

/-! ## Groups and expressions

The functions below call each other recursively in the code.  The recursive call to `expression` is a parameter
here, and `expression` ties the knot with fuel: one unit of fuel for each active call of `expression`. -/

/-- `capture_group` (regex_parser.rs 248-253). -/
def captureGroup (expr : Parser Ast) : Parser Ast := do
  tag ['(']
  let inner ← expr
  tag [')']
  pure (.group .capturing inner)

/-- `named_capture_group` (regex_parser.rs 255-280). -/
def namedCaptureGroup (expr : Parser Ast) : Parser Ast :=
  alt (do
      alt (tag ['(', '?', '<']) [tag ['(', '?', 'P', '<']]
      let name ← captureGroupName
      tag ['>']
      let inner ← expr
      tag [')']
      pure (.group (.namedCapturing name) inner))
    [do
      tag ['(', '?', '\'']
      let name ← captureGroupName
      tag ['\'']
      let inner ← expr
      tag [')']
      pure (.group (.namedCapturing name) inner)]

/-- `non_capturing_group` (regex_parser.rs 282-290). -/
def nonCapturingGroup (expr : Parser Ast) : Parser Ast := do
  tag ['(', '?']
  let f ← flags
  tag [':']
  let inner ← expr
  tag [')']
  pure (.group (.nonCapturing f) inner)

/-- `group` (regex_parser.rs 228-246), with the limit as a parameter. -/
def group (limit : Nat) (expr : Parser Ast) : Parser Ast := fun input =>
  let input := { input with depth := input.depth + 1 }
  if input.depth > limit then .fail .exceededDepthLimit
  else
    match alt (nonCapturingGroup expr) [captureGroup expr, namedCaptureGroup expr] input with
    | .ok rest g => .ok { rest with depth := rest.depth - 1 } g
    | .err e => .err e
    | .fail e => .fail e
    | .panic => .panic
    | .hang => .hang

/-- `atomic` (regex_parser.rs 82-105). -/
def atomic (limit : Nat) (expr : Parser Ast) : Parser Ast := do
  let inner ← alt quoteExpression
    [do
      let f ← flagsExpression
      pure (.flags f),
     group limit expr,
     do
      let a ← assertion
      pure (.assertion a),
     do
      let c ← characterClass
      pure (.characterClass c),
     do
      let l ← literal .normal
      pure (.literal l)]
  let q ← opt quantifier
  match q with
  | some q => pure (.repetition q inner)
  | none => pure inner

/-- `concat_expression` (regex_parser.rs 72-79). -/
def concatExpression (limit : Nat) (expr : Parser Ast) : Parser Ast := do
  let children ← many1 (atomic limit expr)
  match children with
  | [a] => pure a
  | _ => pure (.concat children)

/-- `alternate_expression` (regex_parser.rs 59-70). -/
def alternateExpression (limit : Nat) (expr : Parser Ast) : Parser Ast := do
  let children ← separatedList1 (tag ['|']) (opt (concatExpression limit expr))
  let children := children.map fun c => c.getD Ast.empty
  match children with
  | [a] => pure a
  | _ => pure (.alternation children)

/-- `expression` (regex_parser.rs 54-57). -/
def expression (limit : Nat) : Nat → Parser Ast
  | 0 => fun _ => .hang
  | fuel + 1 => alternateExpression limit (expression limit fuel)

/-- `regex_pattern` (regex_parser.rs 48-52). -/
def regexPattern (limit fuel : Nat) : Parser Ast := do
  let ast ← expression limit fuel
  eof
  pure ast

/-- `parse_regex_pattern` (regex_parser.rs 39-46), with the limit and the fuel as parameters. -/
def parseWith (limit fuel : Nat) (input : Str) : Res (Except PErr Ast) :=
  match regexPattern limit fuel { value := input, depth := 0 } with
  | .ok _ ast => .ok (.ok ast)
  | .err e => .ok (.error e)
  | .fail e => .ok (.error e)
  | .panic => .panic
  | .hang => .hang

/-- `parse_regex_pattern` (regex_parser.rs 39-46).  The fuel is the number of nested calls of `expression` that is
enough for the limit. -/
def parseRegexPattern (input : Str) : Res (Except PErr Ast) :=
  parseWith recursionLimit (recursionLimit + 1) input

end Sds.Re
