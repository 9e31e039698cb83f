import Verif.Model.Normalize

/-!
# How the Rust regex crate reads a pattern

Models `regex_syntax::ast::parse::ParserI` (an external crate), the parser that `regex_automata::meta::Builder::build`
runs on the text made by `convert_to_rust_regex` (validation.rs 43-62).  It is written from the documentation of the
crate, restricted to the syntax `RAst` can express: where the crate would use another part of its syntax (set operations,
lookaround, Perl classes, short escapes, whitespace inside of braces) the reader gives `none`, as it does for text the
crate rejects.

Not modelled: the checks of the next stage of the crate (existence of Unicode properties, size limits).
-/

namespace Sds.Re
open Sds

/-! ## Lexical parts -/

/-- The loop of `bump_space`; the flag tells whether it is in a comment. -/
def skipIgnored : Bool → Str → Str
  | _, [] => []
  | true, c :: s => skipIgnored (c ≠ '\n') s
  | false, c :: s => if isWs c then skipIgnored false s else if c = '#' then skipIgnored true s else c :: s

/-- `bump_space`: under `x` whitespace and comments are skipped. -/
def skipSpace (x : Bool) (s : Str) : Str := if x then skipIgnored false s else s

/-- The text before and after the first `d`. -/
def untilChar (d : Char) : Str → Option (Str × Str)
  | [] => none
  | c :: s =>
    if c = d then some ([], s)
    else
      match untilChar d s with
      | some (a, b) => some (c :: a, b)
      | none => none

/-- `ast::parse::Primitive`, without the Perl classes and the dot. -/
inductive RPrim where
  | literal (l : RLiteral)
  | assertion (kind : RAssertionKind)
  | unicode (negated : Bool) (name : Str)
deriving DecidableEq, Repr

/-- `parse_hex_brace`, after the opening brace. -/
def readHexBrace (s : Str) : Option (RPrim × Str) :=
  match untilChar '}' s with
  | some (hex, rest) =>
    if hex = [] then none
    else
      match hexNumber hex 0 with
      | some n =>
        match charFromU32 n with
        | some c => some (.literal { kind := .hexBrace, c := c }, rest)
        | none => none
      | none => none
  | none => none

/-- `parse_unicode_class`, after the opening brace. -/
def readUnicode (negated : Bool) (s : Str) : Option (RPrim × Str) :=
  match untilChar '}' s with
  | some (name, rest) =>
    if name ≠ [] ∧ name.all (fun c => decide (c ∈ asciiLettersUnderscore)) then some (.unicode negated name, rest)
    else none
  | none => none

/-- `parse_escape`, after the backslash. -/
def readEscape : Str → Option (RPrim × Str)
  | [] => none
  | c :: s =>
    if isMetaCharacter c then some (.literal { kind := .metaChar, c := c }, s)
    else if c = 'x' then
      match s with
      | '{' :: s => readHexBrace s
      | _ => none
    else if c = 'p' ∨ c = 'P' then
      match s with
      | '{' :: s => readUnicode (c = 'P') s
      | _ => none
    else if c = 'A' then some (.assertion .startText, s)
    else if c = 'z' then some (.assertion .endText, s)
    else if c = 'b' ∨ c = 'B' then
      -- `\b{` may begin a special word boundary
      match s with
      | '{' :: _ => none
      | _ => some (.assertion (if c = 'b' then .wordBoundary else .notWordBoundary), s)
    else none

/-! ## Classes -/

/-- `parse_set_class_item`. -/
def readClassPrim : Str → Option (RPrim × Str)
  | [] => none
  | c :: s => if c = '\\' then readEscape s else some (.literal { kind := .verbatim, c := c }, s)

/-- `Primitive::into_class_set_item`. -/
def RPrim.toItem : RPrim → Option RClassItem
  | .literal l => some (.literal l)
  | .unicode negated name => some (.unicode negated name)
  | .assertion _ => none

/-- `parse_set_class_range`: an item or a range.  A range must be in order. -/
def readClassRange (x : Bool) (s : Str) : Option (RClassItem × Str) :=
  match readClassPrim s with
  | none => none
  | some (p, r) =>
    let single :=
      match p.toItem with
      | some it => some (it, r)
      | none => none
    match skipSpace x r with
    | '-' :: r' =>
      match skipSpace x r' with
      | ']' :: _ => single
      | '-' :: _ => single
      | r'' =>
        match p, readClassPrim r'' with
        | .literal a, some (.literal b, rest) => if a.c ≤ b.c then some (.range a b, rest) else none
        | _, _ => none
    | _ => single

/-- The kinds of POSIX classes. -/
def asciiKinds : List RAsciiKind :=
  [.alnum, .alpha, .ascii, .blank, .cntrl, .digit, .graph, .lower, .print, .punct, .space, .upper, .word, .xdigit]

/-- An optional `^`. -/
def readCaret : Str → Bool × Str
  | '^' :: s => (true, s)
  | s => (false, s)

/-- `maybe_parse_ascii_class`, after the opening bracket. -/
def readAsciiClass : Str → Option (RClassItem × Str)
  | ':' :: s =>
    let caret := readCaret s
    match untilChar ':' caret.2 with
    | some (name, ']' :: rest) =>
      match asciiKinds.find? (fun k => k.name = name) with
      | some k => some (.ascii caret.1 k, rest)
      | none => none
    | _ => none
  | _ => none

/-- `ClassSetUnion::into_item`. -/
def intoItem : List RClassItem → RClassItem
  | [it] => it
  | l => .union l

/-- The `-` at the beginning of a class, which stand for themselves. -/
def readDashes (x : Bool) : Nat → Str → List RClassItem × Str
  | 0, s => ([], s)
  | n + 1, s =>
    match s with
    | '-' :: s =>
      let r := readDashes x n (skipSpace x s)
      (.literal { kind := .verbatim, c := '-' } :: r.1, r.2)
    | s => ([], s)

/-- `parse_set_class_open`, after the bracket: the negation and the items at the beginning, `-` and `]`, that stand for
themselves. -/
def readClassOpen (x : Bool) (s : Str) : Bool × List RClassItem × Str :=
  let caret := readCaret (skipSpace x s)
  let s := skipSpace x caret.2
  match readDashes x s.length s with
  | ([], ']' :: s) => (caret.1, [.literal { kind := .verbatim, c := ']' }], skipSpace x s)
  | (items, s) => (caret.1, items, s)

/-- `parse_set_class` after an opening bracket: the items up to the closing bracket.  The stack of the crate is the
recursion here. -/
def readItems (x : Bool) : Nat → List RClassItem → Str → Option (List RClassItem × Str)
  | 0, _, _ => none
  | n + 1, acc, s =>
    match skipSpace x s with
    | [] => none
    | c :: r =>
      if c = ']' then some (acc, r)
      else if c = '[' then
        match readAsciiClass r with
        | some (it, r') => readItems x n (acc ++ [it]) r'
        | none =>
          let (negated, first, r') := readClassOpen x r
          match readItems x n first r' with
          | some (items, r'') => readItems x n (acc ++ [.bracketed negated (intoItem items)]) r''
          | none => none
      else if (c = '&' ∨ c = '-' ∨ c = '~') ∧ r.head? = some c then none
      else
        match readClassRange x (c :: r) with
        | some (it, r') => readItems x n (acc ++ [it]) r'
        | none => none

/-- `parse_set_class`, after the bracket. -/
def readClass (x : Bool) (s : Str) : Option (RBracketed × Str) :=
  let (negated, first, s') := readClassOpen x s
  match readItems x (s.length + 1) first s' with
  | some (items, rest) => some ({ negated := negated, item := intoItem items }, rest)
  | none => none

/-! ## Flags, groups and repetitions -/

/-- `parse_flag` and the negation. -/
def flagOfChar (c : Char) : Option RFlagsItem :=
  if c = '-' then some .negation
  else if c = 'i' then some (.flag .caseInsensitive)
  else if c = 'm' then some (.flag .multiLine)
  else if c = 's' then some (.flag .dotMatchesNewLine)
  else if c = 'u' then some (.flag .unicode)
  else if c = 'x' then some (.flag .ignoreWhitespace)
  else none

/-- The loop of `parse_flags`: the items, the character that ends them and the rest. -/
def readFlags : Str → Option (List RFlagsItem × Char × Str)
  | [] => none
  | c :: s =>
    if c = ':' ∨ c = ')' then some ([], c, s)
    else
      match flagOfChar c with
      | none => none
      | some f =>
        match readFlags s with
        | some (l, d, r) => some (f :: l, d, r)
        | none => none

/-- The checks of `parse_flags`: nothing occurs twice, the negation is followed by a flag. -/
def flagsOk (l : List RFlagsItem) : Bool := decide l.Nodup && decide (l.getLast? ≠ some .negation)

/-- `Flags::flag_state` for `x`. -/
def spaceFlag : List RFlagsItem → Bool → Option Bool
  | [], _ => none
  | .negation :: l, _ => spaceFlag l false
  | .flag .ignoreWhitespace :: _, on => some on
  | .flag _ :: l, on => spaceFlag l on

/-- Whether whitespace is ignored after setting flags. -/
def spaceAfter (l : List RFlagsItem) (x : Bool) : Bool := (spaceFlag l true).getD x

/-- `Concat::into_ast`. -/
def intoAst : List RAst → RAst
  | [] => .empty
  | [a] => a
  | l => .concat l

/-- `Alternation::into_ast`. -/
def intoAlt : List RAst → RAst
  | [] => .empty
  | [a] => a
  | l => .alternation l

/-- `GroupState`: a group that is open, with what precedes it and whether whitespace is ignored outside, or the
alternatives that are complete. -/
inductive RFrame where
  | group (before : List RAst) (kind : RGroupKind) (x : Bool)
  | alternation (l : List RAst)
deriving Repr

/-- The state of the parser: whether whitespace is ignored, the concatenation that is being read, and what is open. -/
structure RState where
  x : Bool
  done : List RAst
  stack : List RFrame
deriving Repr

/-- Add an expression. -/
def RState.push (st : RState) (a : RAst) : RState := { st with done := st.done ++ [a] }

/-- `parse_capture_name` (the names an SDS pattern can have), after `<`. -/
def readName (s : Str) : Option (Str × Str) :=
  match untilChar '>' s with
  | some (c :: name, rest) =>
    if c ∈ asciiLettersUnderscore ∧ name.all (fun c => decide (c ∈ asciiAlphanumericUnderscore)) then some (c :: name, rest)
    else none
  | _ => none

/-- `push_group`, after the parenthesis. -/
def readGroup (st : RState) (s : Str) : Option (RState × Str) :=
  let named (s : Str) : Option (RState × Str) :=
    match readName s with
    | some (name, rest) =>
      some ({ st with done := [], stack := .group st.done (.captureName name) st.x :: st.stack }, rest)
    | none => none
  match skipSpace st.x s with
  | '?' :: '<' :: r => named r
  | '?' :: 'P' :: '<' :: r => named r
  | '?' :: r =>
    match readFlags r with
    | some (items, d, rest) =>
      if flagsOk items = false then none
      else if d = ')' then
        if items = [] then none
        else some ({ st.push (.flags items) with x := spaceAfter items st.x }, rest)
      else
        some ({ x := spaceAfter items st.x, done := [],
                stack := .group st.done (.nonCapturing items) st.x :: st.stack }, rest)
    | none => none
  | _ => some ({ st with done := [], stack := .group st.done .captureIndex st.x :: st.stack }, s)

/-- `pop_group`. -/
def RState.pop (st : RState) : Option RState :=
  match st.stack with
  | .group before kind x :: stack =>
    some { x := x, done := before ++ [.group kind (intoAst st.done)], stack := stack }
  | .alternation l :: .group before kind x :: stack =>
    some { x := x, done := before ++ [.group kind (intoAlt (l ++ [intoAst st.done]))], stack := stack }
  | _ => none

/-- `push_alternate`. -/
def RState.alternate (st : RState) : RState :=
  match st.stack with
  | .alternation l :: stack => { st with done := [], stack := .alternation (l ++ [intoAst st.done]) :: stack }
  | stack => { st with done := [], stack := .alternation [intoAst st.done] :: stack }

/-- `pop_group_end`. -/
def RState.finish (st : RState) : Option RAst :=
  match st.stack with
  | [] => some (intoAst st.done)
  | [.alternation l] => some (.alternation (l ++ [intoAst st.done]))
  | _ => none

/-- The leading decimal digits. -/
def spanDigits : Str → Str × Str
  | [] => ([], [])
  | c :: s => if '0' ≤ c ∧ c ≤ '9' then (c :: (spanDigits s).1, (spanDigits s).2) else ([], c :: s)

/-- `parse_decimal`. -/
def readDecimal (s : Str) : Option (Nat × Str) :=
  match parseU32 (spanDigits s).1 with
  | some n => some (n, (spanDigits s).2)
  | none => none

/-- The braces of `parse_counted_repetition`, after the opening one; `RepetitionRange::is_valid`. -/
def readCounts (s : Str) : Option (RRepetitionKind × Str) :=
  match readDecimal s with
  | some (n, '}' :: r) => some (.exactly n, r)
  | some (n, ',' :: '}' :: r) => some (.atLeast n, r)
  | some (n, ',' :: r) =>
    match readDecimal r with
    | some (m, '}' :: r) => if n ≤ m then some (.bounded n m, r) else none
    | _ => none
  | _ => none

/-- An operand of a repetition: not empty and no flags. -/
def repeatable : RAst → Bool
  | .empty => false
  | .flags _ => false
  | _ => true

/-- The end of `parse_uncounted_repetition` and `parse_counted_repetition`: repeat what was read last. -/
def RState.repeatLast (st : RState) (kind : RRepetitionKind) (greedy : Bool) : Option RState :=
  match st.done.getLast? with
  | some a =>
    if repeatable a then some { st with done := st.done.dropLast ++ [.repetition kind greedy a] } else none
  | none => none

/-- A repetition; a `?` after it makes it lazy. -/
def readRepetition (st : RState) (kind : RRepetitionKind) (s s' : Str) : Option (RState × Str) :=
  match s with
  | '?' :: r =>
    match st.repeatLast kind false with
    | some st => some (st, r)
    | none => none
  | _ =>
    match st.repeatLast kind true with
    | some st => some (st, s')
    | none => none

/-- One round of the loop of `parse_with_comments`, on the first character `c` and the text after it. -/
def readStep (st : RState) (c : Char) (r : Str) : Option (RState × Str) :=
  if c = '(' then readGroup st r
  else if c = ')' then
    match st.pop with
    | some st => some (st, r)
    | none => none
  else if c = '|' then some (st.alternate, r)
  else if c = '[' then
    match readClass st.x r with
    | some (b, rest) => some (st.push (.classBracketed b), rest)
    | none => none
  else if c = '?' then readRepetition st .zeroOrOne r r
  else if c = '*' then readRepetition st .zeroOrMore r r
  else if c = '+' then readRepetition st .oneOrMore r r
  else if c = '{' then
    match readCounts r with
    | some (kind, rest) => readRepetition st kind (skipSpace st.x rest) rest
    | none => none
  else if c = '\\' then
    match readEscape r with
    | some (.literal l, rest) => some (st.push (.literal l), rest)
    | some (.assertion k, rest) => some (st.push (.assertion k), rest)
    | some (.unicode negated name, rest) => some (st.push (.classUnicode negated name), rest)
    | none => none
  else if c = '.' then some (st.push .dot, r)
  else if c = '^' then some (st.push (.assertion .startLine), r)
  else if c = '$' then some (st.push (.assertion .endLine), r)
  else some (st.push (.literal { kind := .verbatim, c := c }), r)

/-- The loop of `parse_with_comments`.  Each round takes at least one character. -/
def readLoop : Nat → RState → Str → Option RAst
  | 0, _, _ => none
  | n + 1, st, s =>
    match skipSpace st.x s with
    | [] => st.finish
    | c :: r =>
      match readStep st c r with
      | some (st', s') => readLoop n st' s'
      | none => none

/-! ## The checks on what was read -/

mutual

/-- How deep the visitor `NestLimiter` gets in an item of a class. -/
def RClassItem.depth : RClassItem → Nat
  | .bracketed _ item => item.depth + 1
  | .union items => itemsDepth items + 1
  | _ => 0

/-- The deepest of several items. -/
def itemsDepth : List RClassItem → Nat
  | [] => 0
  | item :: items => max item.depth (itemsDepth items)

end

mutual

/-- How deep the visitor `NestLimiter` gets. -/
def RAst.depth : RAst → Nat
  | .classBracketed c => c.item.depth + 1
  | .repetition _ _ inner => inner.depth + 1
  | .group _ inner => inner.depth + 1
  | .alternation l => astsDepth l + 1
  | .concat l => astsDepth l + 1
  | _ => 0

/-- The deepest of several expressions. -/
def astsDepth : List RAst → Nat
  | [] => 0
  | a :: l => max a.depth (astsDepth l)

end

mutual

/-- The names of the groups, in order. -/
def RAst.names : RAst → List Str
  | .repetition _ _ inner => inner.names
  | .group (.captureName name) inner => name :: inner.names
  | .group _ inner => inner.names
  | .alternation l => astsNames l
  | .concat l => astsNames l
  | _ => []

/-- The names in several expressions. -/
def astsNames : List RAst → List Str
  | [] => []
  | a :: l => a.names ++ astsNames l

end

/-- `nest_limit` of `ParserBuilder`. -/
def nestLimit : Nat := 250

/-- `parse_with_comments`, with the default settings.  That a name is used twice (`GroupNameDuplicate`) is found by the
crate while reading, which makes no difference. -/
def readRust (s : Str) : Option RAst :=
  match readLoop (s.length + 1) { x := false, done := [], stack := [] } s with
  | some r => if r.depth ≤ nestLimit ∧ r.names.Nodup then some r else none
  | none => none

end Sds.Re
