import Verif.Model.RustSyntax

/-! # The regexes made of keywords

Model of the part of `sds/src/proximity_keywords/mod.rs` that makes syntax trees of keywords and prints them
(lines 167-262 and 370-432).  `kwMatchAt` and `pathKwMatchAt` of `Keywords` say what the regexes match; here are the texts
that are given to the regex crate.  The model of the reader of the crate is in `RustSyntax`. -/

namespace Sds
open Re

/-- `literal_ast` (mod.rs 392-403). -/
def literalAst (c : Char) : RAst :=
  .literal { kind := if isMetaCharacter c then .metaChar else .verbatim, c := c }

/-- `word_boundary` (mod.rs 410-432). -/
def wordBoundaryAst : RAst := .group (.nonCapturing [.negation, .flag .unicode]) (.assertion .wordBoundary)

/-- `if should_push_word_boundary(..) { keyword_pattern.push(word_boundary()) }` (mod.rs 245-247, 253-255). -/
def boundaryAst (c : Char) : List RAst := if asciiAlnum c then [wordBoundaryAst] else []

/-- `calculate_keyword_content_pattern` (mod.rs 243-260); `unwrap` panics without characters. -/
def contentPattern (kw : Str) : Res RAst :=
  match kw.head?, kw.getLast? with
  | some a, some b => .ok (.concat (boundaryAst a ++ kw.map literalAst ++ boundaryAst b))
  | _, _ => .panic

/-- `calculate_keyword_path_pattern` (mod.rs 371-390). -/
def pathPattern (kw : Str) : Res RAst :=
  match kw.head?, kw.getLast? with
  | some a, some b =>
    .ok (.concat (boundaryAst a ++ (standardize kw).map (fun c => literalAst (asciiLower c)) ++ boundaryAst b))
  | _, _ => .panic

/-- The patterns of several keywords (mod.rs 176-196). -/
def patternsOf (pattern : Str → Res RAst) : List Str → Res (List RAst)
  | [] => .ok []
  | kw :: kws =>
    match pattern kw with
    | .ok a =>
      match patternsOf pattern kws with
      | .ok l => .ok (a :: l)
      | .panic => .panic
      | .hang => .hang
    | .panic => .panic
    | .hang => .hang

/-- `Ast::Alternation` of the patterns (mod.rs 198-206) and `to_string` (mod.rs 217). -/
def keywordText (pattern : Str → Res RAst) (kws : List Str) : Res Str :=
  match patternsOf pattern kws with
  | .ok l => .ok (RAst.alternation l).print
  | .panic => .panic
  | .hang => .hang

/-- `compile_keywords` (mod.rs 210-236) up to the two calls of `get_memoized_regex`: the texts of the content regex and of the
path regex. -/
def keywordTexts (lookAhead : Nat) (removed : Char → Bool) (kws : List Str) : Res (Except KwError (Option (Str × Str))) :=
  match compileKeywords lookAhead removed kws with
  | .error e => .ok (.error e)
  | .ok none => .ok (.ok none)
  | .ok (some ts) =>
    match keywordText contentPattern ts, keywordText pathPattern ts with
    | .ok c, .ok p => .ok (.ok (some (c, p)))
    | _, _ => .panic

end Sds
