import Verif.Model.Path

/-! # Proximity keywords

Model of `sds/src/proximity_keywords/{mod,included_keywords,excluded_keywords}.rs`.

The keyword regexes are built from literal characters and ASCII word boundaries only, compiled
case-insensitively; they are modelled concretely by `kwMatchAt`.  The case-folding relation of the regex
engine is the parameter `eqc` (`eqc k c`: the pattern character `k` matches the text character `c`). -/

namespace Sds

/-! ## Windows -/

/-- `next_char_index` (mod.rs 108-113). -/
def nextCharIndex (content : Str) (start : Nat) : Res (Option Nat) :=
  match sliceFrom content start with
  | some r => Res.ok ((nthIdx r 1).map (start + ·))
  | none => Res.panic

/-- `prev_char_index` (mod.rs 115-117). -/
def prevCharIndex (content : Str) (start : Nat) : Res (Option Nat) :=
  match sliceTo content start with
  | some r => Res.ok (nthBackIdx r 0)
  | none => Res.panic

/-- `is_index_within_prefix` (mod.rs 125-145), release build (without the `debug_assert`s). -/
def isIndexWithinPrefix (content : Str) (prefixStart target size : Nat) : Res Bool :=
  if prefixStart + size > target then Res.ok true
  else
    match sliceFrom content prefixStart with
    | some r =>
      Res.ok (match nthIdx r size with
        | some i => decide (prefixStart + i ≥ target)
        | none => true)
    | none => Res.panic

/-- `get_prefix_start` (mod.rs 147-165): start and `used_all_chars`.  A count of 0 underflows; validated
configurations have a positive count. -/
def getPrefixStart (matchStart count : Nat) (content : Str) : Res (Nat × Bool) :=
  if count = 0 then Res.panic
  else
    match sliceTo content matchStart with
    | some pre =>
      Res.ok (match nthBackIdx pre (count - 1) with
        | some i => (i, true)
        | none => (0, false))
    | none => Res.panic

/-! ## Keyword regexes -/

/-- ASCII letter or digit: `should_push_word_boundary` (mod.rs 238-240). -/
def asciiAlnum (c : Char) : Bool :=
  ('a' ≤ c && c ≤ 'z') || ('A' ≤ c && c ≤ 'Z') || ('0' ≤ c && c ≤ '9')

/-- ASCII word character, as used by `(?-u:\b)`. -/
def asciiWord (c : Char) : Bool := asciiAlnum c || c == '_'

/-- `(?-u:\b)` (mod.rs 410-432) between the text before and the text after. -/
def wordBoundary (before after : Str) : Bool :=
  (match before.getLast? with
    | some c => asciiWord c
    | none => false) !=
  (match after.head? with
    | some c => asciiWord c
    | none => false)

/-- Match the literal characters of a keyword at the front of a text. -/
def matchLits (eqc : Char → Char → Bool) : Str → Str → Option (Str × Str)
  | [], t => some ([], t)
  | _ :: _, [] => none
  | k :: ks, c :: t =>
    if eqc k c then
      match matchLits eqc ks t with
      | some (m, r) => some (c :: m, r)
      | none => none
    else none

/-- Does the pattern have a word boundary next to the given end of the keyword? -/
def boundaryNeeded (end_ : Option Char) : Bool :=
  match end_ with
  | some c => asciiAlnum c
  | none => false

/-- The pattern of `calculate_keyword_content_pattern` (mod.rs 242-260) matched at byte offset `p` of the
haystack: the end of the match.  Keywords are not empty. -/
def kwMatchAt (eqc : Char → Char → Bool) (kw content : Str) (p : Nat) : Option Nat :=
  match cut content p with
  | none => none
  | some (a, r) =>
    match matchLits eqc kw r with
    | none => none
    | some (m, r') =>
      if (!boundaryNeeded kw.head? || wordBoundary a r) && (!boundaryNeeded kw.getLast? || wordBoundary (a ++ m) r')
      then some (p + blen m)
      else none

/-- All character boundaries of a string in order, offsets starting at `o`. -/
def boundariesFrom : Nat → Str → List Nat
  | o, [] => [o]
  | o, c :: cs => o :: boundariesFrom (o + c.utf8Size) cs

/-- All character boundaries of a string. -/
def boundaries (s : Str) : List Nat := boundariesFrom 0 s

/-- `search_half(Input::new(hay).earliest(true).span(s..e)).is_some()` for the alternation of the
keywords: some keyword matches inside the span; look-around sees the whole haystack. -/
def anyKeywordIn (eqc : Char → Char → Bool) (kws : List Str) (hay : Str) (s e : Nat) : Bool :=
  (boundaries hay).any fun p => decide (s ≤ p) && kws.any fun kw =>
    match kwMatchAt eqc kw hay p with
    | some q => decide (q ≤ e)
    | none => false

/-! ## Excluded keywords -/

/-- `EXCLUDED_KEYWORDS_REMOVED_CHARS` (mod.rs 26). -/
def isStripped (c : Char) : Bool := c == '-' || c == '_'

/-- `.replace(EXCLUDED_KEYWORDS_REMOVED_CHARS, "")`. -/
def strip (s : Str) : Str := s.filter fun c => !isStripped c

/-- `Input::span(s..e)` panics unless `e ≤ len` and `s ≤ e + 1` (regex-automata `Input::set_span`). -/
def spanOk (len s e : Nat) : Bool := decide (e ≤ len) && decide (s ≤ e + 1)

/-- The part of `contains_excluded_keyword_match` after the prefix has been cut out
(excluded_keywords.rs 48-65). -/
def excludedInPrefix (eqc : Char → Char → Bool) (kws : List Str) (stripped : Str) (usedAll : Bool) : Res Bool :=
  match prevCharIndex stripped (blen stripped) with
  | .ok prev =>
    match nextCharIndex stripped 0 with
    | .ok next =>
      let spanEnd := prev.getD 0
      let spanStart := if usedAll then next.getD (blen stripped) else 0
      if spanOk (blen stripped) spanStart spanEnd then
        Res.ok (anyKeywordIn eqc kws stripped spanStart spanEnd)
      else Res.panic
    | .panic => Res.panic
    | .hang => Res.hang
  | .panic => Res.panic
  | .hang => Res.hang

/-- `contains_excluded_keyword_match` (excluded_keywords.rs 32-66). -/
def containsExcluded (eqc : Char → Char → Bool) (kws : List Str) (lookAhead : Nat) (content : Str)
    (matchStart : Nat) : Res Bool :=
  match getPrefixStart matchStart (lookAhead + 1) content with
  | .ok (start, usedAll) =>
    match nextCharIndex content matchStart with
    | .ok next =>
      match slice content start (next.getD (blen content)) with
      | some pre => excludedInPrefix eqc kws (strip pre) usedAll
      | none => Res.panic
    | .panic => Res.panic
    | .hang => Res.hang
  | .panic => Res.panic
  | .hang => Res.hang

/-! ## Configuration -/

/-- `char::is_whitespace`: Unicode White_Space. -/
def isWs (c : Char) : Bool :=
  let n := c.toNat
  (0x9 ≤ n && n ≤ 0xD) || n == 0x20 || n == 0x85 || n == 0xA0 || n == 0x1680 ||
  (0x2000 ≤ n && n ≤ 0x200A) || n == 0x2028 || n == 0x2029 || n == 0x202F || n == 0x205F || n == 0x3000

/-- `str::trim`. -/
def trim (s : Str) : Str := ((s.dropWhile isWs).reverse.dropWhile isWs).reverse

/-- `ProximityKeywordsValidationError` (mod.rs 434-451). -/
inductive KwError where
  | tooManyKeywords
  | emptyKeyword
  | keywordTooLong (lookAhead : Nat)
  | invalidLookAhead
deriving DecidableEq, Repr

/-- The closure over one keyword in `compile_keywords_to_ast` (mod.rs 178-191). -/
def compileKeyword (lookAhead : Nat) (removed : Char → Bool) (kw : Str) : Except KwError Str :=
  if kw.length > lookAhead then .error (.keywordTooLong lookAhead)
  else
    let t := (trim kw).filter fun c => !removed c
    if t = [] then .error .emptyKeyword else .ok t

/-- `.map(..).collect::<Result<Vec<_>, _>>()`: the first error wins. -/
def compileAll (lookAhead : Nat) (removed : Char → Bool) : List Str → Except KwError (List Str)
  | [] => .ok []
  | kw :: kws =>
    match compileKeyword lookAhead removed kw with
    | .error e => .error e
    | .ok t =>
      match compileAll lookAhead removed kws with
      | .error e => .error e
      | .ok ts => .ok (t :: ts)

/-- `compile_keywords` (mod.rs 167-236): no keywords give no regex.  Building the regexes (with unlimited
size) is assumed to succeed; the result here is the list of literal keywords. -/
def compileKeywords (lookAhead : Nat) (removed : Char → Bool) (kws : List Str) :
    Except KwError (Option (List Str)) :=
  if kws = [] then .ok none
  else
    match compileAll lookAhead removed kws with
    | .error e => .error e
    | .ok ts => .ok (some ts)

/-- `ProximityKeywordsConfig` (regex_rule/config.rs). -/
structure KwConfig where
  lookAhead : Nat
  included : List Str
  excluded : List Str
deriving DecidableEq, Repr

/-- `compile_keywords_proximity_config` (mod.rs 43-101). -/
def compileConfig (c : KwConfig) : Except KwError (Option (List Str) × Option (List Str)) :=
  if c.lookAhead = 0 ∨ c.lookAhead > 50 then .error .invalidLookAhead
  else if c.included.length > 50 ∨ c.excluded.length > 50 then .error .tooManyKeywords
  else
    match compileKeywords c.lookAhead (fun _ => false) c.included with
    | .error e => .error e
    | .ok inc =>
      match compileKeywords c.lookAhead isStripped c.excluded with
      | .error e => .error e
      | .ok exc => .ok (inc, exc)

/-! ## Normalised paths -/

/-- `char::to_ascii_lowercase`. -/
def asciiLower (c : Char) : Char := if 'A' ≤ c ∧ c ≤ 'Z' then Char.ofNat (c.toNat + 32) else c

def isUpper (c : Char) : Bool := 'A' ≤ c && c ≤ 'Z'
def isLower (c : Char) : Bool := 'a' ≤ c && c ≤ 'z'

/-- `CharType` (mod.rs 262-267). -/
inductive CharType where
  | regular
  | uppercase
  | separator
deriving DecidableEq, Repr

/-- `get_char_type` (mod.rs 269-280); link characters `- _ . space /` (mod.rs 37). -/
def charType (c : Char) : CharType :=
  if c = '-' ∨ c = '_' ∨ c = '.' ∨ c = ' ' ∨ c = '/' then .separator
  else if isUpper c then .uppercase
  else .regular

/-- `BypassStandardizePathResult` (mod.rs 282-287). -/
inductive Bypass where
  | allLower
  | allUpper
  | no
deriving DecidableEq, Repr

/-- The loop of `should_bypass_standardize_path` (mod.rs 289-313). -/
def bypassLoop : Bool → Bool → Str → Bypass
  | lower, _, [] => if lower then .allLower else .allUpper
  | lower, upper, c :: cs =>
    if !isLower c && !isUpper c then .no
    else
      let lower := lower && isLower c
      let upper := upper && isUpper c
      if !lower && !upper then .no else bypassLoop lower upper cs

def shouldBypass (s : Str) : Bypass := bypassLoop true true s

/-- The characters pushed for one character (mod.rs 337-364). -/
def pushedFor (isLast : Bool) (prev cur : Char) : Str :=
  match isLast, charType prev, charType cur with
  | true, _, _ => [cur]
  | _, _, .regular => [cur]
  | _, .separator, _ => [cur]
  | _, .uppercase, .uppercase => [cur]
  | _, .regular, .uppercase => ['.', cur]
  | _, _, .separator => ['.']

/-- The loop of `standardize_path_chars` (mod.rs 331-367); `bytes` is `characters.len()`, a number of
bytes, compared with the number `i` of characters. -/
def standardizeLoop (bytes : Nat) : Nat → Char → Str → Str
  | _, _, [] => []
  | i, prev, c :: cs => pushedFor (decide (i + 2 = bytes)) prev c ++ standardizeLoop bytes (i + 1) c cs

/-- `standardize_path_chars` (mod.rs 317-368): the characters pushed. -/
def standardize : Str → Str
  | [] => []
  | c :: cs => c :: standardizeLoop (blen (c :: cs)) 0 c cs

/-- One field in `Path::sanitize` (path.rs 79-85). -/
def sanitizeField (f : Str) : Str :=
  if shouldBypass f ≠ .no then f.map asciiLower
  else (standardize f).map asciiLower

/-- The loop of `Path::sanitize` (path.rs 73-87), segments numbered from `i`. -/
def sanitizeLoop : Nat → Path → Str
  | _, [] => []
  | i, .field f :: p => (if i ≠ 0 then ['.'] else []) ++ sanitizeField f ++ sanitizeLoop (i + 1) p
  | i, .index _ :: p => sanitizeLoop (i + 1) p

/-- `Path::sanitize` (path.rs 70-90). -/
def sanitizePath (p : Path) : Str := sanitizeLoop 0 p

/-- `PathSegment::sanitize` (path.rs 113-131). -/
def sanitizeSeg : Seg → Option Str
  | .index _ => none
  | .field f =>
    match shouldBypass f with
    | .allLower => some f
    | .allUpper => some (f.map asciiLower)
    | .no => some ((standardize f).map asciiLower)

/-! ## Keywords in paths -/

/-- The pattern of `calculate_keyword_path_pattern` (mod.rs 370-392) matched at byte offset `p` of a sanitized path: the
literals are the standardized keyword in lower case, the word boundaries depend on the keyword itself. -/
def pathKwMatchAt (eqc : Char → Char → Bool) (kw path : Str) (p : Nat) : Option Nat :=
  match cut path p with
  | none => none
  | some (a, r) =>
    match matchLits eqc ((standardize kw).map asciiLower) r with
    | none => none
    | some (m, r') =>
      if (!boundaryNeeded kw.head? || wordBoundary a r) && (!boundaryNeeded kw.getLast? || wordBoundary (a ++ m) r')
      then some (p + blen m)
      else none

/-- `contains_keyword_in_path` (mod.rs 103-106) with the alternation of the patterns of the keywords
(mod.rs 202-205): one of them matches somewhere. -/
def keywordInPath (eqc : Char → Char → Bool) (kws : List Str) (path : Str) : Bool :=
  (boundaries path).any fun p => kws.any fun kw => (pathKwMatchAt eqc kw path p).isSome

end Sds
