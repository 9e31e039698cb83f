import Verif.Model.Keywords

/-! # Searching one string with a regex rule

Model of `sds/src/scanner/regex_rule/compiled.rs` and of the helpers at `sds/src/scanner/mod.rs` 829-859. -/

namespace Sds

/-- A compiled regex: `rx content p = some e` iff the regex matches at byte offset `p` of the content and
the match the engine prefers there ends at `e`. -/
abbrev Rx := Str → Nat → Option Nat

/-- `search_with(cache, &Input::new(content).range(start..))`: the leftmost match starting at a
character boundary at or after `start`.  Building the input panics if `start` exceeds the length by more than
one (regex-automata `Input::set_span`). -/
def searchFrom (rx : Rx) (content : Str) (start : Nat) : Res (Option (Nat × Nat)) :=
  if start ≤ blen content + 1 then
    Res.ok ((boundaries content).findSome? fun p =>
      if start ≤ p then (rx content p).map fun e => (p, e) else none)
  else Res.panic

/-- `get_next_regex_start` (scanner/mod.rs 829-837). -/
def nextRegexStart (content : Str) (matchStart : Nat) : Res (Option Nat) :=
  match sliceFrom content matchStart with
  | some r => Res.ok ((nthIdx r 1).map (matchStart + ·))
  | none => Res.panic

/-- `CompiledExcludedProximityKeywords` (excluded_keywords.rs 8-12). -/
structure ExcKw where
  eqc : Char → Char → Bool
  lookAhead : Nat
  keywords : List Str

/-- `CompiledIncludedProximityKeywords` (included_keywords.rs 5-8).  `search content start` is the result of
searching the content regex with `earliest(true)` in `start..`, a start and an end; `inPath` is
`contains_keyword_in_path` (proximity_keywords/mod.rs 103-106). -/
structure IncKw where
  lookAhead : Nat
  search : Str → Nat → Option (Nat × Nat)
  inPath : Str → Bool

/-- The parts of `RegexCompiledRule` (compiled.rs 19-30) used for searching. -/
structure RegexRule where
  rx : Rx
  validator : Option (Str → Bool)
  included : Option IncKw
  excluded : Option ExcKw

/-- The excluded keyword part of `is_false_positive_match` (scanner/mod.rs 845-851). -/
def vetoed (r : RegexRule) (check : Bool) (content : Str) (matchStart : Nat) : Res Bool :=
  if check then
    match r.excluded with
    | some x => containsExcluded x.eqc x.keywords x.lookAhead content matchStart
    | none => Res.ok false
  else Res.ok false

/-- The validator part of `is_false_positive_match` (scanner/mod.rs 853-858). -/
def rejected (r : RegexRule) (content : Str) (s e : Nat) : Res Bool :=
  match r.validator with
  | some v =>
    match slice content s e with
    | some t => Res.ok (!v t)
    | none => Res.panic
  | none => Res.ok false

/-- `is_false_positive_match` (scanner/mod.rs 839-859). -/
def isFalsePositive (r : RegexRule) (check : Bool) (content : Str) (s e : Nat) : Res Bool :=
  match vetoed r check content s with
  | .ok true => Res.ok true
  | .ok false => rejected r content s e
  | .panic => Res.panic
  | .hang => Res.hang

/-- Result of one call of `TruePositiveSearch::next`: the match, the new start, and the texts inserted in
`excluded_matches`. -/
structure TpStep where
  found : Option (Nat × Nat)
  start : Nat
  inserted : List Str
deriving DecidableEq, Repr

/-- `TruePositiveSearch::next` (compiled.rs 269-313), a loop with fuel. -/
def nextTp (r : RegexRule) (check excluded : Bool) (content : Str) : Nat → Nat → Res TpStep
  | 0, _ => Res.hang
  | fuel + 1, start =>
    match searchFrom r.rx content start with
    | .panic => Res.panic
    | .hang => Res.hang
    | .ok none => Res.ok ⟨none, start, []⟩
    | .ok (some (s, e)) =>
      match isFalsePositive r check content s e with
      | .panic => Res.panic
      | .hang => Res.hang
      | .ok true =>
        match nextRegexStart content s with
        | .panic => Res.panic
        | .hang => Res.hang
        | .ok none => Res.ok ⟨none, start, []⟩
        | .ok (some i) => nextTp r check excluded content fuel i
      | .ok false =>
        if excluded then
          match slice content s e with
          | none => Res.panic
          | some t =>
            match nextTp r check excluded content fuel e with
            | .ok st => Res.ok { st with inserted := t :: st.inserted }
            | .panic => Res.panic
            | .hang => Res.hang
        else Res.ok ⟨some (s, e), e, []⟩

/-- What a rule produces for a string: emitted matches and texts inserted in `excluded_matches`. -/
structure Found where
  matches_ : List (Nat × Nat)
  inserted : List Str
deriving DecidableEq, Repr

/-- `for string_match in true_positive_search { emit }` (compiled.rs 88-90). -/
def collectTp (r : RegexRule) (check excluded : Bool) (content : Str) (fuelIn : Nat) : Nat → Nat → Res Found
  | 0, _ => Res.hang
  | fuel + 1, start =>
    match nextTp r check excluded content fuelIn start with
    | .panic => Res.panic
    | .hang => Res.hang
    | .ok ⟨none, _, ins⟩ => Res.ok ⟨[], ins⟩
    | .ok ⟨some m, start', ins⟩ =>
      match collectTp r check excluded content fuelIn fuel start' with
      | .ok f => Res.ok ⟨m :: f.matches_, ins ++ f.inserted⟩
      | .panic => Res.panic
      | .hang => Res.hang

/-- `IncludedKeywordSearch::next` (included_keywords.rs 32-50): start of the keyword and the new start. -/
def nextKeyword (k : IncKw) (content : Str) (start : Nat) : Res (Option (Nat × Nat)) :=
  if start ≤ blen content + 1 then
    match k.search content start with
    | none => Res.ok none
    | some (ks, ke) =>
      match nextCharIndex content ks with
      | .ok next => Res.ok (some (ks, next.getD ke))
      | .panic => Res.panic
      | .hang => Res.hang
  else Res.panic

/-- Result of the inner loop: what was found, and `some start` for `continue 'included_keyword_search` with
that keyword search start, `none` for `break`. -/
structure Inner where
  found : Found
  next : Option Nat

/-- The inner `for` loop (compiled.rs 165-194).  `ks` is the keyword start, `kstart` the start of the next
keyword search, `start` the state of the true positive search. -/
def innerLoop (r : RegexRule) (k : IncKw) (excluded : Bool) (content : Str) (fuelIn ks : Nat) :
    Nat → Nat → Nat → Res Inner
  | 0, _, _ => Res.hang
  | fuel + 1, kstart, start =>
    match nextTp r false excluded content fuelIn start with
    | .panic => Res.panic
    | .hang => Res.hang
    | .ok ⟨none, _, ins⟩ => Res.ok ⟨⟨[], ins⟩, none⟩
    | .ok ⟨some (s, e), start', ins⟩ =>
      match isIndexWithinPrefix content ks s k.lookAhead with
      | .panic => Res.panic
      | .hang => Res.hang
      | .ok true =>
        match innerLoop r k excluded content fuelIn ks fuel (max kstart s) start' with
        | .ok i => Res.ok ⟨⟨(s, e) :: i.found.matches_, ins ++ i.found.inserted⟩, i.next⟩
        | .panic => Res.panic
        | .hang => Res.hang
      | .ok false =>
        match getPrefixStart s k.lookAhead content with
        | .ok (n, _) => Res.ok ⟨⟨[], ins⟩, some (max kstart n)⟩
        | .panic => Res.panic
        | .hang => Res.hang

/-- The outer `while let` loop (compiled.rs 151-198). -/
def outerLoop (r : RegexRule) (k : IncKw) (excluded : Bool) (content : Str) (fuelIn : Nat) :
    Nat → Nat → Res Found
  | 0, _ => Res.hang
  | fuel + 1, kstart =>
    match nextKeyword k content kstart with
    | .panic => Res.panic
    | .hang => Res.hang
    | .ok none => Res.ok ⟨[], []⟩
    | .ok (some (ks, kstart')) =>
      match innerLoop r k excluded content fuelIn ks fuelIn kstart' ks with
      | .panic => Res.panic
      | .hang => Res.hang
      | .ok ⟨f, none⟩ => Res.ok f
      | .ok ⟨f, some kstart''⟩ =>
        match outerLoop r k excluded content fuelIn fuel kstart'' with
        | .ok f' => Res.ok ⟨f.matches_ ++ f'.matches_, f.inserted ++ f'.inserted⟩
        | .panic => Res.panic
        | .hang => Res.hang

/-- The part for keywords in the event path (compiled.rs 200-235). -/
def pathPart (r : RegexRule) (k : IncKw) (excluded : Bool) (content : Str) (path : Path) (fuel : Nat) :
    Res Found :=
  match searchFrom r.rx content 0 with
  | .panic => Res.panic
  | .hang => Res.hang
  | .ok none => Res.ok ⟨[], []⟩
  | .ok (some _) =>
    if k.inPath (sanitizePath path) then collectTp r false excluded content fuel fuel 0
    else Res.ok ⟨[], []⟩

/-- `get_string_matches_with_included_keywords` (compiled.rs 123-236); `true_positive_rule_idx` is always
empty (scoped_ruleset/mod.rs 221-252), so the branch at 135-149 is never taken. -/
def withIncluded (r : RegexRule) (k : IncKw) (kwPaths excluded : Bool) (content : Str) (path : Path)
    (fuel : Nat) : Res Found :=
  match outerLoop r k excluded content fuel fuel 0 with
  | .panic => Res.panic
  | .hang => Res.hang
  | .ok f =>
    if kwPaths then
      match pathPart r k excluded content path fuel with
      | .ok f' => Res.ok ⟨f.matches_ ++ f'.matches_, f.inserted ++ f'.inserted⟩
      | .panic => Res.panic
      | .hang => Res.hang
    else Res.ok f

/-- `get_string_matches` (compiled.rs 51-93). -/
def stringMatches (r : RegexRule) (kwPaths excluded : Bool) (content : Str) (path : Path) (fuel : Nat) :
    Res Found :=
  match r.included with
  | some k => withIncluded r k kwPaths excluded content path fuel
  | none => collectTp r true excluded content fuel fuel 0

end Sds
