import Verif.Model.Kinds

/-! # How many searches a string takes

The functions of `Search` once more, with the regex searches they make: `search_with` of the regex of the rule (compiled.rs 207,
276) and of the keywords (included_keywords.rs 37).  The searches are also listed if the function panics. -/

namespace Sds

/-- A search in the string, from an offset on: of the regex of the rule or of its keywords. -/
inductive Query where
  | regex (start : Nat)
  | keyword (start : Nat)
deriving DecidableEq, Repr

/-- A result after these searches. -/
abbrev Work (α : Type) : Type := Res α × List Query

/-- Further searches before. -/
def Work.after {α : Type} (qs : List Query) (w : Work α) : Work α := (w.1, qs ++ w.2)

/-- The result is used further without another search. -/
def Work.map {α β : Type} (f : α → β) (w : Work α) : Work β := (w.1.map f, w.2)

/-- `TruePositiveSearch::next` (compiled.rs 269-313). -/
def nextTpW (r : RegexRule) (check excluded : Bool) (content : Str) : Nat → Nat → Work TpStep
  | 0, _ => (Res.hang, [])
  | fuel + 1, start =>
    match searchFrom r.rx content start with
    | .panic => (Res.panic, [.regex start])
    | .hang => (Res.hang, [.regex start])
    | .ok none => (Res.ok ⟨none, start, []⟩, [.regex start])
    | .ok (some (s, e)) =>
      match isFalsePositive r check content s e with
      | .panic => (Res.panic, [.regex start])
      | .hang => (Res.hang, [.regex start])
      | .ok true =>
        match nextRegexStart content s with
        | .panic => (Res.panic, [.regex start])
        | .hang => (Res.hang, [.regex start])
        | .ok none => (Res.ok ⟨none, start, []⟩, [.regex start])
        | .ok (some i) => (nextTpW r check excluded content fuel i).after [.regex start]
      | .ok false =>
        if excluded then
          match slice content s e with
          | none => (Res.panic, [.regex start])
          | some t =>
            ((nextTpW r check excluded content fuel e).map fun st => { st with inserted := t :: st.inserted }).after [.regex start]
        else (Res.ok ⟨some (s, e), e, []⟩, [.regex start])

/-- compiled.rs 88-90. -/
def collectTpW (r : RegexRule) (check excluded : Bool) (content : Str) (fuelIn : Nat) : Nat → Nat → Work Found
  | 0, _ => (Res.hang, [])
  | fuel + 1, start =>
    match nextTpW r check excluded content fuelIn start with
    | (.panic, qs) => (Res.panic, qs)
    | (.hang, qs) => (Res.hang, qs)
    | (.ok ⟨none, _, ins⟩, qs) => (Res.ok ⟨[], ins⟩, qs)
    | (.ok ⟨some m, start', ins⟩, qs) =>
      ((collectTpW r check excluded content fuelIn fuel start').map fun f => ⟨m :: f.matches_, ins ++ f.inserted⟩).after qs

/-- The inner `for` loop (compiled.rs 165-194). -/
def innerLoopW (r : RegexRule) (k : IncKw) (excluded : Bool) (content : Str) (fuelIn ks : Nat) : Nat → Nat → Nat → Work Inner
  | 0, _, _ => (Res.hang, [])
  | fuel + 1, kstart, start =>
    match nextTpW r false excluded content fuelIn start with
    | (.panic, qs) => (Res.panic, qs)
    | (.hang, qs) => (Res.hang, qs)
    | (.ok ⟨none, _, ins⟩, qs) => (Res.ok ⟨⟨[], ins⟩, none⟩, qs)
    | (.ok ⟨some (s, e), start', ins⟩, qs) =>
      match isIndexWithinPrefix content ks s k.lookAhead with
      | .panic => (Res.panic, qs)
      | .hang => (Res.hang, qs)
      | .ok true =>
        ((innerLoopW r k excluded content fuelIn ks fuel (max kstart s) start').map fun i =>
          ⟨⟨(s, e) :: i.found.matches_, ins ++ i.found.inserted⟩, i.next⟩).after qs
      | .ok false =>
        match getPrefixStart s k.lookAhead content with
        | .ok (p, _) => (Res.ok ⟨⟨[], ins⟩, some (max kstart p)⟩, qs)
        | .panic => (Res.panic, qs)
        | .hang => (Res.hang, qs)

/-- The outer `while let` loop (compiled.rs 151-198). -/
def outerLoopW (r : RegexRule) (k : IncKw) (excluded : Bool) (content : Str) (fuelIn : Nat) : Nat → Nat → Work Found
  | 0, _ => (Res.hang, [])
  | fuel + 1, kstart =>
    match nextKeyword k content kstart with
    | .panic => (Res.panic, [.keyword kstart])
    | .hang => (Res.hang, [.keyword kstart])
    | .ok none => (Res.ok ⟨[], []⟩, [.keyword kstart])
    | .ok (some (ks, kstart')) =>
      match innerLoopW r k excluded content fuelIn ks fuelIn kstart' ks with
      | (.panic, qs) => (Res.panic, .keyword kstart :: qs)
      | (.hang, qs) => (Res.hang, .keyword kstart :: qs)
      | (.ok ⟨f, none⟩, qs) => (Res.ok f, .keyword kstart :: qs)
      | (.ok ⟨f, some kstart''⟩, qs) =>
        ((outerLoopW r k excluded content fuelIn fuel kstart'').map fun f' =>
          ⟨f.matches_ ++ f'.matches_, f.inserted ++ f'.inserted⟩).after (.keyword kstart :: qs)

/-- The part for keywords in the event path (compiled.rs 200-235).  The search for keywords in the path is not counted: it is
not a search in the string. -/
def pathPartW (r : RegexRule) (k : IncKw) (excluded : Bool) (content : Str) (path : Path) (fuel : Nat) : Work Found :=
  match searchFrom r.rx content 0 with
  | .panic => (Res.panic, [.regex 0])
  | .hang => (Res.hang, [.regex 0])
  | .ok none => (Res.ok ⟨[], []⟩, [.regex 0])
  | .ok (some _) =>
    if k.inPath (sanitizePath path) then (collectTpW r false excluded content fuel fuel 0).after [.regex 0]
    else (Res.ok ⟨[], []⟩, [.regex 0])

/-- `get_string_matches_with_included_keywords` (compiled.rs 123-236). -/
def withIncludedW (r : RegexRule) (k : IncKw) (kwPaths excluded : Bool) (content : Str) (path : Path) (fuel : Nat) : Work Found :=
  match outerLoopW r k excluded content fuel fuel 0 with
  | (.panic, qs) => (Res.panic, qs)
  | (.hang, qs) => (Res.hang, qs)
  | (.ok f, qs) =>
    if kwPaths then
      ((pathPartW r k excluded content path fuel).map fun f' =>
        ⟨f.matches_ ++ f'.matches_, f.inserted ++ f'.inserted⟩).after qs
    else (Res.ok f, qs)

/-- `get_string_matches` (compiled.rs 51-93). -/
def stringMatchesW (r : RegexRule) (kwPaths excluded : Bool) (content : Str) (path : Path) (fuel : Nat) : Work Found :=
  match r.included with
  | some k => withIncludedW r k kwPaths excluded content path fuel
  | none => collectTpW r true excluded content fuel fuel 0

/-- The types of the values shared by rules that count: 0 is `()`, 1 is the counter. -/
def CountV : Nat → Type
  | 1 => Nat
  | _ => Unit

/-- A regex rule (compiled.rs 32-119) that adds the searches it makes to a cache, which all rules of the scan share. -/
def RegexRule.counting (r : RegexRule) (info : RuleInfo) (scope : Scope) (kwPaths : Bool) (fuel : Str → Nat) : KRule CountV :=
  ⟨info, scope, true, 0, 0, 1, (), (), (0 : Nat), id, fun c p ex d _ (k : Nat) =>
    (stringMatchesW r kwPaths ex c p (fuel c)).1.map fun f => (f, d, (k + (stringMatchesW r kwPaths ex c p (fuel c)).2.length : Nat))⟩

end Sds
