import Verif.Model.Scan

/-! # Counters

Model of the counters of a scan: `scanned_events` and `scanning.match_count` (scanner/mod.rs 378-383, metrics.rs 19-33),
`false_positive.multipass.excluded_match` of a rule (mod.rs 354-356, compiled.rs 99-101, metrics.rs 4-17) and
`false_positive.proximity_keywords` of a rule (excluded_keywords.rs 15-26).  The functions repeat those of `Search` and
`Scan` with the increments; C75 includes that the result is the same.  `scanning.duration` and the totals of stats.rs
are left out. -/

namespace Sds

/-- The increments in `CompiledExcludedProximityKeywords::is_false_positive_match` (excluded_keywords.rs 15-26), each given
by the start of the match. -/
def vetoHits (r : RegexRule) (check : Bool) (content : Str) (s : Nat) : List Nat :=
  match vetoed r check content s with
  | .ok true => [s]
  | _ => []

/-- `TruePositiveSearch::next` (compiled.rs 269-313) with the increments. -/
def nextTpV (r : RegexRule) (check excluded : Bool) (content : Str) : Nat → Nat → Res (TpStep × List Nat)
  | 0, _ => Res.hang
  | fuel + 1, start =>
    match searchFrom r.rx content start with
    | .panic => Res.panic
    | .hang => Res.hang
    | .ok none => Res.ok (⟨none, start, []⟩, [])
    | .ok (some (s, e)) =>
      match isFalsePositive r check content s e with
      | .panic => Res.panic
      | .hang => Res.hang
      | .ok true =>
        match nextRegexStart content s with
        | .panic => Res.panic
        | .hang => Res.hang
        | .ok none => Res.ok (⟨none, start, []⟩, vetoHits r check content s)
        | .ok (some i) =>
          match nextTpV r check excluded content fuel i with
          | .ok (st, log) => Res.ok (st, vetoHits r check content s ++ log)
          | .panic => Res.panic
          | .hang => Res.hang
      | .ok false =>
        if excluded then
          match slice content s e with
          | none => Res.panic
          | some t =>
            match nextTpV r check excluded content fuel e with
            | .ok (st, log) => Res.ok ({ st with inserted := t :: st.inserted }, vetoHits r check content s ++ log)
            | .panic => Res.panic
            | .hang => Res.hang
        else Res.ok (⟨some (s, e), e, []⟩, vetoHits r check content s)

/-- The loop of compiled.rs 88-90 with the increments. -/
def collectTpV (r : RegexRule) (check excluded : Bool) (content : Str) (fuelIn : Nat) :
    Nat → Nat → Res (Found × List Nat)
  | 0, _ => Res.hang
  | fuel + 1, start =>
    match nextTpV r check excluded content fuelIn start with
    | .panic => Res.panic
    | .hang => Res.hang
    | .ok (⟨none, _, ins⟩, log) => Res.ok (⟨[], ins⟩, log)
    | .ok (⟨some m, start', ins⟩, log) =>
      match collectTpV r check excluded content fuelIn fuel start' with
      | .ok (f, log') => Res.ok (⟨m :: f.matches_, ins ++ f.inserted⟩, log ++ log')
      | .panic => Res.panic
      | .hang => Res.hang

/-- `get_string_matches` (compiled.rs 51-93) with the increments.  With included keywords the excluded ones are not checked
(`check_excluded_keywords` is false in 141, 159 and 224). -/
def stringMatchesV (r : RegexRule) (kwPaths excluded : Bool) (content : Str) (path : Path) (fuel : Nat) :
    Res (Found × List Nat) :=
  match r.included with
  | some k => (withIncluded r k kwPaths excluded content path fuel).map fun f => (f, [])
  | none => collectTpV r true excluded content fuel fuel 0

/-- The increments of the multi-pass filter (mod.rs 348-364), each given by the number of the rule. -/
def droppedBy (sc : Scanner) (excluded : List Str) (content : Str) : List M → Res (List Nat)
  | [] => Res.ok []
  | m :: ms =>
    match sc.rules[m.rule]? with
    | none => Res.panic
    | some rule =>
      if rule.multipass then
        match slice content m.st m.en with
        | none => Res.panic
        | some t =>
          match droppedBy sc excluded content ms with
          | .ok l => Res.ok (if excluded.contains t then m.rule :: l else l)
          | .panic => Res.panic
          | .hang => Res.hang
      else droppedBy sc excluded content ms

/-- The closure of mod.rs 345-376 as far as it counts.  The events of the model only pass on reports, so that the rule
numbers are passed as reports. -/
def countLeaf (sc : Scanner) (excluded : List Str) (pm : PathMatches) : Edit := fun content =>
  if sc.multipassEnabled then
    match droppedBy sc excluded content pm.ms with
    | .panic => Res.panic
    | .hang => Res.hang
    | .ok l => Res.ok (content, l.map fun r => ⟨r, [], .none, 0, 0, 0, none, .notAvailable⟩)
  else Res.ok (content, [])

/-- The loop over the collected matches (mod.rs 343-377) with the increments. -/
def editAllC {E : Type} (impl : EventImpl E) (sc : Scanner) (excluded : List Str) :
    List PathMatches → E → Res ((E × List RuleMatch) × List Nat)
  | [], e => Res.ok ((e, []), [])
  | pm :: rest, e =>
    match impl.mutAt e pm.path (countLeaf sc excluded pm) with
    | .panic => Res.panic
    | .hang => Res.hang
    | .ok (_, log) =>
      match impl.mutAt e pm.path (editLeaf sc impl.enc excluded pm) with
      | .panic => Res.panic
      | .hang => Res.hang
      | .ok (e', os) =>
        match editAllC impl sc excluded rest e' with
        | .panic => Res.panic
        | .hang => Res.hang
        | .ok ((e'', os'), log') => Res.ok ((e'', os ++ os'), log.map (·.rule) ++ log')

/-- The increments of a scan: of `scanned_events`, of `scanning.match_count`, and of the counters
`false_positive.multipass.excluded_match`, by the number of the rule. -/
structure Counts where
  scannedEvents : Nat
  matchCount : Nat
  excludedMatch : List Nat
deriving DecidableEq, Repr

/-- `Scanner::scan` (mod.rs 316-386) with the increments. -/
def scanC {E : Type} (impl : EventImpl E) (sc : Scanner) (e : E) (blocked : List Nat) :
    Res ((E × List RuleMatch) × Counts) :=
  match visitCombinations (RuleSet.new (sc.rules.map (·.scope)) sc.wildcards) (impl.ops e) with
  | .panic => Res.panic
  | .hang => Res.hang
  | .ok vs =>
    match runVisits sc blocked vs [] with
    | .panic => Res.panic
    | .hang => Res.hang
    | .ok (l, excluded) =>
      match editAllC impl sc excluded l e with
      | .panic => Res.panic
      | .hang => Res.hang
      | .ok (r, log) => Res.ok (r, ⟨1, r.2.length, log⟩)

end Sds
