import Verif.Model.Metrics

/-! # Labels of counters

Model of the labels of the counters (observability/labels.rs 10-30, scanner/metrics.rs, regex_rule/config.rs 101-120,
proximity_keywords/mod.rs 85-97, scanner/mod.rs 374-383 and 711).  The macro `counter!` of the crate `metrics` looks up
the counter with this name and these labels in the recorder, so that equal keys give the same counter; the recorder adds
up.  The increments of a scan are given as a list; whether a counter wraps around is up to the recorder. -/

namespace Sds

/-- `Labels` (labels.rs 10). -/
abbrev Labels := List (Str × Str)

/-- `Labels::clone_with_labels` (labels.rs 14-18). -/
def withLabels (l additional : Labels) : Labels := l ++ additional

/-- Name and labels of a counter: what `counter!` is called with. -/
structure MetricKey where
  name : Str
  labels : Labels
deriving DecidableEq, Repr

/-- A call of `Counter::increment`. -/
abbrev Incr := MetricKey × Nat

/-- What a recorder shows for a counter after these calls. -/
def recorded (k : MetricKey) (l : List Incr) : Nat := ((l.filter fun i => i.1 = k).map (·.2)).sum

/-- A rule with the labels of its configuration (regex_rule/config.rs 16-26).  `keywords` is there if the rule has excluded
keywords, and says how often they rule out a match in a string (excluded_keywords.rs 15-26). -/
structure LRule where
  rule : CRule
  labels : Labels
  keywords : Option (Str → Path → Bool → Nat)

/-- A regex rule as such a rule (regex_rule/config.rs 93-128). -/
def RegexRule.toLRule (r : RegexRule) (info : RuleInfo) (scope : Scope) (kwPaths : Bool) (fuel : Str → Nat)
    (labels : Labels) : LRule :=
  ⟨r.toCRule info scope kwPaths fuel, labels, r.excluded.map fun _ => fun c p ex =>
    match stringMatchesV r kwPaths ex c p (fuel c) with
    | .ok (_, log) => log.length
    | _ => 0⟩

/-- `Scanner` (scanner/mod.rs 294-304) with its labels. -/
structure LScanner where
  rules : List LRule
  labels : Labels
  wildcards : Bool
  multipassEnabled : Bool
  returnMatches : Bool
  fp : Fingerprint

/-- The scanner without labels. -/
def LScanner.plain (sc : LScanner) : Scanner :=
  ⟨sc.rules.map (·.rule), sc.wildcards, sc.multipassEnabled, sc.returnMatches, sc.fp⟩

/-- The counter of `RuleMetrics::new(&rule_labels)` (metrics.rs 8-17, regex_rule/config.rs 101 and 120). -/
def LRule.excludedMatchKey (scanner : Labels) (r : LRule) : MetricKey :=
  ⟨"false_positive.multipass.excluded_match".toList, withLabels scanner r.labels⟩

/-- The counter of the excluded keywords (proximity_keywords/mod.rs 93-96). -/
def LRule.keywordKey (scanner : Labels) (r : LRule) : MetricKey :=
  ⟨"false_positive.proximity_keywords".toList,
    withLabels (withLabels scanner r.labels) [("type".toList, "excluded_keywords".toList)]⟩

/-- The counters that building the scanner asks the recorder for (regex_rule/config.rs 103-120, metrics.rs 25-33). -/
def LScanner.registered (sc : LScanner) : List MetricKey :=
  (sc.rules.flatMap fun r =>
    (if r.keywords.isSome then [r.keywordKey sc.labels] else []) ++ [r.excludedMatchKey sc.labels]) ++
  [⟨"scanned_events".toList, sc.labels⟩, ⟨"scanning.duration".toList, sc.labels⟩,
    ⟨"scanning.match_count".toList, sc.labels⟩]

/-- The increments while the rules run on one string (mod.rs 744-781, excluded_keywords.rs 22-24). -/
def rulesIncs (sc : LScanner) (blocked : List Nat) (v : Visit) : List Nat → List Incr
  | [] => []
  | r :: rs =>
    if blocked.contains r then rulesIncs sc blocked v rs
    else
      match sc.rules[r]? with
      | none => []
      | some rule =>
        match rule.keywords with
        | none => rulesIncs sc blocked v rs
        | some hits =>
          List.replicate (hits v.content v.path (v.excluded.contains r)) (rule.keywordKey sc.labels, 1) ++
            rulesIncs sc blocked v rs

/-- The increments for the matches dropped by the multi-pass filter (mod.rs 354-356, compiled.rs 99-101). -/
def droppedIncs (sc : LScanner) : List Nat → List Incr
  | [] => []
  | r :: rs =>
    match sc.rules[r]? with
    | none => droppedIncs sc rs
    | some rule => (rule.excludedMatchKey sc.labels, 1) :: droppedIncs sc rs

/-- `Scanner::scan` (mod.rs 316-386) with the calls of `increment` in order; `elapsed` is the time it took. -/
def scanL {E : Type} (impl : EventImpl E) (sc : LScanner) (e : E) (blocked : List Nat) (elapsed : Nat) :
    Res ((E × List RuleMatch) × List Incr) :=
  match visitCombinations (RuleSet.new (sc.plain.rules.map (·.scope)) sc.wildcards) (impl.ops e) with
  | .panic => Res.panic
  | .hang => Res.hang
  | .ok vs =>
    match scanC impl sc.plain e blocked with
    | .panic => Res.panic
    | .hang => Res.hang
    | .ok (x, n) =>
      Res.ok (x, vs.flatMap (fun v => rulesIncs sc blocked v v.rules) ++ droppedIncs sc n.excludedMatch ++
        [(⟨"scanning.duration".toList, sc.labels⟩, elapsed), (⟨"scanned_events".toList, sc.labels⟩, n.scannedEvents),
          (⟨"scanning.match_count".toList, sc.labels⟩, n.matchCount)])

end Sds
