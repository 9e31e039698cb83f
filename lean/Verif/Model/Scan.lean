import Verif.Model.Event
import Verif.Model.Search

/-! # Scanning an event

Model of `Scanner::scan` (sds/src/scanner/mod.rs 316-386) and `ScannerContentVisitor::visit_content`
(729-805).  Metrics are left out.  Rule kinds other than regex rules are covered as far as they keep no state
between calls (`group_data`, `rule_scan_caches`); the others are in `Model/Kinds.lean`. -/

namespace Sds

/-- `CompiledRule` (scanner/mod.rs 196-257; its object-safe form is in 42-105): action and validation type, scope, `should_exclude_multipass_v0`,
and `get_string_matches` for a content, a path, and whether the path is excluded for the rule. -/
structure CRule where
  info : RuleInfo
  scope : Scope
  multipass : Bool
  run : Str → Path → Bool → Res Found

/-- A regex rule as a compiled rule (compiled.rs 32-119).  `fuel` bounds the steps of the search loops for a
content; `kwPaths` is `should_keywords_match_event_paths`. -/
def RegexRule.toCRule (r : RegexRule) (info : RuleInfo) (scope : Scope) (kwPaths : Bool) (fuel : Str → Nat) : CRule :=
  ⟨info, scope, true, fun c p ex => stringMatches r kwPaths ex c p (fuel c)⟩

/-- The parts of `Scanner` (scanner/mod.rs 294-304) used by `scan`. -/
structure Scanner where
  rules : List CRule
  wildcards : Bool
  multipassEnabled : Bool
  returnMatches : Bool
  fp : Fingerprint

/-- The loop over the rules of one string (mod.rs 744-781): matches of the string, and `excluded_matches`. -/
def runRules (sc : Scanner) (blocked : List Nat) (v : Visit) : List Nat → List Str → Res (List M × List Str)
  | [], ex => Res.ok ([], ex)
  | r :: rs, ex =>
    if blocked.contains r then runRules sc blocked v rs ex
    else
      match sc.rules[r]? with
      | none => Res.panic
      | some rule =>
        match rule.run v.content v.path (v.excluded.contains r) with
        | .panic => Res.panic
        | .hang => Res.hang
        | .ok f =>
          match runRules sc blocked v rs (ex ++ f.inserted) with
          | .panic => Res.panic
          | .hang => Res.hang
          | .ok (ms, ex') => Res.ok (f.matches_.map (fun m => ⟨r, m.1, m.2⟩) ++ ms, ex')

/-- The matches collected for one string; `content` is the text `calculate_indices` ran on. -/
structure PathMatches where
  path : Path
  content : Str
  ms : List M

/-- `visit_content` for all strings in order (mod.rs 729-805). -/
def runVisits (sc : Scanner) (blocked : List Nat) : List Visit → List Str → Res (List PathMatches × List Str)
  | [], ex => Res.ok ([], ex)
  | v :: vs, ex =>
    match runRules sc blocked v v.rules ex with
    | .panic => Res.panic
    | .hang => Res.hang
    | .ok (ms, ex') =>
      match runVisits sc blocked vs ex' with
      | .panic => Res.panic
      | .hang => Res.hang
      | .ok (l, ex'') =>
        Res.ok (if ms.isEmpty then l else ⟨v.path, v.content, sortBy startLe ms⟩ :: l, ex'')

/-- The multi-pass filter (mod.rs 348-364). -/
def retainMatches (sc : Scanner) (excluded : List Str) (content : Str) : List M → Res (List M)
  | [] => Res.ok []
  | m :: ms =>
    match sc.rules[m.rule]? with
    | none => Res.panic
    | some rule =>
      if rule.multipass then
        match slice content m.st m.en with
        | none => Res.panic
        | some t =>
          match retainMatches sc excluded content ms with
          | .ok l => Res.ok (if excluded.contains t then l else m :: l)
          | .panic => Res.panic
          | .hang => Res.hang
      else
        match retainMatches sc excluded content ms with
        | .ok l => Res.ok (m :: l)
        | .panic => Res.panic
        | .hang => Res.hang

/-- `get_match_action().is_mutating()` of a rule. -/
def Scanner.redacts (sc : Scanner) (r : Nat) : Bool :=
  match sc.rules[r]? with
  | some rule => rule.info.action.isMutating
  | none => false

/-- The closure of mod.rs 345-376. -/
def editLeaf (sc : Scanner) (enc : Enc) (excluded : List Str) (pm : PathMatches) : Edit := fun content =>
  match (if sc.multipassEnabled then retainMatches sc excluded content pm.ms else Res.ok pm.ms) with
  | .panic => Res.panic
  | .hang => Res.hang
  | .ok ms =>
    match applyLoop sc.fp enc sc.returnMatches (sc.rules.map (·.info)) pm.path pm.content (resolve sc.redacts ms)
        ⟨content, 0, 0⟩ with
    | .ok (os, s) => Res.ok (s.content, os)
    | .panic => Res.panic
    | .hang => Res.hang

/-- The loop over the collected matches (mod.rs 343-377). -/
def editAll {E : Type} (impl : EventImpl E) (sc : Scanner) (excluded : List Str) :
    List PathMatches → E → Res (E × List RuleMatch)
  | [], e => Res.ok (e, [])
  | pm :: rest, e =>
    match impl.mutAt e pm.path (editLeaf sc impl.enc excluded pm) with
    | .panic => Res.panic
    | .hang => Res.hang
    | .ok (e', os) =>
      match editAll impl sc excluded rest e' with
      | .panic => Res.panic
      | .hang => Res.hang
      | .ok (e'', os') => Res.ok (e'', os ++ os')

/-- `Scanner::scan` (mod.rs 316-386). -/
def scan {E : Type} (impl : EventImpl E) (sc : Scanner) (e : E) (blocked : List Nat) : Res (E × List RuleMatch) :=
  match visitCombinations (RuleSet.new (sc.rules.map (·.scope)) sc.wildcards) (impl.ops e) with
  | .panic => Res.panic
  | .hang => Res.hang
  | .ok vs =>
    match runVisits sc blocked vs [] with
    | .panic => Res.panic
    | .hang => Res.hang
    | .ok (l, excluded) => editAll impl sc excluded l e

end Sds
