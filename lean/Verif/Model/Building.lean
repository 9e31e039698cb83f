import Verif.Model.Store
import Verif.Model.Builder
import Verif.Model.KeywordRegex

/-! # Building scanners through the regex store

`ScannerBuilder::build` (scanner/mod.rs 650-715) as a program that asks the shared store of `Store` for the regexes of its rules
and of their keywords, one after the other, while other builders do the same, and while scanners are used and dropped.
In `Builder`, the store is a function. -/

namespace Sds

/-- The two kinds of requests to the store: for the pattern of a rule (regex_rule/config.rs 99) and for the text made of
keywords (proximity_keywords/mod.rs 232-235). -/
inductive AskKind where
  | rule
  | keyword
deriving DecidableEq, Repr

/-- The two factories: `validate_and_create_regex` (validation.rs 64-72) and `regex_builder.build` of `compile_keywords`
(proximity_keywords/mod.rs 222-230). -/
structure Factories (V : Type) where
  rule : Str → Except RegexErr V
  keyword : Str → Option V

/-- The factory of a request, as the store sees it. -/
def Factories.of {V : Type} (E : Factories V) : AskKind → Str → Option V
  | .rule, p =>
    match E.rule p with
    | .ok v => some v
    | .error _ => none
  | .keyword, p => E.keyword p

/-- A program that asks for regexes; an answer is an `H`.  If a request for a rule fails, `?` ends the program with the error; if a
request for keywords fails, `unwrap` panics. -/
inductive Prog (H α : Type) where
  | done (r : Except CreateErr α)
  | ask (kind : AskKind) (p : Str) (k : H → Prog H α)
  | panic

/-- `?` in the middle of a function. -/
def Prog.bind {H α β : Type} : Prog H α → (α → Prog H β) → Prog H β
  | .done (.ok a), f => f a
  | .done (.error e), _ => .done (.error e)
  | .ask kind p k, f => .ask kind p fun h => (k h).bind f
  | .panic, _ => .panic

/-- `RegexCompiledRule` (regex_rule/compiled.rs 22-36) with its regexes; `included` and `excluded` are the pairs of content
regex and path regex. -/
structure StoredRule (H : Type) where
  index : Nat
  regex : H
  action : Action
  included : Option (H × H)
  excluded : Option (H × H)
  vtype : Option VType
  itype : Option IType
deriving DecidableEq

/-- `Scanner` (scanner/mod.rs 296-304), as in `BuiltScanner`. -/
structure StoredScanner (H : Type) where
  rules : List (StoredRule H)
  validators : List (IType × Validator)
  returnMatches : Bool
deriving DecidableEq

/-- `compile_keywords` (proximity_keywords/mod.rs 210-236). -/
def keywordProg {H : Type} (lookAhead : Nat) (removed : Char → Bool) (kws : List Str) : Prog H (Option (H × H)) :=
  match keywordTexts lookAhead removed kws with
  | .ok (.error e) => .done (.error (.invalidKeywords e))
  | .ok (.ok none) => .done (.ok none)
  | .ok (.ok (some (c, p))) => .ask .keyword c fun a => .ask .keyword p fun b => .done (.ok (some (a, b)))
  | _ => .panic

/-- `compile_keywords_proximity_config` (proximity_keywords/mod.rs 46-100), if there is a configuration (regex_rule/config.rs 104-108). -/
def keywordsProg {H : Type} : Option KwConfig → Prog H (Option (H × H) × Option (H × H))
  | none => .done (.ok (none, none))
  | some c =>
    if c.lookAhead = 0 ∨ c.lookAhead > 50 then .done (.error (.invalidKeywords .invalidLookAhead))
    else if c.included.length > 50 ∨ c.excluded.length > 50 then .done (.error (.invalidKeywords .tooManyKeywords))
    else
      (keywordProg c.lookAhead (fun _ => false) c.included).bind fun inc =>
        (keywordProg c.lookAhead isStripped c.excluded).bind fun exc => .done (.ok (inc, exc))

/-- `convert_to_compiled_rule` (regex_rule/config.rs 94-126). -/
def ruleProg {H : Type} (r : RuleCfg) (index : Nat) : Prog H (StoredRule H) :=
  .ask .rule r.pattern fun regex =>
    if r.action.validate then
      (keywordsProg r.keywords).bind fun ks =>
        .done (.ok ⟨index, regex, r.action, ks.1, ks.2, r.vtype, r.vtype.map VType.itype⟩)
    else .done (.error .invalidMatchAction)

/-- The loop over the rules (scanner/mod.rs 675-682). -/
def rulesProg {H : Type} : List RuleCfg → Nat → Prog H (List (StoredRule H))
  | [], _ => .done (.ok [])
  | r :: rs, i => (ruleProg r i).bind fun b => (rulesProg rs (i + 1)).bind fun bs => .done (.ok (b :: bs))

/-- `ScannerBuilder::build` (scanner/mod.rs 650-715). -/
def buildProg {H : Type} (rules : List RuleCfg) : Prog H (StoredScanner H) :=
  match buildValidators (rules.map (·.vtype)) [] false with
  | none => .done (.error .invalidMatchValidator)
  | some (vs, ret) => (rulesProg rules 0).bind fun bs => .done (.ok ⟨bs, vs, ret⟩)

/-- Where a call of `build` is.  Regexes are named by the calls of `get_memoized_regex` that returned them. -/
inductive BuildPc where
  | running (prog : Prog Nat (StoredScanner Nat))
  /-- inside the call `c` of `get_memoized_regex` -/
  | waiting (c : Nat) (kind : AskKind) (p : Str) (k : Nat → Prog Nat (StoredScanner Nat))
  | returned (r : Except CreateErr (StoredScanner Nat))
  | panicked
  /-- the scanner has been dropped -/
  | dropped

/-- A call of `build`; `calls` are all its calls of `get_memoized_regex`. -/
structure Build where
  rules : List RuleCfg
  calls : List Nat
  pc : BuildPc

/-- The regexes of the call are not used any more: `build` has returned an error or panics, or the scanner is being dropped. -/
def Build.over (b : Build) : Prop :=
  match b.pc with
  | .returned (.error _) => True
  | .panicked => True
  | .dropped => True
  | _ => False

/-- The process: the store with the calls of it, and the builders. -/
structure Builders (V : Type) where
  world : World V
  builds : List Build

def Builders.init (V : Type) : Builders V := ⟨World.init V, []⟩

/-- A step of the store without beginning a call and without dropping a regex. -/
structure Internal {V : Type} (w w' : World V) : Prop where
  step : StoreStep (fun _ _ => True) w w'
  calls : w'.threads.length = w.threads.length
  kept : ∀ (c : Nat) p h, w.threads[c]? = some (Pc.holds p h) → w'.threads[c]? = some (Pc.holds p h)

/-- One step of the process.  `A rules` says that somebody may build a scanner with these rules. -/
inductive BuildStep {V : Type} (E : Factories V) (A : List RuleCfg → Prop) : Builders V → Builders V → Prop where
  /-- `build` is called -/
  | create (s rules) : A rules → BuildStep E A s { s with builds := s.builds ++ [⟨rules, [], .running (buildProg rules)⟩] }
  /-- it calls `get_memoized_regex` -/
  | ask (s) (i : Nat) (b : Build) (kind p k) : s.builds[i]? = some b → b.pc = .running (.ask kind p k) →
      BuildStep E A s
        ⟨{ s.world with threads := s.world.threads ++ [Pc.start p (E.of kind)] },
          s.builds.set i { b with
            calls := s.world.threads.length :: b.calls, pc := .waiting s.world.threads.length kind p k }⟩
  /-- calls of the store go on, scanners are used -/
  | store (s w') : Internal s.world w' → BuildStep E A s { s with world := w' }
  /-- `get_memoized_regex` returns a regex -/
  | answer (s) (i : Nat) (b : Build) (c kind p k h) : s.builds[i]? = some b → b.pc = .waiting c kind p k →
      s.world.threads[c]? = some (Pc.holds p h) →
      BuildStep E A s { s with builds := s.builds.set i { b with pc := .running (k c) } }
  /-- it returns the error of `validate_and_create_regex` -/
  | refuse (s) (i : Nat) (b : Build) (c p k e) : s.builds[i]? = some b → b.pc = .waiting c .rule p k →
      s.world.threads[c]? = some (Pc.failed p) → E.rule p = .error e →
      BuildStep E A s { s with builds := s.builds.set i { b with pc := .returned (.error (.invalidRegex e)) } }
  /-- `unwrap` of an error of `regex_builder.build` -/
  | crash (s) (i : Nat) (b : Build) (c p k) : s.builds[i]? = some b → b.pc = .waiting c .keyword p k →
      s.world.threads[c]? = some (Pc.failed p) →
      BuildStep E A s { s with builds := s.builds.set i { b with pc := .panicked } }
  /-- a panic while a text is made -/
  | panic (s) (i : Nat) (b : Build) : s.builds[i]? = some b → b.pc = .running .panic →
      BuildStep E A s { s with builds := s.builds.set i { b with pc := .panicked } }
  /-- `build` returns -/
  | finish (s) (i : Nat) (b : Build) (r) : s.builds[i]? = some b → b.pc = .running (.done r) →
      BuildStep E A s { s with builds := s.builds.set i { b with pc := .returned r } }
  /-- the scanner is dropped -/
  | drop (s) (i : Nat) (b : Build) (sc) : s.builds[i]? = some b → b.pc = .returned (.ok sc) →
      BuildStep E A s { s with builds := s.builds.set i { b with pc := .dropped } }
  /-- one of its regexes is dropped -/
  | release (s) (i : Nat) (b : Build) (c p h) : s.builds[i]? = some b → b.over → c ∈ b.calls →
      s.world.threads[c]? = some (Pc.holds p h) →
      BuildStep E A s { s with world := { s.world with threads := s.world.threads.set c Pc.done } }

/-- States the process can reach. -/
inductive BuildReach {V : Type} (E : Factories V) (A : List RuleCfg → Prop) : Builders V → Prop where
  | init : BuildReach E A (.init V)
  | step {s s' : Builders V} : BuildReach E A s → BuildStep E A s s' → BuildReach E A s'

end Sds
