import Verif.Model.Building
import Verif.Spec.Builder

/-! # What scanners built in one process should be -/

namespace Sds

def StoredRule.map {H K : Type} (f : H → K) (b : StoredRule H) : StoredRule K :=
  ⟨b.index, f b.regex, b.action, b.included.map fun x => (f x.1, f x.2), b.excluded.map fun x => (f x.1, f x.2), b.vtype, b.itype⟩

def StoredScanner.map {H K : Type} (f : H → K) (s : StoredScanner H) : StoredScanner K :=
  ⟨s.rules.map (StoredRule.map f), s.validators, s.returnMatches⟩

namespace Spec

variable {V : Type}

/-- The regex that a call of the store has returned, if it has not been dropped. -/
def regexOfCall (w : World V) (c : Nat) : Option V :=
  match w.threads[c]? with
  | some (.holds _ h) => (w.regs[h.reg]?).map (·.2)
  | _ => none

/-- How a call of `build` ended: with an error, or with a scanner, which still has all of its regexes. -/
def Outcome (s : Builders V) (b : Build) : Except CreateErr (StoredScanner V) → Prop
  | .error e => b.pc = .returned (.error e)
  | .ok t => ∃ sc, b.pc = .returned (.ok sc) ∧ sc.map (regexOfCall s.world) = t.map some

/-- The texts of content regex and path regex for keywords. -/
def TextsOf (la : Nat) (removed : Char → Bool) (kws : List Str) (content path : Str) : Prop :=
  keywordTexts la removed kws = .ok (.ok (some (content, path)))

/-- A pattern of a rule that is used in the process. -/
def RulePattern (A : List RuleCfg → Prop) (p : Str) : Prop := ∃ rules, A rules ∧ ∃ r ∈ rules, r.pattern = p

/-- A text made of the keywords of a rule that is used in the process. -/
def KeywordText (A : List RuleCfg → Prop) (p : Str) : Prop :=
  ∃ rules, A rules ∧ ∃ r ∈ rules, ∃ k, r.keywords = some k ∧ ∃ c q, (p = c ∨ p = q) ∧
    (TextsOf k.lookAhead (fun _ => false) k.included c q ∨ TextsOf k.lookAhead isStripped k.excluded c q)

/-- A text that is the pattern of one rule and is made of the keywords of another one gets the same regex, or is refused,
either way; for instance because there is none. -/
def NoClash (E : Factories V) (A : List RuleCfg → Prop) : Prop :=
  ∀ p, RulePattern A p → KeywordText A p → E.of .rule p = E.of .keyword p

/-- The two regexes of keywords, if there are any. -/
def KeywordRegexes (E : Factories V) (la : Nat) (removed : Char → Bool) (kws : List Str) (o : Option (V × V)) : Prop :=
  (kws = [] ∧ o = none) ∨
  ∃ c q a b, TextsOf la removed kws c q ∧ E.keyword c = some a ∧ E.keyword q = some b ∧ o = some (a, b)

/-- A compiled rule is made of the rule `r`, at the place `i`. -/
structure CompiledFrom (E : Factories V) (i : Nat) (r : RuleCfg) (b : StoredRule V) : Prop where
  index : b.index = i
  regex : E.rule r.pattern = .ok b.regex
  action : b.action = r.action
  vtype : b.vtype = r.vtype
  itype : b.itype = r.vtype.map VType.itype
  plain : r.keywords = none → b.included = none ∧ b.excluded = none
  included : ∀ k, r.keywords = some k → KeywordRegexes E k.lookAhead (fun _ => false) k.included b.included
  excluded : ∀ k, r.keywords = some k → KeywordRegexes E k.lookAhead isStripped k.excluded b.excluded

/-- What building these rules is to give, whatever else happens in the process. -/
def AsConfigured (E : Factories V) (rules : List RuleCfg) : Except CreateErr (StoredScanner V) → Prop
  | .error e => ∃ l r rs, rules = l ++ r :: rs ∧ (∀ x ∈ l, ValidRule E.rule x) ∧ Faulty E.rule r e
  | .ok t => (∀ r ∈ rules, ValidRule E.rule r) ∧ t.rules.length = rules.length ∧
      (t.returnMatches = true ↔ ∃ r ∈ rules, ∃ v, r.vtype = some v ∧ v.canCreate = true) ∧
      ∀ i b, t.rules[i]? = some b → ∃ r, rules[i]? = some r ∧ CompiledFrom E i r b

/-- Whatever has happened before and happens meanwhile, scanners are what their rules say. -/
def AlwaysAsConfigured (E : Factories V) (A : List RuleCfg → Prop) : Prop :=
  ∀ (s : Builders V) (b : Build) (o : Except CreateErr (StoredScanner V)), BuildReach E A s → b ∈ s.builds → Outcome s b o →
    AsConfigured E b.rules o

/-- The call has neither returned nor panicked. -/
def Unfinished (b : Build) : Prop :=
  match b.pc with
  | .running _ => True
  | .waiting _ _ _ _ => True
  | _ => False

end Spec
end Sds
