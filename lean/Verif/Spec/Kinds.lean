import Verif.Spec.Scan
import Verif.Model.Kinds

/-! # Specification: data shared by rules

The history of the calls of the rules during a scan, in which every call names the values it was given.  No maps
and no dynamic types. -/

namespace Sds.Spec

section
variable {V : Nat → Type}

/-- A value of the type `s` used as one of the type `t`. -/
def asType {s : Nat} (t : Nat) (v : V s) : Option (V t) :=
  if h : s = t then some (h ▸ v) else none

/-- A call to be made: on which string (its number in the event, its path, its text), of which rule, and whether
the string is excluded for the rule. -/
structure Due where
  string : Nat
  path : Path
  content : Str
  index : Nat
  excluded : Bool
deriving DecidableEq, Repr

/-- A call of a rule: the values it was given, and what it made of them. -/
structure Call (V : Nat → Type) where
  due : Due
  rule : KRule V
  data : V rule.dataT
  config : V rule.configT
  cache : V rule.cacheT
  found : Found
  data' : V rule.dataT
  cache' : V rule.cacheT

/-- The data of type `t` left by the last of the calls on the string that had data of this type.  The newest
call comes first. -/
def dataLeft (calls : List (Call V)) (string t : Nat) : Option (V t) :=
  calls.findSome? fun c => if c.due.string = string then asType t c.data' else none

/-- The cache of type `t` left by the last of the calls that had a cache of this type, on any string. -/
def cacheLeft (calls : List (Call V)) (t : Nat) : Option (V t) :=
  calls.findSome? fun c => asType t c.cache'

/-- For each rule with configuration type `t`, in order: what it starts from and what it does. -/
def configSteps (rules : List (KRule V)) (t : Nat) : List (V t × (V t → V t)) :=
  rules.filterMap fun r => if h : r.configT = t then some (h ▸ (r.createConfig, r.process)) else none

/-- The configuration of type `t`: made by the first rule with this type, then processed by all rules with this
type in order (the first one included). -/
def configMade (rules : List (KRule V)) (t : Nat) : Option (V t) :=
  match configSteps rules t with
  | [] => none
  | (new, p) :: rest => some (((new, p) :: rest).foldl (fun v s => s.2 v) new)

/-- The call was given the right values. -/
def GivenRight (rules : List (KRule V)) (earlier : List (Call V)) (d : Due) (rule : KRule V) (data : V rule.dataT)
    (config : V rule.configT) (cache : V rule.cacheT) : Prop :=
  rules[d.index]? = some rule ∧
  data = (dataLeft earlier d.string rule.dataT).getD rule.createData ∧
  configMade rules rule.configT = some config ∧
  cache = (cacheLeft earlier rule.cacheT).getD rule.createCache

/-- A history of calls (newest first): each was given the right values, and did what the rule does. -/
inductive Lawful (rules : List (KRule V)) : List (Call V) → Prop
  | nil : Lawful rules []
  | call {earlier : List (Call V)} {c : Call V} : Lawful rules earlier →
      GivenRight rules earlier c.due c.rule c.data c.config c.cache →
      c.rule.run c.due.content c.due.path c.due.excluded c.data c.config c.cache =
        Res.ok (c.found, c.data', c.cache') →
      Lawful rules (c :: earlier)

/-- After the calls `cs` the call `d` was made with the right values; the rule itself panicked or ran forever, and
so the whole does. -/
def Fails (rules : List (KRule V)) (cs : List (Call V)) (d : Due) {α : Type} (result : Res α) : Prop :=
  ∃ rule data config cache, GivenRight rules cs d rule data config cache ∧
    ((rule.run d.content d.path d.excluded data config cache = Res.panic ∧ result = Res.panic) ∨
     (rule.run d.content d.path d.excluded data config cache = Res.hang ∧ result = Res.hang))

/-- Rule number `r` is enabled and in scope at the path. -/
def IsDue (rules : List (KRule V)) (wildcards : Bool) (blocked : List Nat) (p : Path) (r : Nat) : Prop :=
  r ∉ blocked ∧ ∃ rule, rules[r]? = some rule ∧ Scans wildcards p rule.scope

/-- The calls (oldest first) go through the strings in order; no rule is called twice on a string; only rules
that are enabled and in scope are called, with the path and the text of the string and with the right flag. -/
structure InOrder (rules : List (KRule V)) (wildcards : Bool) (blocked : List Nat) (leaves : List Leaf)
    (calls : List Due) : Prop where
  order : calls.Pairwise (fun a b => a.string ≤ b.string)
  once : (calls.map fun c => (c.string, c.index)).Nodup
  due : ∀ c ∈ calls, ∃ l rule, leaves[c.string]? = some l ∧ c.path = l.path ∧ c.content = l.text ∧
    c.index ∉ blocked ∧ rules[c.index]? = some rule ∧ Scans wildcards l.path rule.scope ∧
    (c.excluded = true ↔ Excludes wildcards l.path rule.scope)

/-- All calls that are due have been made. -/
def AllMade (rules : List (KRule V)) (wildcards : Bool) (blocked : List Nat) (leaves : List Leaf)
    (calls : List Due) : Prop :=
  ∀ i l, leaves[i]? = some l → ∀ r, IsDue rules wildcards blocked l.path r → ∃ c ∈ calls, c.string = i ∧ c.index = r

/-- A scanner of rules without data: same rules otherwise, same features, and on the calls of the history its
rules find what was found there. -/
structure Repeats (sc : KScanner V) (calls : List (Call V)) (sc' : Scanner) : Prop where
  wildcards : sc'.wildcards = sc.wildcards
  multipass : sc'.multipassEnabled = sc.multipassEnabled
  returns : sc'.returnMatches = sc.returnMatches
  fp : sc'.fp = sc.fp
  rules : sc'.rules.map (fun r => (r.info, r.scope, r.multipass)) = sc.rules.map (fun r => (r.info, r.scope, r.multipass))
  found : ∀ c ∈ calls, ∀ rule, sc'.rules[c.due.index]? = some rule →
    rule.run c.due.content c.due.path c.due.excluded = Res.ok c.found

/-- The scan made these calls (oldest first), and its result is that of any scanner which repeats them. -/
structure Scanned {E : Type} (impl : EventImpl E) (leaves : List Leaf) (sc : KScanner V) (e : E) (blocked : List Nat)
    (calls : List (Call V)) : Prop where
  lawful : Lawful sc.rules calls.reverse
  inOrder : InOrder sc.rules sc.wildcards blocked leaves (calls.map (·.due))
  allMade : AllMade sc.rules sc.wildcards blocked leaves (calls.map (·.due))
  result : ∀ sc', Repeats sc calls sc' → scanK impl sc e blocked = scan impl sc' e blocked

/-- What the scanner relies on for a rule (`RuleOk`), whatever values it is given. -/
structure KRuleOk (rule : KRule V) : Prop where
  ranges : ∀ c p ex d g k f d' k', rule.run c p ex d g k = Res.ok (f, d', k') →
    ∀ m ∈ f.matches_, m.1 < m.2 ∧ OnBoundary c m.1 ∧ OnBoundary c m.2
  excluded : ∀ c p d g k f d' k', rule.run c p true d g k = Res.ok (f, d', k') → f.matches_ = []
  scanned : ∀ c p d g k f d' k', rule.run c p false d g k = Res.ok (f, d', k') → f.inserted = []
  action : rule.info.action ≠ .partialFirst 0 ∧ rule.info.action ≠ .partialLast 0

/-- The rule only passes on its data and its cache, and finds what `f` says. -/
def Stateless (rule : KRule V) (f : Str → Path → Bool → Res Found) : Prop :=
  ∀ c p ex d g k, rule.run c p ex d g k = (f c p ex).map fun x => (x, d, k)

/-- No rule of `K` has a type of data, configuration or cache in common with a rule outside of `K`. -/
def Separate (rules : List (KRule V)) (K : Nat → Bool) : Prop :=
  ∀ r s x y, rules[r]? = some x → rules[s]? = some y → K r = true → K s = false →
    x.dataT ≠ y.dataT ∧ x.configT ≠ y.configT ∧ x.cacheT ≠ y.cacheT

end

end Sds.Spec
