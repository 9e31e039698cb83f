import Verif.Model.Validation

/-! # Match validation as worker threads run it

`validate_matches` (scanner/mod.rs 411-420), `HttpValidator::validate` (http_validator.rs 115-145) and
`AwsValidator::validate` (aws_validator.rs 125-170) use rayon's `par_iter_mut().for_each`: the groups are validated at
the same time, and so are the checks of each group.  Here the work of every group is a transition system, and all of
them make steps in any order.  The reply to a request is whatever the server likes: equal requests may have different
replies.  (In `Verif.Model.Validation` the checks of a group run one after the other, and so do the groups.)

A thread that waits for its own checks may take over other work meanwhile; this only restricts the order of steps. -/

namespace Sds

/-- A key of the table of a validator (http_validator.rs 104-113, aws_validator.rs 56-66). -/
inductive CheckKey where
  | http (i : Nat) (endpoint : Str)
  | aws (i j : Nat)
deriving DecidableEq, Repr

inductive Request where
  | http (r : HttpReq)
  | aws (r : AwsReq)
deriving DecidableEq, Repr

/-- What is sent and received for the check with the given key. -/
inductive NetEvent where
  | sent (k : CheckKey) (r : Request)
  | received (k : CheckKey) (a : Reply)
deriving DecidableEq, Repr

/-- Where a check stands; `done` is the status in the table. -/
inductive Job where
  | todo
  | waiting
  | done (s : MatchStatus)
  | crashed
deriving DecidableEq, Repr

/-- What a check does until it sends its request. -/
inductive Ask where
  | known (s : MatchStatus)
  | send (r : Request)
  | panics
deriving DecidableEq, Repr

/-- The parts of the outside that are not servers, as in `Net`. -/
structure Signer where
  signable : AwsReq → Bool
  word : Char → Bool

/-- The keys of the table of a validator. -/
def jobKeys (rules : List (Option VType)) (ms : List RuleMatch) : Validator → List CheckKey
  | .http cfg => (httpKeys cfg ms.length).map fun k => .http k.1 k.2
  | .aws _ => (awsPairs rules ms).map fun k => .aws k.1 k.2

/-- A check, up to its request (http_validator.rs 117-132, aws_validator.rs 128-158). -/
def beginCheck (sg : Signer) (ms : List RuleMatch) : Validator → CheckKey → Ask
  | .http cfg, .http i e =>
    match (ms[i]?).bind (·.value) with
    | none => .panics
    | some v => .send (.http (cfg.request e v))
  | .aws cfg, .aws i j =>
    match (ms[j]?).bind (·.value), (ms[i]?).bind (·.value) with
    | none, _ => .known (.error missingSecret)
    | some _, none => .known (.error missingId)
    | some secret, some id =>
      let req : AwsReq := ⟨cfg, id, extractSecret sg.word secret⟩
      if sg.signable req then .send (.aws req) else .panics
  | _, _ => .panics

/-- The rest of a check, given the reply (http_validator.rs 133-144, aws_validator.rs 160-168).  The entry of the
table has its first value, `NotChecked`. -/
def endCheck : Validator → Reply → MatchStatus
  | .http cfg, .response code => cfg.classify code
  | .aws _, .response code => awsClassify .notChecked code
  | _, .failed e => .error (requestError e)

/-- One round of the update loops (http_validator.rs 149-151, aws_validator.rs 84-92). -/
def mergeKey (ms : List RuleMatch) (s : MatchStatus) : CheckKey → List RuleMatch
  | .http i _ => mergeAt ms i s
  | .aws i j => mergeAt (mergeAt ms i s) j s

/-- Where the work of a group stands: the checks run, or the update loop with the keys that are left. -/
inductive Phase where
  | waiting
  | checking
  | merging (left : List CheckKey)
  | finished
  | crashed
deriving DecidableEq, Repr

/-- A group of matches (scanner/mod.rs 396-408) with its validator, if there is one (413), the table of the validator, and
what was sent and received so far (which the code does not keep). -/
structure Group where
  type : IType
  matches_ : List RuleMatch
  validator : Option Validator
  keys : List CheckKey := []
  jobs : CheckKey → Job := fun _ => .todo
  phase : Phase := .waiting
  log : List NetEvent := []

def setJob (jobs : CheckKey → Job) (k : CheckKey) (j : Job) : CheckKey → Job := fun k' => if k' = k then j else jobs k'

/-- One step of one of the threads that work for a group. -/
inductive GroupStep (sg : Signer) (rules : List (Option VType)) : Group → Group → Prop where
  /-- There is no validator for the type (scanner/mod.rs 414). -/
  | none (g) : g.phase = .waiting → g.validator = none → GroupStep sg rules g { g with phase := .finished }
  /-- `validate` is called and creates its table. -/
  | start (g v) : g.phase = .waiting → g.validator = some v →
      GroupStep sg rules g { g with phase := .checking, keys := jobKeys rules g.matches_ v }
  /-- A check that ends without a request. -/
  | known (g v k s) : g.phase = .checking → g.validator = some v → k ∈ g.keys → g.jobs k = .todo →
      beginCheck sg g.matches_ v k = .known s → GroupStep sg rules g { g with jobs := setJob g.jobs k (.done s) }
  /-- A check sends its request. -/
  | send (g v k r) : g.phase = .checking → g.validator = some v → k ∈ g.keys → g.jobs k = .todo →
      beginCheck sg g.matches_ v k = .send r →
      GroupStep sg rules g { g with jobs := setJob g.jobs k .waiting, log := g.log ++ [.sent k r] }
  /-- A check panics. -/
  | panic (g v k) : g.phase = .checking → g.validator = some v → k ∈ g.keys → g.jobs k = .todo →
      beginCheck sg g.matches_ v k = .panics → GroupStep sg rules g { g with jobs := setJob g.jobs k .crashed }
  /-- A check gets a reply, or gives up, and ends. -/
  | receive (g v k a) : g.phase = .checking → g.validator = some v → k ∈ g.keys → g.jobs k = .waiting →
      GroupStep sg rules g { g with jobs := setJob g.jobs k (.done (endCheck v a)), log := g.log ++ [.received k a] }
  /-- All checks have ended: `for_each` returns, and the loop over the table begins, in any order. -/
  | join (g order) : g.phase = .checking → (∀ k ∈ g.keys, ∃ s, g.jobs k = .done s) → order.Perm g.keys →
      GroupStep sg rules g { g with phase := .merging order }
  /-- Some check has panicked: `for_each` waits for the others that run, drops those that do not run yet, and
  panics. -/
  | crash (g k) : g.phase = .checking → k ∈ g.keys → g.jobs k = .crashed → (∀ k ∈ g.keys, g.jobs k ≠ .waiting) →
      GroupStep sg rules g { g with phase := .crashed }
  /-- One round of the update loop. -/
  | merge (g k left s) : g.phase = .merging (k :: left) → g.jobs k = .done s →
      GroupStep sg rules g { g with phase := .merging left, matches_ := mergeKey g.matches_ s k }
  /-- `validate` returns. -/
  | finish (g) : g.phase = .merging [] → GroupStep sg rules g { g with phase := .finished }

/-- One step of one of the groups. -/
inductive ParStep (sg : Signer) (rules : List (Option VType)) : List Group → List Group → Prop where
  | mk (a g g' b) : GroupStep sg rules g g' → ParStep sg rules (a ++ g :: b) (a ++ g' :: b)

/-- Any number of steps. -/
inductive ParRun (sg : Signer) (rules : List (Option VType)) : List Group → List Group → Prop where
  | refl (gs) : ParRun sg rules gs gs
  | tail {gs gs' gs''} : ParRun sg rules gs gs' → ParStep sg rules gs' gs'' → ParRun sg rules gs gs''

/-- The groups before the parallel loop (scanner/mod.rs 411). -/
def startGroups (vs : List (IType × Validator)) (gs : List (IType × List RuleMatch)) : List Group :=
  gs.map fun g => { type := g.1, matches_ := g.2, validator := vs.lookup g.1 }

/-- `validate_matches` (scanner/mod.rs 388-430) for a scanner that returns matches: `ParValidates … groups outs` says that
the call can return `outs`, with `groups` the groups after the parallel loop; the matches are refilled in any order of the
groups (423-425) and sorted (428). -/
inductive ParValidates (sg : Signer) (rules : List (Option VType)) (vs : List (IType × Validator)) (ms : List RuleMatch) :
    List Group → List RuleMatch → Prop where
  | mk (gs) (groups order : List Group) : groupMatches rules ms [] = .ok gs → ParRun sg rules (startGroups vs gs) groups →
      (∀ g ∈ groups, g.phase = .finished) → order.Perm groups →
      ParValidates sg rules vs ms groups (sortBy startIndexLe (order.flatMap (·.matches_)))

/-- The call can panic in the parallel loop: some group has panicked and no group is at work any more. -/
inductive ParPanics (sg : Signer) (rules : List (Option VType)) (vs : List (IType × Validator)) (ms : List RuleMatch) :
    List Group → Prop where
  | mk (gs groups) : groupMatches rules ms [] = .ok gs → ParRun sg rules (startGroups vs gs) groups →
      (∃ g ∈ groups, g.phase = .crashed) →
      (∀ g ∈ groups, g.phase = .crashed ∨ g.phase = .finished ∨ g.phase = .waiting) →
      ParPanics sg rules vs ms groups

end Sds
