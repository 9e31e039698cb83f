import Verif.Spec.Event
import Verif.Spec.Overlap
import Verif.Spec.Search
import Verif.Model.Scan

/-! # Specification: scanning an event

Uses the data of the scanner (rules, scopes, flags) and what a rule finds in one string. -/

namespace Sds.Spec

/-- What the scanner relies on for a rule: matches are non-empty ranges of the content on character
boundaries, an excluded field only yields texts, another field only matches, and the action was validated. -/
structure RuleOk (rule : CRule) : Prop where
  ranges : ∀ c p ex f, rule.run c p ex = Res.ok f → ∀ m ∈ f.matches_, m.1 < m.2 ∧ OnBoundary c m.1 ∧ OnBoundary c m.2
  excluded : ∀ c p f, rule.run c p true = Res.ok f → f.matches_ = []
  scanned : ∀ c p f, rule.run c p false = Res.ok f → f.inserted = []
  action : rule.info.action ≠ .partialFirst 0 ∧ rule.info.action ≠ .partialLast 0

def ScannerOk (sc : Scanner) : Prop := ∀ rule ∈ sc.rules, RuleOk rule

/-- The rules do not panic or hang on these strings. -/
def Returns (sc : Scanner) (leaves : List Leaf) : Prop :=
  ∀ rule ∈ sc.rules, ∀ l ∈ leaves, ∀ ex, ∃ f, rule.run l.text l.path ex = Res.ok f

/-- Rule number `r` is enabled and in scope at the path; `ex` says whether the path is excluded for it. -/
def Applies (sc : Scanner) (blocked : List Nat) (p : Path) (ex : Bool) (r : Nat) (rule : CRule) : Prop :=
  r ∉ blocked ∧ sc.rules[r]? = some rule ∧ Scans sc.wildcards p rule.scope ∧
    (ex = true ↔ Excludes sc.wildcards p rule.scope)

/-- `m` is a candidate match in the string `c` at the path `p`. -/
def Candidate (sc : Scanner) (blocked : List Nat) (p : Path) (c : Str) (m : M) : Prop :=
  ∃ rule f, Applies sc blocked p false m.rule rule ∧ rule.run c p false = Res.ok f ∧ (m.st, m.en) ∈ f.matches_

/-- The text `t` is a true positive of some rule in one of the fields excluded for this rule. -/
def FoundInExcluded (sc : Scanner) (blocked : List Nat) (leaves : List Leaf) (t : Str) : Prop :=
  ∃ l ∈ leaves, ∃ r rule f, Applies sc blocked l.path true r rule ∧ rule.run l.text l.path true = Res.ok f ∧
    t ∈ f.inserted

/-- The candidate is dropped by the multi-pass heuristic. -/
def Suppressed (sc : Scanner) (blocked : List Nat) (leaves : List Leaf) (c : Str) (m : M) : Prop :=
  sc.multipassEnabled = true ∧ ∃ rule t, sc.rules[m.rule]? = some rule ∧ rule.multipass = true ∧
    TextAt c m.st m.en t ∧ FoundInExcluded sc blocked leaves t

/-- The candidates that remain. -/
def Kept (sc : Scanner) (blocked : List Nat) (leaves : List Leaf) (p : Path) (c : Str) (m : M) : Prop :=
  Candidate sc blocked p c m ∧ ¬ Suppressed sc blocked leaves c m

/-- The event is well formed, the rules return on its strings, and no rule has a match in a number or boolean
(C56). -/
structure Scannable {E : Type} (wf : E → Prop) (leavesOf : E → List Leaf) (sc : Scanner) (blocked : List Nat)
    (e : E) : Prop where
  wf : wf e
  returns : Returns sc (leavesOf e)
  strings : ∀ l ∈ leavesOf e, l.fixed = true → ∀ m, ¬ Candidate sc blocked l.path l.text m

/-- Action and validation type of a rule. -/
def infoOf (sc : Scanner) (r : Nat) : RuleInfo :=
  match sc.rules[r]? with
  | some rule => rule.info
  | none => ⟨.none, false⟩

/-- The rule rewrites its matches. -/
def redacting (sc : Scanner) (r : Nat) : Bool := decide ((infoOf sc r).action ≠ .none)

/-- The result for one string: `os` are the reports and `new` is the new text.  The candidates that remain are
resolved (C01-C03), the string is cut at the reported ranges, and each of them is rewritten and reported
(C04-C05). -/
def LeafResult (enc : Enc) (sc : Scanner) (blocked : List Nat) (leaves : List Leaf) (l : Leaf) (os : List RuleMatch)
    (new : Str) : Prop :=
  ∃ (ks res : List M) (ps : List Piece) (tail : Str),
    (∀ m, m ∈ ks ↔ Kept sc blocked leaves l.path l.text m) ∧
    IsResolution (redacting sc) ks res ∧ res.Pairwise (fun a b => a.en ≤ b.st) ∧
    l.text = input ps tail ∧ res = ranges 0 ps ∧
    os = reports enc.units (infoOf sc) (fun r t => redacted sc.fp (infoOf sc r).action t) sc.returnMatches l.path [] [] ps ∧
    new = output (fun r t => redacted sc.fp (infoOf sc r).action t) ps tail

/-- The scanner in which the blocked rules never find anything. -/
def silence (sc : Scanner) (blocked : List Nat) : Scanner :=
  { sc with rules := sc.rules.mapIdx fun i rule =>
      if i ∈ blocked then { rule with run := fun _ _ _ => Res.ok ⟨[], []⟩ } else rule }

end Sds.Spec
