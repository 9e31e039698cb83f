import Verif.Model.Builder
import Verif.Spec.Keywords

/-! # What building a scanner should do -/

namespace Sds.Spec

open Sds

/-- The fault of a keyword configuration: look-ahead, number of keywords, included keywords, excluded keywords. -/
def KwFault (c : KwConfig) (e : KwError) : Prop :=
  ((c.lookAhead = 0 ∨ c.lookAhead > 50) ∧ e = .invalidLookAhead) ∨
  ((1 ≤ c.lookAhead ∧ c.lookAhead ≤ 50) ∧
    (((c.included.length > 50 ∨ c.excluded.length > 50) ∧ e = .tooManyKeywords) ∨
     ((c.included.length ≤ 50 ∧ c.excluded.length ≤ 50) ∧
       (FirstFault c.lookAhead Blank c.included e ∨
        ((∀ k ∈ c.included, k.length ≤ c.lookAhead ∧ ¬ Blank k) ∧
          FirstFault c.lookAhead BlankIgnoring c.excluded e)))))

/-- An action that cannot be carried out: a partial redaction of no characters. -/
def BadAction (a : Action) : Prop := a = .partialFirst 0 ∨ a = .partialLast 0

/-- What is wrong with a rule; regex before action before keywords. -/
inductive Faulty {V : Type} (regexOf : Str → Except RegexErr V) (r : RuleCfg) : CreateErr → Prop where
  | regex {e} : regexOf r.pattern = .error e → Faulty regexOf r (.invalidRegex e)
  | action {v} : regexOf r.pattern = .ok v → BadAction r.action → Faulty regexOf r .invalidMatchAction
  | keywords {v c e} : regexOf r.pattern = .ok v → ¬ BadAction r.action → r.keywords = some c → KwFault c e →
      Faulty regexOf r (.invalidKeywords e)

/-- A rule with nothing wrong. -/
def ValidRule {V : Type} (regexOf : Str → Except RegexErr V) (r : RuleCfg) : Prop :=
  (∃ v, regexOf r.pattern = .ok v) ∧ ¬ BadAction r.action ∧ ∀ c, r.keywords = some c → WellFormed c

/-- The kinds of outcome a caller of `create_scanner` wants to tell apart. -/
inductive OutcomeKind where
  | scanner (address : Nat)
  | regex
  | keywords
  | action
  | validator
  | panic
deriving DecidableEq, Repr

def outcomeKind : CreateOutcome → OutcomeKind
  | .scanner a => .scanner a
  | .error (.invalidRegex _) => .regex
  | .error (.invalidKeywords _) => .keywords
  | .error .invalidMatchAction => .action
  | .error .invalidMatchValidator => .validator
  | .panic _ => .panic

/-- The scanners alive. -/
def liveScanners (w : StatWorld) : Nat := w.clients.count .alive

/-- In the middle of updating the statistics. -/
def Updating : StatPc → Bool
  | .counted _ => true
  | .uncounted _ => true
  | _ => false

/-- Nobody is in the middle of updating the statistics. -/
def Quiet (w : StatWorld) : Prop := ∀ pc ∈ w.clients, Updating pc = false

/-- Histories in which at most one client at a time updates the statistics. -/
inductive SerialReach : StatWorld → Prop where
  | init : SerialReach .init
  | step {w w'} : SerialReach w → StatStep w w' → w'.clients.countP Updating ≤ 1 → SerialReach w'

end Sds.Spec
