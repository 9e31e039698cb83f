import Verif.Spec.Scan

/-! # Specification: what a string's result may depend on -/

namespace Sds.Spec

/-- The texts that a scan of these strings remembers to leave alone: the true positives in excluded fields, if the multi-pass
heuristic is on. -/
def Remembered (sc : Scanner) (blocked : List Nat) (leaves : List Leaf) : Str → Prop :=
  fun t => sc.multipassEnabled = true ∧ FoundInExcluded sc blocked leaves t

/-- The scan of every event, of whatever kind (with the encoding `enc`), applies this one function to each of its strings: to the
path, the text and the remembered texts.  It tells the reports, in the order of the strings, and the new text. -/
def ScansBy (enc : Enc) (sc : Scanner) (blocked : List Nat) (F : (Str → Prop) → Path → Str → List RuleMatch × Str) : Prop :=
  ∀ (E : Type) (impl : EventImpl E) (wf : E → Prop) (leavesOf : E → List Leaf) (rew : (Path → Str → Str) → E → E),
    LawfulEvent impl wf leavesOf rew → impl.enc = enc → ∀ e, Scannable wf leavesOf sc blocked e →
      scan impl sc e blocked = Res.ok
        (rew (fun p c => (F (Remembered sc blocked (leavesOf e)) p c).2) e,
          (leavesOf e).flatMap fun l => (F (Remembered sc blocked (leavesOf e)) l.path l.text).1)

end Sds.Spec
