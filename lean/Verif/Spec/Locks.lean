import Verif.Model.Locks

/-! # What it means for locks to be used well -/

namespace Sds.Spec

/-- Call `i` waits for a mutex. -/
def WaitsFor {H α : Type} (c : LockConf H α) (i : Nat) (m : Mtx) : Prop :=
  ∃ t p, c.threads[i]? = some t ∧ t.prog = .lock m p

/-- Call `i` holds a mutex. -/
def HasLock {H α : Type} (c : LockConf H α) (i : Nat) (m : Mtx) : Prop := ∃ t, c.threads[i]? = some t ∧ m ∈ t.held

/-- Call `i` has returned. -/
def Returned {H α : Type} (c : LockConf H α) (i : Nat) : Prop := ∃ t b, c.threads[i]? = some t ∧ t.prog = .done b

/-- Each of some calls waits for a mutex one of them holds. -/
def Deadlock {H α : Type} (c : LockConf H α) (S : Nat → Prop) : Prop :=
  (∃ i, S i) ∧ ∀ i, S i → ∃ m j, WaitsFor c i m ∧ S j ∧ HasLock c j m

/-- Building with these requests may panic by itself: a text cannot be made, the keywords are not accepted, or the factory
panics. -/
inductive MayPanic {H α : Type} (fac : AskKind → Str → FacRes) : Prog H α → Prop where
  | panic : MayPanic fac .panic
  | factory {kind p k} : fac kind p = .panics → MayPanic fac (.ask kind p k)
  | keywords {p k} : fac .keyword p = .rejected → MayPanic fac (.ask .keyword p k)
  | later {kind p k h} : MayPanic fac (k h) → MayPanic fac (.ask kind p k)

end Sds.Spec
