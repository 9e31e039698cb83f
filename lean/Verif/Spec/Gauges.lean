import Verif.Spec.Store
import Verif.Model.Gauges

/-! # What the gauges of the regex store should show -/

namespace Sds.Spec

/-- No collection is running. -/
def NotCollecting {V : Type} (w : World V) : Prop := ∀ (i : Nat) p v todo, w.threads[i]? ≠ some (Pc.collect p v todo)

/-- The sizes of the caches of the regexes in the store. -/
def cacheSizes (size : Nat → Nat) (st : RegexStore) : List Nat :=
  st.index.map fun e => ((st.slots[e.2.1]?).bind (·.2)).elim 0 size

/-- The sizes of the caches of all regexes that were ever stored. -/
def everStored {V : Type} (size : Nat → Nat) (w : World V) : List Nat := (List.range w.regs.length).map size

end Sds.Spec
