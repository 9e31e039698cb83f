import Verif.Model.Store

/-! # The gauges of the regex store

`scanner.total_regexes` and `scanner.total_regex_cache_size` (sds/src/stats.rs), as regex_store.rs updates them. -/

namespace Sds

/-- The last values exported: `total_regexes`, `total_regex_cache_size` (stats.rs 19-22; the latter is
`total_regex_cache_size_count` too, since it is only updated under the lock of the store). -/
structure Gauges where
  regexes : Nat
  cache : Int
deriving DecidableEq, Repr

/-- `SlotMap::len`. -/
def slotLen (slots : List (Nat × Option Nat)) : Nat := slots.countP fun s => s.2.isSome

/-- `GLOBAL_STATS.set_total_regexes(self.key_map.len())` (regex_store.rs 94, 142; stats.rs 52-54). -/
def Gauges.setTotal (g : Gauges) (st : RegexStore) : Gauges := { g with regexes := slotLen st.slots }

/-- `add_total_regex_cache` (stats.rs 56-61). -/
def Gauges.addCache (g : Gauges) (delta : Int) : Gauges := { g with cache := g.cache + delta }

/-- `cache_size` of the entry under the key, if it is there to be removed. -/
def removedSize (size : Nat → Nat) (slots : List (Nat × Option Nat)) (k : Key) : Nat :=
  match slotGet slots k with
  | some r => size r
  | none => 0

/-- What one round of `retain` subtracts (regex_store.rs 85-88); `size r` is the `cache_size` of regex object `r`. -/
def RegexStore.gcFreed (size : Nat → Nat) (alive : Nat → Bool) (st : RegexStore) (p : Str) : Nat :=
  match st.index.lookup p with
  | none => 0
  | some k =>
    match slotGet st.slots k with
    | none => 0
    | some r => if alive r then 0 else removedSize size st.slots k

/-- What storing a new regex subtracts (regex_store.rs 134-138): the size of the entry it replaces. -/
def RegexStore.insertFreed (size : Nat → Nat) (st : RegexStore) (p : Str) (r slot : Nat) : Nat :=
  match st.index.lookup p with
  | some old => removedSize size (slotInsert st.slots slot r).1 old
  | none => 0

/-- A step of the process together with the gauges: the steps of `StoreStep` that update a gauge, and all others. -/
inductive GaugeStep {V : Type} (F : Str → (Str → Option V) → Prop) (size : Nat → Nat) :
    World V × Gauges → World V × Gauges → Prop where
  /-- regex_store.rs 84-93 -/
  | visit (w w' g) (i : Nat) (p v q todo) : w.threads[i]? = some (Pc.collect p v (q :: todo)) →
      StoreStep F w w' → w'.regs = w.regs → w'.threads = w.threads.set i (Pc.collect p v todo) →
      w.store.gcEntry w.alive q = .ok w'.store →
      GaugeStep F size (w, g) (w', g.addCache (-(w.store.gcFreed size w.alive q : Nat)))
  /-- regex_store.rs 94 -/
  | collected (w w' g) (i : Nat) (p v) : w.threads[i]? = some (Pc.collect p v []) → StoreStep F w w' →
      w'.store = w.store → w'.regs = w.regs → w'.threads = w.threads.set i (.finish p v) →
      GaugeStep F size (w, g) (w', g.setTotal w.store)
  /-- regex_store.rs 126-148 -/
  | store (w w' g) (i : Nat) (p v h slot) : w.threads[i]? = some (.finish p v) → w.store.Free slot → StoreStep F w w' →
      w'.regs = w.regs ++ [(p, v)] → w'.threads = w.threads.set i (.holds p h) →
      w.store.insertNew w.alive p w.regs.length slot = (w'.store, h, true) →
      GaugeStep F size (w, g)
        (w', (g.addCache (-(w.store.insertFreed size p w.regs.length slot : Nat))).setTotal w'.store)
  /-- every other step: nothing is stored or removed, and no collection goes on -/
  | other (w w' g) : StoreStep F w w' → w'.store.slots = w.store.slots → w'.regs = w.regs →
      (∀ (i : Nat) p v todo, w.threads[i]? = some (Pc.collect p v todo) → w'.threads[i]? = w.threads[i]?) →
      GaugeStep F size (w, g) (w', g)

/-- States the process can reach; both gauges start at zero. -/
inductive GaugeReach {V : Type} (F : Str → (Str → Option V) → Prop) (size : Nat → Nat) : World V → Gauges → Prop where
  | init : GaugeReach F size (.init V) ⟨0, 0⟩
  | step {w w' : World V} {g g' : Gauges} : GaugeReach F size w g → GaugeStep F size (w, g) (w', g') →
      GaugeReach F size w' g'

end Sds
