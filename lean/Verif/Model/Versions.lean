import Verif.Model.Store

/-! # The regex store with the 32-bit versions of slotmap

In Model/Store.lean the version of a slot grows without bound.  Here it is what the crate slotmap (1.0.7) has: a `u32`
that is even for a vacant and odd for an occupied slot, grows by one when the slot is filled (`version | 1`) or vacated
(`wrapping_add(1)`), and begins again at 0 after `u32::MAX`.  The version `v` of the model stands for `2 * v` in a vacant and
`2 * v + 1` in an occupied slot, so that there are 2^31 of them.  Everything else is as in Model/Store.lean. -/

namespace Sds

/-- The number of versions of a slot. -/
def slotVersions : Nat := 2147483648

/-- `SlotMap::remove` with `wrapping_add`. -/
def slotRemove32 (slots : List (Nat × Option Nat)) (k : Key) : List (Nat × Option Nat) :=
  match slotGet slots k with
  | some _ => slots.set k.1 ((k.2 + 1) % slotVersions, none)
  | none => slots

/-- One round of `retain` in `RegexStore::gc` (regex_store.rs 84-93). -/
def RegexStore.gcEntry32 (alive : Nat → Bool) (st : RegexStore) (p : Str) : Res RegexStore :=
  match st.index.lookup p with
  | none => .ok st
  | some k =>
    match slotGet st.slots k with
    | none => .panic
    | some r =>
      if alive r then .ok st
      else .ok { st with index := st.index.filter (fun e => e.1 != p), slots := slotRemove32 st.slots k }

/-- The second half of `RegexStore::insert` (regex_store.rs 124-148). -/
def RegexStore.insertNew32 (alive : Nat → Bool) (st : RegexStore) (p : Str) (r slot : Nat) : RegexStore × Handle × Bool :=
  match st.get alive p with
  | some h => (st, h, false)
  | none =>
    let (slots, k) := slotInsert st.slots slot r
    let slots' := match st.index.lookup p with
      | some old => slotRemove32 slots old
      | none => slots
    ({ st with index := (p, k) :: st.index.filter (fun e => e.1 != p), slots := slots' }, ⟨r, k⟩, true)

/-- slotmap's `is_older_version`: `a.wrapping_sub(b) >= 1 << 31`, for versions of occupied slots. -/
def olderVersion (a b : Nat) : Bool := decide (2147483648 ≤ (2 * a + 1 + 4294967296 - (2 * b + 1)) % 4294967296)

/-- `RegexCaches::raw_get` (regex_cache_store.rs 38-47).  `SecondaryMap::entry` compares the version of the key with the
one it has for the slot, and returns `None`, so that `unwrap` panics, if the key is older.  `zero`: whether it does so for a
slot it has nothing for, with version 0 (slotmap is not part of the repository; both are allowed). -/
def Caches.get32 (zero : Bool) (c : Caches) (h : Handle) : Res (Caches × Nat) :=
  match c.lookup h.key.1 with
  | some (v, r) =>
    if h.key.2 = v then .ok (c, r)
    else if olderVersion h.key.2 v then .panic
    else .ok ((h.key.1, h.key.2, h.reg) :: c.filter (fun e => e.1 != h.key.1), h.reg)
  | none =>
    if zero = true ∧ 2147483648 ≤ 2 * h.key.2 + 1 then .panic
    else .ok ((h.key.1, h.key.2, h.reg) :: c, h.reg)

/-- One step of the process. -/
inductive Step32 {V : Type} (zero : Bool) (F : Str → (Str → Option V) → Prop) : World V → World V → Prop where
  /-- a step of Model/Store.lean that changes neither slots nor caches, and does not panic -/
  | same (w w') : StoreStep F w w' → w'.store.slots = w.store.slots → w'.caches = w.caches → w'.crashed = w.crashed →
      Step32 zero F w w'
  /-- lines 84-93, one entry -/
  | visit (w) (i : Nat) (p v q todo st) : w.threads[i]? = some (Pc.collect p v (q :: todo)) →
      w.store.gcEntry32 w.alive q = .ok st →
      Step32 zero F w { w with
        store := st
        threads := w.threads.set i (Pc.collect p v todo)
        log := if (w.store.get w.alive q).isSome then .kept q :: w.log else w.log }
  /-- line 85 panics -/
  | crash (w) (i : Nat) (p v q todo) : w.threads[i]? = some (Pc.collect p v (q :: todo)) →
      w.store.gcEntry32 w.alive q = .panic → Step32 zero F w { w with crashed := true }
  /-- lines 126-148 -/
  | store (w) (i : Nat) (p v h st slot) : w.threads[i]? = some (.finish p v) → w.store.Free slot →
      w.store.insertNew32 w.alive p w.regs.length slot = (st, h, true) →
      Step32 zero F w { w with
        store := st, regs := w.regs ++ [(p, v)]
        threads := w.threads.set i (.holds p h), lock := none, log := .added p :: w.log }
  /-- the pool makes another `RegexCaches` -/
  | newCaches (w) : Step32 zero F w { w with caches := w.caches ++ [[]] }
  /-- a search with an owned regex, using a `RegexCaches` of the pool -/
  | search (w) (i : Nat) (p h) (j : Nat) (c c' : Caches) (r) : w.threads[i]? = some (Pc.holds p h) → w.caches[j]? = some c →
      Caches.get32 zero c h = .ok (c', r) →
      Step32 zero F w { w with caches := w.caches.set j c', log := .search h.reg r :: w.log }
  /-- regex_cache_store.rs 45 panics -/
  | searchCrash (w) (i : Nat) (p h) (j : Nat) (c : Caches) : w.threads[i]? = some (Pc.holds p h) → w.caches[j]? = some c →
      Caches.get32 zero c h = .panic → Step32 zero F w { w with crashed := true }

/-- States the process can reach. -/
inductive Reach32 {V : Type} (zero : Bool) (F : Str → (Str → Option V) → Prop) : World V → Prop where
  | init : Reach32 zero F (.init V)
  | step {w w' : World V} : Reach32 zero F w → Step32 zero F w w' → Reach32 zero F w'

end Sds
