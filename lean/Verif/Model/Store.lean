import Verif.Model.Str

/-! # The shared regex store and its users

Model of sds/src/scanner/regex_rule/regex_store.rs and regex_cache_store.rs.

A regex object (the allocation behind an `Arc<MetaRegex>`) is a number; `World.regs` records for which pattern it
was compiled, and into what (`V` is an abstract type of compiled regexes).  A `SlotMap` key is a slot and a version;
a slot's version grows when its content is removed, so that keys are not reused (slotmap's 32-bit wrap-around is
not modelled).  Threads run `get_memoized_regex_with_custom_store` step by step; between any two steps other threads
may run, in particular drop their regex in the middle of a garbage collection. -/

namespace Sds

/-- `RegexCacheKey`: slot and version. -/
abbrev Key := Nat × Nat

/-- `SharedRegex` (regex_store.rs 16-20). -/
structure Handle where
  reg : Nat
  key : Key
deriving DecidableEq, Repr

/-- `RegexStore` (regex_store.rs 65-70).  `slots` is the slot map: version and content (the regex a
`WeakSharedRegex` refers to; `cache_size` is left out). -/
structure RegexStore where
  index : List (Str × Key)
  slots : List (Nat × Option Nat)
  counter : Nat
deriving DecidableEq, Repr

/-- `GC_FREQUENCY` (regex_store.rs 58). -/
def gcFrequency : Nat := 1000

/-- `RegexStore::new` (regex_store.rs 73-79). -/
def RegexStore.empty : RegexStore := ⟨[], [], 0⟩

/-- `SlotMap::get`. -/
def slotGet (slots : List (Nat × Option Nat)) (k : Key) : Option Nat :=
  match slots[k.1]? with
  | some (v, some r) => if v = k.2 then some r else none
  | _ => none

/-- `SlotMap::remove`. -/
def slotRemove (slots : List (Nat × Option Nat)) (k : Key) : List (Nat × Option Nat) :=
  match slotGet slots k with
  | some _ => slots.set k.1 (k.2 + 1, none)
  | none => slots

/-- `SlotMap::insert` into a slot: a vacant one, or a new one at the end. -/
def slotInsert (slots : List (Nat × Option Nat)) (slot r : Nat) : List (Nat × Option Nat) × Key :=
  match slots[slot]? with
  | some (v, _) => (slots.set slot (v, some r), (slot, v))
  | none => (slots ++ [(0, some r)], (slots.length, 0))

/-- `RegexStore::get` (regex_store.rs 98-108); `alive r` says that `r` can be upgraded, i.e. has an owner. -/
def RegexStore.get (alive : Nat → Bool) (st : RegexStore) (p : Str) : Option Handle :=
  match st.index.lookup p with
  | none => none
  | some k =>
    match slotGet st.slots k with
    | none => none
    | some r => if alive r then some ⟨r, k⟩ else none

/-- One round of `retain` in `RegexStore::gc` (regex_store.rs 84-93). -/
def RegexStore.gcEntry (alive : Nat → Bool) (st : RegexStore) (p : Str) : Res RegexStore :=
  match st.index.lookup p with
  | none => .ok st
  | some k =>
    match slotGet st.slots k with
    | none => .panic
    | some r =>
      if alive r then .ok st
      else .ok { st with index := st.index.filter (fun e => e.1 != p), slots := slotRemove st.slots k }

/-- The `retain` loop over the entries in the given order. -/
def RegexStore.gcLoop (alive : Nat → Bool) : List Str → RegexStore → Res RegexStore
  | [], st => .ok st
  | p :: ps, st =>
    match st.gcEntry alive p with
    | .ok st' => gcLoop alive ps st'
    | .panic => .panic
    | .hang => .hang

/-- `RegexStore::gc` (regex_store.rs 82-95), run without interruption; `order` is the order of the hash map. -/
def RegexStore.gc (alive : Nat → Bool) (order : List Str) (st : RegexStore) : Res RegexStore :=
  gcLoop alive order { st with counter := 0 }

/-- The second half of `RegexStore::insert` (regex_store.rs 124-148): `r` is the new regex object, `slot` the slot
the slot map would use.  The flag says whether the new object is stored. -/
def RegexStore.insertNew (alive : Nat → Bool) (st : RegexStore) (p : Str) (r slot : Nat) : RegexStore × Handle × Bool :=
  match st.get alive p with
  | some h => (st, h, false)
  | none =>
    let (slots, k) := slotInsert st.slots slot r
    let slots' := match st.index.lookup p with
      | some old => slotRemove slots old
      | none => slots
    ({ st with index := (p, k) :: st.index.filter (fun e => e.1 != p), slots := slots' }, ⟨r, k⟩, true)

/-- A slot `SlotMap::insert` may use. -/
def RegexStore.Free (st : RegexStore) (slot : Nat) : Prop :=
  (∃ v, st.slots[slot]? = some (v, none)) ∨ slot = st.slots.length

/-- `RegexCaches` (regex_cache_store.rs 23-25), a `SecondaryMap`: for a slot the version of the key and the regex
whose `create_cache` made the cache. -/
abbrev Caches := List (Nat × Nat × Nat)

/-- `RegexCaches::raw_get` (regex_cache_store.rs 38-47): the new map and the regex whose cache is used.
`SecondaryMap::entry` returns `None`, and `unwrap` panics, if the map has a newer key for the slot. -/
def Caches.get (c : Caches) (h : Handle) : Res (Caches × Nat) :=
  match c.lookup h.key.1 with
  | some (v, r) =>
    if h.key.2 < v then .panic
    else if h.key.2 = v then .ok (c, r)
    else .ok ((h.key.1, h.key.2, h.reg) :: c.filter (fun e => e.1 != h.key.1), h.reg)
  | none => .ok ((h.key.1, h.key.2, h.reg) :: c, h.reg)

/-- Where a thread is in `get_memoized_regex_with_custom_store` (regex_store.rs 37-54) and what it got.
`f` is its `regex_factory`. -/
inductive Pc (V : Type) where
  /-- before the lookup (line 43) -/
  | start (p : Str) (f : Str → Option V)
  /-- the lookup failed; about to call the factory (line 50) -/
  | factory (p : Str) (f : Str → Option V)
  /-- waiting for the lock to insert (line 52) -/
  | waiting (p : Str) (v : V)
  /-- inside `insert`, holding the lock, collecting garbage; `todo` is left to visit -/
  | collect (p : Str) (v : V) (todo : List Str)
  /-- inside `insert`, holding the lock, at line 124 -/
  | finish (p : Str) (v : V)
  /-- returned and owns the regex -/
  | holds (p : Str) (h : Handle)
  /-- the factory failed -/
  | failed (p : Str)
  /-- the regex has been dropped -/
  | done

/-- What happened (only for stating properties). -/
inductive StoreEv where
  /-- a call of `insert` -/
  | insert
  /-- start of a collection -/
  | collect
  /-- the collection found this entry in use -/
  | kept (p : Str)
  /-- a new entry -/
  | added (p : Str)
  /-- a search with this regex used the cache of that regex -/
  | search (reg cacheOf : Nat)
deriving DecidableEq, Repr

structure World (V : Type) where
  store : RegexStore
  regs : List (Str × V)
  threads : List (Pc V)
  lock : Option Nat
  caches : List Caches
  crashed : Bool
  log : List StoreEv

def Pc.owns {V : Type} (r : Nat) : Pc V → Bool
  | .holds _ h => h.reg == r
  | _ => false

/-- Number of owners: `Arc::strong_count`. -/
def World.strong {V : Type} (w : World V) (r : Nat) : Nat := w.threads.countP (Pc.owns r)

/-- Whether `Weak::upgrade` succeeds. -/
def World.alive {V : Type} (w : World V) (r : Nat) : Bool := decide (0 < w.strong r)

def World.init (V : Type) : World V := ⟨.empty, [], [], none, [], false, []⟩

/-- One step of the process.  `F p f` says that factory `f` may be used for pattern `p`. -/
inductive StoreStep {V : Type} (F : Str → (Str → Option V) → Prop) : World V → World V → Prop where
  /-- a new call -/
  | spawn (w p f) : F p f → StoreStep F w { w with threads := w.threads ++ [.start p f] }
  /-- lines 43-46: found -/
  | found (w) (i : Nat) (p f h) : w.threads[i]? = some (.start p f) → w.lock = none → w.store.get w.alive p = some h →
      StoreStep F w { w with threads := w.threads.set i (.holds p h) }
  /-- lines 43-46: not found -/
  | missing (w) (i : Nat) (p f) : w.threads[i]? = some (.start p f) → w.lock = none → w.store.get w.alive p = none →
      StoreStep F w { w with threads := w.threads.set i (.factory p f) }
  /-- line 50, success -/
  | built (w) (i : Nat) (p f v) : w.threads[i]? = some (.factory p f) → f p = some v →
      StoreStep F w { w with threads := w.threads.set i (.waiting p v) }
  /-- line 50, error -/
  | rejected (w) (i : Nat) (p f) : w.threads[i]? = some (.factory p f) → f p = none →
      StoreStep F w { w with threads := w.threads.set i (.failed p) }
  /-- lines 52, 120-121: no collection -/
  | lock (w) (i : Nat) (p v) : w.threads[i]? = some (.waiting p v) → w.lock = none → w.store.counter + 1 < gcFrequency →
      StoreStep F w { w with
        store := { w.store with counter := w.store.counter + 1 }
        threads := w.threads.set i (.finish p v), lock := some i, log := .insert :: w.log }
  /-- lines 52, 120-122, 83: a collection starts -/
  | lockCollect (w) (i : Nat) (p v) (order : List Str) : w.threads[i]? = some (.waiting p v) → w.lock = none →
      gcFrequency ≤ w.store.counter + 1 → List.Perm order (w.store.index.map (·.1)) →
      StoreStep F w { w with
        store := { w.store with counter := 0 }
        threads := w.threads.set i (Pc.collect p v order), lock := some i, log := StoreEv.collect :: StoreEv.insert :: w.log }
  /-- lines 84-93, one entry -/
  | visit (w) (i : Nat) (p v q todo st) : w.threads[i]? = some (Pc.collect p v (q :: todo)) →
      w.store.gcEntry w.alive q = .ok st →
      StoreStep F w { w with
        store := st
        threads := w.threads.set i (Pc.collect p v todo)
        log := if (w.store.get w.alive q).isSome then .kept q :: w.log else w.log }
  /-- line 85 panics -/
  | crash (w) (i : Nat) (p v q todo) : w.threads[i]? = some (Pc.collect p v (q :: todo)) →
      w.store.gcEntry w.alive q = .panic → StoreStep F w { w with crashed := true }
  /-- end of the collection -/
  | collected (w) (i : Nat) (p v) : w.threads[i]? = some (Pc.collect p v []) →
      StoreStep F w { w with threads := w.threads.set i (.finish p v) }
  /-- lines 124-125 -/
  | reuse (w) (i : Nat) (p v h st) : w.threads[i]? = some (.finish p v) →
      w.store.insertNew w.alive p w.regs.length 0 = (st, h, false) →
      StoreStep F w { w with store := st, threads := w.threads.set i (.holds p h), lock := none }
  /-- lines 126-148 -/
  | store (w) (i : Nat) (p v h st slot) : w.threads[i]? = some (.finish p v) → w.store.Free slot →
      w.store.insertNew w.alive p w.regs.length slot = (st, h, true) →
      StoreStep F w { w with
        store := st, regs := w.regs ++ [(p, v)]
        threads := w.threads.set i (.holds p h), lock := none, log := .added p :: w.log }
  /-- a scanner is dropped -/
  | drop (w) (i : Nat) (p h) : w.threads[i]? = some (.holds p h) → StoreStep F w { w with threads := w.threads.set i .done }
  /-- the pool makes another `RegexCaches` -/
  | newCaches (w) : StoreStep F w { w with caches := w.caches ++ [[]] }
  /-- a search with an owned regex, using a `RegexCaches` of the pool -/
  | search (w) (i : Nat) (p h) (j : Nat) (c c' : Caches) (r) : w.threads[i]? = some (Pc.holds p h) → w.caches[j]? = some c → Caches.get c h = .ok (c', r) →
      StoreStep F w { w with caches := w.caches.set j c', log := .search h.reg r :: w.log }
  /-- regex_cache_store.rs 45 panics -/
  | searchCrash (w) (i : Nat) (p h) (j : Nat) (c : Caches) : w.threads[i]? = some (Pc.holds p h) → w.caches[j]? = some c → Caches.get c h = .panic →
      StoreStep F w { w with crashed := true }

/-- States the process can reach. -/
inductive StoreReach {V : Type} (F : Str → (Str → Option V) → Prop) : World V → Prop where
  | init : StoreReach F (.init V)
  | step {w w' : World V} : StoreReach F w → StoreStep F w w' → StoreReach F w'

end Sds
