import Verif.Spec.Store

/-! # How large the regex store may become -/

namespace Sds.Spec

open Sds

variable {V : Type}

/-- Somebody owns a regex for the pattern. -/
def InUse (w : World V) (p : Str) : Prop := ∃ i h, Owns w i p h

/-- At most `N` different patterns are in use. -/
def AtMostInUse (N : Nat) (w : World V) : Prop :=
  ∀ l : List Str, l.Nodup → (∀ p ∈ l, InUse w p) → l.length ≤ N

/-- The slot map keeps a list of its vacant slots: it gets a new slot only if no slot is vacant.  (slotmap 1.0.7,
`SlotMap::try_insert_with_key`; the crate is not part of the repository.) -/
def Frugal (w w' : World V) : Prop :=
  w.store.slots.length < w'.store.slots.length → ∀ (s v : Nat), w.store.slots[s]? ≠ some (v, none)

/-- States reached without ever having more than `N` patterns in use at the same time. -/
inductive SmallReach (F : Str → (Str → Option V) → Prop) (N : Nat) : World V → Prop where
  | init : SmallReach F N (.init V)
  | step {w w' : World V} : SmallReach F N w → StoreStep F w w' → Frugal w w' → AtMostInUse N w' → SmallReach F N w'

end Sds.Spec
