import Verif.Spec.Codec
import Verif.Model.GoHeap

/-! # Specification: events with shared parts -/

namespace Sds.Spec

/-- A place that holds a value: an entry of a map, or an element of an array. -/
inductive Place where
  | entry (a : Nat) (key : Bytes)
  | cell (a i : Nat)
deriving DecidableEq, Repr

/-- The value at a place. -/
def Holds (h : GoHeap) : Place → GoRef → Prop
  | .entry a k, v => ∃ fs, h[a]? = some (.map fs) ∧ (k, v) ∈ fs
  | .cell a i, v => ∃ xs, h[a]? = some (.array xs) ∧ xs[i]? = some v

/-- The value found by following a path. -/
inductive RefAt (h : GoHeap) : GoRef → List GoSeg → GoRef → Prop
  | here (v : GoRef) : RefAt h v [] v
  | field {a : Nat} {k : Bytes} {v w : GoRef} {p : List GoSeg} :
      Holds h (.entry a k) v → RefAt h v p w → RefAt h (.map a) (.field k :: p) w
  | item {a off len i : Nat} {v w : GoRef} {p : List GoSeg} : i < len →
      Holds h (.cell a (off + i)) v → RefAt h v p w → RefAt h (.slice a off len) (.index i :: p) w

/-- The place where a path ends. -/
inductive PlaceAt (h : GoHeap) : GoRef → List GoSeg → Place → Prop
  | entry (a : Nat) (k : Bytes) : PlaceAt h (.map a) [.field k] (.entry a k)
  | cell {a off len i : Nat} : i < len → PlaceAt h (.slice a off len) [.index i] (.cell a (off + i))
  | field {a : Nat} {k : Bytes} {v : GoRef} {p : List GoSeg} {c : Place} :
      Holds h (.entry a k) v → PlaceAt h v p c → PlaceAt h (.map a) (.field k :: p) c
  | item {a off len i : Nat} {v : GoRef} {p : List GoSeg} {c : Place} : i < len →
      Holds h (.cell a (off + i)) v → PlaceAt h v p c → PlaceAt h (.slice a off len) (.index i :: p) c

/-- No map of the memory has a key twice. -/
def HeapKeyed (h : GoHeap) : Prop := ∀ (a : Nat) fs, h[a]? = some (GoObj.map fs) → (fs.map (·.1)).Nodup

mutual
/-- Reading the value `v` gives the tree `t`; the entries of a map are read in any order. -/
inductive Unfolds (h : GoHeap) : GoRef → GoVal → Prop
  | str (b : Bytes) : Unfolds h (.str b) (.str b)
  | map {a : Nat} {fs order : List (Bytes × GoRef)} {m : GoFields} :
      h[a]? = some (.map fs) → order.Perm fs → UnfoldsFields h order m → Unfolds h (.map a) (.map m)
  | slice {a off len : Nat} {xs : List GoRef} {l : GoItems} : h[a]? = some (.array xs) → off + len ≤ xs.length →
      UnfoldsItems h ((xs.drop off).take len) l → Unfolds h (.slice a off len) (.list l)
  | other : Unfolds h .other .other
inductive UnfoldsFields (h : GoHeap) : List (Bytes × GoRef) → GoFields → Prop
  | nil : UnfoldsFields h [] .nil
  | cons {k : Bytes} {v : GoRef} {t : GoVal} {rest : List (Bytes × GoRef)} {m : GoFields} :
      Unfolds h v t → UnfoldsFields h rest m → UnfoldsFields h ((k, v) :: rest) (.cons k t m)
inductive UnfoldsItems (h : GoHeap) : List GoRef → GoItems → Prop
  | nil : UnfoldsItems h [] .nil
  | cons {v : GoRef} {t : GoVal} {rest : List GoRef} {l : GoItems} :
      Unfolds h v t → UnfoldsItems h rest l → UnfoldsItems h (v :: rest) (.cons t l)
end

/-- Both paths end at the same place. -/
def SamePlace (h : GoHeap) (root : GoRef) (p q : List GoSeg) : Prop := ∃ c, PlaceAt h root p c ∧ PlaceAt h root q c

/-- The two memories have the same maps with the same keys, the same arrays, and hold the same values, except
that a string may have another text. -/
def SameShape (h h' : GoHeap) : Prop :=
  h'.length = h.length ∧ (∀ c v, (∀ b, v ≠ .str b) → (Holds h c v ↔ Holds h' c v)) ∧
    ∀ c, (∃ b, Holds h c (.str b)) ↔ ∃ b, Holds h' c (.str b)

end Sds.Spec
