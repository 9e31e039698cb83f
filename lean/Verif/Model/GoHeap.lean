import Verif.Model.Codec

/-! # Events of the Go caller in memory

In Go, maps and slices are references: the same `map[string]interface{}` or (part of) the same array can be reached on
several paths of an event.  `Model/Codec.lean` takes an event as a tree.  Here the event is a memory with addresses, and
the functions of `sds-go/go/scanner.go` that write into the event write into that memory.  Reading the event
(`encodeMapEvent`, scanner.go 208-258) does not change it, so the bytes sent are those of a tree which the memory unfolds
to (`Spec/GoHeap.lean`). -/

namespace Sds

/-- An `interface{}` in an event: a string, a map (its address), a slice (the address of its array, where it begins, and
its length), or something else. -/
inductive GoRef where
  | str (b : Bytes)
  | map (a : Nat)
  | slice (a off len : Nat)
  | other
deriving DecidableEq, Repr

/-- What an address points to: the entries of a map, or an array. -/
inductive GoObj where
  | map (fields : List (Bytes × GoRef))
  | array (items : List GoRef)
deriving DecidableEq, Repr

/-- The memory; addresses are positions. -/
abbrev GoHeap := List GoObj

/-- `m[key] = v` in the entries of a map. -/
def setKey : List (Bytes × GoRef) → Bytes → GoRef → List (Bytes × GoRef)
  | [], key, v => [(key, v)]
  | (k, w) :: rest, key, v => if k = key then (k, v) :: rest else (k, w) :: setKey rest key v

/-- `event[string(fieldName)]` (scanner.go 398). -/
def GoHeap.field (h : GoHeap) (a : Nat) (key : Bytes) : Option GoRef :=
  match h[a]? with
  | some (.map fs) => fs.lookup key
  | _ => none

/-- `event[string(fieldName)] = string(res)` (scanner.go 395). -/
def GoHeap.putField (h : GoHeap) (a : Nat) (key : Bytes) (v : GoRef) : GoHeap :=
  match h[a]? with
  | some (.map fs) => h.set a (.map (setKey fs key v))
  | _ => h

/-- The element number `i` of an array. -/
def GoHeap.item (h : GoHeap) (a i : Nat) : Option GoRef :=
  match h[a]? with
  | some (.array xs) => xs[i]?
  | _ => none

/-- Assignment to the element number `i` of an array. -/
def GoHeap.putItem (h : GoHeap) (a i : Nat) (v : GoRef) : GoHeap :=
  match h[a]? with
  | some (.array xs) => h.set a (.array (xs.set i v))
  | _ => h

/-- `applyStringMutation` (scanner.go 425-433) with `applyStringMutationMapWithTag` (381-400) and
`applyStringMutationListWithTag` (402-423), writing into the memory.  `tag` has been read already.  The first number
bounds the depth: every step takes bytes from the buffer. -/
def GoRef.mutate (h : GoHeap) : Nat → GoRef → Nat → Bytes → Mutated GoHeap
  | 0, _, _, _ => Res.hang
  | f + 1, .map a, tag, b =>
    if tag = 0 then
      match goString b with
      | .ok (name, t :: b') =>
        if t = 3 then
          match goString b' with
          | .ok (s, b'') => Res.ok (some (h.putField a name (.str s), s, b''))
          | .panic => Res.panic
          | .hang => Res.hang
        else
          match h.field a name with
          | some v => v.mutate h f t b'
          | none => Res.panic
      | .ok (_, []) => Res.ok none
      | .panic => Res.panic
      | .hang => Res.hang
    else Res.ok none
  | f + 1, .slice a off len, tag, b =>
    if tag = 1 then
      match goU32 b with
      | .ok (i, t :: b') =>
        if t = 3 then
          match goString b' with
          | .ok (s, b'') =>
            if i < len then Res.ok (some (h.putItem a (off + i) (.str s), s, b'')) else Res.panic
          | .panic => Res.panic
          | .hang => Res.hang
        else if i < len then
          match h.item a (off + i) with
          | some v => v.mutate h f t b'
          | none => Res.panic
        else Res.panic
      | .ok (_, []) => Res.ok none
      | .panic => Res.panic
      | .hang => Res.hang
    else Res.ok none
  | _ + 1, .str _, _, _ => Res.ok none
  | _ + 1, .other, _, _ => Res.panic

/-- `decodeEventMapResponse` (scanner.go 301-326) for the map at the address `root`. -/
def decodeSharedF (root : Nat) : Nat → Bytes → GoHeap → GoResult → Res (Option (GoHeap × GoResult))
  | _, [], h, r => Res.ok (some (h, r))
  | 0, _ :: _, _, _ => Res.hang
  | f + 1, typ :: b, h, r =>
    if typ = 4 then
      match b with
      | [] => Res.ok none
      | tag :: b' =>
        match (GoRef.map root).mutate h (b'.length + 1) tag b' with
        | .ok (some (h', s, b'')) => decodeSharedF root f b'' h' { r with mutated := true, event := s }
        | .ok none => Res.ok none
        | .panic => Res.panic
        | .hang => Res.hang
    else if typ = 5 then
      match decodeMatch b with
      | .ok (m, b') => decodeSharedF root f b' h { r with matches_ := r.matches_ ++ [m] }
      | .panic => Res.panic
      | .hang => Res.hang
    else Res.ok none

/-- Every step takes at least one byte. -/
def decodeShared (b : Bytes) (h : GoHeap) (root : Nat) : Res (Option (GoHeap × GoResult)) :=
  decodeSharedF root b.length b h ⟨false, [], []⟩

/-- `ScanEventsMap` (scanner.go 195-203, 138-152) of the map at the address `root`.  `ev` is the event as
`encodeMapEvent` read it: the memory unfolds to it, with the entries of each map in the order in which `range` gave them,
which can be different each time (scanner.go 228). -/
def scanShared (sc : Scanner) (h : GoHeap) (root : Nat) (ev : GoFields) : Res (Option (GoHeap × GoResult)) :=
  match ev.encode with
  | none => Res.ok none
  | some bytes =>
    match lowLevelScan sc bytes with
    | .panic => Res.panic
    | .hang => Res.hang
    | .ok none => Res.ok none
    | .ok (some response) => decodeShared response h root

end Sds
