import Verif.Model.Scan
import Verif.Model.Validation

/-! # The byte encoding between the Go binding and the library

Model of `sds-bindings-utils/src/binary_encoding.rs`, of the encoding and decoding functions of
`sds-go/go/scanner.go` and of `sds-go/rust/src/native/scan.rs`.  A byte is a number; everything produced here
is below 256. -/

namespace Sds

abbrev Bytes := List Nat

/-! ## UTF-8 -/

/-- `char::encode_utf8`. -/
def utf8Char (c : Char) : Bytes :=
  let n := c.toNat
  if n < 0x80 then [n]
  else if n < 0x800 then [0xC0 + n / 64, 0x80 + n % 64]
  else if n < 0x10000 then [0xE0 + n / 4096, 0x80 + n / 64 % 64, 0x80 + n % 64]
  else [0xF0 + n / 262144, 0x80 + n / 4096 % 64, 0x80 + n / 64 % 64, 0x80 + n % 64]

/-- `str::as_bytes`. -/
def utf8 : Str → Bytes
  | [] => []
  | c :: cs => utf8Char c ++ utf8 cs

/-- A continuation byte. -/
def isCont (b : Nat) : Bool := 0x80 ≤ b && b ≤ 0xBF

/-- The allowed second bytes of a sequence of three (core `Utf8Chunks::next`). -/
def second3 (a b : Nat) : Bool :=
  (a == 0xE0 && 0xA0 ≤ b && b ≤ 0xBF) || (0xE1 ≤ a && a ≤ 0xEC && isCont b) ||
  (a == 0xED && 0x80 ≤ b && b ≤ 0x9F) || (0xEE ≤ a && a ≤ 0xEF && isCont b)

/-- The allowed second bytes of a sequence of four. -/
def second4 (a b : Nat) : Bool :=
  (a == 0xF0 && 0x90 ≤ b && b ≤ 0xBF) || (0xF1 ≤ a && a ≤ 0xF3 && isCont b) ||
  (a == 0xF4 && 0x80 ≤ b && b ≤ 0x8F)

/-- U+FFFD. -/
def replacementChar : Char := Char.ofNat 0xFFFD

/-- Decode one character: the first byte, the bytes after it; the result is the character and the number of
further bytes it takes.  An invalid or truncated sequence gives U+FFFD for its longest valid prefix. -/
def lossyStep (a : Nat) (rest : Bytes) : Char × Nat :=
  let b := rest.getD 0 0
  let c := rest.getD 1 0
  let d := rest.getD 2 0
  if a < 0x80 then (Char.ofNat a, 0)
  else if 0xC2 ≤ a ∧ a ≤ 0xDF then
    if isCont b then (Char.ofNat ((a - 0xC0) * 64 + (b - 0x80)), 1) else (replacementChar, 0)
  else if 0xE0 ≤ a ∧ a ≤ 0xEF then
    if second3 a b then
      if isCont c then (Char.ofNat ((a - 0xE0) * 4096 + (b - 0x80) * 64 + (c - 0x80)), 2) else (replacementChar, 1)
    else (replacementChar, 0)
  else if 0xF0 ≤ a ∧ a ≤ 0xF4 then
    if second4 a b then
      if isCont c then
        if isCont d then
          (Char.ofNat ((a - 0xF0) * 262144 + (b - 0x80) * 4096 + (c - 0x80) * 64 + (d - 0x80)), 3)
        else (replacementChar, 2)
      else (replacementChar, 1)
    else (replacementChar, 0)
  else (replacementChar, 0)

/-- `lossy` after skipping some bytes. -/
def lossyGo : Nat → Bytes → Str
  | _, [] => []
  | k + 1, _ :: rest => lossyGo k rest
  | 0, a :: rest => (lossyStep a rest).1 :: lossyGo (lossyStep a rest).2 rest

/-- `String::from_utf8_lossy`. -/
def lossy (b : Bytes) : Str := lossyGo 0 b

/-! ## Numbers and byte strings -/

/-- `(n as u32).to_be_bytes()`, `binary.BigEndian.AppendUint32(_, uint32(n))`: the number is truncated. -/
def be32 (n : Nat) : Bytes := [n / 16777216 % 256, n / 65536 % 256, n / 256 % 256, n % 256]

/-- `u32::from_be_bytes` on the next four bytes; `none` if there are fewer (slicing panics). -/
def readU32 : Bytes → Option (Nat × Bytes)
  | a :: b :: c :: d :: rest => some (((a * 256 + b) * 256 + c) * 256 + d, rest)
  | _ => none

/-- `encode_bytes` (binary_encoding.rs 169-172). -/
def encodeBytes (b : Bytes) : Bytes := be32 b.length ++ b

/-- Length and bytes (binary_encoding.rs 40-49, 67-76); `none` if slicing panics. -/
def readBytes (b : Bytes) : Option (Bytes × Bytes) :=
  match readU32 b with
  | some (n, r) => if n ≤ r.length then some (r.take n, r.drop n) else none
  | none => none

/-! ## Go: encoding an event -/

mutual
/-- A Go value in an event: a string (any bytes), `map[string]interface{}`, `[]interface{}`; `other` is every
type that `encodeValueRecursive` rejects.  Maps and slices are trees; for maps that are reached on several
paths see `Model/GoHeap.lean`. -/
inductive GoVal where
  | str (b : Bytes)
  | map (fields : GoFields)
  | list (items : GoItems)
  | other
/-- A slice. -/
inductive GoItems where
  | nil
  | cons (v : GoVal) (rest : GoItems)
/-- A map, in the order in which `range` visits it when the event is encoded. -/
inductive GoFields where
  | nil
  | cons (key : Bytes) (v : GoVal) (rest : GoFields)
end

/-- `encodeStringEvent` (scanner.go 206-211). -/
def goEncodeString (b : Bytes) : Bytes := 3 :: encodeBytes b

mutual
/-- `encodeValueRecursive` (scanner.go 213-225): `none` is the error. -/
def GoVal.encode : GoVal → Option Bytes
  | .str b => some (goEncodeString b)
  | .map m => m.encode
  | .list l => l.encode 0
  | .other => none
/-- `encodeListEvent` (scanner.go 244-258), from index `i`. -/
def GoItems.encode : GoItems → Nat → Option Bytes
  | .nil, _ => some []
  | .cons v rest, i =>
    match v.encode with
    | some a =>
      match rest.encode (i + 1) with
      | some b => some (1 :: (be32 i ++ (a ++ 2 :: b)))
      | none => none
    | none => none
/-- `encodeMapEvent` (scanner.go 227-242). -/
def GoFields.encode : GoFields → Option Bytes
  | .nil => some []
  | .cons k v rest =>
    match v.encode with
    | some a =>
      match rest.encode with
      | some b => some (0 :: (encodeBytes k ++ (a ++ 2 :: b)))
      | none => none
    | none => none
end

/-! ## Rust: reading an event -/

/-- `BinaryEvent::visit_event` (binary_encoding.rs 35-97) with `strings_are_valid_utf8 = false` (scan.rs 27), as
the calls made on the visitor.  Unknown tags and slices out of range panic. -/
def binaryOpsF : Nat → Bytes → Res (List Op)
  | _, [] => Res.ok []
  | 0, _ :: _ => Res.hang
  | f + 1, tag :: r =>
    if tag = 0 then
      match readBytes r with
      | some (b, r') => (binaryOpsF f r').map (Op.push (.field (lossy b)) :: ·)
      | none => Res.panic
    else if tag = 1 then
      match readU32 r with
      | some (n, r') => (binaryOpsF f r').map (Op.push (.index n) :: ·)
      | none => Res.panic
    else if tag = 2 then (binaryOpsF f r).map (Op.pop :: ·)
    else if tag = 3 then
      match readBytes r with
      | some (b, r') => (binaryOpsF f r').map (Op.visit (lossy b) :: ·)
      | none => Res.panic
    else Res.panic

/-- The loop takes at least one byte each time. -/
def binaryOps (b : Bytes) : Res (List Op) := binaryOpsF b.length b

/-! ## Rust: the storage and the scan of a binary event -/

/-- Derived `Ord` of `PathSegment` (path.rs 15): fields before indices.  Strings are compared by bytes, which is
the order of code points. -/
def segLt : Seg → Seg → Bool
  | .field a, .field b => strLt a b
  | .field _, .index _ => true
  | .index _, .field _ => false
  | .index i, .index j => i < j

/-- Derived `Ord` of `Path` (path.rs 10): lexicographic. -/
def pathLt : Path → Path → Bool
  | _, [] => false
  | [], _ :: _ => true
  | a :: as, b :: bs => segLt a b || (a == b && pathLt as bs)

/-- `BTreeMap<Path, (bool, String)>` (binary_encoding.rs 17) in the order of its keys. -/
abbrev Storage := List (Path × (Bool × Str))

/-- `if !storage.contains_key(path) { storage.insert(..) }` (binary_encoding.rs 79-84). -/
def Storage.insertNew : Storage → Path → Bool × Str → Storage
  | [], p, v => [(p, v)]
  | (q, w) :: rest, p, v =>
    if p = q then (q, w) :: rest
    else if pathLt p q then (p, v) :: (q, w) :: rest
    else (q, w) :: Storage.insertNew rest p v

/-- `get_mut`. -/
def Storage.get : Storage → Path → Option (Bool × Str)
  | [], _ => none
  | (q, w) :: rest, p => if p = q then some w else Storage.get rest p

/-- Assignment through `get_mut`. -/
def Storage.set : Storage → Path → Bool × Str → Storage
  | [], _, _ => []
  | (q, w) :: rest, p, v => if p = q then (q, v) :: rest else (q, w) :: Storage.set rest p v

/-- The storage after `visit_event`: a string is stored if it has a match (`might_mutate`, scoped_ruleset/mod.rs
286-297 and scanner/mod.rs 790-802) and there is no entry for its path. -/
def storageOf (pms : List PathMatches) : Storage :=
  pms.foldl (fun st pm => Storage.insertNew st pm.path (false, pm.content)) []

/-- The closure of `Scanner::scan` with its result `will_mutate` (scanner/mod.rs 345-376). -/
def editLeafB (sc : Scanner) (excluded : List Str) (pm : PathMatches) (content : Str) :
    Res (Bool × Str × List RuleMatch) :=
  match (if sc.multipassEnabled then retainMatches sc excluded content pm.ms else Res.ok pm.ms) with
  | .panic => Res.panic
  | .hang => Res.hang
  | .ok ms =>
    match editLeaf sc Enc.utf8 excluded pm content with
    | .ok (new, os) => Res.ok ((resolve sc.redacts ms).any (fun m => sc.redacts m.rule), new, os)
    | .panic => Res.panic
    | .hang => Res.hang

/-- The loop of `Scanner::scan` (scanner/mod.rs 343-377) with `BinaryEvent::visit_string_mut`
(binary_encoding.rs 99-105): a path without entry panics, the flag is overwritten. -/
def editAllB (sc : Scanner) (excluded : List Str) : List PathMatches → Storage → Res (Storage × List RuleMatch)
  | [], st => Res.ok (st, [])
  | pm :: rest, st =>
    match st.get pm.path with
    | none => Res.panic
    | some (_, content) =>
      match editLeafB sc excluded pm content with
      | .panic => Res.panic
      | .hang => Res.hang
      | .ok (flag, new, os) =>
        match editAllB sc excluded rest (st.set pm.path (flag, new)) with
        | .panic => Res.panic
        | .hang => Res.hang
        | .ok (st', os') => Res.ok (st', os ++ os')

/-- `scanner.scan(&mut event, vec![])` for a `BinaryEvent<Utf8Encoding>` (scan.rs 27-29). -/
def scanBinary (sc : Scanner) (bytes : Bytes) : Res (Storage × List RuleMatch) :=
  match binaryOps bytes with
  | .panic => Res.panic
  | .hang => Res.hang
  | .ok ops =>
    match visitCombinations (RuleSet.new (sc.rules.map (·.scope)) sc.wildcards) ops with
    | .panic => Res.panic
    | .hang => Res.hang
    | .ok vs =>
      match runVisits sc [] vs [] with
      | .panic => Res.panic
      | .hang => Res.hang
      | .ok (l, excluded) => editAllB sc excluded l (storageOf l)

/-! ## Rust: encoding the response -/

/-- `Display` of a path (path.rs 142-159); the flag says whether it is the first segment. -/
def displayFrom : Bool → Path → Str
  | _, [] => []
  | first, .field f :: rest => (if first then [] else ['.']) ++ f ++ displayFrom false rest
  | _, .index i :: rest => '[' :: (Nat.toDigits 10 i ++ ']' :: displayFrom false rest)

/-- `path.to_string()`. -/
def displayPath (p : Path) : Str := displayFrom true p

/-- `Display` of `ReplacementType` (rule_match.rs 72-82). -/
def ReplacementType.text : ReplacementType → Str
  | .none => "none".toList
  | .placeholder => "placeholder".toList
  | .hash => "hash".toList
  | .partialStart => "partial_beginning".toList
  | .partialEnd => "partial_end".toList

/-- `i as u32` for an `isize`: two's complement, truncated. -/
def toU32 (i : Int) : Nat := (i % 4294967296).toNat

/-- `encode_match` (binary_encoding.rs 137-152). -/
def encodeMatch (m : RuleMatch) : Bytes :=
  5 :: (be32 m.rule ++ (encodeBytes (utf8 (displayPath m.path)) ++ (encodeBytes (utf8 m.rtype.text) ++
    (be32 m.start ++ (be32 m.stop ++ be32 (toU32 m.shift))))))

/-- `encode_path` (binary_encoding.rs 154-167). -/
def encodePath : Path → Bytes
  | [] => []
  | .field f :: rest => 0 :: (encodeBytes (utf8 f) ++ encodePath rest)
  | .index i :: rest => 1 :: (be32 i ++ encodePath rest)

/-- `encode_mutation` (binary_encoding.rs 174-180). -/
def encodeMutation (p : Path) (content : Str) : Bytes :=
  4 :: (encodePath p ++ 3 :: encodeBytes (utf8 content))

/-- The first loop of `encode_response` (binary_encoding.rs 124-129). -/
def encodeStorage : Storage → Bytes
  | [] => []
  | (p, (mutated, content)) :: rest => (if mutated then encodeMutation p content else []) ++ encodeStorage rest

/-- The second loop (130-132). -/
def encodeMatches : List RuleMatch → Bytes
  | [] => []
  | m :: rest => encodeMatch m ++ encodeMatches rest

/-- `encode_response` (binary_encoding.rs 116-135). -/
def encodeResponse (st : Storage) (ms : List RuleMatch) : Option Bytes :=
  if ms.isEmpty then none else some (encodeStorage st ++ encodeMatches ms)

/-! ## Go: decoding the response

`Res (Option α)`: `ok none` is a returned error. -/

/-- `binary.BigEndian.Uint32(buf.Next(4))`: panics on fewer than four bytes. -/
def goU32 (b : Bytes) : Res (Nat × Bytes) := Res.ofOption (readU32 b)

/-- `nextString` (scanner.go 363-367): `buf.Next` returns what is left if there are fewer bytes. -/
def goString (b : Bytes) : Res (Bytes × Bytes) :=
  match readU32 b with
  | some (n, r) => Res.ok (r.take n, r.drop n)
  | none => Res.panic

/-- `int32(n)`. -/
def toI32 (n : Nat) : Int := if n < 2147483648 then n else (n : Int) - 4294967296

/-- ASCII part of `strings.ToLower`.  Simplification: other characters and invalid bytes are left alone; none
of the texts compared with contains one, and lower-casing such a character yields no ASCII letter except for
U+212A and U+0130, which `ReplacementType::to_string` never produces. -/
def asciiLowerBytes (b : Bytes) : Bytes := b.map fun x => if 65 ≤ x ∧ x ≤ 90 then x + 32 else x

/-- `parseReplacementType` (scanner.go 260-273). -/
def parseReplacementType (b : Bytes) : ReplacementType :=
  let s := asciiLowerBytes b
  if s = utf8 "placeholder".toList then .placeholder
  else if s = utf8 "hash".toList then .hash
  else if s = utf8 "partial_beginning".toList then .partialStart
  else if s = utf8 "partial_end".toList then .partialEnd
  else .none

/-- The Go `RuleMatch`. -/
structure GoMatch where
  rule : Nat
  path : Bytes
  rtype : ReplacementType
  start : Nat
  stop : Nat
  shift : Int
deriving DecidableEq, Repr

/-- `decodeMatchResponse` (scanner.go 275-299). -/
def decodeMatch (b : Bytes) : Res (GoMatch × Bytes) := do
  let (rule, b) ← goU32 b
  let (path, b) ← goString b
  let (rtype, b) ← goString b
  let (start, b) ← goU32 b
  let (stop, b) ← goU32 b
  let (shift, b) ← goU32 b
  pure (⟨rule, path, parseReplacementType rtype, start, stop, toI32 shift⟩, b)

/-- `event[key] = v` on a map. -/
def GoFields.set : GoFields → Bytes → GoVal → GoFields
  | .nil, key, v => .cons key v .nil
  | .cons k w rest, key, v => if k = key then .cons k v rest else .cons k w (rest.set key v)

/-- `event[i] = v` on a slice: out of range panics. -/
def GoItems.set : GoItems → Nat → GoVal → Res GoItems
  | .nil, _, _ => Res.panic
  | .cons _ rest, 0, v => Res.ok (.cons v rest)
  | .cons w rest, i + 1, v => (rest.set i v).map (GoItems.cons w)

/-- Result of a mutation: the value after it, the new string, and the rest of the buffer. -/
abbrev Mutated (α : Type) := Res (Option (α × Bytes × Bytes))

/-- Apply a constructor to the value part. -/
def Mutated.wrap {α β : Type} (f : α → β) : Mutated α → Mutated β
  | .ok (some (a, s, b)) => Res.ok (some (f a, s, b))
  | .ok none => Res.ok none
  | .panic => Res.panic
  | .hang => Res.hang

mutual
/-- `applyStringMutation` (scanner.go 425-433) with `applyStringMutationMapWithTag` (381-400) and
`applyStringMutationListWithTag` (402-423).  `tag` has been read already.  `other` does not occur in an event
that was encoded; it would give an error or a panic. -/
def GoVal.mutate : GoVal → Nat → Bytes → Mutated GoVal
  | .map m, tag, b =>
    if tag = 0 then
      match goString b with
      | .ok (name, t :: b') =>
        if t = 3 then
          match goString b' with
          | .ok (s, b'') => Res.ok (some (.map (m.set name (.str s)), s, b''))
          | .panic => Res.panic
          | .hang => Res.hang
        else (m.mutateAt name t b').wrap GoVal.map
      | .ok (_, []) => Res.ok none
      | .panic => Res.panic
      | .hang => Res.hang
    else Res.ok none
  | .list l, tag, b =>
    if tag = 1 then
      match goU32 b with
      | .ok (i, t :: b') =>
        if t = 3 then
          match goString b' with
          | .ok (s, b'') =>
            match l.set i (.str s) with
            | .ok l' => Res.ok (some (.list l', s, b''))
            | .panic => Res.panic
            | .hang => Res.hang
          | .panic => Res.panic
          | .hang => Res.hang
        else (l.mutateAt i t b').wrap GoVal.list
      | .ok (_, []) => Res.ok none
      | .panic => Res.panic
      | .hang => Res.hang
    else Res.ok none
  | .str _, _, _ => Res.ok none
  | .other, _, _ => Res.panic
/-- On the element number `i`. -/
def GoItems.mutateAt : GoItems → Nat → Nat → Bytes → Mutated GoItems
  | .nil, _, _, _ => Res.panic
  | .cons v rest, 0, tag, b => (v.mutate tag b).wrap fun v' => .cons v' rest
  | .cons v rest, i + 1, tag, b => (rest.mutateAt i tag b).wrap (GoItems.cons v)
/-- On the value of a key; for a missing key `reflect.TypeOf(nil).Kind()` panics. -/
def GoFields.mutateAt : GoFields → Bytes → Nat → Bytes → Mutated GoFields
  | .nil, _, _, _ => Res.panic
  | .cons k v rest, key, tag, b =>
    if k = key then (v.mutate tag b).wrap fun v' => .cons k v' rest
    else (rest.mutateAt key tag b).wrap (GoFields.cons k v)
end

/-- `ScanResult`: `Mutated`, `Event` (the last string written, or the string event), `Matches`. -/
structure GoResult where
  mutated : Bool
  event : Bytes
  matches_ : List GoMatch
deriving DecidableEq, Repr

/-- `decodeEventMapResponse` (scanner.go 301-326), a loop over the buffer.  The event is updated in place; on
an error or panic the partly updated event is left out of the result. -/
def decodeMapF : Nat → Bytes → GoVal → GoResult → Res (Option (GoVal × GoResult))
  | _, [], ev, r => Res.ok (some (ev, r))
  | 0, _ :: _, _, _ => Res.hang
  | f + 1, typ :: b, ev, r =>
    if typ = 4 then
      match b with
      | [] => Res.ok none
      | tag :: b' =>
        match ev.mutate tag b' with
        | .ok (some (ev', s, b'')) => decodeMapF f b'' ev' { r with mutated := true, event := s }
        | .ok none => Res.ok none
        | .panic => Res.panic
        | .hang => Res.hang
    else if typ = 5 then
      match decodeMatch b with
      | .ok (m, b') => decodeMapF f b' ev { r with matches_ := r.matches_ ++ [m] }
      | .panic => Res.panic
      | .hang => Res.hang
    else Res.ok none

/-- Every step takes at least one byte. -/
def decodeMap (b : Bytes) (ev : GoVal) : Res (Option (GoVal × GoResult)) :=
  decodeMapF b.length b ev ⟨false, [], []⟩

/-- `decodeMutation` (scanner.go 438-469): the path is skipped. -/
def decodeMutationF : Nat → Bytes → Res (Option (Bytes × Bytes))
  | _, [] => Res.ok none
  | 0, _ :: _ => Res.hang
  | f + 1, marker :: b =>
    if marker = 0 then
      match goString b with
      | .ok (_, b') => decodeMutationF f b'
      | .panic => Res.panic
      | .hang => Res.hang
    else if marker = 1 then
      match goU32 b with
      | .ok (_, b') => decodeMutationF f b'
      | .panic => Res.panic
      | .hang => Res.hang
    else if marker = 3 then
      match goString b with
      | .ok (s, b') => Res.ok (some (s, b'))
      | .panic => Res.panic
      | .hang => Res.hang
    else decodeMutationF f b

/-- `decodeResponse` (scanner.go 330-355). -/
def decodeResponseF : Nat → Bytes → GoResult → Res (Option GoResult)
  | _, [], r => Res.ok (some r)
  | 0, _ :: _, _ => Res.hang
  | f + 1, typ :: b, r =>
    if typ = 4 then
      match decodeMutationF b.length b with
      | .ok (some (s, b')) => decodeResponseF f b' { r with mutated := true, event := s }
      | .ok none => Res.ok none
      | .panic => Res.panic
      | .hang => Res.hang
    else if typ = 5 then
      match decodeMatch b with
      | .ok (m, b') => decodeResponseF f b' { r with matches_ := r.matches_ ++ [m] }
      | .panic => Res.panic
      | .hang => Res.hang
    else Res.ok none

def decodeResponse (b : Bytes) : Res (Option GoResult) := decodeResponseF b.length b ⟨false, [], []⟩

/-! ## Go: the scan calls -/

/-- `C.GoBytes(ptr, C.int(retsize))` (scanner.go 133): the size is cut down to 32 bits with a sign.  A negative
length makes `GoBytes` panic; otherwise that many bytes are copied. -/
def goBytes (b : Bytes) : Res Bytes :=
  if toI32 (b.length % 4294967296) < 0 then Res.panic else Res.ok (b.take (toI32 (b.length % 4294967296)).toNat)

/-- `lowLevelScan` (scanner.go 108-135) and `scan` (scan.rs 12-69): a panic of the library is a Go error;
without matches the response is empty. -/
def lowLevelScan (sc : Scanner) (bytes : Bytes) : Res (Option Bytes) :=
  match scanBinary sc bytes with
  | .panic => Res.ok none
  | .hang => Res.hang
  | .ok (st, ms) =>
    match encodeResponse st ms with
    | none => Res.ok (some [])
    | some b => (goBytes b).map some

/-- `ScanEventsMap` (scanner.go 195-203, 138-152). -/
def scanEventsMap (sc : Scanner) (ev : GoFields) : Res (Option (GoVal × GoResult)) :=
  match ev.encode with
  | none => Res.ok none
  | some bytes =>
    match lowLevelScan sc bytes with
    | .panic => Res.panic
    | .hang => Res.hang
    | .ok none => Res.ok none
    | .ok (some response) => decodeMap response (.map ev)

/-- `Scan` (scanner.go 171-192, 154-168): if nothing was mutated, `Event` is the given text. -/
def scanString (sc : Scanner) (text : Bytes) : Res (Option GoResult) :=
  match lowLevelScan sc (goEncodeString text) with
  | .panic => Res.panic
  | .hang => Res.hang
  | .ok none => Res.ok none
  | .ok (some response) =>
    match decodeResponse response with
    | .ok (some r) => Res.ok (some (if r.mutated then r else { r with event := text }))
    | .ok none => Res.ok none
    | .panic => Res.panic
    | .hang => Res.hang

end Sds
