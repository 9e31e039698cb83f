import Verif.Spec.Scan
import Verif.Model.Codec

/-! # Specification: Go events and responses -/

namespace Sds.Spec

/-- Valid UTF-8. -/
def IsUtf8 (b : Bytes) : Prop := ∃ s : Str, utf8 s = b

/-- A step in a Go event. -/
inductive GoSeg where
  | field (key : Bytes)
  | index (i : Nat)
deriving DecidableEq, Repr

/-- The Go step for a path segment. -/
def goSeg : Seg → GoSeg
  | .field f => .field (utf8 f)
  | .index i => .index i

def goPath (p : Path) : List GoSeg := p.map goSeg

/-- `v` is stored under the key `k`. -/
def GoFieldOf : GoFields → Bytes → GoVal → Prop
  | .nil, _, _ => False
  | .cons k' v' rest, k, v => (k = k' ∧ v = v') ∨ GoFieldOf rest k v

/-- `v` is the element number `i`. -/
def GoItemOf : GoItems → Nat → GoVal → Prop
  | .nil, _, _ => False
  | .cons v' _, 0, v => v = v'
  | .cons _ rest, i + 1, v => GoItemOf rest i v

/-- The value found by following a path. -/
inductive GoAt : GoVal → List GoSeg → GoVal → Prop
  | here (v : GoVal) : GoAt v [] v
  | field {m : GoFields} {k : Bytes} {v w : GoVal} {p : List GoSeg} :
      GoFieldOf m k v → GoAt v p w → GoAt (.map m) (.field k :: p) w
  | item {l : GoItems} {i : Nat} {v w : GoVal} {p : List GoSeg} :
      GoItemOf l i v → GoAt v p w → GoAt (.list l) (.index i :: p) w

def goKeys : GoFields → List Bytes
  | .nil => []
  | .cons k _ rest => k :: goKeys rest

def goLength : GoItems → Nat
  | .nil => 0
  | .cons _ rest => goLength rest + 1

mutual
/-- Maps have no key twice, at any depth. -/
def GoKeyed : GoVal → Prop
  | .map m => GoKeyedFields m
  | .list l => GoKeyedItems l
  | _ => True
def GoKeyedItems : GoItems → Prop
  | .nil => True
  | .cons v rest => GoKeyed v ∧ GoKeyedItems rest
def GoKeyedFields : GoFields → Prop
  | .nil => True
  | .cons k v rest => k ∉ goKeys rest ∧ GoKeyed v ∧ GoKeyedFields rest
end

mutual
/-- There are only strings, maps and lists; keys and strings are shorter than 2^32 bytes, lists have at most 2^32
elements. -/
def GoSized : GoVal → Prop
  | .str b => b.length < 4294967296
  | .map m => GoSizedFields m
  | .list l => goLength l ≤ 4294967296 ∧ GoSizedItems l
  | .other => False
def GoSizedItems : GoItems → Prop
  | .nil => True
  | .cons v rest => GoSized v ∧ GoSizedItems rest
def GoSizedFields : GoFields → Prop
  | .nil => True
  | .cons k v rest => k.length < 4294967296 ∧ GoSized v ∧ GoSizedFields rest
end

/-- All keys are valid UTF-8. -/
def KeysUtf8 (v : GoVal) : Prop :=
  ∀ p m k w, GoAt v p (.map m) → GoFieldOf m k w → IsUtf8 k

/-- All strings are valid UTF-8. -/
def StringsUtf8 (v : GoVal) : Prop := ∀ p b, GoAt v p (.str b) → IsUtf8 b

mutual
/-- The event with the string at every path `p` replaced by `g p` of it; everything else is the same. -/
def goRewrite (g : List GoSeg → Bytes → Bytes) : GoVal → GoVal
  | .str b => .str (g [] b)
  | .map m => .map (goRewriteFields g m)
  | .list l => .list (goRewriteItems g 0 l)
  | .other => .other
def goRewriteItems (g : List GoSeg → Bytes → Bytes) : Nat → GoItems → GoItems
  | _, .nil => .nil
  | i, .cons v rest => .cons (goRewrite (fun p => g (.index i :: p)) v) (goRewriteItems g (i + 1) rest)
def goRewriteFields (g : List GoSeg → Bytes → Bytes) : GoFields → GoFields
  | .nil => .nil
  | .cons k v rest => .cons k (goRewrite (fun p => g (.field k :: p)) v) (goRewriteFields g rest)
end

/-- What Go receives for a match. -/
def goMatch (m : RuleMatch) : GoMatch :=
  ⟨m.rule, utf8 (displayPath m.path), m.rtype, m.start, m.stop, m.shift⟩

/-- The same bytes, except that a letter of the first may be the capital of the one of the second. -/
def SameButCase (b name : Bytes) : Prop :=
  b.length = name.length ∧ ∀ (i x y : Nat), b[i]? = some x → name[i]? = some y → x = y ∨ (97 ≤ y ∧ y ≤ 122 ∧ x + 32 = y)

/-- The numbers fit 32 bits. -/
def Fits (m : RuleMatch) : Prop :=
  m.rule < 4294967296 ∧ (utf8 (displayPath m.path)).length < 4294967296 ∧ m.start < 4294967296 ∧
    m.stop < 4294967296 ∧ -2147483648 ≤ m.shift ∧ m.shift < 2147483648

/-- The mutated entries: path and new content. -/
def mutations (st : Storage) : List (Path × Str) :=
  st.filterMap fun x => if x.2.1 then some (x.1, x.2.2) else none

/-- The sizes of paths and contents of the mutations fit 32 bits. -/
def MutationFits (x : Path × Str) : Prop :=
  (utf8 x.2).length < 4294967296 ∧
    ∀ s ∈ x.1, match s with
      | .field f => (utf8 f).length < 4294967296
      | .index i => i < 4294967296

/-- The new content of the string at `p`, given the list of mutations. -/
def mutatedText (ms : List (Path × Str)) (p : List GoSeg) (b : Bytes) : Bytes :=
  match ms.find? (fun x => decide (goPath x.1 = p)) with
  | some x => utf8 x.2
  | none => b

/-- The response to the event is shorter than 2^31 bytes. -/
def ResponseFits (sc : Scanner) (event : Bytes) : Prop :=
  ∀ st ms r, scanBinary sc event = Res.ok (st, ms) → encodeResponse st ms = some r → r.length < 2147483648

/-- The strings of a Go event as the library sees them: at their path, with invalid bytes replaced. -/
def LeavesOf (v : GoVal) (leaves : List Leaf) : Prop :=
  (leaves.map (·.path)).Nodup ∧
    ∀ l, l ∈ leaves ↔ l.fixed = false ∧ ∃ b, GoAt v (goPath l.path) (.str b) ∧ l.text = lossy b

end Sds.Spec
