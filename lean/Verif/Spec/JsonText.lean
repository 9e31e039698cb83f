import Verif.Model.JsonText

/-! # Specification: the texts of JSON documents (RFC 8259)

Only documents without negative, fractional and exponential numbers, since `JVal` has no others. -/

namespace Sds

mutual
/-- What is in the strings of a document, after `encoding/json` replaced what is not UTF-8. -/
def GoJson.tree : GoJson → JVal
  | .null => .null
  | .num n => .num n
  | .str b => .str (goText b)
  | .arr l => .arr (GoJson.treeList l)
  | .obj fs => .obj (GoJson.treeFields fs)
/-- The elements of an array. -/
def GoJson.treeList : List GoJson → List JVal
  | [] => []
  | v :: l => v.tree :: GoJson.treeList l
/-- The fields of an object. -/
def GoJson.treeFields : List (Str × GoJson) → List (Str × JVal)
  | [] => []
  | (k, v) :: l => (k, v.tree) :: GoJson.treeFields l
end

mutual
/-- Levels of arrays and objects. -/
def JVal.depth : JVal → Nat
  | .arr l => JVal.depthList l + 1
  | .obj fs => JVal.depthFields fs + 1
  | _ => 0
/-- The most levels of an element. -/
def JVal.depthList : List JVal → Nat
  | [] => 0
  | v :: l => max v.depth (JVal.depthList l)
/-- The most levels of a member. -/
def JVal.depthFields : List (Str × JVal) → Nat
  | [] => 0
  | (_, v) :: l => max v.depth (JVal.depthFields l)
end

namespace Spec.Json

/-- White space. -/
def Space (w : Str) : Prop := ∀ c ∈ w, c = ' ' ∨ c = '\n' ∨ c = '\t' ∨ c = '\r'

/-- The value of a hexadecimal digit. -/
def HexDigit (c : Char) (n : Nat) : Prop :=
  "0123456789abcdef".toList[n]? = some c ∨ "0123456789ABCDEF".toList[n]? = some c

/-- Four hexadecimal digits. -/
def Hex4 (t : Str) (n : Nat) : Prop :=
  ∃ a b c d x y z w, t = [a, b, c, d] ∧ HexDigit a x ∧ HexDigit b y ∧ HexDigit c z ∧ HexDigit d w ∧
    n = 4096 * x + 256 * y + 16 * z + w

/-- `Char1 t c`: the text `t` stands for the character `c` in a string. -/
inductive Char1 : Str → Char → Prop where
  | plain {c : Char} : 0x20 ≤ c.toNat → c ≠ '"' → c ≠ '\\' → Char1 [c] c
  | quote : Char1 ['\\', '"'] '"'
  | backslash : Char1 ['\\', '\\'] '\\'
  | slash : Char1 ['\\', '/'] '/'
  | backspace : Char1 ['\\', 'b'] (Char.ofNat 8)
  | formFeed : Char1 ['\\', 'f'] (Char.ofNat 12)
  | newline : Char1 ['\\', 'n'] '\n'
  | carriageReturn : Char1 ['\\', 'r'] '\r'
  | tab : Char1 ['\\', 't'] '\t'
  | unicode {t : Str} {c : Char} : Hex4 t c.toNat → Char1 ('\\' :: 'u' :: t) c
  | pair {t t' : Str} {n m : Nat} {c : Char} : Hex4 t n → Hex4 t' m → 0xD800 ≤ n → n < 0xDC00 → 0xDC00 ≤ m → m < 0xE000 →
      c.toNat = 0x10000 + (n - 0xD800) * 0x400 + (m - 0xDC00) → Char1 ('\\' :: 'u' :: (t ++ '\\' :: 'u' :: t')) c

/-- The characters of a string. -/
inductive Chars : Str → Str → Prop where
  | nil : Chars [] []
  | cons {t u : Str} {c : Char} {s : Str} : Char1 t c → Chars u s → Chars (t ++ u) (c :: s)

/-- A string with its quotes. -/
def Quoted (t s : Str) : Prop := ∃ u, Chars u s ∧ t = '"' :: (u ++ ['"'])

/-- A natural number in decimal, without zeros in front. -/
inductive Number : Str → Nat → Prop where
  | digit {d : Nat} : d < 10 → Number [Nat.digitChar d] d
  | more {t : Str} {n d : Nat} : Number t n → 0 < n → d < 10 → Number (t ++ [Nat.digitChar d]) (10 * n + d)

mutual
/-- `Value d t v`: the text `t` is the value `v`, with at most `d` levels of arrays and objects. -/
inductive Value : Nat → Str → JVal → Prop where
  | null {d : Nat} : Value d "null".toList .null
  | yes {d : Nat} : Value d "true".toList (.bool true)
  | no {d : Nat} : Value d "false".toList (.bool false)
  | num {d : Nat} {t : Str} {n : Nat} : Number t n → Value d t (.num n)
  | str {d : Nat} {t s : Str} : Quoted t s → Value d t (.str s)
  | noElements {d : Nat} {w : Str} : Space w → Value (d + 1) ('[' :: (w ++ [']'])) (.arr [])
  | arr {d : Nat} {t : Str} {l : List JVal} : Elements d t l → Value (d + 1) ('[' :: (t ++ [']'])) (.arr l)
  | noMembers {d : Nat} {w : Str} : Space w → Value (d + 1) ('{' :: (w ++ ['}'])) (.obj [])
  | obj {d : Nat} {t : Str} {l : List (Str × JVal)} : Members d t l → Value (d + 1) ('{' :: (t ++ ['}'])) (.obj l)
/-- One or more values with commas between them. -/
inductive Elements : Nat → Str → List JVal → Prop where
  | one {d : Nat} {a t b : Str} {v : JVal} : Space a → Value d t v → Space b → Elements d (a ++ (t ++ b)) [v]
  | more {d : Nat} {a t b r : Str} {v : JVal} {l : List JVal} : Space a → Value d t v → Space b → Elements d r l →
      Elements d (a ++ (t ++ (b ++ ',' :: r))) (v :: l)
/-- One or more members with commas between them. -/
inductive Members : Nat → Str → List (Str × JVal) → Prop where
  | one {d : Nat} {a q b c t e k : Str} {v : JVal} : Space a → Quoted q k → Space b → Space c → Value d t v → Space e →
      Members d (a ++ (q ++ (b ++ ':' :: (c ++ (t ++ e))))) [(k, v)]
  | more {d : Nat} {a q b c t e k r : Str} {v : JVal} {l : List (Str × JVal)} : Space a → Quoted q k → Space b → Space c →
      Value d t v → Space e → Members d r l →
      Members d (a ++ (q ++ (b ++ ':' :: (c ++ (t ++ (e ++ ',' :: r)))))) ((k, v) :: l)
end

/-- The text of a document.  No more than 127 levels: that is the limit of `serde_json`. -/
def Document (t : Str) (v : JVal) : Prop :=
  ∃ a u b, Space a ∧ Value 127 u v ∧ Space b ∧ t = a ++ (u ++ b)

end Spec.Json

end Sds
