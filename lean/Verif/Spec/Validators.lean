import Verif.Model.Validators

/-! # Specification: check digits -/

namespace Sds.Spec

/-- Two lists of the same length, related position by position. -/
inductive All2 {α β : Type} (R : α → β → Prop) : List α → List β → Prop
  | nil : All2 R [] []
  | cons {a : α} {b : β} {l : List α} {l' : List β} : R a b → All2 R l l' → All2 R (a :: l) (b :: l')

/-- `c` is the decimal digit `d`. -/
def IsDigit (c : Char) (d : Nat) : Prop := d < 10 ∧ c = Char.ofNat ('0'.toNat + d)

/-- `ds` are the digits among the characters of the text, in order. -/
inductive Digits : Str → List Nat → Prop
  | nil : Digits [] []
  | digit {c : Char} {d : Nat} {t : Str} {ds : List Nat} : IsDigit c d → Digits t ds → Digits (c :: t) (d :: ds)
  | other {c : Char} {t : Str} {ds : List Nat} : (∀ d, ¬ IsDigit c d) → Digits t ds → Digits (c :: t) ds

/-- Sum of the decimal digits of a number below 100. -/
def crossSum (n : Nat) : Nat := n / 10 + n % 10

/-- Luhn sum: every second digit, starting with the one before the last, is doubled and replaced by its cross
sum. -/
def luhnSum (ds : List Nat) : Nat :=
  (ds.reverse.zipIdx.map fun x => if x.2 % 2 = 1 then crossSum (2 * x.1) else x.1).sum

/-- NHS data dictionary: the first nine digits times 10, 9, ..., 2; 11 minus the remainder of the sum modulo 11
is the check digit, with 11 read as 0 and 10 invalid. -/
def NhsNumber (ds : List Nat) : Prop :=
  ∃ d1 d2 d3 d4 d5 d6 d7 d8 d9 d10, ds = [d1, d2, d3, d4, d5, d6, d7, d8, d9, d10] ∧
    let r := 11 - (10 * d1 + 9 * d2 + 8 * d3 + 7 * d4 + 6 * d5 + 5 * d6 + 4 * d7 + 3 * d8 + 2 * d9) % 11
    r ≠ 10 ∧ d10 = if r = 11 then 0 else r

/-- The number written with the given decimal digits. -/
def number (ds : List Nat) : Nat := ds.foldl (fun n d => 10 * n + d) 0

/-- ISO 7064 MOD 11-2: value of the characters read in base 2. -/
def base2 (ds : List Nat) : Nat := ds.foldl (fun n d => 2 * n + d) 0

/-- Value of a check character: a digit, or 10 for X. -/
def CheckValue (c : Char) (d : Nat) : Prop := IsDigit c d ∨ (d = 10 ∧ (c = 'X' ∨ c = 'x'))

/-- `ds` are the values of an 18-character identity number: digits, then a check character. -/
def ChineseId (t : Str) (ds : List Nat) : Prop :=
  ∃ (body : Str) (c : Char) (bs : List Nat) (d : Nat), t = body ++ [c] ∧ body.length = 17 ∧ ds = bs ++ [d] ∧
    All2 IsDigit body bs ∧ CheckValue c d

/-- ASCII letters and digits. -/
def AlphaNum (c : Char) : Prop := ('0' ≤ c ∧ c ≤ '9') ∨ ('A' ≤ c ∧ c ≤ 'Z') ∨ ('a' ≤ c ∧ c ≤ 'z')

/-- The base 62 digits: 0-9, A-Z, a-z. -/
def base62Digits : Str := "0123456789ABCDEFGHIJKLMNOPQRSTUVWXYZabcdefghijklmnopqrstuvwxyz".toList

/-- The text is the number in base 62, possibly with leading zeros. -/
def Base62 (t : Str) (n : Nat) : Prop :=
  ∃ ds : List Nat, All2 (fun c d => base62Digits[d]? = some c) t ds ∧ n = ds.foldl (fun n d => 62 * n + d) 0

/-- The value is an object, and `v` the value of its first field with this name. -/
def FieldIs (j : Json) (name : Str) (v : Json) : Prop :=
  ∃ before after, j = .obj (before ++ (name, v) :: after) ∧ ∀ f ∈ before, f.1 ≠ name

/-- One step of CRC-32 for a byte (reflected, polynomial 0xEDB88320). -/
def crcBits : Nat → Nat → Nat
  | 0, c => c
  | n + 1, c => crcBits n (if c % 2 = 1 then (c / 2) ^^^ 0xEDB88320 else c / 2)

/-- CRC-32 of an ASCII text. -/
def crc32 (t : Str) : Nat :=
  t.foldl (fun c x => crcBits 8 (c ^^^ x.toNat)) 0xFFFFFFFF ^^^ 0xFFFFFFFF

end Sds.Spec
