/-!
# Strings with UTF-8 byte offsets, and results that may panic

Rust strings are sequences of Unicode scalar values addressed by UTF-8 byte offsets.  We model a
`&str`/`String` by the list of its characters; every offset in the model is a byte offset.  Slicing
at an offset that is out of range or not on a character boundary panics in Rust; the operations here
return `none` in exactly these cases and the model turns that into `Res.panic`.
-/

namespace Sds

/-- A Rust string. -/
abbrev Str := List Char

/-- Outcome of a computation that may panic or fail to terminate.
`hang` is only produced by running out of fuel. -/
inductive Res (α : Type) where
  | ok (a : α)
  | panic
  | hang
deriving DecidableEq, Repr

namespace Res

/-- Sequencing: the first panic / divergence wins. -/
def bind {α β : Type} : Res α → (α → Res β) → Res β
  | ok a, f => f a
  | panic, _ => panic
  | hang, _ => hang

/-- Apply a function to the result. -/
def map {α β : Type} (f : α → β) : Res α → Res β
  | ok a => ok (f a)
  | panic => panic
  | hang => hang

instance : Monad Res where
  pure := Res.ok
  bind := Res.bind

/-- `Option::unwrap` (and slicing): `None` panics. -/
def ofOption {α : Type} : Option α → Res α
  | some a => ok a
  | none => panic

@[simp] theorem bind_ok {α β : Type} (a : α) (f : α → Res β) : ((Res.ok a) >>= f) = f a := rfl
@[simp] theorem bind_panic {α β : Type} (f : α → Res β) :
    ((Res.panic : Res α) >>= f) = Res.panic := rfl
@[simp] theorem bind_hang {α β : Type} (f : α → Res β) :
    ((Res.hang : Res α) >>= f) = Res.hang := rfl
@[simp] theorem pure_eq {α : Type} (a : α) : (pure a : Res α) = Res.ok a := rfl
@[simp] theorem ofOption_some {α : Type} (a : α) : ofOption (some a) = Res.ok a := rfl
@[simp] theorem ofOption_none {α : Type} : ofOption (none : Option α) = Res.panic := rfl

end Res

/-- `str::len`: number of UTF-8 bytes. -/
def blen : Str → Nat
  | [] => 0
  | c :: cs => c.utf8Size + blen cs

/-- Split a string at a byte offset (`str::split_at_checked`): `none` if the offset is out of range or
inside a character. -/
def cut : Str → Nat → Option (Str × Str)
  | s, 0 => some ([], s)
  | [], _ + 1 => none
  | c :: cs, n + 1 =>
    if c.utf8Size ≤ n + 1 then
      match cut cs (n + 1 - c.utf8Size) with
      | some (a, b) => some (c :: a, b)
      | none => none
    else none

/-- `str::is_char_boundary`. -/
def isBoundary (s : Str) (n : Nat) : Bool := (cut s n).isSome

/-- `&s[i..]`. -/
def sliceFrom (s : Str) (i : Nat) : Option Str := (cut s i).map (·.2)

/-- `&s[..j]`. -/
def sliceTo (s : Str) (j : Nat) : Option Str := (cut s j).map (·.1)

/-- `&s[i..j]`: `none` (panic) if `i > j`, out of range, or off a character boundary. -/
def slice (s : Str) (i j : Nat) : Option Str :=
  if i ≤ j then
    match cut s i with
    | some (_, r) => (cut r (j - i)).map (·.1)
    | none => none
  else none

/-- `String::replace_range(i..j, r)`: `none` (panic) exactly when slicing would panic. -/
def replaceRange (s : Str) (i j : Nat) (r : Str) : Option Str :=
  if i ≤ j then
    match cut s i with
    | some (a, rest) => (cut rest (j - i)).map fun p => a ++ r ++ p.2
    | none => none
  else none

/-- `str::char_indices`, offsets starting at `o`. -/
def charIndicesFrom : Nat → Str → List (Nat × Char)
  | _, [] => []
  | o, c :: cs => (o, c) :: charIndicesFrom (o + c.utf8Size) cs

/-- `str::char_indices`. -/
def charIndices (s : Str) : List (Nat × Char) := charIndicesFrom 0 s

/-- `.char_indices().nth(n)` (offset only). -/
def nthIdx (s : Str) (n : Nat) : Option Nat := ((charIndices s)[n]?).map (·.1)

/-- `.char_indices().nth_back(n)` (offset only). -/
def nthBackIdx (s : Str) (n : Nat) : Option Nat := ((charIndices s).reverse[n]?).map (·.1)

end Sds
