import Verif.Model.Str

/-! # Paths (sds/src/path.rs) -/

namespace Sds

/-- `PathSegment` (path.rs 15-20). -/
inductive Seg where
  | field (name : Str)
  | index (i : Nat)
deriving DecidableEq, Repr

/-- `Path` (path.rs 10-13). -/
abbrev Path := List Seg

/-- The loop of `Path::starts_with` (path.rs 50-54) over the zipped segments. -/
def allEqual : List (Seg × Seg) → Bool
  | [] => true
  | (a, b) :: rest => if a ≠ b then false else allEqual rest

/-- `Path::starts_with` (path.rs 43-56). -/
def Path.startsWith (self pre : Path) : Bool :=
  if pre.length > self.length then false else allEqual (List.zip pre self)

end Sds
