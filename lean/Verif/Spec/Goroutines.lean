import Verif.Model.Goroutines

/-! # Specification: how scanners may be shared, and what the operations report -/

namespace Sds.Spec
variable {C S D E : Type}

/-- Scanner `x` was created. -/
def Made (tr : List (Nat × GoEvent C D E)) (x : Nat) : Prop := ∃ i jsons, (i, .createEnds x jsons none) ∈ tr

/-- The deletion of scanner `x` has begun. -/
def DeleteBegun (tr : List (Nat × GoEvent C D E)) (x : Nat) : Prop := ∃ i, (i, .deleteBegins x) ∈ tr

/-- Goroutine `i` is in a scan with scanner `x`: the last thing it did is to begin one. -/
def InScan (tr : List (Nat × GoEvent C D E)) (i x : Nat) : Prop :=
  ∃ t e u, tr = t ++ (i, .scanBegins x e) :: u ∧ ∀ ev ∈ u, ev.1 ≠ i

/-- What the users of the package have to see to: a scanner has one name; it is used after it was created and before its
deletion begins; it is deleted once, when no scan with it is running. -/
def Allowed (tr : List (Nat × GoEvent C D E)) : GoEvent C D E → Prop
  | .createBegins x => ∀ i, (i, .createBegins x) ∉ tr
  | .scanBegins x _ => Made tr x ∧ ¬ DeleteBegun tr x
  | .deleteBegins x => Made tr x ∧ ¬ DeleteBegun tr x ∧ ∀ i, ¬ InScan tr i x
  | _ => True

/-- Every event was allowed when it happened. -/
def Disciplined (tr : List (Nat × GoEvent C D E)) : Prop := ∀ t i ev u, tr = t ++ (i, ev) :: u → Allowed t ev

/-- What a scan is to report. -/
def reportOf : Scanned D → GoScanned D
  | .nothing => .nothing
  | .data d => .data d
  | .panic => .failed

/-- The reports in a history are right: a scanner is created iff all rules can be read and the library builds a scanner from
them, and a scan reports what the scanner built from these rules finds. -/
def Right (lib : Lib C S D E) (tr : List (Nat × GoEvent C D E)) : GoEvent C D E → Prop
  | .createEnds _ jsons none => ∃ cs s, jsons = cs.map some ∧ lib.build cs = .ok s
  | .createEnds _ jsons (some none) => none ∈ jsons
  | .createEnds _ jsons (some (some code)) =>
    ∃ cs, jsons = cs.map some ∧ (lib.build cs = .error code ∨ (lib.build cs = .panic ∧ code = -5))
  | .scanEnds x e r => ∃ i cs s, (i, .createEnds x (cs.map some) none) ∈ tr ∧ lib.build cs = .ok s ∧ r = reportOf (lib.scan s e)
  | _ => True

end Sds.Spec
