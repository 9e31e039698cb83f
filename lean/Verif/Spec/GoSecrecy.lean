import Verif.Spec.GoRun
import Verif.Spec.Secrecy

/-! # Specification: what a caller of the Go package may learn about hidden texts -/

namespace Sds.Spec
open Sds.Re

/-- The event can be encoded, its texts are UTF-8 and no irregular case of C81 occurs in them (see `C81_go_rules_partial`); no
required keyword is found within another one; the response fits. -/
structure GoRegular (T : Tables) (O : Outside) (rs : List (RustRule × Ast)) (ev : GoFields) : Prop where
  keyed : GoKeyed (.map ev)
  sized : GoSized (.map ev)
  keys : KeysUtf8 (.map ev)
  strings : StringsUtf8 (.map ev)
  regular : ∀ p s, GoAt (.map ev) (goPath p) (.str (utf8 s)) → ∀ x ∈ rs, Regular T O x.1 x.2 s
  keywords : ∀ p s, GoAt (.map ev) (goPath p) (.str (utf8 s)) → ∀ x ∈ rs, ∀ k, x.1.keywords = some k →
    ∀ b e b' e', KeywordAt O k.included s b e → KeywordAt O k.included s b' e' → e ≤ e' → b ≤ b'
  fits : ∃ size : Str → Nat, (∀ p s, GoAt (.map ev) (goPath p) (.str (utf8 s)) →
      ∀ ps tail, Cut T O rs s ps tail → blen (rewritten O rs ps tail) ≤ size s) ∧
    ∀ leaves, LeavesOf (.map ev) leaves → (leaves.map fun l => stringCost (size l.text) l).sum < 2147483648

/-- The same rules match between the same texts, and the action of each rule hides how its matches differ. -/
def HiddenPieces (O : Outside) (rs : List (RustRule × Ast)) : List Piece → List Piece → Prop
  | [], [] => True
  | p :: ps, p' :: ps' => (p.gap = p'.gap ∧ p.rule = p'.rule ∧ Alike O.fp (actionAt rs p.rule) p.text p'.text) ∧
      HiddenPieces O rs ps ps'
  | _, _ => False

/-- The text `s'` differs from `s` only in what the rules hide. -/
def HiddenText (T : Tables) (O : Outside) (rs : List (RustRule × Ast)) (P : List Piece → List Piece → Prop) (s s' : Str) : Prop :=
  ∃ ps ps' tail, Cut T O rs s ps tail ∧ Cut T O rs s' ps' tail ∧ HiddenPieces O rs ps ps' ∧ P ps ps'

/-- A match as Go shows it, apart from the shift. -/
def goShown (m : GoMatch) : Nat × Bytes × ReplacementType × Nat × Nat := (m.rule, m.path, m.rtype, m.start, m.stop)

end Sds.Spec
