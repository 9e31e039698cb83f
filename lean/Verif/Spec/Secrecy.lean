import Verif.Spec.Scan

/-! # Specification: what may be learnt from the result of a scan

Which texts of a match an action must not tell apart, and what a report shows. -/

namespace Sds.Spec

/-- Texts of a match that the result of the action must not tell apart: a placeholder hides everything, a hash all but
its value, a partial redaction the first or last characters and how many they are if it covers the match. -/
def Alike (fp : Fingerprint) : Action → Str → Str → Prop
  | .none, t, t' => t = t'
  | .redact _, _, _ => True
  | .hash, t, t' => fp.utf8 t = fp.utf8 t'
  | .utf16Hash, t, t' => fp.utf16 t = fp.utf16 t'
  | .partialFirst n, t, t' => ∃ kept, (t = t.take n ++ kept) ∧ (t' = t'.take n ++ kept)
  | .partialLast n, t, t' => ∃ kept u u', t = kept ++ u ∧ t' = kept ++ u' ∧ (kept ≠ [] → u.length = n ∧ u'.length = n) ∧
      (kept = [] → u.length ≤ n ∧ u'.length ≤ n)

/-- Two pieces of text with the same rule, the same text in front and texts that the action of the rule hides. -/
structure AlikePiece (sc : Scanner) (p p' : Piece) : Prop where
  gap : p.gap = p'.gap
  rule : p.rule = p'.rule
  text : Alike sc.fp (infoOf sc p.rule).action p.text p'.text

/-- The matches that are to be reported in the string `l` of an event with the strings `leaves` are the pieces `ps`, followed by
`tail`. -/
def CutAt (sc : Scanner) (blocked : List Nat) (leaves : List Leaf) (l : Leaf) (ps : List Piece) (tail : Str) : Prop :=
  l.text = input ps tail ∧
  ∃ ks, (∀ m, m ∈ ks ↔ Kept sc blocked leaves l.path l.text m) ∧ IsResolution (redacting sc) ks (ranges 0 ps)

/-- Two lists of pieces, one from each event. -/
def AlikePieces (sc : Scanner) : List Piece → List Piece → Prop
  | [], [] => True
  | p :: ps, p' :: ps' => AlikePiece sc p p' ∧ AlikePieces sc ps ps'
  | _, _ => False

/-- The two events: the second has other texts, given by `H`.  In each string the same rules report in the same places between
the same texts, and the texts of the matches are alike for the action of the rule. -/
def DiffersInSecrets {E : Type} (leavesOf : E → List Leaf) (rew : (Path → Str → Str) → E → E) (sc : Scanner) (blocked : List Nat) (e : E)
    (H : Path → Str → Str) (P : List Piece → List Piece → Prop) : Prop :=
  ∀ l ∈ leavesOf e, l.fixed = false → ∃ ps ps' tail, CutAt sc blocked (leavesOf e) l ps tail ∧
    CutAt sc blocked (leavesOf (rew H e)) { l with text := H l.path l.text } ps' tail ∧ AlikePieces sc ps ps' ∧ P ps ps'

/-- What a report shows apart from `shift_offset` and `match_value`. -/
def shown (o : RuleMatch) : Nat × Path × ReplacementType × Nat × Nat × MatchStatus :=
  (o.rule, o.path, o.rtype, o.start, o.stop, o.status)

end Sds.Spec
