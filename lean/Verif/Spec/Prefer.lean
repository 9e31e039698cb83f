import Verif.Spec.Engine

/-! # Specification: which match a backtracking search prefers

`tries` lists the ways to match at a position, in the order in which a backtracking search (Perl, PCRE2, and "leftmost-first"
of the regex crate) comes to them: alternatives from left to right, more repetitions first if greedy, fewer first if lazy.
An endless loop is left after an iteration that matches nothing. -/

namespace Sds.Spec
open Sds.Re

/-- The lengths that repetitions match, in order of preference; `f` gives those of one iteration. -/
def repTries (f : Str → Str → List Nat) (greedy : Bool) : Nat → Nat → Option Nat → Str → Str → List Nat
  | 0, _, _, _, _ => []
  | fuel + 1, lo, hi, p, r =>
    let more := if hi = some 0 then [] else (f p r).flatMap fun k =>
      if k = 0 ∧ lo = 0 ∧ hi = none then [0]
      else (repTries f greedy fuel (lo - 1) (hi.map (· - 1)) (p ++ r.take k) (r.drop k)).map (k + ·)
    if 0 < lo then more else if greedy then more ++ [0] else 0 :: more

mutual

/-- The lengths (in characters) that an expression matches between `p` and `r`, in order of preference. -/
noncomputable def tries (T : Tables) : Node → Str → Str → List Nat
  | .eps, _, _ => [0]
  | .set P, _, r => open Classical in if ∃ c ∈ r.head?, P c then [1] else []
  | .look l, p, r => open Classical in if LookAt T l p r then [0] else []
  | .seq l, p, r => triesSeq T l p r
  | .alt l, p, r => triesAlt T l p r
  | .rep lo hi greedy n, p, r => repTries (fun p r => tries T n p r) greedy (lo + hi.getD 0 + r.length + 1) lo hi p r
  | .capture _ n, p, r => tries T n p r

/-- Of expressions one after another. -/
noncomputable def triesSeq (T : Tables) : List Node → Str → Str → List Nat
  | [], _, _ => [0]
  | n :: l, p, r => (tries T n p r).flatMap fun k => (triesSeq T l (p ++ r.take k) (r.drop k)).map (k + ·)

/-- Of alternatives. -/
noncomputable def triesAlt (T : Tables) : List Node → Str → Str → List Nat
  | [], _, _ => []
  | n :: l, p, r => tries T n p r ++ triesAlt T l p r

end

/-- Of the matches of the expression that start at byte `s` of the content, a backtracking search comes to the one that
ends at `e` first. -/
def Preferred (T : Tables) (n : Node) (c : Str) (s e : Nat) : Prop :=
  ∃ before rest k, c = before ++ rest ∧ blen before = s ∧ (tries T n before rest).head? = some k ∧
    e = s + blen (rest.take k)

/-- The engine that makes this choice. -/
noncomputable def firstTry (T : Tables) (n : Node) : Rx := fun c s =>
  match cut c s with
  | some (before, rest) => (tries T n before rest).head?.map fun k => s + blen (rest.take k)
  | none => none

end Sds.Spec
