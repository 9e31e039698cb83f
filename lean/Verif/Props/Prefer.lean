import Verif.Lemmas.Prefer
import Verif.Props.PatternScan

/-! # C79: a rule finds what a backtracking search of its pattern finds

C76 leaves open which of the matches at a position the engine chooses.  Here the engine is one that chooses as a
backtracking search of the expression it reads (the documented "leftmost-first" of the regex crate). -/

namespace Sds.Props
open Sds Sds.Spec Sds.Re

variable {T : Tables} {build : Str → Nat → Except RegexErr Rx}

theorem firstTry_iff {n : Node} {c : Str} {s e : Nat} : firstTry T n c s = some e ↔ Preferred T n c s e := by
  unfold firstTry Preferred
  constructor
  · intro h
    split at h
    · next before rest hc =>
      obtain ⟨k, hk, rfl⟩ := Option.map_eq_some_iff.1 h
      obtain ⟨h1, h2⟩ := cut_eq_some.1 hc
      exact ⟨before, rest, k, h1, h2, hk, rfl⟩
    · cases h
  · rintro ⟨before, rest, k, rfl, rfl, hk, rfl⟩
    rw [cut_append]
    simp [hk]

private theorem head_of_mem {l : List Nat} {k : Nat} (h : k ∈ l) : ∃ k', l.head? = some k' := by
  cases l with
  | nil => cases h
  | cons x l => exact ⟨x, rfl⟩

/-- C79, choice: what a backtracking search prefers is a match; there is at most one such match at a position, and there
is one as soon as the expression can match there at all. -/
theorem C79_preferred_match (T : Tables) (n : Node) (c : Str) (s : Nat) :
    (∀ e, Preferred T n c s e → MatchesAt T n c s e) ∧
    (∀ e e', Preferred T n c s e → Preferred T n c s e' → e = e') ∧
    ∀ e, MatchesAt T n c s e → ∃ e', Preferred T n c s e' := by
  refine ⟨?_, ?_, ?_⟩
  · rintro e ⟨before, rest, k, rfl, rfl, hk, rfl⟩
    obtain ⟨m, q, rfl, rfl, h⟩ := (tries_lists n before rest k).1 (List.mem_of_mem_head? hk)
    exact ⟨before, m, q, by simp, rfl, by simp, h⟩
  · intro e e' h h'
    rw [← firstTry_iff] at h h'
    rw [h] at h'
    exact Option.some.inj h'
  · rintro e ⟨before, m, q, rfl, rfl, rfl, h⟩
    obtain ⟨k, hk⟩ := head_of_mem ((tries_lists n before (m ++ q) m.length).2 ⟨m, q, rfl, rfl, h⟩)
    exact ⟨_, before, m ++ q, k, by simp, rfl, hk, rfl⟩

/-- Such an engine is one of those of C76. -/
theorem firstTry_chooses (T : Tables) : Chooses T (firstTry T) where
  sound n c s e h := (C79_preferred_match T n c s).1 e (firstTry_iff.1 h)
  complete n c s e h := by
    obtain ⟨e', h'⟩ := (C79_preferred_match T n c s).2.2 e h
    rw [firstTry_iff.2 h']
    simp
  bracketing n n' h := by
    funext c s
    unfold firstTry
    have : tries T n = tries T n' := by
      funext p r
      rw [tries_parts n, tries_parts n', show parts n = parts n' from h]
    rw [this]

/-- C79: with an engine that chooses as a backtracking search of the translated text, a rule finds exactly the matches
which a backtracking search of the pattern itself finds from left to right (each one starting at or after the end of the
one before), of those that pass the checks of the rule.  Missing: as in C76. -/
theorem C79_found_partial (hb : Builds T (firstTry T) build) {s : Str} {a : Ast} {r : RegexRule}
    (ha : Syntax.Denotes s a) (hc : Convertible a) (hn : NeverEmpty T (meaning T a noFlags).1)
    (h : validatePattern build matchesNothing s = .ok (.ok r.rx)) (hi : r.included = none)
    {kp : Bool} {c : Str} {path : Path} {fuel : Nat} {f : Found} (hf : stringMatches r kp false c path fuel = Res.ok f)
    (l : List (Nat × Nat)) :
    f.matches_ = l ↔ Leftmost (fun s e => Preferred T (meaning T a noFlags).1 c s e ∧
      (∀ v, r.validator = some v → ∃ m, TextAt c s e m ∧ v m = true) ∧
      ∀ x, r.excluded = some x → containsExcluded x.eqc x.keywords x.lookAhead c s = Res.ok false) 0 l := by
  obtain ⟨hrx, _⟩ := C76_regex_of_pattern_partial (firstTry_chooses T) hb ha hc h
  have hl : LawfulRx r.rx := hrx ▸ chooses_lawful (firstTry_chooses T) _
  have hne : NonEmptyRx r.rx := hrx ▸ chooses_nonEmpty (firstTry_chooses T) hn
  rw [← C20_leftmost hl hne hi hf l]
  have heq : Genuine r c = fun s e => Preferred T (meaning T a noFlags).1 c s e ∧
      (∀ v, r.validator = some v → ∃ m, TextAt c s e m ∧ v m = true) ∧
      ∀ x, r.excluded = some x → containsExcluded x.eqc x.keywords x.lookAhead c s = Res.ok false := by
    funext s e
    rw [Genuine, Accepted, hrx, firstTry_iff, and_assoc]
  rw [heq]

/-! ## What the preference says of the common operators -/

private theorem preferred_iff {n : Node} {before rest : Str} {e : Nat} :
    Preferred T n (before ++ rest) (blen before) e ↔
      ∃ k, (tries T n before rest).head? = some k ∧ e = blen before + blen (rest.take k) := by
  rw [← firstTry_iff]
  unfold firstTry
  rw [cut_append]
  rw [Option.map_eq_some_iff]
  exact ⟨fun ⟨k, h, h'⟩ => ⟨k, h, h'.symm⟩, fun ⟨k, h, h'⟩ => ⟨k, h, h'.symm⟩⟩

private theorem matchesAt_iff {n : Node} {before rest : Str} {e : Nat} :
    MatchesAt T n (before ++ rest) (blen before) e ↔
      ∃ k, k ∈ tries T n before rest ∧ e = blen before + blen (rest.take k) := by
  constructor
  · rintro ⟨p, m, q, h1, h2, rfl, h⟩
    have hc : cut (before ++ rest) (blen before) = some (before, rest) := cut_append ..
    have hc' : cut (p ++ (m ++ q)) (blen p) = some (p, m ++ q) := cut_append ..
    rw [← List.append_assoc, ← h1, h2, hc] at hc'
    obtain ⟨rfl, rfl⟩ := Prod.mk.inj (Option.some.inj hc')
    exact ⟨m.length, (tries_lists n before (m ++ q) m.length).2 ⟨m, q, rfl, rfl, h⟩, by simp⟩
  · rintro ⟨k, hk, rfl⟩
    obtain ⟨m, q, rfl, rfl, h⟩ := (tries_lists n before rest k).1 hk
    exact ⟨before, m, q, by simp, rfl, by simp, h⟩

/-- C79, alternatives: the first alternative that can match is the one that is chosen. -/
theorem C79_first_alternative (T : Tables) (n : Node) (l : List Node) (c : Str) (s e : Nat) :
    Preferred T (.alt (n :: l)) c s e ↔
      Preferred T n c s e ∨ (∀ e', ¬ MatchesAt T n c s e') ∧ Preferred T (.alt l) c s e := by
  by_cases hs : ∃ before rest, c = before ++ rest ∧ blen before = s
  · obtain ⟨before, rest, rfl, rfl⟩ := hs
    rw [preferred_iff, preferred_iff, preferred_iff]
    simp only [matchesAt_iff]
    rw [show tries T (.alt (n :: l)) before rest = tries T n before rest ++ tries T (.alt l) before rest by
      simp only [tries, triesAlt]]
    cases ht : tries T n before rest with
    | nil => simp
    | cons k l' =>
      simp only [List.cons_append, List.head?_cons]
      constructor
      · exact .inl
      · rintro (h | ⟨h, _⟩)
        · exact h
        · exact absurd ⟨k, by simp, rfl⟩ (h _)
  · have hno : ∀ n' e', ¬ Preferred T n' c s e' := by
      rintro n' e' ⟨b, r, _, h1, h2, _⟩
      exact hs ⟨b, r, h1, h2⟩
    simp [hno]

private theorem repTries_order {f : Str → Str → List Nat} (hf : ∀ p r, f p r = [1] ∨ f p r = []) (greedy : Bool) :
    ∀ fuel lo hi p r, (repTries f greedy fuel lo hi p r).Pairwise fun a b => if greedy then b < a else a < b := by
  intro fuel
  induction fuel with
  | zero => intros; simp [repTries]
  | succ fuel ih =>
    intro lo hi p r
    obtain ⟨l, hl, hm⟩ : ∃ l : List Nat, (l.Pairwise fun a b => if greedy then b < a else a < b) ∧
        (if hi = some 0 then [] else (f p r).flatMap fun k =>
          if k = 0 ∧ lo = 0 ∧ hi = none then [0]
          else (repTries f greedy fuel (lo - 1) (hi.map (· - 1)) (p ++ r.take k) (r.drop k)).map (k + ·)) =
        l.map (1 + ·) := by
      by_cases h0 : hi = some 0
      · exact ⟨[], .nil, by rw [if_pos h0]; rfl⟩
      · rw [if_neg h0]
        rcases hf p r with h | h
        · exact ⟨_, ih (lo - 1) (hi.map (· - 1)) (p ++ r.take 1) (r.drop 1), by rw [h]; simp⟩
        · exact ⟨[], .nil, by rw [h]; rfl⟩
    have hmore : (l.map (1 + ·)).Pairwise fun a b => if greedy then b < a else a < b := by
      rw [List.pairwise_map]
      refine hl.imp ?_
      intro a b
      cases greedy <;> simp
    unfold repTries
    simp only [hm]
    by_cases hlo : 0 < lo
    · rw [if_pos hlo]; exact hmore
    · rw [if_neg hlo]
      cases greedy with
      | true =>
        simp only [if_true] at hmore ⊢
        rw [List.pairwise_append]
        exact ⟨hmore, by simp, by simp; omega⟩
      | false =>
        simp only [Bool.false_eq_true, if_false] at hmore ⊢
        rw [List.pairwise_cons]
        exact ⟨by simp; omega, hmore⟩

private theorem blen_take_mono (r : Str) {k k' : Nat} (h : k ≤ k') : blen (r.take k) ≤ blen (r.take k') := by
  have : r.take k' = r.take k ++ (r.take k').drop k := by
    conv => lhs; rw [← List.take_append_drop k (r.take k')]
    rw [List.take_take, Nat.min_eq_left h]
  rw [this]
  simp

/-- C79, repetitions: of the ways to repeat a character of a set, a greedy repetition takes the longest and a lazy one the
shortest. -/
theorem C79_longest_shortest (T : Tables) (P : Char → Prop) (lo : Nat) (hi : Option Nat) (greedy : Bool) (c : Str)
    (s e e' : Nat) (h : Preferred T (.rep lo hi greedy (.set P)) c s e)
    (h' : MatchesAt T (.rep lo hi greedy (.set P)) c s e') : if greedy then e' ≤ e else e ≤ e' := by
  obtain ⟨before, rest, _, rfl, rfl, _⟩ := id h
  rw [preferred_iff] at h
  rw [matchesAt_iff] at h'
  obtain ⟨k, hk, rfl⟩ := h
  obtain ⟨k', hk', rfl⟩ := h'
  have hord : (tries T (.rep lo hi greedy (.set P)) before rest).Pairwise fun a b => if greedy then b < a else a < b := by
    rw [tries]
    refine repTries_order ?_ _ _ _ _ _ _
    intro p r
    rw [tries]
    split <;> simp
  have hle : if greedy then k' ≤ k else k ≤ k' := by
    cases hl : tries T (.rep lo hi greedy (.set P)) before rest with
    | nil => rw [hl] at hk; cases hk
    | cons x l =>
      rw [hl] at hk hk' hord
      obtain rfl : x = k := Option.some.inj hk
      rw [List.pairwise_cons] at hord
      rcases List.mem_cons.1 hk' with rfl | hm
      · cases greedy <;> simp
      · have := hord.1 k' hm
        cases greedy with
        | true => rw [if_pos rfl] at this ⊢; exact Nat.le_of_lt this
        | false => rw [if_neg (by simp)] at this ⊢; exact Nat.le_of_lt this
  cases greedy with
  | true => simp only [if_true] at hle ⊢; exact Nat.add_le_add_left (blen_take_mono rest hle) _
  | false => simp only [Bool.false_eq_true, if_false] at hle ⊢; exact Nat.add_le_add_left (blen_take_mono rest hle) _

/-! ## The hypotheses can be met -/

private theorem set_bd (T : Tables) (c : Char) :
    classSet T noFlags (.bracket false [.range 'b' 'd']) c ↔ between 'b' 'd' c := by
  simp [classSet, signed, itemSet, near, noFlags]

/-- `a[b-d]+` prefers all of `acb` to `ac`. -/
theorem rangePattern_preferred (T : Tables) : Preferred T (meaning T rangePattern noFlags).1 "x acb".toList 2 5 := by
  refine ⟨"x ".toList, "acb".toList, 3, rfl, rfl, ?_, rfl⟩
  rw [rangePattern_meaning]
  have hc : between 'b' 'd' 'c' := by unfold between; decide
  have hb : between 'b' 'd' 'b' := by unfold between; decide
  simp [tries, triesSeq, repTries, set_bd, hc, hb, near]

private theorem rangePattern_not_preferred (T : Tables) :
    MatchesAt T (meaning T rangePattern noFlags).1 "x acb".toList 2 4 ∧
    ¬ Preferred T (meaning T rangePattern noFlags).1 "x acb".toList 2 4 := by
  constructor
  · refine ⟨"x ".toList, "ac".toList, "b".toList, rfl, rfl, rfl, ?_⟩
    rw [rangePattern_meaning]
    refine Spans.seqCons (m := ['a']) (m' := ['c']) (.set (by simp [near])) ?_
    refine Spans.seqCons (m := ['c']) (m' := []) ?_ .seqNil
    refine Spans.repSucc (m := ['c']) (m' := []) (by simp) (.set ?_) .repZero
    rw [set_bd]; unfold between; decide
  · intro h
    have := (C79_preferred_match T _ _ _).2.1 _ _ h (rangePattern_preferred T)
    omega

private noncomputable def exPreferRule (T : Tables) : RegexRule :=
  ⟨firstTry T (meaning T rangePattern noFlags).1, none, none, none⟩

/-- All hypotheses of `C79_found_partial` are met by the pattern `a[b-d]+`, which finds all of `acb` and not the shorter
match `ac`. -/
example (T : Tables) : Builds T (firstTry T) (buildOf T (firstTry T)) ∧ Syntax.Denotes "a[b-d]+".toList rangePattern ∧
    Convertible rangePattern ∧ NeverEmpty T (meaning T rangePattern noFlags).1 ∧
    validatePattern (buildOf T (firstTry T)) matchesNothing "a[b-d]+".toList = .ok (.ok (exPreferRule T).rx) ∧
    (exPreferRule T).included = none ∧
    (∃ f, stringMatches (exPreferRule T) false false "x acb".toList [] 6 = Res.ok f) ∧
    Preferred T (meaning T rangePattern noFlags).1 "x acb".toList 2 5 ∧
    MatchesAt T (meaning T rangePattern noFlags).1 "x acb".toList 2 4 ∧
    ¬ Preferred T (meaning T rangePattern noFlags).1 "x acb".toList 2 4 := by
  have hl := chooses_lawful (firstTry_chooses T) (meaning T rangePattern noFlags).1
  have hne := chooses_nonEmpty (firstTry_chooses T) (rangePattern_neverEmpty T)
  exact ⟨buildOf_builds T _, rangePattern_denotes, rangePattern_convertible, rangePattern_neverEmpty T,
    rangePattern_accepted (firstTry_chooses T), rfl,
    stringMatches_returns (r := exPreferRule T) hl hne (by intro k hk; cases hk) false false
        (by intro _ x hx; cases hx) [] (by decide),
    rangePattern_preferred T, rangePattern_not_preferred T⟩

end Sds.Props
