import Verif.Lemmas.Partial
import Verif.Props.Keywords

/-! # C19-C24: searching one string with a rule -/

namespace Sds.Props
open Sds Spec

/-! Regexes for the examples: `\d+`, and `\b`. -/

def digitsRx : Rx := fun c p =>
  match cut c p with
  | none => none
  | some (_, b) => if b.takeWhile Char.isDigit = [] then none else some (p + blen (b.takeWhile Char.isDigit))

theorem digitsRx_ok : LawfulRx digitsRx ∧ NonEmptyRx digitsRx := by
  have key : ∀ c p e, digitsRx c p = some e → p < e ∧ OnBoundary c p ∧ OnBoundary c e := by
    intro c p e h
    unfold digitsRx at h
    split at h
    · cases h
    · next a b hc =>
      obtain ⟨rfl, rfl⟩ := cut_eq_some.1 hc
      split at h
      · cases h
      · next hne =>
        simp only [Option.some.injEq] at h
        subst h
        have := blen_pos hne
        refine ⟨by omega, ⟨a, b, rfl, rfl⟩, a ++ b.takeWhile Char.isDigit, b.dropWhile Char.isDigit, ?_, by simp⟩
        rw [List.append_assoc, List.takeWhile_append_dropWhile]
  exact ⟨fun c p e h => by have := key c p e h; exact ⟨by omega, this.2⟩, fun c p e h => (key c p e h).1⟩

def wordRx : Rx := fun c p =>
  match cut c p with
  | none => none
  | some (a, b) => if wordBoundary a b then some p else none

private def same (k c : Char) : Bool := k == c

/-- A rule for digits that ignores numbers of one digit and those after the keyword `no`. -/
private def exRule : RegexRule :=
  ⟨digitsRx, some fun t => decide (1 < t.length), none, some ⟨same, 5, ["no".toList]⟩⟩

/-! ## C19 -/

/-- C19, regex and validator: whenever the search of a rule without required keywords returns, every emitted
match is a match of the regex at this position of this string and its text is accepted by the validator. -/
theorem C19_regex_and_validator {r : RegexRule} (hl : LawfulRx r.rx) (hi : r.included = none) {kp ex : Bool} {c : Str}
    {path : Path} {fuel : Nat} {f : Found} (h : stringMatches r kp ex c path fuel = Res.ok f) :
    ∀ m ∈ f.matches_, r.rx c m.1 = some m.2 ∧
      ∀ v, r.validator = some v → ∃ t, TextAt c m.1 m.2 t ∧ v t = true := by
  unfold stringMatches at h
  rw [hi] at h
  intro m hm
  exact (collectTp_sound hl fuel 0 f (Nat.zero_le _) h m hm).1.1

/-- C19, excluded keywords: the emitted match starts with `x`, `w` is the look-ahead window in front of it and
`u` is the text before the window.  No excluded keyword occurs in the window.  Missing: matches beginning with
`-` or `_` and windows after such a character, as in C26, where the claim fails (`C19_keyword_missed`). -/
theorem C19_no_excluded_keyword_partial {r : RegexRule} (hl : LawfulRx r.rx) (hi : r.included = none) {kp ex : Bool}
    {path : Path} {fuel : Nat} {f : Found} {k : ExcKw} (hk : r.excluded = some k) (hf : AsciiFold k.eqc)
    {u w post : Str} {x : Char} (h : stringMatches r kp ex (u ++ w ++ x :: post) path fuel = Res.ok f)
    (hw : w.length ≤ k.lookAhead) (hu : w.length < k.lookAhead → u = [])
    (hx : x ≠ '-' ∧ x ≠ '_') (hc : ∀ c, u.getLast? = some c → c ≠ '-' ∧ c ≠ '_') :
    ∀ m ∈ f.matches_, m.1 = blen (u ++ w) →
      ¬ InFront k.eqc k.keywords k.lookAhead (u ++ w ++ x :: post) m.1 := by
  unfold stringMatches at h
  rw [hi] at h
  intro m hm heq hfront
  have h1 := (collectTp_sound hl fuel 0 f (Nat.zero_le _) h m hm).1.2 rfl k hk
  obtain ⟨b, h2, h3⟩ := C26_veto_partial hf k.keywords k.lookAhead u w x post hw hu hx hc
  rw [heq] at h1 hfront
  rw [h1] at h2
  simp only [Res.ok.injEq] at h2
  subst h2
  exact absurd (h3.2 hfront) (by simp)

/-- C19, finding: a match is emitted although the excluded keyword `id` is directly in front of it. -/
theorem C19_keyword_missed : ∃ (r : RegexRule) (k : ExcKw) (c : Str) (m : Nat × Nat), r.excluded = some k ∧
    stringMatches r false false c [] 10 = Res.ok ⟨[m], []⟩ ∧
    InFront k.eqc k.keywords k.lookAhead c m.1 :=
  ⟨⟨fun c p => if c = "id- 5".toList ∧ p = 2 then some 5 else none, none, none,
      some ⟨fun k c => asciiLower k == asciiLower c, 5, ["id".toList]⟩⟩, _, "id- 5".toList, (2, 5), rfl, by decide,
    C26_keyword_missed.1⟩

example : LawfulRx exRule.rx ∧ exRule.excluded = some ⟨same, 5, ["no".toList]⟩ ∧
    stringMatches exRule false false ("a 55 xx".toList ++ " 55 n".toList ++ '6' :: "6 7".toList) [] 30 =
      Res.ok ⟨[(2, 4), (8, 10), (12, 14)], []⟩ := ⟨digitsRx_ok.1, rfl, by decide⟩

/-! ## C20 -/

/-- C20: whenever the search of a rule without required keywords returns, the emitted matches are ordered and
do not overlap, and every position `p` where the regex matches and the match passes the checks is the start of
an emitted match or lies inside one. -/
theorem C20_nothing_missed {r : RegexRule} (hl : LawfulRx r.rx) (hne : NonEmptyRx r.rx) (hi : r.included = none)
    {kp : Bool} {c : Str} {path : Path} {fuel : Nat} {f : Found}
    (h : stringMatches r kp false c path fuel = Res.ok f) :
    f.matches_.Pairwise (fun a b => a.1 < a.2 ∧ a.2 ≤ b.1) ∧
    ∀ p e, Genuine r c p e → ∃ m ∈ f.matches_, m.1 ≤ p ∧ p < m.2 ∧ (p = m.1 → e = m.2) := by
  unfold stringMatches at h
  rw [hi] at h
  obtain ⟨l, h1, h2⟩ := collectTp_ok hl hne fuel 0 f (Nat.zero_le _) h
  rcases h2 with ⟨_, rfl, _⟩ | ⟨h2, _⟩
  · have hmem := leftmost_mem h1
    constructor
    · have := leftmost_pairwise (fun s e hw => (hl c s e hw.1.1).1) h1
      refine List.Pairwise.imp_of_mem (fun {a b} ha _ hab => ?_) this
      exact ⟨hne c _ _ (hmem a ha).1.1, hab⟩
    · intro p e hg
      obtain ⟨m, hm, h3, h4⟩ := leftmost_cover h1 p e (Nat.zero_le _) ⟨hg.1, fun _ => hg.2⟩
      have := hne c _ _ (hmem m hm).1.1
      refine ⟨m, hm, h3, by omega, fun heq => ?_⟩
      have h5 := hg.1.1
      rw [heq, (hmem m hm).1.1] at h5
      exact (Option.some.inj h5).symm
  · cases h2

/-- C20, as a refinement: the emitted matches are exactly those of the leftmost search. -/
theorem C20_leftmost {r : RegexRule} (hl : LawfulRx r.rx) (hne : NonEmptyRx r.rx) (hi : r.included = none)
    {kp : Bool} {c : Str} {path : Path} {fuel : Nat} {f : Found}
    (h : stringMatches r kp false c path fuel = Res.ok f) (l : List (Nat × Nat)) :
    Leftmost (Genuine r c) 0 l ↔ f.matches_ = l := by
  have hw : Wanted r true c = Genuine r c := by
    funext s e; simp [Wanted, Genuine]
  unfold stringMatches at h
  rw [hi] at h
  obtain ⟨l', h1, h2⟩ := collectTp_ok hl hne fuel 0 f (Nat.zero_le _) h
  rcases h2 with ⟨_, rfl, _⟩ | ⟨h2, _⟩
  · rw [hw] at h1
    constructor
    · intro h'
      exact leftmost_unique (fun s e e' a b => by
        have h5 := a.1.1
        rw [b.1.1] at h5
        exact (Option.some.inj h5).symm) h1 h'
    · rintro rfl; exact h1
  · cases h2

/-- The hypotheses are met by the example rule: of the numbers 55, 66, 7 and 88 the second one is vetoed by a
keyword - but its suffix `6` is not accepted by the validator - and the third one is too short. -/
example : LawfulRx exRule.rx ∧ NonEmptyRx exRule.rx ∧
    stringMatches exRule false false "a 55 no 66 7 xxxx 88".toList [] 30 = Res.ok ⟨[(2, 4), (18, 20)], []⟩ :=
  ⟨digitsRx_ok.1, digitsRx_ok.2, by decide⟩

/-! ## C21 -/

/-- C21: the search in a string terminates - a number of steps bounded by the length of the content is
enough - if the regex has no empty match, for rules with or without keywords, in scanned and in excluded
fields.  Missing: the acceptance check only ensures that the regex does not match the empty string, and then
the search may run forever (`C21_hangs`). -/
theorem C21_terminates_partial {r : RegexRule} (hl : LawfulRx r.rx) (hne : NonEmptyRx r.rx)
    (hk : ∀ k, r.included = some k → 0 < k.lookAhead ∧ ∃ occ, LawfulKw k occ)
    (kp ex : Bool) (c : Str) (path : Path) (fuel : Nat) (hf : blen c < fuel) :
    stringMatches r kp ex c path fuel ≠ Res.hang := by
  unfold stringMatches
  have hcol : ∀ check, collectTp r check ex c fuel fuel 0 ≠ Res.hang := fun check =>
    collectTp_terminates hl hne hf fuel 0 (onBoundary_zero c) (by omega)
  cases hi : r.included with
  | none => exact hcol true
  | some k =>
    simp only
    obtain ⟨hla, occ, hkw⟩ := hk k hi
    have hout : ∃ f, outerLoop r k ex c fuel fuel 0 = Res.ok f := by
      cases ex with
      | false =>
        obtain ⟨l, h, _⟩ := outerLoop_spec hl hne hla hkw hf fuel 0 (Nat.zero_le _) (by omega)
        exact ⟨_, h⟩
      | true =>
        obtain ⟨ts, h, _⟩ := outerLoop_excluded hl hne hkw hf (fuel := fuel) (by omega)
        exact ⟨_, h⟩
    obtain ⟨f, hout⟩ := hout
    unfold withIncluded
    rw [hout]
    simp only
    split
    · have hpp : pathPart r k ex c path fuel ≠ Res.hang := by
        unfold pathPart
        split
        · simp
        · next h =>
          unfold searchFrom at h
          split at h <;> cases h
        · simp
        · split
          · exact hcol false
          · simp
      split
      · simp
      · simp
      · next h => exact absurd h hpp
    · simp

/-- C21, finding: `\b` does not match the empty string, so the rule is accepted, but the search in `a` does
not end, however many steps are taken: the empty match at 0 is found again and again. -/
theorem C21_hangs : wordRx [] 0 = none ∧
    ∀ fuel, stringMatches ⟨wordRx, none, none, none⟩ false false "a".toList [] fuel = Res.hang := by
  refine ⟨by decide, fun fuel => ?_⟩
  have h : ∀ fuelIn fuel, collectTp ⟨wordRx, none, none, none⟩ true false "a".toList fuelIn fuel 0 = Res.hang := by
    intro fuelIn fuel
    induction fuel with
    | zero => rfl
    | succ fuel ih =>
      cases fuelIn with
      | zero => rfl
      | succ n =>
        have : nextTp ⟨wordRx, none, none, none⟩ true false "a".toList (n + 1) 0 = Res.ok ⟨some (0, 0), 0, []⟩ := by
          have hs : searchFrom wordRx ['a'] 0 = Res.ok (some (0, 0)) := by decide
          simp [nextTp, hs, isFalsePositive, vetoed, rejected]
        unfold collectTp
        rw [this]
        simp only [ih]
  exact h fuel fuel

/-! ## C23 -/

private def exKw : IncKw := ⟨6, leftmostKw same ["id".toList], fun t => t == "id".toList⟩
private def exIncluded : RegexRule := ⟨digitsRx, none, some exKw, none⟩

/-- C23: the search of a rule with required keywords returns, and every emitted match is a match of the regex
accepted by the validator that starts at or after the start of a keyword with at most `lookAhead` characters
in between - or path matching is enabled and the path of the field contains a keyword. -/
theorem C23_near_keyword {r : RegexRule} (hl : LawfulRx r.rx) (hne : NonEmptyRx r.rx) {k : IncKw}
    (hi : r.included = some k) (hla : 0 < k.lookAhead) {occ : Str → Nat → Nat → Prop} (hk : LawfulKw k occ)
    (kp : Bool) (c : Str) (path : Path) (fuel : Nat) (hf : blen c < fuel) :
    ∃ f, stringMatches r kp false c path fuel = Res.ok f ∧ ∀ m ∈ f.matches_, Accepted r c m.1 m.2 ∧
      ((∃ ks ke, occ c ks ke ∧ Within c ks m.1 k.lookAhead) ∨ (kp = true ∧ k.inPath (sanitizePath path) = true)) := by
  obtain ⟨l, h, h2, _⟩ := outerLoop_spec hl hne hla hk hf fuel 0 (Nat.zero_le _) (by omega)
  unfold stringMatches
  rw [hi]
  simp only
  unfold withIncluded
  rw [h]
  simp only
  have hemit : ∀ m ∈ l, Accepted r c m.1 m.2 ∧
      ((∃ ks ke, occ c ks ke ∧ Within c ks m.1 k.lookAhead) ∨ (kp = true ∧ k.inPath (sanitizePath path) = true)) :=
    fun m hm => ⟨(h2 m hm).1, Or.inl (h2 m hm).2⟩
  cases kp with
  | false => exact ⟨_, rfl, hemit⟩
  | true =>
    simp only [if_true]
    unfold pathPart
    rcases searchFrom_spec hl (Nat.zero_le (blen c)) with ⟨h3, _⟩ | ⟨s, e, h3, _⟩
    · rw [h3]
      exact ⟨_, rfl, by simpa using hemit⟩
    · rw [h3]
      simp only
      by_cases hp : k.inPath (sanitizePath path) = true
      · rw [if_pos hp]
        obtain ⟨l', h4, h5⟩ := collectTp_spec hl hne (check := false) (c := c) (by simp [SafeIf]) hf fuel 0
          (onBoundary_zero c) (by omega)
        rw [h4]
        refine ⟨_, rfl, fun m hm => ?_⟩
        rcases List.mem_append.1 hm with hm | hm
        · simpa using hemit m hm
        · exact ⟨(leftmost_mem h5 m hm).1, Or.inr ⟨trivial, hp⟩⟩
      · rw [if_neg hp]
        exact ⟨_, rfl, by simpa using hemit⟩

example : LawfulKw exKw (fun c s e => ∃ kw ∈ ["id".toList], kwMatchAt same kw c s = some e) ∧
    LawfulRx exIncluded.rx ∧ NonEmptyRx exIncluded.rx ∧
    stringMatches exIncluded false false "1 id 55 or 66 id: 7 8".toList [] 40 = Res.ok ⟨[(5, 7), (18, 19), (20, 21)], []⟩ ∧
    stringMatches exIncluded true false "1".toList [.field "id".toList] 40 = Res.ok ⟨[(0, 1)], []⟩ :=
  ⟨leftmostKw_lawful _ _ (by simp) _ _, digitsRx_ok.1, digitsRx_ok.2, by decide, by decide⟩

/-! ## C24 -/

/-- C24: let a keyword occur at `s..e` and let `p..q` be the first accepted match at or after the keyword; no
match starts between the start of the keyword and `p`, and `p` is within the look-ahead window.  Then the match
is emitted, unless both the keyword and the match start inside an emitted match.  Missing: in the latter case
the match need not be emitted itself (`C24_not_emitted`). -/
theorem C24_skip_ahead_partial {r : RegexRule} (hl : LawfulRx r.rx) (hne : NonEmptyRx r.rx) {k : IncKw}
    (hi : r.included = some k) (hla : 0 < k.lookAhead) {occ : Str → Nat → Nat → Prop} (hk : LawfulKw k occ)
    (kp : Bool) (c : Str) (path : Path) (fuel : Nat) (hf : blen c < fuel) :
    ∃ f, stringMatches r kp false c path fuel = Res.ok f ∧
      ∀ s e p q, occ c s e → e ≤ p → Accepted r c p q → (∀ p' q', s ≤ p' → p' < p → ¬ Accepted r c p' q') →
        Within c s p k.lookAhead → (p, q) ∈ f.matches_ ∨ ∃ m ∈ f.matches_, m.1 < s ∧ p < m.2 := by
  obtain ⟨l, h, _, h2⟩ := outerLoop_spec hl hne hla hk hf fuel 0 (Nat.zero_le _) (by omega)
  obtain ⟨f, hf', _⟩ := C23_near_keyword hl hne hi hla hk kp c path fuel hf
  refine ⟨f, hf', ?_⟩
  have hsub : ∀ m ∈ l, m ∈ f.matches_ := by
    unfold stringMatches at hf'
    rw [hi] at hf'
    simp only at hf'
    unfold withIncluded at hf'
    rw [h] at hf'
    simp only at hf'
    split at hf'
    · split at hf'
      · simp only [Res.ok.injEq] at hf'
        subst hf'
        intro m hm; simp [hm]
      · cases hf'
      · cases hf'
    · simp only [Res.ok.injEq] at hf'
      subst hf'
      exact fun m hm => hm
  intro s e p q ho hep hp hfirst hwin
  rcases h2 s e p q ho (Nat.zero_le _) hep hp hfirst hwin with h | ⟨m, hm, h⟩
  · exact Or.inl (hsub _ h)
  · exact Or.inr ⟨m, hsub _ hm, h⟩

/-- The hypotheses are met: see the example at C23; here the second keyword is skipped (the search for
keywords resumes at the start of the emitted match) and nothing is lost. -/
example : kwMatchAt same "id".toList "id id 5 id".toList 3 = some 5 ∧ digitsRx "id id 5 id".toList 6 = some 7 ∧
    stringMatches exIncluded false false "id id 5 id".toList [] 40 = Res.ok ⟨[(6, 7)], []⟩ := by decide

/-- Regex `x id \d|\d` on the content of the finding below. -/
private def insideRx : Rx := fun c p =>
  if c = "id x id 5".toList ∧ p = 3 then some 9
  else if c = "id x id 5".toList ∧ p = 8 then some 9
  else none

/-- C24, finding: the keyword at 5 and the first match after it (8..9) lie inside the match 3..9, which is
emitted for the keyword at 0; 8..9 is not emitted. -/
theorem C24_not_emitted :
    kwMatchAt same "id".toList "id x id 5".toList 5 = some 7 ∧
    insideRx "id x id 5".toList 8 = some 9 ∧
    (∀ p' q', 5 ≤ p' → p' < 8 → insideRx "id x id 5".toList p' ≠ some q') ∧
    stringMatches ⟨insideRx, none, some exKw, none⟩ false false "id x id 5".toList [] 40 = Res.ok ⟨[(3, 9)], []⟩ := by
  refine ⟨by decide, by decide, ?_, by decide⟩
  intro p' q' h1 h2 h3
  have : p' = 5 ∨ p' = 6 ∨ p' = 7 := by omega
  rcases this with rfl | rfl | rfl <;> simp [insideRx] at h3

end Sds.Props
