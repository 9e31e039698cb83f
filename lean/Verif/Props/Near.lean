import Verif.Lemmas.Near
import Verif.Lemmas.RegexRule
import Verif.Props.Search

/-! # C85: required keywords select among the matches -/

namespace Sds.Props
open Sds Spec

/-- C85: if no keyword overlaps a match, a rule with required keywords finds exactly those matches among the ones it would find
without keywords that `Near` selects, in the same order - followed by all of them if the path has a keyword. -/
theorem C85_required_keywords {r : RegexRule} (hl : LawfulRx r.rx) (hne : NonEmptyRx r.rx) {k : IncKw}
    (hi : r.included = some k) (hla : 0 < k.lookAhead) {occ : Str → Nat → Nat → Prop} (hk : LawfulKw k occ)
    (kp : Bool) {c : Str} (hap : Apart r occ c) (path : Path) {fuel : Nat} (hf : blen c < fuel) :
    ∃ l out, stringMatches { r with included := none, excluded := none } kp false c path fuel = Res.ok ⟨l, []⟩ ∧
      Leftmost (Accepted r c) 0 l ∧ Near (occ c) (fun s p => Within c s p k.lookAhead) 0 l out ∧
      stringMatches r kp false c path fuel =
        Res.ok ⟨out ++ if kp = true ∧ k.inPath (sanitizePath path) = true then l else [], []⟩ := by
  have hw : ∀ b, Wanted { r with included := none, excluded := none } b c = Accepted r c := by
    intro b; funext s e; simp [Wanted, Accepted]
  have hw' : Wanted r false c = Accepted r c := by
    funext s e; simp [Wanted]
  obtain ⟨l, h1, h2⟩ := collectTp_spec (r := { r with included := none, excluded := none }) hl hne (check := true) (c := c)
    (by intro _ x hx; cases hx) hf fuel 0 (onBoundary_zero c) (by omega)
  rw [hw] at h2
  obtain ⟨out, h3, h4⟩ := outerLoop_near hl hne hla hk hap hf fuel 0 (Nat.zero_le _) (by omega) 0 l h2 (fun s _ _ _ => Nat.zero_le s)
  refine ⟨l, out, by unfold stringMatches; exact h1, h2, h4, ?_⟩
  unfold stringMatches
  rw [hi]
  simp only
  unfold withIncluded
  rw [h3]
  simp only
  cases kp with
  | false => simp
  | true =>
    simp only [if_true]
    unfold pathPart
    rcases searchFrom_spec hl (Nat.zero_le (blen c)) with ⟨h5, h6⟩ | ⟨s, e, h5, _⟩
    · rw [h5]
      have : l = [] := by
        cases l with
        | nil => rfl
        | cons m l =>
          have := (leftmost_mem h2 m List.mem_cons_self).1
          rw [h6 m.1 (Nat.zero_le _)] at this
          cases this
      subst this
      simp
    · rw [h5]
      simp only
      by_cases hp : k.inPath (sanitizePath path) = true
      · rw [if_pos hp]
        obtain ⟨l', h7, h8⟩ := collectTp_spec hl hne (check := false) (c := c) (by simp [SafeIf]) hf fuel 0
          (onBoundary_zero c) (by omega)
        rw [hw'] at h8
        have : l = l' := leftmost_unique (fun s e e' h h' => by
          have := h.1.symm.trans h'.1
          exact Option.some.inj this) h2 h8
        subst this
        rw [h7]
        simp [hp]
      · rw [if_neg hp]
        simp [hp]

/-- C85: what `Near` selects is in the same order, is in the window of a keyword, and lacks a match in the window of a keyword
only if it has a match that starts between this keyword and the match.  Missing: that it then has the match as well
(`C85_keyword_lost`). -/
theorem C85_selected_partial {r : RegexRule} (hl : LawfulRx r.rx) (hne : NonEmptyRx r.rx) {c : Str}
    {occ : Str → Nat → Nat → Prop} {n : Nat} {l out : List (Nat × Nat)} (hm : Leftmost (Accepted r c) 0 l)
    (h : Near (occ c) (fun s p => Within c s p n) 0 l out) :
    out.Sublist l ∧ (∀ m ∈ out, ∃ s e, occ c s e ∧ Within c s m.1 n) ∧
    ∀ m ∈ l, ∀ s e, occ c s e → Within c s m.1 n → m ∈ out ∨ ∃ m' ∈ out, s < m'.1 ∧ m'.1 < m.1 := by
  refine ⟨near_sublist h, near_sound h, fun m hmem s e ho hw => near_complete h ?_ m hmem s e ho (Nat.zero_le _) hw⟩
  have hlt : ∀ x ∈ l, x.1 < x.2 := fun x hx => hne _ _ _ (leftmost_mem hm x hx).1
  refine List.Pairwise.imp_of_mem ?_ (leftmost_pairwise (fun s e h => (hl c s e h.1).1) hm)
  intro a b ha _ hab
  have := hlt a ha
  omega

/-- C85: if no keyword lies inside another one, `Near` determines what is found. -/
theorem C85_determined {kw win : Nat → Nat → Prop} (hkw : ∀ s e s' e', kw s e → kw s' e' → e ≤ e' → s ≤ s') {start : Nat}
    {l out out' : List (Nat × Nat)} (h : Near kw win start l out) (h' : Near kw win start l out') : out = out' :=
  near_unique hkw h h'

/-- C85, excluded fields: with required keywords, the texts recorded in an excluded field are those of all matches from the first
keyword on, in its window or not - and, if the path has a keyword, those of all matches. -/
theorem C85_recorded {r : RegexRule} (hl : LawfulRx r.rx) (hne : NonEmptyRx r.rx) {k : IncKw}
    (hi : r.included = some k) {occ : Str → Nat → Nat → Prop} (hk : LawfulKw k occ)
    (kp : Bool) {c : Str} (path : Path) {fuel : Nat} (hf : blen c < fuel) :
    ∃ g all, stringMatches r kp true c path fuel = Res.ok g ∧ g.matches_ = [] ∧ Leftmost (Accepted r c) 0 all ∧
      ((∀ s e, ¬ occ c s e) ∧ (∀ t, t ∈ g.inserted ↔ kp = true ∧ k.inPath (sanitizePath path) = true ∧
          ∃ m ∈ all, TextAt c m.1 m.2 t) ∨
       ∃ s e l, occ c s e ∧ (∀ s' e', occ c s' e' → s ≤ s' ∨ e ≤ e') ∧ Leftmost (Accepted r c) s l ∧
        ∀ t, t ∈ g.inserted ↔ (∃ m ∈ l, TextAt c m.1 m.2 t) ∨
          kp = true ∧ k.inPath (sanitizePath path) = true ∧ ∃ m ∈ all, TextAt c m.1 m.2 t) := by
  have hw : Wanted r false c = Accepted r c := by
    funext s e; simp [Wanted]
  obtain ⟨ts, h1, h2⟩ := outerLoop_excluded hl hne hk (c := c) hf (fuel := fuel) (by omega)
  obtain ⟨us, all, h3, h4, h5⟩ := collectTp_excluded hl hne (check := false) (c := c) (by simp [SafeIf]) (fuelIn := fuel)
    (fuel := fuel) (onBoundary_zero c) (by omega) (by omega)
  rw [hw] at h4
  -- the part for keywords in the path
  obtain ⟨vs, h6, h7⟩ : ∃ vs, (if kp = true then pathPart r k true c path fuel else Res.ok ⟨[], []⟩) = Res.ok ⟨[], vs⟩ ∧
      ∀ t, t ∈ vs ↔ kp = true ∧ k.inPath (sanitizePath path) = true ∧ ∃ m ∈ all, TextAt c m.1 m.2 t := by
    cases kp with
    | false => exact ⟨[], rfl, by simp⟩
    | true =>
      simp only [if_true]
      unfold pathPart
      rcases searchFrom_spec hl (Nat.zero_le (blen c)) with ⟨h8, h9⟩ | ⟨s, e, h8, _⟩
      · rw [h8]
        refine ⟨[], rfl, fun t => ?_⟩
        simp only [List.not_mem_nil, false_iff]
        rintro ⟨_, _, m, hm, _⟩
        have := (leftmost_mem h4 m hm).1
        rw [h9 m.1 (Nat.zero_le _)] at this
        cases this
      · rw [h8]
        simp only
        by_cases hp : k.inPath (sanitizePath path) = true
        · rw [if_pos hp, h3]
          exact ⟨us, rfl, fun t => by rw [texts_mem h5]; simp [hp]⟩
        · rw [if_neg hp]
          exact ⟨[], rfl, by simp [hp]⟩
  refine ⟨⟨[], ts ++ vs⟩, all, ?_, rfl, h4, ?_⟩
  · unfold stringMatches
    rw [hi]
    simp only
    unfold withIncluded
    rw [h1]
    simp only
    cases kp with
    | false => simp only [Bool.false_eq_true, if_false, Res.ok.injEq, Found.mk.injEq, true_and] at h6 ⊢; rw [← h6]; simp
    | true => simp only [if_true] at h6 ⊢; rw [h6]; simp
  · rcases h2 with ⟨rfl, h8⟩ | ⟨s, e, l, h8, h9, h10, h11⟩
    · exact Or.inl ⟨h8, by simpa using h7⟩
    · refine Or.inr ⟨s, e, l, h8, h9, h10, fun t => ?_⟩
      simp only [List.mem_append, h7, texts_mem h11]

/-! ## Examples and findings -/

private def same : Char → Char → Bool := fun a b => a == b

private def exKw : IncKw := ⟨6, leftmostKw same ["id".toList], fun t => t == "id".toList⟩

private def exRule : RegexRule := ⟨digitsRx, none, some exKw, none⟩

/-- C85, finding: 77 is in the window of the second keyword (at 3, with five characters in between; the look-ahead count is 6),
but it is not found: 5 is found for the first keyword, and the search for keywords goes on from there.  Without the first
keyword, or without the 5, it is found. -/
theorem C85_keyword_lost :
    stringMatches exRule false false "id id 5 77".toList [] 40 = Res.ok ⟨[(6, 7)], []⟩ ∧
    Within "id id 5 77".toList 3 8 6 ∧
    stringMatches exRule false false ".. id 5 77".toList [] 40 = Res.ok ⟨[(6, 7), (8, 10)], []⟩ ∧
    stringMatches exRule false false "id id . 77".toList [] 40 = Res.ok ⟨[(8, 10)], []⟩ := by
  refine ⟨by decide, ⟨"id 5 ".toList, ⟨"id ".toList, "77".toList, rfl, rfl, rfl⟩, by decide⟩, by decide, by decide⟩

/-- The hypotheses of C85. -/
example : LawfulKw exKw (fun c s e => ∃ kw ∈ ["id".toList], kwMatchAt same kw c s = some e) ∧
    LawfulRx exRule.rx ∧ NonEmptyRx exRule.rx ∧
    Apart exRule (fun c s e => ∃ kw ∈ ["id".toList], kwMatchAt same kw c s = some e) "1 id 5 .... 6 id 7".toList ∧
    stringMatches exRule false false "1 id 5 .... 6 id 7".toList [] 40 = Res.ok ⟨[(5, 6), (17, 18)], []⟩ ∧
    stringMatches exRule true false "1 id 5".toList [.field "id".toList] 40 = Res.ok ⟨[(5, 6), (0, 1), (5, 6)], []⟩ := by
  refine ⟨leftmostKw_lawful _ _ (by simp) _ _, digitsRx_ok.1, digitsRx_ok.2, ?_, by decide, by decide⟩
  have hk : ∀ s, s < 19 → ∀ p, p < 19 → (match kwMatchAt same "id".toList "1 id 5 .... 6 id 7".toList s,
      digitsRx "1 id 5 .... 6 id 7".toList p with
      | some e, some q => decide (e ≤ p ∨ q ≤ s)
      | _, _ => true) = true := by decide +kernel
  intro s e p q ho hp
  obtain ⟨kw, hkw, hs⟩ := ho
  simp only [List.mem_singleton] at hkw
  subst hkw
  have hp' : digitsRx "1 id 5 .... 6 id 7".toList p = some q := hp.1
  have h1 := onBoundary_le (digitsRx_ok.1 _ _ _ hp').2.1
  have h2 := onBoundary_le ((leftmostKw_lawful same ["id".toList] (by simp) 6 (fun t => t == "id".toList)).range
    "1 id 5 .... 6 id 7".toList s e ⟨_, List.mem_singleton.2 rfl, hs⟩).2.1
  have hb : blen "1 id 5 .... 6 id 7".toList = 18 := by decide
  have := hk s (by omega) p (by omega)
  rw [hs, hp'] at this
  simpa using this

/-- What `Near` selects in the example: 5 and 7 of 1, 5, 6 and 7. -/
example : Near (fun s e => (s = 2 ∧ e = 4) ∨ (s = 14 ∧ e = 16)) (fun s p => s ≤ p ∧ p ≤ s + 6) 0
    [(0, 1), (5, 6), (12, 13), (17, 18)] [(5, 6), (17, 18)] := by
  refine .skip (by omega) ?_
  refine .window (s := 2) (e := 4) (w := []) (z := (5, 6)) (l := [(12, 13), (17, 18)]) (out := [(17, 18)]) (by simp) (by omega)
    (by intros; omega) (by simp) (by simp) ?_
  refine .skip (by omega) ?_
  exact .window (s := 14) (e := 16) (w := []) (z := (17, 18)) (l := []) (out := []) (by simp) (by simp)
    (by intro m hm; simp at hm; subst hm; intros; omega) (by simp) (by simp) .nil

end Sds.Props
