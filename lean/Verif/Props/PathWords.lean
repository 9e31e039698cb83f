import Verif.Lemmas.PathWords
import Verif.Props.Keywords
import Verif.Props.Search

/-! # Keywords in paths: C69, and the words of field names for C30 -/

namespace Sds.Props
open Sds.Spec

/-! ## The words of a field -/

/-- C30: a field made of words is normalised to the words in lower case, joined with dots, however the words are put
together: one of `- _ . /` or a space between them, or camel case.  Missing: names that end with a one-letter
camel-case word (`C69_last_hump`), repeated, leading and trailing separators, characters beyond ASCII. -/
theorem C30_words_partial {n : Str} {ws : List Str} (h : MadeOf n ws) (hh : ¬ EndsInHump n) :
    sanitizeField n = dotJoin (ws.map lowered) := by
  rw [(C30_shortcut_invisible n).1, ← asciiLower_toLower, h.sanitized hh]

private theorem word_small {w : Str} (hne : w ≠ []) (h : ∀ c ∈ w, Small c) : PlainWord w :=
  ⟨[], w, rfl, hne, by simp, h⟩

private theorem word_capital {w : Str} (hne : w ≠ []) (h : ∀ c ∈ w, Capital c) : PlainWord w :=
  ⟨w, [], by simp, hne, h, by simp⟩

instance (c : Char) : Decidable (Capital c) := by unfold Capital; infer_instance
instance (c : Char) : Decidable (Small c) := by unfold Small; infer_instance

private theorem key_ends {n : Str} (h : ∀ c, n.getLast? = some c → ¬ Capital c) : ¬ EndsInHump n := by
  rintro ⟨a, x, u, rfl, _, hu⟩
  exact h u (by simp) hu

private theorem ex_aws : MadeOf "AWS_access-Key".toList ["AWS".toList, "access".toList, "Key".toList] :=
  .link (w := "AWS".toList) (word_capital (by decide) (by decide)) (by decide)
    (.link (w := "access".toList) (word_small (by decide) (by decide)) (by decide)
      (.word ⟨"K".toList, "ey".toList, rfl, by decide, by decide, by decide⟩))

private theorem ex_access : MadeOf "awsAccess".toList ["aws".toList, "Access".toList] :=
  .camel (w := "aws".toList) (l := 's') (c := 'A') (word_small (by decide) (by decide)) (by decide) (by decide)
    (by decide) (by decide) (.word ⟨"A".toList, "ccess".toList, rfl, by decide, by decide, by decide⟩)

private theorem ex_key : MadeOf "KEY id".toList ["KEY".toList, "id".toList] :=
  .link (w := "KEY".toList) (word_capital (by decide) (by decide)) (by decide)
    (.word (word_small (by decide) (by decide)))

example : sanitizeField "AWS_access-Key".toList = "aws.access.key".toList ∧
    sanitizeField "awsAccess".toList = "aws.access".toList :=
  ⟨C30_words_partial ex_aws (key_ends (by decide)), C30_words_partial ex_access (key_ends (by decide))⟩

/-! ## C69 -/

/-- C69: a path contains one of the keywords iff the words of a keyword occur consecutively among the words of the
fields of the path, ignoring case, indices and the way the words are put together.  Missing: as in
`C30_words_partial`. -/
theorem C69_keyword_in_path_partial {eqc : Char → Char → Bool} (hf : FoldsAscii eqc) {kws : List Str}
    {words : Str → List Str} (hk : ∀ kw ∈ kws, MadeOf kw (words kw) ∧ ¬ EndsInHump kw) {p : Path} {ws : List Str}
    (hp : PathWords (fun f => ¬ EndsInHump f) p ws) :
    keywordInPath eqc kws (sanitizePath p) = true ↔
      ∃ kw ∈ kws, (words kw).map lowered <:+: ws.map lowered := by
  obtain ⟨pre, hpre, he⟩ := sanitizePath_words hp (fun f fs h1 h2 => C30_words_partial h1 h2)
  rw [keywordInPath_iff, he]
  have hw := smallWords_lowered hp.plain
  constructor
  · rintro ⟨kw, hkw, h⟩
    exact ⟨kw, hkw, (keyword_in_words hf (hk kw hkw).1 (hk kw hkw).2 hw hpre).1 h⟩
  · rintro ⟨kw, hkw, h⟩
    exact ⟨kw, hkw, (keyword_in_words hf (hk kw hkw).1 (hk kw hkw).2 hw hpre).2 h⟩

private def sameLetter (k c : Char) : Bool := asciiLower k == asciiLower c

private theorem sameLetter_folds : FoldsAscii sameLetter := by
  intro k c _ _
  simp [sameLetter, asciiLower_toLower]

/-- The keyword `AWS_access-Key` in the path `[3].awsAccess[7].KEY id`. -/
example : keywordInPath sameLetter ["AWS_access-Key".toList]
    (sanitizePath [.index 3, .field "awsAccess".toList, .index 7, .field "KEY id".toList]) = true :=
  (C69_keyword_in_path_partial sameLetter_folds
    (words := fun _ => ["AWS".toList, "access".toList, "Key".toList])
    (by intro kw h; simp only [List.mem_singleton] at h; subst h; exact ⟨ex_aws, key_ends (by decide)⟩)
    (.index (.field ex_access (key_ends (by decide)) (.index (.field ex_key (key_ends (by decide)) .nil))))).2
    ⟨_, List.mem_singleton.2 rfl, [], ["id".toList], by decide⟩

/-- Whole words only: `access` is not in `accesses`. -/
example : keywordInPath sameLetter ["access".toList] (sanitizePath [.field "accesses".toList]) = false := by decide

/-- C69, the scan: with path matching enabled, if the words of a required keyword occur in the path of the field, all
matches of the regex, found from left to right, are emitted; otherwise the search returns what it returns with path
matching disabled. -/
theorem C69_path_suffices_partial {eqc : Char → Char → Bool} (hf : FoldsAscii eqc) {kws : List Str}
    {words : Str → List Str} (hk : ∀ kw ∈ kws, MadeOf kw (words kw) ∧ ¬ EndsInHump kw) {p : Path} {ws : List Str}
    (hp : PathWords (fun f => ¬ EndsInHump f) p ws) {r : RegexRule} (hl : LawfulRx r.rx) (hne : NonEmptyRx r.rx)
    {k : IncKw} (hi : r.included = some k) (hla : 0 < k.lookAhead) {occ : Str → Nat → Nat → Prop} (hkw : LawfulKw k occ)
    (hin : k.inPath = keywordInPath eqc kws) (c : Str) (fuel : Nat) (hfuel : blen c < fuel) :
    ((∃ kw ∈ kws, (words kw).map lowered <:+: ws.map lowered) →
      ∃ f l, stringMatches r true false c p fuel = Res.ok f ∧ Leftmost (Accepted r c) 0 l ∧ ∀ m ∈ l, m ∈ f.matches_) ∧
    ((¬ ∃ kw ∈ kws, (words kw).map lowered <:+: ws.map lowered) →
      stringMatches r true false c p fuel = stringMatches r false false c p fuel) := by
  have hpath : k.inPath (sanitizePath p) = true ↔ ∃ kw ∈ kws, (words kw).map lowered <:+: ws.map lowered := by
    rw [hin]; exact C69_keyword_in_path_partial hf hk hp
  obtain ⟨l0, h0, _⟩ := outerLoop_spec hl hne hla hkw hfuel fuel 0 (Nat.zero_le _) (by omega)
  rw [← hpath]
  unfold stringMatches
  rw [hi]
  simp only
  unfold withIncluded
  rw [h0]
  simp only [if_true]
  unfold pathPart
  rcases searchFrom_spec hl (Nat.zero_le (blen c)) with ⟨h3, h4⟩ | ⟨s, e, h3, _⟩
  · rw [h3]
    refine ⟨fun _ => ⟨_, [], rfl, .nil ?_, by simp⟩, fun _ => by simp⟩
    intro q e hq ha
    have h1 := ha.1
    rw [h4 q hq] at h1
    cases h1
  · rw [h3]
    simp only
    refine ⟨fun h => ?_, fun h => by rw [if_neg h]; simp⟩
    rw [if_pos h]
    obtain ⟨l, h4, h5⟩ := collectTp_spec hl hne (check := false) (c := c) (by simp [SafeIf]) hfuel fuel 0
      (onBoundary_zero c) (by omega)
    rw [h4]
    refine ⟨_, l, rfl, ?_, fun m hm => List.mem_append.2 (Or.inr hm)⟩
    have hw : Wanted r false c = Accepted r c := by
      funext a b
      simp [Wanted]
    rw [← hw]; exact h5

/-- The hypotheses on the rule are met. -/
example : LawfulKw ⟨6, leftmostKw sameLetter ["KEY id".toList], keywordInPath sameLetter ["KEY id".toList]⟩
      (fun c s e => ∃ kw ∈ ["KEY id".toList], kwMatchAt sameLetter kw c s = some e) ∧
    stringMatches ⟨digitsRx, none, some ⟨6, leftmostKw sameLetter ["KEY id".toList],
      keywordInPath sameLetter ["KEY id".toList]⟩, none⟩ true false "12 x 3".toList
      [.field "keyId".toList] 40 = Res.ok ⟨[(0, 2), (5, 6)], []⟩ :=
  ⟨leftmostKw_lawful _ _ (by simp) _ _, by decide⟩

/-- C69, finding: a capital at the very end does not begin a word.  The keyword `planB` consists of the words `plan`
and `B`, and is not found in the path `plan.b` of the same words - while the keyword `plan_b` is. -/
theorem C69_last_hump {eqc : Char → Char → Bool} (hf : FoldsAscii eqc) :
    MadeOf "planB".toList ["plan".toList, "B".toList] ∧ MadeOf "plan_b".toList ["plan".toList, "b".toList] ∧
    sanitizePath [.field "plan".toList, .field "b".toList] = "plan.b".toList ∧
    keywordInPath eqc ["planB".toList] "plan.b".toList = false ∧
    keywordInPath eqc ["plan_b".toList] "plan.b".toList = true := by
  have hplan : PlainWord "plan".toList := word_small (by decide) (by decide)
  have hb : MadeOf "b".toList ["b".toList] := .word (word_small (by decide) (by decide))
  have hm : MadeOf "plan_b".toList ["plan".toList, "b".toList] := .link (w := "plan".toList) hplan (by decide) hb
  have hp : MadeOf "plan".toList ["plan".toList] := .word hplan
  refine ⟨?_, hm, by decide, ?_, ?_⟩
  · exact .camel (w := "plan".toList) (l := 'n') (c := 'B') hplan (by decide) (by decide) (by decide) (by decide)
      (.word (word_capital (by decide) (by decide)))
  · have key : ¬ keywordInPath eqc ["planB".toList] "plan.b".toList = true := by
      rw [keywordInPath_iff]
      rintro ⟨kw, hkw, a, m, b, he, hs, _⟩
      simp only [List.mem_singleton] at hkw
      subst hkw
      have e : (standardize "planB".toList).map asciiLower = "planb".toList := by decide
      rw [e] at hs
      have hpc : ∀ c ∈ "plan.b".toList, PathChar c := by
        intro c hc
        simp at hc
        rcases hc with rfl | rfl | rfl | rfl | rfl | rfl <;> first | exact Or.inl (by decide) | exact Or.inr rfl
      have hkc : ∀ c ∈ "planb".toList, PathChar c := by
        intro c hc
        simp at hc
        rcases hc with rfl | rfl | rfl | rfl | rfl <;> exact Or.inl (by decide)
      have hmc : ∀ c ∈ m, PathChar c := by
        intro c hc
        exact hpc c (by rw [he]; simp [hc])
      have := (sameText_path hf hkc hmc).1 hs
      subst this
      have hl := congrArg List.length he
      cases a with
      | nil =>
        simp at he
      | cons x a =>
        cases a with
        | nil => simp at he
        | cons y a => simp at hl; omega
    cases h : keywordInPath eqc ["planB".toList] "plan.b".toList with
    | false => rfl
    | true => exact absurd h key
  · have := (C69_keyword_in_path_partial hf (kws := ["plan_b".toList]) (words := fun _ => ["plan".toList, "b".toList])
      (by intro kw h; simp only [List.mem_singleton] at h; subst h; exact ⟨hm, key_ends (by decide)⟩)
      (.field hp (key_ends (by decide)) (.field hb (key_ends (by decide)) .nil))).2
      ⟨_, List.mem_singleton.2 rfl, by exact List.infix_refl _⟩
    exact this

end Sds.Props
