import Verif.Lemmas.KeywordRegex
import Verif.Spec.Assemble

/-! # C92: the text of a keyword regex matches the keywords -/

namespace Sds.Props
open Sds Spec Re

variable {T : Tables}

private theorem compileAll_keywords {la : Nat} {removed : Char → Bool} {kws ts : List Str} (h : compileAll la removed kws = .ok ts) :
    ts = kws.map (fun kw => (trim kw).filter fun c => !removed c) ∧ ∀ t ∈ ts, t ≠ [] := by
  induction kws generalizing ts with
  | nil => cases h; exact ⟨rfl, by simp⟩
  | cons kw kws ih =>
    rw [compileAll] at h
    split at h
    · cases h
    · next t ht =>
      split at h
      · cases h
      · next ts' hts =>
        cases h
        obtain ⟨h1, h2⟩ := ih hts
        unfold compileKeyword at ht
        split at ht
        · cases ht
        · simp only at ht
          split at ht
          · cases ht
          · next hne =>
            cases ht
            exact ⟨by rw [List.map_cons, ← h1], fun t ht => (List.mem_cons.1 ht).elim (fun e => e ▸ hne) (h2 t)⟩

/-- C92, content: the texts of the regexes of any keywords are made without panic, and the crate reads them.  What it reads in
the first matches exactly the keywords: up to case, and with ASCII word boundaries at the ends of a keyword that are ASCII
letters or digits.  No character of a keyword has a special meaning. -/
theorem C92_content_text {kws : List Str} (hne : kws ≠ []) (hk : ∀ kw ∈ kws, kw ≠ []) :
    ∃ text r, keywordText contentPattern kws = .ok text ∧ readRust text = some r ∧
      ∀ (T : Tables) before mid after, Spans T (rustMeaning T r keywordFlags).1 before mid after ↔
        ∃ kw ∈ kws, Written T kw kw before mid after := by
  obtain ⟨text, ht⟩ := keywordText_ok fun kw h => contentPattern_ok (hk kw h)
  obtain ⟨r, h1, h2⟩ := keywordText_means contentPattern_eq hne ht
  exact ⟨text, r, ht, h1, h2⟩

/-- C92, paths: the same for the regex for paths, with the keywords as they are written in a sanitized path (see C30, C69). -/
theorem C92_path_text {kws : List Str} (hne : kws ≠ []) (hk : ∀ kw ∈ kws, kw ≠ []) :
    ∃ text r, keywordText pathPattern kws = .ok text ∧ readRust text = some r ∧
      ∀ (T : Tables) before mid after, Spans T (rustMeaning T r keywordFlags).1 before mid after ↔
        ∃ kw ∈ kws, Written T kw ((standardize kw).map Char.toLower) before mid after := by
  rw [← asciiLower_toLower]
  obtain ⟨text, ht⟩ := keywordText_ok fun kw h => pathPattern_ok (hk kw h)
  obtain ⟨r, h1, h2⟩ := keywordText_means pathPattern_eq hne ht
  exact ⟨text, r, ht, h1, h2⟩

/-- C92, configurations: whatever the keywords of a configuration are, making the texts does not panic, and the crate reads them;
the texts are those of the keywords without white space around them and without the removed characters. -/
theorem C92_texts_read (la : Nat) (removed : Char → Bool) (kws : List Str) :
    ∃ res, keywordTexts la removed kws = .ok res ∧
      (∀ e, res = .error e ↔ compileKeywords la removed kws = .error e) ∧ (res = .ok none ↔ kws = []) ∧
      ∀ ct pt, res = .ok (some (ct, pt)) →
        ∃ ts, ts = kws.map (fun kw => (trim kw).filter fun c => !removed c) ∧ (∀ t ∈ ts, t ≠ []) ∧
          keywordText contentPattern ts = .ok ct ∧ keywordText pathPattern ts = .ok pt ∧
          (readRust ct).isSome = true ∧ (readRust pt).isSome = true := by
  unfold keywordTexts
  by_cases hk : kws = []
  · subst hk
    exact ⟨.ok none, rfl, by intro e; constructor <;> (intro h; cases h), by simp, by intro ct pt h; cases h⟩
  · have e : compileKeywords la removed kws =
        (match compileAll la removed kws with | .error e => .error e | .ok ts => .ok (some ts)) := by
      rw [compileKeywords, if_neg hk]
      cases compileAll la removed kws <;> rfl
    cases h : compileAll la removed kws with
    | error err =>
      rw [e, h]
      exact ⟨.error err, rfl, by intro e; constructor <;> (intro h; cases h; rfl),
        ⟨fun h => (by cases h), fun h => absurd h hk⟩, by intro ct pt h; cases h⟩
    | ok ts =>
      obtain ⟨h1, h2⟩ := compileAll_keywords h
      have hts : ts ≠ [] := by rw [h1]; simpa using hk
      obtain ⟨ct, r, hc, hr, _⟩ := C92_content_text hts h2
      obtain ⟨pt, r', hp, hr', _⟩ := C92_path_text hts h2
      rw [e, h]
      simp only [hc, hp]
      refine ⟨.ok (some (ct, pt)), rfl, by intro e; constructor <;> (intro h; cases h),
        ⟨fun h => (by cases h), fun h => absurd h hk⟩, ?_⟩
      intro ct' pt' h
      cases h
      exact ⟨ts, h1, h2, hc, hp, by rw [hr]; rfl, by rw [hr']; rfl⟩

/-- C92, the matchers: what the regexes match is what the matchers of the model, with the case variants of the tables, find
(see C29 for content, C26 for excluded keywords, C69 for paths). -/
theorem C92_matchers {eqc : Char → Char → Bool} (hf : Folds T eqc) {kws : List Str} {ct pt : Str} {r r' : RAst} (hne : kws ≠ [])
    (hc : keywordText contentPattern kws = .ok ct) (hr : readRust ct = some r)
    (hp : keywordText pathPattern kws = .ok pt) (hr' : readRust pt = some r') :
    (∀ c s e, MatchesAt T (rustMeaning T r keywordFlags).1 c s e ↔ ∃ kw ∈ kws, kwMatchAt eqc kw c s = some e) ∧
    (∀ c s e, anyKeywordIn eqc kws c s e = true ↔
      ∃ s' e', s ≤ s' ∧ e' ≤ e ∧ MatchesAt T (rustMeaning T r keywordFlags).1 c s' e') ∧
    (∀ path, keywordInPath eqc kws path = true ↔ ∃ s e, MatchesAt T (rustMeaning T r' keywordFlags).1 path s e) := by
  obtain ⟨r1, h1, h2⟩ := keywordText_means contentPattern_eq hne hc
  obtain ⟨r2, h3, h4⟩ := keywordText_means pathPattern_eq hne hp
  rw [hr] at h1
  cases h1
  rw [hr'] at h3
  cases h3
  refine ⟨fun c s e => ?_, fun c s e => ?_, fun path => ?_⟩
  · simp only [kwMatchAt_iff, MatchesAt, h2, written_iff hf]
    constructor
    · rintro ⟨a, m, b, rfl, rfl, rfl, kw, hkw, h5, h6⟩
      exact ⟨kw, hkw, a, m, b, rfl, rfl, by simp, h5, h6⟩
    · rintro ⟨kw, hkw, a, m, b, rfl, rfl, rfl, h5, h6⟩
      exact ⟨a, m, b, rfl, rfl, by simp, kw, hkw, h5, h6⟩
  · simp only [anyKeywordIn_iff, MatchesAt, h2, written_iff hf]
    constructor
    · rintro ⟨kw, hkw, a, m, b, rfl, h5, h6, h7, h8⟩
      exact ⟨blen a, blen (a ++ m), h5, h6, a, m, b, rfl, rfl, by simp, kw, hkw, h7, h8⟩
    · rintro ⟨s', e', h5, h6, a, m, b, rfl, rfl, rfl, kw, hkw, h7, h8⟩
      exact ⟨kw, hkw, a, m, b, rfl, h5, by simpa using h6, h7, h8⟩
  · simp only [keywordInPath_iff, MatchesAt, h4, written_iff hf]
    constructor
    · rintro ⟨kw, hkw, a, m, b, rfl, h7, h8⟩
      exact ⟨_, _, a, m, b, rfl, rfl, rfl, kw, hkw, h7, h8⟩
    · rintro ⟨_, _, a, m, b, rfl, _, _, kw, hkw, h7, h8⟩
      exact ⟨kw, hkw, a, m, b, rfl, h7, h8⟩

/-- C92, engine: what C80, C81 and C90 assume of the search for keywords holds if the engine searches for what the crate reads in the
text that is made of the keywords. -/
theorem C92_faithful {O : Outside} {engine : Str → Option (Str → Nat → Option (Nat × Nat))} (he : SearchesText T engine)
    (hf : Folds T O.eqc) (hb : Builds T (firstTry T) O.build)
    (hk : ∀ kws text search, keywordText contentPattern kws = .ok text → engine text = some search → O.kwSearch kws = search) :
    Faithful T O := by
  refine ⟨hb, fun kws n inPath hne hkw => ?_⟩
  obtain ⟨ct, r, hc, hr, _⟩ := C92_content_text hne hkw
  obtain ⟨pt, r', hp, hr', _⟩ := C92_path_text hne hkw
  have hm := (C92_matchers hf hne hc hr hp hr').1
  obtain ⟨search, h1, h2, h3⟩ := he ct r hr
  rw [hk kws ct search hc h1]
  refine ⟨fun c start s e h => ?_, fun c start s e h hs => ?_, fun c s e h => ?_⟩
  · obtain ⟨h4, h5⟩ := h2 c start s e h
    exact ⟨h4, (hm c s e).1 h5⟩
  · exact h3 c start s e ((hm c s e).2 h) hs
  · obtain ⟨kw, hkw', h⟩ := h
    obtain ⟨a, m, b, rfl, rfl, rfl, h5, _⟩ := (kwMatchAt_iff _ _ _ _ _).1 h
    have hl := h5.length_eq
    have hk0 : kw ≠ [] := hkw kw hkw'
    have : m ≠ [] := by
      rintro rfl
      exact hk0 (List.length_eq_zero_iff.1 hl)
    refine ⟨?_, ⟨a, m ++ b, by simp, rfl⟩, ⟨a ++ m, b, rfl, rfl⟩⟩
    have := blen_pos this
    simp; omega

/-! ## Examples -/

/-- Text of a keyword with special characters, and of one without letters or digits at its ends. -/
example : keywordTexts 30 (fun _ => false) [" a.B-c ".toList, "(é)".toList] =
    .ok (.ok (some ("(?-u:\\b)a\\.B\\-c(?-u:\\b)|\\(é\\)".toList, "(?-u:\\b)a\\.b\\.c(?-u:\\b)|\\(é\\)".toList))) := by
  rfl

/-- The hypotheses of `C92_matchers` are met. -/
example : ∃ ct pt r r', keywordText contentPattern ["a+".toList, "id".toList] = .ok ct ∧ readRust ct = some r ∧
    keywordText pathPattern ["a+".toList, "id".toList] = .ok pt ∧ readRust pt = some r' := by
  obtain ⟨ct, r, h1, h2, _⟩ := C92_content_text (kws := ["a+".toList, "id".toList]) (by simp) (by simp)
  obtain ⟨pt, r', h3, h4, _⟩ := C92_path_text (kws := ["a+".toList, "id".toList]) (by simp) (by simp)
  exact ⟨ct, pt, r, r', h1, h2, h3, h4⟩

private theorem least_start {P : Nat → Nat → Prop} (h : ∃ s e, P s e) : ∃ s e, P s e ∧ ∀ s' e', P s' e' → s ≤ s' := by
  obtain ⟨s, e, h⟩ := h
  induction s using Nat.strongRecOn generalizing e with
  | ind s ih =>
    by_cases h' : ∃ s' e', P s' e' ∧ s' < s
    · obtain ⟨s', e', h1, h2⟩ := h'
      exact ih s' h2 e' h1
    · exact ⟨s, e, h, fun s' e' h1 => Nat.le_of_not_lt fun h2 => h' ⟨s', e', h1, h2⟩⟩

open Classical in
/-- There is an engine as C92 expects it. -/
example (T : Tables) : ∃ engine, SearchesText T engine := by
  let found (n : Node) (c : Str) (start s e : Nat) : Prop := start ≤ s ∧ MatchesAt T n c s e
  let search (n : Node) (c : Str) (start : Nat) : Option (Nat × Nat) :=
    if h : ∃ s e, found n c start s e then some ((least_start h).choose, (least_start h).choose_spec.choose) else none
  have sound : ∀ n c start s e, search n c start = some (s, e) → found n c start s e ∧ ∀ s' e', found n c start s' e' → s ≤ s' := by
    intro n c start s e h
    simp only [search] at h
    split at h
    · next hx =>
      cases h
      exact (least_start hx).choose_spec.choose_spec
    · cases h
  refine ⟨fun text => (readRust text).map fun r => search (rustMeaning T r keywordFlags).1, fun text r hr => ?_⟩
  refine ⟨_, by simp only [hr]; rfl, fun c start s e h => (sound _ _ _ _ _ h).1, fun c start s e h hs => ?_⟩
  cases hx : search (rustMeaning T r keywordFlags).1 c start with
  | none =>
    simp only [search] at hx
    split at hx
    · cases hx
    · next hn => exact absurd ⟨s, e, hs, h⟩ hn
  | some p => exact ⟨p.1, p.2, rfl, .inl ((sound _ _ _ p.1 p.2 hx).2 s e ⟨hs, h⟩)⟩

end Sds.Props
