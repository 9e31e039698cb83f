import Verif.Lemmas.Keywords

/-! # C25-C30: proximity keywords -/

namespace Sds.Props
open Sds Spec

/-- ASCII case folding. -/
private def foldAscii (k c : Char) : Bool := asciiLower k == asciiLower c

/-- C25, forward window: with `b` between the start of the keyword and the start of the match, the test
answers (without panic) whether `b` has at most `n` characters, whatever their encoded size. -/
theorem C25_window_test (a b c : Str) (n : Nat) :
    isIndexWithinPrefix (a ++ b ++ c) (blen a) (blen (a ++ b)) n = Res.ok (decide (b.length ≤ n)) := by
  rw [blen_append]
  exact isIndexWithinPrefix_spec a b c n

example : isIndexWithinPrefix "x éé12".toList 1 7 4 = Res.ok true ∧
    isIndexWithinPrefix "x éé12".toList 1 7 3 = Res.ok false := by decide

/-- C25, backward window: the window starts exactly `n` characters before the match, or at the start of the
string if there are fewer; the flag tells which. -/
theorem C25_window_start (u w c : Str) (n : Nat) (hn : 0 < n) (hw : w.length ≤ n) (hu : w.length < n → u = []) :
    getPrefixStart (blen (u ++ w)) n (u ++ w ++ c) = Res.ok (blen u, decide (w.length = n)) := by
  rw [getPrefixStart_spec (u ++ w) c n hn]
  by_cases h : w.length = n
  · have : (u ++ w).length - n = u.length := by simp; omega
    rw [this, List.take_left]
    have h2 : n ≤ (u ++ w).length := by simp; omega
    simp [h]
  · have hu := hu (by omega)
    subst hu
    have : ([] ++ w).length - n = 0 := by simp; omega
    rw [this]
    simp [h]
    omega

example : getPrefixStart 6 3 "aéé 12".toList = Res.ok (1, true) ∧
    getPrefixStart 6 9 "aéé 12".toList = Res.ok (0, false) := by decide

/-- C26, finding: the keyword `id` is directly in front of the match `- 5`, but as `-` is ignored the last
character of the keyword is taken for the first character of the match and the match is not vetoed. -/
theorem C26_keyword_missed :
    InFront foldAscii ["id".toList] 5 "id- 5".toList 2 ∧
    containsExcluded foldAscii ["id".toList] 5 "id- 5".toList 2 = Res.ok false := by
  refine ⟨⟨[], "id".toList, "- 5".toList, rfl, rfl, by decide, by decide, "id".toList, by simp, [], "id".toList, [],
    by decide, ?_, ?_, ?_⟩, by decide⟩
  · exact .cons (by decide) (.cons (by decide) .nil)
  · intro k _ _ c hc
    simp [ignoring] at hc
  · intro k _ _ c hc
    have h : ([] ++ ignoring "- 5".toList).head? = some ' ' := by decide
    rw [h] at hc
    simp only [Option.some.injEq] at hc
    subst hc
    decide

/-- C26, finding: the same happens at the other end of the window.  If the character in front of the window
is `-` or `_`, the first character of the window is not searched. -/
theorem C26_keyword_missed_at_start :
    InFront foldAscii ["id".toList] 3 "x -id 5".toList 6 ∧
    containsExcluded foldAscii ["id".toList] 3 "x -id 5".toList 6 = Res.ok false := by
  refine ⟨⟨"x -".toList, "id ".toList, "5".toList, rfl, rfl, by decide, by decide, "id".toList, by simp, [], "id".toList,
    " ".toList, by decide, ?_, ?_, ?_⟩, by decide⟩
  · exact .cons (by decide) (.cons (by decide) .nil)
  · intro k _ _ c hc
    have h : (ignoring "x -".toList ++ []).getLast? = some ' ' := by decide
    rw [h] at hc
    simp only [Option.some.injEq] at hc
    subst hc
    decide
  · intro k _ _ c hc
    have h : (" ".toList ++ ignoring "5".toList).head? = some ' ' := by decide
    rw [h] at hc
    simp only [Option.some.injEq] at hc
    subst hc
    decide

/-- C26, apart from the two cases above: let `w` be the look-ahead window in front of the match (which starts
with `x`) and `u` the text before the window.  If neither `x` nor the last character of `u` is an ignored one,
the check terminates without panic and vetoes the match iff one of the keywords occurs in the window.
Missing from the full claim: matches beginning with `-` or `_`, and windows preceded by `-` or `_`; and
case folding across the ASCII range (see C29). -/
theorem C26_veto_partial {eqc : Char → Char → Bool} (hf : AsciiFold eqc) (kws : List Str) (la : Nat)
    (u w : Str) (x : Char) (post : Str) (hw : w.length ≤ la) (hu : w.length < la → u = [])
    (hx : x ≠ '-' ∧ x ≠ '_') (hc : ∀ c, u.getLast? = some c → c ≠ '-' ∧ c ≠ '_') :
    ∃ b, containsExcluded eqc kws la (u ++ w ++ x :: post) (blen (u ++ w)) = Res.ok b ∧
      (b = true ↔ InFront eqc kws la (u ++ w ++ x :: post) (blen (u ++ w))) := by
  -- the window in the specification is `w`
  have hfront : InFront eqc kws la (u ++ w ++ x :: post) (blen (u ++ w)) ↔
      ∃ kw ∈ kws, ∃ l m r, ignoring w = l ++ m ++ r ∧
        Occurs eqc kw (ignoring u ++ l) m (r ++ ignoring (x :: post)) := by
    constructor
    · rintro ⟨u', w', post', h1, h2, h3, h4, h5⟩
      obtain ⟨h6, h7⟩ := append_inj_blen h1 h2.symm
      have hlen : w.length = w'.length := by
        have := congrArg List.length h6
        simp only [List.length_append] at this
        by_cases hA : w.length < la
        · have hu := hu hA
          by_cases hB : w'.length < la
          · have hu' := h4 hB
            simp only [hu, hu', List.length_nil] at this; omega
          · simp only [hu, List.length_nil] at this; omega
        · by_cases hB : w'.length < la
          · have hu' := h4 hB
            simp only [hu', List.length_nil] at this; omega
          · omega
      obtain ⟨rfl, rfl⟩ := List.append_inj' h6 hlen
      subst h7
      exact h5
    · intro h
      exact ⟨u, w, x :: post, rfl, rfl, hw, hu, h⟩
  rw [hfront]
  have hign : ignoring (x :: post) = x :: ignoring post := ignoring_cons_keep hx
  have hsx : strip [x] = [x] := by rw [strip_eq_ignoring, ignoring_cons_keep hx]; rfl
  rw [containsExcluded_eq]
  have hpost : (x :: post).take 1 = [x] := rfl
  rw [hpost, hsx]
  rcases List.eq_nil_or_concat u with rfl | ⟨u0, c, rfl⟩
  · have hd : ([] ++ w).drop (([] ++ w).length - (la + 1)) = w := by
      have : ([] ++ w).length - (la + 1) = 0 := by simp; omega
      rw [this]; rfl
    have hused : decide (la + 1 ≤ ([] ++ w).length) = false := by simp; omega
    rw [hd, hused, excludedInPrefix_partial, strip_eq_ignoring]
    refine ⟨_, rfl, ?_⟩
    have := anyKeywordIn_middle hf kws [] (ignoring w) [x]
    simp only [List.nil_append, blen_nil, Nat.zero_add] at this
    rw [this]
    constructor
    · rintro ⟨kw, hkw, l, m, r, h1, h2⟩
      refine ⟨kw, hkw, l, m, r, h1, (occurs_congr ?_ ?_).1 h2⟩
      · simp [ignoring]
      · rw [hign]; cases r <;> simp
    · rintro ⟨kw, hkw, l, m, r, h1, h2⟩
      refine ⟨kw, hkw, l, m, r, h1, (occurs_congr ?_ ?_).2 h2⟩
      · simp [ignoring]
      · rw [hign]; cases r <;> simp
  · rw [List.concat_eq_append] at *
    have hla : w.length = la := by
      by_cases hA : w.length < la
      · have := hu hA; simp at this
      · omega
    have hcc : c ≠ '-' ∧ c ≠ '_' := hc c (by simp)
    have hd : (u0 ++ [c] ++ w).drop ((u0 ++ [c] ++ w).length - (la + 1)) = c :: w := by
      have : (u0 ++ [c] ++ w).length - (la + 1) = u0.length := by simp; omega
      rw [this, List.append_assoc, List.drop_left]; rfl
    have hused : decide (la + 1 ≤ (u0 ++ [c] ++ w).length) = true := by simp; omega
    have hsc : strip (c :: w) = c :: ignoring w := by rw [strip_eq_ignoring, ignoring_cons_keep hcc]
    rw [hd, hused, hsc, excludedInPrefix_full]
    refine ⟨_, rfl, ?_⟩
    have := anyKeywordIn_middle hf kws [c] (ignoring w) [x]
    simp only [List.singleton_append, blen_cons, blen_nil, Nat.add_zero] at this
    rw [this]
    have hlast : ∀ l : Str, (c :: l).getLast? = (ignoring (u0 ++ [c]) ++ l).getLast? := by
      intro l
      rw [ignoring_append, ignoring_cons_keep hcc]
      cases l with
      | nil => simp [ignoring]
      | cons d l => simp [List.getLast?_append, List.getLast?_cons]
    constructor
    · rintro ⟨kw, hkw, l, m, r, h1, h2⟩
      refine ⟨kw, hkw, l, m, r, h1, (occurs_congr (hlast l) ?_).1 h2⟩
      rw [hign]; cases r <;> simp
    · rintro ⟨kw, hkw, l, m, r, h1, h2⟩
      refine ⟨kw, hkw, l, m, r, h1, (occurs_congr (hlast l) ?_).2 h2⟩
      rw [hign]; cases r <;> simp

/-- The hypotheses are met, with both answers. -/
example : AsciiFold (fun k c => k == c) ∧
    containsExcluded (fun k c => k == c) ["theid".toList] 8 "xyz the_id: 55".toList 12 = Res.ok true ∧
    containsExcluded (fun k c => k == c) ["theid".toList] 6 "xyz the_id: 55".toList 12 = Res.ok false := by
  refine ⟨fun k c h => ?_, by decide, by decide⟩
  have : k = c := by simpa using h
  rw [this]

/-- C27, finding: the check panics.  The match is one two-byte character, the look-ahead is 1, and the two
characters in front of the match are ignored ones. -/
theorem C27_panics : containsExcluded foldAscii ["id".toList] 1 "--é".toList 2 = Res.panic := by decide

/-- C27, exactly when: the check panics iff the look-ahead window plus one character is available in front of
the match, and removing the ignored characters of these and of the first character of the match leaves a
single character of more than one byte.  Otherwise it returns a result.  The full claim (never) is refuted by
`C27_panics`. -/
theorem C27_panics_only_then_partial (eqc : Char → Char → Bool) (kws : List Str) (la : Nat) (pre post : Str) :
    (containsExcluded eqc kws la (pre ++ post) (blen pre) = Res.panic ↔
      la < pre.length ∧ ∃ c, ignoring (pre.drop (pre.length - (la + 1)) ++ post.take 1) = [c] ∧ 1 < c.utf8Size) ∧
    containsExcluded eqc kws la (pre ++ post) (blen pre) ≠ Res.hang := by
  rw [containsExcluded_eq, ← strip_append, strip_eq_ignoring]
  generalize ignoring (pre.drop (pre.length - (la + 1)) ++ post.take 1) = t
  by_cases hla : la < pre.length
  · have : decide (la + 1 ≤ pre.length) = true := by simp; omega
    rw [this]
    match t with
    | [] => rw [excludedInPrefix_nil]; simp
    | [c] =>
      rw [excludedInPrefix_single]
      by_cases hc : c.utf8Size ≤ 1
      · rw [if_pos hc]; simp; omega
      · rw [if_neg hc]; simp [hla]; omega
    | c :: d :: r =>
      obtain ⟨s, e, he⟩ : ∃ s e, d :: r = s ++ [e] :=
        ⟨(d :: r).dropLast, (d :: r).getLast (by simp), (List.dropLast_concat_getLast (by simp)).symm⟩
      have hL : c :: d :: r = c :: s ++ [e] := by rw [he]; rfl
      rw [hL, excludedInPrefix_full]
      simp
  · have : decide (la + 1 ≤ pre.length) = false := by simp; omega
    rw [this]
    rcases List.eq_nil_or_concat t with rfl | ⟨s, e, rfl⟩
    · rw [excludedInPrefix_nil]; simp
    · rw [List.concat_eq_append, excludedInPrefix_partial]
      simp [hla]

example : containsExcluded foldAscii ["id".toList] 1 ("a--".toList ++ "é".toList) (blen "a--".toList) = Res.panic ∧
    containsExcluded foldAscii ["id".toList] 2 ("a--".toList ++ "é".toList) (blen "a--".toList) = Res.ok false := by
  decide

/-- C28: a keyword configuration is accepted iff it is well formed. -/
theorem C28_accepted_iff (c : KwConfig) : (∃ r, compileConfig c = .ok r) ↔ WellFormed c := by
  obtain ⟨hi, _⟩ := compileKeywords_spec c.lookAhead (fun _ => false) Blank blank_iff c.included
  obtain ⟨he, _⟩ := compileKeywords_spec c.lookAhead isStripped BlankIgnoring blankIgnoring_iff c.excluded
  unfold compileConfig WellFormed
  rw [← hi, ← he]
  by_cases h1 : c.lookAhead = 0 ∨ c.lookAhead > 50
  · rw [if_pos h1]
    simp only [reduceCtorEq, exists_false, false_iff]
    omega
  · rw [if_neg h1]
    by_cases h2 : c.included.length > 50 ∨ c.excluded.length > 50
    · rw [if_pos h2]
      simp only [reduceCtorEq, exists_false, false_iff]
      omega
    · rw [if_neg h2]
      have a1 : 1 ≤ c.lookAhead := by omega
      have a2 : c.lookAhead ≤ 50 := by omega
      have a3 : c.included.length ≤ 50 := by omega
      have a4 : c.excluded.length ≤ 50 := by omega
      simp only [a1, a2, a3, a4, true_and]
      cases compileKeywords c.lookAhead (fun _ => false) c.included with
      | error e => simp
      | ok inc =>
        cases compileKeywords c.lookAhead isStripped c.excluded with
        | error e => simp
        | ok exc => simp

/-- C28: the error is that of the first violated condition: look-ahead, number of keywords, then the first
faulty included keyword, then the first faulty excluded keyword. -/
theorem C28_first_error (c : KwConfig) (e : KwError) : compileConfig c = .error e ↔
    ((c.lookAhead = 0 ∨ c.lookAhead > 50) ∧ e = .invalidLookAhead) ∨
    ((1 ≤ c.lookAhead ∧ c.lookAhead ≤ 50) ∧
      (((c.included.length > 50 ∨ c.excluded.length > 50) ∧ e = .tooManyKeywords) ∨
       ((c.included.length ≤ 50 ∧ c.excluded.length ≤ 50) ∧
         (FirstFault c.lookAhead Blank c.included e ∨
          ((∀ k ∈ c.included, k.length ≤ c.lookAhead ∧ ¬ Blank k) ∧
            FirstFault c.lookAhead BlankIgnoring c.excluded e))))) := by
  obtain ⟨hi, hi'⟩ := compileKeywords_spec c.lookAhead (fun _ => false) Blank blank_iff c.included
  obtain ⟨he, he'⟩ := compileKeywords_spec c.lookAhead isStripped BlankIgnoring blankIgnoring_iff c.excluded
  unfold compileConfig
  rw [← hi, ← hi', ← he']
  by_cases h1 : c.lookAhead = 0 ∨ c.lookAhead > 50
  · rw [if_pos h1]
    have h1' : ¬ (1 ≤ c.lookAhead ∧ c.lookAhead ≤ 50) := by omega
    simp [h1, h1', eq_comm]
  · rw [if_neg h1]
    have h1' : 1 ≤ c.lookAhead ∧ c.lookAhead ≤ 50 := by omega
    by_cases h2 : c.included.length > 50 ∨ c.excluded.length > 50
    · rw [if_pos h2]
      have h2' : ¬ (c.included.length ≤ 50 ∧ c.excluded.length ≤ 50) := by omega
      simp only [h1, h1', h2, h2', false_and, true_and, false_or, or_false, and_self, Except.error.injEq, eq_comm]
    · rw [if_neg h2]
      have h2' : c.included.length ≤ 50 ∧ c.excluded.length ≤ 50 := by omega
      simp only [h1, h1', h2, h2', false_and, true_and, false_or, and_self]
      cases compileKeywords c.lookAhead (fun _ => false) c.included with
      | error e => simp
      | ok inc =>
        cases compileKeywords c.lookAhead isStripped c.excluded with
        | error e => simp
        | ok exc => simp

example : compileConfig ⟨5, ["id".toList, "abcdef".toList, " ".toList], ["-_".toList]⟩ = .error (.keywordTooLong 5) ∧
    compileConfig ⟨5, ["id".toList], [" -_".toList]⟩ = .error .emptyKeyword ∧
    compileConfig ⟨5, ["id".toList], [" a-b".toList]⟩ = .ok (some ["id".toList], some ["ab".toList]) :=
  ⟨rfl, rfl, rfl⟩

/-- C29: a keyword is found at `p..q` iff the text there equals it up to case and, where it begins or ends
with an ASCII letter or digit, no ASCII word character adjoins.  Restriction: the case folding does not relate
ASCII letters with other characters (see `C29_kelvin`). -/
theorem C29_whole_words_partial {eqc : Char → Char → Bool} (hf : AsciiFold eqc) (kw content : Str) (p q : Nat) :
    kwMatchAt eqc kw content p = some q ↔
      ∃ a m b, content = a ++ m ++ b ∧ blen a = p ∧ blen (a ++ m) = q ∧ Occurs eqc kw a m b :=
  kwMatchAt_occurs hf kw content p q

example : AsciiFold (fun k c => k == c) ∧
    kwMatchAt foldAscii "Id".toList "é iD: void".toList 3 = some 5 ∧
    kwMatchAt foldAscii "Id".toList "é iD: void".toList 9 = none := by
  refine ⟨fun k c h => ?_, by decide, by decide⟩
  have : k = c := by simpa using h
  rw [this]

/-- Unicode simple case folding relates `k` and the Kelvin sign. -/
private def foldKelvin (k c : Char) : Bool :=
  asciiLower k == asciiLower c || (asciiLower k == 'k' && c == 'K')

/-- C29, finding: a text equal to the keyword up to case is found only *inside* a word if its first letter is
the Kelvin sign. -/
theorem C29_kelvin :
    Occurs foldKelvin "key".toList " ".toList "Key".toList " ".toList ∧
    kwMatchAt foldKelvin "key".toList " Key ".toList 1 = none ∧
    kwMatchAt foldKelvin "key".toList "xKey ".toList 1 = some 6 := by
  refine ⟨⟨.cons (by decide) (.cons (by decide) (.cons (by decide) .nil)), ?_, ?_⟩, by decide, by decide⟩ <;>
  · intro k _ _ c hc
    simp at hc
    subst hc
    decide

/-- C30, fields: for names of only lower-case or only upper-case ASCII letters the shortcut gives what the
general algorithm followed by lower-casing gives; `PathSegment::sanitize` and `Path::sanitize` agree. -/
theorem C30_shortcut_invisible (f : Str) :
    sanitizeField f = (standardize f).map Char.toLower ∧ sanitizeSeg (.field f) = some (sanitizeField f) := by
  rw [← asciiLower_toLower]
  unfold sanitizeField sanitizeSeg shouldBypass
  cases h : bypassLoop true true f with
  | no => simp [h]
  | allLower =>
    obtain ⟨_, hl⟩ := bypassLoop_lower h
    have hs := standardize_same (ty := .regular) (by simp) (fun c hc => lower_regular (hl c hc))
    have hm : f.map asciiLower = f := by
      conv => rhs; rw [← List.map_id f]
      exact List.map_congr_left (fun c hc => asciiLower_of_lower (hl c hc))
    simp [h, hs, hm]
  | allUpper =>
    obtain ⟨_, hl⟩ := bypassLoop_upper (Or.inl rfl) h
    have hs := standardize_same (ty := .uppercase) (by simp) (fun c hc => upper_uppercase (hl c hc))
    simp [h, hs]

example : sanitizeField "ACCESS".toList = "access".toList ∧ sanitizeField "awsAccess-key_Id".toList =
    "aws.access.key.id".toList := by decide

/-- C30, paths: the normalised path is the dot-join of the normalised field names, if the path does not begin
with a list index.  Missing: paths that begin with an index, see `C30_leading_dot`. -/
theorem C30_path_is_join_partial (p : Path) (h : ∀ i, p.head? ≠ some (.index i)) :
    sanitizePath p = dotJoin ((fieldsOf p).map sanitizeField) := by
  cases p with
  | nil => rfl
  | cons s p =>
    cases s with
    | index i => exact absurd rfl (h i)
    | field f =>
      simp only [sanitizePath, sanitizeLoop, fieldsOf, List.map_cons, dotJoin_cons, sanitizeLoop_succ]
      simp [List.flatMap_map]

/-- C30, paths beginning with an index: there is a dot in front of every field name. -/
theorem C30_leading_dot (i : Nat) (p : Path) :
    sanitizePath (.index i :: p) = (fieldsOf p).flatMap (fun f => '.' :: sanitizeField f) := by
  simp [sanitizePath, sanitizeLoop, sanitizeLoop_succ]

example : sanitizePath [.field "Aws".toList, .index 3, .field "KEY".toList] = "aws.key".toList ∧
    sanitizePath [.index 3, .field "KEY".toList] = ".key".toList := by decide

end Sds.Props
