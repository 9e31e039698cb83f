import Verif.Lemmas.ParserShape
import Verif.Lemmas.RustLimits
import Verif.Lemmas.RustReject
import Verif.Props.Meaning
import Verif.Props.Parser

/-! # C71: the text of a converted pattern means what its tree means -/

namespace Sds.Props
open Sds Spec Re

variable {T : Tables}

/-- C71: the crate reads the text of a converted pattern, and what it reads differs from the converted tree only in the
bracketing of sequences.

The restrictions: quantifiers repeat one unit, flag groups are not empty, ranges and counts are ordered, group names are
distinct, and whitespace under a quantifier is not ignored.  The theorems below show that each one is needed.  No
restriction is needed for the crate's limit on nesting: the scanner's own limit is lower. -/
theorem C71_text_read_partial {s : Str} {a : Ast} {r : RAst} (h : parseRegexPattern s = .ok (.ok a))
    (hr : convertAst a = .ok r) (hu : RepeatsUnits a) (hf : FlagsGiven a) (ho : OrderedRanges a) (hc : OrderedCounts a)
    (hn : DistinctNames a) (hs : NoIgnoreSpace a ∨ EscapedSpaces a) :
    convertToRustRegex s = .ok (.ok r.print) ∧
      ∃ r', readRust r.print = some r' ∧
        ∀ T, SameParts (rustMeaning T r rustDefaults).1 (rustMeaning T r' rustDefaults).1 := by
  refine ⟨by simp [convertToRustRegex, h, hr], ?_⟩
  obtain ⟨r', hb⟩ := conv_body a (x := false) (parse_shaped h) ⟨hu, hf, ho, hc⟩ (hs.imp (fun h => ⟨rfl, h⟩) id) hr
  obtain ⟨h1, h2⟩ := body_limits _ hb (Nat.lt_succ_self _)
  obtain ⟨h3, h4⟩ := convert_limits a hr
  have h5 := C52_accepted_height s a h
  refine ⟨r', readRust_print hb ?_ ?_, fun T => body_meaning (T := T) _ hb (Nat.lt_succ_self _) rustDefaults rfl⟩
  · show r'.depth ≤ 250
    omega
  · rw [h2, h4]; exact hn

/-- C71, rejections: where quantifiers repeat one unit and whitespace is not ignored, the crate rejects the text of a
converted pattern exactly if a flag group is empty, a range or a count is not in order, or two groups have the same name.
Of these patterns the scanner's own parser accepts all. -/
theorem C71_read_iff_partial {s : Str} {a : Ast} {r : RAst} (h : parseRegexPattern s = .ok (.ok a))
    (hr : convertAst a = .ok r) (hu : RepeatsUnits a) (hs : NoIgnoreSpace a ∨ EscapedSpaces a) :
    (∃ r', readRust r.print = some r') ↔ FlagsGiven a ∧ OrderedRanges a ∧ OrderedCounts a ∧ DistinctNames a := by
  constructor
  · rintro ⟨r', hread⟩
    have hx : SpaceOk false a := hs.imp (fun h => ⟨rfl, h⟩) id
    by_cases hc : Checked a
    · refine ⟨hc.flags, hc.ranges, hc.counts, ?_⟩
      obtain ⟨b, hb⟩ := conv_body a (parse_shaped h) (hc.patternOk hu) hx hr
      rw [readRust_body hb] at hread
      split at hread
      · next hlim =>
        have h1 := hlim.2
        rw [(body_limits _ hb (Nat.lt_succ_self _)).2, (convert_limits a hr).2] at h1
        exact h1
      · cases hread
    · rw [readRust_unchecked (parse_shaped h) hu hc hx hr] at hread
      cases hread
  · rintro ⟨hf, ho, hc, hn⟩
    obtain ⟨_, r', h1, _⟩ := C71_text_read_partial h hr hu hf ho hc hn hs
    exact ⟨r', h1⟩

/-- Expressions that differ only in the bracketing of sequences match the same texts at the same places. -/
theorem C71_bracketing_irrelevant {n n' : Node} (h : SameParts n n') (before mid after : Str) :
    Spans T n before mid after ↔ Spans T n' before mid after := by
  rw [spans_parts n, spans_parts n', h]

/-- C71 with C68: the text that the scanner hands to the crate matches what the SDS pattern matches. -/
theorem C71_text_matches_partial {s text : Str} {a : Ast} (h : parseRegexPattern s = .ok (.ok a))
    (ht : convertToRustRegex s = .ok (.ok text)) (hu : RepeatsUnits a) (hf : FlagsGiven a) (ho : OrderedRanges a)
    (hc : OrderedCounts a) (hn : DistinctNames a) (hs : NoIgnoreSpace a ∨ EscapedSpaces a) (hend : NoEndAssertion a)
    (hsp : AsciiSpaces a) (hl : NoLetterClass a ∨ NoIgnoreCase a) :
    ∃ r', readRust text = some r' ∧ ∀ T before mid after,
      Spans T (meaning T a noFlags).1 before mid after ↔ Spans T (rustMeaning T r' rustDefaults).1 before mid after := by
  cases hr : convertAst a with
  | error e => simp [convertToRustRegex, h, hr] at ht
  | ok r =>
    obtain ⟨h1, r', h2, h3⟩ := C71_text_read_partial h hr hu hf ho hc hn hs
    rw [h1] at ht
    cases ht
    refine ⟨r', h2, fun T before mid after => ?_⟩
    rw [← C68_same_meaning_partial T hr hend hsp hl]
    exact C71_bracketing_irrelevant (h3 T) before mid after

/-! ## A pattern that meets the hypotheses -/

theorem partOf_leaf {a b : Ast} (h : (∃ l, b = .literal l) ∨ (∃ c, b = .characterClass c) ∨
    (∃ k, b = .assertion k) ∨ (∃ f, b = .flags f)) : PartOf a b ↔ a = b := by
  constructor
  · intro hp
    cases hp with
    | self => rfl
    | concat | alternation | group | repetition => simp at h
  · rintro rfl; exact .self _

theorem partOf_concat {a : Ast} {l : List Ast} :
    PartOf a (.concat l) ↔ a = .concat l ∨ ∃ b ∈ l, PartOf a b := by
  constructor
  · intro h
    cases h with
    | self => exact .inl rfl
    | concat hb h => exact .inr ⟨_, hb, h⟩
  · rintro (rfl | ⟨b, hb, h⟩)
    · exact .self _
    · exact .concat hb h

theorem partOf_alternation {a : Ast} {l : List Ast} :
    PartOf a (.alternation l) ↔ a = .alternation l ∨ ∃ b ∈ l, PartOf a b := by
  constructor
  · intro h
    cases h with
    | self => exact .inl rfl
    | alternation hb h => exact .inr ⟨_, hb, h⟩
  · rintro (rfl | ⟨b, hb, h⟩)
    · exact .self _
    · exact .alternation hb h

theorem partOf_group {a b : Ast} {k : GroupKind} : PartOf a (.group k b) ↔ a = .group k b ∨ PartOf a b := by
  constructor
  · intro h
    cases h with
    | self => exact .inl rfl
    | group h => exact .inr h
  · rintro (rfl | h)
    · exact .self _
    · exact .group h

theorem partOf_repetition {a b : Ast} {q : Quantifier} :
    PartOf a (.repetition q b) ↔ a = .repetition q b ∨ PartOf a b := by
  constructor
  · intro h
    cases h with
    | self => exact .inl rfl
    | repetition h => exact .inr h
  · rintro (rfl | h)
    · exact .self _
    · exact .repetition h

/-- Flags, a named group with alternatives, a negated class, counted and lazy repetitions. -/
example : ∃ a r, parseRegexPattern "(?i)(?<n>k *|(?<m>[^b-d\\s])+?){2,5}\\b".toList = .ok (.ok a) ∧ convertAst a = .ok r ∧
    RepeatsUnits a ∧ FlagsGiven a ∧ OrderedRanges a ∧ OrderedCounts a ∧ DistinctNames a ∧
    (NoIgnoreSpace a ∨ EscapedSpaces a) ∧ NoEndAssertion a ∧ AsciiSpaces a ∧
    (NoLetterClass a ∨ NoIgnoreCase a) ∧
    r.print = "(?i)(?<n>k *|(?<m>[^b-d[\\x{D}\\x{A}\\x{9}\\x{C}\\x{B}\\x{20}]])+?){2,5}(?-u:\\b)".toList := by
  refine ⟨.concat [.flags ⟨[.caseInsensitive], []⟩,
    .repetition ⟨false, .rangeMinMax 2 5⟩ (.group (.namedCapturing ['n']) (.alternation [.concat [.literal ⟨'k', false⟩,
      .repetition ⟨false, .zeroOrMore⟩ (.literal ⟨' ', false⟩)],
      .repetition ⟨true, .oneOrMore⟩ (.group (.namedCapturing ['m'])
        (.characterClass (.bracket true [.range 'b' 'd', .perl .space])))])),
    .assertion .wordBoundary], _, by decide +kernel, rfl, ?_, ?_, ?_, ?_,
    by unfold DistinctNames; decide, .inl ?_, ?_, ?_, .inl ?_, by decide +kernel⟩
  · intro q b h
    simp [partOf_concat, partOf_alternation, partOf_group, partOf_repetition, partOf_leaf] at h
    rcases h with ⟨_, rfl⟩ | ⟨_, rfl⟩ | ⟨_, rfl⟩ <;> simp [OneUnit]
  · intro f h
    simp [partOf_concat, partOf_alternation, partOf_group, partOf_repetition, partOf_leaf] at h
    subst h
    simp
  · intro n l h x y hxy
    simp [partOf_concat, partOf_alternation, partOf_group, partOf_repetition, partOf_leaf] at h
    obtain ⟨_, rfl⟩ := h
    simp at hxy
    obtain ⟨rfl, rfl⟩ := hxy
    decide
  · intro q b h n m hq
    simp [partOf_concat, partOf_alternation, partOf_group, partOf_repetition, partOf_leaf] at h
    rcases h with ⟨rfl, rfl⟩ | ⟨rfl, rfl⟩ | ⟨rfl, rfl⟩ <;> simp at hq
    omega
  · unfold NoIgnoreSpace
    simp [partOf_concat, partOf_alternation, partOf_group, partOf_repetition, partOf_leaf]
  · unfold NoEndAssertion
    simp [partOf_concat, partOf_alternation, partOf_group, partOf_repetition, partOf_leaf]
  · intro l h
    simp [partOf_concat, partOf_alternation, partOf_group, partOf_repetition, partOf_leaf] at h
    rcases h with rfl | rfl <;> decide
  · unfold NoLetterClass
    simp [partOf_concat, partOf_alternation, partOf_group, partOf_repetition, partOf_leaf, HasLetters]

/-- A pattern to which the theorem on rejections applies, and that is rejected. -/
example : ∃ a r, parseRegexPattern "k(x[b-a])?".toList = .ok (.ok a) ∧ convertAst a = .ok r ∧ RepeatsUnits a ∧
    NoIgnoreSpace a ∧ FlagsGiven a ∧ ¬ OrderedRanges a ∧ readRust r.print = none := by
  refine ⟨.concat [.literal ⟨'k', false⟩, .repetition ⟨false, .zeroOrOne⟩ (.group .capturing (.concat [.literal ⟨'x', false⟩,
    .characterClass (.bracket false [.range 'b' 'a'])]))], _, by decide +kernel, rfl, ?_, ?_, ?_, ?_, by rfl⟩
  · intro q b h
    simp [partOf_concat, partOf_group, partOf_repetition, partOf_leaf] at h
    rw [h.2]; simp [OneUnit]
  · unfold NoIgnoreSpace
    simp [partOf_concat, partOf_group, partOf_repetition, partOf_leaf]
  · intro f h
    simp [partOf_concat, partOf_group, partOf_repetition, partOf_leaf] at h
  · intro h
    have := h false [.range 'b' 'a'] (by simp [partOf_concat, partOf_group, partOf_repetition, partOf_leaf]) 'b' 'a' (by simp)
    revert this; decide

/-- Nested sequences differ only in bracketing, and a repeated sequence is not the sequence of its repetitions. -/
example : SameParts (.seq [.seq [.look .textStart], .eps, .look .textEnd]) (.seq [.look .textStart, .look .textEnd]) ∧
    ¬ SameParts (.seq [.look .textStart, .rep 0 none true (.look .textEnd)])
      (.rep 0 none true (.seq [.look .textStart, .look .textEnd])) := by
  constructor
  · simp [SameParts, parts, partsAll]
  · simp [SameParts, parts, partsAll]

/-! ## Why the restrictions -/

private theorem rep_set {P : Char → Prop} {lo : Nat} {hi : Option Nat} {g : Bool} {p m q : Str}
    (h : Spans T (.rep lo hi g (.set P)) p m q) : ∀ c ∈ m, P c := by
  generalize hr : Node.rep lo hi g (.set P) = r at h
  induction h generalizing lo hi with
  | repZero => simp
  | repSucc hh h1 h2 ih1 ih2 =>
    cases hr
    cases h1 with
    | set h =>
      intro c hc
      simp only [List.cons_append, List.nil_append, List.mem_cons] at hc
      rcases hc with rfl | hc
      · exact h
      · exact ih2 rfl c hc
  | _ => cases hr

private theorem rep_eps {lo : Nat} {hi : Option Nat} {g : Bool} {p m q : Str}
    (h : Spans T (.rep lo hi g .eps) p m q) : m = [] := by
  generalize hr : Node.rep lo hi g .eps = r at h
  induction h generalizing lo hi with
  | repZero => rfl
  | repSucc hh h1 h2 ih1 ih2 =>
    cases hr
    cases h1
    simp [ih2 rfl]
  | _ => cases hr

/-- C71 fails for a repeated quotation: the converted tree repeats all of it, and the crate reads that only its last
character is repeated. -/
theorem C71_quotation_not_repeated (T : Tables) :
    ∃ a r r', parseRegexPattern "\\Qab\\E*".toList = .ok (.ok a) ∧ convertAst a = .ok r ∧
      readRust r.print = some r' ∧
      Spans T (rustMeaning T r rustDefaults).1 [] "abab".toList [] ∧
      ¬ Spans T (rustMeaning T r' rustDefaults).1 [] "abab".toList [] := by
  refine ⟨.repetition ⟨false, .zeroOrMore⟩ (.concat [.literal ⟨'a', true⟩, .literal ⟨'b', true⟩]),
    .repetition .zeroOrMore true (.concat [.literal ⟨.verbatim, 'a'⟩, .literal ⟨.verbatim, 'b'⟩]),
    .concat [.literal ⟨.verbatim, 'a'⟩, .repetition .zeroOrMore true (.literal ⟨.verbatim, 'b'⟩)],
    by decide +kernel, by rfl, by rfl, ?_, ?_⟩
  · have hm : (rustMeaning T (.repetition .zeroOrMore true (.concat [.literal ⟨.verbatim, 'a'⟩,
        .literal ⟨.verbatim, 'b'⟩])) rustDefaults).1 =
        .rep 0 none true (.seq [.set (near T false (· = 'a')), .set (near T false (· = 'b'))]) := by
      simp [rustMeaning, rustMeaningList, rustDefaults, rustBounds]
    rw [hm]
    have hab : ∀ p q, Spans T (.seq [.set (near T false (· = 'a')), .set (near T false (· = 'b'))]) p ['a', 'b'] q :=
      fun p q => Spans.seqCons (m := ['a']) (m' := ['b']) (.set (by simp [near]))
        (Spans.seqCons (m := ['b']) (m' := []) (.set (by simp [near])) .seqNil)
    exact Spans.repSucc (m := ['a', 'b']) (m' := ['a', 'b']) (by simp) (hab _ _)
      (Spans.repSucc (m := ['a', 'b']) (m' := []) (by simp) (hab _ _) .repZero)
  · have hm : (rustMeaning T (.concat [.literal ⟨.verbatim, 'a'⟩,
        .repetition .zeroOrMore true (.literal ⟨.verbatim, 'b'⟩)]) rustDefaults).1 =
        .seq [.set (near T false (· = 'a')), .rep 0 none true (.set (near T false (· = 'b')))] := by
      simp [rustMeaning, rustMeaningList, rustDefaults, rustBounds]
    rw [hm]
    intro h
    obtain ⟨m1, m2, e, h1, h2⟩ := spans_seq_cons.1 h
    rw [spans_seq_one] at h2
    cases h1 with
    | set _ =>
      simp only [String.toList, List.cons_append, List.nil_append] at e
      have := rep_set h2 'a' (by
        have e : ['a', 'b', 'a', 'b'] = _ := e
        simp only [List.cons.injEq] at e
        rw [← e.2]; simp)
      simp [near] at this

/-- C71 fails for a repeated `$`: the converted tree repeats an optional newline before the end of the text, and the
crate reads an optional newline anywhere. -/
theorem C71_end_not_repeated (T : Tables) :
    ∃ a r r', parseRegexPattern "$?".toList = .ok (.ok a) ∧ convertAst a = .ok r ∧ readRust r.print = some r' ∧
      ¬ Spans T (rustMeaning T r rustDefaults).1 [] ['\n'] ['b'] ∧
      Spans T (rustMeaning T r' rustDefaults).1 [] ['\n'] ['b'] := by
  refine ⟨.repetition ⟨false, .zeroOrOne⟩ (.assertion .endLine),
    .repetition .zeroOrOne true (.concat [.repetition .zeroOrOne true (.literal ⟨.hexBrace, '\n'⟩), .assertion .endLine]),
    .concat [.repetition .zeroOrOne true (.literal ⟨.hexBrace, '\n'⟩), .repetition .zeroOrOne true (.assertion .endLine)],
    by decide +kernel, by rfl, by rfl, ?_, ?_⟩
  · have hm : (rustMeaning T (.repetition .zeroOrOne true (.concat [.repetition .zeroOrOne true
        (.literal ⟨.hexBrace, '\n'⟩), .assertion .endLine])) rustDefaults).1 =
        .rep 0 (some 1) true (.seq [.rep 0 (some 1) true (.set (near T false (· = '\n'))), .look .textEnd]) := by
      simp [rustMeaning, rustMeaningList, rustDefaults, rustBounds, rustLookOf]
    rw [hm]
    intro h
    generalize hmid : ['\n'] = mid at h
    cases h with
    | repZero => cases hmid
    | repSucc hh h1 h2 =>
      obtain ⟨m1, m2, _, _, h3⟩ := spans_seq_cons.1 h1
      rw [spans_seq_one] at h3
      cases h3 with
      | look h => simp [LookAt] at h
  · have hm : (rustMeaning T (.concat [.repetition .zeroOrOne true (.literal ⟨.hexBrace, '\n'⟩),
        .repetition .zeroOrOne true (.assertion .endLine)]) rustDefaults).1 =
        .seq [.rep 0 (some 1) true (.set (near T false (· = '\n'))), .rep 0 (some 1) true (.look .textEnd)] := by
      simp [rustMeaning, rustMeaningList, rustDefaults, rustBounds, rustLookOf]
    rw [hm]
    refine Spans.seqCons (m := ['\n']) (m' := []) ?_ (Spans.seqCons (m := []) (m' := []) .repZero .seqNil)
    exact Spans.repSucc (m := ['\n']) (m' := []) (by simp) (.set (by simp [near])) .repZero

/-- C71 fails for a quantifier after ignored whitespace: the converted tree repeats nothing, and the crate reads a
repetition of what is before the whitespace. -/
theorem C71_ignored_space_repeated (T : Tables) :
    ∃ a r r', parseRegexPattern "(?x)a *".toList = .ok (.ok a) ∧ convertAst a = .ok r ∧ readRust r.print = some r' ∧
      ¬ Spans T (rustMeaning T r rustDefaults).1 [] "aa".toList [] ∧
      Spans T (rustMeaning T r' rustDefaults).1 [] "aa".toList [] := by
  refine ⟨.concat [.flags ⟨[.ignoreWhitespace], []⟩, .literal ⟨'a', false⟩,
      .repetition ⟨false, .zeroOrMore⟩ (.literal ⟨' ', false⟩)],
    .concat [.flags [.flag .ignoreWhitespace], .literal ⟨.verbatim, 'a'⟩,
      .repetition .zeroOrMore true (.literal ⟨.verbatim, ' '⟩)],
    .concat [.flags [.flag .ignoreWhitespace], .repetition .zeroOrMore true (.literal ⟨.verbatim, 'a'⟩)],
    by decide +kernel, by rfl, by rfl, ?_, ?_⟩
  · have hm : (rustMeaning T (.concat [.flags [.flag .ignoreWhitespace], .literal ⟨.verbatim, 'a'⟩,
        .repetition .zeroOrMore true (.literal ⟨.verbatim, ' '⟩)]) rustDefaults).1 =
        .seq [.eps, .set (near T false (· = 'a')), .rep 0 none true .eps] := by
      have h1 : isWs 'a' = false := by decide
      have h2 : isWs ' ' = true := by decide
      simp [rustMeaning, rustMeaningList, rustDefaults, rustBounds, rustFlagsAfter, switch, h1, h2]
    rw [hm]
    intro h
    obtain ⟨m1, m2, e, h1, h2⟩ := spans_seq_cons.1 h
    obtain ⟨m3, m4, rfl, h3, h4⟩ := spans_seq_cons.1 h2
    rw [spans_seq_one] at h4
    have e4 := rep_eps h4
    cases h1
    cases h3
    have := congrArg List.length e
    simp [e4] at this
  · have hm : (rustMeaning T (.concat [.flags [.flag .ignoreWhitespace],
        .repetition .zeroOrMore true (.literal ⟨.verbatim, 'a'⟩)]) rustDefaults).1 =
        .seq [.eps, .rep 0 none true (.set (near T false (· = 'a')))] := by
      have h1 : isWs 'a' = false := by decide
      simp [rustMeaning, rustMeaningList, rustDefaults, rustBounds, rustFlagsAfter, switch, h1]
    rw [hm]
    refine Spans.seqCons (m := []) (m' := ['a', 'a']) .eps (Spans.seqCons (m := ['a', 'a']) (m' := []) ?_ .seqNil)
    exact Spans.repSucc (m := ['a']) (m' := ['a']) (by simp) (.set (by simp [near]))
      (Spans.repSucc (m := ['a']) (m' := []) (by simp) (.set (by simp [near])) .repZero)

/-- C71: the scanner's own parser accepts these patterns, and the crate rejects what they are converted to: flag
groups without flags, repeated flags, repeated nothing, ranges or counts that are not in order, and two groups with the
same name. -/
theorem C71_text_rejected :
    ∀ s ∈ ["(?)", "(?-)a", "(?i)*", "\\Q\\E*", "[b-a]", "a{3,2}", "(?<n>a)(?<n>b)"],
      ∃ a r, parseRegexPattern s.toList = .ok (.ok a) ∧ convertAst a = .ok r ∧ readRust r.print = none := by
  have key : ∀ s ∈ ["(?)", "(?-)a", "(?i)*", "\\Q\\E*", "[b-a]", "a{3,2}", "(?<n>a)(?<n>b)"],
      (match parseRegexPattern (String.toList s) with
      | .ok (.ok a) =>
        match convertAst a with
        | .ok r => (readRust r.print).isNone
        | .error _ => false
      | _ => false) = true := by decide +kernel
  intro s hs
  have := key s hs
  split at this
  · rename_i a ha
    split at this
    · rename_i r hr
      exact ⟨a, r, ha, hr, by simpa using this⟩
    · cases this
  · cases this

/-- Text the printer does not produce: unescaped `-` and `]` at the beginning of a class stand for themselves, and
the operators on classes are not part of the model. -/
example :
    readRust "[-a]".toList = some (.classBracketed ⟨false, .union [.literal ⟨.verbatim, '-'⟩, .literal ⟨.verbatim, 'a'⟩]⟩) ∧
    readRust "[^]a]".toList = some (.classBracketed ⟨true, .union [.literal ⟨.verbatim, ']'⟩, .literal ⟨.verbatim, 'a'⟩]⟩) ∧
    readRust "[a&&b]".toList = none ∧ readRust "[a--b]".toList = none ∧ readRust "[a~~b]".toList = none ∧
    (readRust "[a&b~c]".toList).isSome = true := by
  refine ⟨by rfl, by rfl, by rfl, by rfl, by rfl, by rfl⟩

end Sds.Props
