import Verif.Spec.Engine
import Verif.Props.RustSyntax
import Verif.Props.PatternCheck
import Verif.Props.EndToEnd

/-! # C76: from the text of a pattern to the scanned event

Composition of the parser (C52), the conversion (C53, C68), the text handed to the crate (C71), validation (C70), the
search (C19, C20), conflict resolution (C01-C03) and redaction (C10). -/

namespace Sds.Props
open Sds Sds.Spec Sds.Re

variable {T : Tables} {pick : Node → Rx} {build : Str → Nat → Except RegexErr Rx}

theorem matchesAt_text {n : Node} {c : Str} {s e : Nat} (h : MatchesAt T n c s e) : ∃ t, TextAt c s e t := by
  obtain ⟨a, m, b, h1, h2, h3, _⟩ := h
  exact ⟨m, a, b, h1, h2, h3⟩

/-- What an engine chooses starts and ends at characters. -/
theorem chooses_lawful (hp : Chooses T pick) (n : Node) : LawfulRx (pick n) := by
  intro c s e h
  obtain ⟨a, m, b, rfl, rfl, rfl, _⟩ := hp.sound n c s e h
  exact ⟨by omega, ⟨a, m ++ b, by simp, rfl⟩, a ++ m, b, rfl, by simp⟩

/-- If an expression never matches the empty text, neither does what the engine chooses. -/
theorem chooses_nonEmpty (hp : Chooses T pick) {n : Node} (hn : NeverEmpty T n) : NonEmptyRx (pick n) := by
  intro c s e h
  obtain ⟨a, m, b, rfl, rfl, rfl, hs⟩ := hp.sound n c s e h
  cases m with
  | nil => exact absurd hs (hn a b)
  | cons x m =>
    have := blen_pos (s := x :: m) (by simp)
    omega

/-- C76, acceptance: the regex that the scanner uses for an accepted pattern chooses among the matches of the pattern
itself, and the pattern does not match the empty text.  Missing: patterns that are not `Convertible`, for which C68 and
C71 have counterexamples. -/
theorem C76_regex_of_pattern_partial (hp : Chooses T pick) (hb : Builds T pick build) {s : Str} {a : Ast} {rx : Rx}
    (ha : Syntax.Denotes s a) (hc : Convertible a) (h : validatePattern build matchesNothing s = .ok (.ok rx)) :
    rx = pick (meaning T a noFlags).1 ∧ ¬ Spans T (meaning T a noFlags).1 [] [] [] := by
  obtain ⟨a', r, h1, h2, _, h3, h4, h5⟩ := (C70_accepted_iff build matchesNothing s rx).1 h
  have hread := (C82_accepted_iff s a').2 ⟨h1, h2⟩
  obtain rfl := C82_denotes_unique h1 ha
  obtain ⟨r'', h8, h9⟩ := hb _ _ _ h4
  obtain ⟨hf, ho, hcn, hnm⟩ := (C71_read_iff_partial hread h3 hc.units hc.spaces).1 ⟨_, h8⟩
  obtain ⟨_, r', h6, h7⟩ := C71_text_read_partial hread h3 hc.units hf ho hcn hnm hc.spaces
  rw [h6] at h8
  cases h8
  have hrx : rx = pick (meaning T a' noFlags).1 := by
    rw [h9, ← hp.bracketing _ _ (h7 T), C68_same_meaning_partial T h3 hc.ends hc.ascii hc.letters]
  refine ⟨hrx, fun hs => ?_⟩
  have := hp.complete _ [] 0 0 ⟨[], [], [], rfl, rfl, rfl, hs⟩
  rw [← hrx] at this
  simp [matchesNothing] at h5
  exact this h5

/-- C76, search: what the rule of an accepted pattern finds in a string are matches of the pattern at these places; without
validator and keywords, every place where the pattern matches lies in one of them. -/
theorem C76_search_partial (hp : Chooses T pick) (hb : Builds T pick build) {s : Str} {a : Ast} {r : RegexRule}
    (ha : Syntax.Denotes s a) (hc : Convertible a) (hn : NeverEmpty T (meaning T a noFlags).1)
    (h : validatePattern build matchesNothing s = .ok (.ok r.rx)) (hi : r.included = none)
    {kp : Bool} {c : Str} {path : Path} {fuel : Nat} {f : Found} (hf : stringMatches r kp false c path fuel = Res.ok f) :
    (∀ m ∈ f.matches_, MatchesAt T (meaning T a noFlags).1 c m.1 m.2) ∧
    (r.validator = none → r.excluded = none → ∀ p e, MatchesAt T (meaning T a noFlags).1 c p e →
      ∃ m ∈ f.matches_, m.1 ≤ p ∧ p < m.2) := by
  obtain ⟨hrx, _⟩ := C76_regex_of_pattern_partial hp hb ha hc h
  have hl : LawfulRx r.rx := hrx ▸ chooses_lawful hp _
  have hne : NonEmptyRx r.rx := hrx ▸ chooses_nonEmpty hp hn
  refine ⟨fun m hm => ?_, fun hv hx p e hm => ?_⟩
  · have := (C19_regex_and_validator hl hi hf m hm).1
    rw [hrx] at this
    exact hp.sound _ _ _ _ this
  · have := hp.complete _ _ _ _ hm
    rw [← hrx] at this
    obtain ⟨e', he'⟩ := Option.ne_none_iff_exists'.1 this
    obtain ⟨m, hm, h1, h2, _⟩ := (C20_nothing_missed hl hne hi hf).2 p e'
      ⟨⟨he', by intro v hv'; rw [hv] at hv'; cases hv'⟩, by intro x hx'; rw [hx] at hx'; cases hx'⟩
    exact ⟨m, hm, h1, h2⟩

variable {E : Type} {impl : EventImpl E} {wf : E → Prop} {leavesOf : E → List Leaf} {rew : (Path → Str → Str) → E → E}

private theorem pairwise_mem {α : Type} {R : α → α → Prop} {l : List α} (h : l.Pairwise R) {a b : α} (ha : a ∈ l)
    (hb : b ∈ l) : a = b ∨ R a b ∨ R b a := by
  induction h with
  | nil => cases ha
  | @cons x l hx _ ih =>
    rcases List.mem_cons.1 ha with ha | ha
    · rcases List.mem_cons.1 hb with hb | hb
      · exact .inl (ha.trans hb.symm)
      · exact .inr (.inl (ha ▸ hx _ hb))
    · rcases List.mem_cons.1 hb with hb | hb
      · exact .inr (.inr (hb ▸ hx _ ha))
      · exact ih ha hb

/-- C76: rule number `i` of a scanner is the only one that redacts, its regex comes from an accepted pattern, and it has
neither validator nor keywords.  In every string that the rule scans, every place where the pattern matches lies in a
part `u` of the string that is itself a match of the pattern and that is replaced in the new event. -/
theorem C76_redacted_partial (hp : Chooses T pick) (hb : Builds T pick build) {s : Str} {a : Ast} {r : RegexRule}
    (ha : Syntax.Denotes s a) (hc : Convertible a) (hn : NeverEmpty T (meaning T a noFlags).1)
    (h : validatePattern build matchesNothing s = .ok (.ok r.rx))
    (hi : r.included = none) (hv : r.validator = none) (hx : r.excluded = none)
    (hE : LawfulEvent impl wf leavesOf rew) {sc : Scanner} (hok : ScannerOk sc) (blocked : List Nat) (e : E)
    (hs : Scannable wf leavesOf sc blocked e)
    {i : Nat} {info : RuleInfo} {scope : Scope} {kp : Bool} {fuel : Str → Nat}
    (hr : sc.rules[i]? = some (r.toCRule info scope kp fuel)) (hbl : i ∉ blocked) (hact : info.action ≠ .none)
    (honly : ∀ j, j ≠ i → redacting sc j = false)
    (hmp : sc.multipassEnabled = true → ∀ t, ¬ FoundInExcluded sc blocked (leavesOf e) t) :
    ∃ (G : Path → Str → Str) (os : List RuleMatch), scan impl sc e blocked = Res.ok (rew G e, os) ∧
      ∀ l ∈ leavesOf e, Scans sc.wildcards l.path scope → ¬ Excludes sc.wildcards l.path scope →
        ∀ p q, MatchesAt T (meaning T a noFlags).1 l.text p q →
          ∃ before u after before' after', l.text = before ++ u ++ after ∧
            blen before ≤ p ∧ p < blen before + blen u ∧
            Spans T (meaning T a noFlags).1 before u after ∧
            G l.path l.text = before' ++ redacted sc.fp info.action u ++ after' ∧
            ∃ o ∈ os, o.path = l.path ∧ o.rule = i ∧ o.start = impl.enc.units before' ∧
              o.stop = impl.enc.units (before' ++ redacted sc.fp info.action u) := by
  obtain ⟨out, G, h1, h2⟩ := C10_scan_result hE hok blocked e hs
  refine ⟨G, _, h1, ?_⟩
  intro l hl hsc hex p q hm
  obtain ⟨⟨ks, res, ps, tail, hk, hres, _, h3, h4, h5, h6⟩, h7⟩ := h2 l hl
  have hinfo : infoOf sc i = info := by simp [infoOf, hr, RegexRule.toCRule]
  obtain ⟨f, hf⟩ := hs.returns _ (List.mem_of_getElem? hr) l hl false
  have hf' : stringMatches r kp false l.text l.path (fuel l.text) = Res.ok f := hf
  obtain ⟨hsound, hcover⟩ := C76_search_partial hp hb ha hc hn h hi hf'
  obtain ⟨⟨st, en⟩, hmem, hst, hen⟩ := hcover hv hx p q hm
  have hrx := (C76_regex_of_pattern_partial hp hb ha hc h).1
  have hpair := (C20_nothing_missed (hrx ▸ chooses_lawful hp _) (hrx ▸ chooses_nonEmpty hp hn) hi hf').1
  have happ : Applies sc blocked l.path false i (r.toCRule info scope kp fuel) :=
    ⟨hbl, hr, hsc, by simpa [RegexRule.toCRule] using hex⟩
  have hkept : Kept sc blocked (leavesOf e) l.path l.text ⟨i, st, en⟩ := by
    refine ⟨⟨_, f, happ, hf, hmem⟩, ?_⟩
    rintro ⟨hmp', _, t, _, _, _, ht⟩
    exact hmp hmp' t ht
  have hred : redacting sc i = true := by simp [redacting, hinfo, hact]
  have hin : (⟨i, st, en⟩ : M) ∈ res := by
    rw [hres.2 _ ((hk _).2 hkept)]
    rintro ⟨⟨j, st', en'⟩, hm', hh, ho⟩
    have hj : j = i := by
      refine Classical.byContradiction fun hji => ?_
      have := honly j hji
      rcases hh with ⟨h', _⟩ | ⟨h', _⟩
      · simp only at h'; rw [this] at h'; cases h'
      · simp only at h'; rw [this, hred] at h'; cases h'
    subst hj
    obtain ⟨⟨rule, f', happ', hrun, hmem'⟩, _⟩ := (hk _).1 (hres.1 _ hm')
    have hrule : rule = r.toCRule info scope kp fuel := by
      have := happ'.2.1
      simp only at this
      rw [hr] at this
      exact (Option.some.inj this).symm
    subst hrule
    rw [hf] at hrun
    cases hrun
    have hov : st' < en ∧ st < en' := ho
    rcases pairwise_mem hpair hmem' hmem with heq | hlt | hlt
    · cases heq
      exact higher_irrefl hh
    · simp only at hlt; omega
    · simp only at hlt; omega
  rw [h4] at hin
  obtain ⟨b, u, c, b', c', e1, e2, e3, e4, o, ho, e5, e6, e7, e8, _⟩ :=
    range_effect (units := impl.enc.units) (rules := infoOf sc)
      (f := fun r t => redacted sc.fp (infoOf sc r).action t) (rm := sc.returnMatches) (path := l.path) (m := ⟨i, st, en⟩)
      [] [] tail (by simpa using hin)
  simp only [hinfo, List.nil_append] at e1 e2 e3 e4 e5 e7 e8
  obtain ⟨b2, u2, c2, g1, g2, g3, g4⟩ := hsound _ hmem
  simp only at g2 g3
  have htext : l.text = b ++ u ++ c := by rw [h3, e1]
  have huu : u2 = u := textAt_unique ⟨b2, c2, g1, g2, g3⟩ ⟨b, c, htext, e2, e3⟩
  subst huu
  have hbb : b2 = b ∧ c2 = c := by
    have heq : b2 ++ (u2 ++ c2) = b ++ (u2 ++ c) := by rw [← List.append_assoc, ← List.append_assoc, ← g1, htext]
    obtain ⟨rfl, h'⟩ := append_inj_blen heq (by omega)
    exact ⟨rfl, List.append_cancel_left h'⟩
  obtain ⟨rfl, rfl⟩ := hbb
  refine ⟨b2, u2, c2, b', c', htext, by omega, by omega, g4, by rw [h7, h6]; exact e4, o, ?_, e6, e5, e7, e8⟩
  rw [← h5] at ho
  exact List.mem_flatMap.2 ⟨l, hl, ho⟩

private theorem nothing_found {r : RegexRule} {c : Str} (hi : r.included = none) (h : ∀ s, r.rx c s = none) (path : Path) :
    stringMatches r false false c path 1 = .ok ⟨[], []⟩ := by
  have h0 : searchFrom r.rx c 0 = .ok none := by
    unfold searchFrom
    rw [if_pos (Nat.zero_le _), List.findSome?_eq_none_iff.2]
    intro p _
    rw [h p]
    simp
  simp only [stringMatches, hi, collectTp, nextTp, h0]

private theorem rep_exactly {P : Char → Prop} {n : Nat} {g : Bool} {p m q : Str}
    (h : Spans T (.rep n (some n) g (.set P)) p m q) : m.length = n ∧ ∀ c ∈ m, P c := by
  generalize hr : Node.rep n (some n) g (.set P) = r at h
  induction h generalizing n with
  | repZero => cases hr; simp
  | @repSucc lo hi g' n' p m m' q hh h1 h2 ih1 ih2 =>
    injection hr with e1 e2 e3 e4
    subst e1 e2 e3 e4
    obtain ⟨k1, k2⟩ := ih2 rfl
    cases h1 with
    | set h =>
      refine ⟨?_, ?_⟩
      · have : n ≠ 0 := fun hn => hh (by rw [hn])
        simp only [List.length_append, List.length_cons, List.length_nil, k1]
        omega
      · intro c hc
        rcases List.mem_append.1 hc with hc | hc
        · rw [List.mem_singleton.1 hc]; exact h
        · exact k2 c hc
  | _ => cases hr

/-- C76 fails for a quotation with a quantifier: `\\Qab\\E{2}` matches `abab`, but the crate reads its translation as `ab{2}`,
and whatever the engine chooses, the rule finds nothing in `abab`. -/
theorem C76_quotation_missed (hp : Chooses T pick) (hb : Builds T pick build) {r : RegexRule}
    (h : validatePattern build matchesNothing "\\Qab\\E{2}".toList = .ok (.ok r.rx)) (hi : r.included = none) :
    (∃ a, Syntax.Denotes "\\Qab\\E{2}".toList a ∧ MatchesAt T (meaning T a noFlags).1 "abab".toList 0 4) ∧
    ∀ path, stringMatches r false false "abab".toList path 1 = .ok ⟨[], []⟩ := by
  have hparse : parseRegexPattern "\\Qab\\E{2}".toList = .ok (.ok (.repetition ⟨false, .rangeExact 2⟩
    (.concat [.literal ⟨'a', true⟩, .literal ⟨'b', true⟩]))) := by decide +kernel
  constructor
  · refine ⟨_, ((C82_accepted_iff _ _).1 hparse).1, [], "abab".toList, [], rfl, rfl, rfl, ?_⟩
    have hm : (meaning T (.repetition ⟨false, .rangeExact 2⟩ (.concat [.literal ⟨'a', true⟩, .literal ⟨'b', true⟩])) noFlags).1 =
        .rep 2 (some 2) true (.seq [.set (near T false (· = 'a')), .set (near T false (· = 'b'))]) := by
      simp [meaning, meaningList, noFlags, bounds]
    rw [hm]
    have hab : ∀ p q, Spans T (.seq [.set (near T false (· = 'a')), .set (near T false (· = 'b'))]) p ['a', 'b'] q :=
      fun p q => Spans.seqCons (m := ['a']) (m' := ['b']) (.set (by simp [near]))
        (Spans.seqCons (m := ['b']) (m' := []) (.set (by simp [near])) .seqNil)
    exact Spans.repSucc (m := ['a', 'b']) (m' := ['a', 'b']) (by simp) (hab _ _)
      (Spans.repSucc (m := ['a', 'b']) (m' := []) (by simp) (hab _ _) .repZero)
  · obtain ⟨a, r', h1, h2, _, h3, h4, _⟩ := (C70_accepted_iff build matchesNothing _ _).1 h
    have ha := (C82_accepted_iff _ _).2 ⟨h1, h2⟩
    rw [hparse] at ha
    cases ha
    have hr : r'.print = "ab{2}".toList := by cases h3; decide +kernel
    obtain ⟨r'', h5, h6⟩ := hb _ _ _ h4
    rw [hr] at h5
    have h7 : readRust "ab{2}".toList = some (.concat [.literal ⟨.verbatim, 'a'⟩,
      .repetition (.exactly 2) true (.literal ⟨.verbatim, 'b'⟩)]) := by rfl
    rw [h7] at h5
    cases h5
    have hnone : ∀ s, r.rx "abab".toList s = none := by
      intro s
      cases he : r.rx "abab".toList s with
      | none => rfl
      | some e =>
        rw [h6] at he
        obtain ⟨p, m, q, g1, _, _, g⟩ := hp.sound _ _ _ _ he
        have hm : (rustMeaning T (.concat [.literal ⟨.verbatim, 'a'⟩, .repetition (.exactly 2) true (.literal ⟨.verbatim, 'b'⟩)])
            rustDefaults).1 = .seq [.set (near T false (· = 'a')), .rep 2 (some 2) true (.set (near T false (· = 'b')))] := by
          simp [rustMeaning, rustMeaningList, rustDefaults, rustBounds]
        rw [hm] at g
        have hmid : ∃ p q, "abab".toList = p ++ ['a', 'b', 'b'] ++ q := by
          refine ⟨p, q, ?_⟩
          rw [g1]
          refine congrArg (· ++ q) (congrArg (p ++ ·) ?_)
          have hset : ∀ {P : Char → Prop} {p m q : Str}, Spans T (.set P) p m q → ∃ c, m = [c] ∧ P c := by
            intro P p m q h
            cases h with | set h => exact ⟨_, rfl, h⟩
          obtain ⟨m1, m2, rfl, k1, k2⟩ := spans_seq_cons.1 g
          obtain ⟨c, rfl, hc⟩ := hset k1
          rw [spans_seq_one] at k2
          obtain ⟨k3, k4⟩ := rep_exactly k2
          simp only [near, Bool.false_eq_true, if_false] at hc k4
          match m2, k3, k4 with
          | [x, y], _, k4 =>
            rw [hc, k4 x (by simp), k4 y (by simp), List.singleton_append]
        obtain ⟨p, q, hpq⟩ := hmid
        match p, hpq with
        | [], h => simp at h
        | [_], h => simp at h
        | _ :: _ :: p, h =>
          have := congrArg List.length h
          simp at this
          omega
    intro path
    exact nothing_found hi hnone path

/-! ## An engine, a pattern, a scanner and an event that meet the hypotheses -/

/-- Some choice among the matches. -/
private noncomputable def choose (P : Str → Nat → Nat → Prop) : Rx := fun c s =>
  open Classical in if h : ∃ e, P c s e then some h.choose else none

private noncomputable def anyPick (T : Tables) : Node → Rx := fun n => choose (MatchesAt T n)

private theorem anyPick_chooses (T : Tables) : Chooses T (anyPick T) where
  sound n c s e h := by
    unfold anyPick choose at h
    split at h
    · next hex => cases h; exact hex.choose_spec
    · cases h
  complete n c s e h := by
    unfold anyPick choose
    rw [dif_pos ⟨e, h⟩]
    simp
  bracketing n n' h := by
    have : MatchesAt T n = MatchesAt T n' := by
      funext c s e
      simp only [MatchesAt, C71_bracketing_irrelevant h]
    simp only [anyPick, this]

/-- The engine builds what the crate reads. -/
def buildOf (T : Tables) (pick : Node → Rx) : Str → Nat → Except RegexErr Rx := fun text _ =>
  match readRust text with
  | some r => .ok (pick (rustMeaning T r rustDefaults).1)
  | none => .error .invalidSyntax

theorem buildOf_builds (T : Tables) (pick : Node → Rx) : Builds T pick (buildOf T pick) := by
  intro text limit rx h
  unfold buildOf at h
  split at h
  · next r hr => cases h; exact ⟨r, hr, rfl⟩
  · cases h

/-- The pattern `a[b-d]+`. -/
def rangePattern : Ast := .concat [.literal ⟨'a', false⟩, .repetition ⟨false, .oneOrMore⟩
  (.characterClass (.bracket false [.range 'b' 'd']))]

theorem rangePattern_denotes : Syntax.Denotes "a[b-d]+".toList rangePattern := bracketAst_denotes

theorem rangePattern_convertible : Convertible rangePattern where
  units := by
    intro q b h
    simp [rangePattern, partOf_concat, partOf_repetition, partOf_leaf] at h
    rw [h.2]; simp [OneUnit]
  spaces := by
    refine .inl ?_
    simp [NoIgnoreSpace, rangePattern, partOf_concat, partOf_repetition, partOf_leaf]
  ends := by simp [NoEndAssertion, rangePattern, partOf_concat, partOf_repetition, partOf_leaf]
  ascii := by
    intro l h
    simp [rangePattern, partOf_concat, partOf_repetition, partOf_leaf] at h
    rw [h]; decide
  letters := by
    refine .inl ?_
    simp [NoLetterClass, rangePattern, partOf_concat, partOf_repetition, partOf_leaf, HasLetters]

theorem rangePattern_meaning (T : Tables) : (meaning T rangePattern noFlags).1 =
    .seq [.set (near T false (· = 'a')), .rep 1 none true (.set (classSet T noFlags (.bracket false [.range 'b' 'd'])))] := by
  simp [rangePattern, meaning, meaningList, noFlags, bounds]

theorem rangePattern_neverEmpty (T : Tables) : NeverEmpty T (meaning T rangePattern noFlags).1 := by
  intro p q h
  rw [rangePattern_meaning] at h
  generalize hm : ([] : Str) = m at h
  cases h with
  | seqCons h1 h2 =>
    cases h1
    simp at hm

theorem rangePattern_matches (T : Tables) : MatchesAt T (meaning T rangePattern noFlags).1 "x acb".toList 2 5 := by
  refine ⟨"x ".toList, "acb".toList, [], rfl, rfl, rfl, ?_⟩
  rw [rangePattern_meaning]
  refine Spans.seqCons (m := ['a']) (m' := ['c', 'b']) (.set (by simp [near])) ?_
  refine Spans.seqCons (m := ['c', 'b']) (m' := []) ?_ .seqNil
  have hset : ∀ c ∈ ['b', 'c'], classSet T noFlags (.bracket false [.range 'b' 'd']) c := by
    intro c hc
    simp only [List.mem_cons, List.not_mem_nil, or_false] at hc
    simp only [classSet, signed, List.mem_singleton, exists_eq_left, itemSet, near, between, noFlags,
      Bool.false_eq_true, if_false]
    rcases hc with rfl | rfl <;> decide
  refine Spans.repSucc (m := ['c']) (m' := ['b']) (by simp) (.set (hset _ (by simp))) ?_
  exact Spans.repSucc (m := ['b']) (m' := []) (by simp) (.set (hset _ (by simp))) .repZero

theorem rangePattern_accepted {pick : Node → Rx} (hp : Chooses T pick) :
    validatePattern (buildOf T pick) matchesNothing "a[b-d]+".toList = .ok (.ok (pick (meaning T rangePattern noFlags).1)) := by
  rw [C70_accepted_iff]
  have hparse : parseRegexPattern "a[b-d]+".toList = .ok (.ok rangePattern) := by decide +kernel
  obtain ⟨r, hr⟩ : ∃ r, convertAst rangePattern = .ok r := ⟨_, rfl⟩
  have hc := rangePattern_convertible
  have hn := (C82_accepted_iff _ _).1 hparse
  have hsmall : SmallCounts rangePattern := by
    intro q b h n hn
    simp [rangePattern, partOf_concat, partOf_repetition, partOf_leaf] at h
    rw [h.1] at hn
    simp [counts] at hn
  have hf : FlagsGiven rangePattern := by
    intro f h
    simp [rangePattern, partOf_concat, partOf_repetition, partOf_leaf] at h
  have ho : OrderedRanges rangePattern := by
    intro n l h x y hxy
    simp [rangePattern, partOf_concat, partOf_repetition, partOf_leaf] at h
    rw [h.2] at hxy
    simp at hxy
    rw [hxy.1, hxy.2]; decide
  have hcn : OrderedCounts rangePattern := by
    intro q b h n m hq
    simp [rangePattern, partOf_concat, partOf_repetition, partOf_leaf] at h
    rw [h.1] at hq
    cases hq
  obtain ⟨_, r', h6, h7⟩ := C71_text_read_partial hparse hr hc.units hf ho hcn (by unfold DistinctNames; decide) hc.spaces
  refine ⟨rangePattern, r, hn.1, hn.2, hsmall, hr, ?_, ?_⟩
  · unfold buildOf
    rw [h6]
    simp only
    rw [← hp.bracketing _ _ (h7 T), C68_same_meaning_partial T hr hc.ends hc.ascii hc.letters]
  · cases hm : matchesNothing (pick (meaning T rangePattern noFlags).1) with
    | false => rfl
    | true =>
      obtain ⟨e, he⟩ := Option.isSome_iff_exists.1 hm
      have h0 := chooses_nonEmpty hp (rangePattern_neverEmpty T) _ _ _ he
      obtain ⟨_, _, c, d, h1, h2⟩ := chooses_lawful hp _ _ _ _ he
      have : c = [] := (List.append_eq_nil_iff.1 h1.symm).1
      rw [this] at h2
      simp at h2
      omega

private noncomputable def exRegexRule (T : Tables) : RegexRule := ⟨anyPick T (meaning T rangePattern noFlags).1, none, none, none⟩

private noncomputable def exScan (T : Tables) : Scanner :=
  ⟨[(exRegexRule T).toCRule ⟨.redact "#".toList, false⟩ (.excl []) false (fun c => blen c + 1)], false, false, true,
    ⟨fun s => s.length, fun s => s.length⟩⟩

private def exEvent : Ev := .map (.cons "n".toList (.str "x acb".toList) .nil)

/-- All hypotheses are met, by any tables and any choice among matches, and the pattern matches in the event. -/
example (T : Tables) : Chooses T (anyPick T) ∧ Builds T (anyPick T) (buildOf T (anyPick T)) ∧
    Syntax.Denotes "a[b-d]+".toList rangePattern ∧ Convertible rangePattern ∧ NeverEmpty T (meaning T rangePattern noFlags).1 ∧
    validatePattern (buildOf T (anyPick T)) matchesNothing "a[b-d]+".toList = .ok (.ok (exRegexRule T).rx) ∧
    LawfulEvent jsonEvent WellKeyed (Ev.leaves false) rewrite ∧ ScannerOk (exScan T) ∧
    Scannable WellKeyed (Ev.leaves false) (exScan T) [] exEvent ∧ (∀ j, j ≠ 0 → redacting (exScan T) j = false) ∧
    (∃ l ∈ Ev.leaves false exEvent, Scans false l.path (.excl []) ∧ ¬ Excludes false l.path (.excl []) ∧
      MatchesAt T (meaning T rangePattern noFlags).1 l.text 2 5) := by
  have hl := chooses_lawful (anyPick_chooses T) (meaning T rangePattern noFlags).1
  have hne := chooses_nonEmpty (anyPick_chooses T) (rangePattern_neverEmpty T)
  refine ⟨anyPick_chooses T, buildOf_builds T (anyPick T), rangePattern_denotes, rangePattern_convertible, rangePattern_neverEmpty T,
    rangePattern_accepted (anyPick_chooses T), jsonEvent_lawful, ?_, ?_, ?_, ?_⟩
  · intro rule h
    simp only [exScan, List.mem_singleton] at h
    subst h
    exact regexRule_ok hl hne (by intro k hk; cases hk) (by intro c; omega) (by simp) _ false
  · refine ⟨by simp [exEvent, WellKeyed, WellKeyedFields, keys], ?_, ?_⟩
    · intro rule h l _ ex
      simp only [exScan, List.mem_singleton] at h
      subst h
      exact stringMatches_returns (r := exRegexRule T) hl hne (by intro k hk; cases hk) false ex
        (by intro _ x hx; cases hx) l.path (Nat.lt_succ_self _)
    · intro l hl hf
      have hall : ∀ l ∈ Ev.leaves false exEvent, l.fixed = false := by decide +kernel
      rw [hall l hl] at hf
      cases hf
  · intro j hj
    cases j with
    | zero => exact absurd rfl hj
    | succ j => simp [redacting, infoOf, exScan]
  · refine ⟨⟨[.field "n".toList], "x acb".toList, false⟩, by decide +kernel, ?_, ?_, rangePattern_matches T⟩
    · simp [Scans]
    · simp [Excludes]

end Sds.Props
