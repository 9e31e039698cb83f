import Verif.Lemmas.Meaning
import Verif.Lemmas.AstEq

/-! # C68: a converted pattern means the same -/

namespace Sds.Props
open Sds Spec Re

variable {T : Tables}

/-- The same flags are in effect, and `u`. -/
private def Rel (s : FlagState) (t : RFlagState) : Prop := (∀ f, t (convertFlag f) = s f) ∧ t .unicode = true

private theorem letters {x : Flag} {y : RFlag} : flagLetter x = rustFlagLetter y ↔ y = convertFlag x := by
  cases x <;> cases y <;> decide

private theorem Rel.after {s : FlagState} {t : RFlagState} (h : Rel s t) (f : Flags) :
    Rel (flagsAfter f s) (rustFlagsAfter (convertFlags f) true t) :=
  ⟨fun x => C54_flags_in_effect f s t (fun x y hxy => letters.1 hxy ▸ (h.1 x).symm) x _ (letters.2 rfl),
    (C54_other_flags_kept f t .unicode (fun x => by cases x <;> decide)).trans h.2⟩

/-- What the proof needs of a pattern and the flags before it. -/
private structure Good (a : Ast) (s : FlagState) : Prop where
  noEnd : NoEndAssertion a
  spaces : AsciiSpaces a
  letters : NoLetterClass a ∨ (NoIgnoreCase a ∧ s .caseInsensitive = false)

private theorem Good.part {a b : Ast} {s s' : FlagState} (h : Good a s) (hp : ∀ c, PartOf c b → PartOf c a)
    (hs : NoIgnoreCase a → s .caseInsensitive = false → s' .caseInsensitive = false) : Good b s' where
  noEnd := ⟨fun h' => h.noEnd.1 (hp _ h'), fun h' => h.noEnd.2 (hp _ h')⟩
  spaces := fun l hl => h.spaces l (hp _ hl)
  letters := h.letters.imp
    (fun h' => ⟨fun h2 => h'.1 (hp _ h2), fun h2 => h'.2.1 (hp _ h2), fun n it h2 => h'.2.2 n it (hp _ h2)⟩)
    (fun h' => ⟨⟨fun f h2 => h'.1.1 f (hp _ h2), fun f b h2 => h'.1.2 f b (hp _ h2)⟩, hs h'.1 h'.2⟩)

private theorem flagsAfter_case {f : Flags} {s : FlagState} (hf : .caseInsensitive ∉ f.add)
    (hs : s .caseInsensitive = false) : flagsAfter f s .caseInsensitive = false := by
  have key : ∀ (l : List Flag) (s : FlagState) (on : Bool), (on = true → .caseInsensitive ∉ l) →
      s .caseInsensitive = false → l.foldl (fun s x => switch s x on) s .caseInsensitive = false := by
    intro l
    induction l with
    | nil => intro s on _ h; exact h
    | cons x l ih =>
      intro s on h1 h2
      refine ih _ _ (fun h => fun h' => h1 h (List.mem_cons_of_mem _ h')) ?_
      simp only [switch]
      split
      · rename_i e
        cases on with
        | false => rfl
        | true => exact absurd (e ▸ List.mem_cons_self) (h1 rfl)
      · exact h2
  exact key _ _ _ (fun h => by cases h) (key _ _ _ (fun _ => hf) hs)

private theorem case_part {a b : Ast} (h : NoIgnoreCase a) (hp : ∀ c, PartOf c b → PartOf c a) :
    NoIgnoreCase b := ⟨fun f h2 => h.1 f (hp _ h2), fun f b h2 => h.2 f b (hp _ h2)⟩

mutual

private theorem case_off (a : Ast) (s : FlagState) (h : NoIgnoreCase a) (hs : s .caseInsensitive = false) :
    (meaning T a s).2 .caseInsensitive = false := by
  match a with
  | .empty | .characterClass _ | .assertion _ => exact hs
  | .literal l => simp only [meaning]; split <;> exact hs
  | .group .capturing _ | .group (.namedCapturing _) _ | .group (.nonCapturing _) _ => exact hs
  | .concat l => exact case_off_list l s (fun b hb => case_part h fun c hc => .concat hb hc) hs
  | .alternation l => exact case_off_list l s (fun b hb => case_part h fun c hc => .alternation hb hc) hs
  | .repetition q b => exact case_off b s (case_part h fun c hc => .repetition hc) hs
  | .flags f => exact flagsAfter_case (h.1 f (.self _)) hs

private theorem case_off_list (l : List Ast) (s : FlagState) (h : ∀ a ∈ l, NoIgnoreCase a)
    (hs : s .caseInsensitive = false) : (meaningList T l s).2 .caseInsensitive = false := by
  match l with
  | [] => exact hs
  | a :: l =>
    exact case_off_list l _ (fun b hb => h b (List.mem_cons_of_mem _ hb))
      (case_off a s (h a List.mem_cons_self) hs)

end

private theorem ascii_ws {c : Char} (h : c.toNat < 128) :
    isWs c = true ↔ c ∈ [' ', '\t', '\n', '\r', Char.ofNat 11, Char.ofNat 12] := by
  constructor
  · intro hw
    have hn : c.toNat = 9 ∨ c.toNat = 10 ∨ c.toNat = 11 ∨ c.toNat = 12 ∨ c.toNat = 13 ∨ c.toNat = 32 := by
      simp only [isWs, Bool.or_eq_true, Bool.and_eq_true, decide_eq_true_eq, beq_iff_eq] at hw
      omega
    rw [← Char.ofNat_toNat c]
    rcases hn with h | h | h | h | h | h <;> rw [h] <;> decide
  · intro hc
    simp only [List.mem_cons, List.not_mem_nil, or_false] at hc
    rcases hc with h | h | h | h | h | h <;> subst h <;> decide

private theorem literal_dropped {l : Literal} (h : isWs l.c = true → l.c.toNat < 128) :
    (convertLiteral l .normal).kind = .verbatim ∧ isWs l.c = true ↔
      l.escaped = false ∧ l.c ∈ [' ', '\t', '\n', '\r', Char.ofNat 11, Char.ofNat 12] := by
  by_cases hw : isWs l.c = true
  · have hm := (ascii_ws (h hw)).1 hw
    have hk : isMetaCharacter l.c = false ∧ asciiWhitespaceChars.contains l.c = true := by
      simp only [List.mem_cons, List.not_mem_nil, or_false] at hm
      rcases hm with h | h | h | h | h | h <;> rw [h] <;> decide
    simp only [convertLiteral, hk.1, hk.2, hw, hm, and_true]
    cases l.escaped <;> simp
  · have : l.c ∉ [' ', '\t', '\n', '\r', Char.ofNat 11, Char.ofNat 12] := fun hm => hw (by
      simp only [List.mem_cons, List.not_mem_nil, or_false] at hm
      rcases hm with h | h | h | h | h | h <;> rw [h] <;> decide)
    simp [hw, this]

private theorem class_same (c : CharacterClass) {s : FlagState} {t : RFlagState} (hr : Rel s t)
    (hg : NoLetterClass (.characterClass c) ∨ s .caseInsensitive = false) :
    rustMeaning T (convertClass c) t = (.set (classSet T s c), t) := by
  have hi : t .caseInsensitive = s .caseInsensitive := hr.1 .caseInsensitive
  cases c with
  | bracket n items =>
    simp only [convertClass, rustMeaning, rustItemSet, classSet]
    rw [hi, rust_items t items hi fun it hit =>
      hg.imp (fun h => h.2.2 n items (.self _) it hit) id]
  | perl p =>
    simp only [convertClass, rustMeaning, classSet]
    rw [rust_perl t p (hg.imp (fun h => ⟨fun e => h.1 (e ▸ .self _), fun e => h.2.1 (e ▸ .self _)⟩)
      fun h => hi.trans h)]
  | dot =>
    have hd : t .dotMatchesNewLine = s .dotMatchesNewLine := hr.1 .dotMatchesNewLine
    simp only [convertClass, rustMeaning, classSet, hd]
  | horizontalWhitespace =>
    simp only [convertClass, rustMeaning, classSet]
    exact congrArg (fun S => (Node.set S, t)) ((rust_horizontal t false).trans (signed_false _))
  | notHorizontalWhitespace =>
    simp only [convertClass, rustMeaning, classSet]
    exact congrArg (fun S => (Node.set S, t)) (rust_horizontal t true)
  | verticalWhitespace =>
    simp only [convertClass, rustMeaning, classSet]
    exact congrArg (fun S => (Node.set S, t)) ((rust_vertical t false).trans (signed_false _))
  | notVerticalWhitespace =>
    simp only [convertClass, rustMeaning, classSet]
    exact congrArg (fun S => (Node.set S, t)) (rust_vertical t true)
  | unicodeProperty u => simp only [convertClass, rustMeaning, classSet, hi]

private theorem quantifier_same {k : QuantifierKind} {k' : RRepetitionKind} (h : convertQuantifier k = .ok k') :
    rustBounds k' = bounds k := by
  cases k <;> simp only [convertQuantifier] at h <;> (try split at h) <;> cases h <;> rfl

mutual

private theorem same (a : Ast) {r : RAst} {s : FlagState} {t : RFlagState} (hc : convertAst a = .ok r)
    (hg : Good a s) (hr : Rel s t) :
    (rustMeaning T r t).1 = (meaning T a s).1 ∧ Rel (meaning T a s).2 (rustMeaning T r t).2 := by
  match a with
  | .empty => cases hc; exact ⟨rfl, hr⟩
  | .literal l =>
    cases hc
    have hx : t .ignoreWhitespace = s .ignoreWhitespace := hr.1 .ignoreWhitespace
    have hi : t .caseInsensitive = s .caseInsensitive := hr.1 .caseInsensitive
    have hd := literal_dropped (hg.spaces l (.self _))
    simp only [rustMeaning, meaning, hx, hi]
    have hcc : (convertLiteral l .normal).c = l.c := rfl
    rw [hcc]
    by_cases h : s .ignoreWhitespace = true ∧ (convertLiteral l .normal).kind = .verbatim ∧ isWs l.c = true
    · rw [if_pos h, if_pos ⟨h.1, hd.1 h.2⟩]
      exact ⟨rfl, hr⟩
    · rw [if_neg h, if_neg fun h' => h ⟨h'.1, hd.2 h'.2⟩]
      exact ⟨rfl, hr⟩
  | .concat l =>
    unfold convertAst at hc
    cases hl : convertList l with
    | error e => rw [hl] at hc; cases hc
    | ok l' =>
      rw [hl] at hc
      cases hc
      have := same_list l hl (fun b hb s' hs => hg.part (fun c hc => .concat hb hc)
        fun hn h => hs (fun b hb => case_part hn fun c hc => .concat hb hc) h) hr
      exact ⟨congrArg Node.seq this.1, this.2⟩
  | .alternation l =>
    unfold convertAst at hc
    cases hl : convertList l with
    | error e => rw [hl] at hc; cases hc
    | ok l' =>
      rw [hl] at hc
      cases hc
      have := same_list l hl (fun b hb s' hs => hg.part (fun c hc => .alternation hb hc)
        fun hn h => hs (fun b hb => case_part hn fun c hc => .alternation hb hc) h) hr
      exact ⟨congrArg Node.alt this.1, this.2⟩
  | .group k b =>
    unfold convertAst at hc
    cases hl : convertAst b with
    | error e => rw [hl] at hc; cases hc
    | ok b' =>
      rw [hl] at hc
      cases hc
      have hp : ∀ c, PartOf c b → PartOf c (.group k b) := fun c hc => .group hc
      cases k with
      | capturing => exact ⟨congrArg (Node.capture none) (same b hl (hg.part hp fun _ h => h) hr).1, hr⟩
      | namedCapturing name =>
        exact ⟨congrArg (Node.capture (some name)) (same b hl (hg.part hp fun _ h => h) hr).1, hr⟩
      | nonCapturing f =>
        refine ⟨(same b hl (hg.part hp fun hn h => ?_) (hr.after f)).1, hr⟩
        exact flagsAfter_case (hn.2 f b (.self _)) h
  | .repetition q b =>
    unfold convertAst at hc
    cases hq : convertQuantifier q.kind with
    | error e => rw [hq] at hc; cases hc
    | ok k =>
      rw [hq] at hc
      dsimp only at hc
      cases hl : convertAst b with
      | error e => rw [hl] at hc; cases hc
      | ok b' =>
        rw [hl] at hc
        cases hc
        have := same b hl (hg.part (fun c hc => .repetition hc) fun _ h => h) hr
        refine ⟨?_, this.2⟩
        simp only [rustMeaning, meaning, quantifier_same hq, this.1]
  | .assertion k =>
    cases hc
    have hm : t .multiLine = s .multiLine := hr.1 .multiLine
    cases k with
    | endLine => exact absurd (.self _) hg.noEnd.1
    | endTextOptionalNewline => exact absurd (.self _) hg.noEnd.2
    | startLine =>
      simp only [convertAssertion, rustMeaning, meaning, rustLookOf, lookOf, hm]
      exact ⟨trivial, hr⟩
    | startText => exact ⟨rfl, hr⟩
    | endText => exact ⟨rfl, hr⟩
    | wordBoundary => exact ⟨rfl, hr⟩
    | notWordBoundary => exact ⟨rfl, hr⟩
  | .characterClass c =>
    cases hc
    rw [class_same c hr (hg.letters.imp id fun h => h.2)]
    exact ⟨rfl, hr⟩
  | .flags f => cases hc; exact ⟨rfl, hr.after f⟩

private theorem same_list (l : List Ast) {l' : List RAst} {s : FlagState} {t : RFlagState}
    (hc : convertList l = .ok l')
    (hg : ∀ a ∈ l, ∀ s' : FlagState,
      ((∀ b ∈ l, NoIgnoreCase b) → s .caseInsensitive = false → s' .caseInsensitive = false) → Good a s')
    (hr : Rel s t) :
    (rustMeaningList T l' t).1 = (meaningList T l s).1 ∧ Rel (meaningList T l s).2 (rustMeaningList T l' t).2 := by
  match l with
  | [] => cases hc; exact ⟨rfl, hr⟩
  | a :: l =>
    unfold convertList at hc
    cases ha : convertAst a with
    | error e => rw [ha] at hc; cases hc
    | ok a' =>
      rw [ha] at hc
      dsimp only at hc
      cases hl : convertList l with
      | error e => rw [hl] at hc; cases hc
      | ok l'' =>
        rw [hl] at hc
        cases hc
        have h1 := same a ha (hg a List.mem_cons_self s fun _ h => h) hr
        have h2 := same_list l hl (s := (meaning T a s).2) (fun b hb s' hs =>
          hg b (List.mem_cons_of_mem _ hb) s' fun hn h =>
            hs (fun c hc => hn c (List.mem_cons_of_mem _ hc)) (case_off a s (hn a List.mem_cons_self) h)) h1.2
        exact ⟨by simp only [rustMeaningList, meaningList, h1.1, h2.1], h2.2⟩

end

private theorem defaults_rel : Rel noFlags rustDefaults := ⟨fun f => by cases f <;> rfl, rfl⟩

/-- C68: a pattern without `$` and `\Z`, without whitespace other than that of ASCII, and which does not use classes
of ASCII letters together with the flag `i`, means the same after the conversion: resolving flags, classes and ignored
whitespace gives the very same expression, with the same sets of characters, groups, greediness and order of
alternatives. -/
theorem C68_same_meaning_partial (T : Tables) {a : Ast} {r : RAst} (h : convertAst a = .ok r)
    (hend : NoEndAssertion a) (hsp : AsciiSpaces a) (hl : NoLetterClass a ∨ NoIgnoreCase a) :
    (rustMeaning T r rustDefaults).1 = (meaning T a noFlags).1 :=
  (same a h ⟨hend, hsp, hl.imp id fun h => ⟨h, rfl⟩⟩ defaults_rel).1

/-! ## The ends of lines and of the text -/

private theorem spans_opt_newline {i g : Bool} {p m q : Str} :
    Spans T (.rep 0 (some 1) g (.set (near T i (· = '\n')))) p m q ↔ m = [] ∨ m = ['\n'] := by
  have hn : near T i (· = '\n') = (· = '\n') := near_low fun x hx => by subst hx; decide
  rw [hn]
  constructor
  · intro h
    cases h with
    | repZero => exact .inl rfl
    | repSucc hh h h' =>
      cases h with
      | set hc =>
        subst hc
        cases h' with
        | repZero => exact .inr rfl
        | repSucc hh' _ _ => exact absurd rfl hh'
  · rintro (h | h)
    · subst h; exact .repZero
    · subst h
      exact Spans.repSucc (m := ['\n']) (m' := []) (by simp) (.set rfl) .repZero

private theorem spans_seq_two {n n' : Node} {p m q : Str} :
    Spans T (.seq [n, n']) p m q ↔ ∃ m1 m2, m = m1 ++ m2 ∧ Spans T n p m1 (m2 ++ q) ∧ Spans T n' (p ++ m1) m2 q := by
  constructor
  · intro h
    cases h with
    | seqCons h h' =>
      cases h' with
      | seqCons h' h'' =>
        cases h'' with
        | seqNil =>
          rw [List.append_nil] at *
          exact ⟨_, _, rfl, h, h'⟩
  · rintro ⟨m1, m2, rfl, h, h'⟩
    have h2 : Spans T (.seq [n']) (p ++ m1) m2 q := by
      have := Spans.seqCons (T := T) (n := n') (l := []) (p := p ++ m1) (m := m2) (m' := []) (q := q)
        (by simpa using h') .seqNil
      rwa [List.append_nil] at this
    exact .seqCons h h2

private theorem spans_look {l : Look} {p m q : Str} : Spans T (.look l) p m q ↔ m = [] ∧ LookAt T l p q :=
  ⟨fun h => by cases h with | look h => exact ⟨rfl, h⟩, fun ⟨h, h'⟩ => by subst h; exact .look h'⟩

private theorem spans_end (k : AssertionType) (hk : k = .endLine ∨ k = .endTextOptionalNewline)
    {s : FlagState} {t : RFlagState} (hm : t .multiLine = s .multiLine) {p m q : Str} :
    Spans T (rustMeaning T (convertAssertion k) t).1 p m q ↔
      (m = [] ∨ m = ['\n']) ∧ (q = [] ∨ (k = .endLine ∧ s .multiLine = true ∧ q.head? = some '\n')) := by
  have hl : convertLiteral { c := '\n', escaped := true } .normal = { kind := .hexBrace, c := '\n' } := by decide
  have key : ∀ l : Look, Spans T (.seq [.rep 0 (some 1) true (.set (near T (t .caseInsensitive) (· = '\n'))), .look l])
      p m q ↔ (m = [] ∨ m = ['\n']) ∧ LookAt T l (p ++ m) q := by
    intro l
    rw [spans_seq_two]
    constructor
    · rintro ⟨m1, m2, rfl, h1, h2⟩
      obtain ⟨rfl, h3⟩ := spans_look.1 h2
      simpa using ⟨spans_opt_newline.1 h1, h3⟩
    · rintro ⟨h1, h2⟩
      exact ⟨m, [], by simp, spans_opt_newline.2 h1, spans_look.2 ⟨rfl, h2⟩⟩
  rcases hk with h | h <;> subst h
  · cases h : s .multiLine with
    | false =>
      rw [h] at hm
      simpa [convertAssertion, rustMeaning, rustMeaningList, rustBounds, rustLookOf, hm, LookAt] using key .textEnd
    | true =>
      rw [h] at hm
      simpa [convertAssertion, rustMeaning, rustMeaningList, rustBounds, rustLookOf, hm, LookAt] using key .lineEnd
  · simpa [convertAssertion, rustMeaning, rustMeaningList, rustBounds, rustLookOf, hl, LookAt] using key .textEnd

private theorem look_end (k : AssertionType) (hk : k = .endLine ∨ k = .endTextOptionalNewline)
    (s : FlagState) {p q : Str} :
    LookAt T (lookOf s k) p q ↔
      (q = [] ∨ q = ['\n']) ∨ (k = .endLine ∧ s .multiLine = true ∧ q.head? = some '\n') := by
  rcases hk with h | h <;> subst h
  · cases h : s .multiLine with
    | false => simp [lookOf, h, LookAt]
    | true =>
      simp only [lookOf, h, LookAt, if_true]
      constructor
      · rintro (h | h)
        · exact .inl (.inl h)
        · exact .inr ⟨trivial, trivial, h⟩
      · rintro ((h | h) | h)
        · exact .inl h
        · exact .inr (by rw [h]; rfl)
        · exact .inr h.2.2
  · simp [lookOf, LookAt]

/-- C68: what `$` and `\Z` are converted to matches at a position exactly if `$` or `\Z` holds there; it matches
nothing or the newline that follows. -/
theorem C68_end_assertions (T : Tables) (k : AssertionType) (hk : k = .endLine ∨ k = .endTextOptionalNewline)
    {s : FlagState} {t : RFlagState} (hm : t .multiLine = s .multiLine) (before after : Str) :
    (LookAt T (lookOf s k) before after ↔
      ∃ mid rest, after = mid ++ rest ∧ Spans T (rustMeaning T (convertAssertion k) t).1 before mid rest) ∧
    ∀ mid rest, Spans T (rustMeaning T (convertAssertion k) t).1 before mid rest → mid = [] ∨ mid = ['\n'] := by
  refine ⟨?_, fun mid rest h => ((spans_end k hk hm).1 h).1⟩
  rw [look_end k hk]
  constructor
  · rintro ((h | h) | h)
    · exact ⟨[], [], h, (spans_end k hk hm).2 ⟨.inl rfl, .inl rfl⟩⟩
    · exact ⟨['\n'], [], h, (spans_end k hk hm).2 ⟨.inr rfl, .inl rfl⟩⟩
    · exact ⟨[], after, rfl, (spans_end k hk hm).2 ⟨.inl rfl, .inr h⟩⟩
  · rintro ⟨mid, rest, rfl, h⟩
    obtain ⟨h1, h2⟩ := (spans_end k hk hm).1 h
    rcases h1 with rfl | rfl
    · rcases h2 with rfl | h2
      · exact .inl (.inl rfl)
      · exact .inr h2
    · rcases h2 with rfl | h2
      · exact .inl (.inr rfl)
      · exact .inr ⟨h2.1, h2.2.1, rfl⟩

private theorem spans_seq_snoc {n : Node} {l : List Node} {p m q : Str} :
    Spans T (.seq (l ++ [n])) p m q ↔
      ∃ m1 m2, m = m1 ++ m2 ∧ Spans T (.seq l) p m1 (m2 ++ q) ∧ Spans T n (p ++ m1) m2 q := by
  induction l generalizing p m with
  | nil =>
    constructor
    · intro h
      cases h with
      | seqCons h h' =>
        cases h' with
        | seqNil => exact ⟨[], _, rfl, .seqNil, by simpa using h⟩
    · rintro ⟨m1, m2, rfl, h, h'⟩
      cases h with
      | seqNil =>
        have := Spans.seqCons (T := T) (n := n) (l := []) (p := p) (m := m2) (m' := []) (q := q)
          (by simpa using h') .seqNil
        simpa using this
  | cons a l ih =>
    constructor
    · intro h
      cases h with
      | seqCons h h' =>
        obtain ⟨m1, m2, rfl, h1, h2⟩ := ih.1 h'
        refine ⟨_ ++ m1, m2, (List.append_assoc ..).symm, .seqCons (by simpa using h) h1, by simpa using h2⟩
    · rintro ⟨m1, m2, rfl, h, h'⟩
      cases h with
      | seqCons h h'' =>
        rw [List.append_assoc]
        exact .seqCons (by simpa using h) (ih.2 ⟨_, m2, rfl, h'', by simpa using h'⟩)

private theorem meaningList_snoc (l : List Ast) (a : Ast) (s : FlagState) :
    (meaningList T (l ++ [a]) s).1 = (meaningList T l s).1 ++ [(meaning T a (meaningList T l s).2).1] := by
  induction l generalizing s with
  | nil => rfl
  | cons b l ih => simp only [List.cons_append, meaningList, ih]

private theorem rustMeaningList_snoc (l : List RAst) (a : RAst) (t : RFlagState) :
    (rustMeaningList T (l ++ [a]) t).1 =
      (rustMeaningList T l t).1 ++ [(rustMeaning T a (rustMeaningList T l t).2).1] := by
  induction l generalizing t with
  | nil => rfl
  | cons b l ih => simp only [List.cons_append, rustMeaningList, ih]

private theorem convertList_snoc {l : List Ast} {a : Ast} {l' : List RAst} (h : convertList (l ++ [a]) = .ok l') :
    ∃ l₁ a₁, convertList l = .ok l₁ ∧ convertAst a = .ok a₁ ∧ l' = l₁ ++ [a₁] := by
  induction l generalizing l' with
  | nil =>
    simp only [List.nil_append, convertList] at h
    cases ha : convertAst a with
    | error e => rw [ha] at h; cases h
    | ok a₁ => rw [ha] at h; cases h; exact ⟨[], a₁, rfl, rfl, rfl⟩
  | cons b l ih =>
    rw [List.cons_append, convertList] at h
    cases hb : convertAst b with
    | error e => rw [hb] at h; cases h
    | ok b₁ =>
      rw [hb] at h
      dsimp only at h
      cases hl : convertList (l ++ [a]) with
      | error e => rw [hl] at h; cases h
      | ok l₂ =>
        rw [hl] at h
        cases h
        obtain ⟨l₁, a₁, h1, h2, rfl⟩ := ih hl
        exact ⟨b₁ :: l₁, a₁, by simp only [convertList, hb, h1], h2, rfl⟩

/-- C68: a pattern that ends with `$` or `\Z`, and otherwise is as in `C68_same_meaning_partial`, matches in the same
places after the conversion; a match of the converted pattern is a match of the original, or one followed by a
newline, with that newline. -/
theorem C68_trailing_end_partial (T : Tables) {l : List Ast} {k : AssertionType}
    (hk : k = .endLine ∨ k = .endTextOptionalNewline) {r : RAst}
    (h : convertAst (.concat (l ++ [.assertion k])) = .ok r) (hend : NoEndAssertion (.concat l))
    (hsp : AsciiSpaces (.concat l)) (hl : NoLetterClass (.concat l) ∨ NoIgnoreCase (.concat l)) (before : Str) :
    (∀ mid after, Spans T (meaning T (.concat (l ++ [.assertion k])) noFlags).1 before mid after →
      ∃ nl rest, (nl = [] ∨ nl = ['\n']) ∧ after = nl ++ rest ∧
        Spans T (rustMeaning T r rustDefaults).1 before (mid ++ nl) rest) ∧
    (∀ mid after, Spans T (rustMeaning T r rustDefaults).1 before mid after →
      ∃ m nl, (nl = [] ∨ nl = ['\n']) ∧ mid = m ++ nl ∧
        Spans T (meaning T (.concat (l ++ [.assertion k])) noFlags).1 before m (nl ++ after)) := by
  unfold convertAst at h
  cases hc : convertList (l ++ [.assertion k]) with
  | error e => rw [hc] at h; cases h
  | ok l' =>
    rw [hc] at h
    cases h
    obtain ⟨l₁, a₁, h1, h2, rfl⟩ := convertList_snoc hc
    cases h2
    have hsame := same (T := T) (.concat l) (r := .concat l₁) (by simp only [convertAst, h1])
      ⟨hend, hsp, hl.imp id fun h => ⟨h, rfl⟩⟩ defaults_rel
    have hnode : (rustMeaningList T l₁ rustDefaults).1 = (meaningList T l noFlags).1 := by
      simpa [rustMeaning, meaning] using hsame.1
    have hm : (rustMeaningList T l₁ rustDefaults).2 .multiLine = (meaningList T l noFlags).2 .multiLine :=
      hsame.2.1 .multiLine
    have hrust : ∀ m q, Spans T (rustMeaning T (.concat (l₁ ++ [convertAssertion k])) rustDefaults).1 before m q ↔
        ∃ m1 m2, m = m1 ++ m2 ∧ Spans T (.seq (meaningList T l noFlags).1) before m1 (m2 ++ q) ∧
          Spans T (rustMeaning T (convertAssertion k) (rustMeaningList T l₁ rustDefaults).2).1 (before ++ m1) m2 q := by
      intro m q
      simp only [rustMeaning, rustMeaningList_snoc, spans_seq_snoc, hnode]
    have hsds : ∀ m q, Spans T (meaning T (.concat (l ++ [.assertion k])) noFlags).1 before m q ↔
        Spans T (.seq (meaningList T l noFlags).1) before m q ∧
          LookAt T (lookOf (meaningList T l noFlags).2 k) (before ++ m) q := by
      intro m q
      simp only [meaning, meaningList_snoc, spans_seq_snoc, spans_look]
      constructor
      · rintro ⟨m1, m2, rfl, h1, rfl, h2⟩
        simpa using ⟨h1, h2⟩
      · rintro ⟨h1, h2⟩
        exact ⟨m, [], by simp, h1, rfl, h2⟩
    have he := C68_end_assertions T k hk hm
    constructor
    · intro mid after hs
      obtain ⟨h1, h2⟩ := (hsds _ _).1 hs
      obtain ⟨nl, rest, rfl, h3⟩ := (he (before ++ mid) after).1.1 h2
      exact ⟨nl, rest, (he _ []).2 _ _ h3, rfl, (hrust _ _).2 ⟨mid, nl, rfl, h1, h3⟩⟩
    · intro mid after hs
      obtain ⟨m1, m2, rfl, h1, h2⟩ := (hrust _ _).1 hs
      exact ⟨m1, m2, (he _ []).2 _ _ h2, rfl, (hsds _ _).2 ⟨h1, (he _ _).1.2 ⟨m2, after, rfl, h2⟩⟩⟩

/-! ## Where the conversion changes the meaning -/

private theorem spans_cons {n : Node} {l : List Node} {p m q : Str} :
    Spans T (.seq (n :: l)) p m q ↔
      ∃ m1 m2, m = m1 ++ m2 ∧ Spans T n p m1 (m2 ++ q) ∧ Spans T (.seq l) (p ++ m1) m2 q :=
  ⟨fun h => by cases h with | seqCons h h' => exact ⟨_, _, rfl, h, h'⟩,
    fun ⟨_, _, e, h, h'⟩ => by subst e; exact .seqCons h h'⟩

private theorem spans_nil {p m q : Str} : Spans T (.seq []) p m q ↔ m = [] :=
  ⟨fun h => by cases h; rfl, fun h => by subst h; exact .seqNil⟩

private theorem spans_eps {p m q : Str} : Spans T .eps p m q ↔ m = [] :=
  ⟨fun h => by cases h; rfl, fun h => by subst h; exact .eps⟩

private theorem spans_set {P : Char → Prop} {p m q : Str} : Spans T (.set P) p m q ↔ ∃ c, m = [c] ∧ P c :=
  ⟨fun h => by cases h with | set h => exact ⟨_, rfl, h⟩, fun ⟨_, e, h⟩ => by subst e; exact .set h⟩

/-- C68 fails for `$`: in the text `a` followed by a newline, `a$` matches the letter only, and the converted pattern
also matches the letter with the newline. -/
theorem C68_dollar_takes_newline (T : Tables) :
    ∃ a r, parseRegexPattern "a$".toList = .ok (.ok a) ∧ convertAst a = .ok r ∧
      ¬ Spans T (meaning T a noFlags).1 [] "a\n".toList [] ∧
      Spans T (rustMeaning T r rustDefaults).1 [] "a\n".toList [] := by
  refine ⟨.concat [.literal ⟨'a', false⟩, .assertion .endLine], _, by decide +kernel, rfl, fun h => ?_, ?_⟩
  · have hm : (meaning T (.concat [.literal ⟨'a', false⟩, .assertion .endLine]) noFlags).1 =
        .seq [.set (near T false (· = 'a')), .look .textEndOrLastNewline] := by
      simp [meaning, meaningList, noFlags, lookOf]
    rw [hm] at h
    obtain ⟨m1, m2, e, h1, h2⟩ := spans_cons.1 h
    obtain ⟨c, rfl, _⟩ := spans_set.1 h1
    obtain ⟨m3, m4, rfl, h3, h4⟩ := spans_cons.1 h2
    cases spans_nil.1 h4
    cases (spans_look.1 h3).1
    cases e
  · refine Spans.seqCons (m := ['a']) (m' := ['\n']) ?_ ?_
    · have : (rustMeaning T (.literal (convertLiteral ⟨'a', false⟩ .normal)) rustDefaults).1 =
          .set (near T false (· = 'a')) := by simp [rustMeaning, rustDefaults, convertLiteral]
      exact this ▸ .set (by simp [near])
    · refine Spans.seqCons (m := ['\n']) (m' := []) ?_ .seqNil
      have : (rustMeaning T (.literal (convertLiteral ⟨'a', false⟩ .normal)) rustDefaults).2 = rustDefaults := by
        simp [rustMeaning, rustDefaults]
      rw [this]
      exact (spans_end (s := noFlags) .endLine (.inl rfl) (by decide)).2 ⟨.inr rfl, .inl rfl⟩

/-- C68 fails for whitespace that is not of ASCII: a no-break space is part of the pattern even under `x` because it
is escaped, and missing after the conversion. -/
theorem C68_escaped_space_dropped (T : Tables) :
    ∃ a r, parseRegexPattern "(?x)a\\x{A0}b".toList = .ok (.ok a) ∧ convertAst a = .ok r ∧
      ¬ Spans T (meaning T a noFlags).1 [] "ab".toList [] ∧
      Spans T (rustMeaning T r rustDefaults).1 [] "ab".toList [] := by
  refine ⟨.concat [.flags ⟨[.ignoreWhitespace], []⟩, .literal ⟨'a', false⟩, .literal ⟨Char.ofNat 0xA0, true⟩,
    .literal ⟨'b', false⟩], .concat [.flags [.flag .ignoreWhitespace], .literal ⟨.verbatim, 'a'⟩,
      .literal ⟨.verbatim, Char.ofNat 0xA0⟩, .literal ⟨.verbatim, 'b'⟩], by decide +kernel, by rfl, fun h => ?_, ?_⟩
  · have hm : (meaning T (.concat [.flags ⟨[.ignoreWhitespace], []⟩, .literal ⟨'a', false⟩,
        .literal ⟨Char.ofNat 0xA0, true⟩, .literal ⟨'b', false⟩]) noFlags).1 =
        .seq [.eps, .set (near T false (· = 'a')), .set (near T false (· = Char.ofNat 0xA0)),
          .set (near T false (· = 'b'))] := by
      simp [meaning, meaningList, noFlags, flagsAfter, switch]
    rw [hm] at h
    obtain ⟨m1, m2, e, h1, h2⟩ := spans_cons.1 h
    obtain ⟨m3, m4, rfl, h3, h4⟩ := spans_cons.1 h2
    obtain ⟨m5, m6, rfl, h5, h6⟩ := spans_cons.1 h4
    obtain ⟨m7, m8, rfl, h7, h8⟩ := spans_cons.1 h6
    have e1 : m1 = [] := spans_eps.1 h1
    obtain ⟨c3, rfl, _⟩ := spans_set.1 h3
    obtain ⟨c5, rfl, _⟩ := spans_set.1 h5
    obtain ⟨c7, rfl, _⟩ := spans_set.1 h7
    have := congrArg List.length e
    simp [e1] at this
  · have hm : (rustMeaning T (.concat [.flags [.flag .ignoreWhitespace], .literal ⟨.verbatim, 'a'⟩,
        .literal ⟨.verbatim, Char.ofNat 0xA0⟩, .literal ⟨.verbatim, 'b'⟩]) rustDefaults).1 =
        .seq [.eps, .set (near T false (· = 'a')), .eps, .set (near T false (· = 'b'))] := by
      have h1 : isWs 'a' = false := by decide
      have h2 : isWs 'b' = false := by decide
      have h3 : isWs (Char.ofNat 0xA0) = true := by decide
      simp [rustMeaning, rustMeaningList, rustDefaults, rustFlagsAfter, switch, h1, h2, h3]
    rw [hm]
    refine Spans.seqCons (m := []) (m' := ['a', 'b']) .eps ?_
    refine Spans.seqCons (m := ['a']) (m' := ['b']) (.set (by simp [near])) ?_
    refine Spans.seqCons (m := []) (m' := ['b']) .eps ?_
    exact Spans.seqCons (m := ['b']) (m' := []) (.set (by simp [near])) .seqNil

/-- C68 fails for `\w` under `i`: the Kelvin sign is a case variant of `k`, and not of ASCII. -/
theorem C68_word_beyond_ascii (T : Tables) (hT : T.same 'k' (Char.ofNat 0x212A)) :
    ∃ a r, parseRegexPattern "(?i)\\w".toList = .ok (.ok a) ∧ convertAst a = .ok r ∧
      ¬ Spans T (meaning T a noFlags).1 [] [Char.ofNat 0x212A] [] ∧
      Spans T (rustMeaning T r rustDefaults).1 [] [Char.ofNat 0x212A] [] := by
  refine ⟨.concat [.flags ⟨[.caseInsensitive], []⟩, .characterClass (.perl .word)],
    .concat [.flags [.flag .caseInsensitive], .classBracketed (perlClassWord false)], by decide +kernel, by rfl,
    fun h => ?_, ?_⟩
  · have hm : (meaning T (.concat [.flags ⟨[.caseInsensitive], []⟩, .characterClass (.perl .word)]) noFlags).1 =
        .seq [.eps, .set AsciiWordChar] := by
      simp [meaning, meaningList, classSet, perlSet]
    rw [hm] at h
    obtain ⟨m1, m2, e, h1, h2⟩ := spans_cons.1 h
    obtain ⟨m3, m4, rfl, h3, h4⟩ := spans_cons.1 h2
    obtain ⟨c, rfl, hc⟩ := spans_set.1 h3
    cases spans_eps.1 h1
    cases spans_nil.1 h4
    cases e
    exact absurd hc (by unfold AsciiWordChar; decide)
  · have hm : (rustMeaning T (.concat [.flags [.flag .caseInsensitive], .classBracketed (perlClassWord false)])
        rustDefaults).1 = .seq [.eps, .set (near T true AsciiWordChar)] := by
      simp only [rustMeaning, rustMeaningList, rust_word]
      simp [rustFlagsAfter, switch, perlClassWord, signed_false]
    rw [hm]
    refine Spans.seqCons (m := []) (m' := [Char.ofNat 0x212A]) .eps ?_
    refine Spans.seqCons (m := [Char.ofNat 0x212A]) (m' := []) (.set ?_) .seqNil
    exact ⟨'k', .inl ⟨by decide, by decide⟩, hT⟩

/-! ## Examples -/

/-- Tables in which K, k and the Kelvin sign are variants of each other, as are S, s and the long s. -/
private def someTables : Tables where
  same a b := a = b ∨ (a ∈ ['k', 'K', Char.ofNat 0x212A] ∧ b ∈ ['k', 'K', Char.ofNat 0x212A]) ∨
    (a ∈ ['s', 'S', Char.ofNat 0x17F] ∧ b ∈ ['s', 'S', Char.ofNat 0x17F])
  prop _ _ := False
  wordChar := AsciiWordChar
  refl a := .inl rfl
  symm := by
    rintro a b (h | h | h)
    · exact .inl h.symm
    · exact .inr (.inl h.symm)
    · exact .inr (.inr h.symm)
  trans := by
    rintro a b c (h | h | h) (h' | h' | h')
    · exact .inl (h.trans h')
    · exact .inr (.inl (h ▸ h'))
    · exact .inr (.inr (h ▸ h'))
    · exact .inr (.inl (h' ▸ h))
    · exact .inr (.inl ⟨h.1, h'.2⟩)
    · have h1 := h.2
      have h2 := h'.1
      simp only [List.mem_cons, List.not_mem_nil, or_false] at h1 h2
      rcases h1 with rfl | rfl | rfl <;> exact absurd h2 (by decide)
    · exact .inr (.inr (h' ▸ h))
    · have h1 := h.2
      have h2 := h'.1
      simp only [List.mem_cons, List.not_mem_nil, or_false] at h1 h2
      rcases h1 with rfl | rfl | rfl <;> exact absurd h2 (by decide)
    · exact .inr (.inr ⟨h.1, h'.2⟩)
  low := by
    rintro a b (h | h | h) hl
    · exact h
    · have h1 := h.1
      simp only [List.mem_cons, List.not_mem_nil, or_false] at h1
      rcases h1 with rfl | rfl | rfl <;> exact absurd hl (by decide)
    · have h1 := h.1
      simp only [List.mem_cons, List.not_mem_nil, or_false] at h1
      rcases h1 with rfl | rfl | rfl <;> exact absurd hl (by decide)
  ascii := by
    rintro a b (h | h | h) hl hb
    · subst h; omega
    · have h1 := h.1
      simp only [List.mem_cons, List.not_mem_nil, or_false] at h1
      rcases h1 with rfl | rfl | rfl <;> revert hl <;> decide
    · have h1 := h.1
      simp only [List.mem_cons, List.not_mem_nil, or_false] at h1
      rcases h1 with rfl | rfl | rfl <;> revert hl <;> decide

example : someTables.same 'k' (Char.ofNat 0x212A) := .inr (.inl ⟨by decide, by decide⟩)

private theorem partOf_leaf {a b : Ast} (h : (∃ l, b = .literal l) ∨ (∃ c, b = .characterClass c) ∨
    (∃ k, b = .assertion k) ∨ (∃ f, b = .flags f)) : PartOf a b ↔ a = b := by
  constructor
  · intro hp
    cases hp with
    | self => rfl
    | concat | alternation | group | repetition => simp at h
  · rintro rfl; exact .self _

private theorem partOf_concat {a : Ast} {l : List Ast} :
    PartOf a (.concat l) ↔ a = .concat l ∨ ∃ b ∈ l, PartOf a b := by
  constructor
  · intro h
    cases h with
    | self => exact .inl rfl
    | concat hb h => exact .inr ⟨_, hb, h⟩
  · rintro (rfl | ⟨b, hb, h⟩)
    · exact .self _
    · exact .concat hb h

private theorem partOf_alternation {a : Ast} {l : List Ast} :
    PartOf a (.alternation l) ↔ a = .alternation l ∨ ∃ b ∈ l, PartOf a b := by
  constructor
  · intro h
    cases h with
    | self => exact .inl rfl
    | alternation hb h => exact .inr ⟨_, hb, h⟩
  · rintro (rfl | ⟨b, hb, h⟩)
    · exact .self _
    · exact .alternation hb h

private theorem partOf_group {a b : Ast} {k : GroupKind} : PartOf a (.group k b) ↔ a = .group k b ∨ PartOf a b := by
  constructor
  · intro h
    cases h with
    | self => exact .inl rfl
    | group h => exact .inr h
  · rintro (rfl | h)
    · exact .self _
    · exact .group h

private theorem partOf_repetition {a b : Ast} {q : Quantifier} :
    PartOf a (.repetition q b) ↔ a = .repetition q b ∨ PartOf a b := by
  constructor
  · intro h
    cases h with
    | self => exact .inl rfl
    | repetition h => exact .inr h
  · rintro (rfl | h)
    · exact .self _
    · exact .repetition h

/-- A pattern with flags, groups, classes, a lazy repetition and ignored whitespace meets the hypotheses of
`C68_same_meaning_partial`. -/
example : ∃ a r, parseRegexPattern "(?ix)(?<n>k |[^b-d\\s]+?)(?-i:\\b)^".toList = .ok (.ok a) ∧ convertAst a = .ok r ∧
    NoEndAssertion a ∧ AsciiSpaces a ∧ NoLetterClass a := by
  refine ⟨.concat [.flags ⟨[.caseInsensitive, .ignoreWhitespace], []⟩,
    .group (.namedCapturing ['n']) (.alternation [.concat [.literal ⟨'k', false⟩, .literal ⟨' ', false⟩],
      .repetition ⟨true, .oneOrMore⟩ (.characterClass (.bracket true [.range 'b' 'd', .perl .space]))]),
    .group (.nonCapturing ⟨[], [.caseInsensitive]⟩) (.assertion .wordBoundary), .assertion .startLine], _,
    by decide +kernel, rfl, ?_, ?_, ?_⟩
  · unfold NoEndAssertion
    simp [partOf_concat, partOf_alternation, partOf_group, partOf_repetition, partOf_leaf]
  · intro l h
    simp [partOf_concat, partOf_alternation, partOf_group, partOf_repetition, partOf_leaf] at h
    rcases h with rfl | rfl <;> decide
  · unfold NoLetterClass
    simp [partOf_concat, partOf_alternation, partOf_group, partOf_repetition, partOf_leaf, HasLetters]

/-- The pattern `[0-9]+$` meets the hypotheses of `C68_trailing_end_partial`. -/
example : ∃ l r, parseRegexPattern "[0-9]+$".toList = .ok (.ok (.concat (l ++ [.assertion .endLine]))) ∧
    convertAst (.concat (l ++ [.assertion .endLine])) = .ok r ∧ NoEndAssertion (.concat l) ∧ AsciiSpaces (.concat l) ∧
    NoIgnoreCase (.concat l) := by
  refine ⟨[.repetition ⟨false, .oneOrMore⟩ (.characterClass (.bracket false [.range '0' '9']))], _,
    by decide +kernel, rfl, ?_, ?_, ?_⟩
  · unfold NoEndAssertion
    simp [partOf_concat, partOf_repetition, partOf_leaf]
  · intro l h
    simp [partOf_concat, partOf_repetition, partOf_leaf] at h
  · unfold NoIgnoreCase
    simp [partOf_concat, partOf_repetition, partOf_leaf]

end Sds.Props
