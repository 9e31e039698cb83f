import Verif.Lemmas.RustSyntax

/-! # Lemmas: the Rust crate reads what was printed -/

namespace Sds.Re
open Sds Spec

/-! ## What the reader sees in a printed tree -/

/-- Groups that the printed form identifies. -/
def KindOk : RGroupKind → Prop
  | .captureIndex => True
  | .captureName name => ∃ c t, name = c :: t ∧ c ∈ asciiLettersUnderscore ∧ ∀ d ∈ t, d ∈ asciiAlphanumericUnderscore
  | .nonCapturing fs => flagsOk fs = true

/-- Whether whitespace is ignored inside of a group. -/
def groupX : RGroupKind → Bool → Bool
  | .nonCapturing fs, x => spaceAfter fs x
  | _, x => x

/-- Repetitions that the crate accepts. -/
def RepOk : RRepetitionKind → Prop
  | .exactly n => n < 2 ^ 32
  | .atLeast n => n < 2 ^ 32
  | .bounded n m => n < 2 ^ 32 ∧ m < 2 ^ 32 ∧ n ≤ m
  | _ => True

mutual

/-- An expression that is read as one expression that can be repeated. -/
inductive SeesAtom : Bool → RAst → RAst → Prop where
  | literal {x : Bool} {l : RLiteral} (h : LitOk l) (hs : x = true → l.kind = .verbatim → isWs l.c = false) :
      SeesAtom x (.literal l) (.literal l)
  | dot {x : Bool} : SeesAtom x .dot .dot
  | assertion {x : Bool} {k : RAssertionKind} (h : k ≠ .wordBoundary ∧ k ≠ .notWordBoundary) :
      SeesAtom x (.assertion k) (.assertion k)
  | boundary {x : Bool} {k : RAssertionKind} {fs : List RFlagsItem} (hf : flagsOk fs = true) :
      SeesAtom x (.group (.nonCapturing fs) (.assertion k)) (.group (.nonCapturing fs) (.assertion k))
  | unicode {x negated : Bool} {name : Str} (h : NameOk name) :
      SeesAtom x (.classUnicode negated name) (.classUnicode negated name)
  | bracketed {x negated : Bool} {it : RClassItem} {l : List RClassItem} (hl : l ≠ []) (h : ∀ i ∈ l, ItemOk i)
      (hi : it = intoItem l ∨ it = .union l) :
      SeesAtom x (.classBracketed { negated := negated, item := it })
        (.classBracketed { negated := negated, item := intoItem l })
  | group {x : Bool} {kind : RGroupKind} {a b : RAst} (hk : KindOk kind) (h : SeesBody (groupX kind x) a b) :
      SeesAtom x (.group kind a) (.group kind b)

/-- An expression that is read as a sequence of expressions; the flags tell whether whitespace is ignored before and
after. -/
inductive Sees : Bool → RAst → List RAst → Bool → Prop where
  | atom {x : Bool} {a b : RAst} (h : SeesAtom x a b) : Sees x a [b] x
  | empty {x : Bool} : Sees x .empty [] x
  | flags {x : Bool} {fs : List RFlagsItem} (hf : flagsOk fs = true) (hn : fs ≠ []) :
      Sees x (.flags fs) [.flags fs] (spaceAfter fs x)
  | space {c : Char} (h : isWs c = true) : Sees true (.literal { kind := .verbatim, c := c }) [] true
  | repetition {x greedy : Bool} {a b : RAst} {k : RRepetitionKind} (hk : RepOk k) (h : SeesAtom x a b) :
      Sees x (.repetition k greedy a) [.repetition k greedy b] x
  | concat {x x' : Bool} {l items : List RAst} (h : SeesAll x l items x') : Sees x (.concat l) items x'

/-- Several expressions, one after another. -/
inductive SeesAll : Bool → List RAst → List RAst → Bool → Prop where
  | nil {x : Bool} : SeesAll x [] [] x
  | cons {x x' x'' : Bool} {a : RAst} {l as items : List RAst} (h : Sees x a l x') (hs : SeesAll x' as items x'') :
      SeesAll x (a :: as) (l ++ items) x''

/-- Several alternatives. -/
inductive SeesAlts : Bool → List RAst → List RAst → Bool → Prop where
  | one {x x' : Bool} {a : RAst} {l : List RAst} (h : Sees x a l x') : SeesAlts x [a] [intoAst l] x'
  | cons {x x' x'' : Bool} {a : RAst} {l as bs : List RAst} (h : Sees x a l x') (hs : SeesAlts x' as bs x'') :
      SeesAlts x (a :: as) (intoAst l :: bs) x''

/-- The content of a group, or a whole pattern. -/
inductive SeesBody : Bool → RAst → RAst → Prop where
  | one {x x' : Bool} {a : RAst} {l : List RAst} (h : Sees x a l x') : SeesBody x a (intoAst l)
  | alternation {x x' : Bool} {as bs : List RAst} (h : SeesAlts x as bs x') (h2 : 2 ≤ as.length) :
      SeesBody x (.alternation as) (.alternation bs)

end

/-! ## Runs of the reader -/

/-- From the first state, the reader takes the text and is then in the second state. -/
def Eats (st : RState) (text : Str) (st' : RState) (rest : Str) : Prop :=
  ∃ k, k ≤ text.length ∧ ∀ n, readLoop (n + k) st (text ++ rest) = readLoop n st' rest

theorem Eats.append {st st' st'' : RState} {t t' rest : Str} (h : Eats st t st' (t' ++ rest)) (h' : Eats st' t' st'' rest) :
    Eats st (t ++ t') st'' rest := by
  obtain ⟨k, hk, h⟩ := h
  obtain ⟨k', hk', h'⟩ := h'
  refine ⟨k' + k, by simp only [List.length_append]; omega, fun n => ?_⟩
  rw [List.append_assoc, ← Nat.add_assoc, h, h']

theorem Eats.nil (st : RState) (rest : Str) : Eats st [] st rest := ⟨0, by simp, fun _ => rfl⟩

/-- One round of the loop. -/
theorem Eats.step {st st' : RState} {c : Char} {t rest : Str} (hc : Stops st.x c)
    (h : readStep st c (t ++ rest) = some (st', rest)) : Eats st (c :: t) st' rest := by
  refine ⟨1, by simp, fun n => ?_⟩
  rw [List.cons_append, readLoop, skipSpace_stop hc]
  simp only [h]

theorem Eats.space {st : RState} (hx : st.x = true) {c : Char} (hc : isWs c = true) (rest : Str) :
    Eats st [c] st rest := by
  refine ⟨0, by simp, fun n => ?_⟩
  cases n with
  | zero => rfl
  | succ n =>
    show readLoop (n + 1) st (c :: rest) = _
    rw [readLoop, readLoop, hx, skipSpace_ws hc]

/-- The text does not begin with a quantifier, even if whitespace is skipped. -/
def Calm (x : Bool) (s : Str) : Prop := ∀ c t, skipSpace x s = c :: t → c ∉ ['?', '*', '+', '{']

theorem Calm.of_head {x : Bool} {c : Char} {t : Str} (hs : Stops x c) (hc : c ∉ ['?', '*', '+', '{']) : Calm x (c :: t) := by
  intro d u h
  rw [skipSpace_stop hs] at h
  cases h
  exact hc

theorem Calm.nil (x : Bool) : Calm x [] := by
  intro c t h
  rw [skipSpace_nil] at h
  cases h

theorem Calm.no_question {x : Bool} {s : Str} (h : Calm x s) : s.head? ≠ some '?' := by
  cases s with
  | nil => simp
  | cons c s =>
    intro e
    cases e
    exact h '?' s (skipSpace_stop (meta_stop (by decide) (by decide) x) s) (by decide)

theorem Calm.no_question' {x : Bool} {s : Str} (h : Calm x s) : (skipSpace x s).head? ≠ some '?' := by
  cases hs : skipSpace x s with
  | nil => simp
  | cons c t =>
    intro e
    cases e
    exact h '?' t hs (by decide)

/-! ## Tokens -/

theorem flagOfChar_print (f : RFlagsItem) : flagOfChar f.print = some f := by
  cases f with
  | negation => rfl
  | flag f => cases f <;> rfl

theorem print_flag_ne (f : RFlagsItem) :
    f.print ≠ ':' ∧ f.print ≠ ')' ∧ f.print ≠ '<' ∧ f.print ≠ 'P' := by
  cases f with
  | negation => decide
  | flag f => cases f <;> decide

theorem readFlags_ok (fs : List RFlagsItem) {d : Char} (hd : d = ':' ∨ d = ')') (rest : Str) :
    readFlags (fs.map RFlagsItem.print ++ d :: rest) = some (fs, d, rest) := by
  induction fs with
  | nil => simp only [List.map_nil, List.nil_append, readFlags, if_pos hd]
  | cons f fs ih =>
    obtain ⟨h1, h2, _⟩ := print_flag_ne f
    rw [List.map_cons, List.cons_append, readFlags, if_neg (by rintro (h | h) <;> contradiction), flagOfChar_print]
    simp only [ih]

theorem readGroup_flags {st : RState} {fs : List RFlagsItem} {d : Char} (hd : d = ':' ∨ d = ')') (rest : Str) :
    readGroup st ('?' :: (fs.map RFlagsItem.print ++ d :: rest)) =
      (if flagsOk fs = false then none
      else if d = ')' then
        if fs = [] then none
        else some ({ st.push (.flags fs) with x := spaceAfter fs st.x }, rest)
      else
        some ({ x := spaceAfter fs st.x, done := [],
                stack := .group st.done (.nonCapturing fs) st.x :: st.stack }, rest)) := by
  have hs : ∀ s, skipSpace st.x ('?' :: s) = '?' :: s := fun s => skipSpace_stop (meta_stop (by decide) (by decide) _) s
  have hne : ∀ c s, fs.map RFlagsItem.print ++ d :: rest = c :: s → c ≠ '<' ∧ c ≠ 'P' := by
    intro c s h
    cases fs with
    | nil =>
      cases h
      rcases hd with rfl | rfl <;> decide
    | cons f fs =>
      cases h
      exact (print_flag_ne f).2.2
  unfold readGroup
  simp only [hs]
  split
  · rename_i h
    simp only [List.cons.injEq, true_and] at h
    exact absurd rfl (hne _ _ h).1
  · rename_i h
    simp only [List.cons.injEq, true_and] at h
    exact absurd rfl (hne _ _ h).2
  · rename_i h
    simp only [List.cons.injEq, true_and] at h
    subst h
    rw [readFlags_ok fs hd]
  · rename_i h
    exact absurd rfl (h _)

theorem alnum_name {name : Str} (h : KindOk (.captureName name)) (rest : Str) :
    readName (name ++ '>' :: rest) = some (name, rest) := by
  obtain ⟨c, t, rfl, hc, ht⟩ := h
  have hn : '>' ∉ c :: t := by
    intro hm
    simp only [List.mem_cons] at hm
    rcases hm with rfl | hm
    · revert hc; decide
    · have := ht _ hm
      revert this; decide
  unfold readName
  rw [untilChar_append hn]
  simp only
  rw [if_pos ⟨hc, by simpa using ht⟩]

theorem readGroup_named {st : RState} {name : Str} (h : KindOk (.captureName name)) (rest : Str) :
    readGroup st ('?' :: '<' :: (name ++ '>' :: rest)) =
      some ({ st with done := [], stack := .group st.done (.captureName name) st.x :: st.stack }, rest) := by
  have hs : ∀ s, skipSpace st.x ('?' :: s) = '?' :: s := fun s => skipSpace_stop (meta_stop (by decide) (by decide) _) s
  simp only [readGroup, hs, alnum_name h]

theorem readGroup_plain {st : RState} {s : Str} (h : (skipSpace st.x s).head? ≠ some '?') :
    readGroup st s = some ({ st with done := [], stack := .group st.done .captureIndex st.x :: st.stack }, s) := by
  unfold readGroup
  simp only
  split
  · rename_i h'; rw [h'] at h; exact absurd rfl h
  · rename_i h'; rw [h'] at h; exact absurd rfl h
  · rename_i h'; rw [h'] at h; exact absurd rfl h
  · rfl

theorem open_stop (x : Bool) : Stops x '(' := meta_stop (by decide) (by decide) x

/-- The opening of a group. -/
theorem eats_open {x : Bool} {done : List RAst} {stack : List RFrame} {kind : RGroupKind} (hk : KindOk kind) {rest : Str}
    (hq : kind = .captureIndex → (skipSpace x rest).head? ≠ some '?') :
    Eats { x := x, done := done, stack := stack } kind.print
      { x := groupX kind x, done := [], stack := .group done kind x :: stack } rest := by
  cases kind with
  | captureIndex =>
    refine Eats.step (open_stop _) ?_
    simp only [readStep, List.nil_append, if_true]
    rw [readGroup_plain (hq rfl)]
    rfl
  | captureName name =>
    rw [RGroupKind.print]
    simp only [List.cons_append, List.nil_append]
    refine Eats.step (open_stop _) ?_
    simp only [readStep, if_true, List.cons_append, List.append_assoc, List.nil_append]
    rw [readGroup_named hk]
    rfl
  | nonCapturing fs =>
    rw [RGroupKind.print]
    simp only [List.cons_append, List.nil_append]
    refine Eats.step (open_stop _) ?_
    simp only [readStep, if_true, List.cons_append, List.append_assoc, List.nil_append]
    rw [readGroup_flags (.inl rfl)]
    have : flagsOk fs = true := hk
    simp [this, groupX]

theorem step_literal {st : RState} {c : Char} (h : isMetaCharacter c = false) (rest : Str) :
    readStep st c rest = some (st.push (.literal { kind := .verbatim, c := c }), rest) := by
  have hne : ∀ d, isMetaCharacter d = true → c ≠ d := fun d hd e => by rw [e, hd] at h; cases h
  unfold readStep
  rw [if_neg (hne _ (by decide)), if_neg (hne _ (by decide)), if_neg (hne _ (by decide)), if_neg (hne _ (by decide)),
    if_neg (hne _ (by decide)), if_neg (hne _ (by decide)), if_neg (hne _ (by decide)), if_neg (hne _ (by decide)),
    if_neg (hne _ (by decide)), if_neg (hne _ (by decide)), if_neg (hne _ (by decide)), if_neg (hne _ (by decide))]

theorem step_escape {st : RState} {s : Str} :
    readStep st '\\' s =
      match readEscape s with
      | some (.literal l, rest) => some (st.push (.literal l), rest)
      | some (.assertion k, rest) => some (st.push (.assertion k), rest)
      | some (.unicode negated name, rest) => some (st.push (.classUnicode negated name), rest)
      | none => none := by
  unfold readStep
  rw [if_neg (by decide), if_neg (by decide), if_neg (by decide), if_neg (by decide), if_neg (by decide),
    if_neg (by decide), if_neg (by decide), if_neg (by decide), if_pos rfl]
  rfl

theorem eats_literal {st : RState} {l : RLiteral} (h : LitOk l)
    (hs : st.x = true → l.kind = .verbatim → isWs l.c = false) (rest : Str) :
    Eats st l.print (st.push (.literal l)) rest := by
  obtain ⟨k, c⟩ := l
  cases k with
  | verbatim =>
    refine Eats.step (fun hx => ⟨hs hx rfl, ?_⟩) (step_literal h rest)
    intro e
    have h' : isMetaCharacter c = false := h
    have e' : c = '#' := e
    rw [e'] at h'
    revert h'; decide
  | metaChar =>
    refine Eats.step (t := [c]) (backslash_stop _) ?_
    rw [step_escape, List.singleton_append, readEscape_meta h]
  | hexBrace =>
    refine Eats.step (t := 'x' :: '{' :: printHex c.toNat ++ ['}']) (backslash_stop _) ?_
    have := readEscape_hex c rest
    rw [step_escape]
    simp only [List.cons_append, List.append_assoc, List.nil_append] at this ⊢
    rw [this]

theorem eats_assertion {st : RState} {k : RAssertionKind} {rest : Str}
    (h : (k = .wordBoundary ∨ k = .notWordBoundary) → rest.head? ≠ some '{') :
    Eats st k.print (st.push (.assertion k)) rest := by
  have hesc : ∀ c, (c = 'A' ∧ k = .startText ∨ c = 'z' ∧ k = .endText) →
      readEscape (c :: rest) = some (.assertion k, rest) := by
    rintro c (⟨rfl, rfl⟩ | ⟨rfl, rfl⟩) <;> simp [readEscape, isMetaCharacter]
  have hb : ∀ c, (c = 'b' ∧ k = .wordBoundary ∨ c = 'B' ∧ k = .notWordBoundary) →
      readEscape (c :: rest) = some (.assertion k, rest) := by
    intro c hc
    have hr : rest.head? ≠ some '{' := h (hc.imp And.right And.right)
    cases rest with
    | nil => rcases hc with ⟨rfl, rfl⟩ | ⟨rfl, rfl⟩ <;> simp [readEscape, isMetaCharacter]
    | cons d rest =>
      have hd : d ≠ '{' := fun e => hr (by rw [e]; rfl)
      rcases hc with ⟨rfl, rfl⟩ | ⟨rfl, rfl⟩ <;> simp [readEscape, isMetaCharacter, hd]
  cases k with
  | startLine => exact Eats.step (t := []) (meta_stop (by decide) (by decide) _) (by simp [readStep])
  | endLine => exact Eats.step (t := []) (meta_stop (by decide) (by decide) _) (by simp [readStep])
  | startText =>
    refine Eats.step (t := ['A']) (backslash_stop _) ?_
    rw [step_escape, List.singleton_append, hesc _ (.inl ⟨rfl, rfl⟩)]
  | endText =>
    refine Eats.step (t := ['z']) (backslash_stop _) ?_
    rw [step_escape, List.singleton_append, hesc _ (.inr ⟨rfl, rfl⟩)]
  | wordBoundary =>
    refine Eats.step (t := ['b']) (backslash_stop _) ?_
    rw [step_escape, List.singleton_append, hb _ (.inl ⟨rfl, rfl⟩)]
  | notWordBoundary =>
    refine Eats.step (t := ['B']) (backslash_stop _) ?_
    rw [step_escape, List.singleton_append, hb _ (.inr ⟨rfl, rfl⟩)]

theorem eats_unicode {st : RState} {negated : Bool} {name : Str} (h : NameOk name) (rest : Str) :
    Eats st (printUnicode negated name) (st.push (.classUnicode negated name)) rest := by
  refine Eats.step (t := (if negated then 'P' else 'p') :: '{' :: name ++ ['}']) (backslash_stop _) ?_
  have := readEscape_unicode h negated rest
  rw [step_escape]
  simp only [List.cons_append, List.append_assoc, List.nil_append] at this ⊢
  rw [this]

theorem print_intoItem (l : List RClassItem) : (intoItem l).print = printItems l := by
  unfold intoItem
  split
  · simp [printItems]
  · rw [RClassItem.print]

theorem eats_class {st : RState} {negated : Bool} {it : RClassItem} {l : List RClassItem} (hl : l ≠ [])
    (h : ∀ i ∈ l, ItemOk i) (hi : it = intoItem l ∨ it = .union l) (rest : Str) :
    Eats st (RAst.classBracketed { negated := negated, item := it }).print
      (st.push (.classBracketed { negated := negated, item := intoItem l })) rest := by
  have hp : it.print = printItems l := by
    rcases hi with rfl | rfl
    · exact print_intoItem l
    · rw [RClassItem.print]
  have e : (RAst.classBracketed { negated := negated, item := it }).print =
      '[' :: ((if negated then ['^'] else []) ++ (printItems l ++ [']'])) := by
    rw [RAst.print, RBracketed.toItem, RClassItem.print, hp]
    cases negated <;> simp
  rw [e]
  refine Eats.step (meta_stop (by decide) (by decide) _) ?_
  have := readClass_ok hl h st.x negated rest
  simp only [List.append_assoc, List.cons_append, List.nil_append]
  simp [readStep, this]

/-! ## Repetitions -/

theorem repeatLast_ok {st : RState} {a : RAst} (h : repeatable a = true) (kind : RRepetitionKind) (greedy : Bool) :
    (st.push a).repeatLast kind greedy = some (st.push (.repetition kind greedy a)) := by
  unfold RState.repeatLast RState.push
  simp [h]

theorem readRepetition_ok {st : RState} {a : RAst} (h : repeatable a = true) (kind : RRepetitionKind) {greedy : Bool}
    {s s' rest : Str} (hl : greedy = false → s = '?' :: rest) (hg : greedy = true → s.head? ≠ some '?' ∧ s' = rest) :
    readRepetition (st.push a) kind s s' = some (st.push (.repetition kind greedy a), rest) := by
  unfold readRepetition
  cases greedy with
  | false =>
    rw [hl rfl]
    simp only [repeatLast_ok h]
  | true =>
    obtain ⟨h1, h2⟩ := hg rfl
    split
    · exact absurd rfl h1
    · simp only [repeatLast_ok h, h2]

theorem readCounts_ok {k : RRepetitionKind} (hk : RepOk k) (hc : k ≠ .zeroOrOne ∧ k ≠ .zeroOrMore ∧ k ≠ .oneOrMore)
    (rest : Str) : ∃ t, k.print = '{' :: t ∧ readCounts (t ++ rest) = some (k, rest) := by
  cases k with
  | zeroOrOne => exact absurd rfl hc.1
  | zeroOrMore => exact absurd rfl hc.2.1
  | oneOrMore => exact absurd rfl hc.2.2
  | exactly n =>
    refine ⟨printNat n ++ ['}'], rfl, ?_⟩
    rw [List.append_assoc, List.singleton_append]
    simp only [readCounts, readDecimal_print (d := '}') hk (by decide) rest]
  | atLeast n =>
    refine ⟨printNat n ++ [',', '}'], rfl, ?_⟩
    rw [List.append_assoc]
    simp only [readCounts, List.cons_append, List.nil_append, readDecimal_print (d := ',') hk (by decide)]
  | bounded n m =>
    obtain ⟨h1, h2, h3⟩ := hk
    refine ⟨printNat n ++ ',' :: (printNat m ++ ['}']), by simp [RRepetitionKind.print], ?_⟩
    rw [List.append_assoc, List.cons_append, List.append_assoc, List.singleton_append]
    unfold readCounts
    rw [readDecimal_print (d := ',') h1 (by decide)]
    have hne : ∀ s, printNat m ++ '}' :: rest ≠ '}' :: s := by
      intro s h
      cases hp : printNat m with
      | nil =>
        rw [printNat_eq] at hp
        exact Nat.toDigits_ne_nil hp
      | cons c t =>
        have hd := printNat_digit (n := m) (c := c) (by rw [hp]; simp)
        rw [hp] at h
        cases h
        revert hd; decide
    split
    · rename_i h; cases h
    · rename_i h
      simp only [Option.some.injEq, Prod.mk.injEq, List.cons.injEq, true_and] at h
      exact absurd h.2 (hne _)
    · rename_i h
      simp only [Option.some.injEq, Prod.mk.injEq, List.cons.injEq, true_and] at h
      obtain ⟨rfl, rfl⟩ := h
      rw [readDecimal_print (d := '}') h2 (by decide)]
      simp [h3]
    · rename_i h1 h2 h3
      exact absurd rfl (h3 _ _)

theorem eats_repetition {st : RState} {a : RAst} (h : repeatable a = true) {k : RRepetitionKind} (hk : RepOk k)
    (greedy : Bool) {rest : Str} (hr : Calm st.x rest) :
    Eats (st.push a) (k.print ++ if greedy then [] else ['?']) (st.push (.repetition k greedy a)) rest := by
  have hq : ∀ s, skipSpace st.x ('?' :: s) = '?' :: s := fun s => skipSpace_stop (meta_stop (by decide) (by decide) _) s
  have simple : ∀ c k, (c = '?' ∧ k = RRepetitionKind.zeroOrOne ∨ c = '*' ∧ k = .zeroOrMore ∨ c = '+' ∧ k = .oneOrMore) →
      Eats (st.push a) (c :: if greedy then [] else ['?']) (st.push (.repetition k greedy a)) rest := by
    intro c k hc
    refine Eats.step ?_ ?_
    · rcases hc with ⟨rfl, rfl⟩ | ⟨rfl, rfl⟩ | ⟨rfl, rfl⟩ <;> exact meta_stop (by decide) (by decide) _
    · have := readRepetition_ok (st := st) h k (greedy := greedy) (s := (if greedy then [] else ['?']) ++ rest)
        (s' := (if greedy then [] else ['?']) ++ rest) (rest := rest) (fun e => by rw [e]; rfl)
        (fun e => by rw [e]; exact ⟨hr.no_question, rfl⟩)
      rcases hc with ⟨rfl, rfl⟩ | ⟨rfl, rfl⟩ | ⟨rfl, rfl⟩ <;> simpa [readStep] using this
  by_cases hc : k ≠ .zeroOrOne ∧ k ≠ .zeroOrMore ∧ k ≠ .oneOrMore
  · obtain ⟨t, hp, ht⟩ := readCounts_ok hk hc ((if greedy then [] else ['?']) ++ rest)
    rw [hp, List.cons_append]
    refine Eats.step (meta_stop (by decide) (by decide) _) ?_
    have := readRepetition_ok (st := st) h k (greedy := greedy)
      (s := skipSpace st.x ((if greedy then [] else ['?']) ++ rest))
      (s' := (if greedy then [] else ['?']) ++ rest) (rest := rest) (fun e => by rw [e]; exact hq _)
      (fun e => by rw [e]; exact ⟨hr.no_question', rfl⟩)
    simp only [readStep, List.append_assoc, ht]
    rw [if_neg (by decide), if_neg (by decide), if_neg (by decide), if_neg (by decide), if_neg (by decide),
      if_neg (by decide), if_neg (by decide), if_pos trivial]
    exact this
  · cases k with
    | zeroOrOne => exact simple '?' _ (.inl ⟨rfl, rfl⟩)
    | zeroOrMore => exact simple '*' _ (.inr (.inl ⟨rfl, rfl⟩))
    | oneOrMore => exact simple '+' _ (.inr (.inr ⟨rfl, rfl⟩))
    | _ => exact absurd (by simp) hc

/-! ## Trees -/

theorem SeesAtom.repeatable {x : Bool} {a b : RAst} (h : SeesAtom x a b) : Re.repeatable b = true := by
  cases h <;> rfl

theorem atom_head {x : Bool} {a b : RAst} (h : SeesAtom x a b) :
    ∃ c t, a.print = c :: t ∧ Stops x c ∧ c ∉ ['?', '*', '+', '{'] := by
  have group : ∀ (kind : RGroupKind) (a : RAst), ∃ c t, (RAst.group kind a).print = c :: t ∧ Stops x c ∧
      c ∉ ['?', '*', '+', '{'] := by
    intro kind a
    cases kind <;> exact ⟨'(', _, by rw [RAst.print, RGroupKind.print]; rfl, open_stop x, by decide⟩
  cases h with
  | @literal _ l h hs =>
    obtain ⟨c, t, hp, hc⟩ := literal_head h
    refine ⟨c, t, by rw [RAst.print, hp], ?_⟩
    rcases hc with rfl | ⟨hk, rfl, _, hm⟩
    · exact ⟨backslash_stop x, by decide⟩
    · have hne : ∀ d, isMetaCharacter d = true → l.c ≠ d := fun d hd e => by rw [e, hd] at hm; cases hm
      refine ⟨fun hx => ⟨hs hx hk, hne _ (by decide)⟩, ?_⟩
      simp only [List.mem_cons, List.not_mem_nil, or_false, not_or]
      exact ⟨hne _ (by decide), hne _ (by decide), hne _ (by decide), hne _ (by decide)⟩
  | dot => exact ⟨'.', _, by rw [RAst.print], meta_stop (by decide) (by decide) x, by decide⟩
  | @assertion _ k hk =>
    rw [RAst.print]
    cases k <;> exact ⟨_, _, rfl, meta_stop (by decide) (by decide) x, by decide⟩
  | boundary hf => exact group _ _
  | unicode hn => exact ⟨'\\', _, by rw [RAst.print, printUnicode]; rfl, backslash_stop x, by decide⟩
  | @bracketed _ negated it =>
    refine ⟨'[', (if negated then ['^'] else []) ++ it.print ++ [']'], ?_, meta_stop (by decide) (by decide) x, by decide⟩
    rw [RAst.print, RBracketed.toItem, RClassItem.print]
    cases negated <;> rfl
  | group hk hb => exact group _ _

theorem atom_calm {x : Bool} {a b : RAst} (h : SeesAtom x a b) (rest : Str) : Calm x (a.print ++ rest) := by
  obtain ⟨c, t, hp, hs, hc⟩ := atom_head h
  rw [hp]
  exact Calm.of_head hs hc

mutual

theorem sees_calm {x x' : Bool} {a : RAst} {l : List RAst} {rest : Str} (h : Sees x a l x') (hr : Calm x' rest) :
    Calm x (a.print ++ rest) := by
  cases h with
  | atom h => exact atom_calm h rest
  | empty => exact hr
  | flags hf hn => exact Calm.of_head (open_stop x) (by decide)
  | space hc =>
    intro c t h
    rw [RAst.print, RLiteral.print] at h
    exact hr c t (by rw [← skipSpace_ws hc]; exact h)
  | repetition hk h =>
    rw [RAst.print, List.append_assoc, List.append_assoc]
    exact atom_calm h _
  | concat h =>
    rw [RAst.print]
    exact seesAll_calm h hr

theorem seesAll_calm {x x' : Bool} {as l : List RAst} {rest : Str} (h : SeesAll x as l x') (hr : Calm x' rest) :
    Calm x (printConcat as ++ rest) := by
  cases h with
  | nil => exact hr
  | cons h hs =>
    rw [printConcat, List.append_assoc]
    exact sees_calm h (seesAll_calm hs hr)

end

/-- The frames for the alternatives that are complete. -/
def withAlts (bs : List RAst) (stack : List RFrame) : List RFrame :=
  match bs with
  | [] => stack
  | _ => .alternation bs :: stack

/-- The alternatives are not those of an outer group. -/
def TopOk (stack : List RFrame) : Prop := ∀ l s, stack ≠ .alternation l :: s

theorem alternate_ok {x : Bool} {done bs : List RAst} {stack : List RFrame} (h : TopOk stack) :
    RState.alternate { x := x, done := done, stack := withAlts bs stack } =
      { x := x, done := [], stack := withAlts (bs ++ [intoAst done]) stack } := by
  cases bs with
  | nil =>
    unfold RState.alternate
    simp only [withAlts, List.nil_append]
    split
    · exact absurd rfl (h _ _)
    · rfl
  | cons b bs => rfl

theorem alts_head {x x' : Bool} {as bs : List RAst} {rest : Str} (h : SeesAlts x as bs x') (hr : Calm x' rest) :
    Calm x (printAlternatives as ++ rest) := by
  have bar : ∀ x s, Calm x ('|' :: s) := fun x s => Calm.of_head (meta_stop (by decide) (by decide) x) (by decide)
  cases h with
  | one h => exact sees_calm h hr
  | @cons _ x1 _ a l as bs h hs =>
    cases as with
    | nil => cases hs
    | cons a' as =>
      rw [printAlternatives, List.append_assoc]
      · exact sees_calm h (bar _ _)
      · simp

theorem body_calm {x : Bool} {a b : RAst} {rest : Str} (h : SeesBody x a b) (hr : ∀ x, Calm x rest) :
    Calm x (a.print ++ rest) := by
  cases h with
  | one h => exact sees_calm h (hr _)
  | alternation h h2 =>
    rw [RAst.print]
    exact alts_head h (hr _)

theorem close_calm (x : Bool) (s : Str) : Calm x (')' :: s) :=
  Calm.of_head (meta_stop (by decide) (by decide) x) (by decide)

/-- The states at the end of a group in which `b` is its content. -/
def Ends (b : RAst) (stack : List RFrame) (st : RState) : Prop :=
  (st.stack = stack ∧ b = intoAst st.done) ∨
  ∃ bs, bs ≠ [] ∧ st.stack = .alternation bs :: stack ∧ b = .alternation (bs ++ [intoAst st.done])

theorem eats_close {b : RAst} {done : List RAst} {kind : RGroupKind} {x : Bool} {stack : List RFrame} {st : RState}
    (h : Ends b (.group done kind x :: stack) st) (rest : Str) :
    Eats st [')'] { x := x, done := done ++ [.group kind b], stack := stack } rest := by
  refine Eats.step (t := []) (meta_stop (by decide) (by decide) _) ?_
  have hpop : st.pop = some { x := x, done := done ++ [.group kind b], stack := stack } := by
    unfold RState.pop
    rcases h with ⟨hs, rfl⟩ | ⟨bs, hbs, hs, rfl⟩
    · rw [hs]
    · rw [hs]
      cases bs with
      | nil => exact absurd rfl hbs
      | cons b bs =>
        cases bs <;> rfl
  simp [readStep, hpop]

set_option hygiene false in
local macro "smaller" : tactic =>
  `(tactic| (first | omega | (simp only [RAst.group.sizeOf_spec, RAst.repetition.sizeOf_spec, RAst.concat.sizeOf_spec,
    RAst.alternation.sizeOf_spec, List.cons.sizeOf_spec] at hz; omega)))

mutual

theorem atom_eats (n : Nat) {x : Bool} {a b : RAst} (h : SeesAtom x a b) (hz : 3 * sizeOf a < n) (done : List RAst) (stack : List RFrame) (rest : Str) :
    Eats { x := x, done := done, stack := stack } a.print { x := x, done := done ++ [b], stack := stack } rest := by
  have hpos : 0 < n := by omega
  cases h with
  | literal h hs =>
    rw [RAst.print]
    exact eats_literal h hs rest
  | dot =>
    rw [RAst.print]
    exact Eats.step (t := []) (meta_stop (by decide) (by decide) _) (by simp [readStep, RState.push])
  | assertion hk =>
    rw [RAst.print]
    exact eats_assertion (st := { x := x, done := done, stack := stack })
      (fun h => by rcases h with h | h; exact absurd h hk.1; exact absurd h hk.2)
  | @boundary _ k fs hf =>
    rw [RAst.print, RAst.print, List.append_assoc]
    refine Eats.append (eats_open (kind := .nonCapturing fs) hf (by simp)) ?_
    refine Eats.append (eats_assertion (st := ⟨groupX (.nonCapturing fs) x, [], .group done (.nonCapturing fs) x :: stack⟩)
      (by simp)) ?_
    exact eats_close (.inl ⟨rfl, rfl⟩) rest
  | unicode hn =>
    rw [RAst.print]
    exact eats_unicode (st := { x := x, done := done, stack := stack }) hn rest
  | bracketed hl h hi =>
    exact eats_class (st := { x := x, done := done, stack := stack }) hl h hi rest
  | @group _ kind a b hk hb =>
    rw [RAst.print, List.append_assoc]
    have hcalm := body_calm hb (rest := ')' :: rest) (fun x => close_calm x rest)
    refine Eats.append (eats_open hk ?_) ?_
    · rintro rfl
      rw [List.append_assoc]
      exact hcalm.no_question'
    · obtain ⟨st, he, hend⟩ := body_eats (n - 1) hb (by smaller) (.group done kind x :: stack) (by intro l s h; cases h) (')' :: rest)
        (fun x => close_calm x rest)
      exact Eats.append he (eats_close hend rest)
termination_by n
decreasing_by all_goals omega

theorem sees_eats (n : Nat) {x x' : Bool} {a : RAst} {l : List RAst} (h : Sees x a l x') (hz : 3 * sizeOf a + 1 < n) (done : List RAst) (stack : List RFrame)
    (rest : Str) (hr : Calm x' rest) :
    Eats { x := x, done := done, stack := stack } a.print { x := x', done := done ++ l, stack := stack } rest := by
  have hpos : 0 < n := by omega
  cases h with
  | atom h => exact atom_eats (n - 1) h (by smaller) done stack rest
  | empty =>
    rw [RAst.print, List.append_nil]
    exact Eats.nil _ _
  | @flags _ fs hf hn =>
    rw [RAst.print]
    simp only [List.cons_append, List.nil_append]
    refine Eats.step (open_stop _) ?_
    simp only [readStep, if_true, List.cons_append, List.append_assoc, List.nil_append]
    rw [readGroup_flags (.inr rfl)]
    simp [hf, hn, RState.push]
  | space hc =>
    rw [RAst.print, List.append_nil]
    exact Eats.space rfl hc rest
  | @repetition _ greedy a b k hk h =>
    rw [RAst.print, List.append_assoc]
    exact Eats.append (atom_eats (n - 1) h (by smaller) done stack _)
      (eats_repetition (st := { x := x, done := done, stack := stack }) h.repeatable hk greedy hr)
  | concat h =>
    rw [RAst.print]
    exact seesAll_eats (n - 1) h (by smaller) done stack rest hr
termination_by n
decreasing_by all_goals omega

theorem seesAll_eats (n : Nat) {x x' : Bool} {as l : List RAst} (h : SeesAll x as l x') (hz : 3 * sizeOf as < n) (done : List RAst) (stack : List RFrame)
    (rest : Str) (hr : Calm x' rest) :
    Eats { x := x, done := done, stack := stack } (printConcat as) { x := x', done := done ++ l, stack := stack } rest := by
  have hpos : 0 < n := by omega
  cases h with
  | nil =>
    rw [printConcat, List.append_nil]
    exact Eats.nil _ _
  | cons h hs =>
    rw [printConcat, ← List.append_assoc]
    exact Eats.append (sees_eats (n - 1) h (by smaller) done stack _ (seesAll_calm hs hr)) (seesAll_eats (n - 1) hs (by smaller) _ stack rest hr)
termination_by n
decreasing_by all_goals omega

theorem alts_eats (n : Nat) {x x' : Bool} {as out : List RAst} (h : SeesAlts x as out x') (hz : 3 * sizeOf as < n) (bs : List RAst) (stack : List RFrame)
    (hs : TopOk stack) (rest : Str) (hr : ∀ x, Calm x rest) :
    ∃ d init, out = init ++ [intoAst d] ∧
      Eats { x := x, done := [], stack := withAlts bs stack } (printAlternatives as)
        { x := x', done := d, stack := withAlts (bs ++ init) stack } rest := by
  have hpos : 0 < n := by omega
  cases h with
  | @one _ _ a l h =>
    refine ⟨l, [], rfl, ?_⟩
    rw [List.append_nil]
    exact sees_eats (n - 1) h (by smaller) [] _ rest (hr _)
  | @cons _ x1 _ a l as bs' h hs' =>
    obtain ⟨d, init, hout, he⟩ := alts_eats (n - 1) hs' (by smaller) (bs ++ [intoAst l]) stack hs rest hr
    refine ⟨d, intoAst l :: init, by rw [hout]; rfl, ?_⟩
    have hp : printAlternatives (a :: as) = a.print ++ (['|'] ++ printAlternatives as) := by
      cases as with
      | nil => cases hs'
      | cons a' as => rw [printAlternatives]; rfl; simp
    rw [hp]
    refine Eats.append (sees_eats (n - 1) h (by smaller) [] _ _ ?_) (Eats.append ?_ (by simpa using he))
    · exact Calm.of_head (meta_stop (by decide) (by decide) _) (by decide)
    · refine Eats.step (t := []) (meta_stop (by decide) (by decide) _) ?_
      simp [readStep, alternate_ok hs]
termination_by n
decreasing_by all_goals omega

theorem body_eats (n : Nat) {x : Bool} {a b : RAst} (h : SeesBody x a b) (hz : 3 * sizeOf a + 2 < n) (stack : List RFrame) (hs : TopOk stack) (rest : Str)
    (hr : ∀ x, Calm x rest) :
    ∃ st, Eats { x := x, done := [], stack := stack } a.print st rest ∧ Ends b stack st := by
  have hpos : 0 < n := by omega
  cases h with
  | @one _ x' _ l h =>
    exact ⟨_, sees_eats (n - 1) h (by smaller) [] stack rest (hr _), .inl ⟨rfl, rfl⟩⟩
  | @alternation _ x' as bs h h2 =>
    obtain ⟨d, init, hout, he⟩ := alts_eats (n - 1) h (by smaller) [] stack hs rest hr
    rw [RAst.print]
    refine ⟨_, he, .inr ⟨init, ?_, ?_, by rw [hout]⟩⟩
    · rintro rfl
      cases h with
      | one h => simp at h2
      | cons h hs' => cases hs' <;> simp at hout
    · cases init with
      | nil =>
        cases h with
        | one h => simp at h2
        | cons h hs' => cases hs' <;> simp at hout
      | cons b bs => rfl
termination_by n
decreasing_by all_goals omega

end

/-- Reading a printed pattern: what is read is checked against the limits. -/
theorem readRust_body {a b : RAst} (h : SeesBody false a b) :
    readRust a.print = if b.depth ≤ nestLimit ∧ b.names.Nodup then some b else none := by
  obtain ⟨st, ⟨k, hk, he⟩, hend⟩ := body_eats _ h (Nat.lt_succ_self _) [] (by intro l s h; cases h) [] Calm.nil
  have := he (a.print.length + 1 - k)
  rw [List.append_nil] at this
  unfold readRust
  rw [show a.print.length + 1 = a.print.length + 1 - k + k from by omega, this,
    show a.print.length + 1 - k = (a.print.length - k) + 1 from by omega, readLoop, skipSpace_nil]
  simp only [RState.finish]
  rcases hend with ⟨hs, rfl⟩ | ⟨bs, _, hs, rfl⟩ <;> rw [hs]

/-- Reading a printed pattern within the limits. -/
theorem readRust_print {a b : RAst} (h : SeesBody false a b) (hd : b.depth ≤ nestLimit) (hn : b.names.Nodup) :
    readRust a.print = some b := by
  rw [readRust_body h, if_pos ⟨hd, hn⟩]

end Sds.Re
