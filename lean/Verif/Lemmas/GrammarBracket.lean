import Verif.Lemmas.GrammarClass

/-! # Bracketed classes of the parser and the syntax -/

namespace Sds.Re.Gram
open Sds Sds.Spec.Syntax

variable {α β : Type}

theorem orElse_assoc (p q r : Parser α) : Parser.orElse (Parser.orElse p q) r = Parser.orElse p (Parser.orElse q r) := by
  funext i
  unfold Parser.orElse
  cases p i <;> rfl

theorem alt_append (p : Parser α) (l : List (Parser α)) (q : Parser α) (r : List (Parser α)) :
    alt p (l ++ q :: r) = Parser.orElse (alt p l) (alt q r) := by
  induction l generalizing p with
  | nil => rfl
  | cons x l ih =>
    show Parser.orElse p (alt x (l ++ q :: r)) = Parser.orElse (Parser.orElse p (alt x l)) (alt q r)
    rw [ih, orElse_assoc]

/-! ## Named classes -/

def posixTable : List (Str × AsciiClassKind) := posixNames.map fun x => (x.1.toList, x.2)

theorem exact_posix : Exact bracketAsciiClass (fun s j b => ∃ x, Posix s j x ∧ b = .ascii x.1 x.2) Never := by
  have ht : Exact (alt (tagged "alnum".toList AsciiClassKind.alnum)
    [tagged "alpha".toList .alpha, tagged "ascii".toList .ascii, tagged "blank".toList .blank,
      tagged "cntrl".toList .cntrl, tagged "digit".toList .digit, tagged "graph".toList .graph,
      tagged "lower".toList .lower, tagged "print".toList .print, tagged "punct".toList .punct,
      tagged "space".toList .space, tagged "upper".toList .upper, tagged "word".toList .word,
      tagged "xdigit".toList .xdigit]) (fun s j k => ∃ x ∈ posixNames, s = x.1.toList ++ j ∧ k = x.2) Never := by
    refine (exact_table "alnum".toList AsciiClassKind.alnum posixTable.tail (by decide +kernel)).congr fun s j k => ?_
    have : ("alnum".toList, AsciiClassKind.alnum) :: posixTable.tail = posixTable := rfl
    rw [this]
    constructor
    · rintro ⟨x, hx, rfl, rfl⟩
      exact ⟨(x.1.toList, x.2), List.mem_map_of_mem (f := fun x : String × AsciiClassKind => (x.1.toList, x.2)) hx, rfl, rfl⟩
    · rintro ⟨x, hx, rfl, rfl⟩
      obtain ⟨y, hy, rfl⟩ := List.mem_map.1 hx
      exact ⟨y, hy, rfl, rfl⟩
  have hn : ∀ x ∈ posixNames, x.1.toList.head? ≠ some '^' ∧ x.1.toList ≠ [] := by decide +kernel
  refine (exact_then (exact_tag ['[', ':']) fun _ => exact_then (exact_opt (exact_tag ['^'])) fun o => exact_then ht fun k =>
    exact_then (exact_tag [':', ']']) fun _ => exact_pure (BracketItem.ascii o.isSome k)).congr fun s j b => ?_
  constructor
  · rintro ⟨x, h, rfl⟩
    cases h with
    | pos _ hx =>
      rename_i n k
      refine ⟨_, (), rfl, _, none, .inr ⟨rfl, rfl, ?_⟩, _, k, ⟨_, hx, rfl, rfl⟩, j, (), rfl, rfl, rfl⟩
      intro t _ he
      obtain ⟨h1, h2⟩ := hn _ hx
      dsimp only at h1 h2
      cases hl : n.toList with
      | nil => exact h2 hl
      | cons c l =>
        rw [hl] at he h1
        cases he
        exact h1 rfl
    | neg _ hx =>
      rename_i n k
      exact ⟨_, (), rfl, _, some (), .inl ⟨(), rfl, rfl⟩, _, k, ⟨_, hx, rfl, rfl⟩, j, (), rfl, rfl, rfl⟩
  · rintro ⟨m, _, rfl, m1, o, ho, m2, k, ⟨x, hx, rfl, rfl⟩, m3, _, rfl, rfl, rfl⟩
    rcases ho with ⟨_, rfl, rfl⟩ | ⟨rfl, rfl, _⟩
    · exact ⟨(true, x.2), .neg j hx, rfl⟩
    · exact ⟨(false, x.2), .pos j hx, rfl⟩

/-! ## Items -/

def whiteTable : List (Str × List BracketItem) :=
  [(['\\', 'h'], [.horizontalWhitespace]), (['\\', 'H'], [.notHorizontalWhitespace]), (['\\', 'v'], [.verticalWhitespace]),
    (['\\', 'V'], [.notVerticalWhitespace])]

/-- Items that come before ranges and literals. -/
def Special (s j : Str) (l : List BracketItem) : Prop :=
  (∃ p, Perl s j p ∧ l = [.perl p]) ∨ (∃ x ∈ whiteTable, s = x.1 ++ j ∧ l = x.2) ∨ (∃ t, Quoted s j t ∧ l = t.map .literal) ∨
    ∃ x, Posix s j x ∧ l = [.ascii x.1 x.2]

/-- The first two characters. -/
theorem perl_start {s j : Str} {p : PerlClass} (h : Perl s j p) : ∃ l ∈ "dswDSW".toList, s = '\\' :: l :: j := by
  obtain ⟨_, h⟩ := h
  have : ∀ x ∈ perlLetters, x.1 ∈ "dswDSW".toList := by decide +kernel
  exact ⟨_, this _ h, rfl⟩

theorem white_start {s j : Str} {l : List BracketItem} (h : ∃ x ∈ whiteTable, s = x.1 ++ j ∧ l = x.2) :
    ∃ l ∈ "hHvV".toList, s = '\\' :: l :: j := by
  obtain ⟨x, hx, rfl, rfl⟩ := h
  have : ∀ x ∈ whiteTable, ∃ l ∈ "hHvV".toList, x.1 = ['\\', l] := by decide +kernel
  obtain ⟨l, hl, he⟩ := this x hx
  exact ⟨l, hl, by rw [he]; rfl⟩

theorem quoted_start {s j t : Str} (h : Quoted s j t) : ∃ m, s = '\\' :: 'Q' :: m := by
  obtain ⟨_, _, _⟩ := h
  exact ⟨_, rfl⟩

theorem posix_start {s j : Str} {x : Bool × AsciiClassKind} (h : Posix s j x) : ∃ m, s = '[' :: ':' :: m := by
  cases h <;> exact ⟨_, rfl⟩

theorem property_start {s j : Str} {x : UnicodePropertyClass} (h : Property s j x) : ∃ l ∈ ['p', 'P'], ∃ m, s = '\\' :: l :: m := by
  cases h
  · exact ⟨'p', by simp, _, rfl⟩
  · exact ⟨'P', by simp, _, rfl⟩

theorem exact_map {P : Parser α} {G : Str → Str → α → Prop} {F : Str → Prop} (hP : Exact P G F) (f : α → β) :
    Exact (P >>= fun a => pure (f a)) (fun s j b => ∃ a, G s j a ∧ b = f a) F := by
  refine ((exact_bind hP fun a => exact_pure (f a)).weaken ?_).congr fun s j b => ?_
  · rintro s (h | ⟨_, _, _, h⟩)
    · exact h
    · exact h.elim
  · constructor
    · rintro ⟨a, h, rfl⟩; exact ⟨j, a, h, rfl, rfl⟩
    · rintro ⟨m, a, h, rfl, rfl⟩; exact ⟨a, h, rfl⟩

theorem exact_special : Exact (alt (do
      let c ← perlCharacterClass
      pure [BracketItem.perl c])
    [tagged ['\\', 'h'] [.horizontalWhitespace],
     tagged ['\\', 'H'] [.notHorizontalWhitespace],
     tagged ['\\', 'v'] [.verticalWhitespace],
     tagged ['\\', 'V'] [.notVerticalWhitespace],
     bracketQuotedLiterals,
     do
      let item ← bracketAsciiClass
      pure [item]]) Special Never := by
  have h1 : Exact (Parser.orElse bracketQuotedLiterals (do
      let item ← bracketAsciiClass
      pure [item])) (fun s j l => (∃ t, Quoted s j t ∧ l = t.map .literal) ∨ ∃ x, Posix s j x ∧ l = [.ascii x.1 x.2]) Never := by
    refine (exact_either' (exact_map exact_quoted _) (exact_map exact_posix fun b => [b]) ?_).congr fun s j l => ?_
    · rintro s j a k b ⟨t, hq, _⟩ ⟨x, ⟨y, hp, _⟩, _⟩
      obtain ⟨m, rfl⟩ := quoted_start hq
      obtain ⟨m', he⟩ := posix_start hp
      cases he
    · refine or_congr Iff.rfl ?_
      constructor
      · rintro ⟨x, h, rfl⟩; exact ⟨_, ⟨x, h, rfl⟩, rfl⟩
      · rintro ⟨_, ⟨x, h, rfl⟩, rfl⟩; exact ⟨x, h, rfl⟩
  have h2 := exact_table_then ['\\', 'h'] [BracketItem.horizontalWhitespace] whiteTable.tail (by decide +kernel) h1 (by
    intro x hx j k b hh
    obtain ⟨l, hl, he⟩ := white_start (s := x.1 ++ j) (j := j) (l := x.2) ⟨x, hx, rfl, rfl⟩
    rcases hh with ⟨t, hq, _⟩ | ⟨y, hp, _⟩
    · obtain ⟨m, hm⟩ := quoted_start hq
      rw [he] at hm
      cases hm
      exact absurd hl (by decide +kernel)
    · obtain ⟨m, hm⟩ := posix_start hp
      rw [he] at hm
      cases hm)
  refine exact_either' (exact_map exact_perl fun c => [BracketItem.perl c]) h2 ?_
  rintro s j a k b ⟨p, hp, _⟩ hh
  obtain ⟨l, hl, rfl⟩ := perl_start hp
  rcases hh with hw | ⟨t, hq, _⟩ | ⟨y, hx, _⟩
  · obtain ⟨l', hl', he⟩ := white_start hw
    cases he
    have : ∀ c ∈ "dswDSW".toList, c ∉ "hHvV".toList := by decide +kernel
    exact this _ hl hl'
  · obtain ⟨m, hm⟩ := quoted_start hq
    cases hm
    exact absurd hl (by decide +kernel)
  · obtain ⟨m, hm⟩ := posix_start hx
    cases hm

theorem special_of_escape {s : Str} (h : EscapeOf "dswDSWhHvV".toList s) : ∃ j l, Special s j l := by
  obtain ⟨l, hl, j, rfl⟩ := h
  have : ∀ l ∈ "dswDSWhHvV".toList, (∃ x ∈ perlLetters, x.1 = l) ∨ ∃ x ∈ whiteTable, x.1 = ['\\', l] := by decide +kernel
  rcases this l hl with ⟨x, hx, rfl⟩ | ⟨x, hx, he⟩
  · exact ⟨j, _, .inl ⟨x.2, .mk j hx, rfl⟩⟩
  · exact ⟨j, _, .inr (.inl ⟨x, hx, by rw [he]; rfl, rfl⟩)⟩

theorem escape_of_special {s j : Str} {l : List BracketItem} (h : Special s j l) :
    EscapeOf "dswDSWhHvV".toList s ∨ (∃ t, Quoted s j t) ∨ ∃ x, Posix s j x := by
  rcases h with ⟨p, hp, _⟩ | hw | ⟨t, hq, _⟩ | ⟨x, hx, _⟩
  · obtain ⟨l, hl, rfl⟩ := perl_start hp
    have : ∀ c ∈ "dswDSW".toList, c ∈ "dswDSWhHvV".toList := by decide +kernel
    exact .inl ⟨l, this l hl, j, rfl⟩
  · obtain ⟨l, hl, rfl⟩ := white_start hw
    have : ∀ c ∈ "hHvV".toList, c ∈ "dswDSWhHvV".toList := by decide +kernel
    exact .inl ⟨l, this l hl, j, rfl⟩
  · exact .inr (.inl ⟨t, hq⟩)
  · exact .inr (.inr ⟨x, hx⟩)

/-- A backslash and a letter that is reserved, is no control letter, and is not `c` or `x`. -/
theorem escaped_not {c : Char} {s j : Str} {a : Char} (h1 : c ∈ reservedEscapes) (h2 : ∀ x ∈ controlLetters, x.1 ≠ c) (h3 : c ≠ 'c')
    (h4 : c ≠ 'x') : ¬ Escaped (c :: s) j a := by
  intro h
  cases h with
  | control => exact h3 rfl
  | letter _ h => exact h2 _ h rfl
  | braces => exact h4 rfl
  | hex => exact h4 rfl
  | itself _ h => exact h h1

theorem lit_not {c : Char} {deny s j : Str} {a : Literal} (h1 : c ∈ reservedEscapes) (h2 : ∀ x ∈ controlLetters, x.1 ≠ c) (h3 : c ≠ 'c')
    (h4 : c ≠ 'x') : ¬ Lit deny ('\\' :: c :: s) j a := by
  intro h
  cases h with
  | plain _ h => exact h rfl
  | escaped h => exact escaped_not h1 h2 h3 h4 h

theorem quoted_not_lit {s j t : Str} (h : Quoted s j t) (deny k : Str) (a : Literal) : ¬ Lit deny s k a := by
  obtain ⟨m, rfl⟩ := quoted_start h
  exact lit_not (by decide +kernel) (by decide +kernel) (by decide) (by decide)

theorem property_not_lit {s j : Str} {u : UnicodePropertyClass} (h : Property s j u) (deny k : Str) (a : Literal) : ¬ Lit deny s k a := by
  obtain ⟨l, hl, m, rfl⟩ := property_start h
  simp only [List.mem_cons, List.not_mem_nil, or_false] at hl
  rcases hl with rfl | rfl
  · exact lit_not (by decide +kernel) (by decide +kernel) (by decide) (by decide)
  · exact lit_not (by decide +kernel) (by decide +kernel) (by decide) (by decide)

theorem badLit_start {s : Str} (h : BadLit s) : ∃ m, s = '\\' :: 'x' :: m := by
  obtain ⟨u, rfl, ⟨v, rfl, _⟩, _⟩ := h
  exact ⟨_, rfl⟩

theorem lit_unique {s j j' : Str} {a a' : Literal} (h : Lit [']'] s j a) (h' : Lit [']'] s j' a') : j' = j ∧ a' = a :=
  (exact_literal .bracketedCharacterClass).unique (fun hb => badLit_not hb _ _ _ h) h h'

def Range (s j : Str) (l : List BracketItem) : Prop := ∃ m a b, Lit [']'] s ('-' :: m) a ∧ Lit [']'] m j b ∧ l = [.range a.c b.c]

def Single (s j : Str) (l : List BracketItem) : Prop :=
  (∃ a, Lit [']'] s j a ∧ l = [.literal a.c]) ∨
    ((∀ k a, ¬ Lit [']'] s k a) ∧ ((∃ p, Perl s j p ∧ l = [.perl p]) ∨ ∃ u, Property s j u ∧ l = [.unicodeProperty u]))

theorem exact_range : Exact (do
      let item ← bracketItemRange
      pure [item]) Range (fun s => BadLit s ∨ ∃ m a, Lit [']'] s ('-' :: m) a ∧ BadLit m) := by
  have hl := exact_literal .bracketedCharacterClass
  refine ((exact_map (exact_bind hl fun a => exact_bind (exact_tag ['-']) fun _ => exact_map hl fun b => BracketItem.range a.c b.c)
    fun b => [b]).weaken ?_).congr fun s j l => ?_
  · rintro s (h | ⟨m, a, h, (h' | ⟨m', _, rfl, h'⟩)⟩)
    · exact .inl h
    · exact h'.elim
    · exact .inr ⟨m', a, h, h'⟩
  · constructor
    · rintro ⟨m, a, b, h1, h2, rfl⟩
      exact ⟨_, ⟨_, a, h1, m, (), rfl, b, h2, rfl⟩, rfl⟩
    · rintro ⟨x, ⟨m, a, h1, m', _, rfl, b, h2, rfl⟩, rfl⟩
      exact ⟨m', a, b, h1, h2, rfl⟩

theorem exact_single : Exact (do
      let item ← bracketItemLiteral
      pure [item]) Single BadLit := by
  have h1 : Exact (Parser.orElse (do
      let c ← perlCharacterClass
      pure (BracketItem.perl c)) (do
      let c ← unicodePropertyClass
      pure (BracketItem.unicodeProperty c)))
      (fun s j b => (∃ p, Perl s j p ∧ b = .perl p) ∨ ∃ u, Property s j u ∧ b = .unicodeProperty u) Never := by
    refine exact_either' (exact_map exact_perl _) (exact_map exact_property _) ?_
    rintro s j a k b ⟨p, hp, _⟩ ⟨u, hu, _⟩
    obtain ⟨l, hl, rfl⟩ := perl_start hp
    obtain ⟨l', hl', m, he⟩ := property_start hu
    cases he
    have : ∀ c ∈ "dswDSW".toList, c ∉ ['p', 'P'] := by decide +kernel
    exact this _ hl hl'
  refine ((exact_map (exact_or (exact_map (exact_literal .bracketedCharacterClass) fun l => BracketItem.literal l.c) h1)
    fun b => [b]).weaken ?_).congr fun s j l => ?_
  · rintro s (h | ⟨_, h⟩)
    · exact h
    · exact h.elim
  · constructor
    · rintro (⟨a, h, rfl⟩ | ⟨h, (⟨p, hp, rfl⟩ | ⟨u, hu, rfl⟩)⟩)
      · exact ⟨_, .inl ⟨a, h, rfl⟩, rfl⟩
      · exact ⟨_, .inr ⟨fun k b ⟨a, ha, _⟩ => h k a ha, .inl ⟨p, hp, rfl⟩⟩, rfl⟩
      · exact ⟨_, .inr ⟨fun k b ⟨a, ha, _⟩ => h k a ha, .inr ⟨u, hu, rfl⟩⟩, rfl⟩
    · rintro ⟨_, (⟨a, h, rfl⟩ | ⟨h, (⟨p, hp, rfl⟩ | ⟨u, hu, rfl⟩)⟩), rfl⟩
      · exact .inl ⟨a, h, rfl⟩
      · exact .inr ⟨fun k a ha => h k _ ⟨a, ha, rfl⟩, .inl ⟨p, hp, rfl⟩⟩
      · exact .inr ⟨fun k a ha => h k _ ⟨a, ha, rfl⟩, .inr ⟨u, hu, rfl⟩⟩

theorem item_iff (s j : Str) (l : List BracketItem) : Item s j l ↔
    Special s j l ∨ ((∀ k b, ¬ Special s k b) ∧ (Range s j l ∨ ((∀ k b, ¬ Range s k b) ∧ Single s j l))) := by
  have hsp : ∀ {j a}, ¬ EscapeOf "dswDSWhHvV".toList s → (∀ k x, ¬ Posix s k x) → Lit [']'] s j a → ∀ k b, ¬ Special s k b := by
    intro j a h1 h2 h3 k b hs
    rcases escape_of_special hs with h | ⟨t, h⟩ | ⟨x, h⟩
    · exact h1 h
    · exact quoted_not_lit h _ _ _ h3
    · exact h2 _ _ h
  constructor
  · intro h
    cases h with
    | perl h => exact .inl (.inl ⟨_, h, rfl⟩)
    | horizontal => exact .inl (.inr (.inl ⟨_, List.mem_cons_self, rfl, rfl⟩))
    | notHorizontal => exact .inl (.inr (.inl ⟨(['\\', 'H'], _), by simp [whiteTable], rfl, rfl⟩))
    | vertical => exact .inl (.inr (.inl ⟨(['\\', 'v'], _), by simp [whiteTable], rfl, rfl⟩))
    | notVertical => exact .inl (.inr (.inl ⟨(['\\', 'V'], _), by simp [whiteTable], rfl, rfl⟩))
    | quoted h => exact .inl (.inr (.inr (.inl ⟨_, h, rfl⟩)))
    | posix h => exact .inl (.inr (.inr (.inr ⟨_, h, rfl⟩)))
    | property h =>
      have hn := property_not_lit h [']']
      refine .inr ⟨?_, .inr ⟨fun k b ⟨m, a, _, ha, _⟩ => hn _ _ ha, .inr ⟨hn, .inr ⟨_, h, rfl⟩⟩⟩⟩
      intro k b hs
      obtain ⟨l, hl, m, rfl⟩ := property_start h
      have t : ∀ c ∈ ['p', 'P'], c ∉ "dswDSWhHvV".toList ∧ c ≠ 'Q' := by decide +kernel
      rcases escape_of_special hs with ⟨l', hl', j', he⟩ | ⟨t', h⟩ | ⟨x, h⟩
      · cases he
        exact (t _ hl).1 hl'
      · obtain ⟨m, he⟩ := quoted_start h
        cases he
        exact (t _ hl).2 rfl
      · obtain ⟨m, he⟩ := posix_start h
        cases he
    | range h1 h2 h3 h4 => exact .inr ⟨hsp h1 h2 h3, .inl ⟨_, _, _, h3, h4, rfl⟩⟩
    | literal h1 h2 h3 h4 =>
      refine .inr ⟨hsp h1 h2 h3, .inr ⟨?_, .inl ⟨_, h3, rfl⟩⟩⟩
      rintro k b ⟨m, a', b', ha, hb, _⟩
      obtain ⟨rfl, rfl⟩ := lit_unique h3 ha
      exact h4 _ _ _ rfl hb
  · rintro (h | ⟨h, hr⟩)
    · rcases h with ⟨p, hp, rfl⟩ | ⟨x, hx, rfl, rfl⟩ | ⟨t, hq, rfl⟩ | ⟨x, hx, rfl⟩
      · exact .perl hp
      · simp only [whiteTable, List.mem_cons, List.not_mem_nil, or_false] at hx
        rcases hx with rfl | rfl | rfl | rfl
        · exact .horizontal j
        · exact .notHorizontal j
        · exact .vertical j
        · exact .notVertical j
      · exact .quoted hq
      · exact .posix hx
    · have h1 : ¬ EscapeOf "dswDSWhHvV".toList s := fun he => by
        obtain ⟨k, b, hs⟩ := special_of_escape he
        exact h _ _ hs
      have h2 : ∀ k x, ¬ Posix s k x := fun k x hp => h _ _ (.inr (.inr (.inr ⟨x, hp, rfl⟩)))
      rcases hr with ⟨m, a, b, h3, h4, rfl⟩ | ⟨hn, (⟨a, h3, rfl⟩ | ⟨_, (⟨p, hp, rfl⟩ | ⟨u, hu, rfl⟩)⟩)⟩
      · exact .range h1 h2 h3 h4
      · refine .literal h1 h2 h3 ?_
        rintro m k b rfl hb
        exact hn _ _ ⟨m, a, b, h3, hb, rfl⟩
      · exact .perl hp
      · exact .property hu

/-- A hexadecimal escape that stands for nothing, as a literal or as the end of a range. -/
def BadItem (s : Str) : Prop := (∀ k b, ¬ Special s k b) ∧ (BadLit s ∨ ∃ m a, Lit [']'] s ('-' :: m) a ∧ BadLit m)

theorem exact_item : Exact bracketItem Item BadItem := by
  have he : bracketItem = Parser.orElse (alt (do
      let c ← perlCharacterClass
      pure [BracketItem.perl c])
    [tagged ['\\', 'h'] [.horizontalWhitespace],
     tagged ['\\', 'H'] [.notHorizontalWhitespace],
     tagged ['\\', 'v'] [.verticalWhitespace],
     tagged ['\\', 'V'] [.notVerticalWhitespace],
     bracketQuotedLiterals,
     do
      let item ← bracketAsciiClass
      pure [item]]) (Parser.orElse (do
      let item ← bracketItemRange
      pure [item]) (do
      let item ← bracketItemLiteral
      pure [item])) :=
    alt_append _ [_, _, _, _, _, _] _ [_]
  rw [he]
  refine ((exact_or exact_special (exact_or exact_range exact_single)).weaken ?_).congr item_iff
  rintro s (h | ⟨h, (h' | ⟨_, h'⟩)⟩)
  · exact h.elim
  · exact ⟨h, h'⟩
  · exact ⟨h, .inl h'⟩

/-! ## Brackets -/

theorem lit_shorter {deny s j : Str} {a : Literal} (h : Lit deny s j a) : blen j < blen s := by
  have hp : ∀ c : Char, 0 < c.utf8Size := Char.utf8Size_pos
  cases h with
  | plain =>
    rename_i c _ _
    have := hp c
    simp only [blen_cons]; omega
  | escaped h =>
    have h0 : ('\\' : Char).utf8Size = 1 := by decide
    simp only [blen_cons, h0]
    cases h with
    | control => simp only [blen_cons]; omega
    | letter => simp only [blen_cons]; omega
    | braces => simp only [blen_cons, blen_append]; omega
    | hex => simp only [blen_cons, blen_append]; omega
    | itself => simp only [blen_cons]; omega

theorem item_shorter {s j : Str} {l : List BracketItem} (h : Item s j l) : blen j < blen s := by
  have hp : ∀ c : Char, 0 < c.utf8Size := Char.utf8Size_pos
  have h0 : ('\\' : Char).utf8Size = 1 := by decide
  have h1 : ('[' : Char).utf8Size = 1 := by decide
  cases h with
  | perl h =>
    cases h
    simp only [blen_cons, h0]; omega
  | horizontal => simp only [blen_cons, h0]; omega
  | notHorizontal => simp only [blen_cons, h0]; omega
  | vertical => simp only [blen_cons, h0]; omega
  | notVertical => simp only [blen_cons, h0]; omega
  | quoted h =>
    cases h
    simp only [blen_cons, blen_append, h0]; omega
  | posix h => cases h <;> (simp only [blen_cons, blen_append, h1]; omega)
  | property h => cases h <;> (simp only [blen_cons, blen_append, h0]; omega)
  | range _ _ h2 h3 =>
    have a := lit_shorter h2
    have b := lit_shorter h3
    have := hp '-'
    simp only [blen_cons] at a
    omega
  | literal _ _ h2 _ => exact lit_shorter h2

theorem lit_not_close {deny j k : Str} {a : Literal} (h : ']' ∈ deny) : ¬ Lit deny (']' :: j) k a := by
  intro hl
  cases hl with
  | plain _ _ h' => exact h' h

theorem item_not_close {j k : Str} {l : List BracketItem} : ¬ Item (']' :: j) k l := by
  intro h
  cases h with
  | perl h => cases h
  | quoted h => cases h
  | posix h => cases h
  | property h => cases h
  | range _ _ h2 _ => exact lit_not_close (by simp) h2
  | literal _ _ h2 _ => exact lit_not_close (by simp) h2

theorem items_iff {m j : Str} {l : List BracketItem} : Items m (']' :: j) l ↔ ∃ xs, Longest Item m (']' :: j) xs ∧ l = xs.flatten := by
  constructor
  · intro h
    generalize he : ']' :: j = e at h
    induction h with
    | nil => subst he; exact ⟨[], .nil (fun _ _ => item_not_close), rfl⟩
    | cons h1 _ ih =>
      obtain ⟨xs, h2, rfl⟩ := ih he
      exact ⟨_ :: xs, .cons h1 h2, rfl⟩
  · rintro ⟨xs, h, rfl⟩
    generalize ']' :: j = e at h
    induction h with
    | nil => exact .nil _
    | cons h1 _ ih => exact .cons h1 ih

theorem badLit_no_item {s k : Str} {l : List BracketItem} (h : BadLit s) : ¬ Item s k l := by
  intro hi
  obtain ⟨m, rfl⟩ := badLit_start h
  cases hi with
  | perl h =>
    obtain ⟨c, hc, he⟩ := perl_start h
    cases he
    exact absurd hc (by decide +kernel)
  | quoted h =>
    obtain ⟨c, he⟩ := quoted_start h
    cases he
  | posix h =>
    obtain ⟨c, he⟩ := posix_start h
    cases he
  | property h =>
    obtain ⟨c, hc, _, he⟩ := property_start h
    cases he
    exact absurd hc (by decide +kernel)
  | range _ _ h2 _ => exact badLit_not h _ _ _ h2
  | literal _ _ h2 _ => exact badLit_not h _ _ _ h2

theorem badLit_no_items {s j : Str} {l : List BracketItem} (h : BadLit s) : ¬ Items s (']' :: j) l := by
  intro hi
  generalize he : ']' :: j = e at hi
  cases hi with
  | nil =>
    subst he
    obtain ⟨m, he⟩ := badLit_start h
    cases he
  | cons h1 _ => exact badLit_no_item h h1

theorem badItem_no_items {s j : Str} {l : List BracketItem} (h : BadItem s) : ¬ Items s (']' :: j) l := by
  obtain ⟨hs, h | ⟨m, a, ha, hm⟩⟩ := h
  · exact badLit_no_items h
  · intro hi
    generalize he : ']' :: j = e at hi
    cases hi with
    | nil =>
      subst he
      exact lit_not_close (by simp) ha
    | cons h1 h2 =>
      subst he
      rcases (item_iff _ _ _).1 h1 with h | ⟨_, (⟨m', a', b', h3, h4, _⟩ | ⟨_, (⟨a', h3, _⟩ | ⟨h3, _⟩)⟩)⟩
      · exact hs _ _ h
      · obtain ⟨he, rfl⟩ := lit_unique ha h3
        cases he
        exact badLit_not hm _ _ _ h4
      · obtain ⟨rfl, rfl⟩ := lit_unique ha h3
        generalize he : ']' :: j = e at h2
        cases h2 with
        | nil => cases he
        | cons h5 h6 =>
          subst he
          have hd : Lit [']'] ('-' :: m) m ⟨'-', false⟩ := .plain m (by decide) (by decide)
          rcases (item_iff _ _ _).1 h5 with h | ⟨_, (⟨m', a', b', h7, h8, _⟩ | ⟨_, (⟨a', h7, _⟩ | ⟨h7, _⟩)⟩)⟩
          · rcases escape_of_special h with ⟨_, _, _, he⟩ | ⟨_, h⟩ | ⟨_, h⟩
            · cases he
            · obtain ⟨_, he⟩ := quoted_start h
              cases he
            · obtain ⟨_, he⟩ := posix_start h
              cases he
          · obtain ⟨rfl, rfl⟩ := lit_unique hd h7
            obtain ⟨_, he⟩ := badLit_start hm
            cases he
          · obtain ⟨rfl, rfl⟩ := lit_unique hd h7
            exact badLit_no_items hm h6
          · exact h7 _ _ hd
      · exact h3 _ _ ha

theorem stuck_no_items {s : Str} (h : Stuck Item BadItem s) : ∀ j l, ¬ Items s (']' :: j) l := by
  induction h with
  | here h => exact fun j l => badItem_no_items h
  | next h1 _ ih =>
    intro j l hi
    generalize he : ']' :: j = e at hi
    cases hi with
    | nil =>
      subst he
      exact item_not_close ((h1 _ _).2 ⟨rfl, rfl⟩)
    | cons h2 h3 =>
      subst he
      obtain ⟨rfl, rfl⟩ := (h1 _ _).1 h2
      exact ih _ _ h3

theorem opt_tag_iff {c : Char} {s j : Str} {o : Option Unit} :
    ((∃ a, o = some a ∧ s = [c] ++ j) ∨ (o = none ∧ j = s ∧ ∀ k (_ : Unit), ¬ s = [c] ++ k)) ↔
      ((s = c :: j ∧ o.isSome = true) ∨ (s.head? ≠ some c ∧ j = s ∧ o.isSome = false)) := by
  constructor
  · rintro (⟨_, rfl, rfl⟩ | ⟨rfl, rfl, h⟩)
    · exact .inl ⟨rfl, rfl⟩
    · refine .inr ⟨fun hj => ?_, rfl, rfl⟩
      cases j with
      | nil => cases hj
      | cons x j =>
        simp only [List.head?_cons, Option.some.injEq] at hj
        subst hj
        exact h j () rfl
  · rintro (⟨rfl, h⟩ | ⟨h, rfl, ho⟩)
    · cases o with
      | none => cases h
      | some u => exact .inl ⟨u, rfl, rfl⟩
    · cases o with
      | none =>
        refine .inr ⟨rfl, rfl, ?_⟩
        rintro k _ rfl
        exact h rfl
      | some u => cases ho

theorem exact_bracket : Exact bracketCharacterClass Bracket (fun s => s.head? = some '[' ∧ ∀ j c, ¬ Bracket s j c) := by
  have hlast : ∀ (o1 o2 : Option Unit) (xs : List (List BracketItem)), Exact ((fun items : List (List BracketItem) =>
      let items := items.flatten
      do
        tag [']']
        let items := if o2.isSome then BracketItem.literal ']' :: items else items
        if items.isEmpty then error .invalidSyntax
        else pure (.bracket o1.isSome items) : List (List BracketItem) → Parser CharacterClass) xs)
      (fun s j c => s = ']' :: j ∧ (if o2.isSome then BracketItem.literal ']' :: xs.flatten else xs.flatten) ≠ [] ∧
        c = .bracket o1.isSome (if o2.isSome then BracketItem.literal ']' :: xs.flatten else xs.flatten)) Never := by
    intro o1 o2 xs
    dsimp only
    generalize (if o2.isSome then BracketItem.literal ']' :: xs.flatten else xs.flatten) = items
    refine (exact_then (H := fun _ s j c => j = s ∧ items ≠ [] ∧ c = .bracket o1.isSome items) (exact_tag [']']) fun _ => ?_).congr
      fun s j c => ?_
    · cases items with
      | nil => exact exact_error.congr fun s j c => by simp
      | cons b l => exact (exact_pure _).congr fun s j c => by simp
    · constructor
      · rintro ⟨rfl, h1, h2⟩
        exact ⟨j, (), rfl, rfl, h1, h2⟩
      · rintro ⟨m, _, rfl, rfl, h⟩
        exact ⟨rfl, h⟩
  refine ((exact_bind (exact_tag ['[']) fun _ => exact_bind (exact_opt (exact_tag ['^'])) fun o1 => exact_bind (exact_opt (exact_tag [']']))
    fun o2 => exact_bind (exact_many0 exact_item fun s j a => item_shorter) (hlast o1 o2)).weaken ?_).congr fun s j c => ?_
  · rintro s (h | ⟨m, _, rfl, (h | ⟨m1, o1, h1, (h | ⟨m2, o2, h2, (h | ⟨_, _, _, h⟩)⟩)⟩)⟩)
    · exact h.elim
    · exact h.elim
    · exact h.elim
    · refine ⟨rfl, fun j c hb => ?_⟩
      rw [opt_tag_iff] at h1 h2
      generalize he : ['['] ++ m = s at hb
      cases hb with
      | mk b1 b2 b3 b4 =>
        cases he
        rename_i s' m' neg first items
        have e1 : m1 = s' := by
          rcases h1 with ⟨rfl, _⟩ | ⟨h1, rfl, _⟩
          · rcases b1 with ⟨b1, _⟩ | ⟨b1, _⟩
            · cases b1; rfl
            · exact absurd rfl b1
          · rcases b1 with ⟨b1, _⟩ | ⟨b1, b1', _⟩
            · have b1 : m1 = '^' :: s' := b1
              rw [b1] at h1
              exact absurd rfl h1
            · exact b1'.symm
        subst e1
        have e2 : m2 = m' := by
          rcases h2 with ⟨rfl, _⟩ | ⟨h2, rfl, _⟩
          · rcases b2 with ⟨b2, _⟩ | ⟨b2, _⟩
            · cases b2; rfl
            · exact absurd rfl b2
          · rcases b2 with ⟨b2, _⟩ | ⟨b2, b2', _⟩
            · rw [b2] at h2; exact absurd rfl h2
            · exact b2'.symm
        subst e2
        exact stuck_no_items h _ _ b3
    · exact h.elim
  · constructor
    · intro hb
      cases hb with
      | mk b1 b2 b3 b4 =>
        rename_i s s' m neg first items
        obtain ⟨xs, h1, rfl⟩ := items_iff.1 b3
        refine ⟨s, (), rfl, s', if neg then some () else none, opt_tag_iff.2 ?_, m, if first.isEmpty then none else some (),
          opt_tag_iff.2 ?_, _, xs, h1, rfl, ?_⟩
        · rcases b1 with ⟨h, rfl⟩ | ⟨h, h', rfl⟩
          · exact .inl ⟨h, rfl⟩
          · exact .inr ⟨h, h', rfl⟩
        · rcases b2 with ⟨h, rfl⟩ | ⟨h, h', rfl⟩
          · exact .inl ⟨h, rfl⟩
          · exact .inr ⟨h, h', rfl⟩
        · have e1 : (if neg then some () else none : Option Unit).isSome = neg := by cases neg <;> rfl
          rw [e1]
          rcases b2 with ⟨_, rfl⟩ | ⟨_, _, rfl⟩
          · exact ⟨by simp, rfl⟩
          · exact ⟨by simpa using b4, rfl⟩
    · rintro ⟨m, _, rfl, m1, o1, h1, m2, o2, h2, m3, xs, h3, rfl, h4, rfl⟩
      have h1 := opt_tag_iff.1 h1
      have h2 := opt_tag_iff.1 h2
      have h5 := items_iff.2 ⟨xs, h3, rfl⟩
      have e : (if o2.isSome then BracketItem.literal ']' :: xs.flatten else xs.flatten) =
          (if o2.isSome then [BracketItem.literal ']'] else []) ++ xs.flatten := by cases o2 <;> rfl
      rw [e] at h4 ⊢
      refine .mk h1 ?_ h5 h4
      rcases h2 with ⟨h, h'⟩ | ⟨h, h', h''⟩
      · exact .inl ⟨h, by rw [if_pos h']⟩
      · exact .inr ⟨h, h', by rw [h'']; rfl⟩

/-! ## Classes -/

def classTable : List (Str × CharacterClass) :=
  [(['.'], .dot), (['\\', 'h'], .horizontalWhitespace), (['\\', 'H'], .notHorizontalWhitespace), (['\\', 'v'], .verticalWhitespace),
    (['\\', 'V'], .notVerticalWhitespace)]

theorem bracket_start {s j : Str} {c : CharacterClass} (h : Bracket s j c) : s.head? = some '[' := by
  cases h
  rfl

theorem exact_class : Exact characterClass Class (fun s => s.head? = some '[' ∧ ∀ j c, ¬ Class s j c) := by
  have h1 : Exact (Parser.orElse (do
      let c ← perlCharacterClass
      pure (CharacterClass.perl c)) (do
      let c ← unicodePropertyClass
      pure (CharacterClass.unicodeProperty c)))
      (fun s j b => (∃ p, Perl s j p ∧ b = .perl p) ∨ ∃ u, Property s j u ∧ b = .unicodeProperty u) Never := by
    refine exact_either' (exact_map exact_perl _) (exact_map exact_property _) ?_
    rintro s j a k b ⟨p, hp, _⟩ ⟨u, hu, _⟩
    obtain ⟨l, hl, rfl⟩ := perl_start hp
    obtain ⟨l', hl', m, he⟩ := property_start hu
    cases he
    have : ∀ c ∈ "dswDSW".toList, c ∉ ['p', 'P'] := by decide +kernel
    exact this _ hl hl'
  have h2 := exact_either exact_bracket h1 (by
    intro s j a k b hb hh
    have hs := bracket_start hb
    rcases hh with ⟨p, hp, _⟩ | ⟨u, hu, _⟩
    · obtain ⟨l, hl, rfl⟩ := perl_start hp
      cases hs
    · obtain ⟨l', hl', m, rfl⟩ := property_start hu
      cases hs)
  have h3 := exact_table_then ['.'] CharacterClass.dot classTable.tail (by decide +kernel) h2 (by
    intro x hx j k b hh
    have t : ∀ x ∈ (['.'], CharacterClass.dot) :: classTable.tail, x.1 = ['.'] ∨ ∃ l ∈ "hHvV".toList, x.1 = ['\\', l] := by decide +kernel
    have t2 : ∀ c ∈ "hHvV".toList, c ∉ "dswDSW".toList ∧ c ∉ ['p', 'P'] := by decide +kernel
    rcases t x hx with he | ⟨l, hl, he⟩ <;> rw [he] at hh <;> rcases hh with hb | ⟨p, hp, _⟩ | ⟨u, hu, _⟩
    · cases bracket_start hb
    · obtain ⟨l, hl, he⟩ := perl_start hp
      cases he
    · obtain ⟨l', hl', m, he⟩ := property_start hu
      cases he
    · cases bracket_start hb
    · obtain ⟨l, hl', he⟩ := perl_start hp
      cases he
      exact (t2 _ hl).1 hl'
    · obtain ⟨l', hl', m, he⟩ := property_start hu
      cases he
      exact (t2 _ hl).2 hl')
  have hiff : ∀ s j c, Class s j c ↔ (∃ x ∈ (['.'], CharacterClass.dot) :: classTable.tail, s = x.1 ++ j ∧ c = x.2) ∨
      (Bracket s j c ∨ ((∃ p, Perl s j p ∧ c = .perl p) ∨ ∃ u, Property s j u ∧ c = .unicodeProperty u)) := by
    intro s j c
    constructor
    · intro h
      cases h with
      | dot => exact .inl ⟨_, List.mem_cons_self, rfl, rfl⟩
      | horizontal => exact .inl ⟨(['\\', 'h'], _), by simp [classTable], rfl, rfl⟩
      | notHorizontal => exact .inl ⟨(['\\', 'H'], _), by simp [classTable], rfl, rfl⟩
      | vertical => exact .inl ⟨(['\\', 'v'], _), by simp [classTable], rfl, rfl⟩
      | notVertical => exact .inl ⟨(['\\', 'V'], _), by simp [classTable], rfl, rfl⟩
      | bracket h => exact .inr (.inl h)
      | perl h => exact .inr (.inr (.inl ⟨_, h, rfl⟩))
      | property h => exact .inr (.inr (.inr ⟨_, h, rfl⟩))
    · rintro (⟨x, hx, rfl, rfl⟩ | h | ⟨p, h, rfl⟩ | ⟨u, h, rfl⟩)
      · simp only [classTable, List.tail_cons, List.mem_cons, List.not_mem_nil, or_false] at hx
        rcases hx with rfl | rfl | rfl | rfl | rfl
        · exact .dot j
        · exact .horizontal j
        · exact .notHorizontal j
        · exact .vertical j
        · exact .notVertical j
      · exact .bracket h
      · exact .perl h
      · exact .property h
  refine Exact.congr (Exact.weaken h3 ?_) hiff
  rintro s (⟨hs, hb⟩ | h)
  · refine ⟨hs, fun j c hc => ?_⟩
    cases hc with
    | dot => cases hs
    | horizontal => cases hs
    | notHorizontal => cases hs
    | vertical => cases hs
    | notVertical => cases hs
    | bracket h => exact hb _ _ h
    | perl h =>
      obtain ⟨l, hl, rfl⟩ := perl_start h
      cases hs
    | property h =>
      obtain ⟨l', hl', m, rfl⟩ := property_start h
      cases hs
  · exact h.elim

/-! ## Names of groups -/

theorem name_letter (c : Char) : c ∈ asciiAlphanumericUnderscore ↔ c.isAlphanum = true ∨ c = '_' := by
  have t1 : ∀ c ∈ asciiAlphanumericUnderscore, c.isAlphanum = true ∨ c = '_' := by decide +kernel
  have t2 : ∀ n ∈ List.range 128, ((Char.ofNat n).isAlphanum = true ∨ Char.ofNat n = '_') → Char.ofNat n ∈ asciiAlphanumericUnderscore := by
    decide +kernel
  refine ⟨t1 c, fun h => ?_⟩
  have hc : c.toNat < 128 := by
    rcases h with h | rfl
    · simp only [Char.isAlphanum, Char.isAlpha, Char.isUpper, Char.isLower, Char.isDigit, Bool.or_eq_true, Bool.and_eq_true,
        decide_eq_true_eq, ge_iff_le, UInt32.le_iff_toNat_le] at h
      have e : c.toNat = c.val.toNat := rfl
      rw [e]
      rcases h with (⟨_, h⟩ | ⟨_, h⟩) | ⟨_, h⟩
      · exact Nat.lt_of_le_of_lt h (by decide)
      · exact Nat.lt_of_le_of_lt h (by decide)
      · exact Nat.lt_of_le_of_lt h (by decide)
    · decide
  have := t2 c.toNat (List.mem_range.2 hc)
  rw [Char.ofNat_toNat] at this
  exact this h

theorem name_first (c : Char) : c ∈ asciiLettersUnderscore ↔ c ∈ asciiAlphanumericUnderscore ∧ c.isDigit = false := by
  have t1 : ∀ c ∈ asciiLettersUnderscore, c ∈ asciiAlphanumericUnderscore ∧ c.isDigit = false := by decide +kernel
  have t2 : ∀ c ∈ asciiAlphanumericUnderscore, c.isDigit = false → c ∈ asciiLettersUnderscore := by decide +kernel
  exact ⟨t1 c, fun h => t2 c h.1 h.2⟩

theorem exact_name : Exact captureGroupName (fun s j n => s = n ++ j ∧ GroupName n ∧ ∀ c ∈ j.head?, c ∉ asciiAlphanumericUnderscore) Never := by
  refine (exact_recognize (exact_then (exact_oneOf asciiLettersUnderscore) fun _ =>
    exact_run (fun c => decide (c ∈ asciiAlphanumericUnderscore))) ?_).congr fun s j n => ?_
  · rintro s j l ⟨m, c, ⟨rfl, _⟩, h⟩
    exact (run_suffix h).trans (List.suffix_cons _ _)
  · constructor
    · rintro ⟨rfl, ⟨h1, c, hc, hd⟩, h2⟩
      cases n with
      | nil => cases hc
      | cons x n =>
        simp only [List.head?_cons, Option.some.injEq] at hc
        subst hc
        refine ⟨rfl, n, n ++ j, x, ⟨rfl, ?_⟩, rfl, ?_, by simpa using h2⟩
        · exact (name_first x).2 ⟨(name_letter x).2 (h1 x (by simp)), hd⟩
        · intro y hy
          simpa using (name_letter y).2 (h1 y (by simp [hy]))
    · rintro ⟨h0, l, m, c, ⟨rfl, hc⟩, rfl, h1, h2⟩
      have : n = c :: l := List.append_cancel_right (h0.symm.trans (by simp))
      subst this
      have hc' := (name_first c).1 hc
      refine ⟨rfl, ⟨?_, c, rfl, hc'.2⟩, by simpa using h2⟩
      intro y hy
      rcases List.mem_cons.1 hy with rfl | hy
      · exact (name_letter _).1 hc'.1
      · exact (name_letter _).1 (by simpa using h1 y hy)

end Sds.Re.Gram
