import Verif.Lemmas.Grammar

/-! # The leaves of the parser and the syntax -/

namespace Sds.Re.Gram
open Sds Sds.Spec.Syntax

variable {α β : Type}

/-! ## Runs of characters -/

/-- The longest run of characters with a property. -/
def Run (f : Char → Bool) (s j l : Str) : Prop := s = l ++ j ∧ (∀ c ∈ l, f c = true) ∧ ∀ c ∈ j.head?, f c = false

theorem run_unique {f : Char → Bool} {s j l j' l' : Str} (h : Run f s j l) (h' : Run f s j' l') : j' = j ∧ l' = l := by
  obtain ⟨rfl, h1, h2⟩ := h
  obtain ⟨h3, h4, h5⟩ := h'
  induction l generalizing l' with
  | nil =>
    cases l' with
    | nil => exact ⟨h3.symm, rfl⟩
    | cons c l' =>
      simp only [List.nil_append, List.cons_append] at h3
      have a := h4 c (by simp)
      have b := h2 c (by simp [h3])
      rw [a] at b
      cases b
  | cons c l ih =>
    cases l' with
    | nil =>
      simp only [List.nil_append, List.cons_append] at h3
      have a := h1 c (by simp)
      have b := h5 c (by simp [← h3])
      rw [a] at b
      cases b
    | cons c' l' =>
      simp only [List.cons_append, List.cons.injEq] at h3
      obtain ⟨rfl, h3⟩ := h3
      obtain ⟨rfl, rfl⟩ := ih (fun x hx => h1 x (by simp [hx])) h3 (fun x hx => h4 x (by simp [hx]))
      exact ⟨rfl, rfl⟩

theorem run_while (f : Char → Bool) (s : Str) : Run f s (s.dropWhile f) (s.takeWhile f) := by
  refine ⟨List.takeWhile_append_dropWhile.symm, ?_, ?_⟩
  · intro c hc
    induction s with
    | nil => cases hc
    | cons x s ih =>
      rw [List.takeWhile_cons] at hc
      split at hc
      · rename_i hx
        rcases List.mem_cons.1 hc with rfl | hc
        · exact hx
        · exact ih hc
      · cases hc
  · intro c hc
    induction s with
    | nil => cases hc
    | cons x s ih =>
      rw [List.dropWhile_cons] at hc
      split at hc
      · exact ih hc
      · rename_i hx
        simp only [List.head?_cons, Option.mem_def, Option.some.injEq] at hc
        subst hc
        simpa using hx

theorem manyLoop_satisfy (f : Char → Bool) (n : Nat) (s : Str) (d : Nat) (h : s.length < n) :
    manyLoop (satisfy f) n ⟨s, d⟩ = .ok ⟨s.dropWhile f, d⟩ (s.takeWhile f) := by
  induction n generalizing s with
  | zero => omega
  | succ n ih =>
    unfold manyLoop
    cases s with
    | nil => rfl
    | cons c s =>
      rw [show satisfy f ⟨c :: s, d⟩ = if f c then PR.ok ⟨s, d⟩ c else .err .invalidSyntax from rfl]
      by_cases hc : f c = true
      · rw [if_pos hc]
        have : ¬ blen s = blen (c :: s) := by
          have := Char.utf8Size_pos c
          simp only [blen_cons]; omega
        dsimp only
        rw [if_neg this]
        unfold Parser.bind
        rw [ih s (by simpa using h)]
        simp [List.dropWhile_cons, List.takeWhile_cons, hc, pure]
      · rw [if_neg hc]
        simp [List.dropWhile_cons, List.takeWhile_cons, hc]

theorem exact_run (f : Char → Bool) : Exact (many0 (satisfy f)) (fun s j l => Run f s j l) Never := by
  intro s d
  refine .inl ⟨s.dropWhile f, s.takeWhile f, ?_, fun j l => ?_⟩
  · unfold many0
    exact manyLoop_satisfy f _ s d (by have := length_le_blen s; show s.length < blen s + 1; omega)
  · constructor
    · exact fun h => run_unique (run_while f s) h
    · rintro ⟨rfl, rfl⟩
      exact run_while f s

theorem exact_run1 (f : Char → Bool) : Exact (many1 (satisfy f)) (fun s j l => Run f s j l ∧ l ≠ []) Never :=
  (exact_then (exact_satisfy f) fun c => exact_then (exact_run f) fun l => exact_pure (c :: l)).congr fun s j l => by
    constructor
    · rintro ⟨⟨rfl, h1, h2⟩, h3⟩
      cases l with
      | nil => exact absurd rfl h3
      | cons c l =>
        exact ⟨l ++ j, c, ⟨rfl, h1 c (by simp)⟩, j, l, ⟨rfl, fun x hx => h1 x (by simp [hx]), h2⟩, rfl, rfl⟩
    · rintro ⟨m, c, ⟨rfl, hc⟩, m', l', ⟨rfl, h1, h2⟩, rfl, rfl⟩
      refine ⟨⟨rfl, ?_, h2⟩, by simp⟩
      intro x hx
      rcases List.mem_cons.1 hx with rfl | hx
      · exact hc
      · exact h1 x hx

theorem exact_recognize {P : Parser α} {G : Str → Str → α → Prop} {F : Str → Prop} (hP : Exact P G F)
    (hs : ∀ s j a, G s j a → j <:+ s) : Exact (recognize P) (fun s j t => s = t ++ j ∧ ∃ a, G s j a) F := by
  intro s d
  unfold recognize
  rcases hP s d with ⟨m, a, h1, h2⟩ | ⟨⟨e, h1⟩, h2⟩ | ⟨⟨e, h1⟩, h2⟩
  · rw [h1]
    obtain ⟨t, rfl⟩ := hs s m a ((h2 _ _).2 ⟨rfl, rfl⟩)
    have ht : (t ++ m).take ((t ++ m).length - m.length) = t := by simp
    refine .inl ⟨m, t, by dsimp only; rw [ht], fun j t' => ?_⟩
    constructor
    · rintro ⟨he, a', hg⟩
      obtain ⟨rfl, rfl⟩ := (h2 _ _).1 hg
      exact ⟨rfl, (List.append_cancel_right he).symm⟩
    · rintro ⟨rfl, rfl⟩
      exact ⟨rfl, a, (h2 _ _).2 ⟨rfl, rfl⟩⟩
  · rw [h1]
    exact .inr (.inl ⟨⟨e, rfl⟩, fun j t ⟨_, a, hg⟩ => h2 _ _ hg⟩)
  · rw [h1]
    exact .inr (.inr ⟨⟨e, rfl⟩, h2⟩)

/-! ## Numbers and quantifiers -/

def digits : Str := "0123456789".toList

theorem digit_iff (c : Char) : c ∈ digits ↔ ∃ d, d < 10 ∧ c = Nat.digitChar d ∧ c.toNat - 48 = d := by
  constructor
  · have : ∀ c ∈ digits, ∃ d ∈ List.range 10, c = Nat.digitChar d ∧ c.toNat - 48 = d := by decide +kernel
    intro h
    obtain ⟨d, h1, h2⟩ := this c h
    exact ⟨d, List.mem_range.1 h1, h2⟩
  · rintro ⟨d, h1, rfl, _⟩
    have : ∀ d ∈ List.range 10, Nat.digitChar d ∈ digits := by decide +kernel
    exact this d (List.mem_range.2 h1)

theorem digitChar_value {d : Nat} (h : d < 10) : Nat.digitChar d ∈ digits ∧ (Nat.digitChar d).toNat - 48 = d := by
  have : ∀ d ∈ List.range 10, Nat.digitChar d ∈ digits ∧ (Nat.digitChar d).toNat - 48 = d := by decide +kernel
  exact this d (List.mem_range.2 h)

theorem decimal_iff (ds : Str) (n : Nat) :
    Decimal ds n ↔ ds ≠ [] ∧ (∀ c ∈ ds, c ∈ digits) ∧ ds.foldl (fun n c => n * 10 + (c.toNat - 48)) 0 = n := by
  constructor
  · intro h
    induction h with
    | one hd =>
      have := digitChar_value hd
      exact ⟨by simp, by simpa using this.1, by simp [this.2]⟩
    | more h hd ih =>
      obtain ⟨_, h2, h3⟩ := ih
      have := digitChar_value hd
      refine ⟨by simp, ?_, ?_⟩
      · intro c hc
        rcases List.mem_append.1 hc with hc | hc
        · exact h2 c hc
        · rw [List.mem_singleton.1 hc]; exact this.1
      · rw [List.foldl_append, h3]
        simp only [List.foldl_cons, List.foldl_nil, this.2]
        omega
  · rintro ⟨h1, h2, rfl⟩
    suffices ∀ r : Str, r ≠ [] → (∀ c ∈ r, c ∈ digits) → Decimal r.reverse (r.reverse.foldl (fun n c => n * 10 + (c.toNat - 48)) 0) by
      have := this ds.reverse (by simpa using h1) (by simpa using h2)
      rwa [List.reverse_reverse] at this
    intro r
    induction r with
    | nil => intro h; exact absurd rfl h
    | cons c r ih =>
      intro _ h
      obtain ⟨d, hd, rfl, he⟩ := (digit_iff c).1 (h c (by simp))
      rw [List.reverse_cons, List.foldl_append]
      simp only [List.foldl_cons, List.foldl_nil, he]
      by_cases hr : r = []
      · subst hr
        simpa using Decimal.one hd
      · have := Decimal.more (ih hr fun x hx => h x (by simp [hx])) hd
        rwa [Nat.mul_comm 10] at this

/-- A number that fits in 32 bits, up to the first character that is no digit. -/
def Num (s j : Str) (n : Nat) : Prop := ∃ ds, Decimal ds n ∧ n < 2 ^ 32 ∧ Run (fun c => decide (c ∈ digits)) s j ds

theorem exact_integer : Exact integer Num Never := by
  have hq : ∀ ds : Str, Exact (match parseU32 ds with | some n => pure n | none => error .invalidSyntax : Parser Nat)
      (fun s j n => j = s ∧ parseU32 ds = some n) Never := by
    intro ds
    cases h : parseU32 ds with
    | none => exact exact_error.congr fun s j n => by simp
    | some n => exact (exact_pure n).congr fun s j m => by simp [eq_comm]
  refine (exact_then (exact_run1 (fun c => decide (c ∈ digits))) hq).congr fun s j n => ?_
  constructor
  · rintro ⟨ds, h1, h2, h3⟩
    obtain ⟨h4, h5, h6⟩ := (decimal_iff _ _).1 h1
    refine ⟨j, ds, ⟨h3, h4⟩, rfl, ?_⟩
    unfold parseU32
    dsimp only
    rw [h6, if_pos ⟨h4, h2⟩]
  · rintro ⟨m, ds, ⟨h1, h2⟩, rfl, h3⟩
    unfold parseU32 at h3
    dsimp only at h3
    split at h3
    · rename_i hc
      cases h3
      exact ⟨ds, (decimal_iff _ _).2 ⟨h2, fun c hc => by simpa using h1.2.1 c hc, rfl⟩, hc.2, h1⟩
    · cases h3

theorem num_of {ds : Str} {n : Nat} (h : Decimal ds n) (hn : n < 2 ^ 32) {c : Char} {j : Str} (hc : c ∉ digits) :
    Num (ds ++ c :: j) (c :: j) n :=
  ⟨ds, h, hn, rfl, fun x hx => by simpa using ((decimal_iff _ _).1 h).2.1 x hx, by simpa using hc⟩

theorem num_split {s j : Str} {n : Nat} (h : Num s j n) : ∃ ds, s = ds ++ j ∧ Decimal ds n ∧ n < 2 ^ 32 := by
  obtain ⟨ds, h1, h2, h3⟩ := h
  exact ⟨ds, h3.1, h1, h2⟩

theorem num_unique {s j j' : Str} {n n' : Nat} (h : Num s j n) (h' : Num s j' n') : j' = j ∧ n' = n :=
  exact_integer.unique (fun h => h) h h'

theorem exact_rangeExact : Exact quantifierRangeExact (fun s j k => ∃ m n, s = '{' :: m ∧ Num m ('}' :: j) n ∧ k = .rangeExact n) Never :=
  (exact_then (exact_tag ['{']) fun _ => exact_then exact_integer fun n => exact_then (exact_tag ['}']) fun _ =>
    exact_pure (QuantifierKind.rangeExact n)).congr fun s j k => by
    constructor
    · rintro ⟨m, n, rfl, h, rfl⟩
      exact ⟨m, (), rfl, _, n, h, j, (), rfl, rfl, rfl⟩
    · rintro ⟨m, _, rfl, m', n, h, _, _, rfl, rfl, rfl⟩
      exact ⟨m, n, rfl, h, rfl⟩

theorem exact_rangeMinMax : Exact quantifierRangeMinMax
    (fun s j k => ∃ m n t n', s = '{' :: m ∧ Num m (',' :: t) n ∧ Num t ('}' :: j) n' ∧ k = .rangeMinMax n n') Never :=
  (exact_then (exact_tag ['{']) fun _ => exact_then exact_integer fun n => exact_then (exact_tag [',']) fun _ =>
    exact_then exact_integer fun n' => exact_then (exact_tag ['}']) fun _ => exact_pure (QuantifierKind.rangeMinMax n n')).congr fun s j k => by
    constructor
    · rintro ⟨m, n, t, n', rfl, h, h', rfl⟩
      exact ⟨m, (), rfl, _, n, h, t, (), rfl, _, n', h', j, (), rfl, rfl, rfl⟩
    · rintro ⟨m, _, rfl, m', n, h, t, _, rfl, _, n', h', _, _, rfl, rfl, rfl⟩
      exact ⟨m, n, t, n', rfl, h, h', rfl⟩

theorem exact_rangeMin : Exact quantifierRangeMin
    (fun s j k => ∃ m n, s = '{' :: m ∧ Num m (',' :: '}' :: j) n ∧ k = .rangeMin n) Never :=
  (exact_then (exact_tag ['{']) fun _ => exact_then exact_integer fun n => exact_then (exact_tag [',']) fun _ =>
    exact_then (exact_tag ['}']) fun _ => exact_pure (QuantifierKind.rangeMin n)).congr fun s j k => by
    constructor
    · rintro ⟨m, n, rfl, h, rfl⟩
      exact ⟨m, (), rfl, _, n, h, '}' :: j, (), rfl, j, (), rfl, rfl, rfl⟩
    · rintro ⟨m, _, rfl, m', n, h, _, _, rfl, _, _, rfl, rfl, rfl⟩
      exact ⟨m, n, rfl, h, rfl⟩

theorem never_or {s : Str} (h : Never s ∨ Never s) : Never s := h.elim id id

theorem exact_either' {P Q : Parser α} {G H : Str → Str → α → Prop} (hP : Exact P G Never) (hQ : Exact Q H Never)
    (hd : ∀ s j a j' a', G s j a → ¬ H s j' a') : Exact (Parser.orElse P Q) (fun s j a => G s j a ∨ H s j a) Never :=
  (exact_either hP hQ hd).weaken fun _ => never_or

theorem decimal_not_nil {t j : Str} {n : Nat} {c : Char} (hc : c ∉ digits) (h : Num (c :: t) j n) : False := by
  obtain ⟨ds, h1, _, h2, h3, _⟩ := h
  cases ds with
  | nil => exact ((decimal_iff _ _).1 h1).1 rfl
  | cons x ds =>
    simp only [List.cons_append, List.cons.injEq] at h2
    have := h3 x (by simp)
    rw [← h2.1] at this
    exact hc (by simpa using this)

theorem exact_count : Exact (alt (tagged ['*'] QuantifierKind.zeroOrMore)
    [tagged ['+'] .oneOrMore, tagged ['?'] .zeroOrOne, quantifierRangeExact, quantifierRangeMinMax, quantifierRangeMin]) Count Never := by
  refine (exact_either' (exact_tagged _ _) (exact_either' (exact_tagged _ _) (exact_either' (exact_tagged _ _)
    (exact_either' exact_rangeExact (exact_either' exact_rangeMinMax exact_rangeMin ?_) ?_) ?_) ?_) ?_).congr fun s j k => ?_
  · rintro s j a j' a' ⟨m, n, t, n', rfl, h, h', rfl⟩ ⟨m', n'', he, h'', rfl⟩
    cases he
    have := (num_unique h h'').1
    cases this
    exact decimal_not_nil (by decide) h'
  · rintro s j a j' a' ⟨m, n, rfl, h, rfl⟩ (⟨m', n', t, n'', he, h', h'', rfl⟩ | ⟨m', n', he, h', rfl⟩) <;> cases he
    · cases (num_unique h h').1
    · cases (num_unique h h').1
  · rintro s j a j' a' ⟨rfl, rfl⟩ (⟨m', n, he, _⟩ | ⟨m', n, t, n', he, _⟩ | ⟨m', n, he, _⟩) <;> cases he
  · rintro s j a j' a' ⟨rfl, rfl⟩ (⟨he, _⟩ | ⟨m', n, he, _⟩ | ⟨m', n, t, n', he, _⟩ | ⟨m', n, he, _⟩) <;> cases he
  · rintro s j a j' a' ⟨rfl, rfl⟩ (⟨he, _⟩ | ⟨he, _⟩ | ⟨m', n, he, _⟩ | ⟨m', n, t, n', he, _⟩ | ⟨m', n, he, _⟩) <;> cases he
  · constructor
    · intro h
      cases h with
      | star => exact .inl ⟨rfl, rfl⟩
      | plus => exact .inr (.inl ⟨rfl, rfl⟩)
      | mark => exact .inr (.inr (.inl ⟨rfl, rfl⟩))
      | exactly _ h1 h2 => exact .inr (.inr (.inr (.inl ⟨_, _, rfl, num_of h1 h2 (by decide), rfl⟩)))
      | between _ h1 h2 h3 h4 =>
        exact .inr (.inr (.inr (.inr (.inl ⟨_, _, _, _, rfl, num_of h1 h2 (by decide), num_of h3 h4 (by decide), rfl⟩))))
      | atLeast _ h1 h2 => exact .inr (.inr (.inr (.inr (.inr ⟨_, _, rfl, num_of h1 h2 (by decide), rfl⟩))))
    · rintro (⟨rfl, rfl⟩ | ⟨rfl, rfl⟩ | ⟨rfl, rfl⟩ | ⟨m, n, rfl, h, rfl⟩ | ⟨m, n, t, n', rfl, h, h', rfl⟩ | ⟨m, n, rfl, h, rfl⟩)
      · exact .star j
      · exact .plus j
      · exact .mark j
      · obtain ⟨ds, rfl, h1, h2⟩ := num_split h
        exact .exactly j h1 h2
      · obtain ⟨ds, rfl, h1, h2⟩ := num_split h
        obtain ⟨es, rfl, h3, h4⟩ := num_split h'
        exact .between j h1 h2 h3 h4
      · obtain ⟨ds, rfl, h1, h2⟩ := num_split h
        exact .atLeast j h1 h2

theorem exact_quantifier : Exact quantifier Quant Never := by
  refine (exact_then exact_count fun k => exact_then (exact_opt (exact_tag ['?'])) fun o =>
    exact_pure (⟨o.isSome, k⟩ : Quantifier)).congr fun s j q => ?_
  constructor
  · intro h
    cases h with
    | lazy h => exact ⟨_, _, h, j, some (), .inl ⟨(), rfl, rfl⟩, rfl, rfl⟩
    | greedy h hj =>
      refine ⟨_, _, h, j, none, .inr ⟨rfl, rfl, ?_⟩, rfl, rfl⟩
      rintro k _ rfl
      exact hj rfl
  · rintro ⟨m, k, h, m', o, (⟨_, rfl, rfl⟩ | ⟨rfl, rfl, hn⟩), rfl, rfl⟩
    · exact .lazy h
    · refine .greedy h fun hj => ?_
      cases j with
      | nil => cases hj
      | cons c j =>
        simp only [List.head?_cons, Option.some.injEq] at hj
        subst hj
        exact hn j () rfl

theorem exact_assertion : Exact assertion (fun s j a => ∃ x ∈ assertionTexts, s = x.1 ++ j ∧ a = x.2) Never :=
  exact_table _ _ (assertionTexts.tail) (by decide +kernel)

theorem exact_perl : Exact perlCharacterClass Perl Never :=
  (exact_table ['\\', 'd'] PerlClass.digit [(['\\', 's'], .space), (['\\', 'w'], .word), (['\\', 'D'], .nonDigit),
      (['\\', 'S'], .nonSpace), (['\\', 'W'], .nonWord)] (by decide +kernel)).congr fun s j p => by
    constructor
    · rintro ⟨_, h⟩
      simp only [perlLetters, List.mem_cons, Prod.mk.injEq, List.not_mem_nil, or_false] at h
      rcases h with ⟨rfl, rfl⟩ | ⟨rfl, rfl⟩ | ⟨rfl, rfl⟩ | ⟨rfl, rfl⟩ | ⟨rfl, rfl⟩ | ⟨rfl, rfl⟩ <;> simp
    · rintro ⟨x, h, rfl, rfl⟩
      simp only [List.mem_cons, List.not_mem_nil, or_false] at h
      rcases h with rfl | rfl | rfl | rfl | rfl | rfl <;> exact .mk j (by decide)

/-! ## Flags -/

def flagTable : List (Str × Flag) := [(['i'], .caseInsensitive), (['m'], .multiLine), (['s'], .dotMatchesNewLine), (['x'], .ignoreWhitespace)]

theorem exact_flag : Exact flag (fun s j f => s = flagLetter f :: j) Never :=
  (exact_table ['i'] Flag.caseInsensitive flagTable.tail (by decide +kernel)).congr fun s j f => by
    constructor
    · rintro rfl
      cases f <;> simp [flagLetter, flagTable]
    · rintro ⟨x, h, rfl, rfl⟩
      simp only [flagTable, List.tail_cons, List.mem_cons, List.not_mem_nil, or_false] at h
      rcases h with rfl | rfl | rfl | rfl <;> rfl

/-- As many elements as there are. -/
inductive Longest (G : Str → Str → α → Prop) : Str → Str → List α → Prop
  | nil {s : Str} : (∀ j a, ¬ G s j a) → Longest G s s []
  | cons {s m j : Str} {a : α} {l : List α} : G s m a → Longest G m j l → Longest G s j (a :: l)

/-- Elements, each of which is the only one at its place, up to a text in `F`. -/
inductive Stuck (G : Str → Str → α → Prop) (F : Str → Prop) : Str → Prop
  | here {s : Str} : F s → Stuck G F s
  | next {s m : Str} {x : α} : (∀ j a, G s j a ↔ j = m ∧ a = x) → Stuck G F m → Stuck G F s

theorem exact_loop {P : Parser α} {G : Str → Str → α → Prop} {F : Str → Prop} (hP : Exact P G F)
    (hl : ∀ s j a, G s j a → blen j < blen s) (n : Nat) (s : Str) (d : Nat) (hn : blen s < n) :
    (∃ j l, manyLoop P n ⟨s, d⟩ = .ok ⟨j, d⟩ l ∧ ∀ j' l', Longest G s j' l' ↔ j' = j ∧ l' = l) ∨
      ((∃ e, manyLoop P n ⟨s, d⟩ = .fail e) ∧ Stuck G F s) := by
  induction n generalizing s with
  | zero => omega
  | succ n ih =>
    unfold manyLoop
    rcases hP s d with ⟨m, a, h1, h2⟩ | ⟨⟨e, h1⟩, h2⟩ | ⟨⟨e, h1⟩, h⟩
    · rw [h1]
      have hg : G s m a := (h2 _ _).2 ⟨rfl, rfl⟩
      have := hl _ _ _ hg
      dsimp only
      rw [if_neg (by omega)]
      unfold Parser.bind
      rcases ih m (by omega) with ⟨j, l, h3, h4⟩ | ⟨⟨e, h3⟩, h4⟩
      · refine .inl ⟨j, a :: l, by rw [h3]; rfl, fun j' l' => ?_⟩
        constructor
        · intro h
          cases h with
          | nil h => exact absurd hg (h _ _)
          | cons ha hb =>
            obtain ⟨rfl, rfl⟩ := (h2 _ _).1 ha
            obtain ⟨rfl, rfl⟩ := (h4 _ _).1 hb
            exact ⟨rfl, rfl⟩
        · rintro ⟨rfl, rfl⟩
          exact .cons hg ((h4 _ _).2 ⟨rfl, rfl⟩)
      · exact .inr ⟨⟨e, by rw [h3]⟩, .next h2 h4⟩
    · rw [h1]
      refine .inl ⟨s, [], rfl, fun j' l' => ?_⟩
      constructor
      · intro h
        cases h with
        | nil h => exact ⟨rfl, rfl⟩
        | cons ha hb => exact absurd ha (h2 _ _)
      · rintro ⟨rfl, rfl⟩
        exact .nil h2
    · rw [h1]
      exact .inr ⟨⟨e, rfl⟩, .here h⟩

theorem exact_many0 {P : Parser α} {G : Str → Str → α → Prop} {F : Str → Prop} (hP : Exact P G F)
    (hl : ∀ s j a, G s j a → blen j < blen s) : Exact (many0 P) (Longest G) (Stuck G F) := by
  intro s d
  rcases exact_loop hP hl _ s d (Nat.lt_succ_self _) with h | h
  · exact .inl h
  · exact .inr (.inr h)

theorem stuck_never {G : Str → Str → α → Prop} {s : Str} (h : Stuck G Never s) : Never s := by
  induction h with
  | here h => exact h
  | next _ _ ih => exact ih

/-- A run of flags. -/
def FlagRun (s j : Str) (l : List Flag) : Prop := s = l.map flagLetter ++ j ∧ ∀ f, j.head? ≠ some (flagLetter f)

theorem exact_flagRun : Exact (many0 flag) FlagRun Never :=
  ((exact_many0 exact_flag (by
    rintro s j a rfl
    have := Char.utf8Size_pos (flagLetter a)
    simp only [blen_cons]; omega)).weaken fun _ => stuck_never).congr fun s j l => by
    constructor
    · rintro ⟨rfl, h⟩
      induction l with
      | nil =>
        refine .nil ?_
        rintro k f he
        refine h f ?_
        simp only [List.map_nil, List.nil_append] at he
        rw [he]
        rfl
      | cons f l ih => exact .cons rfl ih
    · intro h
      induction h with
      | nil h =>
        refine ⟨rfl, fun f he => ?_⟩
        rename_i s
        cases s with
        | nil => cases he
        | cons c s =>
          simp only [List.head?_cons, Option.some.injEq] at he
          subst he
          exact h _ _ rfl
      | cons h1 h2 ih =>
        obtain ⟨rfl, h3⟩ := ih
        exact ⟨by rw [h1]; rfl, h3⟩

theorem flagRun_total (s : Str) : ∃ j l, FlagRun s j l := by
  induction s with
  | nil => exact ⟨[], [], rfl, fun f => by simp⟩
  | cons c s ih =>
    obtain ⟨j, l, rfl, h⟩ := ih
    by_cases hf : ∃ f, c = flagLetter f
    · obtain ⟨f, rfl⟩ := hf
      exact ⟨j, f :: l, rfl, h⟩
    · exact ⟨_, [], rfl, fun f he => hf ⟨f, by simpa using he⟩⟩

theorem exact_flags : Exact flags (fun s j f => ∃ m, FlagRun s m f.add ∧
    ((∃ k, m = '-' :: k ∧ FlagRun k j f.remove) ∨ (m.head? ≠ some '-' ∧ j = m ∧ f.remove = []))) Never := by
  refine (exact_then exact_flagRun fun add => exact_then (exact_opt (exact_then (exact_tag ['-']) fun _ => exact_flagRun))
    fun r => exact_pure (⟨add, r.getD []⟩ : Flags)).congr fun s j f => ?_
  constructor
  · rintro ⟨m, h, (⟨k, rfl, h'⟩ | ⟨h', rfl, h''⟩)⟩
    · exact ⟨_, _, h, j, some f.remove, .inl ⟨_, rfl, k, (), rfl, h'⟩, rfl, rfl⟩
    · refine ⟨_, _, h, j, none, .inr ⟨rfl, rfl, ?_⟩, rfl, ?_⟩
      · rintro k _ ⟨m, _, rfl, _⟩
        exact h' rfl
      · cases f
        simp only at h''
        subst h''
        rfl
  · rintro ⟨m, add, h, m', o, (⟨a, rfl, k, _, rfl, h'⟩ | ⟨rfl, rfl, hn⟩), rfl, rfl⟩
    · exact ⟨_, h, .inl ⟨k, rfl, h'⟩⟩
    · refine ⟨_, h, .inr ⟨fun hj => ?_, rfl, rfl⟩⟩
      cases j with
      | nil => cases hj
      | cons c j =>
        simp only [List.head?_cons, Option.some.injEq] at hj
        subst hj
        obtain ⟨x, y, hxy⟩ := flagRun_total j
        exact hn _ _ ⟨j, (), rfl, hxy⟩

theorem flags_stop {s j : Str} {f : Flags} {c : Char} (hc : ∀ f, c ≠ flagLetter f) (hd : c ≠ '-') :
    (∃ m, FlagRun s m f.add ∧ ((∃ k, m = '-' :: k ∧ FlagRun k (c :: j) f.remove) ∨
      (m.head? ≠ some '-' ∧ c :: j = m ∧ f.remove = []))) ↔ ∃ t, s = t ++ c :: j ∧ FlagText t f := by
  constructor
  · rintro ⟨m, ⟨rfl, h1⟩, (⟨k, rfl, rfl, h2⟩ | ⟨h2, rfl, h3⟩)⟩
    · exact ⟨f.add.map flagLetter ++ '-' :: f.remove.map flagLetter, by simp, .addRemove _ _⟩
    · refine ⟨_, rfl, ?_⟩
      cases f
      simp only at h3
      subst h3
      exact .add _
  · rintro ⟨t, rfl, h⟩
    have hcj : ∀ f, (c :: j).head? ≠ some (flagLetter f) := fun f => by simpa using hc f
    cases h with
    | add l => exact ⟨c :: j, ⟨rfl, hcj⟩, .inr ⟨by simpa using hd, rfl, rfl⟩⟩
    | addRemove l k =>
      refine ⟨'-' :: (k.map flagLetter ++ c :: j), ⟨by simp, fun f => ?_⟩, .inl ⟨_, rfl, rfl, hcj⟩⟩
      cases f <;> simp [flagLetter]

theorem flagLetter_ne {c : Char} (h : c ∉ ['i', 'm', 's', 'x']) (f : Flag) : c ≠ flagLetter f := by
  rintro rfl
  cases f <;> exact h (by decide)

theorem exact_flagsExpression : Exact flagsExpression (fun s j f => ∃ t, s = '(' :: '?' :: (t ++ ')' :: j) ∧ FlagText t f) Never :=
  (exact_then (exact_tag ['(', '?']) fun _ => exact_then exact_flags fun f => exact_then (exact_tag [')']) fun _ =>
    exact_pure f).congr fun s j f => by
    constructor
    · rintro ⟨t, rfl, h⟩
      refine ⟨_, (), rfl, _, f, (flags_stop (flagLetter_ne (by decide)) (by decide)).2 ⟨t, rfl, h⟩, j, (), rfl, rfl, rfl⟩
    · rintro ⟨m, _, rfl, m', f', h, m'', _, rfl, rfl, rfl⟩
      obtain ⟨t, rfl, ht⟩ := (flags_stop (flagLetter_ne (by decide)) (by decide)).1 h
      exact ⟨t, rfl, ht⟩

end Sds.Re.Gram
