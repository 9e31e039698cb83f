import Verif.Lemmas.GrammarExpr

/-! # What is in the syntax is read by the parser -/

namespace Sds.Re.Gram
open Sds Sds.Spec.Syntax

variable {α β : Type}

/-- The text cannot go on with an element. -/
def Barrier (j : Str) : Prop := ∀ c, j.head? = some c → c ∈ ['|', ')', '?', '*', '+']

theorem no_quoted {c : Char} {s k : Str} {t : Str} (h : c ≠ '\\') : ¬ Quoted (c :: s) k t := by
  intro hq
  obtain ⟨m, he⟩ := quoted_start hq
  cases he
  exact h rfl

theorem no_flags {s k : Str} {f : Flags} (h : s.head? ≠ some '(') : ¬ ∃ t, s = '(' :: '?' :: (t ++ ')' :: k) ∧ FlagText t f := by
  rintro ⟨t, rfl, _⟩
  exact h rfl

theorem class_start {s j : Str} {c : CharacterClass} (h : Class s j c) :
    s.head? = some '.' ∨ s.head? = some '[' ∨ ∃ l ∈ "dswDSWhHvVpP".toList, ∃ m, s = '\\' :: l :: m := by
  cases h with
  | dot => exact .inl rfl
  | horizontal => exact .inr (.inr ⟨'h', by decide +kernel, _, rfl⟩)
  | notHorizontal => exact .inr (.inr ⟨'H', by decide +kernel, _, rfl⟩)
  | vertical => exact .inr (.inr ⟨'v', by decide +kernel, _, rfl⟩)
  | notVertical => exact .inr (.inr ⟨'V', by decide +kernel, _, rfl⟩)
  | bracket h => exact .inr (.inl (bracket_start h))
  | perl h =>
    obtain ⟨l, hl, rfl⟩ := perl_start h
    have : ∀ c ∈ "dswDSW".toList, c ∈ "dswDSWhHvVpP".toList := by decide +kernel
    exact .inr (.inr ⟨l, this l hl, _, rfl⟩)
  | property h =>
    obtain ⟨l, hl, m, rfl⟩ := property_start h
    have : ∀ c ∈ ['p', 'P'], c ∈ "dswDSWhHvVpP".toList := by decide +kernel
    exact .inr (.inr ⟨l, this l hl, _, rfl⟩)

theorem assertion_start {s j : Str} {a : AssertionType} (h : ∃ x ∈ assertionTexts, s = x.1 ++ j ∧ a = x.2) :
    s.head? = some '^' ∨ s.head? = some '$' ∨ ∃ l ∈ "bBAzZ".toList, ∃ m, s = '\\' :: l :: m := by
  obtain ⟨x, hx, rfl, rfl⟩ := h
  simp only [assertionTexts, List.mem_cons, List.not_mem_nil, or_false] at hx
  rcases hx with rfl | rfl | rfl | rfl | rfl | rfl | rfl
  · exact .inr (.inr ⟨'b', by decide +kernel, _, rfl⟩)
  · exact .inr (.inr ⟨'B', by decide +kernel, _, rfl⟩)
  · exact .inl rfl
  · exact .inr (.inl rfl)
  · exact .inr (.inr ⟨'A', by decide +kernel, _, rfl⟩)
  · exact .inr (.inr ⟨'z', by decide +kernel, _, rfl⟩)
  · exact .inr (.inr ⟨'Z', by decide +kernel, _, rfl⟩)

theorem tag_err {t s : Str} {d : Nat} (h : ¬ t <+: s) : ∃ e, tag t ⟨s, d⟩ = .err e :=
  (exact_tag t).errs (fun j _ he => h ⟨j, he.symm⟩) id d

theorem tag_run (t j : Str) (d : Nat) : tag t ⟨t ++ j, d⟩ = .ok ⟨j, d⟩ () := (exact_tag t).run rfl id d

theorem tag_one (a : Char) (j : Str) (d : Nat) : tag [a] ⟨a :: j, d⟩ = .ok ⟨j, d⟩ () := tag_run [a] j d

theorem tag_two (a b : Char) (j : Str) (d : Nat) : tag [a, b] ⟨a :: b :: j, d⟩ = .ok ⟨j, d⟩ () := tag_run [a, b] j d

theorem tag_three (a b c : Char) (j : Str) (d : Nat) : tag [a, b, c] ⟨a :: b :: c :: j, d⟩ = .ok ⟨j, d⟩ () := tag_run [a, b, c] j d

theorem orElse_err {P Q : Parser α} {i : Input} (h1 : ∃ e, P i = .err e) (h2 : ∃ e, Q i = .err e) : ∃ e, Parser.orElse P Q i = .err e := by
  obtain ⟨e, h1⟩ := h1
  rw [orElse_right h1]
  exact h2

/-- Without a parenthesis there is no group. -/
theorem group_err {limit : Nat} {expr : Parser Ast} {s : Str} {d : Nat} (hd : d + 1 ≤ limit) (h : s.head? ≠ some '(') :
    ∃ e, group limit expr ⟨s, d⟩ = .err e := by
  have hp : ∀ t, ¬ ('(' :: t) <+: s := by
    rintro t ⟨r, rfl⟩
    exact h rfl
  have h1 : ∃ e, alt (nonCapturingGroup expr) [captureGroup expr, namedCaptureGroup expr] ⟨s, d + 1⟩ = .err e := by
    refine orElse_err ?_ (orElse_err ?_ ?_)
    · obtain ⟨e, he⟩ := tag_err (d := d + 1) (hp ['?'])
      exact ⟨e, bind_err he⟩
    · obtain ⟨e, he⟩ := tag_err (d := d + 1) (hp [])
      exact ⟨e, bind_err he⟩
    · refine orElse_err ?_ ?_
      · obtain ⟨e, he⟩ := orElse_err (tag_err (d := d + 1) (hp ['?', '<'])) (tag_err (d := d + 1) (hp ['?', 'P', '<']))
        exact ⟨e, bind_err he⟩
      · obtain ⟨e, he⟩ := tag_err (d := d + 1) (hp ['?', '\''])
        exact ⟨e, bind_err he⟩
  obtain ⟨e, h1⟩ := h1
  refine ⟨e, ?_⟩
  unfold group
  dsimp only
  rw [if_neg (by omega), h1]

theorem group_run {limit : Nat} {expr : Parser Ast} {s j : Str} {d : Nat} {a : Ast} (hd : d + 1 ≤ limit)
    (h : alt (nonCapturingGroup expr) [captureGroup expr, namedCaptureGroup expr] ⟨s, d + 1⟩ = .ok ⟨j, d + 1⟩ a) :
    group limit expr ⟨s, d⟩ = .ok ⟨j, d⟩ a := by
  unfold group
  dsimp only
  rw [if_neg (by omega), h]
  rfl

theorem quote_err {s : Str} {d : Nat} (h : ∀ k t, ¬ Quoted s k t) : ∃ e, quoteExpression ⟨s, d⟩ = .err e :=
  exact_quote.errs (fun j _ ⟨t, hq, _⟩ => h j t hq) id d

theorem flags_err {s : Str} {d : Nat} (h : ∀ k f, ¬ ∃ t, s = '(' :: '?' :: (t ++ ')' :: k) ∧ FlagText t f) :
    ∃ e, (do let f ← flagsExpression; pure (Ast.flags f) : Parser Ast) ⟨s, d⟩ = .err e :=
  (exact_map exact_flagsExpression Ast.flags).errs (fun j _ ⟨f, ht, _⟩ => h j f ht) id d

theorem assertion_err {s : Str} {d : Nat} (h : ∀ k a, ¬ ∃ x ∈ assertionTexts, s = x.1 ++ k ∧ a = x.2) :
    ∃ e, (do let a ← assertion; pure (Ast.assertion a) : Parser Ast) ⟨s, d⟩ = .err e :=
  (exact_map exact_assertion Ast.assertion).errs (fun j _ ⟨f, ht, _⟩ => h j f ht) id d

theorem class_err {s : Str} {d : Nat} (h : ∀ k c, ¬ Class s k c) (hs : s.head? ≠ some '[') :
    ∃ e, (do let c ← characterClass; pure (Ast.characterClass c) : Parser Ast) ⟨s, d⟩ = .err e :=
  (exact_map exact_class Ast.characterClass).errs (fun j _ ⟨f, ht, _⟩ => h j f ht) (fun hf => hs hf.1) d

theorem atomic_barrier {limit : Nat} {expr : Parser Ast} {s : Str} {d : Nat} (hd : d + 1 ≤ limit) (h : Barrier s) :
    ∃ e, atomic limit expr ⟨s, d⟩ = .err e := by
  have hc : ∀ c, c ∉ ['|', ')', '?', '*', '+'] → s.head? ≠ some c := fun c hc he => hc (h c he)
  have he : ∃ e, elemParser limit expr ⟨s, d⟩ = .err e := by
    refine orElse_err (quote_err ?_) (orElse_err (flags_err ?_) (orElse_err (group_err hd (hc _ (by decide))) (orElse_err (assertion_err ?_)
      (orElse_err (class_err ?_ (hc _ (by decide))) ?_))))
    · intro k t hq
      obtain ⟨m, rfl⟩ := quoted_start hq
      exact hc '\\' (by decide) rfl
    · exact fun k f => no_flags (hc _ (by decide))
    · intro k a ha
      rcases assertion_start ha with h | h | ⟨_, _, m, rfl⟩
      · exact hc _ (by decide) h
      · exact hc _ (by decide) h
      · exact hc '\\' (by decide) rfl
    · intro k a ha
      rcases class_start ha with h | h | ⟨_, _, m, rfl⟩
      · exact hc _ (by decide) h
      · exact hc _ (by decide) h
      · exact hc '\\' (by decide) rfl
    · refine (exact_map (exact_literal .normal) Ast.literal).errs ?_ ?_ d
      · rintro j _ ⟨l, hl, _⟩
        cases hl with
        | plain _ _ h2 =>
          have := h _ rfl
          have t : ∀ c ∈ ['|', ')', '?', '*', '+'], c ∈ denyOf .normal := by decide
          exact h2 (t _ this)
        | escaped => exact hc '\\' (by decide) rfl
      · intro hb
        obtain ⟨m, rfl⟩ := badLit_start hb
        exact hc '\\' (by decide) rfl
  obtain ⟨e, he⟩ := he
  rw [atomic_eq]
  exact ⟨e, bind_err he⟩

/-! ## Elements do not begin with certain characters -/

theorem elem_not_barrier {E : Str → Str → Ast → Prop} {s j : Str} {a : Ast} (h : Elem E s j a) : ¬ Barrier s := by
  intro hb
  have hc : ∀ c, c ∉ ['|', ')', '?', '*', '+'] → s.head? ≠ some c := fun c hc he => hc (hb c he)
  cases h with
  | quote h =>
    obtain ⟨m, rfl⟩ := quoted_start h
    exact hc '\\' (by decide) rfl
  | flags => exact hc '(' (by decide) rfl
  | capturing => exact hc '(' (by decide) rfl
  | nonCapturing => exact hc '(' (by decide) rfl
  | named => exact hc '(' (by decide) rfl
  | quotedName => exact hc '(' (by decide) rfl
  | assertion _ h =>
    rcases assertion_start ⟨_, h, rfl, rfl⟩ with h | h | ⟨_, _, m, h⟩
    · exact hc _ (by decide) h
    · exact hc _ (by decide) h
    · exact hc '\\' (by decide) (by rw [h]; rfl)
  | cls h =>
    rcases class_start h with h | h | ⟨_, _, m, rfl⟩
    · exact hc _ (by decide) h
    · exact hc _ (by decide) h
    · exact hc '\\' (by decide) rfl
  | literal _ h =>
    cases h with
    | plain _ _ h2 =>
      have := hb _ rfl
      have t : ∀ c ∈ ['|', ')', '?', '*', '+'], c ∈ denyOf .normal := by decide
      exact h2 (t _ this)
    | escaped => exact hc '\\' (by decide) rfl

theorem atom_not_barrier {E : Str → Str → Ast → Prop} {s j : Str} {a : Ast} (h : Atom E s j a) : ¬ Barrier s := by
  cases h with
  | bare h => exact elem_not_barrier h
  | repeated h => exact elem_not_barrier h

theorem atoms_mark {E : Str → Str → Ast → Prop} {u j : Str} {l : List Ast} (h : Atoms E ('?' :: u) j l) : j = '?' :: u ∧ l = [] := by
  cases h with
  | nil => exact ⟨rfl, rfl⟩
  | cons h => exact absurd (fun c hc => by cases hc; decide) (atom_not_barrier h)

theorem expr_mark {n : Nat} {u j : Str} {a : Ast} (h : Expr n ('?' :: u) j a) : j = '?' :: u := by
  cases n with
  | zero => exact h.elim
  | succ n =>
    obtain ⟨l, h, _⟩ := h
    cases h with
    | last h => exact (atoms_mark h).1
    | cons h => cases (atoms_mark h).1

/-! ## The rest is shorter -/

theorem flagText_cons {t : Str} {f : Flags} {c : Char} {u : Str} (h : FlagText (c :: t) f) (hc : c = u.headD c) : c ∈ ['i', 'm', 's', 'x', '-'] := by
  have t' : ∀ f, flagLetter f ∈ ['i', 'm', 's', 'x', '-'] := by intro f; cases f <;> decide
  generalize he : c :: t = s at h
  cases h with
  | add l =>
    cases l with
    | nil => cases he
    | cons f l => cases he; exact t' f
  | addRemove l k =>
    cases l with
    | nil => cases he; decide
    | cons f l => cases he; exact t' f

theorem elem_shorter {E : Str → Str → Ast → Prop} (hE : ∀ s j a, E s j a → blen j ≤ blen s) {s j : Str} {a : Ast} (h : Elem E s j a) :
    blen j < blen s := by
  have h0 : ('\\' : Char).utf8Size = 1 := by decide
  have h1 : ('(' : Char).utf8Size = 1 := by decide
  have h2 : (')' : Char).utf8Size = 1 := by decide
  have hp : ∀ c : Char, 0 < c.utf8Size := Char.utf8Size_pos
  cases h with
  | quote h =>
    cases h
    simp only [blen_cons, blen_append, h0]; omega
  | flags => simp only [blen_cons, blen_append, h1]; omega
  | capturing h =>
    have := hE _ _ _ h
    simp only [blen_cons, h1, h2] at this ⊢; omega
  | nonCapturing _ h =>
    have := hE _ _ _ h
    simp only [blen_cons, blen_append, h1, h2] at this ⊢; omega
  | named _ _ _ h =>
    have := hE _ _ _ h
    simp only [blen_cons, blen_append, h1, h2] at this ⊢; omega
  | quotedName _ h =>
    have := hE _ _ _ h
    simp only [blen_cons, blen_append, h1, h2] at this ⊢; omega
  | assertion _ h =>
    rename_i t a
    have : ∀ x ∈ assertionTexts, 0 < blen x.1 := by decide +kernel
    have : 0 < blen t := this _ h
    rw [blen_append]
    omega
  | cls h =>
    cases h with
    | dot => simp only [blen_cons]; have := hp '.'; omega
    | horizontal => simp only [blen_cons, h0]; omega
    | notHorizontal => simp only [blen_cons, h0]; omega
    | vertical => simp only [blen_cons, h0]; omega
    | notVertical => simp only [blen_cons, h0]; omega
    | bracket h =>
      cases h with
      | mk b1 b2 b3 b4 =>
        rename_i s s' m neg first items
        have hi : ∀ {m e l}, Items m e l → blen e ≤ blen m := by
          intro m e l h
          induction h with
          | nil => exact Nat.le_refl _
          | cons h _ ih => have := item_shorter h; omega
        have i1 := hi b3
        have i2 : blen m ≤ blen s' := by
          rcases b2 with ⟨rfl, _⟩ | ⟨_, rfl, _⟩
          · simp
          · exact Nat.le_refl _
        have i3 : blen s' ≤ blen s := by
          rcases b1 with ⟨rfl, _⟩ | ⟨_, rfl, _⟩
          · simp
          · exact Nat.le_refl _
        simp only [blen_cons] at i1 ⊢
        have := hp ']'
        omega
    | perl h =>
      cases h
      simp only [blen_cons, h0]; omega
    | property h => cases h <;> (simp only [blen_cons, blen_append, h0]; omega)
  | literal _ h => exact lit_shorter h

theorem count_shorter {s j : Str} {k : QuantifierKind} (h : Count s j k) : blen j ≤ blen s := by
  cases h <;> (simp only [blen_cons, blen_append]; omega)

theorem atom_shorter {E : Str → Str → Ast → Prop} (hE : ∀ s j a, E s j a → blen j ≤ blen s) {s j : Str} {a : Ast} (h : Atom E s j a) :
    blen j < blen s := by
  cases h with
  | bare h => exact elem_shorter hE h
  | repeated h hq =>
    have h1 := elem_shorter hE h
    cases hq with
    | «lazy» hq =>
      have := count_shorter hq
      simp only [blen_cons] at this
      omega
    | greedy hq =>
      have := count_shorter hq
      omega

theorem atoms_shorter {E : Str → Str → Ast → Prop} (hE : ∀ s j a, E s j a → blen j ≤ blen s) {s j : Str} {l : List Ast} (h : Atoms E s j l) :
    blen j ≤ blen s := by
  induction h with
  | nil => exact Nat.le_refl _
  | cons h _ ih => have := atom_shorter hE h; omega

theorem expr_shorter (n : Nat) : ∀ s j a, Expr n s j a → blen j ≤ blen s := by
  induction n with
  | zero => exact fun _ _ _ h => h.elim
  | succ n ih =>
    rintro s j a ⟨l, h, hl⟩
    clear hl
    induction h with
    | last h => exact atoms_shorter ih h
    | cons h _ ih' =>
      have := atoms_shorter ih h
      simp only [blen_cons] at *
      omega

/-! ## Elements -/

/-- The parser reads the inner expressions of groups, and reads nothing from a question mark. -/
structure Reads (expr : Parser Ast) (E : Str → Str → Ast → Prop) (d : Nat) : Prop where
  inner : ∀ {s j : Str} {a : Ast}, E s (')' :: j) a → expr ⟨s, d⟩ = .ok ⟨')' :: j, d⟩ a
  mark : ∀ {s j : Str} {a : Ast} (u : Str), E s j a → expr ⟨'?' :: u, d⟩ = .ok ⟨'?' :: u, d⟩ .empty
  noMark : ∀ {u j : Str} {a : Ast}, ¬ E ('?' :: u) (')' :: j) a

theorem flags_other {c : Char} (hc : c ∉ ['i', 'm', 's', 'x', '-']) (s : Str) (d : Nat) :
    flags ⟨c :: s, d⟩ = .ok ⟨c :: s, d⟩ ⟨[], []⟩ := by
  refine exact_flags.run ?_ id d
  have h1 : ∀ f, c ≠ flagLetter f := flagLetter_ne fun h => hc (by simp at h ⊢; rcases h with h | h | h | h <;> simp [h])
  have h2 : c ≠ '-' := fun h => hc (by simp [h])
  exact ⟨c :: s, ⟨rfl, fun f => by simpa using h1 f⟩, .inr ⟨by simpa using h2, rfl, rfl⟩⟩

theorem no_flags_of {c : Char} (hc : c ∉ ['i', 'm', 's', 'x', '-', ')']) {s k t : Str} {f : Flags} (h : c :: s = t ++ ')' :: k) :
    ¬ FlagText t f := by
  intro ht
  cases t with
  | nil =>
    cases h
    exact hc (by decide)
  | cons x t =>
    cases h
    have := flagText_cons (u := []) ht rfl
    exact hc (by simp at this ⊢; rcases this with h | h | h | h | h <;> simp [h])

theorem flagText_unique {t t' s s' : Str} {f f' : Flags} {c c' : Char} (h : FlagText t f) (h' : FlagText t' f')
    (hc : ∀ f, c ≠ flagLetter f) (hd : c ≠ '-') (hc' : ∀ f, c' ≠ flagLetter f) (hd' : c' ≠ '-') (he : t ++ c :: s = t' ++ c' :: s') : c' = c := by
  have h1 := (flags_stop (j := s) hc hd).2 ⟨t, rfl, h⟩
  have h2 := (flags_stop (j := s') hc' hd').2 ⟨t', he, h'⟩
  have := (exact_flags.unique id h1 h2).1
  cases this
  rfl

section
variable {limit d : Nat} {expr : Parser Ast} {E : Str → Str → Ast → Prop}

theorem noncap_err_of {c : Char} (hc : c ∉ ['i', 'm', 's', 'x', '-', ':']) (s : Str) (d : Nat) :
    ∃ e, nonCapturingGroup expr ⟨'(' :: '?' :: c :: s, d⟩ = .err e := by
  obtain ⟨e, he⟩ := tag_err (t := [':']) (s := c :: s) (d := d) (by
    rintro ⟨r, hr⟩
    cases hr
    exact hc (by decide))
  refine ⟨e, ?_⟩
  unfold nonCapturingGroup
  rw [bind_run (tag_two '(' '?' (c :: s) d),
    bind_run (flags_other (fun h => hc (by simp at h ⊢; rcases h with h | h | h | h | h <;> simp [h])) s d), bind_err he]

theorem capture_err_of (hr : Reads expr E d) {s' j' : Str} {a' : Ast} (hx : E s' j' a') (u : Str) :
    ∃ e, captureGroup expr ⟨'(' :: '?' :: u, d⟩ = .err e := by
  obtain ⟨e, he⟩ := tag_err (t := [')']) (s := '?' :: u) (d := d) (by rintro ⟨r, hr⟩; cases hr)
  refine ⟨e, ?_⟩
  unfold captureGroup
  rw [bind_run (tag_one '(' ('?' :: u) d), bind_run (hr.mark u hx), bind_err he]

theorem name_run {n j : Str} {c : Char} (h : GroupName n) (hc : c ∉ asciiAlphanumericUnderscore) (d : Nat) :
    captureGroupName ⟨n ++ c :: j, d⟩ = .ok ⟨c :: j, d⟩ n :=
  exact_name.run ⟨rfl, h, by simpa using hc⟩ id d

theorem named_run (hr : Reads expr E d) {p n s j : Str} {a : Ast} (hp : p = [] ∨ p = ['P']) (hn : GroupName n) (h : E s (')' :: j) a) :
    namedCaptureGroup expr ⟨'(' :: '?' :: (p ++ '<' :: (n ++ '>' :: s)), d⟩ = .ok ⟨j, d⟩ (.group (.namedCapturing n) a) := by
  refine orElse_left ?_
  have ht : alt (tag ['(', '?', '<']) [tag ['(', '?', 'P', '<']] ⟨'(' :: '?' :: (p ++ '<' :: (n ++ '>' :: s)), d⟩ =
      .ok ⟨n ++ '>' :: s, d⟩ () := by
    rcases hp with rfl | rfl
    · exact orElse_left (tag_run ['(', '?', '<'] _ d)
    · obtain ⟨e, he⟩ := tag_err (t := ['(', '?', '<']) (s := '(' :: '?' :: (['P'] ++ '<' :: (n ++ '>' :: s))) (d := d) (by
        rintro ⟨r, hr⟩; cases hr)
      show Parser.orElse _ _ _ = _
      rw [orElse_right he]
      exact tag_run ['(', '?', 'P', '<'] _ d
  rw [bind_run ht, bind_run (name_run hn (by decide +kernel) d), bind_run (tag_one '>' s d), bind_run (hr.inner h),
    bind_run (tag_one ')' j d)]
  rfl

theorem quotedName_run (hr : Reads expr E d) {n s j : Str} {a : Ast} (hn : GroupName n) (h : E s (')' :: j) a) :
    namedCaptureGroup expr ⟨'(' :: '?' :: '\'' :: (n ++ '\'' :: s), d⟩ = .ok ⟨j, d⟩ (.group (.namedCapturing n) a) := by
  obtain ⟨e, he⟩ : ∃ e, alt (tag ['(', '?', '<']) [tag ['(', '?', 'P', '<']] ⟨'(' :: '?' :: '\'' :: (n ++ '\'' :: s), d⟩ = .err e := orElse_err
    (tag_err (t := ['(', '?', '<']) (s := '(' :: '?' :: '\'' :: (n ++ '\'' :: s)) (d := d) (by rintro ⟨r, hr⟩; cases hr))
    (tag_err (t := ['(', '?', 'P', '<']) (s := '(' :: '?' :: '\'' :: (n ++ '\'' :: s)) (d := d) (by rintro ⟨r, hr⟩; cases hr))
  unfold namedCaptureGroup
  show Parser.orElse _ _ _ = _
  rw [orElse_right (bind_err he)]
  show (tag ['(', '?', '\''] >>= _) _ = _
  rw [bind_run (tag_three '(' '?' '\'' _ d), bind_run (name_run hn (by decide +kernel) d), bind_run (tag_one '\'' s d),
    bind_run (hr.inner h), bind_run (tag_one ')' j d)]
  rfl

theorem elem_run (hd : d + 1 ≤ limit) (hr : Reads expr E (d + 1)) {s j : Str} {a : Ast} (h : Elem E s j a) :
    elemParser limit expr ⟨s, d⟩ = .ok ⟨j, d⟩ a := by
  have hgroup : ∀ {s j a}, (∃ u, s = '(' :: u) → (∀ k f, ¬ ∃ t, s = '(' :: '?' :: (t ++ ')' :: k) ∧ FlagText t f) →
      alt (nonCapturingGroup expr) [captureGroup expr, namedCaptureGroup expr] ⟨s, d + 1⟩ = .ok ⟨j, d + 1⟩ a →
      elemParser limit expr ⟨s, d⟩ = .ok ⟨j, d⟩ a := by
    rintro s j a ⟨u, rfl⟩ hf hg
    obtain ⟨e1, h1⟩ := quote_err (s := '(' :: u) (d := d) fun k t => no_quoted (by decide)
    obtain ⟨e2, h2⟩ := flags_err (s := '(' :: u) (d := d) hf
    exact (orElse_right h1).trans ((orElse_right h2).trans (orElse_left (group_run hd hg)))
  have hlate : ∀ {s j a}, (∀ k t, ¬ Quoted s k t) → s.head? ≠ some '(' →
      Parser.orElse (do
      let a ← assertion
      pure (.assertion a)) (Parser.orElse (do
      let c ← characterClass
      pure (.characterClass c)) (do
      let l ← literal .normal
      pure (.literal l))) ⟨s, d⟩ = .ok ⟨j, d⟩ a → elemParser limit expr ⟨s, d⟩ = .ok ⟨j, d⟩ a := by
    intro s j a hq hs hl
    obtain ⟨e1, h1⟩ := quote_err (d := d) hq
    obtain ⟨e2, h2⟩ := flags_err (s := s) (d := d) fun k f => no_flags hs
    obtain ⟨e3, h3⟩ := group_err (expr := expr) hd hs
    exact (orElse_right h1).trans ((orElse_right h2).trans ((orElse_right h3).trans hl))
  cases h with
  | quote h => exact orElse_left (exact_quote.run ⟨_, h, rfl⟩ id d)
  | flags _ h =>
    rename_i t f
    obtain ⟨e1, h1⟩ := quote_err (s := '(' :: '?' :: (t ++ ')' :: j)) (d := d) fun k t => no_quoted (by decide)
    have h2 : (do let f ← flagsExpression; pure (Ast.flags f) : Parser Ast) ⟨'(' :: '?' :: (t ++ ')' :: j), d⟩ = .ok ⟨j, d⟩ (.flags f) :=
      (exact_map exact_flagsExpression Ast.flags).run ⟨f, ⟨t, rfl, h⟩, rfl⟩ id d
    unfold elemParser
    rw [alt, orElse_right h1, alt]
    exact orElse_left h2
  | capturing h =>
    rename_i s a
    have hm : s.head? ≠ some '?' := by
      intro he
      cases s with
      | nil => cases he
      | cons c s =>
        cases he
        exact hr.noMark h
    refine hgroup ⟨_, rfl⟩ ?_ ?_
    · rintro k f ⟨t, he, _⟩
      cases he
      exact hm rfl
    · obtain ⟨e, he⟩ := tag_err (t := ['(', '?']) (s := '(' :: s) (d := d + 1) (by
        rintro ⟨r, hr⟩
        cases hr
        exact hm rfl)
      refine (orElse_right (bind_err he)).trans (orElse_left ?_)
      unfold captureGroup
      rw [bind_run (tag_one '(' s _), bind_run (hr.inner h), bind_run (tag_one ')' j _)]
      rfl
  | nonCapturing ht h =>
    rename_i t s f a
    refine hgroup ⟨_, rfl⟩ ?_ (orElse_left ?_)
    · rintro k f' ⟨t', he, ht'⟩
      simp only [List.cons.injEq, true_and] at he
      have := flagText_unique ht ht' (flagLetter_ne (by decide)) (by decide) (flagLetter_ne (by decide)) (by decide) he
      exact absurd this (by decide)
    · unfold nonCapturingGroup
      have hf : flags ⟨t ++ ':' :: s, d + 1⟩ = .ok ⟨':' :: s, d + 1⟩ f :=
        exact_flags.run ((flags_stop (flagLetter_ne (by decide)) (by decide)).2 ⟨t, rfl, ht⟩) id _
      rw [bind_run (tag_two '(' '?' (t ++ ':' :: s) _), bind_run hf, bind_run (tag_one ':' s _), bind_run (hr.inner h),
        bind_run (tag_one ')' j _)]
      rfl
  | named p hp hn h =>
    rename_i n s a
    obtain ⟨c, u, hcu, hc⟩ : ∃ c u, p ++ '<' :: (n ++ '>' :: s) = c :: u ∧ c ∉ ['i', 'm', 's', 'x', '-', ')', ':'] := by
      rcases hp with rfl | rfl
      · exact ⟨'<', _, rfl, by decide⟩
      · exact ⟨'P', _, rfl, by decide⟩
    have hrun := named_run hr hp hn h
    rw [hcu] at hrun ⊢
    refine hgroup ⟨_, rfl⟩ ?_ ?_
    · rintro k f' ⟨t', he, ht'⟩
      simp only [List.cons.injEq, true_and] at he
      exact no_flags_of (fun h => hc (by simp at h ⊢; rcases h with h | h | h | h | h | h <;> simp [h])) he ht'
    · obtain ⟨e1, h1⟩ := noncap_err_of (expr := expr) (c := c) (fun h => hc (by simp at h ⊢; rcases h with h | h | h | h | h | h <;> simp [h])) u (d + 1)
      obtain ⟨e2, h2⟩ := capture_err_of hr h (c :: u)
      exact (orElse_right h1).trans ((orElse_right h2).trans hrun)
  | quotedName hn h =>
    rename_i n s a
    refine hgroup ⟨_, rfl⟩ ?_ ?_
    · rintro k f' ⟨t', he, ht'⟩
      simp only [List.cons.injEq, true_and] at he
      exact no_flags_of (by decide) he ht'
    · obtain ⟨e1, h1⟩ := noncap_err_of (expr := expr) (c := '\'') (by decide) (n ++ '\'' :: s) (d + 1)
      obtain ⟨e2, h2⟩ := capture_err_of hr h ('\'' :: (n ++ '\'' :: s))
      exact (orElse_right h1).trans ((orElse_right h2).trans (quotedName_run hr hn h))
  | assertion _ h =>
    rename_i t a
    refine hlate ?_ ?_ (orElse_left ((exact_map exact_assertion Ast.assertion).run ⟨_, ⟨_, h, rfl, rfl⟩, rfl⟩ id d))
    · intro k t' hq
      obtain ⟨m, hm⟩ := quoted_start hq
      rcases assertion_start ⟨_, h, rfl, rfl⟩ with h | h | ⟨l, hl, m', h⟩
      · rw [hm] at h; cases h
      · rw [hm] at h; cases h
      · rw [hm] at h
        cases h
        exact absurd hl (by decide +kernel)
    · intro hs
      rcases assertion_start ⟨_, h, rfl, rfl⟩ with h | h | ⟨l, hl, m', h⟩
      · rw [hs] at h; cases h
      · rw [hs] at h; cases h
      · rw [h] at hs; cases hs
  | cls h =>
    have hstart := class_start h
    refine hlate ?_ ?_ ?_
    · intro k t' hq
      obtain ⟨m, rfl⟩ := quoted_start hq
      rcases hstart with h | h | ⟨l, hl, m', h⟩
      · cases h
      · cases h
      · cases h
        exact absurd hl (by decide +kernel)
    · intro hs
      rcases hstart with h | h | ⟨l, hl, m', rfl⟩
      · rw [hs] at h; cases h
      · rw [hs] at h; cases h
      · cases hs
    · obtain ⟨e, he⟩ := assertion_err (s := s) (d := d) (by
        intro k x hx
        rcases assertion_start hx with h' | h' | ⟨l', hl', m, rfl⟩
        · rcases hstart with h | h | ⟨l, hl, m', rfl⟩
          · rw [h] at h'; cases h'
          · rw [h] at h'; cases h'
          · cases h'
        · rcases hstart with h | h | ⟨l, hl, m', rfl⟩
          · rw [h] at h'; cases h'
          · rw [h] at h'; cases h'
          · cases h'
        · rcases hstart with h | h | ⟨l, hl, m', h⟩
          · cases h
          · cases h
          · cases h
            have : ∀ c ∈ "bBAzZ".toList, c ∉ "dswDSWhHvVpP".toList := by decide +kernel
            exact this _ hl' hl)
      exact (orElse_right he).trans (orElse_left ((exact_map exact_class Ast.characterClass).run ⟨_, h, rfl⟩ (fun hf => hf.2 _ _ h) d))
  | literal hesc h =>
    rename_i l
    have hdeny : ∀ c ∈ denyOf .normal, s.head? ≠ some c := by
      intro c hc hs
      cases h with
      | plain _ _ h2 =>
        cases hs
        exact h2 hc
      | escaped =>
        cases hs
        exact absurd hc (by decide)
    have hres : ∀ c m, c ∈ reservedEscapes → (∀ x ∈ controlLetters, x.1 ≠ c) → c ≠ 'c' → c ≠ 'x' → s ≠ '\\' :: c :: m := by
      rintro c m h1 h2 h3 h4 rfl
      exact lit_not h1 h2 h3 h4 h
    refine hlate ?_ (hdeny _ (by decide)) ?_
    · intro k t hq
      exact quoted_not_lit hq _ _ _ h
    · obtain ⟨e1, h1⟩ := assertion_err (s := s) (d := d) (by
        intro k x hx
        rcases assertion_start hx with h' | h' | ⟨l', hl', m, h'⟩
        · exact hdeny _ (by decide) h'
        · exact hdeny _ (by decide) h'
        · have t : ∀ c ∈ "bBAzZ".toList, c = 'b' ∨ (c ∈ reservedEscapes ∧ (∀ x ∈ controlLetters, x.1 ≠ c) ∧ c ≠ 'c' ∧ c ≠ 'x') := by
            decide +kernel
          rcases t _ hl' with rfl | ⟨t1, t2, t3, t4⟩
          · exact hesc ⟨'b', by decide +kernel, m, h'⟩
          · exact hres _ m t1 t2 t3 t4 h')
      obtain ⟨e2, h2⟩ := class_err (s := s) (d := d) (by
        intro k c hc
        rcases class_start hc with h' | h' | ⟨l', hl', m, h'⟩
        · exact hdeny _ (by decide) h'
        · exact hdeny _ (by decide) h'
        · have t : ∀ c ∈ "dswDSWhHvVpP".toList, c ∈ "bdswDSWhHvV".toList ∨
              (c ∈ reservedEscapes ∧ (∀ x ∈ controlLetters, x.1 ≠ c) ∧ c ≠ 'c' ∧ c ≠ 'x') := by
            decide +kernel
          rcases t _ hl' with t0 | ⟨t1, t2, t3, t4⟩
          · exact hesc ⟨_, t0, m, h'⟩
          · exact hres _ m t1 t2 t3 t4 h') (hdeny _ (by decide))
      exact (orElse_right h1).trans ((orElse_right h2).trans ((exact_map (exact_literal .normal) Ast.literal).run ⟨_, h, rfl⟩
        (fun hb => badLit_not hb _ _ _ h) d))

theorem atomic_run (hd : d + 1 ≤ limit) (hr : Reads expr E (d + 1)) {s j : Str} {a : Ast} (h : Atom E s j a) :
    atomic limit expr ⟨s, d⟩ = .ok ⟨j, d⟩ a := by
  rw [atomic_eq]
  cases h with
  | bare h hq =>
    rw [bind_run (elem_run hd hr h)]
    exact (exact_tail a).run (.inr ⟨hq, rfl, rfl⟩) id d
  | repeated h hq =>
    rw [bind_run (elem_run hd hr h)]
    exact (exact_tail _).run (.inl ⟨_, hq, rfl⟩) id d

theorem atoms_run (hd : d + 1 ≤ limit) (hr : Reads expr E (d + 1)) (hE : ∀ s j a, E s j a → blen j ≤ blen s) {s j : Str} {l : List Ast}
    (h : Atoms E s j l) (hj : Barrier j) (n : Nat) (hn : blen s < n) : manyLoop (atomic limit expr) n ⟨s, d⟩ = .ok ⟨j, d⟩ l := by
  induction h generalizing n with
  | nil =>
    cases n with
    | zero => omega
    | succ n =>
      unfold manyLoop
      obtain ⟨e, he⟩ := atomic_barrier (expr := expr) hd hj
      rw [he]
  | cons h1 h2 ih =>
    cases n with
    | zero => omega
    | succ n =>
      have := atom_shorter hE h1
      unfold manyLoop
      rw [atomic_run hd hr h1]
      dsimp only
      rw [if_neg (by omega)]
      unfold Parser.bind
      rw [ih hj n (by omega)]
      rfl

theorem concat_run (hd : d + 1 ≤ limit) (hr : Reads expr E (d + 1)) (hE : ∀ s j a, E s j a → blen j ≤ blen s) {s j : Str} {l : List Ast}
    (h : Atoms E s j l) (hj : Barrier j) : ∃ o, opt (concatExpression limit expr) ⟨s, d⟩ = .ok ⟨j, d⟩ o ∧ o.getD .empty = joined l := by
  cases h with
  | nil =>
    obtain ⟨e, he⟩ := atomic_barrier (expr := expr) hd hj
    refine ⟨none, ?_, rfl⟩
    unfold opt
    have : concatExpression limit expr ⟨s, d⟩ = .err e := by
      unfold concatExpression many1
      exact bind_err (bind_err he)
    rw [this]
  | cons h1 h2 =>
    rename_i m a l
    have hm : many1 (atomic limit expr) ⟨s, d⟩ = .ok ⟨j, d⟩ (a :: l) := by
      unfold many1
      rw [bind_run (atomic_run hd hr h1)]
      have := atoms_run hd hr hE h2 hj (blen m + 1) (Nat.lt_succ_self _)
      rw [bind_run (P := many0 (atomic limit expr)) this]
      rfl
    refine ⟨some (joined (a :: l)), ?_, rfl⟩
    unfold opt
    have : concatExpression limit expr ⟨s, d⟩ = .ok ⟨j, d⟩ (joined (a :: l)) := by
      unfold concatExpression
      rw [bind_run hm]
      cases l <;> rfl
    rw [this]

theorem sep_run (hd : d + 1 ≤ limit) (hr : Reads expr E (d + 1)) (hE : ∀ s j a, E s j a → blen j ≤ blen s) {s j : Str} {l : List Ast}
    (h : Alternatives E s j l) (hj : Barrier j) (hb : j.head? ≠ some '|') : ∀ (n : Nat), blen s + 1 < n →
    ∃ l', sepLoop (tag ['|']) (opt (concatExpression limit expr)) n ⟨'|' :: s, d⟩ = .ok ⟨j, d⟩ l' ∧ l'.map (fun c => c.getD .empty) = l := by
  have hsize : ('|' : Char).utf8Size = 1 := by decide
  induction h with
  | last h =>
    rename_i s j l
    intro n hn
    cases n with
    | zero => omega
    | succ n =>
      obtain ⟨o, ho, he⟩ := concat_run hd hr hE h hj
      have hend : sepLoop (tag ['|']) (opt (concatExpression limit expr)) n ⟨j, d⟩ = .ok ⟨j, d⟩ [] := by
        obtain ⟨e, he⟩ := tag_err (t := ['|']) (s := j) (d := d) (by rintro ⟨r, rfl⟩; exact hb rfl)
        cases n with
        | zero => have := atoms_shorter hE h; omega
        | succ n =>
          unfold sepLoop
          rw [he]
      refine ⟨[o], ?_, by rw [List.map_cons, he]; rfl⟩
      unfold sepLoop
      rw [show tag ['|'] ⟨'|' :: s, d⟩ = .ok ⟨s, d⟩ () from tag_run ['|'] s d]
      dsimp only
      rw [if_neg (by simp only [blen_cons, hsize]; omega), ho]
      dsimp only
      unfold Parser.bind
      rw [hend]
      rfl
  | cons h1 h2 ih =>
    rename_i s m j l k
    intro n hn
    cases n with
    | zero => omega
    | succ n =>
      obtain ⟨o, ho, he⟩ := concat_run hd hr hE h1 (fun c hc => by cases hc; decide)
      have hs := atoms_shorter hE h1
      simp only [blen_cons, hsize] at hs
      obtain ⟨l', h3, h4⟩ := ih hj hb n (by omega)
      refine ⟨o :: l', ?_, by rw [List.map_cons, he, h4]⟩
      unfold sepLoop
      rw [show tag ['|'] ⟨'|' :: s, d⟩ = .ok ⟨s, d⟩ () from tag_run ['|'] s d]
      dsimp only
      rw [if_neg (by simp only [blen_cons, hsize]; omega), ho]
      dsimp only
      unfold Parser.bind
      rw [h3]
      rfl

theorem alternate_run (hd : d + 1 ≤ limit) (hr : Reads expr E (d + 1)) (hE : ∀ s j a, E s j a → blen j ≤ blen s) {s j : Str} {l : List Ast}
    (h : Alternatives E s j l) (hj : Barrier j) (hb : j.head? ≠ some '|') : alternateExpression limit expr ⟨s, d⟩ = .ok ⟨j, d⟩ (chosen l) := by
  have hlist : ∃ l', separatedList1 (tag ['|']) (opt (concatExpression limit expr)) ⟨s, d⟩ = .ok ⟨j, d⟩ l' ∧
      l'.map (fun c => c.getD .empty) = l := by
    unfold separatedList1
    cases h with
    | last h =>
      obtain ⟨o, ho, he⟩ := concat_run hd hr hE h hj
      refine ⟨[o], ?_, by rw [List.map_cons, he]; rfl⟩
      rw [bind_run ho]
      have hend : (fun i : Input => sepLoop (tag ['|']) (opt (concatExpression limit expr)) (blen i.value + 1) i) ⟨j, d⟩ = .ok ⟨j, d⟩ [] := by
        obtain ⟨e, he⟩ := tag_err (t := ['|']) (s := j) (d := d) (by rintro ⟨r, rfl⟩; exact hb rfl)
        dsimp only
        unfold sepLoop
        rw [he]
      rw [bind_run (P := fun i : Input => sepLoop (tag ['|']) (opt (concatExpression limit expr)) (blen i.value + 1) i) hend]
      rfl
    | cons h1 h2 =>
      rename_i m l k
      obtain ⟨o, ho, he⟩ := concat_run hd hr hE h1 (fun c hc => by cases hc; decide)
      obtain ⟨l', h3, h4⟩ := sep_run hd hr hE h2 hj hb (blen ('|' :: m) + 1) (by
        have : ('|' : Char).utf8Size = 1 := by decide
        simp only [blen_cons]; omega)
      refine ⟨o :: l', ?_, by rw [List.map_cons, he, h4]⟩
      rw [bind_run ho, bind_run (P := fun i : Input => sepLoop (tag ['|']) (opt (concatExpression limit expr)) (blen i.value + 1) i) h3]
      rfl
  obtain ⟨l', h1, h2⟩ := hlist
  unfold alternateExpression
  rw [bind_run h1, h2]
  match l with
  | [] => rfl
  | [a] => rfl
  | _ :: _ :: _ => rfl

end

theorem expression_run (limit : Nat) : ∀ (n f d : Nat) {s j : Str} {a : Ast}, Expr n s j a → n ≤ f → d + n ≤ limit → Barrier j →
    j.head? ≠ some '|' → expression limit f ⟨s, d⟩ = .ok ⟨j, d⟩ a := by
  intro n
  induction n with
  | zero => exact fun _ _ _ _ _ h => h.elim
  | succ n ih =>
    rintro f d s j a ⟨l, h, rfl⟩ hf hd hj hb
    cases f with
    | zero => omega
    | succ f =>
      have hr : Reads (expression limit f) (Expr n) (d + 1) := by
        refine ⟨fun h => ih f (d + 1) h (by omega) (by omega) (fun c hc => by cases hc; decide) (by simp), ?_, ?_⟩
        · intro s j a u h
          refine ih f (d + 1) ?_ (by omega) (by omega) (fun c hc => by cases hc; decide) (by simp)
          cases n with
          | zero => exact h.elim
          | succ n => exact ⟨_, .last (.nil _), rfl⟩
        · intro u j a h
          cases expr_mark h
      exact alternate_run (by omega) hr (expr_shorter n) h hj hb

end Sds.Re.Gram
