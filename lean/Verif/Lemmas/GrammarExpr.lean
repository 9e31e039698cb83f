import Verif.Lemmas.GrammarBracket

/-! # Expressions of the parser and the syntax -/

namespace Sds.Re.Gram
open Sds Sds.Spec.Syntax

variable {α β : Type}

/-! ## What the parser reads is in the syntax -/

/-- What the parser reads is in the relation. -/
def Sound (P : Parser α) (G : Str → Str → α → Prop) : Prop := ∀ s d i a, P ⟨s, d⟩ = .ok i a → i.depth = d ∧ G s i.value a

theorem Exact.sound {P : Parser α} {G : Str → Str → α → Prop} {F : Str → Prop} (h : Exact P G F) : Sound P G :=
  fun _ _ _ _ he => h.ok he

section
variable {P : Parser α} {G : Str → Str → α → Prop}

theorem bind_ok {Q : α → Parser β} {i : Input} {r : PR β} (h : (P >>= Q) i = r) {j : Input} {b : β} (hr : r = .ok j b) :
    ∃ k a, P i = .ok k a ∧ Q a k = .ok j b := by
  subst hr
  change Parser.bind P Q i = _ at h
  unfold Parser.bind at h
  cases hp : P i with
  | ok k a => rw [hp] at h; exact ⟨k, a, rfl, h⟩
  | err e => rw [hp] at h; cases h
  | fail e => rw [hp] at h; cases h
  | panic => rw [hp] at h; cases h
  | hang => rw [hp] at h; cases h

theorem bind_run {Q : α → Parser β} {i j : Input} {a : α} (h : P i = .ok j a) : (P >>= Q) i = Q a j := by
  change Parser.bind P Q i = _
  unfold Parser.bind
  rw [h]

theorem bind_err {Q : α → Parser β} {i : Input} {e : PErr} (h : P i = .err e) : (P >>= Q) i = .err e := by
  change Parser.bind P Q i = _
  unfold Parser.bind
  rw [h]

theorem orElse_ok {Q : Parser α} {i j : Input} {a : α} (h : Parser.orElse P Q i = .ok j a) :
    P i = .ok j a ∨ ((∃ e, P i = .err e) ∧ Q i = .ok j a) := by
  unfold Parser.orElse at h
  cases hp : P i with
  | ok k a => rw [hp] at h; exact .inl h
  | err e => rw [hp] at h; exact .inr ⟨⟨e, rfl⟩, h⟩
  | fail e => rw [hp] at h; cases h
  | panic => rw [hp] at h; cases h
  | hang => rw [hp] at h; cases h

theorem orElse_left {Q : Parser α} {i j : Input} {a : α} (h : P i = .ok j a) : Parser.orElse P Q i = .ok j a := by
  unfold Parser.orElse
  rw [h]

theorem orElse_right {Q : Parser α} {i : Input} {e : PErr} (h : P i = .err e) : Parser.orElse P Q i = Q i := by
  unfold Parser.orElse
  rw [h]

theorem Sound.bind (hP : Sound P G) {Q : α → Parser β} {H : α → Str → Str → β → Prop} (hQ : ∀ a, Sound (Q a) (H a)) :
    Sound (P >>= Q) (fun s j b => ∃ m a, G s m a ∧ H a m j b) := by
  intro s d i b h
  obtain ⟨k, a, h1, h2⟩ := bind_ok h rfl
  obtain ⟨rfl, h3⟩ := hP _ _ _ _ h1
  obtain ⟨h4, h5⟩ := hQ a _ _ _ _ h2
  exact ⟨h4, _, a, h3, h5⟩

theorem Sound.mono (hP : Sound P G) {H : Str → Str → α → Prop} (h : ∀ s j a, G s j a → H s j a) : Sound P H :=
  fun s d i a he => ⟨(hP s d i a he).1, h _ _ _ (hP s d i a he).2⟩

theorem Sound.orElse {Q : Parser α} (hP : Sound P G) (hQ : Sound Q G) : Sound (Parser.orElse P Q) G := by
  intro s d i a h
  rcases orElse_ok h with h | ⟨_, h⟩
  · exact hP _ _ _ _ h
  · exact hQ _ _ _ _ h

theorem Sound.pure (a : α) : Sound (pure a : Parser α) (fun s j b => j = s ∧ b = a) := (exact_pure a).sound

end

section
variable {E : Str → Str → Ast → Prop} {expr : Parser Ast}

theorem sound_capture (he : Sound expr E) : Sound (captureGroup expr) (Elem E) :=
  (Sound.bind (exact_tag ['(']).sound fun _ => Sound.bind he fun a => Sound.bind (exact_tag [')']).sound fun _ =>
    Sound.pure (Ast.group .capturing a)).mono fun s j b => by
    rintro ⟨m, _, rfl, m', a, h, m'', _, rfl, rfl, rfl⟩
    exact .capturing h

theorem sound_nonCapturing (he : Sound expr E) : Sound (nonCapturingGroup expr) (Elem E) :=
  (Sound.bind (exact_tag ['(', '?']).sound fun _ => Sound.bind exact_flags.sound fun f => Sound.bind (exact_tag [':']).sound fun _ =>
    Sound.bind he fun a => Sound.bind (exact_tag [')']).sound fun _ =>
    Sound.pure (Ast.group (.nonCapturing f) a)).mono fun s j b => by
    rintro ⟨m, _, rfl, m1, f, hf, m2, _, rfl, m', a, h, m'', _, rfl, rfl, rfl⟩
    obtain ⟨t, rfl, ht⟩ := (flags_stop (flagLetter_ne (by decide)) (by decide)).1 hf
    exact .nonCapturing ht h

theorem sound_named (he : Sound expr E) : Sound (namedCaptureGroup expr) (Elem E) := by
  refine Sound.orElse ?_ ?_
  · have ht : Sound (alt (tag ['(', '?', '<']) [tag ['(', '?', 'P', '<']]) (fun s j _ =>
        ∃ p, (p = [] ∨ p = ['P']) ∧ s = '(' :: '?' :: (p ++ '<' :: j)) :=
      Sound.orElse ((exact_tag _).sound.mono fun s j _ h => ⟨[], .inl rfl, h⟩) ((exact_tag _).sound.mono fun s j _ h => ⟨['P'], .inr rfl, h⟩)
    exact (Sound.bind ht fun _ => Sound.bind exact_name.sound fun n => Sound.bind (exact_tag ['>']).sound fun _ =>
      Sound.bind he fun a => Sound.bind (exact_tag [')']).sound fun _ => Sound.pure (Ast.group (.namedCapturing n) a)).mono fun s j b => by
      rintro ⟨m, _, ⟨p, hp, rfl⟩, m1, n, ⟨rfl, hn, _⟩, m2, _, rfl, m', a, h, m'', _, rfl, rfl, rfl⟩
      exact .named p hp hn h
  · exact (Sound.bind (exact_tag ['(', '?', '\'']).sound fun _ => Sound.bind exact_name.sound fun n =>
      Sound.bind (exact_tag ['\'']).sound fun _ =>
      Sound.bind he fun a => Sound.bind (exact_tag [')']).sound fun _ => Sound.pure (Ast.group (.namedCapturing n) a)).mono fun s j b => by
      rintro ⟨m, _, rfl, m1, n, ⟨rfl, hn, _⟩, m2, _, rfl, m', a, h, m'', _, rfl, rfl, rfl⟩
      exact .quotedName hn h

theorem sound_group {limit : Nat} (he : Sound expr E) : Sound (group limit expr) (Elem E) := by
  intro s d i a h
  have hs : Sound (alt (nonCapturingGroup expr) [captureGroup expr, namedCaptureGroup expr]) (Elem E) :=
    Sound.orElse (sound_nonCapturing he) (Sound.orElse (sound_capture he) (sound_named he))
  unfold group at h
  dsimp only at h
  split at h
  · cases h
  · split at h
    · rename_i rest g hr
      cases h
      obtain ⟨h1, h2⟩ := hs _ _ _ _ hr
      exact ⟨by show rest.depth - 1 = d; omega, h2⟩
    all_goals cases h

/-- What may be followed by a quantifier. -/
def elemParser (limit : Nat) (expr : Parser Ast) : Parser Ast :=
  alt quoteExpression
    [do
      let f ← flagsExpression
      pure (.flags f),
     group limit expr,
     do
      let a ← assertion
      pure (.assertion a),
     do
      let c ← characterClass
      pure (.characterClass c),
     do
      let l ← literal .normal
      pure (.literal l)]

theorem elem_literal {s j : Str} {l : Literal} (h1 : ∀ k a, ¬ (∃ x ∈ assertionTexts, s = x.1 ++ k ∧ a = x.2)) (h2 : ∀ k c, ¬ Class s k c) :
    ¬ EscapeOf "bdswDSWhHvV".toList s := by
  rintro ⟨l, hl, m, rfl⟩
  have t : ∀ l ∈ "bdswDSWhHvV".toList, l = 'b' ∨ (∃ x ∈ perlLetters, x.1 = l) ∨ l ∈ ['h', 'H', 'v', 'V'] := by decide +kernel
  rcases t l hl with rfl | ⟨x, hx, rfl⟩ | hl
  · exact h1 m .wordBoundary ⟨(['\\', 'b'], .wordBoundary), by simp [assertionTexts], rfl, rfl⟩
  · exact h2 m _ (.perl (.mk m hx))
  · simp only [List.mem_cons, List.not_mem_nil, or_false] at hl
    rcases hl with rfl | rfl | rfl | rfl
    · exact h2 _ _ (.horizontal m)
    · exact h2 _ _ (.notHorizontal m)
    · exact h2 _ _ (.vertical m)
    · exact h2 _ _ (.notVertical m)

theorem sound_elem {limit : Nat} (he : Sound expr E) : Sound (elemParser limit expr) (Elem E) := by
  intro s d i a h
  rcases orElse_ok h with h | ⟨_, h⟩
  · obtain ⟨hd, t, hq, rfl⟩ := exact_quote.ok h
    exact ⟨hd, .quote hq⟩
  rcases orElse_ok h with h | ⟨_, h⟩
  · obtain ⟨hd, f, ⟨t, rfl, ht⟩, rfl⟩ := (exact_map exact_flagsExpression Ast.flags).ok h
    exact ⟨hd, .flags _ ht⟩
  rcases orElse_ok h with h | ⟨_, h⟩
  · exact sound_group he _ _ _ _ h
  rcases orElse_ok h with h | ⟨⟨e1, h1⟩, h⟩
  · obtain ⟨hd, x, ⟨y, hy, rfl, rfl⟩, rfl⟩ := (exact_map exact_assertion Ast.assertion).ok h
    exact ⟨hd, .assertion _ hy⟩
  rcases orElse_ok h with h | ⟨⟨e2, h2⟩, h⟩
  · obtain ⟨hd, c, hc, rfl⟩ := (exact_map exact_class Ast.characterClass).ok h
    exact ⟨hd, .cls hc⟩
  · obtain ⟨hd, l, hl, rfl⟩ := (exact_map (exact_literal .normal) Ast.literal).ok h
    have n1 := (exact_map exact_assertion Ast.assertion).err h1
    have n2 := (exact_map exact_class Ast.characterClass).err h2
    exact ⟨hd, .literal (elem_literal (j := i.value) (l := l) (fun k a ha => n1 _ _ ⟨a, ha, rfl⟩) (fun k c hc => n2 _ _ ⟨c, hc, rfl⟩)) hl⟩

theorem atomic_eq (limit : Nat) (expr : Parser Ast) : atomic limit expr = (do
    let inner ← elemParser limit expr
    let q ← opt quantifier
    match q with
    | some q => pure (.repetition q inner)
    | none => pure inner) := rfl

theorem exact_tail (inner : Ast) : Exact (do
    let q ← opt quantifier
    match q with
    | some q => pure (.repetition q inner)
    | none => pure inner : Parser Ast)
    (fun s j a => (∃ q, Quant s j q ∧ a = .repetition q inner) ∨ ((∀ k q, ¬ Quant s k q) ∧ j = s ∧ a = inner)) Never := by
  refine (exact_then (exact_opt exact_quantifier) (H := fun o s j a => j = s ∧ a = (match o with
    | some q => .repetition q inner | none => inner)) fun o => ?_).congr fun s j a => ?_
  · cases o
    · exact exact_pure _
    · exact exact_pure _
  · constructor
    · rintro (⟨q, h, rfl⟩ | ⟨h, rfl, rfl⟩)
      · exact ⟨j, some q, .inl ⟨q, rfl, h⟩, rfl, rfl⟩
      · exact ⟨j, none, .inr ⟨rfl, rfl, h⟩, rfl, rfl⟩
    · rintro ⟨m, o, (⟨q, rfl, h⟩ | ⟨rfl, rfl, h⟩), rfl, rfl⟩
      · exact .inl ⟨q, h, rfl⟩
      · exact .inr ⟨h, rfl, rfl⟩

theorem sound_atomic {limit : Nat} (he : Sound expr E) : Sound (atomic limit expr) (Atom E) := by
  rw [atomic_eq]
  refine (Sound.bind (sound_elem he) fun a => (exact_tail a).sound).mono fun s j b => ?_
  rintro ⟨m, a, h, (⟨q, hq, rfl⟩ | ⟨hq, rfl, rfl⟩)⟩
  · exact .repeated h hq
  · exact .bare h hq

theorem sound_loop {P : Parser Ast} (hP : Sound P (Atom E)) (n : Nat) : Sound (manyLoop P n) (Atoms E) := by
  induction n with
  | zero => intro s d i a h; cases h
  | succ n ih =>
    intro s d i l h
    unfold manyLoop at h
    split at h
    · rename_i j a hp
      obtain ⟨rfl, h1⟩ := hP _ _ _ _ hp
      split at h
      · cases h
      · obtain ⟨k, l', h2, h3⟩ := bind_ok (P := manyLoop P n) (Q := fun l => pure (a :: l)) h rfl
        cases h3
        obtain ⟨h4, h5⟩ := ih _ _ _ _ h2
        exact ⟨h4, .cons h1 h5⟩
    · cases h
      exact ⟨rfl, .nil _⟩
    · cases h
    · cases h
    · cases h

theorem sound_concat {limit : Nat} (he : Sound expr E) : Sound (opt (concatExpression limit expr))
    (fun s j o => ∃ l, Atoms E s j l ∧ o.getD .empty = joined l) := by
  intro s d i o h
  unfold opt at h
  split at h
  · rename_i j a hp
    cases h
    obtain ⟨k, l, h1, h2⟩ := bind_ok (P := many1 (atomic limit expr)) hp rfl
    obtain ⟨k1, x, h3, h4⟩ := bind_ok (P := atomic limit expr) h1 rfl
    obtain ⟨k2, xs, h5, h6⟩ := bind_ok (P := many0 (atomic limit expr)) h4 rfl
    cases h6
    obtain ⟨rfl, h7⟩ := sound_atomic he _ _ _ _ h3
    obtain ⟨h8, h9⟩ := sound_loop (sound_atomic he) _ _ _ _ _ h5
    cases xs with
    | nil =>
      cases h2
      exact ⟨h8, _, .cons h7 h9, rfl⟩
    | cons y ys =>
      cases h2
      exact ⟨h8, _, .cons h7 h9, rfl⟩
  · cases h
    exact ⟨rfl, [], .nil _, rfl⟩
  · cases h
  · cases h
  · cases h

/-- The rest of a list of alternatives. -/
def Others (E : Str → Str → Ast → Prop) (s j : Str) (l : List Ast) : Prop := (l = [] ∧ j = s) ∨ ∃ m, s = '|' :: m ∧ Alternatives E m j l

theorem alternatives_others {s m j : Str} {l k : List Ast} (h : Atoms E s m l) (ho : Others E m j k) :
    Alternatives E s j (joined l :: k) := by
  rcases ho with ⟨rfl, rfl⟩ | ⟨m', rfl, h'⟩
  · exact .last h
  · exact .cons h h'

theorem sound_sep {limit : Nat} (he : Sound expr E) (n : Nat) : Sound (sepLoop (tag ['|']) (opt (concatExpression limit expr)) n)
    (fun s j l => Others E s j (l.map fun c => c.getD Ast.empty)) := by
  induction n with
  | zero => intro s d i a h; cases h
  | succ n ih =>
    intro s d i l h
    unfold sepLoop at h
    split at h
    · rename_i j _ hp
      obtain ⟨rfl, h1⟩ := (exact_tag ['|']).ok hp
      split at h
      · cases h
      · split at h
        · rename_i k a hq
          obtain ⟨h2, l1, h3, h4⟩ := sound_concat he _ _ _ _ hq
          obtain ⟨k', l', h5, h6⟩ := bind_ok (P := sepLoop (tag ['|']) (opt (concatExpression limit expr)) n) (Q := fun l => pure (a :: l)) h rfl
          cases h6
          obtain ⟨h7, h8⟩ := ih _ _ _ _ h5
          refine ⟨h7.trans h2, .inr ⟨_, h1, ?_⟩⟩
          rw [List.map_cons, h4]
          exact alternatives_others h3 h8
        · cases h
          exact ⟨rfl, .inl ⟨rfl, rfl⟩⟩
        · cases h
        · cases h
        · cases h
    · cases h
      exact ⟨rfl, .inl ⟨rfl, rfl⟩⟩
    · cases h
    · cases h
    · cases h

theorem sound_alternate {limit : Nat} (he : Sound expr E) : Sound (alternateExpression limit expr)
    (fun s j a => ∃ l, Alternatives E s j l ∧ a = chosen l) := by
  intro s d i a h
  obtain ⟨k, l, h1, h2⟩ := bind_ok (P := separatedList1 (tag ['|']) (opt (concatExpression limit expr))) h rfl
  obtain ⟨k1, x, h3, h4⟩ := bind_ok (P := opt (concatExpression limit expr)) h1 rfl
  obtain ⟨k2, xs, h5, h6⟩ := bind_ok (P := fun i => sepLoop (tag ['|']) (opt (concatExpression limit expr)) (blen i.value + 1) i) h4 rfl
  cases h6
  obtain ⟨rfl, l1, h7, h8⟩ := sound_concat he _ _ _ _ h3
  obtain ⟨h9, h10⟩ := sound_sep he _ _ _ _ _ h5
  have := alternatives_others h7 h10
  rw [← h8] at this
  cases xs with
  | nil =>
    cases h2
    exact ⟨h9, _, this, rfl⟩
  | cons y ys =>
    cases h2
    exact ⟨h9, _, this, rfl⟩

end

theorem sound_expression (limit f : Nat) : Sound (expression limit f) (Expr f) := by
  induction f with
  | zero => intro s d i a h; cases h
  | succ f ih => exact sound_alternate ih

end Sds.Re.Gram
