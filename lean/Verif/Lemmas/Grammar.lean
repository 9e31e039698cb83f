import Verif.Spec.Grammar
import Verif.Lemmas.Parser

/-! # The parts of the parser and the syntax -/

namespace Sds.Re.Gram
open Sds Sds.Spec.Syntax

variable {α β : Type}

/-- The parser does what the relation says: it reads exactly what the relation gives, which is unique, and reports an error
if the relation gives nothing.  Failures happen only on texts in `F`. -/
def Exact (P : Parser α) (G : Str → Str → α → Prop) (F : Str → Prop) : Prop := ∀ s d,
  (∃ j a, P ⟨s, d⟩ = .ok ⟨j, d⟩ a ∧ ∀ j' a', G s j' a' ↔ j' = j ∧ a' = a) ∨
  ((∃ e, P ⟨s, d⟩ = .err e) ∧ ∀ j a, ¬ G s j a) ∨
  ((∃ e, P ⟨s, d⟩ = .fail e) ∧ F s)

/-- No text. -/
def Never (_ : Str) : Prop := False

section
variable {P : Parser α} {G : Str → Str → α → Prop} {F : Str → Prop}

theorem Exact.congr (h : Exact P G F) {G' : Str → Str → α → Prop} (he : ∀ s j a, G' s j a ↔ G s j a) : Exact P G' F := by
  intro s d
  rcases h s d with ⟨j, a, h1, h2⟩ | ⟨h1, h2⟩ | h1
  · exact .inl ⟨j, a, h1, fun j' a' => (he _ _ _).trans (h2 _ _)⟩
  · exact .inr (.inl ⟨h1, fun j a hg => h2 j a ((he _ _ _).1 hg)⟩)
  · exact .inr (.inr h1)

theorem Exact.weaken (h : Exact P G F) {F' : Str → Prop} (he : ∀ s, F s → F' s) : Exact P G F' := by
  intro s d
  rcases h s d with h1 | h1 | ⟨h1, h2⟩
  · exact .inl h1
  · exact .inr (.inl h1)
  · exact .inr (.inr ⟨h1, he _ h2⟩)

theorem Exact.ok (h : Exact P G F) {s : Str} {d : Nat} {i : Input} {a : α} (he : P ⟨s, d⟩ = .ok i a) : i.depth = d ∧ G s i.value a := by
  rcases h s d with ⟨j, b, h1, h2⟩ | ⟨⟨e, h1⟩, _⟩ | ⟨⟨e, h1⟩, _⟩
  · rw [h1] at he
    cases he
    exact ⟨rfl, (h2 _ _).2 ⟨rfl, rfl⟩⟩
  · rw [h1] at he; cases he
  · rw [h1] at he; cases he

theorem Exact.err (h : Exact P G F) {s : Str} {d : Nat} {e : PErr} (he : P ⟨s, d⟩ = .err e) : ∀ j a, ¬ G s j a := by
  rcases h s d with ⟨j, b, h1, h2⟩ | ⟨_, h1⟩ | ⟨⟨e, h1⟩, _⟩
  · rw [h1] at he; cases he
  · exact h1
  · rw [h1] at he; cases he

theorem Exact.run (h : Exact P G F) {s j : Str} {a : α} (hg : G s j a) (hf : ¬ F s) (d : Nat) : P ⟨s, d⟩ = .ok ⟨j, d⟩ a := by
  rcases h s d with ⟨j', b, h1, h2⟩ | ⟨_, h1⟩ | ⟨_, h1⟩
  · obtain ⟨rfl, rfl⟩ := (h2 _ _).1 hg
    exact h1
  · exact absurd hg (h1 _ _)
  · exact absurd h1 hf

theorem Exact.errs (h : Exact P G F) {s : Str} (hg : ∀ j a, ¬ G s j a) (hf : ¬ F s) (d : Nat) : ∃ e, P ⟨s, d⟩ = .err e := by
  rcases h s d with ⟨j', b, h1, h2⟩ | ⟨h1, _⟩ | ⟨_, h1⟩
  · exact absurd ((h2 _ _).2 ⟨rfl, rfl⟩) (hg _ _)
  · exact h1
  · exact absurd h1 hf

theorem Exact.unique (h : Exact P G F) {s j j' : Str} {a a' : α} (hf : ¬ F s) (h1 : G s j a) (h2 : G s j' a') : j' = j ∧ a' = a := by
  have e1 := h.run h1 hf 0
  have e2 := h.run h2 hf 0
  rw [e1] at e2
  cases e2
  exact ⟨rfl, rfl⟩

theorem exact_pure (a : α) : Exact (pure a : Parser α) (fun s j b => j = s ∧ b = a) Never :=
  fun s d => .inl ⟨s, a, rfl, fun _ _ => Iff.rfl⟩

theorem exact_error : Exact (error .invalidSyntax : Parser α) (fun _ _ _ => False) Never :=
  fun _ _ => .inr (.inl ⟨⟨_, rfl⟩, fun _ _ h => h⟩)

theorem exact_bind (hP : Exact P G F) {Q : α → Parser β} {H : α → Str → Str → β → Prop} {F' : α → Str → Prop}
    (hQ : ∀ a, Exact (Q a) (H a) (F' a)) :
    Exact (P >>= Q) (fun s j b => ∃ m a, G s m a ∧ H a m j b) (fun s => F s ∨ ∃ m a, G s m a ∧ F' a m) := by
  intro s d
  show (∃ j b, Parser.bind P Q ⟨s, d⟩ = _ ∧ _) ∨ ((∃ e, Parser.bind P Q ⟨s, d⟩ = _) ∧ _) ∨ ((∃ e, Parser.bind P Q ⟨s, d⟩ = _) ∧ _)
  unfold Parser.bind
  rcases hP s d with ⟨m, a, h1, h2⟩ | ⟨⟨e, h1⟩, h2⟩ | ⟨⟨e, h1⟩, h2⟩
  · rw [h1]
    dsimp only
    rcases hQ a m d with ⟨j, b, h3, h4⟩ | ⟨⟨e, h3⟩, h4⟩ | ⟨⟨e, h3⟩, h4⟩
    · refine .inl ⟨j, b, h3, fun j' b' => ?_⟩
      rw [← h4]
      constructor
      · rintro ⟨m', a', hg, hh⟩
        obtain ⟨rfl, rfl⟩ := (h2 _ _).1 hg
        exact hh
      · intro hh
        exact ⟨m, a, (h2 _ _).2 ⟨rfl, rfl⟩, hh⟩
    · refine .inr (.inl ⟨⟨e, h3⟩, ?_⟩)
      rintro j b ⟨m', a', hg, hh⟩
      obtain ⟨rfl, rfl⟩ := (h2 _ _).1 hg
      exact h4 _ _ hh
    · exact .inr (.inr ⟨⟨e, h3⟩, .inr ⟨m, a, (h2 _ _).2 ⟨rfl, rfl⟩, h4⟩⟩)
  · rw [h1]
    refine .inr (.inl ⟨⟨e, rfl⟩, ?_⟩)
    rintro j b ⟨m', a', hg, _⟩
    exact h2 _ _ hg
  · rw [h1]
    exact .inr (.inr ⟨⟨e, rfl⟩, .inl h2⟩)

/-- A first parser that never fails, and then one that never fails. -/
theorem exact_then (hP : Exact P G Never) {Q : α → Parser β} {H : α → Str → Str → β → Prop}
    (hQ : ∀ a, Exact (Q a) (H a) Never) : Exact (P >>= Q) (fun s j b => ∃ m a, G s m a ∧ H a m j b) Never :=
  (exact_bind hP hQ).weaken (by rintro s (h | ⟨_, _, _, h⟩) <;> exact h.elim)

theorem exact_or (hP : Exact P G F) {Q : Parser α} {H : Str → Str → α → Prop} {F' : Str → Prop} (hQ : Exact Q H F') :
    Exact (Parser.orElse P Q) (fun s j a => G s j a ∨ ((∀ k b, ¬ G s k b) ∧ H s j a))
      (fun s => F s ∨ ((∀ k b, ¬ G s k b) ∧ F' s)) := by
  intro s d
  unfold Parser.orElse
  rcases hP s d with ⟨m, a, h1, h2⟩ | ⟨⟨e, h1⟩, h2⟩ | ⟨⟨e, h1⟩, h2⟩
  · rw [h1]
    refine .inl ⟨m, a, rfl, fun j' a' => ?_⟩
    constructor
    · rintro (h | ⟨h, _⟩)
      · exact (h2 _ _).1 h
      · exact absurd ((h2 _ _).2 ⟨rfl, rfl⟩) (h _ _)
    · exact fun h => .inl ((h2 _ _).2 h)
  · rw [h1]
    dsimp only
    rcases hQ s d with ⟨j, b, h3, h4⟩ | ⟨h3, h4⟩ | ⟨h3, h4⟩
    · refine .inl ⟨j, b, h3, fun j' a' => ?_⟩
      constructor
      · rintro (h | ⟨_, h⟩)
        · exact absurd h (h2 _ _)
        · exact (h4 _ _).1 h
      · exact fun h => .inr ⟨h2, (h4 _ _).2 h⟩
    · refine .inr (.inl ⟨h3, ?_⟩)
      rintro j a (h | ⟨_, h⟩)
      · exact h2 _ _ h
      · exact h4 _ _ h
    · exact .inr (.inr ⟨h3, .inr ⟨h2, h4⟩⟩)
  · rw [h1]
    exact .inr (.inr ⟨⟨e, rfl⟩, .inl h2⟩)

/-- Alternatives that exclude each other. -/
theorem exact_either (hP : Exact P G F) {Q : Parser α} {H : Str → Str → α → Prop} {F' : Str → Prop} (hQ : Exact Q H F')
    (hd : ∀ s j a j' a', G s j a → ¬ H s j' a') :
    Exact (Parser.orElse P Q) (fun s j a => G s j a ∨ H s j a) (fun s => F s ∨ F' s) :=
  ((exact_or hP hQ).weaken fun s h => h.imp id And.right).congr fun s j a => by
    constructor
    · rintro (h | h)
      · exact .inl h
      · exact .inr ⟨fun k b hg => hd _ _ _ _ _ hg h, h⟩
    · rintro (h | ⟨_, h⟩)
      · exact .inl h
      · exact .inr h

theorem exact_tag (t : Str) : Exact (tag t) (fun s j _ => s = t ++ j) Never := by
  intro s d
  unfold tag
  cases h : stripPrefix t s with
  | some r =>
    refine .inl ⟨r, (), by simp only [h], fun j _ => ?_⟩
    rw [stripPrefix_eq h]
    constructor
    · intro e; exact ⟨(List.append_cancel_left e).symm, rfl⟩
    · rintro ⟨rfl, _⟩; rfl
  | none =>
    refine .inr (.inl ⟨⟨_, by simp only [h]; rfl⟩, fun j _ e => ?_⟩)
    rw [e, stripPrefix_append] at h
    cases h

theorem exact_tagged (t : Str) (a : α) : Exact (tagged t a) (fun s j b => s = t ++ j ∧ b = a) Never :=
  (exact_then (exact_tag t) (fun _ => exact_pure a)).congr fun s j b => by
    constructor
    · rintro ⟨rfl, rfl⟩; exact ⟨j, (), rfl, rfl, rfl⟩
    · rintro ⟨m, _, rfl, rfl, rfl⟩; exact ⟨rfl, rfl⟩

/-- A table of texts, none of which is the beginning of another. -/
def PrefixFree (l : List Str) : Prop := l.Pairwise fun a b => ¬ a <+: b ∧ ¬ b <+: a

instance (l : List Str) : Decidable (PrefixFree l) := inferInstanceAs (Decidable (l.Pairwise _))

theorem prefix_of_append {a b j k : Str} (h : a ++ j = b ++ k) : a <+: b ∨ b <+: a := by
  rcases List.append_eq_append_iff.1 h with ⟨c, h1, _⟩ | ⟨c, h1, _⟩
  · exact .inl ⟨c, h1.symm⟩
  · exact .inr ⟨c, h1.symm⟩

theorem exact_table (t : Str) (a : α) (l : List (Str × α)) (h : PrefixFree (t :: l.map (·.1))) :
    Exact (alt (tagged t a) (l.map fun x => tagged x.1 x.2)) (fun s j b => ∃ x ∈ (t, a) :: l, s = x.1 ++ j ∧ b = x.2) Never := by
  induction l generalizing t a with
  | nil => exact (exact_tagged t a).congr fun s j b => by simp
  | cons x l ih =>
    obtain ⟨h1, h2⟩ := List.pairwise_cons.1 h
    refine ((exact_either (exact_tagged t a) (ih x.1 x.2 h2) ?_).weaken (by rintro s (h | h) <;> exact h)).congr fun s j b => ?_
    · rintro s j b k c ⟨rfl, _⟩ ⟨y, hy, he, _⟩
      have := h1 y.1 (List.mem_map_of_mem (f := (·.1)) (l := x :: l) hy)
      rcases prefix_of_append he with h | h
      · exact this.1 h
      · exact this.2 h
    · simp

theorem exact_table_then (t : Str) (a : α) (l : List (Str × α)) (h : PrefixFree (t :: l.map (·.1))) {Q : Parser α}
    {H : Str → Str → α → Prop} {F : Str → Prop} (hQ : Exact Q H F) (hd : ∀ x ∈ (t, a) :: l, ∀ j k b, ¬ H (x.1 ++ j) k b) :
    Exact (alt (tagged t a) (l.map (fun x => tagged x.1 x.2) ++ [Q]))
      (fun s j b => (∃ x ∈ (t, a) :: l, s = x.1 ++ j ∧ b = x.2) ∨ H s j b) F := by
  induction l generalizing t a with
  | nil =>
    refine ((exact_either (exact_tagged t a) hQ ?_).weaken (fun _ h => h.elim (fun x => False.elim x) id)).congr fun s j b => by simp
    rintro s j b k c ⟨rfl, rfl⟩ hh
    exact hd (t, b) (by simp) _ _ _ hh
  | cons x l ih =>
    obtain ⟨h1, h2⟩ := List.pairwise_cons.1 h
    refine ((exact_either (exact_tagged t a) (ih x.1 x.2 h2 fun y hy => hd y (by simp at hy ⊢; exact .inr hy)) ?_).weaken (fun _ h => h.elim (fun x => False.elim x) id)).congr fun s j b => ?_
    · rintro s j b k c ⟨rfl, _⟩ (⟨y, hy, he, _⟩ | hh)
      · have := h1 y.1 (List.mem_map_of_mem (f := (·.1)) (l := x :: l) hy)
        rcases prefix_of_append he with h | h
        · exact this.1 h
        · exact this.2 h
      · exact hd (t, a) (by simp) _ _ _ hh
    · simp [or_assoc]

theorem exact_satisfy (f : Char → Bool) : Exact (satisfy f) (fun s j c => s = c :: j ∧ f c = true) Never := by
  intro s d
  unfold satisfy
  cases s with
  | nil => exact .inr (.inl ⟨⟨_, rfl⟩, fun j c h => by cases h.1⟩)
  | cons c s =>
    dsimp only
    by_cases h : f c = true
    · refine .inl ⟨s, c, by rw [if_pos h], fun j c' => ?_⟩
      constructor
      · rintro ⟨e, _⟩; cases e; exact ⟨rfl, rfl⟩
      · rintro ⟨rfl, rfl⟩; exact ⟨rfl, h⟩
    · refine .inr (.inl ⟨⟨_, by rw [if_neg h]⟩, fun j c' => ?_⟩)
      rintro ⟨e, h'⟩
      cases e
      exact h h'

theorem exact_oneOf (l : Str) : Exact (oneOf l) (fun s j c => s = c :: j ∧ c ∈ l) Never :=
  (exact_satisfy _).congr fun s j c => by simp

theorem exact_noneOf (l : Str) : Exact (noneOf l) (fun s j c => s = c :: j ∧ c ∉ l) Never :=
  (exact_satisfy _).congr fun s j c => by simp

theorem exact_opt (hP : Exact P G F) :
    Exact (opt P) (fun s j o => (∃ a, o = some a ∧ G s j a) ∨ (o = none ∧ j = s ∧ ∀ k b, ¬ G s k b)) F := by
  intro s d
  unfold opt
  rcases hP s d with ⟨m, a, h1, h2⟩ | ⟨⟨e, h1⟩, h2⟩ | ⟨⟨e, h1⟩, h2⟩
  · rw [h1]
    refine .inl ⟨m, some a, rfl, fun j' o => ?_⟩
    constructor
    · rintro (⟨a', rfl, h⟩ | ⟨_, _, h⟩)
      · obtain ⟨rfl, rfl⟩ := (h2 _ _).1 h
        exact ⟨rfl, rfl⟩
      · exact absurd ((h2 _ _).2 ⟨rfl, rfl⟩) (h _ _)
    · rintro ⟨rfl, rfl⟩
      exact .inl ⟨a, rfl, (h2 _ _).2 ⟨rfl, rfl⟩⟩
  · rw [h1]
    refine .inl ⟨s, none, rfl, fun j' o => ?_⟩
    constructor
    · rintro (⟨a', rfl, h⟩ | ⟨rfl, rfl, _⟩)
      · exact absurd h (h2 _ _)
      · exact ⟨rfl, rfl⟩
    · rintro ⟨rfl, rfl⟩
      exact .inr ⟨rfl, rfl, h2⟩
  · rw [h1]
    exact .inr (.inr ⟨⟨e, rfl⟩, h2⟩)

end

end Sds.Re.Gram
