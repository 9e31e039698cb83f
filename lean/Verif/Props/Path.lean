import Verif.Spec.Path
import Verif.Lemmas.Validation
import Verif.Lemmas.Utf8

/-! # C57, C58: paths -/

namespace Sds.Props
open Sds Spec

/-! ## C57 -/

/-- C57 fails: a field name with a dot is displayed like two fields, a field name with brackets like an index, and
an empty field name like the root. -/
theorem C57_displayed_paths_collide :
    displayPath [.field "a.b".toList] = displayPath [.field "a".toList, .field "b".toList] ∧
    displayPath [.field "a[0]".toList] = displayPath [.field "a".toList, .index 0] ∧
    displayPath [.field []] = displayPath [] := by decide

private theorem split_unique {P : Char → Prop} {a b x y : Str} (ha : ∀ c ∈ a, ¬ P c) (hb : ∀ c ∈ b, ¬ P c)
    (hx : ∀ c, x.head? = some c → P c) (hy : ∀ c, y.head? = some c → P c) (h : a ++ x = b ++ y) : a = b ∧ x = y := by
  induction a generalizing b with
  | nil =>
    cases b with
    | nil => exact ⟨rfl, h⟩
    | cons c b =>
      simp only [List.nil_append] at h
      rw [h] at hx
      exact absurd (hx c rfl) (hb c List.mem_cons_self)
  | cons d a ih =>
    cases b with
    | nil =>
      simp only [List.nil_append] at h
      rw [← h] at hy
      exact absurd (hy d rfl) (ha d List.mem_cons_self)
    | cons c b =>
      simp only [List.cons_append, List.cons.injEq] at h
      obtain ⟨h1, h2⟩ := ih (fun c hc => ha c (List.mem_cons_of_mem _ hc)) (fun c hc => hb c (List.mem_cons_of_mem _ hc)) h.2
      exact ⟨by rw [h.1, h1], h2⟩

private theorem digits_inj {i j : Nat} (h : Nat.toDigits 10 i = Nat.toDigits 10 j) : i = j := by
  have := congrArg (fun l => Nat.ofDigitChars 10 l 0) h
  simpa [Nat.ofDigitChars_ten_toDigits] using this

private theorem digits_no_bracket (i : Nat) : ∀ c ∈ Nat.toDigits 10 i, ¬ c = ']' := by
  intro c hc h
  have := Nat.isDigit_of_mem_toDigits (by decide) (by decide) hc
  rw [h] at this
  revert this
  decide

private theorem head_display (p : Path) : ∀ c, (displayFrom false p).head? = some c → c = '.' ∨ c = '[' := by
  intro c h
  cases p with
  | nil => simp [displayFrom] at h
  | cons s p =>
    cases s with
    | field f => simp [displayFrom] at h; exact Or.inl h.symm
    | index i => simp [displayFrom] at h; exact Or.inr h.symm

private def Clean (p : Path) : Prop := ∀ f, Seg.field f ∈ p → '.' ∉ f ∧ '[' ∉ f

private theorem clean_tail {s : Seg} {p : Path} (h : Clean (s :: p)) : Clean p :=
  fun f hf => h f (List.mem_cons_of_mem _ hf)

private theorem clean_head {f : Str} {p : Path} (h : Clean (.field f :: p)) : ∀ c ∈ f, ¬ (c = '.' ∨ c = '[') := by
  intro c hc he
  have := h f List.mem_cons_self
  rcases he with rfl | rfl
  · exact this.1 hc
  · exact this.2 hc

private theorem display_index {i j : Nat} {x y : Str}
    (h : Nat.toDigits 10 i ++ ']' :: x = Nat.toDigits 10 j ++ ']' :: y) : i = j ∧ x = y := by
  obtain ⟨h1, h2⟩ := split_unique (P := fun c => c = ']') (digits_no_bracket i) (digits_no_bracket j)
    (by intro c hc; simpa using hc.symm) (by intro c hc; simpa using hc.symm) h
  exact ⟨digits_inj h1, (List.cons.inj h2).2⟩

private theorem displayFrom_inj : ∀ {p q : Path}, Clean p → Clean q → displayFrom false p = displayFrom false q → p = q
  | [], [], _, _, _ => rfl
  | [], .field f :: q, _, _, h => by simp [displayFrom] at h
  | [], .index i :: q, _, _, h => by simp [displayFrom] at h
  | .field f :: p, [], _, _, h => by simp [displayFrom] at h
  | .index i :: p, [], _, _, h => by simp [displayFrom] at h
  | .field f :: p, .index i :: q, _, _, h => by simp [displayFrom] at h
  | .index i :: p, .field f :: q, _, _, h => by simp [displayFrom] at h
  | .field f :: p, .field g :: q, hp, hq, h => by
    simp only [displayFrom, Bool.false_eq_true, if_false, List.cons_append, List.nil_append, List.cons.injEq,
      true_and] at h
    obtain ⟨h1, h2⟩ := split_unique (clean_head hp) (clean_head hq) (head_display p) (head_display q) h
    rw [h1, displayFrom_inj (clean_tail hp) (clean_tail hq) h2]
  | .index i :: p, .index j :: q, hp, hq, h => by
    simp only [displayFrom, List.cons.injEq, true_and] at h
    obtain ⟨h1, h2⟩ := display_index h
    rw [h1, displayFrom_inj (clean_tail hp) (clean_tail hq) h2]

private theorem first_field {f : Str} {x y : Str} (hf : f ≠ []) (hc : ∀ c ∈ f, ¬ (c = '.' ∨ c = '['))
    (hy : ∀ c, y.head? = some c → c = '.' ∨ c = '[') : f ++ x ≠ y := by
  intro h
  cases f with
  | nil => exact hf rfl
  | cons c f =>
    rw [← h] at hy
    exact hc c List.mem_cons_self (hy c rfl)

private theorem display_nonfield {p : Path} (h : ∀ f q, p ≠ .field f :: q) : displayPath p = displayFrom false p := by
  cases p with
  | nil => rfl
  | cons s p =>
    cases s with
    | field f => exact absurd rfl (h f p)
    | index i => rfl

/-- C57 for plain paths: without dots and brackets in field names, and without an empty first field name, different
paths are displayed differently.  Missing from the full claim: other field names, where it is false. -/
theorem C57_displayed_paths_distinct_partial (p q : Path) (hp : PlainPath p) (hq : PlainPath q)
    (h : displayPath p = displayPath q) : p = q := by
  by_cases h1 : ∃ f r, p = .field f :: r
  · obtain ⟨f, r, rfl⟩ := h1
    have hf : f ≠ [] := fun e => hp.2 (by rw [e]; rfl)
    by_cases h2 : ∃ g s, q = .field g :: s
    · obtain ⟨g, s, rfl⟩ := h2
      simp only [displayPath, displayFrom, if_true, List.nil_append] at h
      obtain ⟨h3, h4⟩ := split_unique (clean_head hp.1) (clean_head hq.1) (head_display r) (head_display s) h
      rw [h3, displayFrom_inj (clean_tail hp.1) (clean_tail hq.1) h4]
    · rw [display_nonfield (p := q) (fun g s e => h2 ⟨g, s, e⟩)] at h
      simp only [displayPath, displayFrom, if_true, List.nil_append] at h
      exact absurd h (first_field hf (clean_head hp.1) (head_display q))
  · rw [display_nonfield (p := p) (fun f r e => h1 ⟨f, r, e⟩)] at h
    by_cases h2 : ∃ g s, q = .field g :: s
    · obtain ⟨g, s, rfl⟩ := h2
      have hg : g ≠ [] := fun e => hq.2 (by rw [e]; rfl)
      simp only [displayPath, displayFrom, if_true, List.nil_append] at h
      exact absurd h.symm (first_field hg (clean_head hq.1) (head_display p))
    · rw [display_nonfield (p := q) (fun g s e => h2 ⟨g, s, e⟩)] at h
      exact displayFrom_inj hp.1 hq.1 h

example : PlainPath [.field "a".toList, .index 10, .field []] ∧
    displayPath [.field "a".toList, .index 10, .field []] = "a[10].".toList := by
  refine ⟨⟨fun f hf => ?_, by decide⟩, by decide +kernel⟩
  simp only [List.mem_cons, Seg.field.injEq, List.not_mem_nil, or_false, reduceCtorEq, false_or] at hf
  rcases hf with rfl | rfl <;> decide

/-! ## C58 -/

private theorem allEqual_iff : ∀ {pre p : Path}, pre.length ≤ p.length →
    (allEqual (List.zip pre p) = true ↔ InitialPart pre p)
  | [], p, _ => by simp [allEqual, InitialPart]
  | a :: pre, [], h => by simp at h
  | a :: pre, b :: p, h => by
    have ih := allEqual_iff (pre := pre) (p := p) (by simpa using h)
    simp only [List.zip_cons_cons, allEqual]
    by_cases e : a = b
    · subst e
      simp only [ne_eq, not_true_eq_false, if_false, ih, InitialPart, List.cons_append, List.cons.injEq, true_and]
    · simp only [ne_eq, e, not_false_eq_true, if_true, Bool.false_eq_true, false_iff]
      rintro ⟨rest, hr⟩
      simp only [List.cons_append, List.cons.injEq] at hr
      exact e hr.1.symm

/-- C58: `starts_with` holds exactly if the prefix is an initial part of the path. -/
theorem C58_starts_with (p pre : Path) : p.startsWith pre = true ↔ InitialPart pre p := by
  unfold Path.startsWith
  split
  · next h =>
    simp only [Bool.false_eq_true, false_iff]
    rintro ⟨rest, rfl⟩
    simp at h
    omega
  · next h => exact allEqual_iff (by omega)

/-- C58: `starts_with` is a partial order. -/
theorem C58_starts_with_order (p q r : Path) :
    p.startsWith p = true ∧
    (p.startsWith q = true → q.startsWith p = true → p = q) ∧
    (p.startsWith q = true → q.startsWith r = true → p.startsWith r = true) := by
  simp only [C58_starts_with]
  refine ⟨⟨[], by simp⟩, ?_, ?_⟩
  · rintro ⟨a, rfl⟩ ⟨b, hb⟩
    have := congrArg List.length hb
    simp only [List.length_append] at this
    have : a = [] := List.eq_nil_of_length_eq_zero (by omega)
    rw [this, List.append_nil]
  · rintro ⟨a, rfl⟩ ⟨b, rfl⟩
    exact ⟨b ++ a, by rw [List.append_assoc]⟩

example : Path.startsWith [.field "a".toList, .index 3] [.field "a".toList] = true ∧
    Path.startsWith [.field "a".toList] [.field "a".toList, .index 3] = false ∧
    Path.startsWith [.field "ab".toList] [.field "a".toList] = false := by decide

private theorem segLt_irrefl (s : Seg) : segLt s s = false := by
  cases s <;> simp [segLt, strLt_irrefl]

private theorem segLt_trans {a b c : Seg} (h : segLt a b = true) (h' : segLt b c = true) : segLt a c = true := by
  cases a <;> cases b <;> cases c <;> simp only [segLt, Bool.false_eq_true, decide_eq_true_eq] at h h' ⊢
  · exact strLt_trans h h'
  · omega

private theorem segLt_tri (a b : Seg) : segLt a b = true ∨ a = b ∨ segLt b a = true := by
  cases a with
  | field f =>
    cases b with
    | field g => simpa [segLt] using strLt_tri f g
    | index j => simp [segLt]
  | index i =>
    cases b with
    | field g => simp [segLt]
    | index j => simp [segLt]; omega

/-- C58: the derived comparison of paths is a total order that is consistent with equality. -/
theorem C58_path_order : StrictOrder (fun p q : Path => pathLt p q = true) where
  irrefl p := by
    induction p with
    | nil => simp [pathLt]
    | cons s p ih => simpa [pathLt, segLt_irrefl] using ih
  trans p q r := by
    intro h h'
    induction q generalizing p r with
    | nil => cases p <;> simp [pathLt] at h
    | cons b q ih =>
      cases r with
      | nil => simp [pathLt] at h'
      | cons c r =>
        cases p with
        | nil => simp [pathLt]
        | cons a p =>
          simp only [pathLt, Bool.or_eq_true, Bool.and_eq_true, beq_iff_eq] at h h' ⊢
          rcases h with h | ⟨rfl, h⟩
          · rcases h' with h' | ⟨rfl, h'⟩
            · exact Or.inl (segLt_trans h h')
            · exact Or.inl h
          · rcases h' with h' | ⟨rfl, h'⟩
            · exact Or.inl h'
            · exact Or.inr ⟨rfl, ih p r h h'⟩
  total p q := by
    induction p generalizing q with
    | nil => cases q <;> simp [pathLt]
    | cons a p ih =>
      cases q with
      | nil => simp [pathLt]
      | cons b q =>
        simp only [pathLt, Bool.or_eq_true, Bool.and_eq_true, beq_iff_eq, List.cons.injEq]
        rcases segLt_tri a b with h | rfl | h
        · exact Or.inl (Or.inl h)
        · rcases ih q with h | rfl | h
          · exact Or.inl (Or.inr ⟨rfl, h⟩)
          · exact Or.inr (Or.inl ⟨rfl, rfl⟩)
          · exact Or.inr (Or.inr (Or.inr ⟨rfl, h⟩))
        · exact Or.inr (Or.inr (Or.inl h))

example : pathLt [.field "a".toList] [.field "a".toList, .index 0] = true ∧
    pathLt [.field "z".toList] [.index 0] = true ∧ pathLt [.index 2] [.index 10] = true := by decide

private theorem bytesLt_same (c x y : List Nat) : bytesLt (c ++ x) (c ++ y) ↔ bytesLt x y := by
  induction c with
  | nil => rfl
  | cons a c ih => simp [bytesLt, ih]

private theorem bytesLt_asymm : ∀ {a b : List Nat}, bytesLt a b → ¬ bytesLt b a
  | _, [], h => by simp [bytesLt] at h
  | [], _ :: _, _ => by simp [bytesLt]
  | a :: as, b :: bs, h => by
    simp only [bytesLt] at h ⊢
    rintro (h' | ⟨h', h2⟩)
    · rcases h with h | ⟨h, _⟩ <;> omega
    · rcases h with h | ⟨_, h⟩
      · omega
      · exact bytesLt_asymm h h2

private theorem bytesLt_char {a b : Char} (h : a.toNat < b.toNat) (x y : List Nat) :
    bytesLt (utf8Char a ++ x) (utf8Char b ++ y) := by
  have hb : b.toNat < 0x110000 := by
    have := char_range b
    omega
  unfold utf8Char
  dsimp only
  generalize a.toNat = m at *
  generalize b.toNat = n at *
  split <;> split
  all_goals (try split) <;> (try split) <;> (try split) <;> (try split)
  all_goals simp only [List.cons_append, List.nil_append, bytesLt]
  all_goals omega

/-- The order of code points, which the model uses for field names, is the order of the UTF-8 bytes, which Rust
uses. -/
theorem C58_strings_compare_by_bytes (a b : Str) : strLt a b = true ↔ bytesLt (utf8 a) (utf8 b) := by
  induction a generalizing b with
  | nil =>
    cases b with
    | nil => simp [strLt, utf8, bytesLt]
    | cons d b =>
      simp only [strLt, utf8, true_iff]
      have h : utf8Char d ≠ [] := by
        intro e
        have := utf8Char_length d
        rw [e] at this
        have := Char.utf8Size_pos d
        simp at *
        omega
      cases hc : utf8Char d with
      | nil => exact absurd hc h
      | cons x xs => trivial
  | cons c a ih =>
    cases b with
    | nil => simp [strLt, utf8, bytesLt]
    | cons d b =>
      simp only [strLt, utf8, Bool.or_eq_true, decide_eq_true_eq, Bool.and_eq_true, beq_iff_eq]
      rcases Nat.lt_trichotomy c.toNat d.toNat with h | h | h
      · exact ⟨fun _ => bytesLt_char h _ _, fun _ => Or.inl h⟩
      · have : c = d := Char.ext (UInt32.toNat_inj.1 h)
        subst this
        rw [bytesLt_same, ← ih]
        simp
      · constructor
        · rintro (h' | ⟨h', _⟩) <;> omega
        · intro h'
          have hlt := bytesLt_char h (utf8 b) (utf8 a)
          exact absurd hlt (bytesLt_asymm h')

end Sds.Props
