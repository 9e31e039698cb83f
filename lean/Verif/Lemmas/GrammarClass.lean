import Verif.Lemmas.GrammarLeaves
import Verif.Lemmas.RustSyntax

/-! # Literals and classes of the parser and the syntax -/

namespace Sds.Re.Gram
open Sds Sds.Spec.Syntax

variable {α β : Type}

/-! ## Quotations -/

theorem splitBefore_some {t s a b : Str} (h : splitBefore t s = some (a, b)) :
    s = a ++ b ∧ t <+: b ∧ ∀ a' b', s = a' ++ b' → t <+: b' → a.length ≤ a'.length := by
  induction s generalizing a b with
  | nil =>
    unfold splitBefore at h
    split at h
    · rename_i ht
      cases h
      subst ht
      exact ⟨rfl, List.nil_prefix, fun a' b' _ _ => Nat.zero_le _⟩
    · cases h
  | cons c s ih =>
    unfold splitBefore at h
    split at h
    · rename_i hs
      cases h
      refine ⟨rfl, ?_, fun a' b' _ _ => Nat.zero_le _⟩
      obtain ⟨r, hr⟩ := Option.isSome_iff_exists.1 hs
      exact ⟨r, (stripPrefix_eq hr).symm⟩
    · rename_i hs
      split at h
      · rename_i a0 b0 he
        cases h
        obtain ⟨h1, h2, h3⟩ := ih he
        refine ⟨by rw [h1]; rfl, h2, ?_⟩
        intro a' b' he' hp
        cases a' with
        | nil =>
          obtain ⟨r, rfl⟩ := hp
          simp only [List.nil_append] at he'
          rw [he', stripPrefix_append] at hs
          exact absurd rfl hs
        | cons x a' =>
          simp only [List.cons_append, List.cons.injEq] at he'
          have := h3 a' b' he'.2 hp
          simpa using this
      · cases h

theorem splitBefore_none {t s : Str} (h : splitBefore t s = none) {a b : Str} (he : s = a ++ b) : ¬ t <+: b := by
  induction s generalizing a b with
  | nil =>
    unfold splitBefore at h
    split at h
    · cases h
    · rename_i ht
      obtain ⟨rfl, rfl⟩ := List.append_eq_nil_iff.1 he.symm
      intro hp
      exact ht (List.prefix_nil.1 hp)
  | cons c s ih =>
    unfold splitBefore at h
    split at h
    · cases h
    · rename_i hs
      split at h
      · cases h
      · rename_i hn
        intro hp
        cases a with
        | nil =>
          obtain ⟨r, rfl⟩ := hp
          simp only [List.nil_append] at he
          rw [he, stripPrefix_append] at hs
          exact absurd rfl hs
        | cons x a =>
          simp only [List.cons_append, List.cons.injEq] at he
          exact ih hn he.2 hp

/-- The text before the first occurrence of `t`. -/
def Until (t s j a : Str) : Prop := s = a ++ j ∧ t <+: j ∧ ∀ a' j', s = a' ++ j' → t <+: j' → a.length ≤ a'.length

theorem exact_takeUntil (t : Str) : Exact (takeUntil t) (fun s j a => Until t s j a) Never := by
  intro s d
  unfold takeUntil
  cases h : splitBefore t s with
  | none =>
    exact .inr (.inl ⟨⟨_, by simp only [h]; rfl⟩, fun j a hu => splitBefore_none h hu.1 hu.2.1⟩)
  | some x =>
    obtain ⟨a, b⟩ := x
    have hu : Until t s b a := splitBefore_some h
    refine .inl ⟨b, a, by simp only [h], fun j a' => ⟨fun hu' => ?_, ?_⟩⟩
    · have h1 := hu.2.2 a' j hu'.1 hu'.2.1
      have h2 := hu'.2.2 a b hu.1 hu.2.1
      have he : a' ++ j = a ++ b := hu'.1.symm.trans hu.1
      have := List.append_inj he (by omega)
      exact ⟨this.2, this.1⟩
    · rintro ⟨rfl, rfl⟩
      exact hu

theorem until_quoted {t j : Str} : Until ['\\', 'E'] (t ++ '\\' :: 'E' :: j) ('\\' :: 'E' :: j) t ↔
    ∀ a b, t ++ ['\\', 'E'] = a ++ '\\' :: 'E' :: b → a = t := by
  constructor
  · rintro ⟨_, _, h⟩ a b he
    have h1 := h a ('\\' :: 'E' :: (b ++ j)) (by
      have := congrArg (· ++ j) he
      simpa using this) ⟨b ++ j, rfl⟩
    have h2 := congrArg List.length he
    simp only [List.length_append, List.length_cons, List.length_nil] at h2
    exact (List.append_inj he (by omega)).1.symm
  · intro h
    refine ⟨rfl, ⟨j, rfl⟩, ?_⟩
    rintro a' j' he ⟨k, rfl⟩
    refine Nat.le_of_not_lt fun hlt => ?_
    have he' : (t ++ ['\\', 'E']) ++ j = (a' ++ ['\\', 'E']) ++ k := by simpa using he
    rcases List.append_eq_append_iff.1 he' with ⟨c, h1, _⟩ | ⟨c, h1, _⟩
    · have := congrArg List.length h1
      simp only [List.length_append, List.length_cons, List.length_nil] at this
      omega
    · have := h a' c (by simpa using h1)
      subst this
      omega

theorem exact_quoted : Exact quotedLiterals Quoted Never :=
  (exact_then (exact_tag ['\\', 'Q']) fun _ => exact_then (exact_takeUntil ['\\', 'E']) fun t =>
    exact_then (exact_tag ['\\', 'E']) fun _ => exact_pure t).congr fun s j t => by
    constructor
    · rintro ⟨_, _, h⟩
      exact ⟨_, (), rfl, _, t, until_quoted.2 h, j, (), rfl, rfl, rfl⟩
    · rintro ⟨m, _, rfl, m', t', h, m'', _, rfl, rfl, rfl⟩
      have := h.1
      subst this
      exact .mk t j (until_quoted.1 h)

theorem exact_quote : Exact quoteExpression (fun s j a => ∃ t, Quoted s j t ∧ a = joined (t.map fun c => .literal ⟨c, true⟩)) Never := by
  refine (exact_then exact_quoted (H := fun t s j a => j = s ∧ a = joined (t.map fun c => .literal ⟨c, true⟩)) fun t => ?_).congr
    fun s j a => ?_
  · dsimp only
    generalize t.map (fun c => Ast.literal ⟨c, true⟩) = l
    match l with
    | [] => exact exact_pure _
    | [a] => exact exact_pure _
    | _ :: _ :: _ => exact exact_pure _
  · constructor
    · rintro ⟨t, h, rfl⟩; exact ⟨j, t, h, rfl, rfl⟩
    · rintro ⟨m, t, h, rfl, rfl⟩; exact ⟨t, h, rfl⟩

/-! ## Unicode properties -/

theorem run_suffix {f : Char → Bool} {s j l : Str} (h : Run f s j l) : j <:+ s := ⟨l, h.1.symm⟩

theorem exact_propertyName : Exact unicodePropertyName
    (fun s j n => Run (fun c => decide (c ∈ asciiLettersUnderscore)) s j n ∧ n ∈ unicodePropertyNames.map String.toList) Never := by
  have hq : ∀ n : Str, Exact (if n ∈ unicodePropertyNames.map String.toList then pure n else error .invalidSyntax : Parser Str)
      (fun s j m => j = s ∧ m = n ∧ n ∈ unicodePropertyNames.map String.toList) Never := by
    intro n
    by_cases h : n ∈ unicodePropertyNames.map String.toList
    · rw [if_pos h]
      exact (exact_pure n).congr fun s j m => ⟨fun ⟨a, b, _⟩ => ⟨a, b⟩, fun ⟨a, b⟩ => ⟨a, b, h⟩⟩
    · rw [if_neg h]
      exact exact_error.congr fun s j m => ⟨fun ⟨_, _, c⟩ => h c, fun x => x.elim⟩
  refine (exact_then (exact_recognize (exact_run _) fun s j a h => run_suffix h) hq).congr fun s j n => ?_
  constructor
  · rintro ⟨h1, h2⟩
    exact ⟨j, n, ⟨h1.1, n, h1⟩, rfl, rfl, h2⟩
  · rintro ⟨m, n', ⟨h1, n'', h2⟩, rfl, rfl, h3⟩
    have := List.append_cancel_right (h1.symm.trans h2.1)
    subst this
    exact ⟨h2, h3⟩

theorem names_letters : ∀ n ∈ unicodePropertyNames, ∀ c ∈ n.toList, c ∈ asciiLettersUnderscore := by decide +kernel

theorem propertyName_iff {s j n : Str} : (Run (fun c => decide (c ∈ asciiLettersUnderscore)) s ('}' :: j) n ∧
    n ∈ unicodePropertyNames.map String.toList) ↔ s = n ++ '}' :: j ∧ ∃ x ∈ unicodePropertyNames, n = x.toList := by
  constructor
  · rintro ⟨h1, h2⟩
    obtain ⟨x, hx, rfl⟩ := List.mem_map.1 h2
    exact ⟨h1.1, x, hx, rfl⟩
  · rintro ⟨rfl, x, hx, rfl⟩
    refine ⟨⟨rfl, fun c hc => by simpa using names_letters x hx c hc, ?_⟩, List.mem_map_of_mem hx⟩
    have : '}' ∉ asciiLettersUnderscore := by decide +kernel
    simpa using this

theorem exact_propertySide (t : Str) (neg : Bool) :
    Exact (do
      tag t
      let name ← unicodePropertyName
      tag ['}']
      pure { negate := neg, name := name } : Parser UnicodePropertyClass)
      (fun s j u => ∃ x ∈ unicodePropertyNames, s = t ++ (x.toList ++ '}' :: j) ∧ u = ⟨neg, x.toList⟩) Never :=
  (exact_then (exact_tag t) fun _ => exact_then exact_propertyName fun n => exact_then (exact_tag ['}']) fun _ =>
    exact_pure (⟨neg, n⟩ : UnicodePropertyClass)).congr fun s j u => by
    constructor
    · rintro ⟨x, hx, rfl, rfl⟩
      exact ⟨_, (), rfl, _, x.toList, propertyName_iff.2 ⟨rfl, x, hx, rfl⟩, j, (), rfl, rfl, rfl⟩
    · rintro ⟨m, _, rfl, m', n, h, m'', _, rfl, rfl, rfl⟩
      obtain ⟨rfl, x, hx, rfl⟩ := propertyName_iff.1 h
      exact ⟨x, hx, rfl, rfl⟩

theorem exact_property : Exact unicodePropertyClass Property Never := by
  refine (exact_either' (exact_propertySide ['\\', 'p', '{'] false) (exact_propertySide ['\\', 'P', '{'] true) ?_).congr fun s j u => ?_
  · rintro s j a k b ⟨x, _, rfl, _⟩ ⟨y, _, he, _⟩
    cases he
  · constructor
    · rintro (⟨_, h⟩ | ⟨_, h⟩)
      · exact .inl ⟨_, h, rfl, rfl⟩
      · exact .inr ⟨_, h, rfl, rfl⟩
    · rintro (⟨x, h, rfl, rfl⟩ | ⟨x, h, rfl, rfl⟩)
      · exact .pos j h
      · exact .neg j h

/-! ## Escapes -/

theorem char_toNat_ofNat {n : Nat} (h : n < 0xD800 ∨ (0xDFFF < n ∧ n < 0x110000)) : (Char.ofNat n).toNat = n := by
  have hv : n.isValidChar := h
  rw [Char.ofNat, dif_pos hv]
  rfl

theorem charFromU32_iff (n : Nat) (c : Char) : charFromU32 n = some c ↔ c.toNat = n := by
  constructor
  · intro h
    unfold charFromU32 at h
    split at h
    · rename_i hn
      cases h
      exact char_toNat_ofNat hn
    · cases h
  · rintro rfl
    exact charFromU32_toNat c

theorem exact_control : Exact escapedControlSequence (fun s j c => ∃ i l, i < 26 ∧ (l = Char.ofNat (97 + i) ∨ l = Char.ofNat (65 + i)) ∧
    s = 'c' :: l :: j ∧ c.toNat = i + 1) Never := by
  have t1 : ∀ l ∈ asciiLetters, ∃ i ∈ List.range 26, (l = Char.ofNat (97 + i) ∨ l = Char.ofNat (65 + i)) ∧
      asciiLower l - 97 + 1 = i + 1 := by decide +kernel
  have t2 : ∀ i ∈ List.range 26, ∀ l ∈ [Char.ofNat (97 + i), Char.ofNat (65 + i)], l ∈ asciiLetters ∧ asciiLower l - 97 + 1 = i + 1 := by
    decide +kernel
  intro s d
  have hx := exact_then (exact_tag ['c']) (fun _ => exact_oneOf asciiLetters) s d
  unfold escapedControlSequence
  rcases hx with ⟨j, l, h1, h2⟩ | ⟨⟨e, h1⟩, h2⟩ | ⟨_, h⟩
  · obtain ⟨m, _, rfl, rfl, hl⟩ := (h2 j l).2 ⟨rfl, rfl⟩
    obtain ⟨i, hi, hli, hv⟩ := t1 l hl
    have hr : ∀ c : Char, charFromU32 (asciiLower l - 97 + 1) = some c → (do
        tag ['c']
        let c ← oneOf asciiLetters
        match charFromU32 (asciiLower c - 97 + 1) with
        | some c => pure c
        | none => fun _ => .panic : Parser Char) ⟨['c'] ++ l :: j, d⟩ = .ok ⟨j, d⟩ c := by
      intro c hc
      show Parser.bind (tag ['c']) (fun _ => Parser.bind (oneOf asciiLetters) _) _ = _
      unfold Parser.bind
      rw [(exact_tag ['c']).run (s := ['c'] ++ l :: j) (j := l :: j) (a := ()) rfl id d]
      dsimp only
      rw [(exact_oneOf asciiLetters).run (s := l :: j) (j := j) (a := l) ⟨rfl, hl⟩ id d]
      dsimp only
      rw [hc]
      rfl
    have hi' := List.mem_range.1 hi
    obtain ⟨c, hc⟩ : ∃ c, charFromU32 (i + 1) = some c := by
      unfold charFromU32
      rw [if_pos (by omega)]
      exact ⟨_, rfl⟩
    refine .inl ⟨j, c, hr c (by rw [hv]; exact hc), fun j' c' => ?_⟩
    have hcn := (charFromU32_iff _ _).1 hc
    constructor
    · rintro ⟨i', l', hi2, hl2, he, hc'⟩
      simp only [List.cons_append, List.nil_append, List.cons.injEq, true_and] at he
      obtain ⟨rfl, rfl⟩ := he
      have := (t2 i' (List.mem_range.2 hi2) l (by simpa using hl2)).2
      refine ⟨rfl, ?_⟩
      have he : c'.toNat = c.toNat := by omega
      have a := (charFromU32_iff _ _).2 he
      rw [charFromU32_toNat] at a
      cases a
      rfl
    · rintro ⟨rfl, rfl⟩
      exact ⟨i, l, hi', hli, rfl, hcn⟩
  · refine .inr (.inl ⟨⟨e, ?_⟩, ?_⟩)
    · revert h1
      show Parser.bind (tag ['c']) (fun _ => oneOf asciiLetters) _ = _ →
        Parser.bind (tag ['c']) (fun _ => Parser.bind (oneOf asciiLetters) _) _ = _
      unfold Parser.bind
      cases tag ['c'] ⟨s, d⟩ with
      | ok j a =>
        dsimp only
        intro h
        rw [h]
      | err e' => exact fun h => by injection h with h; rw [h]
      | fail e' => exact fun h => by cases h
      | panic => exact fun h => by cases h
      | hang => exact fun h => by cases h
    · rintro j c ⟨i, l, hi, hl, rfl, _⟩
      exact h2 j l ⟨l :: j, (), rfl, rfl, (t2 i (List.mem_range.2 hi) l (by simpa using hl)).1⟩
  · exact h.elim

/-- A hexadecimal digit of any value. -/
theorem hexValue_iff (c : Char) (d : Nat) : hexValue c = some d ↔ HexDigit d c := by
  have t : ∀ d ∈ List.range 16, ∀ c ∈ [d.digitChar, d.digitChar.toUpper], hexValue c = some d := by decide +kernel
  constructor
  · intro h
    have t' : ∀ n ∈ List.range 128, ∀ d, hexValue (Char.ofNat n) = some d →
        d < 16 ∧ (Char.ofNat n = d.digitChar ∨ Char.ofNat n = d.digitChar.toUpper) := by
      intro n hn d hd
      have t'' : ∀ n ∈ List.range 128, ∀ d ∈ hexValue (Char.ofNat n),
        d < 16 ∧ (Char.ofNat n = d.digitChar ∨ Char.ofNat n = d.digitChar.toUpper) := by decide +kernel
      exact t'' n hn d hd
    have hc : c.toNat < 128 := by
      unfold hexValue at h
      dsimp only at h
      split at h
      · omega
      · split at h
        · omega
        · split at h
          · omega
          · cases h
    have := t' c.toNat (List.mem_range.2 hc) d
    rw [Char.ofNat_toNat] at this
    exact this h
  · rintro ⟨h, hc⟩
    exact t d (List.mem_range.2 h) c (by simpa using hc)

theorem hexNumber_iff (s : Str) (n : Nat) : hexNumber s 0 = some n ↔ Hexadecimal s n := by
  constructor
  · suffices ∀ r : Str, ∀ n, hexNumber r.reverse 0 = some n → Hexadecimal r.reverse n by
      have := this s.reverse n
      rwa [List.reverse_reverse] at this
    intro r
    induction r with
    | nil =>
      intro n h
      cases h
      exact .none
    | cons c r ih =>
      intro n h
      rw [List.reverse_cons, hexNumber_append] at h
      obtain ⟨m, h1, h2⟩ := Option.bind_eq_some_iff.1 h
      rw [List.reverse_cons]
      simp only [hexNumber] at h2
      cases hv : hexValue c with
      | none => rw [hv] at h2; cases h2
      | some d =>
        rw [hv] at h2
        cases h2
        have := Hexadecimal.more (ih m h1) ((hexValue_iff c d).1 hv)
        rwa [Nat.mul_comm 16] at this
  · intro h
    induction h with
    | none => rfl
    | more h hd ih =>
      rw [hexNumber_append, ih]
      simp only [Option.bind_some, hexNumber, (hexValue_iff _ _).2 hd]
      rw [Nat.mul_comm 16]

theorem radix_iff (s : Str) (n : Nat) : fromStrRadix16 s = some n ↔
    ∃ plus ds, (plus = [] ∨ plus = ['+']) ∧ s = plus ++ ds ∧ ds ≠ [] ∧ Hexadecimal ds n ∧ n < 2 ^ 32 := by
  have key : ∀ ds : Str, (if ds = [] then none else match hexNumber ds 0 with
      | some n => if n < 2 ^ 32 then some n else none
      | none => none) = some n ↔ ds ≠ [] ∧ Hexadecimal ds n ∧ n < 2 ^ 32 := by
    intro ds
    rw [← hexNumber_iff]
    by_cases h : ds = []
    · simp [h]
    · rw [if_neg h]
      cases hexNumber ds 0 with
      | none => simp
      | some m =>
        dsimp only
        by_cases hm : m < 2 ^ 32
        · rw [if_pos hm]
          constructor
          · intro e; cases e; exact ⟨h, rfl, hm⟩
          · rintro ⟨_, e, _⟩; exact e
        · rw [if_neg hm]
          constructor
          · intro e; cases e
          · rintro ⟨_, e, hl⟩; cases e; exact absurd hl hm
  unfold fromStrRadix16
  dsimp only
  split
  · rename_i rest
    refine (key rest).trans ?_
    constructor
    · intro h
      exact ⟨['+'], rest, .inr rfl, rfl, h⟩
    · rintro ⟨plus, ds, (rfl | rfl), he, h⟩
      · exfalso
        simp only [List.nil_append] at he
        subst he
        have := (hexNumber_iff _ _).2 h.2.1
        simp only [hexNumber] at this
        rw [show hexValue '+' = none by decide] at this
        cases this
      · cases he
        exact h
  · rename_i hne
    refine (key s).trans ?_
    constructor
    · intro h
      exact ⟨[], s, .inl rfl, rfl, h⟩
    · rintro ⟨plus, ds, (rfl | rfl), he, h⟩
      · cases he
        exact h
      · exact absurd he (hne _)

theorem hexDigits_iff (c : Char) : c ∈ hexDigits ↔ ∃ d, HexDigit d c := by
  have t : ∀ c ∈ hexDigits, (hexValue c).isSome := by decide +kernel
  have t' : ∀ d ∈ List.range 16, ∀ c ∈ [d.digitChar, d.digitChar.toUpper], c ∈ hexDigits := by decide +kernel
  constructor
  · intro h
    obtain ⟨d, hd⟩ := Option.isSome_iff_exists.1 (t c h)
    exact ⟨d, (hexValue_iff _ _).1 hd⟩
  · rintro ⟨d, h, hc⟩
    exact t' d (List.mem_range.2 h) c (by simpa using hc)

/-- At most `n` characters with a property, as many as there are. -/
def RunUpTo (f : Char → Bool) (n : Nat) (s j l : Str) : Prop :=
  s = l ++ j ∧ (∀ c ∈ l, f c = true) ∧ l.length ≤ n ∧ (l.length = n ∨ ∀ c ∈ j.head?, f c = false)

theorem exact_runUpTo (f : Char → Bool) (n : Nat) : Exact (manyUpTo (satisfy f) n) (fun s j l => RunUpTo f n s j l) Never := by
  induction n with
  | zero =>
    refine (exact_pure _).congr fun s j l => ?_
    constructor
    · rintro ⟨rfl, _, h, _⟩
      have : l = [] := List.length_eq_zero_iff.1 (by omega)
      subst this
      exact ⟨rfl, rfl⟩
    · rintro ⟨rfl, rfl⟩
      exact ⟨rfl, by simp, by simp, .inl rfl⟩
  | succ n ih =>
    intro s d
    unfold manyUpTo
    cases s with
    | nil =>
      refine .inl ⟨[], [], rfl, fun j l => ?_⟩
      constructor
      · rintro ⟨he, _⟩
        have := List.append_eq_nil_iff.1 he.symm
        exact ⟨this.2, this.1⟩
      · rintro ⟨rfl, rfl⟩
        exact ⟨rfl, by simp, by simp, .inr (by simp)⟩
    | cons c s =>
      rw [show satisfy f ⟨c :: s, d⟩ = if f c then PR.ok ⟨s, d⟩ c else .err .invalidSyntax from rfl]
      by_cases hc : f c = true
      · rw [if_pos hc]
        have : ¬ blen s = blen (c :: s) := by
          have := Char.utf8Size_pos c
          simp only [blen_cons]; omega
        dsimp only
        rw [if_neg this]
        unfold Parser.bind
        rcases ih s d with ⟨j, l, h1, h2⟩ | ⟨⟨e, h1⟩, h2⟩ | ⟨_, h⟩
        · rw [h1]
          refine .inl ⟨j, c :: l, rfl, fun j' l' => ?_⟩
          constructor
          · rintro ⟨he, h3, h4, h5⟩
            cases l' with
            | nil =>
              simp only [List.nil_append] at he
              subst he
              rcases h5 with h5 | h5
              · simp at h5
              · have := h5 c (by simp)
                rw [hc] at this
                cases this
            | cons x l' =>
              simp only [List.cons_append, List.cons.injEq] at he
              obtain ⟨rfl, rfl⟩ := he
              obtain ⟨rfl, rfl⟩ := (h2 j' l').1 ⟨rfl, fun y hy => h3 y (by simp [hy]), by simpa using h4, by simpa using h5⟩
              exact ⟨rfl, rfl⟩
          · rintro ⟨rfl, rfl⟩
            obtain ⟨rfl, h3, h4, h5⟩ := (h2 j' l).2 ⟨rfl, rfl⟩
            refine ⟨rfl, ?_, by simpa using h4, by simpa using h5⟩
            intro x hx
            rcases List.mem_cons.1 hx with rfl | hx
            · exact hc
            · exact h3 x hx
        · rw [h1]
          refine .inr (.inl ⟨⟨e, rfl⟩, ?_⟩)
          rintro j l ⟨he, h3, h4, h5⟩
          cases l with
          | nil =>
            simp only [List.nil_append] at he
            subst he
            rcases h5 with h5 | h5
            · simp at h5
            · have := h5 c (by simp)
              rw [hc] at this
              cases this
          | cons x l =>
            simp only [List.cons_append, List.cons.injEq] at he
            obtain ⟨rfl, rfl⟩ := he
            exact h2 j l ⟨rfl, fun y hy => h3 y (by simp [hy]), by simpa using h4, by simpa using h5⟩
        · exact h.elim
      · rw [if_neg hc]
        refine .inl ⟨c :: s, [], rfl, fun j l => ?_⟩
        constructor
        · rintro ⟨he, h3, _⟩
          cases l with
          | nil => exact ⟨he.symm, rfl⟩
          | cons x l =>
            simp only [List.cons_append, List.cons.injEq] at he
            exact absurd (h3 x (by simp)) (by rw [← he.1]; exact hc)
        · rintro ⟨rfl, rfl⟩
          exact ⟨rfl, by simp, by simp, .inr (by simpa using hc)⟩

theorem until_one {c : Char} {s j a : Str} : Until [c] s j a ↔ ∃ k, j = c :: k ∧ s = a ++ c :: k ∧ c ∉ a := by
  constructor
  · rintro ⟨rfl, ⟨k, rfl⟩, h⟩
    refine ⟨k, rfl, rfl, fun hc => ?_⟩
    obtain ⟨x, y, rfl⟩ := List.append_of_mem hc
    have := h x (c :: (y ++ c :: k)) (by simp) ⟨_, rfl⟩
    simp at this
    omega
  · rintro ⟨k, rfl, rfl, hc⟩
    refine ⟨rfl, ⟨k, rfl⟩, ?_⟩
    rintro a' j' he ⟨k', rfl⟩
    refine Nat.le_of_not_lt fun hlt => ?_
    rcases List.append_eq_append_iff.1 he with ⟨z, h1, _⟩ | ⟨z, h1, h2⟩
    · rw [h1] at hlt
      simp at hlt
      omega
    · cases z with
      | nil => simp at h1; subst h1; omega
      | cons y z =>
        simp only [List.cons_append, List.nil_append, List.cons.injEq] at h2
        rw [h1, ← h2.1] at hc
        simp at hc

/-- A hexadecimal escape. -/
def Hex (s j : Str) (c : Char) : Prop :=
  (∃ plus ds, (plus = [] ∨ plus = ['+']) ∧ Hexadecimal ds c.toNat ∧ ds ≠ [] ∧ s = 'x' :: '{' :: (plus ++ ds ++ '}' :: j)) ∨
  (∃ ds, Hexadecimal ds c.toNat ∧ ds.length ≤ 2 ∧ (ds.length = 2 ∨ ∀ x ∈ j.head?, ∀ d, ¬ HexDigit d x) ∧
    (ds = [] → j.head? = some '{' → '}' ∉ j) ∧ s = 'x' :: (ds ++ j))

/-- Braces without the number of a character. -/
def BadHex (s : Str) : Prop := (∃ u, s = 'x' :: '{' :: u ∧ '}' ∈ u) ∧ ∀ j c, ¬ Hex s j c

/-- The two forms of a hexadecimal escape. -/
def HexText (s j : Str) (x : Bool × Str) : Prop :=
  (x.1 = true ∧ s = 'x' :: '{' :: (x.2 ++ '}' :: j) ∧ '}' ∉ x.2) ∨
  ((∀ u, s = 'x' :: '{' :: u → '}' ∉ u) ∧ x.1 = false ∧ ∃ m, s = 'x' :: m ∧ RunUpTo (fun c => decide (c ∈ hexDigits)) 2 m j x.2)

theorem exact_hexText : Exact (alt (do
      tag ['x', '{']
      let hex ← recognize (takeUntil ['}'])
      tag ['}']
      pure (true, hex))
    [do
      tag ['x']
      let hex ← recognize (manyUpTo (oneOf hexDigits) 2)
      pure (false, hex)] : Parser (Bool × Str)) HexText Never := by
  refine ((exact_or
    (exact_then (exact_tag ['x', '{']) fun _ => exact_then (exact_recognize (exact_takeUntil ['}']) fun s j a h => ⟨a, h.1.symm⟩)
      fun hex => exact_then (exact_tag ['}']) fun _ => exact_pure (true, hex))
    (exact_then (exact_tag ['x']) fun _ => exact_then (exact_recognize (exact_runUpTo (fun c => decide (c ∈ hexDigits)) 2)
      fun s j a h => ⟨a, h.1.symm⟩) fun hex => exact_pure (false, hex))).weaken
        (fun s h => h.elim id And.right)).congr fun s j x => ?_
  have hb : ∀ j x, (∃ (m : Str) (_ : Unit), s = ['x', '{'] ++ m ∧ ∃ m_1 a, (m = a ++ m_1 ∧ ∃ a, Until ['}'] m m_1 a) ∧
      ∃ (m_2 : Str) (_ : Unit), m_1 = ['}'] ++ m_2 ∧ j = m_2 ∧ x = (true, a)) ↔ (x.1 = true ∧ s = 'x' :: '{' :: (x.2 ++ '}' :: j) ∧ '}' ∉ x.2) := by
    intro j x
    constructor
    · rintro ⟨m, _, rfl, m', a, ⟨h1, a', h2⟩, m'', _, rfl, rfl, rfl⟩
      obtain ⟨k, h3, h4, h5⟩ := until_one.1 h2
      cases h3
      have := List.append_cancel_right (h1.symm.trans h4)
      subst this
      exact ⟨rfl, by rw [h4]; rfl, h5⟩
    · rintro ⟨h1, rfl, h2⟩
      obtain ⟨b, hex⟩ := x
      cases h1
      exact ⟨_, (), rfl, _, hex, ⟨rfl, hex, until_one.2 ⟨_, rfl, rfl, h2⟩⟩, j, (), rfl, rfl, rfl⟩
  have hn : (∀ (k : Str) (b : Bool × Str), ¬ (b.1 = true ∧ s = 'x' :: '{' :: (b.2 ++ '}' :: k) ∧ '}' ∉ b.2)) ↔ (∀ u, s = 'x' :: '{' :: u → '}' ∉ u) := by
    constructor
    · rintro h u rfl hu
      obtain ⟨a, b, rfl, ha⟩ := List.eq_append_cons_of_mem hu
      exact h b (true, a) ⟨rfl, rfl, ha⟩
    · rintro h k b ⟨_, rfl, _⟩
      exact h _ rfl (by simp)
  unfold HexText
  rw [hb]
  refine or_congr Iff.rfl ?_
  rw [← hn]
  refine and_congr (forall_congr' fun k => forall_congr' fun b => not_congr (hb k b).symm) ?_
  constructor
  · rintro ⟨h1, m, rfl, h2⟩
    obtain ⟨b, hex⟩ := x
    cases h1
    exact ⟨m, (), rfl, j, hex, ⟨h2.1, hex, h2⟩, rfl, rfl⟩
  · rintro ⟨m, _, rfl, m', hex, ⟨h1, a', h2⟩, rfl, rfl⟩
    have := List.append_cancel_right (h1.symm.trans h2.1)
    subst this
    exact ⟨rfl, m, rfl, h2⟩

theorem exact_failure : Exact (failure .invalidSyntax : Parser α) (fun _ _ _ => False) (fun _ => True) :=
  fun _ _ => .inr (.inr ⟨⟨_, rfl⟩, trivial⟩)

theorem hexadecimal_total {ds : Str} (h : ∀ c ∈ ds, c ∈ hexDigits) : ∃ n, Hexadecimal ds n ∧ n < 16 ^ ds.length := by
  suffices ∀ r : Str, (∀ c ∈ r, c ∈ hexDigits) → ∃ n, Hexadecimal r.reverse n ∧ n < 16 ^ r.length by
    have := this ds.reverse (by simpa using h)
    rwa [List.reverse_reverse, List.length_reverse] at this
  intro r
  induction r with
  | nil => exact fun _ => ⟨0, .none, by simp⟩
  | cons c r ih =>
    intro h
    obtain ⟨n, h1, h2⟩ := ih fun x hx => h x (by simp [hx])
    obtain ⟨d, hd⟩ := (hexDigits_iff c).1 (h c (by simp))
    refine ⟨16 * n + d, ?_, ?_⟩
    · rw [List.reverse_cons]
      exact .more h1 hd
    · have := hd.1
      rw [List.length_cons, Nat.pow_succ]
      omega

theorem hexadecimal_digits {ds : Str} {n : Nat} (h : Hexadecimal ds n) : ∀ c ∈ ds, c ∈ hexDigits := by
  induction h with
  | none => simp
  | more h hd ih =>
    intro c hc
    rcases List.mem_append.1 hc with hc | hc
    · exact ih c hc
    · rw [List.mem_singleton.1 hc]
      exact (hexDigits_iff _).2 ⟨_, hd⟩

theorem hexadecimal_unique {ds : Str} {n m : Nat} (h : Hexadecimal ds n) (h' : Hexadecimal ds m) : m = n := by
  have := (hexNumber_iff _ _).2 h
  rw [(hexNumber_iff _ _).2 h'] at this
  cases this
  rfl

/-- The number in a hexadecimal escape without braces. -/
theorem hexShort {ds : Str} (h : ∀ c ∈ ds, c ∈ hexDigits) (hl : ds.length ≤ 2) :
    Hexadecimal ds ((fromStrRadix16 ds).getD 0) ∧ (fromStrRadix16 ds).getD 0 < 256 := by
  obtain ⟨n, h1, h2⟩ := hexadecimal_total h
  have h3 : n < 256 := Nat.lt_of_lt_of_le h2 (Nat.pow_le_pow_right (by decide) hl)
  by_cases hd : ds = []
  · subst hd
    exact ⟨.none, by decide⟩
  · have := (radix_iff ds n).2 ⟨[], ds, .inl rfl, rfl, hd, h1, by omega⟩
    rw [this]
    exact ⟨h1, h3⟩

/-- The character of a hexadecimal escape. -/
def hexChar (x : Bool × Str) : Option Char :=
  if x.1 then (fromStrRadix16 x.2).bind charFromU32 else charFromU32 ((fromStrRadix16 x.2).getD 0)

theorem exact_radix (o : Option Nat) : Exact (match o with | some n => pure n | none => failure .invalidSyntax : Parser Nat)
    (fun s j c => j = s ∧ o = some c) (fun _ => o = none) := by
  cases o with
  | none => exact (exact_failure.congr fun s j c => by simp).weaken fun _ _ => rfl
  | some c => exact ((exact_pure c).congr fun s j c' => by simp [eq_comm]).weaken fun _ h => h.elim

theorem exact_char (o : Option Char) : Exact (match o with | some c => pure c | none => failure .invalidSyntax : Parser Char)
    (fun s j c => j = s ∧ o = some c) (fun _ => o = none) := by
  cases o with
  | none => exact (exact_failure.congr fun s j c => by simp).weaken fun _ _ => rfl
  | some c => exact ((exact_pure c).congr fun s j c' => by simp [eq_comm]).weaken fun _ h => h.elim

theorem hex_iff (s j : Str) (c : Char) : Hex s j c ↔ ∃ m x, HexText s m x ∧ j = m ∧ hexChar x = some c := by
  have hbrace : '}' ∉ hexDigits := by decide +kernel
  have hopen : '{' ∉ hexDigits := by decide +kernel
  have hlt : ∀ c : Char, c.toNat < 2 ^ 32 := fun c => c.val.toNat_lt
  constructor
  · rintro (⟨plus, ds, hp, h1, h2, rfl⟩ | ⟨ds, h1, h2, h3, h4, rfl⟩)
    · refine ⟨j, (true, plus ++ ds), .inl ⟨rfl, by simp, ?_⟩, rfl, ?_⟩
      · intro hm
        rcases List.mem_append.1 hm with hm | hm
        · rcases hp with rfl | rfl
          · cases hm
          · exact absurd hm (by decide)
        · exact hbrace (hexadecimal_digits h1 _ hm)
      · unfold hexChar
        rw [if_pos rfl, (radix_iff _ c.toNat).2 ⟨plus, ds, hp, rfl, h2, h1, hlt c⟩]
        exact charFromU32_toNat c
    · have hd := hexadecimal_digits h1
      refine ⟨j, (false, ds), .inr ⟨?_, rfl, _, rfl, rfl, by simpa using hd, h2, ?_⟩, rfl, ?_⟩
      · intro u he
        simp only [List.cons.injEq, true_and] at he
        cases ds with
        | nil =>
          simp only [List.nil_append] at he
          have := h4 rfl (by rw [he]; rfl)
          rw [he] at this
          intro hu
          exact this (by simp [hu])
        | cons x ds =>
          simp only [List.cons_append, List.cons.injEq] at he
          exact absurd (hd x (by simp)) (by rw [he.1]; exact hopen)
      · refine h3.imp id fun h x hx => ?_
        simp only [decide_eq_false_iff_not]
        intro hm
        obtain ⟨d, hd⟩ := (hexDigits_iff x).1 hm
        exact h x hx d hd
      · unfold hexChar
        rw [if_neg (by simp)]
        have := hexadecimal_unique h1 (hexShort hd h2).1
        rw [this]
        exact charFromU32_toNat c
  · rintro ⟨m, ⟨b, hex⟩, (⟨rfl, rfl, h1⟩ | ⟨h1, rfl, m', rfl, rfl, h2, h3, h4⟩), rfl, hc⟩
    · unfold hexChar at hc
      rw [if_pos rfl] at hc
      obtain ⟨n, h2, h3⟩ := Option.bind_eq_some_iff.1 hc
      obtain ⟨plus, ds, hp, he, h4, h5, _⟩ := (radix_iff _ _).1 h2
      have := (charFromU32_iff _ _).1 h3
      subst this
      exact .inl ⟨plus, ds, hp, h5, h4, by rw [he]⟩
    · unfold hexChar at hc
      rw [if_neg (by simp)] at hc
      have := (charFromU32_iff _ _).1 hc
      have hs := hexShort (ds := hex) (by simpa using h2) h3
      refine .inr ⟨hex, by rw [this]; exact hs.1, h3, ?_, ?_, rfl⟩
      · refine h4.imp id fun h x hx d hd => ?_
        have := h x hx
        simp only [decide_eq_false_iff_not] at this
        exact this ((hexDigits_iff x).2 ⟨d, hd⟩)
      · rintro rfl hj
        cases j with
        | nil => cases hj
        | cons y j =>
          simp only [List.head?_cons, Option.some.injEq] at hj
          subst hj
          have := h1 j rfl
          simpa using this

theorem exact_hex : Exact hexEscapedLiteral Hex BadHex := by
  have hq : ∀ x : Bool × Str, Exact ((match x with
      | (hasBrace, hex) => do
        let value ← (if hasBrace then
            match fromStrRadix16 hex with
            | some n => pure n
            | none => failure .invalidSyntax
          else pure ((fromStrRadix16 hex).getD 0) : Parser Nat)
        match charFromU32 value with
        | some c => pure c
        | none => failure .invalidSyntax) : Parser Char)
      (fun s j c => j = s ∧ hexChar x = some c) (fun _ => hexChar x = none) := by
    rintro ⟨b, hex⟩
    cases b with
    | true =>
      dsimp only
      rw [if_pos rfl]
      refine ((exact_bind (exact_radix (fromStrRadix16 hex)) fun v => exact_char (charFromU32 v)).weaken ?_).congr ?_
      · rintro s (h | ⟨m, n, ⟨_, h⟩, h'⟩)
        · unfold hexChar; simp [h]
        · unfold hexChar; simp [h, h']
      · intro s j c
        unfold hexChar
        constructor
        · rintro ⟨rfl, h⟩
          rw [if_pos rfl] at h
          obtain ⟨n, h1, h2⟩ := Option.bind_eq_some_iff.1 h
          exact ⟨j, n, ⟨rfl, h1⟩, rfl, h2⟩
        · rintro ⟨m, n, ⟨rfl, h1⟩, rfl, h2⟩
          exact ⟨rfl, by rw [if_pos rfl]; exact Option.bind_eq_some_iff.2 ⟨n, h1, h2⟩⟩
    | false =>
      dsimp only
      rw [if_neg (by simp)]
      refine ((exact_bind (exact_pure ((fromStrRadix16 hex).getD 0)) fun v => exact_char (charFromU32 v)).weaken ?_).congr ?_
      · rintro s (h | ⟨m, n, ⟨_, rfl⟩, h'⟩)
        · exact h.elim
        · unfold hexChar; simpa using h'
      · intro s j c
        unfold hexChar
        constructor
        · rintro ⟨rfl, h⟩
          exact ⟨j, _, ⟨rfl, rfl⟩, rfl, by simpa using h⟩
        · rintro ⟨m, n, ⟨rfl, rfl⟩, rfl, h2⟩
          exact ⟨rfl, by simpa using h2⟩
  refine ((exact_bind exact_hexText hq).weaken ?_).congr fun s j c => hex_iff s j c
  rintro s (h | ⟨m, ⟨b, hex⟩, h, hn⟩)
  · exact h.elim
  · have hno : ∀ j c, ¬ Hex s j c := by
      intro j c hh
      obtain ⟨m', x', h1, rfl, h2⟩ := (hex_iff _ _ _).1 hh
      obtain ⟨rfl, rfl⟩ := exact_hexText.unique id h h1
      rw [hn] at h2
      cases h2
    rcases h with ⟨rfl, rfl, _⟩ | ⟨_, rfl, m', rfl, _, h2, h3, _⟩
    · exact ⟨⟨_, rfl, by simp⟩, hno⟩
    · exfalso
      unfold hexChar at hn
      rw [if_neg (by simp)] at hn
      change charFromU32 ((fromStrRadix16 hex).getD 0) = none at hn
      have hs := hexShort (ds := hex) (by simpa using h2) h3
      unfold charFromU32 at hn
      rw [if_pos (by omega)] at hn
      cases hn

/-! ## Literals -/

/-- Escapes by a letter. -/
def letterTable : List (Str × Char) :=
  [(['a'], Char.ofNat 7), (['b'], Char.ofNat 8), (['e'], Char.ofNat 27), (['f'], Char.ofNat 12), (['n'], '\n'), (['r'], '\r'),
    (['t'], '\t'), (['v'], Char.ofNat 11)]

theorem letter_iff (s j : Str) (c : Char) : (∃ x ∈ letterTable, s = x.1 ++ j ∧ c = x.2) ↔
    ∃ l n, (l, n) ∈ controlLetters ∧ s = l :: j ∧ c.toNat = n := by
  have t1 : ∀ x ∈ letterTable, ∃ y ∈ controlLetters, x.1 = [y.1] ∧ x.2.toNat = y.2 := by decide +kernel
  have t2 : ∀ y ∈ controlLetters, ∃ x ∈ letterTable, x.1 = [y.1] ∧ x.2.toNat = y.2 := by decide +kernel
  constructor
  · rintro ⟨x, hx, rfl, rfl⟩
    obtain ⟨y, hy, h1, h2⟩ := t1 x hx
    exact ⟨y.1, y.2, hy, by rw [h1]; rfl, h2⟩
  · rintro ⟨l, n, h, rfl, hn⟩
    obtain ⟨x, hx, h1, h2⟩ := t2 _ h
    refine ⟨x, hx, by rw [h1]; rfl, ?_⟩
    have : c.toNat = x.2.toNat := hn.trans h2.symm
    have h3 := charFromU32_toNat c
    rw [this, charFromU32_toNat] at h3
    cases h3
    rfl

theorem controlLetters_ne {l : Char} {n : Nat} (h : (l, n) ∈ controlLetters) : l ≠ 'c' ∧ l ≠ 'x' := by
  have : ∀ y ∈ controlLetters, y.1 ≠ 'c' ∧ y.1 ≠ 'x' := by decide +kernel
  exact this _ h

/-- Escapes other than those of a character that stands for itself. -/
def Named (s j : Str) (c : Char) : Prop :=
  (∃ i l, i < 26 ∧ (l = Char.ofNat (97 + i) ∨ l = Char.ofNat (65 + i)) ∧ s = 'c' :: l :: j ∧ c.toNat = i + 1) ∨
  (∃ l n, (l, n) ∈ controlLetters ∧ s = l :: j ∧ c.toNat = n) ∨ Hex s j c

theorem hex_x {s j : Str} {c : Char} (h : Hex s j c) : s.head? = some 'x' := by
  rcases h with ⟨_, _, _, _, _, rfl⟩ | ⟨_, _, _, _, _, rfl⟩ <;> rfl

theorem badHex_x {s : Str} (h : BadHex s) : s.head? = some 'x' := by
  obtain ⟨⟨u, rfl, _⟩, _⟩ := h
  rfl

theorem exact_escapedLiteral : Exact escapedLiteral (fun s j l => l.escaped = true ∧ Named s j l.c) BadHex := by
  have ht := exact_table_then ['a'] (Char.ofNat 7) letterTable.tail (by decide +kernel) exact_hex (by
    intro x hx j k b hh
    have := hex_x hh
    have t : ∀ x ∈ (['a'], Char.ofNat 7) :: letterTable.tail, x.1.head? ≠ some 'x' ∧ x.1 ≠ [] := by decide +kernel
    cases h1 : x.1 with
    | nil => exact (t x hx).2 h1
    | cons y l =>
      have t1 := (t x hx).1
      rw [h1] at this t1
      exact t1 this)
  have hc : Exact (alt escapedControlSequence
    [tagged ['a'] (Char.ofNat 0x07), tagged ['b'] (Char.ofNat 0x08), tagged ['e'] (Char.ofNat 0x1B),
      tagged ['f'] (Char.ofNat 0x0C), tagged ['n'] '\n', tagged ['r'] '\r', tagged ['t'] '\t',
      tagged ['v'] (Char.ofNat 0x0B), hexEscapedLiteral]) Named BadHex := by
    refine ((exact_either exact_control ht ?_).weaken ?_).congr fun s j c => ?_
    · rintro s j c k b ⟨i, l, _, _, rfl, _⟩ (h | h)
      · obtain ⟨l', n, h1, h2, _⟩ := (letter_iff _ _ _).1 h
        cases h2
        exact (controlLetters_ne h1).1 rfl
      · have := hex_x h
        cases this
    · rintro s (h | h)
      · exact h.elim
      · exact h
    · unfold Named
      rw [← letter_iff]
      rfl
  refine ((exact_bind hc fun c => exact_pure (⟨c, true⟩ : Literal)).weaken ?_).congr fun s j l => ?_
  · rintro s (h | ⟨_, _, _, h⟩)
    · exact h
    · exact h.elim
  · constructor
    · rintro ⟨h1, h2⟩
      obtain ⟨c, e⟩ := l
      cases h1
      exact ⟨j, c, h2, rfl, rfl⟩
    · rintro ⟨m, c, h, rfl, rfl⟩
      exact ⟨rfl, h⟩

theorem escaped_iff (s j : Str) (c : Char) : Escaped s j c ↔
    Named s j c ∨ ((∀ k b, ¬ Named s k b) ∧ ∃ x, s = x :: j ∧ x ∉ escapedLiteralDenyList ∧ c = x) := by
  have t1 : ∀ c ∈ escapedLiteralDenyList, c ∈ reservedEscapes := by decide +kernel
  have t2 : ∀ c ∈ reservedEscapes, c ∈ escapedLiteralDenyList ∨ ∃ n ∈ List.range 30, (c, n) ∈ controlLetters := by decide +kernel
  have t3 : ∀ x ∈ controlLetters, x.1 ∈ reservedEscapes := by decide +kernel
  constructor
  · intro h
    cases h with
    | control _ h1 h2 h3 => exact .inl (.inl ⟨_, _, h1, h2, rfl, h3⟩)
    | letter _ h1 h2 => exact .inl (.inr (.inl ⟨_, _, h1, rfl, h2⟩))
    | braces _ _ h1 h2 h3 h4 => exact .inl (.inr (.inr (.inl ⟨_, _, h1, by rw [h4]; exact h2, h3, rfl⟩)))
    | hex _ h1 h2 h3 h4 h5 => exact .inl (.inr (.inr (.inr ⟨_, by rw [h5]; exact h1, h2, h3, h4, rfl⟩)))
    | itself _ h =>
      refine .inr ⟨?_, c, rfl, fun hc => h (t1 c hc), rfl⟩
      rintro k b (⟨i, l, _, _, he, _⟩ | ⟨l, n, hm, he, _⟩ | hh)
      · cases he
        exact h (by decide +kernel)
      · cases he
        exact h (t3 _ hm)
      · have := hex_x hh
        cases this
        exact h (by decide +kernel)
  · rintro ((⟨i, l, h1, h2, rfl, h3⟩ | ⟨l, n, h1, rfl, h2⟩ | (⟨plus, ds, h1, h2, h3, rfl⟩ | ⟨ds, h1, h2, h3, h4, rfl⟩)) | ⟨h, x, rfl, hx, rfl⟩)
    · exact .control j h1 h2 h3
    · exact .letter j h1 h2
    · exact .braces plus j h1 h2 h3 rfl
    · exact .hex j h1 h2 h3 h4 rfl
    · refine .itself j fun hc => ?_
      rcases t2 _ hc with hc | ⟨n, _, hc⟩
      · exact hx hc
      · have hv : ∀ y ∈ controlLetters, y.2 < 0xD800 := by decide +kernel
        have := char_toNat_ofNat (.inl (hv _ hc))
        exact h j (Char.ofNat n) (.inr (.inl ⟨_, _, hc, rfl, this⟩))

/-- A backslash and a hexadecimal escape that stands for nothing. -/
def BadLit (s : Str) : Prop := ∃ u, s = '\\' :: u ∧ BadHex u

def denyOf : LiteralKind → Str
  | .bracketedCharacterClass => [']']
  | .normal => ['|', '[', '(', ')', '.', '+', '?', '*', '^', '$']

theorem badHex_not {s : Str} (h : BadHex s) (j : Str) (c : Char) : ¬ Escaped s j c := by
  intro he
  obtain ⟨⟨u, rfl, _⟩, hn⟩ := h
  rcases (escaped_iff _ _ _).1 he with (⟨i, l, _, _, he, _⟩ | ⟨l, n, hm, he, _⟩ | hh) | ⟨_, x, he, hx, _⟩
  · cases he
  · cases he
    exact (controlLetters_ne hm).2 rfl
  · exact hn _ _ hh
  · cases he
    exact hx (by decide +kernel)

theorem badLit_not {s : Str} (h : BadLit s) (deny j : Str) (l : Literal) : ¬ Lit deny s j l := by
  obtain ⟨u, rfl, hu⟩ := h
  intro hl
  cases hl with
  | plain _ h => exact h rfl
  | escaped h => exact badHex_not hu _ _ h

theorem exact_literal (kind : LiteralKind) : Exact (literal kind) (Lit (denyOf kind)) BadLit := by
  have h1 : Exact (alt escapedLiteral [do
      let c ← noneOf escapedLiteralDenyList
      pure { c := c, escaped := true }] : Parser Literal) (fun s j l => l.escaped = true ∧ Escaped s j l.c) BadHex := by
    refine ((exact_or exact_escapedLiteral (exact_then (exact_noneOf escapedLiteralDenyList)
      fun c => exact_pure (⟨c, true⟩ : Literal))).weaken ?_).congr fun s j l => ?_
    · rintro s (h | ⟨_, h⟩)
      · exact h
      · exact h.elim
    · rw [escaped_iff]
      constructor
      · rintro ⟨h1, (h2 | ⟨h2, x, rfl, h3, h4⟩)⟩
        · exact .inl ⟨h1, h2⟩
        · refine .inr ⟨fun k b hb => h2 _ _ hb.2, j, x, ⟨rfl, h3⟩, rfl, ?_⟩
          obtain ⟨c, e⟩ := l
          cases h1
          cases h4
          rfl
      · rintro (⟨h1, h2⟩ | ⟨h2, m, x, ⟨rfl, h3⟩, rfl, rfl⟩)
        · exact ⟨h1, .inl h2⟩
        · exact ⟨rfl, .inr ⟨fun k b hb => h2 k ⟨b, true⟩ ⟨rfl, hb⟩, x, rfl, h3, rfl⟩⟩
  have h2 : Exact (do
      let c ← (match kind with
        | .bracketedCharacterClass => noneOf bracketDenyList
        | .normal => noneOf literalDenyList : Parser Char)
      pure { c := c, escaped := false } : Parser Literal) (fun s j l => s = l.c :: j ∧ l.c ∉ denyOf kind ∧ l.escaped = false) Never := by
    have : Exact (match kind with
        | .bracketedCharacterClass => noneOf bracketDenyList
        | .normal => noneOf literalDenyList : Parser Char) (fun s j c => s = c :: j ∧ c ∉ denyOf kind) Never := by
      cases kind
      · exact exact_noneOf _
      · exact exact_noneOf _
    refine (exact_then this fun c => exact_pure (⟨c, false⟩ : Literal)).congr fun s j l => ?_
    constructor
    · rintro ⟨rfl, h1, h2⟩
      obtain ⟨c, e⟩ := l
      cases h2
      exact ⟨j, c, ⟨rfl, h1⟩, rfl, rfl⟩
    · rintro ⟨m, c, ⟨rfl, h1⟩, rfl, rfl⟩
      exact ⟨rfl, h1, rfl⟩
  have h3 : ∀ o : Option Unit, Exact (if o.isSome then
      alt escapedLiteral [do
        let c ← noneOf escapedLiteralDenyList
        pure { c := c, escaped := true }]
    else do
      let c ← (match (generalizing := false) kind with
        | .bracketedCharacterClass => noneOf bracketDenyList
        | .normal => noneOf literalDenyList : Parser Char)
      pure { c := c, escaped := false } : Parser Literal)
      (fun s j l => if o.isSome then l.escaped = true ∧ Escaped s j l.c else s = l.c :: j ∧ l.c ∉ denyOf kind ∧ l.escaped = false)
      (fun s => o.isSome = true ∧ BadHex s) := by
    intro o
    cases o with
    | none => exact h2.weaken fun _ h => h.elim
    | some u => exact h1.weaken fun _ h => ⟨rfl, h⟩
  refine ((exact_bind (exact_opt (exact_tag ['\\'])) h3).weaken ?_).congr fun s j l => ?_
  · rintro s (h | ⟨m, o, (⟨_, rfl, rfl⟩ | ⟨rfl, _⟩), h1, h2⟩)
    · exact h.elim
    · exact ⟨m, rfl, h2⟩
    · cases h1
  · constructor
    · intro h
      cases h with
      | plain _ h1 h2 =>
        refine ⟨_, none, .inr ⟨rfl, rfl, ?_⟩, ?_⟩
        · rintro k _ he
          cases he
          exact h1 rfl
        · exact ⟨rfl, h2, rfl⟩
      | escaped h => exact ⟨_, some (), .inl ⟨(), rfl, rfl⟩, rfl, h⟩
    · rintro ⟨m, o, (⟨_, rfl, rfl⟩ | ⟨rfl, rfl, hn⟩), h⟩
      · obtain ⟨h1, h2⟩ := h
        obtain ⟨c, e⟩ := l
        cases h1
        exact .escaped h2
      · obtain ⟨rfl, h1, h2⟩ := h
        obtain ⟨c, e⟩ := l
        cases h2
        refine .plain j ?_ h1
        rintro rfl
        exact hn j () rfl

end Sds.Re.Gram
