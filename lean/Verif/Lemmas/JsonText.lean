import Verif.Model.JsonText
import Verif.Spec.JsonText
import Verif.Lemmas.Utf8

/-! # Lemmas: the text of JSON documents -/

namespace Sds
open Spec Spec.Json

/-! ## White space -/

theorem space_iff (c : Char) : isJsonSpace c = true ↔ c = ' ' ∨ c = '\n' ∨ c = '\t' ∨ c = '\r' := by
  simp [isJsonSpace, or_assoc]

/-- The text begins with no white space. -/
def Tight (r : Str) : Prop := ∀ c, r.head? = some c → isJsonSpace c = false

theorem skipSpace_append {w : Str} (hw : Space w) {r : Str} (hr : Tight r) : skipSpace (w ++ r) = r := by
  unfold skipSpace
  induction w with
  | nil =>
    cases r with
    | nil => rfl
    | cons c r => simp [hr c rfl]
  | cons c w ih =>
    have hc := (space_iff c).2 (hw c List.mem_cons_self)
    simp only [List.cons_append, List.dropWhile_cons, hc, if_true]
    exact ih fun x hx => hw x (List.mem_cons_of_mem _ hx)

theorem skipSpace_spec (s : Str) : ∃ w, Space w ∧ s = w ++ skipSpace s ∧ Tight (skipSpace s) := by
  unfold skipSpace
  refine ⟨s.takeWhile isJsonSpace, ?_, (List.takeWhile_append_dropWhile).symm, ?_⟩
  · intro c hc
    exact (space_iff c).1 (List.all_eq_true.1 List.all_takeWhile c hc)
  · intro c hc
    have := List.head?_dropWhile_not isJsonSpace s
    rw [hc] at this
    simpa using this

theorem space_nil : Space [] := by simp [Space]

theorem space_append {a b : Str} (ha : Space a) (hb : Space b) : Space (a ++ b) := by
  intro c hc
  rcases List.mem_append.1 hc with h | h
  · exact ha c h
  · exact hb c h

/-! ## Characters -/

theorem hexVal_of {c : Char} {n : Nat} (h : HexDigit c n) : hexVal c = some n := by
  have key : ∀ n, n < 16 → ∀ c, ("0123456789abcdef".toList[n]? = some c ∨ "0123456789ABCDEF".toList[n]? = some c) →
      hexVal c = some n := by
    intro n hn c hc
    have : n = 0 ∨ n = 1 ∨ n = 2 ∨ n = 3 ∨ n = 4 ∨ n = 5 ∨ n = 6 ∨ n = 7 ∨ n = 8 ∨ n = 9 ∨ n = 10 ∨ n = 11 ∨ n = 12 ∨
      n = 13 ∨ n = 14 ∨ n = 15 := by omega
    rcases this with rfl | rfl | rfl | rfl | rfl | rfl | rfl | rfl | rfl | rfl | rfl | rfl | rfl | rfl | rfl | rfl <;>
      rcases hc with hc | hc <;> (have hc := (Option.some.inj hc).symm; subst hc; decide)
  have hn : n < 16 := by
    rcases h with h | h
    · have := (List.getElem?_eq_some_iff.1 h).1; simpa using this
    · have := (List.getElem?_eq_some_iff.1 h).1; simpa using this
  exact key n hn c h

theorem char_le {a b : Char} : a ≤ b ↔ a.toNat ≤ b.toNat := Iff.rfl

theorem of_hexVal {c : Char} {n : Nat} (h : hexVal c = some n) : HexDigit c n := by
  have back : ∀ k, c.toNat = k → c = Char.ofNat k := fun k hk => by rw [← hk, Char.ofNat_toNat]
  unfold hexVal at h
  simp only [char_le] at h
  split at h
  · next h1 =>
    cases h
    have e1 : ('0' : Char).toNat = 48 := rfl
    have e2 : ('9' : Char).toNat = 57 := rfl
    have : c.toNat = 48 ∨ c.toNat = 49 ∨ c.toNat = 50 ∨ c.toNat = 51 ∨ c.toNat = 52 ∨ c.toNat = 53 ∨ c.toNat = 54 ∨
      c.toNat = 55 ∨ c.toNat = 56 ∨ c.toNat = 57 := by omega
    rcases this with h | h | h | h | h | h | h | h | h | h <;>
      (rw [h]; have := back _ h; subst this; exact Or.inl (by decide))
  · split at h
    · next h1 =>
      cases h
      have e1 : ('a' : Char).toNat = 97 := rfl
      have e2 : ('f' : Char).toNat = 102 := rfl
      have : c.toNat = 97 ∨ c.toNat = 98 ∨ c.toNat = 99 ∨ c.toNat = 100 ∨ c.toNat = 101 ∨ c.toNat = 102 := by omega
      rcases this with h | h | h | h | h | h <;>
        (rw [h]; have := back _ h; subst this; exact Or.inl (by decide))
    · split at h
      · next h1 =>
        cases h
        have e1 : ('A' : Char).toNat = 65 := rfl
        have e2 : ('F' : Char).toNat = 70 := rfl
        have : c.toNat = 65 ∨ c.toNat = 66 ∨ c.toNat = 67 ∨ c.toNat = 68 ∨ c.toNat = 69 ∨ c.toNat = 70 := by omega
        rcases this with h | h | h | h | h | h <;>
          (rw [h]; have := back _ h; subst this; exact Or.inr (by decide))
      · cases h

theorem hexDigit_lt {c : Char} {n : Nat} (h : HexDigit c n) : n < 16 := by
  rcases h with h | h
  · have := (List.getElem?_eq_some_iff.1 h).1; simpa using this
  · have := (List.getElem?_eq_some_iff.1 h).1; simpa using this

theorem hex4_lt {t : Str} {n : Nat} (h : Hex4 t n) : n < 65536 := by
  obtain ⟨a, b, c, d, x, y, z, w, _, h1, h2, h3, h4, rfl⟩ := h
  have := hexDigit_lt h1
  have := hexDigit_lt h2
  have := hexDigit_lt h3
  have := hexDigit_lt h4
  omega

theorem hexFour_of {t : Str} {n : Nat} (h : Hex4 t n) (r : Str) : hexFour (t ++ r) = some (n, r) := by
  obtain ⟨a, b, c, d, x, y, z, w, rfl, h1, h2, h3, h4, rfl⟩ := h
  simp only [List.cons_append, List.nil_append, hexFour, hexVal_of h1, hexVal_of h2, hexVal_of h3, hexVal_of h4]
  rw [show ((x * 16 + y) * 16 + z) * 16 + w = 4096 * x + 256 * y + 16 * z + w by omega]

theorem of_hexFour {s r : Str} {n : Nat} (h : hexFour s = some (n, r)) : ∃ t, s = t ++ r ∧ Hex4 t n := by
  unfold hexFour at h
  split at h
  · next a b c d r' =>
    split at h
    · next x y z w h1 h2 h3 h4 =>
      cases h
      exact ⟨[a, b, c, d], rfl, a, b, c, d, x, y, z, w, rfl, of_hexVal h1, of_hexVal h2, of_hexVal h3, of_hexVal h4,
        by omega⟩
    · cases h
  · cases h

theorem toNat_ofNat {n : Nat} (h : n < 0xD800 ∨ (0xDFFF < n ∧ n < 0x110000)) : (Char.ofNat n).toNat = n := by
  have hv : n.isValidChar := h
  rw [Char.ofNat, dif_pos hv]
  rfl

theorem shortEscape_of {e c : Char} (h : shortEscape e = some c) : Char1 ['\\', e] c := by
  unfold shortEscape at h
  repeat' split at h
  all_goals first
    | cases h; subst_vars; first
      | exact .quote | exact .backslash | exact .slash | exact .backspace | exact .formFeed | exact .newline
      | exact .carriageReturn | exact .tab
    | cases h

theorem readEscape_of {t : Str} {c : Char} (h : Char1 ('\\' :: t) c) (r : Str) : readEscape (t ++ r) = some (c, r) := by
  generalize hu : '\\' :: t = u at h
  cases h with
  | plain h1 h2 h3 => simp only [List.cons.injEq] at hu; exact absurd hu.1.symm h3
  | quote => cases hu; rfl
  | backslash => cases hu; rfl
  | slash => cases hu; rfl
  | backspace => cases hu; rfl
  | formFeed => cases hu; rfl
  | newline => cases hu; rfl
  | carriageReturn => cases hu; rfl
  | tab => cases hu; rfl
  | unicode h1 =>
    cases hu
    have hc := char_range c
    simp only [List.cons_append, readEscape, if_true, readUnicode, hexFour_of h1]
    rw [if_neg (by omega), if_neg (by omega), Char.ofNat_toNat]
  | pair h1 h2 h3 h4 h5 h6 h7 =>
    cases hu
    have := hex4_lt h1
    simp only [List.cons_append, readEscape, if_true, readUnicode, List.append_assoc, hexFour_of h1, hexFour_of h2]
    rw [if_neg (by omega), if_pos (by omega), if_pos (by omega)]
    rw [ofNat_of_eq (c := c) (by omega)]

theorem of_readEscape {s r : Str} {c : Char} (h : readEscape s = some (c, r)) : ∃ t, s = t ++ r ∧ Char1 ('\\' :: t) c := by
  cases s with
  | nil => cases h
  | cons e s =>
    rw [readEscape] at h
    split at h
    · next he =>
      subst he
      unfold readUnicode at h
      split at h
      · cases h
      · next n r1 h1 =>
        obtain ⟨t, rfl, ht⟩ := of_hexFour h1
        have hlt := hex4_lt ht
        split at h
        · cases h
        · next hlo =>
          split at h
          · next hhi =>
            split at h
            · next r2 =>
              split at h
              · cases h
              · next m r3 h2 =>
                obtain ⟨t', rfl, ht'⟩ := of_hexFour h2
                split at h
                · next hm =>
                  simp only [Option.some.injEq, Prod.mk.injEq] at h
                  obtain ⟨rfl, rfl⟩ := h
                  refine ⟨'u' :: (t ++ '\\' :: 'u' :: t'), by simp, .pair ht ht' hhi.1 (by omega) hm.1 (by omega) ?_⟩
                  rw [toNat_ofNat (by omega)]
                  omega
                · cases h
            · cases h
          · next hhi =>
            simp only [Option.some.injEq, Prod.mk.injEq] at h
            obtain ⟨rfl, rfl⟩ := h
            refine ⟨'u' :: t, rfl, .unicode ?_⟩
            rw [toNat_ofNat (by omega)]
            exact ht
    · cases hs : shortEscape e with
      | none => rw [hs] at h; cases h
      | some x =>
        rw [hs] at h
        simp only [Option.map_some, Option.some.injEq, Prod.mk.injEq] at h
        obtain ⟨rfl, rfl⟩ := h
        exact ⟨[e], rfl, shortEscape_of hs⟩

/-! ## Strings -/

theorem char1_cases {t : Str} {c : Char} (h : Char1 t c) :
    (t = [c] ∧ 0x20 ≤ c.toNat ∧ c ≠ '"' ∧ c ≠ '\\') ∨ ∃ u, t = '\\' :: u := by
  cases h with
  | plain h1 h2 h3 => exact Or.inl ⟨rfl, h1, h2, h3⟩
  | _ => exact Or.inr ⟨_, rfl⟩

theorem readBody_of {u s : Str} (h : Chars u s) : ∀ {fuel : Nat}, u.length < fuel → ∀ r,
    readBody fuel (u ++ '"' :: r) = some (s, r) := by
  induction h with
  | nil =>
    intro fuel hf r
    obtain ⟨f, rfl⟩ : ∃ f, fuel = f + 1 := ⟨fuel - 1, by simp at hf; omega⟩
    rfl
  | @cons t u c s h1 _ ih =>
    intro fuel hf r
    obtain ⟨f, rfl⟩ : ∃ f, fuel = f + 1 := ⟨fuel - 1, by omega⟩
    rcases char1_cases h1 with ⟨rfl, h2, h3, h4⟩ | ⟨t, rfl⟩
    · rw [List.append_assoc, List.cons_append, List.nil_append, readBody, if_neg h3, if_neg h4, if_neg (by omega),
        ih (by simp at hf; omega)]
      rfl
    · have hq : ¬ ('\\' : Char) = '"' := by decide
      rw [List.append_assoc, List.cons_append, readBody, if_neg hq, if_pos rfl, readEscape_of h1,
        ]
      simp only
      rw [ih (by simp at hf; omega)]
      rfl

theorem of_readBody : ∀ {fuel : Nat} {t s r : Str}, readBody fuel t = some (s, r) → ∃ u, Chars u s ∧ t = u ++ '"' :: r := by
  intro fuel
  induction fuel with
  | zero => intro t s r h; cases h
  | succ f ih =>
    intro t s r h
    cases t with
    | nil => cases h
    | cons c t =>
      rw [readBody] at h
      split at h
      · next hc =>
        cases h
        exact ⟨[], .nil, by rw [hc]; rfl⟩
      · next hc =>
        split at h
        · next hb =>
          split at h
          · cases h
          · next x t' he =>
            obtain ⟨v, rfl, hv⟩ := of_readEscape he
            cases hr : readBody f t' with
            | none => rw [hr] at h; cases h
            | some p =>
              rw [hr] at h
              simp only [Option.map_some, Option.some.injEq, Prod.mk.injEq] at h
              obtain ⟨rfl, rfl⟩ := h
              obtain ⟨u, hu, rfl⟩ := ih hr
              exact ⟨('\\' :: v) ++ u, .cons hv hu, by rw [hb]; simp⟩
        · next hb =>
          split at h
          · cases h
          · next hl =>
            cases hr : readBody f t with
            | none => rw [hr] at h; cases h
            | some p =>
              rw [hr] at h
              simp only [Option.map_some, Option.some.injEq, Prod.mk.injEq] at h
              obtain ⟨rfl, rfl⟩ := h
              obtain ⟨u, hu, rfl⟩ := ih hr
              exact ⟨[c] ++ u, .cons (.plain (by omega) hc hb) hu, rfl⟩

/-! ## Numbers -/

theorem jsonDigit_iff (c : Char) : isJsonDigit c = true ↔ ∃ d, d < 10 ∧ c = Nat.digitChar d := by
  unfold isJsonDigit
  simp only [Bool.and_eq_true, decide_eq_true_eq, char_le]
  have e1 : ('0' : Char).toNat = 48 := rfl
  have e2 : ('9' : Char).toNat = 57 := rfl
  constructor
  · rintro ⟨h1, h2⟩
    refine ⟨c.toNat - 48, by omega, ?_⟩
    have back : ∀ k, c.toNat = k → c = Char.ofNat k := fun k hk => by rw [← hk, Char.ofNat_toNat]
    have : c.toNat = 48 ∨ c.toNat = 49 ∨ c.toNat = 50 ∨ c.toNat = 51 ∨ c.toNat = 52 ∨ c.toNat = 53 ∨ c.toNat = 54 ∨
      c.toNat = 55 ∨ c.toNat = 56 ∨ c.toNat = 57 := by omega
    rcases this with h | h | h | h | h | h | h | h | h | h <;> (rw [h]; rw [back _ h]; rfl)
  · rintro ⟨d, hd, rfl⟩
    have := Nat.toNat_digitChar_of_lt_ten hd
    omega

theorem number_digits {t : Str} {n : Nat} (h : Number t n) : ∀ c ∈ t, isJsonDigit c = true := by
  induction h with
  | digit hd => intro c hc; simp only [List.mem_singleton] at hc; subst hc; exact (jsonDigit_iff _).2 ⟨_, hd, rfl⟩
  | more _ _ hd ih =>
    intro c hc
    rcases List.mem_append.1 hc with hc | hc
    · exact ih c hc
    · simp only [List.mem_singleton] at hc; subst hc; exact (jsonDigit_iff _).2 ⟨_, hd, rfl⟩

theorem number_value {t : Str} {n : Nat} (h : Number t n) : t.foldl (fun n c => n * 10 + (c.toNat - 48)) 0 = n := by
  induction h with
  | digit hd => simp [Nat.toNat_digitChar_of_lt_ten hd]
  | more _ _ hd ih => rw [List.foldl_append, ih]; simp [Nat.toNat_digitChar_of_lt_ten hd]; omega

theorem number_ne {t : Str} {n : Nat} (h : Number t n) : t ≠ [] := by
  cases h <;> simp

theorem number_head {t : Str} {n : Nat} (h : Number t n) : (t.head? = some '0' ↔ n = 0) ∧ (n = 0 → t.length = 1) := by
  induction h with
  | digit hd => simp [Nat.digitChar_eq_zero]
  | @more t n d h hn hd ih =>
    have hne := number_ne h
    have : (t ++ [Nat.digitChar d]).head? = t.head? := by
      cases t with
      | nil => exact absurd rfl hne
      | cons => rfl
    rw [this, ih.1]
    omega

/-- What may follow a value. -/
def Follows (r : Str) : Prop :=
  ∀ c, r.head? = some c → isJsonDigit c = false ∧ c ≠ '.' ∧ c ≠ 'e' ∧ c ≠ 'E'

theorem takeWhile_append_of {p : Char → Bool} {t r : Str} (ht : ∀ c ∈ t, p c = true) (hr : ∀ c, r.head? = some c → p c = false) :
    (t ++ r).takeWhile p = t ∧ (t ++ r).dropWhile p = r := by
  induction t with
  | nil =>
    cases r with
    | nil => simp
    | cons c r => simp [hr c rfl]
  | cons c t ih =>
    have hc := ht c List.mem_cons_self
    obtain ⟨h1, h2⟩ := ih fun x hx => ht x (List.mem_cons_of_mem _ hx)
    simp [hc, h1, h2]

theorem readNumber_of {t : Str} {n : Nat} (h : Number t n) {r : Str} (hr : Follows r) : readNumber (t ++ r) = some (n, r) := by
  obtain ⟨h1, h2⟩ := takeWhile_append_of (number_digits h) fun c hc => (hr c hc).1
  unfold readNumber
  simp only [h1, h2]
  rw [if_neg, number_value h]
  rintro (h3 | ⟨h3, h4⟩ | h3 | h3 | h3)
  · exact number_ne h h3
  · exact h4 ((number_head h).2 ((number_head h).1.1 h3))
  · exact (hr _ h3).2.1 rfl
  · exact (hr _ h3).2.2.1 rfl
  · exact (hr _ h3).2.2.2 rfl

theorem number_of_digits (t : Str) (hne : t ≠ []) (hd : ∀ c ∈ t, isJsonDigit c = true)
    (hz : t.head? = some '0' → t.length = 1) : Number t (t.foldl (fun n c => n * 10 + (c.toNat - 48)) 0) := by
  induction hn : t.length using Nat.strongRecOn generalizing t with
  | _ k ih =>
  rcases List.eq_nil_or_concat t with rfl | ⟨u, c, rfl⟩
  · exact absurd rfl hne
  · simp only [List.concat_eq_append] at *
    obtain ⟨d, hd', rfl⟩ := (jsonDigit_iff c).1 (hd c (by simp))
    rw [List.foldl_append]
    simp only [List.foldl_cons, List.foldl_nil, Nat.toNat_digitChar_of_lt_ten hd']
    by_cases hu : u = []
    · subst hu
      simpa using Number.digit hd'
    · have hhead : (u ++ [Nat.digitChar d]).head? = u.head? := by
        cases u with
        | nil => exact absurd rfl hu
        | cons => rfl
      rw [hhead] at hz
      have h0 : u.head? ≠ some '0' := by
        intro h
        have := hz h
        simp at this
        exact hu this
      have hN := ih u.length (by simp at hn; omega) u hu (fun x hx => hd x (by simp [hx])) (fun h => absurd h h0) rfl
      have hpos : 0 < u.foldl (fun n c => n * 10 + (c.toNat - 48)) 0 := by
        rcases Nat.eq_zero_or_pos (u.foldl (fun n c => n * 10 + (c.toNat - 48)) 0) with h | h
        · exact absurd ((number_head hN).1.2 h) h0
        · exact h
      have := Number.more hN hpos hd'
      rw [show 10 * u.foldl (fun n c => n * 10 + (c.toNat - 48)) 0 + d =
        u.foldl (fun n c => n * 10 + (c.toNat - 48)) 0 * 10 + (48 + d - 48) by omega] at this
      exact this

theorem of_readNumber {s r : Str} {n : Nat} (h : readNumber s = some (n, r)) : ∃ t, Number t n ∧ s = t ++ r := by
  unfold readNumber at h
  simp only at h
  split at h
  · cases h
  · next hc =>
    simp only [not_or, not_and, Decidable.not_not] at hc
    simp only [Option.some.injEq, Prod.mk.injEq] at h
    obtain ⟨rfl, rfl⟩ := h
    exact ⟨s.takeWhile isJsonDigit, number_of_digits _ hc.1 (fun c h => List.all_eq_true.1 List.all_takeWhile c h) hc.2.1,
      (List.takeWhile_append_dropWhile).symm⟩

theorem number_toDigits (n : Nat) : Number (Nat.toDigits 10 n) n := by
  induction n using Nat.strongRecOn with
  | _ n ih =>
  by_cases h : n < 10
  · rw [Nat.toDigits_of_lt_base h]; exact .digit h
  · rw [Nat.toDigits_of_base_le (by decide) (by omega)]
    have := Number.more (ih (n / 10) (by omega)) (by omega) (Nat.mod_lt n (by decide : 10 > 0))
    rwa [show 10 * (n / 10) + n % 10 = n by omega] at this

end Sds
