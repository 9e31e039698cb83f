import Verif.Spec.Meaning
import Verif.Props.Normalize

/-! # Lemmas: character classes before and after conversion -/

namespace Sds.Re
open Sds Spec

variable {T : Tables} {i : Bool}

theorem near_false (S : Char → Prop) : near T false S = S := by
  funext x; simp [near]

theorem near_low {S : Char → Prop} (h : ∀ x, S x → x.toNat < 65) : near T i S = S := by
  funext x
  cases i with
  | false => simp [near]
  | true =>
    simp only [near, if_true, eq_iff_iff]
    exact ⟨fun ⟨y, hy, hs⟩ => T.low hs (h y hy) ▸ hy, fun hx => ⟨x, hx, T.refl x⟩⟩

theorem near_near (S : Char → Prop) : near T i (near T i S) = near T i S := by
  funext x
  cases i with
  | false => simp [near]
  | true =>
    simp only [near, if_true, eq_iff_iff]
    exact ⟨fun ⟨y, ⟨z, hz, hzy⟩, hyx⟩ => ⟨z, hz, T.trans hzy hyx⟩, fun hx => ⟨x, hx, T.refl x⟩⟩

theorem signed_false (S : Char → Prop) : signed false S = S := by funext x; simp [signed]

theorem near_signed (n : Bool) (S : Char → Prop) : near T i (signed n (near T i S)) = signed n (near T i S) := by
  cases n with
  | false => rw [signed_false, near_near]
  | true =>
    funext x
    cases i with
    | false => simp [near]
    | true =>
      simp only [near, signed, if_true, eq_iff_iff]
      refine ⟨fun ⟨y, hy, hyx⟩ ⟨z, hz, hzx⟩ => hy ⟨z, hz, T.trans hzx (T.symm hyx)⟩, fun hx => ⟨x, hx, T.refl x⟩⟩

theorem near_or (S S' : Char → Prop) :
    near T i (fun x => S x ∨ S' x) = fun x => near T i S x ∨ near T i S' x := by
  funext x
  cases i with
  | false => simp [near]
  | true =>
    simp only [near, if_true, eq_iff_iff]
    constructor
    · rintro ⟨y, h | h, hs⟩
      · exact .inl ⟨y, h, hs⟩
      · exact .inr ⟨y, h, hs⟩
    · rintro (⟨y, h, hs⟩ | ⟨y, h, hs⟩)
      · exact ⟨y, .inl h, hs⟩
      · exact ⟨y, .inr h, hs⟩

theorem near_empty : near T i (fun _ => False) = fun _ => False := by
  funext x; cases i <;> simp [near]

/-! ## Literals and ranges -/

theorem rustItemSet_bracketLiteral (t : RFlagState) (c : Char) :
    rustItemSet T t (bracketLiteral c) = (· = c) := by
  funext x
  simp only [bracketLiteral, rustItemSet, convertLiteral, eq_iff_iff, and_iff_left_iff_imp]
  rintro _ ⟨_, hk, hw⟩
  rw [hw] at hk
  split at hk
  · cases hk
  · simp at hk

theorem rustItemSet_bracketRange (t : RFlagState) (a b : Char) :
    rustItemSet T t (bracketRange a b) = between a b := rfl

/-! ## Named classes -/

theorem char_le_nat {a b : Char} : a ≤ b ↔ a.toNat ≤ b.toNat := Iff.rfl

theorem digits_low (x : Char) (h : between '0' '9' x) : x.toNat < 65 := by
  have h2 : x.toNat ≤ 57 := h.2
  omega

theorem rust_digit (t : RFlagState) (n : Bool) :
    signed n (near T i (rustItemSet T t (perlClassDigit n).item)) = signed n (between '0' '9') := by
  rw [perlClassDigit, rustItemSet_bracketRange, near_low digits_low]

theorem rust_space (t : RFlagState) (n : Bool) :
    signed n (near T i (rustItemSet T t (perlClassSpace n).item)) =
      signed n fun x => x ∈ [' ', '\t', '\n', '\r', Char.ofNat 11, Char.ofNat 12] := by
  congr 1
  have : rustItemSet T t (perlClassSpace n).item =
      fun x => x ∈ [' ', '\t', '\n', '\r', Char.ofNat 11, Char.ofNat 12] := by
    funext x
    simp only [perlClassSpace, rustItemSet, rustItemsSet, rustItemSet_bracketLiteral, List.mem_cons, List.not_mem_nil,
      or_false, eq_iff_iff]
    constructor <;> (rintro (h | h | h | h | h | h) <;> subst h <;> decide)
  rw [this]
  refine near_low fun x hx => ?_
  simp only [List.mem_cons, List.not_mem_nil, or_false] at hx
  rcases hx with h | h | h | h | h | h <;> subst h <;> decide

theorem rust_horizontal (t : RFlagState) (n : Bool) :
    signed n (near T i (rustItemSet T t (horizontalWhitespace n).item)) = signed n horizontal := by
  congr 1
  have : rustItemSet T t (horizontalWhitespace n).item = horizontal := by
    funext x
    simp only [horizontalWhitespace, rustItemSet, rustItemsSet, rustItemSet_bracketLiteral, or_false, horizontal]
  rw [this]
  refine near_low fun x hx => ?_
  rcases hx with h | h <;> subst h <;> decide

theorem rust_vertical (t : RFlagState) (n : Bool) :
    signed n (near T i (rustItemSet T t (verticalWhitespace n).item)) = signed n vertical := by
  congr 1
  have : rustItemSet T t (verticalWhitespace n).item = vertical := by
    funext x
    simp only [verticalWhitespace, rustItemSet, rustItemsSet, rustItemSet_bracketLiteral, or_false, vertical,
      eq_iff_iff]
    constructor
    · rintro (h | h | h | h) <;> subst h <;> decide
    · rintro ⟨h1, h2⟩
      have : x.toNat = 11 ∨ x.toNat = 10 ∨ x.toNat = 12 ∨ x.toNat = 13 := by omega
      rcases this with h | h | h | h
      · exact .inl (by rw [← Char.ofNat_toNat x, h])
      · exact .inr (.inl (by rw [← Char.ofNat_toNat x, h]))
      · exact .inr (.inr (.inl (by rw [← Char.ofNat_toNat x, h])))
      · exact .inr (.inr (.inr (by rw [← Char.ofNat_toNat x, h])))
  rw [this]
  exact near_low fun x hx => by have := hx.2; omega

theorem rust_word (t : RFlagState) (n : Bool) :
    rustItemSet T t (perlClassWord n).item = AsciiWordChar := by
  funext x
  have := rustItemSet_bracketLiteral (T := T) t '_'
  have h' : rustItemSet T t (.literal (convertLiteral { c := '_', escaped := false } .bracketedCharacterClass)) =
      (· = '_') := by rw [← this]; rfl
  have h'' : x = (convertLiteral { c := '_', escaped := false } .bracketedCharacterClass).c ∧ ¬ _ ↔ x = '_' :=
    iff_of_eq (congrFun h' x)
  simp only [perlClassWord, rustItemSet, rustItemsSet]
  rw [eq_iff_iff, rustItemSet_bracketRange, rustItemSet_bracketRange, rustItemSet_bracketRange, h'', or_false]
  rfl

theorem rust_perl (t : RFlagState) (p : PerlClass) (h : (p ≠ .word ∧ p ≠ .nonWord) ∨ i = false) :
    signed (convertPerlClass p).negated (near T i (rustItemSet T t (convertPerlClass p).item)) = perlSet p := by
  cases p with
  | digit => exact (rust_digit t false).trans (signed_false _)
  | nonDigit => exact rust_digit t true
  | space => exact (rust_space t false).trans (signed_false _)
  | nonSpace => exact rust_space t true
  | word =>
    rcases h with h | h
    · exact absurd rfl h.1
    · subst h
      rw [near_false]
      exact (signed_false _).trans (rust_word t false)
  | nonWord =>
    rcases h with h | h
    · exact absurd rfl h.2
    · subst h
      rw [near_false]
      exact congrArg (signed true) (rust_word t true)

theorem rust_posix_table (k : AsciiClassKind) : rustPosixSet (convertAsciiClassKind k) = posixSet k := by
  cases k <;> rfl

theorem posix_ascii (k : AsciiClassKind) {x : Char} (h : inRanges (posixSet k) x) : x.toNat < 128 := by
  obtain ⟨r, hr, h1, h2⟩ := h
  have : ∀ r ∈ posixSet k, r.2 < 128 := by cases k <;> decide
  have := this r hr
  omega

theorem posix_letters {k : AsciiClassKind} {n : Bool} (hk : ¬ HasLetters (.ascii n k)) {x : Char}
    (h : inRanges (posixSet k) x) : x ∉ ['k', 'K', 's', 'S'] := by
  have key : ∀ c ∈ ['k', 'K', 's', 'S'], ∀ r ∈ posixSet k, ¬ (r.1 ≤ c.toNat ∧ c.toNat ≤ r.2) := by
    cases k <;> first | decide | exact absurd (by simp [HasLetters]) hk
  obtain ⟨r, hr, hb⟩ := h
  exact fun hx => key x hx r hr hb

theorem rust_posix {k : AsciiClassKind} {n : Bool} (h : ¬ HasLetters (.ascii n k) ∨ i = false) :
    near T i (inRanges (rustPosixSet (convertAsciiClassKind k))) =
      fun x => x.toNat < 128 ∧ near T i (inRanges (posixSet k)) x := by
  rw [rust_posix_table]
  funext x
  rw [eq_iff_iff]
  refine ⟨fun hx => ⟨?_, hx⟩, fun hx => hx.2⟩
  cases i with
  | false => rw [near_false] at hx; exact posix_ascii k hx
  | true =>
    simp only [near, if_true] at hx
    obtain ⟨y, hy, hs⟩ := hx
    rcases h with h | h
    · exact Nat.not_le.1 fun hge => posix_letters h hy (T.ascii hs (posix_ascii k hy) hge)
    · cases h

/-! ## Bracketed classes -/

theorem rust_item (t : RFlagState) (it : BracketItem) (hi : t .caseInsensitive = i)
    (h : ¬ HasLetters it ∨ i = false) :
    near T i (rustItemSet T t (convertBracketItem it)) = itemSet T i it := by
  cases it with
  | literal c => rw [convertBracketItem, rustItemSet_bracketLiteral]; rfl
  | range a b => rfl
  | perl p =>
    simp only [convertBracketItem, RBracketed.toItem, rustItemSet, hi, near_signed]
    exact rust_perl t p (h.imp (fun h => by simpa [HasLetters] using h) id)
  | unicodeProperty u => simp only [convertBracketItem, rustItemSet, hi, near_signed]; rfl
  | ascii n k =>
    simp only [convertBracketItem, rustItemSet, hi, near_signed]
    rw [rust_posix h]
    rfl
  | horizontalWhitespace =>
    simp only [convertBracketItem, RBracketed.toItem, rustItemSet, hi, near_signed]
    exact (rust_horizontal t false).trans (signed_false _)
  | notHorizontalWhitespace =>
    simp only [convertBracketItem, RBracketed.toItem, rustItemSet, hi, near_signed]
    exact rust_horizontal t true
  | verticalWhitespace =>
    simp only [convertBracketItem, RBracketed.toItem, rustItemSet, hi, near_signed]
    exact (rust_vertical t false).trans (signed_false _)
  | notVerticalWhitespace =>
    simp only [convertBracketItem, RBracketed.toItem, rustItemSet, hi, near_signed]
    exact rust_vertical t true

theorem rust_items (t : RFlagState) (items : List BracketItem) (hi : t .caseInsensitive = i)
    (h : ∀ it ∈ items, ¬ HasLetters it ∨ i = false) :
    near T i (rustItemsSet T t (convertBracketItems items)) = fun x => ∃ it ∈ items, itemSet T i it x := by
  induction items with
  | nil => simp [convertBracketItems, rustItemsSet, near_empty]
  | cons it items ih =>
    have ih := ih fun it' h' => h it' (List.mem_cons_of_mem _ h')
    simp only [convertBracketItems] at ih
    simp only [convertBracketItems, List.map_cons, rustItemsSet]
    rw [near_or, ih, rust_item t it hi (h it List.mem_cons_self)]
    funext x
    simp

end Sds.Re
