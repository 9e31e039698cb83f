import Verif.Model.Codec
import Verif.Lemmas.Str

/-! Lemmas about UTF-8. -/

namespace Sds

theorem char_range (c : Char) : c.toNat < 0xD800 ∨ (0xDFFF < c.toNat ∧ c.toNat < 0x110000) := c.valid

theorem ofNat_of_eq {c : Char} {n : Nat} (h : n = c.toNat) : Char.ofNat n = c := by
  rw [h, Char.ofNat_toNat]

theorem lossyStep_utf8Char (c : Char) :
    ∃ a tl, utf8Char c = a :: tl ∧ ∀ rest, lossyStep a (tl ++ rest) = (c, tl.length) := by
  have hr := char_range c
  generalize hn : c.toNat = n at hr
  unfold utf8Char
  simp only [hn]
  by_cases h1 : n < 0x80
  · simp only [if_pos h1]
    refine ⟨_, _, rfl, fun rest => ?_⟩
    simp only [lossyStep, if_pos h1, List.length_nil]
    rw [ofNat_of_eq hn.symm]
  · by_cases h2 : n < 0x800
    · simp only [if_neg h1, if_pos h2]
      refine ⟨_, _, rfl, fun rest => ?_⟩
      have a1 : ¬ 0xC0 + n / 64 < 0x80 := by omega
      have a2 : 0xC2 ≤ 0xC0 + n / 64 ∧ 0xC0 + n / 64 ≤ 0xDF := by omega
      have a3 : isCont (0x80 + n % 64) = true := by simp [isCont]; omega
      simp only [lossyStep, List.cons_append, List.nil_append, List.getD_cons_zero, if_neg a1, if_pos a2, a3, if_true]
      rw [ofNat_of_eq (c := c) (by omega)]
      rfl
    · by_cases h3 : n < 0x10000
      · simp only [if_neg h1, if_neg h2, if_pos h3]
        refine ⟨_, _, rfl, fun rest => ?_⟩
        have a1 : ¬ 0xE0 + n / 4096 < 0x80 := by omega
        have a2 : ¬ (0xC2 ≤ 0xE0 + n / 4096 ∧ 0xE0 + n / 4096 ≤ 0xDF) := by omega
        have a3 : 0xE0 ≤ 0xE0 + n / 4096 ∧ 0xE0 + n / 4096 ≤ 0xEF := by omega
        have a4 : second3 (0xE0 + n / 4096) (0x80 + n / 64 % 64) = true := by
          simp only [second3, isCont, Bool.or_eq_true, Bool.and_eq_true, decide_eq_true_eq, beq_iff_eq]
          omega
        have a5 : isCont (0x80 + n % 64) = true := by simp [isCont]; omega
        simp only [lossyStep, List.cons_append, List.nil_append, List.getD_cons_zero, List.getD_cons_succ, if_neg a1,
          if_neg a2, if_pos a3, a4, a5, if_true]
        rw [ofNat_of_eq (c := c) (by omega)]
        rfl
      · simp only [if_neg h1, if_neg h2, if_neg h3]
        refine ⟨_, _, rfl, fun rest => ?_⟩
        have a1 : ¬ 0xF0 + n / 262144 < 0x80 := by omega
        have a2 : ¬ (0xC2 ≤ 0xF0 + n / 262144 ∧ 0xF0 + n / 262144 ≤ 0xDF) := by omega
        have a3 : ¬ (0xE0 ≤ 0xF0 + n / 262144 ∧ 0xF0 + n / 262144 ≤ 0xEF) := by omega
        have a4 : 0xF0 ≤ 0xF0 + n / 262144 ∧ 0xF0 + n / 262144 ≤ 0xF4 := by omega
        have a5 : second4 (0xF0 + n / 262144) (0x80 + n / 4096 % 64) = true := by
          simp only [second4, isCont, Bool.or_eq_true, Bool.and_eq_true, decide_eq_true_eq, beq_iff_eq]
          omega
        have a6 : isCont (0x80 + n / 64 % 64) = true := by simp [isCont]; omega
        have a7 : isCont (0x80 + n % 64) = true := by simp [isCont]; omega
        simp only [lossyStep, List.cons_append, List.nil_append, List.getD_cons_zero, List.getD_cons_succ, if_neg a1,
          if_neg a2, if_neg a3, if_pos a4, a5, a6, a7, if_true]
        rw [ofNat_of_eq (c := c) (by omega)]
        rfl

theorem lossyGo_skip (k : Nat) (b : Bytes) : lossyGo k b = lossyGo 0 (b.drop k) := by
  induction b generalizing k with
  | nil => simp [lossyGo]
  | cons a b ih => cases k with
    | zero => rfl
    | succ k => simpa [lossyGo] using ih k

theorem lossyGo_utf8Char (c : Char) (rest : Bytes) : lossyGo 0 (utf8Char c ++ rest) = c :: lossyGo 0 rest := by
  obtain ⟨a, tl, h1, h2⟩ := lossyStep_utf8Char c
  rw [h1, List.cons_append, lossyGo, h2, lossyGo_skip, List.drop_left]

/-- Decoding valid UTF-8. -/
theorem lossy_utf8 (s : Str) : lossy (utf8 s) = s := by
  unfold lossy
  induction s with
  | nil => rfl
  | cons c s ih => rw [utf8, lossyGo_utf8Char, ih]

theorem utf8_inj {a b : Str} (h : utf8 a = utf8 b) : a = b := by
  rw [← lossy_utf8 a, h, lossy_utf8]

theorem utf8_append (a b : Str) : utf8 (a ++ b) = utf8 a ++ utf8 b := by
  induction a with
  | nil => rfl
  | cons c a ih => simp [utf8, ih]

theorem utf8Char_length (c : Char) : (utf8Char c).length = c.utf8Size := by
  have hr := char_range c
  have h : c.val.toNat = c.toNat := rfl
  simp only [utf8Char, Char.utf8Size, UInt32.le_iff_toNat_le, h]
  repeat' split <;> simp_all
  all_goals omega

/-- The number of bytes. -/
theorem utf8_length (s : Str) : (utf8 s).length = blen s := by
  induction s with
  | nil => rfl
  | cons c s ih => simp [utf8, utf8Char_length, ih]

/-- Everything is a byte. -/
theorem utf8_lt (s : Str) : ∀ b ∈ utf8 s, b < 256 := by
  induction s with
  | nil => intro b hb; cases hb
  | cons c s ih =>
    intro b hb
    rw [utf8, List.mem_append] at hb
    rcases hb with hb | hb
    · have hr := char_range c
      simp only [utf8Char] at hb
      split at hb
      · simp at hb; omega
      · split at hb
        · simp at hb; omega
        · split at hb <;> simp at hb <;> omega
    · exact ih b hb

/-- The encoding is that of the Lean core library. -/
theorem utf8Char_core (c : Char) : utf8Char c = (String.utf8EncodeChar c).map UInt8.toNat := by
  have hr := char_range c
  have hv : c.val.toNat = c.toNat := rfl
  unfold utf8Char String.utf8EncodeChar
  simp only [hv]
  by_cases h1 : c.toNat < 0x80
  · rw [if_pos h1, if_pos (by omega)]
    simp; omega
  · by_cases h2 : c.toNat < 0x800
    · rw [if_neg h1, if_pos h2, if_neg (by omega), if_pos (by omega)]
      simp; omega
    · by_cases h3 : c.toNat < 0x10000
      · rw [if_neg h1, if_neg h2, if_pos h3, if_neg (by omega), if_neg (by omega), if_pos (by omega)]
        simp; omega
      · rw [if_neg h1, if_neg h2, if_neg h3, if_neg (by omega), if_neg (by omega), if_neg (by omega)]
        simp; omega

end Sds
