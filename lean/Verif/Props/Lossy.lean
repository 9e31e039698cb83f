import Verif.Spec.Lossy
import Verif.Lemmas.Utf8
import Verif.Props.GoRule

/-! # C72: bytes that are not UTF-8 -/

namespace Sds
namespace Props
open Sds Spec

/-- The form of an encoded character. -/
private theorem enc_cases (c : Char) :
    (∃ a, a < 0x80 ∧ utf8Char c = [a]) ∨
    (∃ a b, 0xC2 ≤ a ∧ a ≤ 0xDF ∧ isCont b = true ∧ utf8Char c = [a, b]) ∨
    (∃ a b d, 0xE0 ≤ a ∧ a ≤ 0xEF ∧ second3 a b = true ∧ isCont d = true ∧ utf8Char c = [a, b, d]) ∨
    (∃ a b d e, 0xF0 ≤ a ∧ a ≤ 0xF4 ∧ second4 a b = true ∧ isCont d = true ∧ isCont e = true ∧
      utf8Char c = [a, b, d, e]) := by
  have hr := char_range c
  unfold utf8Char
  generalize c.toNat = n at hr
  simp only
  split
  · exact .inl ⟨n, by assumption, rfl⟩
  · split
    · refine .inr (.inl ⟨_, _, ?_, ?_, ?_, rfl⟩)
      · omega
      · omega
      · simp [isCont]; omega
    · split
      · refine .inr (.inr (.inl ⟨_, _, _, ?_, ?_, ?_, ?_, rfl⟩))
        · omega
        · omega
        · simp only [second3, isCont, Bool.or_eq_true, Bool.and_eq_true, decide_eq_true_eq, beq_iff_eq]; omega
        · simp [isCont]; omega
      · refine .inr (.inr (.inr ⟨_, _, _, _, ?_, ?_, ?_, ?_, ?_, rfl⟩))
        · omega
        · omega
        · simp only [second4, isCont, Bool.or_eq_true, Bool.and_eq_true, decide_eq_true_eq, beq_iff_eq]; omega
        · simp [isCont]; omega
        · simp [isCont]; omega

private theorem toNat_ofNat {n : Nat} (h : n < 0xD800 ∨ (0xDFFF < n ∧ n < 0x110000)) : (Char.ofNat n).toNat = n := by
  have hv : n.isValidChar := h
  rw [Char.ofNat, dif_pos hv]
  rfl

private theorem enc1 {a : Nat} (h : a < 0x80) : utf8Char (Char.ofNat a) = [a] := by
  unfold utf8Char
  rw [toNat_ofNat (by omega)]
  simp [h]

private theorem enc2 {a b : Nat} (h1 : 0xC2 ≤ a) (h2 : a ≤ 0xDF) (hb : isCont b = true) :
    utf8Char (Char.ofNat ((a - 0xC0) * 64 + (b - 0x80))) = [a, b] := by
  simp only [isCont, Bool.and_eq_true, decide_eq_true_eq] at hb
  unfold utf8Char
  rw [toNat_ofNat (by omega)]
  simp only
  rw [if_neg (by omega), if_pos (by omega)]
  simp only [List.cons.injEq, and_true]
  omega

private theorem enc3 {a b d : Nat} (hb : second3 a b = true) (hd : isCont d = true) :
    utf8Char (Char.ofNat ((a - 0xE0) * 4096 + (b - 0x80) * 64 + (d - 0x80))) = [a, b, d] := by
  simp only [second3, isCont, Bool.or_eq_true, Bool.and_eq_true, decide_eq_true_eq, beq_iff_eq] at hb hd
  unfold utf8Char
  rw [toNat_ofNat (by omega)]
  simp only
  rw [if_neg (by omega), if_neg (by omega), if_pos (by omega)]
  simp only [List.cons.injEq, and_true]
  omega

private theorem enc4 {a b d e : Nat} (hb : second4 a b = true) (hd : isCont d = true) (he : isCont e = true) :
    utf8Char (Char.ofNat ((a - 0xF0) * 262144 + (b - 0x80) * 4096 + (d - 0x80) * 64 + (e - 0x80))) = [a, b, d, e] := by
  simp only [second4, isCont, Bool.or_eq_true, Bool.and_eq_true, decide_eq_true_eq, beq_iff_eq] at hb hd he
  unfold utf8Char
  rw [toNat_ofNat (by omega)]
  simp only
  rw [if_neg (by omega), if_neg (by omega), if_neg (by omega)]
  simp only [List.cons.injEq, and_true]
  omega

/-- A second byte exists for every first byte of a long sequence. -/
private theorem some3 {a : Nat} (h1 : 0xE0 ≤ a) (h2 : a ≤ 0xEF) : ∃ b, second3 a b = true := by
  by_cases h : a = 0xED
  · exact ⟨0x80, by simp [second3, isCont, h]⟩
  · refine ⟨0xA0, ?_⟩
    simp only [second3, isCont, Bool.or_eq_true, Bool.and_eq_true, decide_eq_true_eq, beq_iff_eq]
    omega

private theorem some4 {a : Nat} (h1 : 0xF0 ≤ a) (h2 : a ≤ 0xF4) : ∃ b, second4 a b = true := by
  by_cases h : a = 0xF4
  · exact ⟨0x80, by simp [second4, isCont, h]⟩
  · refine ⟨0x90, ?_⟩
    simp only [second4, isCont, Bool.or_eq_true, Bool.and_eq_true, decide_eq_true_eq, beq_iff_eq]
    omega

private theorem cont80 : isCont 0x80 = true := by decide
private theorem cont0 : isCont 0 = false := by decide
private theorem second3_0 (a : Nat) : second3 a 0 = false := by simp [second3, isCont]
private theorem second4_0 (a : Nat) : second4 a 0 = false := by simp [second4, isCont]

/-- What one step of the decoder finds. -/
private inductive Found (l : Bytes) (c : Char) (k : Nat) : Prop where
  | char (h : utf8Char c = l.take (k + 1)) : Found l c k
  | bad (hc : c = Char.ofNat 0xFFFD) (h : IllFormedPart (l.take (k + 1)) (l.drop (k + 1))) : Found l c k

/-- The part `x :: p` is ill-formed: it is inside a character, and the next byte does not continue it. -/
private theorem part_of {x : Nat} {p rest : Bytes} (hin : InChar (x :: p))
    (hnext : ∀ b r, rest = b :: r → ¬ InChar (x :: p ++ [b])) (hlen : ∀ c, utf8Char c ≠ x :: p)
    (hs : ∀ c, utf8Char c <+: x :: p ++ rest → p.length < (utf8Char c).length) : IllFormedPart (x :: p) rest := by
  have hq : ∀ q, q <+: rest → q ≠ [] → ¬ InChar (x :: p ++ q) := by
    intro q hq hne ⟨c, hc⟩
    cases q with
    | nil => exact hne rfl
    | cons b q =>
      obtain ⟨r, hr⟩ := hq
      refine hnext b (q ++ r) (by rw [← hr]; rfl) ⟨c, List.IsPrefix.trans ?_ hc⟩
      exact ⟨q, by simp⟩
  refine ⟨?_, by simp, .inl ⟨hin, hq⟩⟩
  rintro ⟨c, hc⟩
  have h1 := hs c hc
  obtain ⟨t, ht⟩ := hc
  have h2 : x :: p <+: utf8Char c := by
    refine List.prefix_of_prefix_length_le (l₃ := x :: p ++ rest) ⟨rest, rfl⟩ ⟨t, ht⟩ ?_
    simp; omega
  obtain ⟨q, hq'⟩ := h2
  cases q with
  | nil => exact hlen c (by rw [← hq']; simp)
  | cons b q =>
    refine hq (b :: q) ?_ (by simp) ⟨c, by rw [hq']; exact List.prefix_rfl⟩
    rw [← hq'] at ht
    rw [List.append_assoc] at ht
    exact ⟨t, List.append_cancel_left ht⟩

/-- The number of bytes of a character by its first byte. -/
private theorem enc_len {c : Char} {a : Nat} {tl : Bytes} (h : utf8Char c = a :: tl) :
    (a < 0x80 ∧ tl = []) ∨ (0xC2 ≤ a ∧ a ≤ 0xDF ∧ ∃ b, isCont b = true ∧ tl = [b]) ∨
    (0xE0 ≤ a ∧ a ≤ 0xEF ∧ ∃ b d, second3 a b = true ∧ isCont d = true ∧ tl = [b, d]) ∨
    (0xF0 ≤ a ∧ a ≤ 0xF4 ∧ ∃ b d e, second4 a b = true ∧ isCont d = true ∧ isCont e = true ∧ tl = [b, d, e]) := by
  rcases enc_cases c with ⟨a', h1, he⟩ | ⟨a', b, h1, h2, h3, he⟩ | ⟨a', b, d, h1, h2, h3, h4, he⟩ |
    ⟨a', b, d, e, h1, h2, h3, h4, h5, he⟩ <;> rw [h] at he <;> injection he with e1 e2 <;> subst e1 <;> subst e2
  · exact .inl ⟨h1, rfl⟩
  · exact .inr (.inl ⟨h1, h2, _, h3, rfl⟩)
  · exact .inr (.inr (.inl ⟨h1, h2, _, _, h3, h4, rfl⟩))
  · exact .inr (.inr (.inr ⟨h1, h2, _, _, _, h3, h4, h5, rfl⟩))

/-- A prefix of a character is the beginning of its bytes. -/
private theorem inChar_cons {a : Nat} {p : Bytes} (h : InChar (a :: p)) : ∃ c tl, utf8Char c = a :: tl ∧ p <+: tl := by
  obtain ⟨c, q, hq⟩ := h
  exact ⟨c, p ++ q, by rw [← hq]; rfl, q, rfl⟩

private theorem prefix_two {x y : Nat} {tl : Bytes} (h : [x] <+: y :: tl) : x = y := by
  obtain ⟨q, hq⟩ := h
  injection hq

private theorem found (a : Nat) (rest : Bytes) : Found (a :: rest) (lossyStep a rest).1 (lossyStep a rest).2 := by
  have hE : ∀ {c : Char} {tl : Bytes} {n : Nat}, utf8Char c = a :: tl → utf8Char c <+: a :: rest → n ≤ tl.length →
      n < (utf8Char c).length := by
    intro c tl n h _ hn
    rw [h]; simp; omega
  have hfst : ∀ {c : Char}, utf8Char c <+: a :: rest → ∃ tl, utf8Char c = a :: tl := by
    intro c hc
    obtain ⟨t, ht⟩ := hc
    obtain ⟨a', tl, h, -⟩ := lossyStep_utf8Char c
    rw [h, List.cons_append] at ht
    injection ht with e1 e2
    exact ⟨tl, by rw [h, e1]⟩
  by_cases h0 : a < 0x80
  · have : lossyStep a rest = (Char.ofNat a, 0) := by simp [lossyStep, h0]
    rw [this]
    exact .char (by rw [enc1 h0]; rfl)
  by_cases h1 : 0xC2 ≤ a ∧ a ≤ 0xDF
  · cases hb : isCont (rest.getD 0 0) with
    | true =>
      have : lossyStep a rest = (Char.ofNat ((a - 0xC0) * 64 + (rest.getD 0 0 - 0x80)), 1) := by
        simp only [lossyStep, if_neg h0, if_pos h1, hb, if_true]
      rw [this]
      refine .char ?_
      rw [enc2 h1.1 h1.2 hb]
      cases rest with
      | nil => rw [List.getD_nil, cont0] at hb; cases hb
      | cons b rest => rfl
    | false =>
      have : lossyStep a rest = (replacementChar, 0) := by
        simp only [lossyStep, if_neg h0, if_pos h1, hb, Bool.false_eq_true, if_false]
      rw [this]
      refine .bad rfl (part_of (p := []) ⟨_, [0x80], (enc2 h1.1 h1.2 cont80).symm⟩ ?_ ?_ ?_)
      · intro b r hr hin
        change rest = b :: r at hr
        obtain ⟨c, tl, hc, hp⟩ := inChar_cons hin
        rcases enc_len hc with h | ⟨-, -, b', hb', rfl⟩ | h | h
        · omega
        · rw [hr, List.getD_cons_zero, prefix_two hp, hb'] at hb; cases hb
        · omega
        · omega
      · intro c hc
        rcases enc_len hc with h | ⟨-, -, b', hb', h⟩ | h | h
        · omega
        · cases h
        · omega
        · omega
      · intro c hc
        obtain ⟨tl, htl⟩ := hfst hc
        exact hE htl hc (Nat.zero_le _)
  by_cases h2 : 0xE0 ≤ a ∧ a ≤ 0xEF
  · cases hb : second3 a (rest.getD 0 0) with
    | true =>
      cases rest with
      | nil => rw [List.getD_nil, second3_0] at hb; cases hb
      | cons b rest =>
      rw [List.getD_cons_zero] at hb
      cases hd : isCont (rest.getD 0 0) with
      | true =>
        have : lossyStep a (b :: rest) =
            (Char.ofNat ((a - 0xE0) * 4096 + (b - 0x80) * 64 + (rest.getD 0 0 - 0x80)), 2) := by
          simp only [lossyStep, if_neg h0, if_neg h1, if_pos h2, List.getD_cons_zero, List.getD_cons_succ, hb, hd, if_true]
        rw [this]
        refine .char ?_
        rw [enc3 hb hd]
        cases rest with
        | nil => rw [List.getD_nil, cont0] at hd; cases hd
        | cons d rest => rfl
      | false =>
        have : lossyStep a (b :: rest) = (replacementChar, 1) := by
          simp only [lossyStep, if_neg h0, if_neg h1, if_pos h2, List.getD_cons_zero, List.getD_cons_succ, hb, hd,
            if_true, Bool.false_eq_true, if_false]
        rw [this]
        refine .bad rfl (part_of (p := [b]) ⟨_, [0x80], (enc3 hb cont80).symm⟩ ?_ ?_ ?_)
        · intro d r hr hin
          change rest = d :: r at hr
          obtain ⟨c, tl, hc, hp⟩ := inChar_cons hin
          rcases enc_len hc with h | h | ⟨-, -, b', d', hb', hd', rfl⟩ | h
          · omega
          · omega
          · obtain ⟨q, hq⟩ := hp
            change b :: d :: q = [b', d'] at hq
            simp only [List.cons.injEq] at hq
            rw [hr, List.getD_cons_zero, hq.2.1, hd'] at hd; cases hd
          · omega
        · intro c hc
          rcases enc_len hc with h | h | ⟨-, -, b', d', hb', hd', h⟩ | h
          · omega
          · omega
          · cases h
          · omega
        · intro c hc
          obtain ⟨tl, htl⟩ := hfst hc
          refine hE htl hc ?_
          rcases enc_len htl with h | h | ⟨-, -, b', d', hb', hd', rfl⟩ | h
          · omega
          · omega
          · simp
          · omega
    | false =>
      have : lossyStep a rest = (replacementChar, 0) := by
        simp only [lossyStep, if_neg h0, if_neg h1, if_pos h2, hb, Bool.false_eq_true, if_false]
      rw [this]
      obtain ⟨w, hw⟩ := some3 h2.1 h2.2
      refine .bad rfl (part_of (p := []) ⟨_, [w, 0x80], (enc3 hw cont80).symm⟩ ?_ ?_ ?_)
      · intro b r hr hin
        change rest = b :: r at hr
        obtain ⟨c, tl, hc, hp⟩ := inChar_cons hin
        rcases enc_len hc with h | h | ⟨-, -, b', d', hb', -, rfl⟩ | h
        · omega
        · omega
        · rw [hr, List.getD_cons_zero, prefix_two hp, hb'] at hb; cases hb
        · omega
      · intro c hc
        rcases enc_len hc with h | h | ⟨-, -, b', d', hb', -, h⟩ | h
        · omega
        · omega
        · cases h
        · omega
      · intro c hc
        obtain ⟨tl, htl⟩ := hfst hc
        exact hE htl hc (Nat.zero_le _)
  by_cases h3 : 0xF0 ≤ a ∧ a ≤ 0xF4
  · cases hb : second4 a (rest.getD 0 0) with
    | true =>
      cases rest with
      | nil => rw [List.getD_nil, second4_0] at hb; cases hb
      | cons b rest =>
      rw [List.getD_cons_zero] at hb
      cases hd : isCont (rest.getD 0 0) with
      | true =>
        cases rest with
        | nil => rw [List.getD_nil, cont0] at hd; cases hd
        | cons d rest =>
        rw [List.getD_cons_zero] at hd
        cases he : isCont (rest.getD 0 0) with
        | true =>
          have : lossyStep a (b :: d :: rest) = (Char.ofNat ((a - 0xF0) * 262144 + (b - 0x80) * 4096 +
              (d - 0x80) * 64 + (rest.getD 0 0 - 0x80)), 3) := by
            simp only [lossyStep, if_neg h0, if_neg h1, if_neg h2, if_pos h3, List.getD_cons_zero, List.getD_cons_succ,
              hb, hd, he, if_true]
          rw [this]
          refine .char ?_
          rw [enc4 hb hd he]
          cases rest with
          | nil => rw [List.getD_nil, cont0] at he; cases he
          | cons e rest => rfl
        | false =>
          have : lossyStep a (b :: d :: rest) = (replacementChar, 2) := by
            simp only [lossyStep, if_neg h0, if_neg h1, if_neg h2, if_pos h3, List.getD_cons_zero, List.getD_cons_succ,
              hb, hd, he, if_true, Bool.false_eq_true, if_false]
          rw [this]
          refine .bad rfl (part_of (p := [b, d]) ⟨_, [0x80], (enc4 hb hd cont80).symm⟩ ?_ ?_ ?_)
          · intro e r hr hin
            change rest = e :: r at hr
            obtain ⟨c, tl, hc, hp⟩ := inChar_cons hin
            rcases enc_len hc with h | h | h | ⟨-, -, b', d', e', hb', hd', he', rfl⟩
            · omega
            · omega
            · omega
            · obtain ⟨q, hq⟩ := hp
              change b :: d :: e :: q = [b', d', e'] at hq
              simp only [List.cons.injEq] at hq
              rw [hr, List.getD_cons_zero, hq.2.2.1, he'] at he; cases he
          · intro c hc
            rcases enc_len hc with h | h | h | ⟨-, -, b', d', e', hb', hd', he', h⟩
            · omega
            · omega
            · omega
            · cases h
          · intro c hc
            obtain ⟨tl, htl⟩ := hfst hc
            refine hE htl hc ?_
            rcases enc_len htl with h | h | h | ⟨-, -, b', d', e', hb', hd', he', rfl⟩
            · omega
            · omega
            · omega
            · simp
      | false =>
        have : lossyStep a (b :: rest) = (replacementChar, 1) := by
          simp only [lossyStep, if_neg h0, if_neg h1, if_neg h2, if_pos h3, List.getD_cons_zero, List.getD_cons_succ,
            hb, hd, if_true, Bool.false_eq_true, if_false]
        rw [this]
        refine .bad rfl (part_of (p := [b]) ⟨_, [0x80, 0x80], (enc4 hb cont80 cont80).symm⟩ ?_ ?_ ?_)
        · intro d r hr hin
          change rest = d :: r at hr
          obtain ⟨c, tl, hc, hp⟩ := inChar_cons hin
          rcases enc_len hc with h | h | h | ⟨-, -, b', d', e', hb', hd', he', rfl⟩
          · omega
          · omega
          · omega
          · obtain ⟨q, hq⟩ := hp
            change b :: d :: q = [b', d', e'] at hq
            simp only [List.cons.injEq] at hq
            rw [hr, List.getD_cons_zero, hq.2.1, hd'] at hd; cases hd
        · intro c hc
          rcases enc_len hc with h | h | h | ⟨-, -, b', d', e', hb', hd', he', h⟩
          · omega
          · omega
          · omega
          · cases h
        · intro c hc
          obtain ⟨tl, htl⟩ := hfst hc
          refine hE htl hc ?_
          rcases enc_len htl with h | h | h | ⟨-, -, b', d', e', hb', hd', he', rfl⟩
          · omega
          · omega
          · omega
          · simp
    | false =>
      have : lossyStep a rest = (replacementChar, 0) := by
        simp only [lossyStep, if_neg h0, if_neg h1, if_neg h2, if_pos h3, hb, Bool.false_eq_true, if_false]
      rw [this]
      obtain ⟨w, hw⟩ := some4 h3.1 h3.2
      refine .bad rfl (part_of (p := []) ⟨_, [w, 0x80, 0x80], (enc4 hw cont80 cont80).symm⟩ ?_ ?_ ?_)
      · intro b r hr hin
        change rest = b :: r at hr
        obtain ⟨c, tl, hc, hp⟩ := inChar_cons hin
        rcases enc_len hc with h | h | h | ⟨-, -, b', d', e', hb', hd', he', rfl⟩
        · omega
        · omega
        · omega
        · rw [hr, List.getD_cons_zero, prefix_two hp, hb'] at hb; cases hb
      · intro c hc
        rcases enc_len hc with h | h | h | ⟨-, -, b', d', e', hb', hd', he', h⟩
        · omega
        · omega
        · omega
        · cases h
      · intro c hc
        obtain ⟨tl, htl⟩ := hfst hc
        exact hE htl hc (Nat.zero_le _)
  · have : lossyStep a rest = (replacementChar, 0) := by
      simp only [lossyStep, if_neg h0, if_neg h1, if_neg h2, if_neg h3]
    rw [this]
    have hno : ∀ p, ¬ InChar (a :: p) := by
      intro p hin
      obtain ⟨c, tl, hc, -⟩ := inChar_cons hin
      rcases enc_len hc with h | h | h | h
      · exact h0 h.1
      · exact h1 ⟨h.1, h.2.1⟩
      · exact h2 ⟨h.1, h.2.1⟩
      · exact h3 ⟨h.1, h.2.1⟩
    refine .bad rfl ⟨?_, by simp, .inr ⟨rfl, hno []⟩⟩
    rintro ⟨c, hc⟩
    obtain ⟨tl, htl⟩ := hfst hc
    exact hno tl ⟨c, by rw [htl]; exact List.prefix_rfl⟩

private theorem char_unique {c c' : Char} {r r' : Bytes} (h : utf8Char c ++ r = utf8Char c' ++ r') : c = c' ∧ r = r' := by
  have h1 := lossyGo_utf8Char c r
  obtain ⟨a, tl, e1, e2⟩ := lossyStep_utf8Char c
  obtain ⟨a', tl', e1', e2'⟩ := lossyStep_utf8Char c'
  rw [e1, e1'] at h
  simp only [List.cons_append, List.cons.injEq] at h
  have h3 : lossyStep a (tl ++ r) = lossyStep a' (tl' ++ r') := by rw [h.1, h.2]
  rw [e2, e2'] at h3
  injection h3 with h3 h4
  refine ⟨h3, ?_⟩
  exact (List.append_inj h.2 h4).2

private theorem char_ne (c : Char) : utf8Char c ≠ [] := by
  obtain ⟨a, tl, h, -⟩ := lossyStep_utf8Char c
  rw [h]; simp

private theorem part_unique {p p' r r' : Bytes} (h : p ++ r = p' ++ r') (hp : IllFormedPart p r)
    (hp' : IllFormedPart p' r') : p = p' ∧ r = r' := by
  have key : ∀ {p p' r r' : Bytes}, p ++ r = p' ++ r' → IllFormedPart p r → IllFormedPart p' r' →
      p.length ≤ p'.length → p = p' ∧ r = r' := by
    intro p p' r r' h hp hp' hle
    have hpre : p <+: p' := List.prefix_of_prefix_length_le ⟨r, rfl⟩ ⟨r', h.symm⟩ hle
    obtain ⟨q, rfl⟩ := hpre
    cases q with
    | nil => simp at h ⊢; exact h
    | cons b q =>
      exfalso
      have hr : r = b :: q ++ r' := by rw [List.append_assoc] at h; exact List.append_cancel_left h
      obtain ⟨-, hn, h1⟩ := hp
      obtain ⟨-, -, h2⟩ := hp'
      rcases h2 with ⟨h2, -⟩ | ⟨h2, -⟩
      · rcases h1 with ⟨-, h1⟩ | ⟨-, h1⟩
        · exact h1 (b :: q) ⟨r', hr.symm⟩ (by simp) h2
        · obtain ⟨c, hc⟩ := h2
          exact h1 ⟨c, List.IsPrefix.trans ⟨b :: q, rfl⟩ hc⟩
      · cases p with
        | nil => exact hn rfl
        | cons x p => simp at h2
  rcases Nat.le_total p.length p'.length with hle | hle
  · exact key h hp hp' hle
  · have := key h.symm hp' hp hle
    exact ⟨this.1.symm, this.2.symm⟩

private theorem decodes_unique {b : Bytes} {s : Str} (h : Decodes b s) : ∀ {s'}, Decodes b s' → s = s' := by
  induction h with
  | nil =>
    intro s' h'
    generalize hb : ([] : Bytes) = b at h'
    cases h' with
    | nil => rfl
    | char c h => simp only [List.nil_eq, List.append_eq_nil_iff] at hb; exact absurd hb.1 (char_ne c)
    | bad hp h => simp only [List.nil_eq, List.append_eq_nil_iff] at hb; exact absurd hb.1 hp.2.1
  | @char c rest s _ ih =>
    intro s' h'
    generalize hb : utf8Char c ++ rest = b at h'
    cases h' with
    | nil => rw [List.append_eq_nil_iff] at hb; exact absurd hb.1 (char_ne c)
    | char c' h =>
      obtain ⟨rfl, rfl⟩ := char_unique hb
      rw [ih h]
    | bad hp h => exact absurd ⟨c, rest, hb⟩ hp.1
  | @bad p rest s hp _ ih =>
    intro s' h'
    generalize hb : p ++ rest = b at h'
    cases h' with
    | nil => rw [List.append_eq_nil_iff] at hb; exact absurd hb.1 hp.2.1
    | char c' h => exact absurd ⟨c', _, hb.symm⟩ hp.1
    | bad hp' h =>
      obtain ⟨rfl, rfl⟩ := part_unique hb hp hp'
      rw [ih h]

private theorem decodes_lossy (b : Bytes) : Decodes b (lossy b) := by
  unfold lossy
  induction hn : b.length using Nat.strongRecOn generalizing b with
  | _ n ih =>
  cases b with
  | nil => exact .nil
  | cons a rest =>
    rw [lossyGo, lossyGo_skip]
    have hr := ih (rest.drop (lossyStep a rest).2).length (by simp at hn ⊢; omega) _ rfl
    have hsplit : (a :: rest).take ((lossyStep a rest).2 + 1) ++ rest.drop (lossyStep a rest).2 = a :: rest := by
      simp
    cases found a rest with
    | char h =>
      have := Decodes.char (lossyStep a rest).1 hr
      rwa [h, hsplit] at this
    | bad hc h =>
      have := Decodes.bad h hr
      rw [List.drop_succ_cons, hsplit] at this
      rwa [hc]

/-- **C72**: the library reads the bytes of a value as text in which each maximal ill-formed part is one U+FFFD. -/
theorem C72_ill_formed_replaced (b : Bytes) (s : Str) : lossy b = s ↔ Decodes b s :=
  ⟨fun h => h ▸ decodes_lossy b, fun h => decodes_unique (decodes_lossy b) h⟩

private theorem bytewise_unique {b : Bytes} {s : Str} (h : DecodesBytewise b s) : ∀ {s'}, DecodesBytewise b s' → s = s' := by
  induction h with
  | nil =>
    intro s' h'
    generalize hb : ([] : Bytes) = b at h'
    cases h' with
    | nil => rfl
    | char c h => simp only [List.nil_eq, List.append_eq_nil_iff] at hb; exact absurd hb.1 (char_ne c)
    | bad a hp h => cases hb
  | @char c rest s _ ih =>
    intro s' h'
    generalize hb : utf8Char c ++ rest = b at h'
    cases h' with
    | nil => rw [List.append_eq_nil_iff] at hb; exact absurd hb.1 (char_ne c)
    | char c' h =>
      obtain ⟨rfl, rfl⟩ := char_unique hb
      rw [ih h]
    | bad a hp h => exact absurd ⟨c, rest, hb⟩ hp
  | @bad a rest s hp _ ih =>
    intro s' h'
    generalize hb : a :: rest = b at h'
    cases h' with
    | nil => cases hb
    | char c' h => exact absurd ⟨c', _, hb.symm⟩ hp
    | bad a' hp' h =>
      injection hb with h1 h2
      subst h1 h2
      rw [ih h]

private theorem bytewise_goText (b : Bytes) : DecodesBytewise b (goText b) := by
  unfold goText
  induction hn : b.length using Nat.strongRecOn generalizing b with
  | _ n ih =>
  cases b with
  | nil => exact .nil
  | cons a rest =>
    rw [goTextGo, goTextGo_skip]
    unfold goRune
    simp only
    split
    · next h =>
      have hr := ih (rest.drop (lossyStep a rest).2).length (by simp at hn ⊢; omega) _ rfl
      have := DecodesBytewise.char (lossyStep a rest).1 hr
      rw [h] at this
      simpa using this
    · next h =>
      have hr := ih rest.length (by simp at hn; omega) rest rfl
      refine .bad a ?_ (by simpa using hr)
      rintro ⟨c, t, ht⟩
      obtain ⟨a', tl, e1, e2⟩ := lossyStep_utf8Char c
      rw [e1] at ht
      simp only [List.cons_append, List.cons.injEq] at ht
      obtain ⟨rfl, rfl⟩ := ht
      apply h
      rw [e2, e1]
      simp

/-- Go's `encoding/json` writes one U+FFFD for each byte that does not begin a character. -/
theorem C72_go_replaced (b : Bytes) (s : Str) : goText b = s ↔ DecodesBytewise b s :=
  ⟨fun h => h ▸ bytewise_goText b, fun h => bytewise_unique (bytewise_goText b) h⟩

/-- The two agree on UTF-8 and differ on a truncated sequence. -/
theorem C72_replaced_differently : lossy [0xE2, 0x82, 0x61] = [Char.ofNat 0xFFFD, 'a'] ∧
    goText [0xE2, 0x82, 0x61] = [Char.ofNat 0xFFFD, Char.ofNat 0xFFFD, 'a'] := by
  refine ⟨by decide +kernel, by decide +kernel⟩

/-- A surrogate is three ill-formed parts; an overlong encoding two. -/
example : Decodes [0xED, 0xA0, 0x80] [Char.ofNat 0xFFFD, Char.ofNat 0xFFFD, Char.ofNat 0xFFFD] ∧
    Decodes [0xC0, 0xAF, 0x41] [Char.ofNat 0xFFFD, Char.ofNat 0xFFFD, 'A'] := by
  refine ⟨(C72_ill_formed_replaced _ _).1 (by decide +kernel), (C72_ill_formed_replaced _ _).1 (by decide +kernel)⟩

end Props
end Sds
