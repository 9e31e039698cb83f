import Verif.Model.Str

/-! Lemmas about byte-offset strings. -/

namespace Sds

@[simp] theorem blen_nil : blen [] = 0 := rfl
@[simp] theorem blen_cons (c : Char) (s : Str) : blen (c :: s) = c.utf8Size + blen s := rfl

@[simp] theorem blen_append (a b : Str) : blen (a ++ b) = blen a + blen b := by
  induction a with
  | nil => simp
  | cons c a ih => simp [ih]; omega

theorem blen_eq_zero {s : Str} : blen s = 0 ↔ s = [] := by
  cases s with
  | nil => simp
  | cons c s =>
    simp only [blen_cons, reduceCtorEq, iff_false]
    have := c.utf8Size_pos
    omega

theorem blen_pos {s : Str} (h : s ≠ []) : 0 < blen s := by
  rcases Nat.eq_zero_or_pos (blen s) with h0 | h0
  · exact absurd (blen_eq_zero.1 h0) h
  · exact h0

theorem length_le_blen (s : Str) : s.length ≤ blen s := by
  induction s with
  | nil => simp
  | cons c s ih =>
    have := c.utf8Size_pos
    simp only [List.length_cons, blen_cons]; omega

@[simp] theorem cut_zero (s : Str) : cut s 0 = some ([], s) := by
  cases s <;> rfl

theorem cut_append (a b : Str) : cut (a ++ b) (blen a) = some (a, b) := by
  induction a with
  | nil => simp
  | cons c a ih =>
    have hp := c.utf8Size_pos
    obtain ⟨n, hn⟩ : ∃ n, c.utf8Size + blen a = n + 1 := ⟨c.utf8Size + blen a - 1, by omega⟩
    simp only [List.cons_append, blen_cons, hn, cut]
    rw [if_pos (by omega)]
    have : n + 1 - c.utf8Size = blen a := by omega
    rw [this, ih]

theorem cut_eq_some {s : Str} {n : Nat} {a b : Str} :
    cut s n = some (a, b) ↔ s = a ++ b ∧ blen a = n := by
  constructor
  · intro h
    induction s generalizing n a with
    | nil =>
      cases n with
      | zero => simp only [cut_zero, Option.some.injEq, Prod.mk.injEq] at h; obtain ⟨rfl, rfl⟩ := h; simp
      | succ n => simp [cut] at h
    | cons c s ih =>
      cases n with
      | zero => simp only [cut_zero, Option.some.injEq, Prod.mk.injEq] at h; obtain ⟨rfl, rfl⟩ := h; simp
      | succ n =>
        simp only [cut] at h
        split at h
        · next hc =>
          split at h
          · next a' b' h' =>
            simp only [Option.some.injEq, Prod.mk.injEq] at h
            obtain ⟨rfl, rfl⟩ := h
            obtain ⟨h1, h2⟩ := ih h'
            subst h1
            refine ⟨rfl, ?_⟩
            simp only [blen_cons]; omega
          · cases h
        · cases h
  · rintro ⟨rfl, rfl⟩
    exact cut_append a b

/-- Prefixes of one string with the same byte length are equal. -/
theorem append_inj_blen {a b c d : Str} (h : a ++ b = c ++ d) (hl : blen a = blen c) :
    a = c ∧ b = d := by
  have h1 := cut_append a b
  rw [h, hl, cut_append c d] at h1
  simp only [Option.some.injEq, Prod.mk.injEq] at h1
  exact ⟨h1.1.symm, h1.2.symm⟩

/-- For two prefixes of one string, the shorter one is a prefix of the longer one. -/
theorem prefix_split {a b c d : Str} (h : a ++ b = c ++ d) (hl : blen a ≤ blen c) :
    ∃ m, c = a ++ m ∧ b = m ++ d := by
  rcases List.append_eq_append_iff.1 h with ⟨m, h1, h2⟩ | ⟨m, h1, h2⟩
  · exact ⟨m, h1, h2⟩
  · subst h1 h2
    simp only [blen_append] at hl
    have : m = [] := blen_eq_zero.1 (by omega)
    subst this
    exact ⟨[], by simp, by simp⟩

theorem isBoundary_iff {s : Str} {n : Nat} :
    isBoundary s n = true ↔ ∃ a b, s = a ++ b ∧ blen a = n := by
  unfold isBoundary
  constructor
  · intro h
    obtain ⟨⟨a, b⟩, hab⟩ := Option.isSome_iff_exists.1 h
    exact ⟨a, b, cut_eq_some.1 hab⟩
  · rintro ⟨a, b, h⟩
    rw [cut_eq_some.2 h]; rfl

theorem slice_eq_some {s : Str} {i j : Nat} {m : Str} :
    slice s i j = some m ↔ ∃ p q, s = p ++ m ++ q ∧ blen p = i ∧ blen p + blen m = j := by
  unfold slice
  constructor
  · intro h
    split at h
    · next hij =>
      split at h
      · next a r hc =>
        obtain ⟨⟨m', q⟩, hm, rfl⟩ := Option.map_eq_some_iff.1 h
        obtain ⟨h1, h2⟩ := cut_eq_some.1 hc
        obtain ⟨h3, h4⟩ := cut_eq_some.1 hm
        exact ⟨a, q, by simp [h1, h3], h2, by simp only; omega⟩
      · cases h
    · cases h
  · rintro ⟨p, q, rfl, rfl, rfl⟩
    rw [if_pos (by omega), List.append_assoc, cut_append]
    simp [cut_append]

theorem slice_append (p m q : Str) : slice (p ++ m ++ q) (blen p) (blen p + blen m) = some m :=
  slice_eq_some.2 ⟨p, q, rfl, rfl, rfl⟩

theorem replaceRange_append (p m q r : Str) :
    replaceRange (p ++ m ++ q) (blen p) (blen p + blen m) r = some (p ++ r ++ q) := by
  unfold replaceRange
  rw [if_pos (by omega), List.append_assoc, cut_append]
  simp [cut_append]

theorem sliceFrom_append (p q : Str) : sliceFrom (p ++ q) (blen p) = some q := by
  simp [sliceFrom, cut_append]

theorem sliceTo_append (p q : Str) : sliceTo (p ++ q) (blen p) = some p := by
  simp [sliceTo, cut_append]

theorem charIndicesFrom_length (o : Nat) (s : Str) : (charIndicesFrom o s).length = s.length := by
  induction s generalizing o with
  | nil => rfl
  | cons c s ih => simp [charIndicesFrom, ih]

theorem charIndicesFrom_getElem? (o : Nat) (s : Str) (n : Nat) :
    (charIndicesFrom o s)[n]? = (s[n]?).map fun c => (o + blen (s.take n), c) := by
  induction s generalizing o n with
  | nil => simp [charIndicesFrom]
  | cons c s ih =>
    cases n with
    | zero => simp [charIndicesFrom]
    | succ n =>
      simp only [charIndicesFrom, List.getElem?_cons_succ, ih, List.take_succ_cons, blen_cons]
      congr 1
      funext c'
      simp only [Prod.mk.injEq, and_true]; omega

theorem nthIdx_eq (s : Str) (n : Nat) :
    nthIdx s n = if n < s.length then some (blen (s.take n)) else none := by
  unfold nthIdx charIndices
  rw [charIndicesFrom_getElem?]
  split
  · next h => simp [List.getElem?_eq_getElem h]
  · next h => simp [List.getElem?_eq_none (Nat.le_of_not_lt h)]

theorem nthBackIdx_eq (s : Str) (n : Nat) :
    nthBackIdx s n =
      if n < s.length then some (blen (s.take (s.length - 1 - n))) else none := by
  unfold nthBackIdx
  have hl : (charIndices s).length = s.length := charIndicesFrom_length 0 s
  split
  · next h =>
    rw [List.getElem?_reverse (by omega), hl]
    have := nthIdx_eq s (s.length - 1 - n)
    unfold nthIdx at this
    rw [this, if_pos (by omega)]
  · next h =>
    rw [List.getElem?_eq_none (by simp [hl]; omega)]
    rfl

end Sds
