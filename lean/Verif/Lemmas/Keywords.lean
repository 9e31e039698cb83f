import Verif.Spec.Keywords
import Verif.Lemmas.Str

/-! Lemmas for proximity keywords. -/

namespace Sds
open Spec

/-! ## Windows -/

theorem blen_take_le {s : Str} {i j : Nat} (h : i ≤ j) : blen (s.take i) ≤ blen (s.take j) := by
  obtain ⟨d, rfl⟩ := Nat.exists_eq_add_of_le h
  rw [List.take_add, blen_append]; omega

theorem blen_take_lt {s : Str} {i j : Nat} (h : i < j) (hj : j ≤ s.length) :
    blen (s.take i) < blen (s.take j) := by
  obtain ⟨d, rfl⟩ := Nat.exists_eq_add_of_lt h
  rw [show i + d + 1 = i + (d + 1) by omega, List.take_add, blen_append]
  have : (List.take (d + 1) (List.drop i s)) ≠ [] := by
    intro hn
    have := congrArg List.length hn
    simp at this
    omega
  have := blen_pos this
  omega

theorem isIndexWithinPrefix_spec (a b c : Str) (n : Nat) :
    isIndexWithinPrefix (a ++ b ++ c) (blen a) (blen a + blen b) n = Res.ok (decide (b.length ≤ n)) := by
  unfold isIndexWithinPrefix
  have hl := length_le_blen b
  split
  · next h =>
    have : b.length ≤ n := by omega
    simp [this]
  · next h =>
    rw [List.append_assoc, sliceFrom_append]
    simp only [nthIdx_eq]
    by_cases hn : n < (b ++ c).length
    · rw [if_pos hn]
      by_cases hb : b.length ≤ n
      · have : blen b ≤ blen ((b ++ c).take n) := by
          have := blen_take_le (s := b ++ c) hb
          rwa [List.take_left] at this
        simp [hb]; omega
      · have : blen ((b ++ c).take n) < blen b := by
          have := blen_take_lt (s := b ++ c) (i := n) (j := b.length) (by omega) (by simp)
          rwa [List.take_left] at this
        simp [hb]; omega
    · rw [if_neg hn]
      have : b.length ≤ n := by simp at hn; omega
      simp [this]

theorem getPrefixStart_spec (a c : Str) (n : Nat) (hn : 0 < n) :
    getPrefixStart (blen a) n (a ++ c) = Res.ok (blen (a.take (a.length - n)), decide (n ≤ a.length)) := by
  unfold getPrefixStart
  rw [if_neg (by omega), sliceTo_append]
  simp only [nthBackIdx_eq]
  by_cases h : n ≤ a.length
  · rw [if_pos (by omega)]
    have : a.length - 1 - (n - 1) = a.length - n := by omega
    simp [this, h]
  · rw [if_neg (by omega)]
    have : a.length - n = 0 := by omega
    simp [this, h]

theorem nextCharIndex_spec (a b : Str) :
    nextCharIndex (a ++ b) (blen a) =
      Res.ok (if 1 < b.length then some (blen a + blen (b.take 1)) else none) := by
  unfold nextCharIndex
  rw [sliceFrom_append]
  simp only [nthIdx_eq]
  split <;> simp

/-! ## Keyword matching -/

theorem asciiAlnum_iff (c : Char) : asciiAlnum c = true ↔ AsciiAlnum c := by
  simp [asciiAlnum, AsciiAlnum, or_assoc]

theorem asciiWord_iff (c : Char) : asciiWord c = true ↔ AsciiWord c := by
  simp [asciiWord, AsciiWord, asciiAlnum_iff]

theorem matchLits_spec (eqc : Char → Char → Bool) (kw : Str) : ∀ (t m r : Str),
    matchLits eqc kw t = some (m, r) ↔ t = m ++ r ∧ SameText eqc kw m := by
  induction kw with
  | nil =>
    intro t m r
    simp only [matchLits, Option.some.injEq, Prod.mk.injEq]
    constructor
    · rintro ⟨rfl, rfl⟩; exact ⟨rfl, .nil⟩
    · rintro ⟨rfl, h⟩; cases h; exact ⟨rfl, rfl⟩
  | cons k ks ih =>
    intro t m r
    cases t with
    | nil =>
      simp only [matchLits, reduceCtorEq, false_iff, not_and]
      intro h hs
      cases hs
      simp at h
    | cons c t =>
      simp only [matchLits]
      constructor
      · intro h
        split at h
        · next he =>
          split at h
          · next m' r' h' =>
            simp only [Option.some.injEq, Prod.mk.injEq] at h
            obtain ⟨rfl, rfl⟩ := h
            obtain ⟨rfl, hs⟩ := (ih _ _ _).1 h'
            exact ⟨rfl, .cons he hs⟩
          · cases h
        · cases h
      · rintro ⟨h1, h2⟩
        cases h2 with
        | cons he hs =>
          simp only [List.cons_append, List.cons.injEq] at h1
          obtain ⟨rfl, rfl⟩ := h1
          rw [if_pos he, (ih _ _ _).2 ⟨rfl, hs⟩]

theorem Spec.SameText.length_eq {eqc : Char → Char → Bool} {kw m : Str} (h : SameText eqc kw m) :
    kw.length = m.length := by
  induction h with
  | nil => rfl
  | cons _ _ ih => simp [ih]

/-- The pattern's word boundaries around a match, literally. -/
def Bounded (kw a m b : Str) : Prop :=
  (∀ k, kw.head? = some k → AsciiAlnum k → wordBoundary a (m ++ b) = true) ∧
  (∀ k, kw.getLast? = some k → AsciiAlnum k → wordBoundary (a ++ m) b = true)

theorem boundaryNeeded_or (o : Option Char) (w : Bool) :
    (!boundaryNeeded o || w) = true ↔ ∀ k, o = some k → AsciiAlnum k → w = true := by
  cases o with
  | none => simp [boundaryNeeded]
  | some c =>
    simp only [boundaryNeeded, Bool.or_eq_true, Bool.not_eq_true', Option.some.injEq]
    constructor
    · rintro (h | h) k rfl hk
      · rw [(asciiAlnum_iff c).2 hk] at h; cases h
      · exact h
    · intro h
      cases hc : asciiAlnum c with
      | false => exact Or.inl rfl
      | true => exact Or.inr (h c rfl ((asciiAlnum_iff c).1 hc))

theorem kwMatchAt_iff (eqc : Char → Char → Bool) (kw content : Str) (p q : Nat) :
    kwMatchAt eqc kw content p = some q ↔
      ∃ a m b, content = a ++ m ++ b ∧ blen a = p ∧ blen (a ++ m) = q ∧ SameText eqc kw m ∧ Bounded kw a m b := by
  unfold kwMatchAt
  constructor
  · intro h
    split at h
    · cases h
    · next a r hc =>
      obtain ⟨h1, h2⟩ := cut_eq_some.1 hc
      split at h
      · cases h
      · next m r' hm =>
        obtain ⟨h3, h4⟩ := (matchLits_spec _ _ _ _ _).1 hm
        subst h3
        split at h
        · next hb =>
          simp only [Option.some.injEq] at h
          rw [Bool.and_eq_true, boundaryNeeded_or, boundaryNeeded_or] at hb
          exact ⟨a, m, r', by simp [h1], h2, by simp; omega, h4, hb⟩
        · cases h
  · rintro ⟨a, m, b, rfl, rfl, rfl, h4, hb⟩
    rw [List.append_assoc, cut_append]
    have hm := (matchLits_spec eqc kw (m ++ b) m b).2 ⟨rfl, h4⟩
    simp only [hm]
    rw [if_pos]
    · simp
    · rw [Bool.and_eq_true, boundaryNeeded_or, boundaryNeeded_or]; exact hb

theorem Spec.SameText.head {eqc : Char → Char → Bool} {kw m : Str} (h : SameText eqc kw m) {k : Char}
    (hk : kw.head? = some k) : ∃ c, m.head? = some c ∧ eqc k c = true := by
  cases h with
  | nil => simp at hk
  | cons he _ => simp at hk; subst hk; exact ⟨_, rfl, he⟩

theorem Spec.SameText.last {eqc : Char → Char → Bool} {kw m : Str} (h : SameText eqc kw m) {k : Char}
    (hk : kw.getLast? = some k) : ∃ c, m.getLast? = some c ∧ eqc k c = true := by
  induction h with
  | nil => simp at hk
  | @cons k' c' ks cs he hs ih =>
    cases hs with
    | nil => simp at hk; subst hk; exact ⟨_, rfl, he⟩
    | cons he' hs' =>
      rw [List.getLast?_cons_cons] at hk ⊢
      exact ih hk

theorem wordBoundary_of_after {a r : Str} {c : Char} (hc : r.head? = some c) (hw : AsciiWord c) :
    wordBoundary a r = true ↔ ∀ x, a.getLast? = some x → ¬ AsciiWord x := by
  unfold wordBoundary
  rw [hc]
  simp only [(asciiWord_iff c).2 hw]
  cases h : a.getLast? with
  | none => simp
  | some x => simp [← asciiWord_iff]

theorem wordBoundary_of_before {a r : Str} {c : Char} (hc : a.getLast? = some c) (hw : AsciiWord c) :
    wordBoundary a r = true ↔ ∀ x, r.head? = some x → ¬ AsciiWord x := by
  unfold wordBoundary
  rw [hc]
  simp only [(asciiWord_iff c).2 hw]
  cases h : r.head? with
  | none => simp
  | some x => simp [← asciiWord_iff]

/-- Case folding that does not relate ASCII letters and digits with other characters. -/
def AsciiFold (eqc : Char → Char → Bool) : Prop := ∀ k c, eqc k c = true → (AsciiAlnum k ↔ AsciiAlnum c)

theorem bounded_iff_occurs {eqc : Char → Char → Bool} (hf : AsciiFold eqc) (kw a m b : Str) :
    (SameText eqc kw m ∧ Bounded kw a m b) ↔ Occurs eqc kw a m b := by
  unfold Occurs Bounded
  constructor
  · rintro ⟨hs, h1, h2⟩
    refine ⟨hs, fun k hk ha => ?_, fun k hk ha => ?_⟩
    · obtain ⟨c, hc, he⟩ := hs.head hk
      have hc' : (m ++ b).head? = some c := by cases m <;> simp_all
      exact (wordBoundary_of_after hc' (Or.inl ((hf k c he).1 ha))).1 (h1 k hk ha)
    · obtain ⟨c, hc, he⟩ := hs.last hk
      have hc' : (a ++ m).getLast? = some c := by simp [hc]
      exact (wordBoundary_of_before hc' (Or.inl ((hf k c he).1 ha))).1 (h2 k hk ha)
  · rintro ⟨hs, h1, h2⟩
    refine ⟨hs, fun k hk ha => ?_, fun k hk ha => ?_⟩
    · obtain ⟨c, hc, he⟩ := hs.head hk
      have hc' : (m ++ b).head? = some c := by cases m <;> simp_all
      exact (wordBoundary_of_after hc' (Or.inl ((hf k c he).1 ha))).2 (h1 k hk ha)
    · obtain ⟨c, hc, he⟩ := hs.last hk
      have hc' : (a ++ m).getLast? = some c := by simp [hc]
      exact (wordBoundary_of_before hc' (Or.inl ((hf k c he).1 ha))).2 (h2 k hk ha)

theorem kwMatchAt_occurs {eqc : Char → Char → Bool} (hf : AsciiFold eqc) (kw content : Str) (p q : Nat) :
    kwMatchAt eqc kw content p = some q ↔
      ∃ a m b, content = a ++ m ++ b ∧ blen a = p ∧ blen (a ++ m) = q ∧ Occurs eqc kw a m b := by
  simp only [kwMatchAt_iff, bounded_iff_occurs hf]

/-! ## Boundaries -/

theorem mem_boundariesFrom (s : Str) : ∀ (o p : Nat),
    p ∈ boundariesFrom o s ↔ ∃ a b, s = a ++ b ∧ p = o + blen a := by
  induction s with
  | nil =>
    intro o p
    simp only [boundariesFrom, List.mem_singleton]
    constructor
    · rintro rfl; exact ⟨[], [], rfl, by simp⟩
    · rintro ⟨a, b, h, rfl⟩
      have : a = [] := (List.append_eq_nil_iff.1 h.symm).1
      subst this; simp
  | cons c s ih =>
    intro o p
    simp only [boundariesFrom, List.mem_cons, ih]
    constructor
    · rintro (rfl | ⟨a, b, rfl, rfl⟩)
      · exact ⟨[], c :: s, rfl, by simp⟩
      · exact ⟨c :: a, b, rfl, by simp; omega⟩
    · rintro ⟨a, b, h, rfl⟩
      cases a with
      | nil => exact Or.inl (by simp)
      | cons d a =>
        simp only [List.cons_append, List.cons.injEq] at h
        obtain ⟨rfl, rfl⟩ := h
        exact Or.inr ⟨a, b, rfl, by simp; omega⟩

theorem mem_boundaries {s : Str} {p : Nat} : p ∈ boundaries s ↔ ∃ a b, s = a ++ b ∧ blen a = p := by
  simp [boundaries, mem_boundariesFrom, eq_comm]

theorem boundariesFrom_pairwise (s : Str) : ∀ o, (boundariesFrom o s).Pairwise (· < ·) := by
  induction s with
  | nil => intro o; simp [boundariesFrom]
  | cons c s ih =>
    intro o
    simp only [boundariesFrom, List.pairwise_cons]
    refine ⟨fun p hp => ?_, ih _⟩
    obtain ⟨a, b, _, rfl⟩ := (mem_boundariesFrom s _ p).1 hp
    have := c.utf8Size_pos
    omega

theorem anyKeywordIn_iff (eqc : Char → Char → Bool) (kws : List Str) (hay : Str) (s e : Nat) :
    anyKeywordIn eqc kws hay s e = true ↔
      ∃ kw ∈ kws, ∃ a m b, hay = a ++ m ++ b ∧ s ≤ blen a ∧ blen (a ++ m) ≤ e ∧
        SameText eqc kw m ∧ Bounded kw a m b := by
  simp only [anyKeywordIn, List.any_eq_true, Bool.and_eq_true, decide_eq_true_eq]
  constructor
  · rintro ⟨p, _, hs, kw, hkw, h⟩
    split at h
    · next q hq =>
      obtain ⟨a, m, b, h1, h2, h3, h4⟩ := (kwMatchAt_iff _ _ _ _ _).1 hq
      simp only [decide_eq_true_eq] at h
      exact ⟨kw, hkw, a, m, b, h1, by omega, by omega, h4⟩
    · cases h
  · rintro ⟨kw, hkw, a, m, b, h1, h2, h3, h4⟩
    refine ⟨blen a, mem_boundaries.2 ⟨a, m ++ b, by simp [h1], rfl⟩, h2, kw, hkw, ?_⟩
    rw [(kwMatchAt_iff eqc kw hay (blen a) (blen (a ++ m))).2 ⟨a, m, b, h1, rfl, rfl, h4⟩]
    simpa using h3

/-! ## Excluded keywords -/

theorem strip_eq_ignoring (s : Str) : strip s = ignoring s := by
  simp only [strip, ignoring]
  congr 1
  funext c
  simp [isStripped, Bool.decide_and]
  rfl

@[simp] theorem strip_append (a b : Str) : strip (a ++ b) = strip a ++ strip b := by simp [strip]

/-- The prefix that is searched. -/
theorem containsExcluded_eq (eqc : Char → Char → Bool) (kws : List Str) (la : Nat) (pre post : Str) :
    containsExcluded eqc kws la (pre ++ post) (blen pre) =
      excludedInPrefix eqc kws (strip (pre.drop (pre.length - (la + 1))) ++ strip (post.take 1))
        (decide (la + 1 ≤ pre.length)) := by
  unfold containsExcluded
  rw [getPrefixStart_spec pre post (la + 1) (by omega), nextCharIndex_spec]
  simp only
  have hsl : slice (pre ++ post) (blen (pre.take (pre.length - (la + 1))))
      ((if 1 < post.length then some (blen pre + blen (post.take 1)) else none).getD (blen (pre ++ post))) =
      some (pre.drop (pre.length - (la + 1)) ++ post.take 1) := by
    rw [slice_eq_some]
    refine ⟨pre.take (pre.length - (la + 1)), post.drop 1, ?_, rfl, ?_⟩
    · rw [List.append_assoc, List.append_assoc, List.take_append_drop, ← List.append_assoc, List.take_append_drop]
    · have h1 : blen (pre.take (pre.length - (la + 1))) + blen (pre.drop (pre.length - (la + 1))) = blen pre := by
        rw [← blen_append, List.take_append_drop]
      have h2 : (if 1 < post.length then some (blen pre + blen (post.take 1)) else none).getD (blen (pre ++ post))
          = blen pre + blen (post.take 1) := by
        split
        · rfl
        · next h =>
          have : post.take 1 = post := List.take_of_length_le (by omega)
          simp [this]
      rw [h2, blen_append]; omega
  rw [hsl]
  simp

theorem excludedInPrefix_nil (eqc : Char → Char → Bool) (kws : List Str) (u : Bool) :
    excludedInPrefix eqc kws [] u = Res.ok (anyKeywordIn eqc kws [] 0 0) := by
  cases u <;> rfl

theorem prevCharIndex_spec (s : Str) (d : Char) :
    prevCharIndex (s ++ [d]) (blen (s ++ [d])) = Res.ok (some (blen s)) := by
  unfold prevCharIndex
  have := sliceTo_append (s ++ [d]) []
  rw [List.append_nil] at this
  rw [this]
  simp only [nthBackIdx_eq]
  simp

theorem nextCharIndex_zero (s : Str) :
    nextCharIndex s 0 = Res.ok (if 1 < s.length then some (blen (s.take 1)) else none) := by
  have := nextCharIndex_spec [] s
  simpa using this

/-- Not using all characters: the span is everything but the last character. -/
theorem excludedInPrefix_partial (eqc : Char → Char → Bool) (kws : List Str) (s : Str) (d : Char) :
    excludedInPrefix eqc kws (s ++ [d]) false = Res.ok (anyKeywordIn eqc kws (s ++ [d]) 0 (blen s)) := by
  unfold excludedInPrefix
  rw [prevCharIndex_spec, nextCharIndex_zero]
  simp [spanOk]

/-- Using all characters: the span is everything but the first and the last character. -/
theorem excludedInPrefix_full (eqc : Char → Char → Bool) (kws : List Str) (c : Char) (s : Str) (d : Char) :
    excludedInPrefix eqc kws (c :: s ++ [d]) true =
      Res.ok (anyKeywordIn eqc kws (c :: s ++ [d]) c.utf8Size (c.utf8Size + blen s)) := by
  unfold excludedInPrefix
  rw [prevCharIndex_spec, nextCharIndex_zero]
  simp [spanOk, anyKeywordIn]
  rw [if_pos (by omega)]
  rfl

theorem excludedInPrefix_single (eqc : Char → Char → Bool) (kws : List Str) (c : Char) :
    excludedInPrefix eqc kws [c] true =
      if c.utf8Size ≤ 1 then Res.ok (anyKeywordIn eqc kws [c] c.utf8Size 0) else Res.panic := by
  unfold excludedInPrefix
  have := prevCharIndex_spec [] c
  rw [List.nil_append] at this
  rw [this, nextCharIndex_zero]
  simp [spanOk]

theorem ignoring_append (a b : Str) : ignoring (a ++ b) = ignoring a ++ ignoring b := by simp [ignoring]

theorem ignoring_cons_keep {x : Char} {s : Str} (h : x ≠ '-' ∧ x ≠ '_') : ignoring (x :: s) = x :: ignoring s := by
  simp [ignoring, h]

/-- Only the neighbouring characters matter for an occurrence. -/
theorem occurs_congr {eqc : Char → Char → Bool} {kw m a a' b b' : Str} (ha : a.getLast? = a'.getLast?)
    (hb : b.head? = b'.head?) : Occurs eqc kw a m b ↔ Occurs eqc kw a' m b' := by
  simp only [Occurs, ha, hb]

/-- Keywords in the middle part of a haystack. -/
theorem anyKeywordIn_middle {eqc : Char → Char → Bool} (hf : AsciiFold eqc) (kws : List Str) (ctx t d : Str) :
    anyKeywordIn eqc kws (ctx ++ t ++ d) (blen ctx) (blen ctx + blen t) = true ↔
      ∃ kw ∈ kws, ∃ l m r, t = l ++ m ++ r ∧ Occurs eqc kw (ctx ++ l) m (r ++ d) := by
  rw [anyKeywordIn_iff]
  simp only [bounded_iff_occurs hf]
  constructor
  · rintro ⟨kw, hkw, a, m, b, h1, h2, h3, h4⟩
    obtain ⟨l, rfl, h5⟩ := prefix_split (a := ctx) (b := t ++ d) (c := a) (d := m ++ b)
      (by rw [← List.append_assoc, h1, List.append_assoc]) h2
    obtain ⟨r, h6, h7⟩ := prefix_split (a := l ++ m) (b := b) (c := t) (d := d)
      (by rw [List.append_assoc, ← h5]) (by simp at h3 ⊢; omega)
    exact ⟨kw, hkw, l, m, r, h6, by rw [← h7]; exact h4⟩
  · rintro ⟨kw, hkw, l, m, r, rfl, h⟩
    exact ⟨kw, hkw, ctx ++ l, m, r ++ d, by simp, by simp, by simp <;> omega, h⟩

/-! ## Configuration -/

theorem dropWhile_append_of_all {p : Char → Bool} {a b : Str} (h : ∀ c ∈ a, p c = true) :
    (a ++ b).dropWhile p = b.dropWhile p := by
  induction a with
  | nil => rfl
  | cons c a ih =>
    rw [List.cons_append, List.dropWhile_cons_of_pos (h c List.mem_cons_self)]
    exact ih (fun x hx => h x (List.mem_cons_of_mem _ hx))

theorem exists_dropWhile (p : Char → Bool) (s : Str) :
    ∃ a, s = a ++ s.dropWhile p ∧ ∀ c ∈ a, p c = true :=
  ⟨s.takeWhile p, (List.takeWhile_append_dropWhile).symm, fun c hc => by
    induction s with
    | nil => simp at hc
    | cons d s ih =>
      rw [List.takeWhile_cons] at hc
      split at hc
      · rcases List.mem_cons.1 hc with rfl | hc
        · assumption
        · exact ih hc
      · cases hc⟩

theorem dropWhile_head {p : Char → Bool} {s t : Str} {c : Char} (h : s.dropWhile p = c :: t) : p c = false := by
  induction s with
  | nil => simp at h
  | cons d s ih =>
    rw [List.dropWhile_cons] at h
    split at h
    · exact ih h
    · next hd =>
      simp only [List.cons.injEq] at h
      obtain ⟨rfl, _⟩ := h
      simpa using hd

theorem isWs_iff (c : Char) : isWs c = true ↔ c.toNat ∈ whiteSpace := by
  unfold isWs whiteSpace
  simp only [Bool.or_eq_true, Bool.and_eq_true, decide_eq_true_eq, beq_iff_eq, List.mem_cons, List.not_mem_nil, or_false]
  omega

theorem blank_all (s : Str) : Blank s ↔ ∀ c ∈ s, isWs c = true := by
  unfold Blank
  simp only [isWs_iff]

theorem exists_trim (s : Str) : ∃ a b, s = a ++ trim s ++ b ∧ Blank a ∧ Blank b := by
  obtain ⟨a, ha, hb⟩ := exists_dropWhile isWs s
  obtain ⟨b, hc, hd⟩ := exists_dropWhile isWs (s.dropWhile isWs).reverse
  refine ⟨a, b.reverse, ?_, (blank_all _).2 hb, (blank_all _).2 fun c hc => hd c (by simpa using hc)⟩
  have := congrArg List.reverse hc
  rw [List.reverse_reverse, List.reverse_append] at this
  rw [List.append_assoc]
  unfold trim
  rw [← this]
  exact ha

theorem trim_removed_nil_iff (removed : Char → Bool) (hws : ∀ c, removed c = true → isWs c = false) (s : Str) :
    (trim s).filter (fun c => !removed c) = [] ↔
      ∃ a m b, s = a ++ m ++ b ∧ Blank a ∧ Blank b ∧ ∀ c ∈ m, removed c = true := by
  constructor
  · intro h
    obtain ⟨a, b, hs, ha, hb⟩ := exists_trim s
    refine ⟨a, trim s, b, hs, ha, hb, fun c hc => ?_⟩
    rw [List.filter_eq_nil_iff] at h
    simpa using h c hc
  · rintro ⟨a, m, b, rfl, ha, hb, hm⟩
    rw [blank_all] at ha hb
    rw [List.filter_eq_nil_iff]
    intro c hc
    suffices c ∈ m by simp [hm c this]
    unfold trim at hc
    rw [List.append_assoc, dropWhile_append_of_all ha] at hc
    cases m with
    | nil =>
      rw [List.nil_append] at hc
      have : b.dropWhile isWs = [] := by
        have := dropWhile_append_of_all (b := []) hb
        simpa using this
      rw [this] at hc
      simp at hc
    | cons d m =>
      have hd : isWs d = false := hws d (hm d List.mem_cons_self)
      rw [List.cons_append, List.dropWhile_cons_of_neg (by simp [hd])] at hc
      rw [← List.cons_append, List.reverse_append,
        dropWhile_append_of_all (by intro x hx; exact hb x (by simpa using hx))] at hc
      have h1 : c ∈ (d :: m).reverse.dropWhile isWs := by simpa using hc
      have h2 := (List.dropWhile_suffix isWs (l := (d :: m).reverse)).subset h1
      simpa [or_comm] using h2

theorem compileKeyword_ok {la : Nat} {removed : Char → Bool} {kw t : Str}
    (h : compileKeyword la removed kw = .ok t) :
    kw.length ≤ la ∧ t = (trim kw).filter (fun c => !removed c) ∧ t ≠ [] := by
  simp only [compileKeyword] at h
  split at h
  · cases h
  · next hl =>
    split at h
    · cases h
    · next ht =>
      simp only [Except.ok.injEq] at h
      exact ⟨by omega, h.symm, h ▸ ht⟩

theorem compileAll_spec (la : Nat) (removed : Char → Bool) (blank : Str → Prop)
    (hb : ∀ s, (trim s).filter (fun c => !removed c) = [] ↔ blank s) (kws : List Str) :
    ((∃ ts, compileAll la removed kws = .ok ts) ↔ ∀ k ∈ kws, k.length ≤ la ∧ ¬ blank k) ∧
    (∀ e, compileAll la removed kws = .error e ↔ FirstFault la blank kws e) := by
  induction kws with
  | nil =>
    refine ⟨by simp [compileAll], fun e => ?_⟩
    simp only [compileAll, reduceCtorEq, false_iff]
    rintro ⟨l, k, r, h, _⟩
    simp at h
  | cons kw kws ih =>
    by_cases hl : kw.length > la
    · have hc : compileKeyword la removed kw = .error (.keywordTooLong la) := by
        simp [compileKeyword, hl]
      refine ⟨?_, fun e => ?_⟩
      · simp only [compileAll, hc, reduceCtorEq, exists_false, false_iff]
        intro h
        have := (h kw List.mem_cons_self).1
        omega
      · simp only [compileAll, hc, Except.error.injEq]
        constructor
        · rintro rfl
          exact ⟨[], kw, kws, rfl, by simp, Or.inl ⟨hl, rfl⟩⟩
        · rintro ⟨l, k, r, h, h2, h3⟩
          cases l with
          | nil =>
            simp only [List.nil_append, List.cons.injEq] at h
            obtain ⟨rfl, rfl⟩ := h
            rcases h3 with ⟨_, rfl⟩ | ⟨h4, _⟩
            · rfl
            · omega
          | cons x l =>
            simp only [List.cons_append, List.cons.injEq] at h
            obtain ⟨rfl, rfl⟩ := h
            have := (h2 kw List.mem_cons_self).1
            omega
    · by_cases hbl : blank kw
      · have hc : compileKeyword la removed kw = .error .emptyKeyword := by
          simp only [compileKeyword, if_neg hl, (hb kw).2 hbl, if_true]
        refine ⟨?_, fun e => ?_⟩
        · simp only [compileAll, hc, reduceCtorEq, exists_false, false_iff]
          intro h
          exact (h kw List.mem_cons_self).2 hbl
        · simp only [compileAll, hc, Except.error.injEq]
          constructor
          · rintro rfl
            exact ⟨[], kw, kws, rfl, by simp, Or.inr ⟨by omega, hbl, rfl⟩⟩
          · rintro ⟨l, k, r, h, h2, h3⟩
            cases l with
            | nil =>
              simp only [List.nil_append, List.cons.injEq] at h
              obtain ⟨rfl, rfl⟩ := h
              rcases h3 with ⟨h4, _⟩ | ⟨_, _, rfl⟩
              · omega
              · rfl
            | cons x l =>
              simp only [List.cons_append, List.cons.injEq] at h
              obtain ⟨rfl, rfl⟩ := h
              exact absurd hbl (h2 kw List.mem_cons_self).2
      · have hc : compileKeyword la removed kw = .ok ((trim kw).filter (fun c => !removed c)) := by
          have : ¬ (trim kw).filter (fun c => !removed c) = [] := fun h => hbl ((hb kw).1 h)
          simp only [compileKeyword, if_neg hl, if_neg this]
        refine ⟨?_, fun e => ?_⟩
        · simp only [compileAll, hc]
          constructor
          · rintro ⟨ts, h⟩
            split at h
            · cases h
            · next ts' h' =>
              intro k hk
              rcases List.mem_cons.1 hk with rfl | hk
              · exact ⟨by omega, hbl⟩
              · exact ih.1.1 ⟨ts', h'⟩ k hk
          · intro h
            obtain ⟨ts, hts⟩ := ih.1.2 (fun k hk => h k (List.mem_cons_of_mem _ hk))
            exact ⟨_, by rw [hts]⟩
        · simp only [compileAll, hc]
          refine Iff.trans (b := compileAll la removed kws = .error e) ?_ ?_
          · cases compileAll la removed kws <;> simp
          rw [ih.2 e]
          constructor
          · rintro ⟨l, k, r, h, h2, h3⟩
            refine ⟨kw :: l, k, r, by simp [h], ?_, h3⟩
            intro x hx
            rcases List.mem_cons.1 hx with rfl | hx
            · exact ⟨by omega, hbl⟩
            · exact h2 x hx
          · rintro ⟨l, k, r, h, h2, h3⟩
            cases l with
            | nil =>
              simp only [List.nil_append, List.cons.injEq] at h
              obtain ⟨rfl, rfl⟩ := h
              rcases h3 with ⟨h4, _⟩ | ⟨_, h4, _⟩
              · omega
              · exact absurd h4 hbl
            | cons x l =>
              simp only [List.cons_append, List.cons.injEq] at h
              obtain ⟨rfl, rfl⟩ := h
              exact ⟨l, k, r, rfl, fun y hy => h2 y (List.mem_cons_of_mem _ hy), h3⟩

theorem compileKeywords_spec (la : Nat) (removed : Char → Bool) (blank : Str → Prop)
    (hb : ∀ s, (trim s).filter (fun c => !removed c) = [] ↔ blank s) (kws : List Str) :
    ((∃ ts, compileKeywords la removed kws = .ok ts) ↔ ∀ k ∈ kws, k.length ≤ la ∧ ¬ blank k) ∧
    (∀ e, compileKeywords la removed kws = .error e ↔ FirstFault la blank kws e) := by
  obtain ⟨h1, h2⟩ := compileAll_spec la removed blank hb kws
  unfold compileKeywords
  by_cases hk : kws = []
  · subst hk
    refine ⟨by simp, fun e => ?_⟩
    rw [← h2]
    simp [compileAll]
  · rw [if_neg hk]
    refine ⟨?_, fun e => ?_⟩
    · rw [← h1]
      cases compileAll la removed kws <;> simp
    · rw [← h2]
      cases compileAll la removed kws <;> simp

theorem blank_iff (s : Str) : (trim s).filter (fun c => !(fun _ => false) c) = [] ↔ Blank s := by
  rw [trim_removed_nil_iff _ (by simp)]
  constructor
  · rintro ⟨a, m, b, rfl, ha, hb, hm⟩ c hc
    simp only [List.mem_append] at hc
    rcases hc with (hc | hc) | hc
    · exact ha c hc
    · exact absurd (hm c hc) (by simp)
    · exact hb c hc
  · intro h
    exact ⟨s, [], [], by simp, h, by simp [Blank], by simp⟩

theorem isStripped_iff (c : Char) : isStripped c = true ↔ c = '-' ∨ c = '_' := by simp [isStripped]

theorem blankIgnoring_iff (s : Str) : (trim s).filter (fun c => !isStripped c) = [] ↔ BlankIgnoring s := by
  rw [trim_removed_nil_iff]
  · simp only [isStripped_iff]; rfl
  · intro c hc
    rcases (isStripped_iff c).1 hc with rfl | rfl <;> decide

/-! ## Normalised paths -/

theorem bypassLoop_lower {s : Str} : ∀ {l u : Bool}, bypassLoop l u s = .allLower → l = true ∧ ∀ c ∈ s, isLower c = true := by
  induction s with
  | nil => intro l u h; cases l <;> simp_all [bypassLoop]
  | cons c s ih =>
    intro l u h
    simp only [bypassLoop] at h
    split at h
    · cases h
    · split at h
      · cases h
      · obtain ⟨h1, h2⟩ := ih h
        simp only [Bool.and_eq_true] at h1
        refine ⟨h1.1, fun x hx => ?_⟩
        rcases List.mem_cons.1 hx with rfl | hx
        · exact h1.2
        · exact h2 x hx

theorem bypassLoop_upper {s : Str} : ∀ {l u : Bool}, (l = true ∨ u = true) → bypassLoop l u s = .allUpper →
    u = true ∧ ∀ c ∈ s, isUpper c = true := by
  induction s with
  | nil => intro l u hlu h; cases l <;> simp_all [bypassLoop]
  | cons c s ih =>
    intro l u hlu h
    simp only [bypassLoop] at h
    split at h
    · cases h
    · split at h
      · cases h
      · next hne =>
        have hlu' : (l && isLower c) = true ∨ (u && isUpper c) = true := by
          revert hne; cases (l && isLower c) <;> cases (u && isUpper c) <;> simp
        obtain ⟨h1, h2⟩ := ih hlu' h
        simp only [Bool.and_eq_true] at h1
        refine ⟨h1.1, fun x hx => ?_⟩
        rcases List.mem_cons.1 hx with rfl | hx
        · exact h1.2
        · exact h2 x hx

theorem lower_regular {c : Char} (h : isLower c = true) : charType c = .regular := by
  simp only [isLower, Bool.and_eq_true, decide_eq_true_eq] at h
  have hsep : ¬ (c = '-' ∨ c = '_' ∨ c = '.' ∨ c = ' ' ∨ c = '/') := by
    rintro (rfl | rfl | rfl | rfl | rfl) <;> revert h <;> decide
  have hup : isUpper c = false := by
    simp only [isUpper, Bool.and_eq_false_iff, decide_eq_false_iff_not]
    right
    intro hz
    have h1 : ('a' : Char).val ≤ 'Z'.val := Nat.le_trans h.1 hz
    revert h1; decide
  unfold charType
  rw [if_neg hsep, hup]
  simp

theorem upper_uppercase {c : Char} (h : isUpper c = true) : charType c = .uppercase := by
  have hsep : ¬ (c = '-' ∨ c = '_' ∨ c = '.' ∨ c = ' ' ∨ c = '/') := by
    rintro (rfl | rfl | rfl | rfl | rfl) <;> revert h <;> decide
  simp [charType, hsep, h]

theorem standardizeLoop_same (ty : CharType) (hty : ty ≠ .separator) (n : Nat) (s : Str) : ∀ (i : Nat) (prev : Char),
    charType prev = ty → (∀ c ∈ s, charType c = ty) → standardizeLoop n i prev s = s := by
  induction s with
  | nil => intros; rfl
  | cons c s ih =>
    intro i prev hp h
    have hc := h c List.mem_cons_self
    simp only [standardizeLoop]
    rw [ih (i + 1) c hc (fun x hx => h x (List.mem_cons_of_mem _ hx))]
    have : pushedFor (decide (i + 2 = n)) prev c = [c] := by
      unfold pushedFor
      rw [hp, hc]
      cases ty <;> cases (decide (i + 2 = n)) <;> simp_all
    rw [this]; rfl

theorem standardize_same {ty : CharType} (hty : ty ≠ .separator) {s : Str} (h : ∀ c ∈ s, charType c = ty) :
    standardize s = s := by
  cases s with
  | nil => rfl
  | cons c s =>
    simp only [standardize]
    rw [standardizeLoop_same ty hty _ s 0 c (h c List.mem_cons_self) (fun x hx => h x (List.mem_cons_of_mem _ hx))]

theorem asciiLower_toLower : asciiLower = Char.toLower := by
  funext c
  unfold asciiLower Char.toLower
  by_cases h : 'A' ≤ c ∧ c ≤ 'Z'
  · rw [if_pos h]
    have h' : c.val ≥ 'A'.val ∧ c.val ≤ 'Z'.val := h
    rw [dif_pos h']
    have hA : 65 ≤ c.toNat := h.1
    have hZ : c.toNat ≤ 90 := h.2
    apply Char.ext
    apply UInt32.toNat.inj
    have h1 : (Char.ofNat (c.toNat + 32)).val.toNat = c.toNat + 32 := by
      show (Char.ofNat (c.toNat + 32)).toNat = _
      have hvalid : (c.toNat + 32).isValidChar := Or.inl (by omega)
      unfold Char.ofNat
      rw [dif_pos hvalid]
      rfl
    rw [h1]
    show _ = (c.val + 32).toNat
    rw [UInt32.toNat_add]
    show c.toNat + 32 = (c.toNat + 32) % 2 ^ 32
    omega
  · rw [if_neg h]
    have h' : ¬ (c.val ≥ 'A'.val ∧ c.val ≤ 'Z'.val) := h
    rw [dif_neg h']

theorem asciiLower_of_lower {c : Char} (h : isLower c = true) : asciiLower c = c := by
  unfold asciiLower
  rw [if_neg]
  rintro ⟨h1, h2⟩
  have := lower_regular h
  have h3 : isUpper c = true := by simp [isUpper, h1, h2]
  rw [upper_uppercase h3] at this
  cases this

theorem sanitizeLoop_succ (p : Path) : ∀ i : Nat, sanitizeLoop (i + 1) p =
    (fieldsOf p).flatMap (fun f => '.' :: sanitizeField f) := by
  induction p with
  | nil => intro i; rfl
  | cons s p ih =>
    intro i
    cases s with
    | field f => simp [sanitizeLoop, fieldsOf, ih]
    | index n => simp [sanitizeLoop, fieldsOf, ih]

theorem dotJoin_cons (a : Str) (l : List Str) : dotJoin (a :: l) = a ++ l.flatMap (fun f => '.' :: f) := by
  induction l generalizing a with
  | nil => simp [dotJoin]
  | cons b l ih => simp [dotJoin, ih]

end Sds
