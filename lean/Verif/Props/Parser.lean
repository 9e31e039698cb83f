import Verif.Lemmas.ParserLimit

/-! # C52: accepted patterns respect the nesting limit -/

namespace Sds.Props
open Sds Spec Re

private theorem dom0 {L fuel : Nat} (h : L + 1 ≤ fuel) (s : Str) : (ctx L fuel).dom { value := s, depth := 0 } :=
  ⟨Nat.zero_le _, by simpa using h⟩

private theorem safe_pattern (L fuel : Nat) : Safe (ctx L fuel) (regexPattern L fuel) :=
  Safe.bind (safe_expression L fuel) fun _ => Safe.bind Safe.eof fun _ => Safe.pure _

private theorem parse_fuel {L fuel : Nat} (h : L + 1 ≤ fuel) (s : Str) :
    parseWith L fuel s = parseWith L (L + 1) s := by
  obtain ⟨k, rfl⟩ : ∃ k, fuel = (L + 1) + k := ⟨fuel - (L + 1), by omega⟩
  have : regexPattern L (L + 1 + k) { value := s, depth := 0 } = regexPattern L (L + 1) { value := s, depth := 0 } := by
    show Parser.bind _ _ _ = Parser.bind _ _ _
    unfold Parser.bind
    rw [expression_fuel (dom0 (Nat.le_refl _) s)]
  unfold parseWith
  rw [this]

private theorem parse_cases (L : Nat) (s : Str) :
    (∃ a, parseWith L (L + 1) s = .ok (.ok a) ∧ regexPattern L (L + 1) { value := s, depth := 0 } =
      .ok { value := [], depth := 0 } a ∧
      expression L (L + 1) { value := s, depth := 0 } = .ok { value := [], depth := 0 } a) ∨
    (∃ e, parseWith L (L + 1) s = .ok (.error e) ∧ (regexPattern L (L + 1) { value := s, depth := 0 } = .err e ∨
      regexPattern L (L + 1) { value := s, depth := 0 } = .fail e) ∧
      (e = .invalidSyntax ∨ (e = .exceededDepthLimit ∧ L ≤ opens s))) := by
  have hs := safe_pattern L (L + 1) _ (dom0 (Nat.le_refl _) s)
  unfold parseWith
  cases hr : regexPattern L (L + 1) { value := s, depth := 0 } with
  | ok j a =>
    left
    rw [hr] at hs
    obtain ⟨k, b, h1, h2⟩ := bind_ok.1 hr
    obtain ⟨k', u, h3, h4⟩ := bind_ok.1 h2
    obtain ⟨rfl, rfl⟩ := pure_ok.1 h4
    have h5 : j.value = [] ∧ k = j := by
      unfold eof at h3
      split at h3
      · next hb => cases h3; exact ⟨blen_eq_zero.1 hb, rfl⟩
      · cases h3
    obtain ⟨h5, rfl⟩ := h5
    have hk : k = { value := [], depth := 0 } := by
      obtain ⟨v, d⟩ := k
      simp only at h5
      have := hs.1
      simp only at this
      rw [h5, this]
    rw [hk] at h1 ⊢
    exact ⟨a, rfl, rfl, h1⟩
  | err e =>
    right
    rw [hr] at hs
    exact ⟨e, rfl, Or.inl rfl, Or.inl hs⟩
  | fail e =>
    right
    rw [hr] at hs
    refine ⟨e, rfl, Or.inr rfl, ?_⟩
    rcases hs with h | ⟨h, h'⟩
    · exact Or.inl h
    · exact Or.inr ⟨h, by simpa using h'⟩
  | panic => rw [hr] at hs; exact hs.elim
  | hang => rw [hr] at hs; exact hs.elim

/-- C52: parsing always returns, without a panic and without an endless loop. -/
theorem C52_terminates (s : Str) : ∃ r, parseRegexPattern s = .ok r := by
  rcases parse_cases recursionLimit s with ⟨a, h, _⟩ | ⟨e, h, _⟩
  · exact ⟨_, h⟩
  · exact ⟨_, h⟩

/-- C52: at most 51 calls of `expression` are active at the same time: allowing more of them changes nothing. -/
theorem C52_recursion_bound (s : Str) (fuel : Nat) (h : 51 ≤ fuel) : parseWith 50 fuel s = parseRegexPattern s :=
  parse_fuel h s

/-- C52: the groups of an accepted pattern nest at most 49 deep. -/
theorem C52_accepted_nesting (s : Str) (a : Ast) (h : parseRegexPattern s = .ok (.ok a)) : nesting a < 50 := by
  rcases parse_cases recursionLimit s with ⟨b, h1, _, h2⟩ | ⟨e, h1, _⟩
  · have hab : b = a := by
      have := h1.symm.trans h
      simpa using this
    subst hab
    have := expression_nesting (dom0 (Nat.le_refl _) s) h2
    simp only [recursionLimit] at this
    omega
  · have := h1.symm.trans h
    cases this

/-- C52: the syntax tree of an accepted pattern is low, so functions that recurse over it do not recurse deeply. -/
theorem C52_accepted_height (s : Str) (a : Ast) (h : parseRegexPattern s = .ok (.ok a)) : height a ≤ 201 := by
  have hn := C52_accepted_nesting s a h
  rcases parse_cases recursionLimit s with ⟨b, h1, _, h2⟩ | ⟨e, h1, _⟩
  · have hab : b = a := by
      have := h1.symm.trans h
      simpa using this
    subst hab
    have := expression_height h2
    omega
  · have := h1.symm.trans h
    cases this

/-- C52: a pattern is rejected because of its depth only if it has at least 50 opening parentheses; all other
rejections are syntax errors. -/
theorem C52_rejections (s : Str) (e : PErr) (h : parseRegexPattern s = .ok (.error e)) :
    e = .invalidSyntax ∨ (e = .exceededDepthLimit ∧ 50 ≤ s.count '(') := by
  rcases parse_cases recursionLimit s with ⟨b, h1, _⟩ | ⟨e', h1, _, h2⟩
  · have := h1.symm.trans h
    cases this
  · have hee : e' = e := by
      have := h1.symm.trans h
      simpa using this
    subst hee
    exact h2

private theorem lower_limit {L L' : Nat} (hL : L ≤ L') {s : Str} {a : Ast}
    (h : parseWith L' (L' + 1) s = .ok (.ok a)) :
    (nesting a < L → parseWith L (L + 1) s = .ok (.ok a)) ∧
    (L ≤ nesting a → parseWith L (L + 1) s = .ok (.error .exceededDepthLimit)) := by
  have hexp : expression L' (L' + 1) { value := s, depth := 0 } = .ok { value := [], depth := 0 } a := by
    rcases parse_cases L' s with ⟨b, h1, _, h2⟩ | ⟨e, h1, _⟩
    · have hab : b = a := by
        have := h1.symm.trans h
        simpa using this
      subst hab
      exact h2
    · have := h1.symm.trans h
      cases this
  constructor
  · intro hn
    have h1 := expression_exact hL (dom0 (Nat.le_refl _) s) (dom0 (Nat.le_refl _) s) hexp (by simp [NoOpen])
      (by simp only; omega)
    have h2 : regexPattern L (L + 1) { value := s, depth := 0 } = .ok { value := [], depth := 0 } a :=
      (bind_of_ok h1).trans rfl
    unfold parseWith
    rw [h2]
  · intro hn
    have hd := dom0 (Nat.le_refl (L + 1)) s
    have hsim := sim_expression hL (L + 1) (L' - L) _ hd
    rw [show L + 1 + (L' - L) = L' + 1 by omega, hexp] at hsim
    have h1 : expression L (L + 1) { value := s, depth := 0 } = .fail .exceededDepthLimit := by
      rcases hsim with h1 | h1
      · have := expression_nesting hd h1
        simp only at this
        omega
      · exact h1
    have h2 : regexPattern L (L + 1) { value := s, depth := 0 } = .fail .exceededDepthLimit := bind_of_fail h1
    unfold parseWith
    rw [h2]

/-- A pattern is read as one expression only, whatever the limit. -/
theorem readAs_unique {s : Str} {a a' : Ast} (h : ReadAs s a) (h' : ReadAs s a') : a = a' := by
  have key : ∀ {L L' : Nat} {b b' : Ast}, L ≤ L' → parseWith L (L + 1) s = .ok (.ok b) →
      parseWith L' (L' + 1) s = .ok (.ok b') → b = b' := by
    intro L L' b b' hL h1 h2
    by_cases hn : nesting b' < L
    · have := (lower_limit hL h2).1 hn
      rw [h1] at this
      simpa using this
    · have := (lower_limit hL h2).2 (by omega)
      rw [h1] at this
      simp at this
  obtain ⟨L, h⟩ := h
  obtain ⟨L', h'⟩ := h'
  rcases Nat.le_total L L' with hL | hL
  · exact key hL h h'
  · exact (key hL h' h).symm

/-- C52: exactly the patterns whose groups nest less than 50 deep are accepted, as the expression they stand for. -/
theorem C52_accepted_iff (s : Str) (a : Ast) :
    parseRegexPattern s = .ok (.ok a) ↔ ReadAs s a ∧ nesting a < 50 := by
  constructor
  · intro h
    exact ⟨⟨50, h⟩, C52_accepted_nesting s a h⟩
  · rintro ⟨⟨L', h⟩, hn⟩
    by_cases hL : 50 ≤ L'
    · exact (lower_limit hL h).1 hn
    · -- a limit below 50
      have hL' : L' ≤ 50 := by omega
      rcases parse_cases L' s with ⟨b, h1, _, h2⟩ | ⟨e, h1, _⟩
      · have hab : b = a := by
          have := h1.symm.trans h
          simpa using this
        subst hab
        have hsim := sim_expression hL' (L' + 1) (50 - L') _ (dom0 (Nat.le_refl _) s)
        rw [h2, show L' + 1 + (50 - L') = 51 by omega] at hsim
        have h3 : expression 50 51 { value := s, depth := 0 } = .ok { value := [], depth := 0 } b := by
          rcases hsim with h3 | h3
          · exact h3.symm
          · cases h3
        have h4 : regexPattern 50 51 { value := s, depth := 0 } = .ok { value := [], depth := 0 } b :=
          (bind_of_ok h3).trans rfl
        show parseWith 50 51 s = _
        unfold parseWith
        rw [h4]
      · have := h1.symm.trans h
        cases this

/-- C52: a pattern whose groups nest too deeply is rejected with the depth error. -/
theorem C52_too_deep (s : Str) (a : Ast) (h : ReadAs s a) (hn : 50 ≤ nesting a) :
    parseRegexPattern s = .ok (.error .exceededDepthLimit) := by
  obtain ⟨L', h⟩ := h
  have hL : 50 ≤ L' := by
    rcases parse_cases L' s with ⟨b, h1, _, h2⟩ | ⟨e, h1, _⟩
    · have hab : b = a := by
        have := h1.symm.trans h
        simpa using this
      subst hab
      have := expression_nesting (dom0 (Nat.le_refl _) s) h2
      simp only at this
      omega
    · have := h1.symm.trans h
      cases this
  exact (lower_limit hL h).2 hn

/-- Whether a pattern is accepted, for the examples. -/
private def verdict : Res (Except PErr Ast) → Option (Option PErr)
  | .ok (.ok _) => some none
  | .ok (.error e) => some (some e)
  | _ => none

private def nested (n : Nat) : Str := List.replicate n '(' ++ 'x' :: List.replicate n ')'

example : verdict (parseRegexPattern (nested 49)) = some none ∧
    verdict (parseRegexPattern (nested 50)) = some (some .exceededDepthLimit) ∧
    verdict (parseWith 100 101 (nested 60)) = some none ∧
    verdict (parseRegexPattern "(a".toList) = some (some .invalidSyntax) := by decide +kernel

end Sds.Props
