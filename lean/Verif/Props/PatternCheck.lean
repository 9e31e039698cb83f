import Verif.Model.PatternCheck
import Verif.Props.Normalize
import Verif.Props.Builder

/-! # C70, and the validation step of C46 -/

namespace Sds.Props
open Sds.Spec Sds.Re

variable {V : Type}

/-! ## C46 -/

/-- C46, the regex check: a pattern is accepted iff it is converted, the engine builds the converted pattern within the
limit of 1000000, and the regex does not match the empty text. -/
theorem C46_pattern_accepted_iff (lib : RegexLib V) (input : Str) (v : V) :
    lib.validate input = .ok v ↔
      ∃ p, lib.convert input = .ok p ∧ lib.build p 1000000 = .ok v ∧ lib.matchesEmpty v = false := by
  unfold RegexLib.validate complexityLimit
  cases hc : lib.convert input with
  | error e => simp
  | ok p =>
    simp only [Except.ok.injEq, exists_eq_left']
    cases hb : lib.build p 1000000 with
    | error e => simp
    | ok w =>
      cases hm : lib.matchesEmpty w with
      | false =>
        simp only [hm, Bool.false_eq_true, if_false, Except.ok.injEq]
        exact ⟨fun h => ⟨h, h ▸ hm⟩, fun h => h.1⟩
      | true =>
        simp only [hm, if_true, reduceCtorEq, Except.ok.injEq, false_iff, not_and]
        rintro rfl
        simp [hm]

/-- C46, the error of a pattern that is not accepted: conversion, then building, then the empty text. -/
theorem C46_pattern_error_iff (lib : RegexLib V) (input : Str) (e : RegexErr) :
    lib.validate input = .error e ↔
      lib.convert input = .error e ∨
      (∃ p, lib.convert input = .ok p ∧ lib.build p 1000000 = .error e) ∨
      (∃ p v, lib.convert input = .ok p ∧ lib.build p 1000000 = .ok v ∧ lib.matchesEmpty v = true ∧
        e = .matchesEmptyString) := by
  unfold RegexLib.validate complexityLimit
  cases hc : lib.convert input with
  | error e' => simp
  | ok p =>
    simp only [Except.ok.injEq, exists_eq_left', reduceCtorEq, false_or]
    cases hb : lib.build p 1000000 with
    | error e' => simp [hb]
    | ok w =>
      cases hm : lib.matchesEmpty w with
      | false => simp [hb, hm]
      | true =>
        simp only [hm, if_true, Except.error.injEq, reduceCtorEq, false_or]
        constructor
        · rintro rfl
          exact ⟨p, w, rfl, hb, hm, rfl⟩
        · rintro ⟨_, _, _, _, _, rfl⟩
          rfl

example : (⟨.ok, fun p l => if p.length ≤ l then .ok p else .error .tooComplex, fun p => p.isEmpty⟩ : RegexLib Str).validate
    [] = .error .matchesEmptyString := by decide

/-! ## C70 -/

/-- C70: validation always returns. -/
theorem C70_returns (build : Str → Nat → Except RegexErr V) (me : V → Bool) (s : Str) :
    ∃ r, validatePattern build me s = .ok r := by
  obtain ⟨r, hr⟩ := (C53_pattern_iff s).2.2
  unfold validatePattern convertPattern
  rw [hr]
  cases r with
  | error e => exact ⟨_, rfl⟩
  | ok p =>
    simp only
    cases build p complexityLimit with
    | error e => exact ⟨_, rfl⟩
    | ok v =>
      simp only
      split <;> exact ⟨_, rfl⟩

/-- C70: a pattern is accepted iff it can be read as a tree whose groups nest less than 50 deep and whose repetition
counts are at most 3000, the engine builds its translation within the limit, and the regex does not match the empty
text. -/
theorem C70_accepted_iff (build : Str → Nat → Except RegexErr V) (me : V → Bool) (s : Str) (v : V) :
    validatePattern build me s = .ok (.ok v) ↔
      ∃ a r, Syntax.Denotes s a ∧ nesting a < 50 ∧ SmallCounts a ∧ convertAst a = .ok r ∧ build r.print 1000000 = .ok v ∧
        me v = false := by
  unfold validatePattern convertPattern convertToRustRegex complexityLimit
  constructor
  · intro h
    obtain ⟨x, hx⟩ := C52_terminates s
    rw [hx] at h
    cases x with
    | error e => simp at h
    | ok a =>
      obtain ⟨h1, h2⟩ := (C82_accepted_iff s a).1 hx
      simp only at h
      cases hc : convertAst a with
      | error e => simp [hc] at h
      | ok r =>
        rw [hc] at h
        simp only at h
        cases hb : build r.print 1000000 with
        | error e => simp [hb] at h
        | ok w =>
          rw [hb] at h
          simp only at h
          cases hm : me w with
          | true => simp [hm] at h
          | false =>
            simp only [hm, Bool.false_eq_true, if_false, Res.ok.injEq, Except.ok.injEq] at h
            subst h
            exact ⟨a, r, h1, h2, (C53_convert_iff a).1 ⟨r, hc⟩, hc, hb, hm⟩
  · rintro ⟨a, r, h1, h2, _, h4, h5, h6⟩
    rw [(C82_accepted_iff s a).2 ⟨h1, h2⟩]
    simp [h4, h5, h6]

/-- The errors of the engine: everything but the size limit is reported as invalid syntax (validation.rs 104-111). -/
def EngineErrors (build : Str → Nat → Except RegexErr V) : Prop :=
  ∀ p l e, build p l = .error e → e = .tooComplex ∨ e = .invalidSyntax

/-- C70: what each error says about the pattern. -/
theorem C70_errors (build : Str → Nat → Except RegexErr V) (he : EngineErrors build) (me : V → Bool) (s : Str) :
    (validatePattern build me s = .ok (.error .exceededQuantifierLimit) ↔
      ∃ a, Syntax.Denotes s a ∧ nesting a < 50 ∧ ¬ SmallCounts a) ∧
    (validatePattern build me s = .ok (.error .exceededDepthLimit) ↔
      parseRegexPattern s = .ok (.error .exceededDepthLimit)) ∧
    (validatePattern build me s = .ok (.error .tooComplex) ↔
      ∃ a r, Syntax.Denotes s a ∧ nesting a < 50 ∧ convertAst a = .ok r ∧ build r.print 1000000 = .error .tooComplex) ∧
    (validatePattern build me s = .ok (.error .matchesEmptyString) ↔
      ∃ a r v, Syntax.Denotes s a ∧ nesting a < 50 ∧ convertAst a = .ok r ∧ build r.print 1000000 = .ok v ∧ me v = true) ∧
    (validatePattern build me s = .ok (.error .invalidSyntax) ↔
      parseRegexPattern s = .ok (.error .invalidSyntax) ∨
      ∃ a r, Syntax.Denotes s a ∧ nesting a < 50 ∧ convertAst a = .ok r ∧ build r.print 1000000 = .error .invalidSyntax) := by
  have hread : ∀ a, (Syntax.Denotes s a ∧ nesting a < 50) ↔ parseRegexPattern s = .ok (.ok a) :=
    fun a => (C82_accepted_iff s a).symm
  simp only [← and_assoc, hread]
  unfold validatePattern convertPattern convertToRustRegex complexityLimit
  obtain ⟨x, hx⟩ := C52_terminates s
  rw [hx]
  cases x with
  | error e =>
    rcases C52_rejections s e hx with rfl | ⟨rfl, _⟩ <;> simp [RegexErr.ofParse]
  | ok a =>
    have hcv := C53_convert_iff a
    simp only [Res.ok.injEq, Except.ok.injEq, and_assoc, exists_and_left, exists_eq_left']
    cases hc : convertAst a with
    | error e =>
      have := C53_convert_error a e hc
      subst this
      have hsc : ¬ SmallCounts a := by
        intro h
        obtain ⟨r, hr⟩ := hcv.2 h
        rw [hc] at hr; cases hr
      simp [RegexErr.ofParse, hsc]
    | ok r =>
      have hsc : SmallCounts a := hcv.1 ⟨r, hc⟩
      simp only
      cases hb : build r.print 1000000 with
      | error e =>
        rcases he _ _ _ hb with rfl | rfl <;> simp [hb, hsc]
      | ok w =>
        cases hm : me w <;> simp [hb, hm, hsc]

/-- C70: validation alone answers like validation for a scanner. -/
theorem C70_validate_regex (build : Str → Nat → Except RegexErr V) (me : V → Bool) (s : Str) :
    (validateRegex build me s = .ok (.ok ()) ↔ ∃ v, validatePattern build me s = .ok (.ok v)) ∧
    ∀ e, validateRegex build me s = .ok (.error e) ↔ validatePattern build me s = .ok (.error e) := by
  obtain ⟨r, hr⟩ := C70_returns build me s
  unfold validateRegex
  rw [hr]
  cases r <;> simp

private def toyBuild (p : Str) (l : Nat) : Except RegexErr Str := if p.length ≤ l then .ok p else .error .tooComplex

/-- One pattern for each outcome. -/
example : EngineErrors toyBuild ∧
    validatePattern toyBuild List.isEmpty "a{2}".toList = .ok (.ok "a{2}".toList) ∧
    validatePattern toyBuild List.isEmpty "".toList = .ok (.error .matchesEmptyString) ∧
    validatePattern toyBuild List.isEmpty "a{3001}".toList = .ok (.error .exceededQuantifierLimit) ∧
    validatePattern toyBuild List.isEmpty "(".toList = .ok (.error .invalidSyntax) := by
  refine ⟨?_, by decide +kernel, by decide +kernel, by decide +kernel, by decide +kernel⟩
  intro p l e h
  unfold toyBuild at h
  split at h
  · cases h
  · cases h; exact Or.inl rfl

end Sds.Props
