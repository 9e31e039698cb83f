import Verif.Lemmas.GrammarComplete
import Verif.Props.Parser

/-! # C82: patterns are read as the syntax says -/

namespace Sds.Props
open Sds Spec Re Sds.Spec.Syntax

/-- C82: a pattern is read as an expression exactly if it denotes this expression in the syntax. -/
theorem C82_reads_iff (s : Str) (a : Ast) : ReadAs s a ↔ Denotes s a := by
  constructor
  · rintro ⟨limit, h⟩
    unfold parseWith at h
    cases hr : regexPattern limit (limit + 1) ⟨s, 0⟩ with
    | ok i b =>
      rw [hr] at h
      dsimp only at h
      cases h
      obtain ⟨j, b, h1, h2⟩ := Gram.bind_ok hr rfl
      obtain ⟨hd, he⟩ := Gram.sound_expression limit (limit + 1) s 0 j b h1
      obtain ⟨k, u, h3, h4⟩ := Gram.bind_ok h2 rfl
      cases h4
      unfold eof at h3
      split at h3
      · next hb =>
        have : j.value = [] := blen_eq_zero.1 hb
        rw [this] at he
        exact ⟨_, he⟩
      · cases h3
    | err e => rw [hr] at h; cases h
    | fail e => rw [hr] at h; cases h
    | panic => rw [hr] at h; cases h
    | hang => rw [hr] at h; cases h
  · rintro ⟨n, h⟩
    have hx := Gram.expression_run n n (n + 1) 0 h (by omega) (by omega) (fun c hc => by cases hc) (by simp)
    refine ⟨n, ?_⟩
    have hp : regexPattern n (n + 1) ⟨s, 0⟩ = .ok ⟨[], 0⟩ a := by
      unfold regexPattern
      rw [Gram.bind_run hx]
      rfl
    unfold parseWith
    rw [hp]

/-- C82: a text denotes one expression at most. -/
theorem C82_denotes_unique {s : Str} {a b : Ast} (ha : Denotes s a) (hb : Denotes s b) : a = b :=
  readAs_unique ((C82_reads_iff s a).2 ha) ((C82_reads_iff s b).2 hb)

/-- C82: exactly the texts that denote an expression whose groups nest less than 50 deep are accepted, as this expression. -/
theorem C82_accepted_iff (s : Str) (a : Ast) : parseRegexPattern s = .ok (.ok a) ↔ Denotes s a ∧ nesting a < 50 := by
  rw [C52_accepted_iff, C82_reads_iff]

/-- C82: all other texts are refused: with the error for deep patterns if they denote an expression, and never with another result
than an error. -/
theorem C82_refused_iff (s : Str) : (∃ e, parseRegexPattern s = .ok (.error e)) ↔ ∀ a, Denotes s a → 50 ≤ nesting a := by
  constructor
  · rintro ⟨e, h⟩ a ha
    refine Nat.le_of_not_lt fun hn => ?_
    rw [(C82_accepted_iff s a).2 ⟨ha, hn⟩] at h
    cases h
  · intro h
    obtain ⟨r, hr⟩ := C52_terminates s
    cases r with
    | error e => exact ⟨e, hr⟩
    | ok a =>
      obtain ⟨h1, h2⟩ := (C82_accepted_iff s a).1 hr
      exact absurd (h a h1) (by omega)

/-- C82: a text that denotes an expression is only refused because its groups nest too deep, and the error says so. -/
theorem C82_deep_error (s : Str) (a : Ast) (ha : Denotes s a) (hn : 50 ≤ nesting a) :
    parseRegexPattern s = .ok (.error .exceededDepthLimit) :=
  C52_too_deep s a ((C82_reads_iff s a).2 ha) hn

private theorem bracketText (j : Str) : Class ('[' :: 'b' :: '-' :: 'd' :: ']' :: j) j (.bracket false [.range 'b' 'd']) := by
  refine .bracket (.mk (s' := 'b' :: '-' :: 'd' :: ']' :: j) (m := 'b' :: '-' :: 'd' :: ']' :: j) (neg := false) (first := [])
    (items := [.range 'b' 'd']) (.inr ⟨by simp, rfl, rfl⟩) (.inr ⟨by simp, rfl, rfl⟩) ?_ (by simp))
  refine .cons (x := [.range 'b' 'd']) (l := []) (.range (a := ⟨'b', false⟩) (b := ⟨'d', false⟩) ?_ ?_ (.plain _ (by decide) (by decide))
    (.plain _ (by decide) (by decide))) (.nil _)
  · rintro ⟨l, _, k, h⟩; cases h
  · intro k x h; cases h

/-- An `a` and then one or more letters from `b` to `d`. -/
def bracketAst : Ast := .concat [.literal ⟨'a', false⟩, .repetition ⟨false, .oneOrMore⟩
  (.characterClass (.bracket false [.range 'b' 'd']))]

/-- C82: the pattern `a[b-d]+` denotes an `a` and then one or more letters from `b` to `d`. -/
theorem bracketAst_denotes : Denotes "a[b-d]+".toList bracketAst := by
  refine ⟨1, [bracketAst], .last (l := [.literal ⟨'a', false⟩, .repetition ⟨false, .oneOrMore⟩
    (.characterClass (.bracket false [.range 'b' 'd']))]) ?_, rfl⟩
  refine .cons (m := "[b-d]+".toList) (.bare (.literal ?_ (.plain _ (by decide) (by decide))) ?_) (.cons (.repeated (m := ['+']) (.cls
    (bracketText ['+'])) (.greedy (.plus []) (by simp))) (.nil []))
  · rintro ⟨l, _, k, h⟩; cases h
  · intro k q h
    cases h with
    | «lazy» h => cases h
    | greedy h => cases h

example : Denotes "a[b-d]+".toList bracketAst ∧ nesting bracketAst < 50 ∧
    parseRegexPattern "a[b-d]+".toList = .ok (.ok bracketAst) :=
  ⟨bracketAst_denotes, by decide, (C82_accepted_iff _ _).2 ⟨bracketAst_denotes, by decide⟩⟩

/-- A text that denotes nothing: a group that is not closed. -/
example : ∀ a, ¬ Denotes "(a".toList a := by
  intro a h
  obtain ⟨n, h⟩ := (C82_reads_iff _ _).2 h
  have h50 : (match parseRegexPattern "(a".toList with
      | .ok (.error .invalidSyntax) => true
      | _ => false) = true := by decide +kernel
  by_cases hn : nesting a < 50
  · rw [(C52_accepted_iff _ _).2 ⟨⟨n, h⟩, hn⟩] at h50
    cases h50
  · rw [C52_too_deep _ _ ⟨n, h⟩ (by omega)] at h50
    cases h50

end Sds.Props
