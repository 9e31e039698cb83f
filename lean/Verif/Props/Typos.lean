import Verif.Lemmas.Typos
import Verif.Props.Validators

/-! # C102: mistyped numbers and tokens are not accepted

For Luhn and Chinese identity numbers, and for single digits of a NIR, see also C31, C33 and C34. -/

namespace Sds.Props
open Sds Spec

/-- GitHub tokens: of two tokens whose payloads differ only within four adjacent characters, at most one is accepted,
if the checksum is CRC-32. -/
theorem C102_github_payload {pre pre' a x y b check : Str} (hx : ∀ c ∈ a ++ (x ++ b) ++ check, AlphaNum c)
    (hy : ∀ c ∈ a ++ (y ++ b) ++ check, AlphaNum c) (hc : check.length = 6) (hl : x.length = y.length) (h4 : x.length ≤ 4)
    (hne : x ≠ y) (hv : githubValid crc32 (pre ++ '_' :: (a ++ (x ++ b) ++ check)) = Res.ok true) :
    githubValid crc32 (pre' ++ '_' :: (a ++ (y ++ b) ++ check)) = Res.ok false := by
  obtain ⟨v, hv'⟩ := (githubValid_spec crc32 (pre' ++ '_' :: (a ++ (y ++ b) ++ check))).1
  cases v with
  | false => exact hv'
  | true =>
    have h := base62_inj ((github_last hx hc hv).symm.trans (github_last hy hc hv'))
    have ok : ∀ {l : Str}, (∀ c ∈ l, c ∈ a ++ (x ++ b) ++ check) → ∀ c ∈ l, c.toNat < 256 :=
      fun h c hc => alphaNum_lt (hx c (h c hc))
    refine absurd (crc32_burst (ok ?_) (ok ?_) (fun c hc => alphaNum_lt (hy c ?_)) (ok ?_) hl h4 h) hne
    · intro c hc; simp [hc]
    · intro c hc; simp [hc]
    · simp [hc]
    · intro c hc; simp [hc]

/-- GitHub tokens: for a payload at most one text of six characters is accepted, whatever the checksum is. -/
theorem C102_github_check (crc : Str → Nat) {pre pre' payload check check' : Str} (hx : ∀ c ∈ payload ++ check, AlphaNum c)
    (hy : ∀ c ∈ payload ++ check', AlphaNum c) (hc : check.length = 6) (hc' : check'.length = 6) (hne : check ≠ check')
    (hv : githubValid crc (pre ++ '_' :: (payload ++ check)) = Res.ok true) :
    githubValid crc (pre' ++ '_' :: (payload ++ check')) = Res.ok false := by
  obtain ⟨v, hv'⟩ := (githubValid_spec crc (pre' ++ '_' :: (payload ++ check'))).1
  cases v with
  | false => exact hv'
  | true => exact absurd ((github_last hx hc hv).trans (github_last hy hc' hv').symm) hne

/-- Non-vacuity: two adjacent characters of an accepted token exchanged. -/
example : githubValid crc32 ("ghp".toList ++ '_' :: ("M7H4jxUDDWHP".toList ++ ("4k".toList ++ "Z6A4dxlQYsQIWJuq".toList) ++ "11T4V4".toList)) =
      Res.ok true ∧
    githubValid crc32 ("ghp".toList ++ '_' :: ("M7H4jxUDDWHP".toList ++ ("k4".toList ++ "Z6A4dxlQYsQIWJuq".toList) ++ "11T4V4".toList)) =
      Res.ok false := by decide +kernel

/-- The checksum of the theorem is CRC-32: the check value of its definition. -/
example : crc32 "123456789".toList = 0xCBF43926 := by decide +kernel

/-- NHS numbers: changing a single digit of an accepted number is detected. -/
theorem C102_nhs_digit {t t' : Str} {a b : List Nat} {x y : Nat} (h : Digits t (a ++ x :: b)) (h' : Digits t' (a ++ y :: b))
    (h10 : (a ++ x :: b).length = 10) (hxy : x ≠ y) (hv : nhsValid t = true) : nhsValid t' = false := by
  refine Bool.eq_false_iff.2 (fun hc => hxy ?_)
  have h10' : (a ++ y :: b).length = 10 := by rw [← h10]; simp
  have w := nhsNumber_weights (((C32_nhs_partial h).1 h10).1 hv)
  have w' := nhsNumber_weights (((C32_nhs_partial h').1 h10').1 hc)
  obtain ⟨s, e, e'⟩ := nhsWeights_append a (x :: b) (y :: b) rfl
  rw [e, nhsWeights] at w
  rw [e', nhsWeights] at w'
  have hb : b.length < 10 := by simp at h10; omega
  have hx := digits_lt h x (by simp)
  have hy := digits_lt h' y (by simp)
  exact congrArg Fin.val (nhs_mul ⟨b.length, hb⟩ ⟨x, hx⟩ ⟨y, hy⟩ (by dsimp only; omega))

/-- NHS numbers: exchanging two adjacent digits of an accepted number is detected. -/
theorem C102_nhs_swap {t t' : Str} {a b : List Nat} {x y : Nat} (h : Digits t (a ++ x :: y :: b))
    (h' : Digits t' (a ++ y :: x :: b)) (h10 : (a ++ x :: y :: b).length = 10) (hxy : x ≠ y) (hv : nhsValid t = true) :
    nhsValid t' = false := by
  refine Bool.eq_false_iff.2 (fun hc => hxy ?_)
  have h10' : (a ++ y :: x :: b).length = 10 := by rw [← h10]; simp
  have w := nhsNumber_weights (((C32_nhs_partial h).1 h10).1 hv)
  have w' := nhsNumber_weights (((C32_nhs_partial h').1 h10').1 hc)
  obtain ⟨s, e, e'⟩ := nhsWeights_append a (x :: y :: b) (y :: x :: b) rfl
  rw [e, nhsWeights, nhsWeights, List.length_cons] at w
  rw [e', nhsWeights, nhsWeights, List.length_cons] at w'
  have hb : b.length < 10 := by simp at h10; omega
  have hx := digits_lt h x (by simp)
  have hy := digits_lt h y (by simp)
  exact congrArg Fin.val (nhs_swap ⟨b.length, hb⟩ ⟨x, hx⟩ ⟨y, hy⟩ (by dsimp only; omega))

/-- The text of an NHS number and the same with two digits exchanged. -/
example : Digits "943 476 5919".toList ([9, 4, 3] ++ 4 :: 7 :: [6, 5, 9, 1, 9]) ∧
    Digits "943 746 5919".toList ([9, 4, 3] ++ 7 :: 4 :: [6, 5, 9, 1, 9]) ∧
    nhsValid "943 476 5919".toList = true ∧ nhsValid "943 746 5919".toList = false :=
  ⟨digits_iff.2 (by decide +kernel), digits_iff.2 (by decide +kernel), by decide +kernel, by decide +kernel⟩

/-- NIR numbers: exchanging two adjacent digits of an accepted number is detected, also the last digit of the number
with the first of the key. -/
theorem C102_nir_swap {t t' : Str} {a b : List Nat} {x y : Nat} (h : Digits t (a ++ x :: y :: b))
    (h' : Digits t' (a ++ y :: x :: b)) (hxy : x ≠ y) (hv : nirValid t = true) : nirValid t' = false := by
  refine Bool.eq_false_iff.2 (fun hc => hxy ?_)
  have zero : ∀ {u : Str} {ds : List Nat}, Digits u ds → nirValid u = true → nirWeights ds % 97 = 0 ∧ ds.length = 15 := by
    intro u ds hd hu
    obtain ⟨p, k, rfl, hp, hk, e⟩ := (C33_nir_iff hd).1 hu
    rw [nirWeights_eq hk, e, List.length_append, hp, hk]
    omega
  obtain ⟨w, hl⟩ := zero h hv
  obtain ⟨w', _⟩ := zero h' hc
  obtain ⟨s, e, e'⟩ := nirWeights_append a (x :: y :: b) (y :: x :: b) rfl
  rw [e, nirWeights, nirWeights, List.length_cons] at w
  rw [e', nirWeights, nirWeights, List.length_cons] at w'
  have hb : b.length < 14 := by simp at hl; omega
  have hx := digits_lt h x (by simp)
  have hy := digits_lt h y (by simp)
  exact congrArg Fin.val (nir_swap ⟨b.length, hb⟩ ⟨x, hx⟩ ⟨y, hy⟩ (by dsimp only; omega))

/-- An accepted number and the same with the last digit before the key and the first of the key exchanged. -/
example : Digits "2 69 05 49 588 157 80".toList ([2, 6, 9, 0, 5, 4, 9, 5, 8, 8, 1, 5] ++ 7 :: 8 :: [0]) ∧
    Digits "2 69 05 49 588 158 70".toList ([2, 6, 9, 0, 5, 4, 9, 5, 8, 8, 1, 5] ++ 8 :: 7 :: [0]) ∧
    nirValid "2 69 05 49 588 157 80".toList = true ∧ nirValid "2 69 05 49 588 158 70".toList = false :=
  ⟨digits_iff.2 (by decide +kernel), digits_iff.2 (by decide +kernel), by decide +kernel, by decide +kernel⟩

end Sds.Props
