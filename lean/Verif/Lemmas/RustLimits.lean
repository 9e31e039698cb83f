import Verif.Lemmas.RustConvert
import Verif.Spec.Parser

/-! Depth and group names of what is read. -/

namespace Sds.Re
open Sds Spec

theorem astsDepth_le {l : List RAst} {d : Nat} : astsDepth l ≤ d ↔ ∀ b ∈ l, b.depth ≤ d := by
  induction l with
  | nil => simp [astsDepth]
  | cons b l ih => simp [astsDepth, Nat.max_le, ih]

theorem itemsDepth_le {l : List RClassItem} {d : Nat} : itemsDepth l ≤ d ↔ ∀ b ∈ l, b.depth ≤ d := by
  induction l with
  | nil => simp [itemsDepth]
  | cons b l ih => simp [itemsDepth, Nat.max_le, ih]

theorem astsNames_append (l l' : List RAst) : astsNames (l ++ l') = astsNames l ++ astsNames l' := by
  induction l with
  | nil => rfl
  | cons a l ih => simp [astsNames, ih]

theorem intoAst_names (l : List RAst) : (intoAst l).names = astsNames l := by
  match l with
  | [] => rfl
  | [a] => simp [intoAst, astsNames]
  | _ :: _ :: _ => rfl

/-- What is read is not deeper than the expression, and a sequence of several is less deep. -/
def Within (l : List RAst) (d : Nat) : Prop := (∀ b ∈ l, b.depth ≤ d) ∧ (2 ≤ l.length → ∀ b ∈ l, b.depth + 1 ≤ d)

theorem Within.into {l : List RAst} {d : Nat} (h : Within l d) : (intoAst l).depth ≤ d := by
  match l, h with
  | [], _ => simp [intoAst, RAst.depth]
  | [a], h => exact h.1 a (by simp)
  | a :: b :: l, h =>
    have h2 := h.2 (by simp)
    have hd : 1 ≤ d := by have := h2 a (by simp); omega
    have : astsDepth (a :: b :: l) ≤ d - 1 := astsDepth_le.2 (fun c hc => by have := h2 c hc; omega)
    simp only [intoAst, RAst.depth]
    omega

theorem Within.one {b : RAst} {d : Nat} (h : b.depth ≤ d) : Within [b] d :=
  ⟨by simpa using h, by intro h; simp at h⟩

theorem Within.nil (d : Nat) : Within [] d := ⟨by simp, by simp⟩

set_option hygiene false in
local macro "smaller" : tactic =>
  `(tactic| (first | omega | (simp only [RAst.group.sizeOf_spec, RAst.repetition.sizeOf_spec, RAst.concat.sizeOf_spec,
    RAst.alternation.sizeOf_spec, List.cons.sizeOf_spec] at hz; omega)))

mutual

theorem atom_limits (n : Nat) {x : Bool} {a b : RAst} (h : SeesAtom x a b) (hz : 3 * sizeOf a < n) :
    b.depth ≤ a.depth ∧ b.names = a.names := by
  have hpos : 0 < n := by omega
  cases h with
  | literal => exact ⟨Nat.le_refl _, rfl⟩
  | dot => exact ⟨Nat.le_refl _, rfl⟩
  | assertion => exact ⟨Nat.le_refl _, rfl⟩
  | boundary => exact ⟨Nat.le_refl _, rfl⟩
  | unicode => exact ⟨Nat.le_refl _, rfl⟩
  | @bracketed _ _ it l hl h hi =>
    refine ⟨?_, by simp [RAst.names]⟩
    simp only [RAst.depth]
    rcases hi with rfl | rfl
    · exact Nat.le_refl _
    · match l with
      | [] => simp [intoItem]
      | [i] => simp [intoItem, RClassItem.depth, itemsDepth]
      | _ :: _ :: _ => simp [intoItem]
  | @group _ kind a b hk hb =>
    obtain ⟨h1, h2⟩ := body_limits (n - 1) hb (by smaller)
    refine ⟨by simp only [RAst.depth]; omega, ?_⟩
    cases kind <;> simp [RAst.names, h2]
termination_by n
decreasing_by all_goals omega

theorem sees_limits (n : Nat) {x x' : Bool} {a : RAst} {l : List RAst} (h : Sees x a l x') (hz : 3 * sizeOf a + 1 < n) :
    Within l a.depth ∧ astsNames l = a.names := by
  have hpos : 0 < n := by omega
  cases h with
  | atom h =>
    obtain ⟨h1, h2⟩ := atom_limits (n - 1) h (by smaller)
    exact ⟨.one h1, by simp [astsNames, h2]⟩
  | empty => exact ⟨.nil _, rfl⟩
  | flags => exact ⟨.one (Nat.le_refl _), rfl⟩
  | space => exact ⟨.nil _, rfl⟩
  | @repetition _ greedy a b k hk h =>
    obtain ⟨h1, h2⟩ := atom_limits (n - 1) h (by smaller)
    exact ⟨.one (by simp only [RAst.depth]; omega), by simp [astsNames, RAst.names, h2]⟩
  | @concat _ _ l' _ h =>
    obtain ⟨h1, h2⟩ := seesAll_limits (n - 1) h (by smaller)
    refine ⟨⟨fun b hb => ?_, fun _ b hb => ?_⟩, by rw [h2, RAst.names]⟩
    · have := h1 b hb
      simp only [RAst.depth]; omega
    · have := h1 b hb
      simp only [RAst.depth]; omega
termination_by n
decreasing_by all_goals omega

theorem seesAll_limits (n : Nat) {x x' : Bool} {as l : List RAst} (h : SeesAll x as l x') (hz : 3 * sizeOf as < n) :
    (∀ b ∈ l, b.depth ≤ astsDepth as) ∧ astsNames l = astsNames as := by
  have hpos : 0 < n := by omega
  cases h with
  | nil => exact ⟨by simp, rfl⟩
  | cons h hs =>
    obtain ⟨h1, h2⟩ := sees_limits (n - 1) h (by smaller)
    obtain ⟨h3, h4⟩ := seesAll_limits (n - 1) hs (by smaller)
    refine ⟨fun b hb => ?_, by rw [astsNames_append, h2, h4, astsNames]⟩
    simp only [astsDepth]
    rcases List.mem_append.1 hb with hb | hb
    · have := h1.1 b hb; omega
    · have := h3 b hb; omega
termination_by n
decreasing_by all_goals omega

theorem alts_limits (n : Nat) {x x' : Bool} {as bs : List RAst} (h : SeesAlts x as bs x') (hz : 3 * sizeOf as < n) :
    (∀ b ∈ bs, b.depth ≤ astsDepth as) ∧ astsNames bs = astsNames as := by
  have hpos : 0 < n := by omega
  cases h with
  | one h =>
    obtain ⟨h1, h2⟩ := sees_limits (n - 1) h (by smaller)
    refine ⟨fun b hb => ?_, by simp [astsNames, intoAst_names, h2]⟩
    simp only [List.mem_singleton] at hb
    subst hb
    have := h1.into
    simp only [astsDepth]; omega
  | cons h hs =>
    obtain ⟨h1, h2⟩ := sees_limits (n - 1) h (by smaller)
    obtain ⟨h3, h4⟩ := alts_limits (n - 1) hs (by smaller)
    refine ⟨fun b hb => ?_, by simp [astsNames, intoAst_names, h2, h4]⟩
    simp only [astsDepth]
    rcases List.mem_cons.1 hb with rfl | hb
    · have := h1.into; omega
    · have := h3 b hb; omega
termination_by n
decreasing_by all_goals omega

theorem body_limits (n : Nat) {x : Bool} {a b : RAst} (h : SeesBody x a b) (hz : 3 * sizeOf a + 2 < n) :
    b.depth ≤ a.depth ∧ b.names = a.names := by
  have hpos : 0 < n := by omega
  cases h with
  | one h =>
    obtain ⟨h1, h2⟩ := sees_limits (n - 1) h (by smaller)
    exact ⟨h1.into, by rw [intoAst_names, h2]⟩
  | alternation h h2 =>
    obtain ⟨h1, h2⟩ := alts_limits (n - 1) h (by smaller)
    refine ⟨?_, by simp [RAst.names, h2]⟩
    have := astsDepth_le.2 h1
    simp only [RAst.depth]; omega
termination_by n
decreasing_by all_goals omega

end

/-! ## Converted trees -/

theorem bracketItem_depth (i : BracketItem) : (convertBracketItem i).depth ≤ 2 := by
  cases i with
  | perl c => cases c <;> decide +kernel
  | _ => first | (simp [convertBracketItem, bracketLiteral, bracketRange, RClassItem.depth]; done) | decide +kernel

theorem class_depth (c : CharacterClass) : (convertClass c).depth ≤ 4 := by
  cases c with
  | bracket negated items =>
    simp only [convertClass, RAst.depth, RClassItem.depth]
    have : itemsDepth (convertBracketItems items) ≤ 2 := itemsDepth_le.2 (fun b hb => by
      obtain ⟨i, _, rfl⟩ := List.mem_map.1 hb
      exact bracketItem_depth i)
    omega
  | perl c => cases c <;> decide +kernel
  | dot => decide
  | unicodeProperty u => simp [convertClass, RAst.depth]
  | _ => decide +kernel

theorem assertion_depth (k : AssertionType) : (convertAssertion k).depth ≤ 2 := by
  cases k <;> decide +kernel

mutual

theorem convert_limits (a : Ast) {r : RAst} (h : convertAst a = .ok r) :
    r.depth ≤ height a + 3 ∧ r.names = groupNames a := by
  match a with
  | .empty => cases h; exact ⟨by simp [RAst.depth], rfl⟩
  | .literal l => cases h; exact ⟨by simp [RAst.depth], rfl⟩
  | .flags f => cases h; exact ⟨by simp [RAst.depth], rfl⟩
  | .assertion k =>
    cases h
    refine ⟨?_, ?_⟩
    · have := assertion_depth k; simp only [height]; omega
    · cases k <;> rfl
  | .characterClass c =>
    cases h
    refine ⟨?_, ?_⟩
    · have := class_depth c; simp only [height]; omega
    · cases c <;> rfl
  | .concat l =>
    simp only [convertAst] at h
    cases hl : convertList l with
    | error e => simp [hl] at h
    | ok rs =>
      rw [hl] at h; cases h
      obtain ⟨h1, h2⟩ := convertList_limits l hl
      exact ⟨by simp only [RAst.depth, height]; omega, by simp [RAst.names, groupNames, h2]⟩
  | .alternation l =>
    simp only [convertAst] at h
    cases hl : convertList l with
    | error e => simp [hl] at h
    | ok rs =>
      rw [hl] at h; cases h
      obtain ⟨h1, h2⟩ := convertList_limits l hl
      exact ⟨by simp only [RAst.depth, height]; omega, by simp [RAst.names, groupNames, h2]⟩
  | .group kind inner =>
    simp only [convertAst] at h
    cases hl : convertAst inner with
    | error e => simp [hl] at h
    | ok rs =>
      rw [hl] at h; cases h
      obtain ⟨h1, h2⟩ := convert_limits inner hl
      refine ⟨by simp only [RAst.depth, height]; omega, ?_⟩
      cases kind <;> simp [convertGroupKind, RAst.names, groupNames, h2]
  | .repetition q inner =>
    simp only [convertAst] at h
    cases hq : convertQuantifier q.kind with
    | error e => simp [hq] at h
    | ok k =>
      cases hl : convertAst inner with
      | error e => simp [hq, hl] at h
      | ok rs =>
        rw [hq, hl] at h; cases h
        obtain ⟨h1, h2⟩ := convert_limits inner hl
        exact ⟨by simp only [RAst.depth, height]; omega, by simp [RAst.names, groupNames, h2]⟩
termination_by sizeOf a

theorem convertList_limits (l : List Ast) {rs : List RAst} (h : convertList l = .ok rs) :
    astsDepth rs ≤ heights l + 3 ∧ astsNames rs = groupNamesAll l := by
  match l with
  | [] => cases h; exact ⟨by simp [astsDepth], rfl⟩
  | a :: l =>
    simp only [convertList] at h
    cases ha : convertAst a with
    | error e => simp [ha] at h
    | ok r =>
      cases hl : convertList l with
      | error e => simp [ha, hl] at h
      | ok rs =>
        rw [ha, hl] at h; cases h
        obtain ⟨h1, h2⟩ := convert_limits a ha
        obtain ⟨h3, h4⟩ := convertList_limits l hl
        exact ⟨by simp only [astsDepth, heights]; omega, by simp [astsNames, groupNamesAll, h2, h4]⟩
termination_by sizeOf l

end

end Sds.Re
