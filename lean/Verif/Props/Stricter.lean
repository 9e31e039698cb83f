import Verif.Spec.Stricter
import Verif.Props.Search

/-! # C119: checks only remove matches -/

namespace Sds.Props
open Sds Spec

private theorem laxer_accepted {lax r : RegexRule} (hx : Laxer lax r) {c : Str} {s e : Nat} (h : Accepted r c s e) :
    Accepted lax c s e := by
  refine ⟨by rw [hx.rx]; exact h.1, fun v' hv' => ?_⟩
  obtain ⟨v, hv, hi⟩ := hx.validator v' hv'
  obtain ⟨t, ht, hvt⟩ := h.2 v hv
  exact ⟨t, ht, hi t hvt⟩

private theorem laxer_genuine {lax r : RegexRule} (hx : Laxer lax r) {c : Str} {s e : Nat} (h : Genuine r c s e) :
    Genuine lax c s e := by
  refine ⟨laxer_accepted hx h.1, fun x hxe => ?_⟩
  rcases hx.excluded with h' | h'
  · rw [h'] at hxe; cases hxe
  · rw [h'] at hxe; exact h.2 x hxe

private theorem weaken {P : Nat → Nat → Prop} {start e : Nat} {l : List (Nat × Nat)} (h : Leftmost P e l) (hse : start ≤ e)
    (hno : ∀ p q, start ≤ p → p < e → ¬ P p q) : Leftmost P start l := by
  cases h with
  | nil hn =>
    refine .nil fun p q hp => ?_
    rcases Nat.lt_or_ge p e with h | h
    · exact hno p q hp h
    · exact hn p q h
  | cons h1 h2 h3 h4 =>
    refine .cons (Nat.le_trans hse h1) h2 (fun p q hp hps => ?_) h4
    rcases Nat.lt_or_ge p e with h | h
    · exact hno p q hp h
    · exact h3 p q h hps

private theorem select {P P' : Nat → Nat → Prop} (hsub : ∀ s e, P s e → P' s e) (hle : ∀ s e, P' s e → s < e)
    (hfun : ∀ s e e', P' s e → P' s e' → e = e') {start : Nat} {l' : List (Nat × Nat)} (h : Leftmost P' start l')
    (hin : ∀ m ∈ l', ∀ p q, m.1 < p → p < m.2 → ¬ P p q) :
    ∃ l, l.Sublist l' ∧ Leftmost P start l ∧ ∀ m ∈ l', P m.1 m.2 → m ∈ l := by
  induction h with
  | nil hn => exact ⟨[], .slnil, .nil fun p e hp hx => hn p e hp (hsub _ _ hx), by simp⟩
  | @cons start s e l' h1 h2 h3 _ ih =>
    obtain ⟨l, i1, i2, i3⟩ := ih fun m hm => hin m (List.mem_cons_of_mem _ hm)
    by_cases hp : P s e
    · refine ⟨(s, e) :: l, i1.cons_cons _, .cons h1 hp (fun p q a b hx => h3 p q a b (hsub _ _ hx)) i2, ?_⟩
      intro m hm hx
      rcases List.mem_cons.1 hm with rfl | hm
      · exact List.mem_cons_self
      · exact List.mem_cons_of_mem _ (i3 m hm hx)
    · refine ⟨l, i1.cons _, weaken i2 (Nat.le_trans h1 (Nat.le_of_lt (hle _ _ h2))) ?_, ?_⟩
      · intro p q hp1 hp2 hx
        rcases Nat.lt_trichotomy p s with hlt | heq | hgt
        · exact h3 p q hp1 hlt (hsub _ _ hx)
        · subst heq
          exact hp (hfun _ _ _ (hsub _ _ hx) h2 ▸ hx)
        · exact hin (s, e) List.mem_cons_self p q hgt hp2 hx
      · intro m hm hx
        rcases List.mem_cons.1 hm with rfl | hm
        · exact absurd hx hp
        · exact i3 m hm hx

private theorem keeps {P P' : Nat → Nat → Prop} (hsub : ∀ s e, P s e → P' s e) {start : Nat} {l' : List (Nat × Nat)}
    (h : Leftmost P' start l') (hall : ∀ m ∈ l', P m.1 m.2) : Leftmost P start l' := by
  induction h with
  | nil hn => exact .nil fun p e hp hx => hn p e hp (hsub _ _ hx)
  | cons h1 _ h3 _ ih =>
    exact .cons h1 (hall _ List.mem_cons_self) (fun p q a b hx => h3 p q a b (hsub _ _ hx))
      (ih fun m hm => hall m (List.mem_cons_of_mem _ hm))

section
variable {lax r : RegexRule} {kp kp' : Bool} {c : Str} {path path' : Path} {fuel fuel' : Nat} {f f' : Found}

/-- C119: every match of a rule lies in, or begins in, a match of the rule without some of its checks; it is this match if both begin
at the same place. -/
theorem C119_reaches (hx : Laxer lax r) (hi : r.included = none) (hl : LawfulRx r.rx) (hne : NonEmptyRx r.rx)
    (h : stringMatches r kp false c path fuel = .ok f) (h' : stringMatches lax kp' false c path' fuel' = .ok f') :
    ∀ m ∈ f.matches_, ∃ m' ∈ f'.matches_, m'.1 ≤ m.1 ∧ m.1 < m'.2 ∧ (m.1 = m'.1 → m = m') := by
  intro m hm
  have hg := leftmost_mem ((C20_leftmost hl hne hi h f.matches_).2 rfl) m hm
  obtain ⟨m', h1, h2, h3, h4⟩ := (C20_nothing_missed (hx.rx ▸ hl) (hx.rx ▸ hne) hx.included h').2 m.1 m.2 (laxer_genuine hx hg)
  exact ⟨m', h1, h2, h3, fun e => Prod.ext e (h4 e)⟩

/-- C119, required keywords: the same for the rule without its keywords. -/
theorem C119_reaches_keywords (hx : Laxer lax r) (he : lax.excluded = none) {k : IncKw} (hi : r.included = some k)
    (hla : 0 < k.lookAhead) {occ : Str → Nat → Nat → Prop} (hk : LawfulKw k occ) (hl : LawfulRx r.rx) (hne : NonEmptyRx r.rx)
    (hf : blen c < fuel)
    (h : stringMatches r kp false c path fuel = .ok f) (h' : stringMatches lax kp' false c path' fuel' = .ok f') :
    ∀ m ∈ f.matches_, ∃ m' ∈ f'.matches_, m'.1 ≤ m.1 ∧ m.1 < m'.2 ∧ (m.1 = m'.1 → m = m') := by
  intro m hm
  obtain ⟨g, hg, ha⟩ := C23_near_keyword hl hne hi hla hk kp c path fuel hf
  rw [h] at hg
  cases hg
  have hg : Genuine lax c m.1 m.2 := ⟨laxer_accepted hx (ha m hm).1, fun x hxe => by rw [he] at hxe; cases hxe⟩
  obtain ⟨m', h1, h2, h3, h4⟩ := (C20_nothing_missed (hx.rx ▸ hl) (hx.rx ▸ hne) hx.included h').2 m.1 m.2 hg
  exact ⟨m', h1, h2, h3, fun e => Prod.ext e (h4 e)⟩

/-- C119: checks that all matches pass change nothing. -/
theorem C119_same (hx : Laxer lax r) (hi : r.included = none) (hl : LawfulRx r.rx) (hne : NonEmptyRx r.rx)
    (h : stringMatches r kp false c path fuel = .ok f) (h' : stringMatches lax kp' false c path' fuel' = .ok f')
    (hall : ∀ m ∈ f'.matches_, Genuine r c m.1 m.2) : f.matches_ = f'.matches_ :=
  (C20_leftmost hl hne hi h f'.matches_).1
    (keeps (fun _ _ => laxer_genuine hx) ((C20_leftmost (hx.rx ▸ hl) (hx.rx ▸ hne) hx.included h' f'.matches_).2 rfl) hall)

/-- C119 (partial: only if no match that passes the checks begins inside a match that does not pass them): the matches of a rule are
those matches of the rule without some of its checks that pass them.  Missing: a match can appear where one was rejected
(`C119_appears`). -/
theorem C119_removes_partial (hx : Laxer lax r) (hi : r.included = none) (hl : LawfulRx r.rx) (hne : NonEmptyRx r.rx)
    (h : stringMatches r kp false c path fuel = .ok f) (h' : stringMatches lax kp' false c path' fuel' = .ok f')
    (hin : NoneInside r c f'.matches_) :
    f.matches_.Sublist f'.matches_ ∧ ∀ m ∈ f'.matches_, m ∈ f.matches_ ↔ Genuine r c m.1 m.2 := by
  have hlm := (C20_leftmost (hx.rx ▸ hl) (hx.rx ▸ hne) hx.included h' f'.matches_).2 rfl
  obtain ⟨l, h1, h2, h3⟩ := select (P := Genuine r c) (fun _ _ => laxer_genuine hx)
    (fun s e hg => (hx.rx ▸ hne : NonEmptyRx lax.rx) c s e hg.1.1)
    (fun s e e' a b => by
      have h5 := a.1.1
      rw [b.1.1] at h5
      exact (Option.some.inj h5).symm) hlm hin
  have e := (C20_leftmost hl hne hi h l).1 h2
  rw [e]
  exact ⟨h1, fun m hm => ⟨fun hml => leftmost_mem h2 m hml, h3 m hm⟩⟩

end

private def all : RegexRule := ⟨digitsRx, none, none, none⟩
private def atMost3 : RegexRule := ⟨digitsRx, some fun t => decide (t.length ≤ 3), none, none⟩
private def atLeast3 : RegexRule := ⟨digitsRx, some fun t => decide (3 ≤ t.length), none, none⟩

private theorem laxer_all {r : RegexRule} (h : r.rx = digitsRx) : Laxer all r :=
  ⟨h.symm, rfl, (by intro v hv; cases hv), Or.inl rfl⟩

/-- Finding (C119): a validator that rejects a match makes the rule report another one, which begins inside it. -/
theorem C119_appears : ∃ (lax r : RegexRule) (c : Str), Laxer lax r ∧ r.included = none ∧ LawfulRx r.rx ∧ NonEmptyRx r.rx ∧
    stringMatches lax false false c [] 30 = .ok ⟨[(2, 7)], []⟩ ∧ stringMatches r false false c [] 30 = .ok ⟨[(4, 7)], []⟩ :=
  ⟨all, atMost3, "a 12345 b".toList, laxer_all rfl, rfl, digitsRx_ok.1, digitsRx_ok.2, by decide, by decide⟩

/-- The hypotheses of `C119_reaches`, `C119_removes_partial` and, for the second text, `C119_same` are met. -/
example : Laxer all atLeast3 ∧ atLeast3.included = none ∧ LawfulRx atLeast3.rx ∧ NonEmptyRx atLeast3.rx ∧
    stringMatches all false false "12 345".toList [] 30 = .ok ⟨[(0, 2), (3, 6)], []⟩ ∧
    stringMatches atLeast3 false false "12 345".toList [] 30 = .ok ⟨[(3, 6)], []⟩ ∧
    NoneInside atLeast3 "12 345".toList [(0, 2), (3, 6)] ∧
    stringMatches all false false "x 345".toList [] 30 = .ok ⟨[(2, 5)], []⟩ ∧ Genuine atLeast3 "x 345".toList 2 5 := by
  refine ⟨laxer_all rfl, rfl, digitsRx_ok.1, digitsRx_ok.2, by decide, by decide, ?_, by decide, ⟨rfl, ?_⟩, by intro x hx; cases hx⟩
  · have key : ∀ p e a, digitsRx "12 345".toList p = some e → ¬ (∃ m, TextAt "12 345".toList p e m ∧ decide (3 ≤ m.length) = true) ∨
        ¬ (a < p ∧ (p = 1 ∨ p = 4 ∨ p = 5)) := by
      intro p e a h
      by_cases hp : p = 1 ∨ p = 4 ∨ p = 5
      · left
        rintro ⟨m, ⟨x, y, -, h1, h2⟩, h3⟩
        have hlen : m.length ≤ blen m := by
          clear h1 h2 h3
          induction m with
          | nil => exact Nat.le_refl _
          | cons ch m ih =>
            have := ch.utf8Size_pos
            simp [blen] at *
            omega
        have he : e ≤ p + 2 := by
          rcases hp with rfl | rfl | rfl
          · have : digitsRx "12 345".toList 1 = some 2 := by decide
            rw [this] at h; cases h; omega
          · have : digitsRx "12 345".toList 4 = some 6 := by decide
            rw [this] at h; cases h; omega
          · have : digitsRx "12 345".toList 5 = some 6 := by decide
            rw [this] at h; cases h; omega
        have := of_decide_eq_true h3
        omega
      · exact Or.inr fun h => hp h.2
    intro m hm p e h1 h2 hg
    obtain ⟨t, ht⟩ := hg.1.2 _ rfl
    rcases key p e m.1 hg.1.1 with h | h
    · exact h ⟨t, ht⟩
    · simp only [List.mem_cons, List.not_mem_nil, or_false] at hm
      rcases hm with rfl | rfl <;> simp at h1 h2 h <;> omega
  · intro v hv
    cases hv
    exact ⟨"345".toList, ⟨"x ".toList, [], rfl, rfl, rfl⟩, by decide⟩

private def afterId : RegexRule :=
  ⟨digitsRx, none, some ⟨6, leftmostKw (fun a b => a == b) ["id".toList], fun t => t == "id".toList⟩, none⟩

/-- The hypotheses of `C119_reaches_keywords` are met: only the number after the keyword is found. -/
example : ∃ k occ, Laxer all afterId ∧ all.excluded = none ∧ afterId.included = some k ∧ 0 < k.lookAhead ∧ LawfulKw k occ ∧
    LawfulRx afterId.rx ∧ NonEmptyRx afterId.rx ∧ blen "1 id 5".toList < 30 ∧
    stringMatches all false false "1 id 5".toList [] 30 = .ok ⟨[(0, 1), (5, 6)], []⟩ ∧
    stringMatches afterId false false "1 id 5".toList [] 30 = .ok ⟨[(5, 6)], []⟩ :=
  ⟨_, _, laxer_all rfl, rfl, rfl, by decide, leftmostKw_lawful _ _ (by simp) _ _, digitsRx_ok.1, digitsRx_ok.2, by decide, by decide,
    by decide⟩

end Sds.Props
