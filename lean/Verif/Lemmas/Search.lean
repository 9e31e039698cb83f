import Verif.Spec.Search
import Verif.Lemmas.Keywords

/-! Lemmas for the search in one string. -/

namespace Sds
open Spec

theorem onBoundary_le {c : Str} {p : Nat} (h : OnBoundary c p) : p ≤ blen c := by
  obtain ⟨a, b, rfl, rfl⟩ := h; simp

theorem onBoundary_zero (c : Str) : OnBoundary c 0 := ⟨[], c, rfl, rfl⟩

theorem textAt_of_boundaries {c : Str} {s e : Nat} (hs : OnBoundary c s) (he : OnBoundary c e) (hle : s ≤ e) :
    ∃ m, TextAt c s e m := by
  obtain ⟨a, b, rfl, rfl⟩ := hs
  obtain ⟨a', b', h, rfl⟩ := he
  obtain ⟨m, rfl, h2⟩ := prefix_split h hle
  exact ⟨m, a, b', by simp [h2], rfl, by simp⟩

theorem slice_textAt {c : Str} {s e : Nat} {m : Str} : slice c s e = some m ↔ TextAt c s e m := slice_eq_some

theorem textAt_unique {c : Str} {s e : Nat} {m m' : Str} (h : TextAt c s e m) (h' : TextAt c s e m') : m = m' := by
  have := slice_textAt.2 h
  rw [slice_textAt.2 h'] at this
  exact (Option.some.inj this).symm

/-! ## The engine -/

theorem findSome?_sorted {α : Type} (l : List Nat) (hl : l.Pairwise (· < ·)) (f : Nat → Option α) :
    (l.findSome? f = none ↔ ∀ p ∈ l, f p = none) ∧
    (∀ x, l.findSome? f = some x → ∃ p ∈ l, f p = some x ∧ ∀ q ∈ l, q < p → f q = none) := by
  induction l with
  | nil => simp
  | cons a l ih =>
    obtain ⟨h1, h2⟩ := List.pairwise_cons.1 hl
    obtain ⟨ih1, ih2⟩ := ih h2
    rw [List.findSome?_cons]
    cases hf : f a with
    | some y =>
      refine ⟨by simp [hf], ?_⟩
      intro x hx
      simp only [Option.some.injEq] at hx
      subst hx
      refine ⟨a, List.mem_cons_self, hf, fun q hq hlt => ?_⟩
      rcases List.mem_cons.1 hq with rfl | hq
      · omega
      · have := h1 q hq; omega
    | none =>
      refine ⟨by simp [hf], ?_⟩
      intro x hx
      obtain ⟨p, hp, hfp, hq⟩ := ih2 x hx
      refine ⟨p, List.mem_cons_of_mem _ hp, hfp, fun q hq' hlt => ?_⟩
      rcases List.mem_cons.1 hq' with rfl | hq'
      · exact hf
      · exact hq q hq' hlt

theorem searchFrom_spec {rx : Rx} (hl : LawfulRx rx) {c : Str} {start : Nat} (hs : start ≤ blen c) :
    (searchFrom rx c start = Res.ok none ∧ ∀ p, start ≤ p → rx c p = none) ∨
    (∃ s e, searchFrom rx c start = Res.ok (some (s, e)) ∧ start ≤ s ∧ rx c s = some e ∧
      ∀ p, start ≤ p → p < s → rx c p = none) := by
  unfold searchFrom
  rw [if_pos (by omega)]
  obtain ⟨h1, h2⟩ := findSome?_sorted (boundaries c) (boundariesFrom_pairwise c 0)
    (fun p => if start ≤ p then (rx c p).map fun e => (p, e) else none)
  have hb : ∀ p e, rx c p = some e → p ∈ boundaries c := fun p e h => mem_boundaries.2 (hl c p e h).2.1
  cases hf : (boundaries c).findSome? (fun p => if start ≤ p then (rx c p).map fun e => (p, e) else none) with
  | none =>
    left
    refine ⟨rfl, fun p hp => ?_⟩
    cases hr : rx c p with
    | none => rfl
    | some e =>
      have := h1.1 hf p (hb p e hr)
      rw [if_pos hp, hr] at this
      simp at this
  | some x =>
    right
    obtain ⟨p, hp, hfp, hq⟩ := h2 x hf
    split at hfp
    · next hsp =>
      obtain ⟨e, he, rfl⟩ := Option.map_eq_some_iff.1 hfp
      refine ⟨p, e, rfl, hsp, he, fun q hq1 hq2 => ?_⟩
      cases hr : rx c q with
      | none => rfl
      | some e' =>
        have := hq q (hb q e' hr) hq2
        rw [if_pos hq1, hr] at this
        simp at this
    · cases hfp

/-! ## False positives -/

/-- The matches a search with or without excluded keyword check looks for. -/
def Wanted (r : RegexRule) (check : Bool) (c : Str) (s e : Nat) : Prop :=
  Accepted r c s e ∧ (check = true → ∀ x, r.excluded = some x →
    containsExcluded x.eqc x.keywords x.lookAhead c s = Res.ok false)

/-- No panic in the excluded keyword check, if it is made. -/
def SafeIf (r : RegexRule) (check : Bool) (c : Str) : Prop := check = true → ChecksSafely r c

theorem isFalsePositive_spec {r : RegexRule} (hl : LawfulRx r.rx) {check : Bool} {c : Str}
    (hsafe : SafeIf r check c) {s e : Nat} (h : r.rx c s = some e) :
    ∃ b, isFalsePositive r check c s e = Res.ok b ∧ (b = false ↔ Wanted r check c s e) := by
  obtain ⟨hle, hbs, hbe⟩ := hl c s e h
  obtain ⟨m, hm⟩ := textAt_of_boundaries hbs hbe hle
  have hrej : ∃ b, rejected r c s e = Res.ok b ∧ (b = false ↔ Accepted r c s e) := by
    unfold rejected Accepted
    cases hv : r.validator with
    | none => exact ⟨false, rfl, by simp [h]⟩
    | some v =>
      simp only [slice_textAt.2 hm]
      refine ⟨_, rfl, ?_⟩
      simp only [Bool.not_eq_false', h, true_and, Option.some.injEq, forall_eq']
      constructor
      · intro hv; exact ⟨m, hm, hv⟩
      · rintro ⟨m', hm', hv⟩
        rw [textAt_unique hm hm']; exact hv
  have hveto : ∃ b, vetoed r check c s = Res.ok b ∧ (b = false ↔ (check = true → ∀ x, r.excluded = some x →
      containsExcluded x.eqc x.keywords x.lookAhead c s = Res.ok false)) := by
    unfold vetoed
    cases check with
    | false => exact ⟨false, by simp, by simp⟩
    | true =>
      cases hx : r.excluded with
      | none => exact ⟨false, by simp, by simp⟩
      | some x =>
        obtain ⟨b, hb⟩ := hsafe rfl x hx s hbs
        refine ⟨b, by simp [hb], ?_⟩
        simp [hb]
  obtain ⟨b1, h1, h1'⟩ := hrej
  obtain ⟨b2, h2, h2'⟩ := hveto
  unfold isFalsePositive
  rw [h2]
  cases b2 with
  | true =>
    refine ⟨true, rfl, ?_⟩
    simp only [Bool.true_eq_false, false_iff, Wanted, not_and] at h2' ⊢
    intro _; exact h2'
  | false =>
    refine ⟨b1, h1, ?_⟩
    rw [h1']
    simp only [Wanted]
    have := h2'.1 rfl
    exact ⟨fun h => ⟨h, this⟩, fun h => h.1⟩

theorem nextRegexStart_spec {c : Str} {s : Nat} (h : OnBoundary c s) :
    (nextRegexStart c s = Res.ok none ∧ ∀ p, s < p → OnBoundary c p → p = blen c) ∨
    (∃ i, nextRegexStart c s = Res.ok (some i) ∧ s < i ∧ OnBoundary c i ∧ ∀ p, s < p → OnBoundary c p → i ≤ p) := by
  obtain ⟨a, b, rfl, rfl⟩ := h
  have heq : nextRegexStart (a ++ b) (blen a) =
      Res.ok (if 1 < b.length then some (blen a + blen (b.take 1)) else none) := nextCharIndex_spec a b
  rw [heq]
  have key : ∀ p, blen a < p → OnBoundary (a ++ b) p → blen a + blen (b.take 1) ≤ p := by
    rintro p hp ⟨a', b', h, rfl⟩
    obtain ⟨m, rfl, h2⟩ := prefix_split h (by omega)
    cases m with
    | nil => simp at hp
    | cons d m => subst h2; simp
  by_cases hb : 1 < b.length
  · right
    refine ⟨blen a + blen (b.take 1), by rw [if_pos hb], ?_, ⟨a ++ b.take 1, b.drop 1, by rw [List.append_assoc, List.take_append_drop], by simp⟩, key⟩
    have : b.take 1 ≠ [] := by
      intro h; have := congrArg List.length h; rw [List.length_take, List.length_nil] at this; omega
    have := blen_pos this
    omega
  · left
    refine ⟨by rw [if_neg hb], fun p hp hbp => ?_⟩
    have := key p hp hbp
    have h2 := onBoundary_le hbp
    rw [List.take_of_length_le (by omega)] at this
    simp at h2
    simp; omega

/-! ## One step of the search -/

/-- Without exclusion: the first wanted match is found. -/
theorem nextTp_spec {r : RegexRule} (hl : LawfulRx r.rx) (hne : NonEmptyRx r.rx) {check : Bool} {c : Str}
    (hsafe : SafeIf r check c) : ∀ (fuel start : Nat), OnBoundary c start → blen c < start + fuel →
    (∃ st, nextTp r check false c fuel start = Res.ok ⟨none, st, []⟩ ∧ ∀ p e, start ≤ p → ¬ Wanted r check c p e) ∨
    (∃ s e, nextTp r check false c fuel start = Res.ok ⟨some (s, e), e, []⟩ ∧ start ≤ s ∧ Wanted r check c s e ∧
      ∀ p q, start ≤ p → p < s → ¬ Wanted r check c p q) := by
  intro fuel
  induction fuel with
  | zero => intro start hb hf; have := onBoundary_le hb; omega
  | succ fuel ih =>
    intro start hb hf
    unfold nextTp
    rcases searchFrom_spec hl (onBoundary_le hb) with ⟨h1, h2⟩ | ⟨s, e, h1, h2, h3, h4⟩
    · left
      rw [h1]
      refine ⟨start, rfl, fun p e hp hw => ?_⟩
      have := hw.1.1
      rw [h2 p hp] at this
      cases this
    · rw [h1]
      simp only
      obtain ⟨b, hb1, hb2⟩ := isFalsePositive_spec hl hsafe h3
      rw [hb1]
      have hbefore : ∀ p q, start ≤ p → p < s → ¬ Wanted r check c p q := by
        intro p q hp hps hw
        have := hw.1.1
        rw [h4 p hp hps] at this
        cases this
      cases b with
      | false => right; exact ⟨s, e, by simp, h2, hb2.1 rfl, hbefore⟩
      | true =>
        have hnot : ∀ q, ¬ Wanted r check c s q := by
          intro q hw
          have : q = e := by have := hw.1.1; rw [h3] at this; exact (Option.some.inj this).symm
          subst this
          exact absurd (hb2.2 hw) (by simp)
        simp only
        rcases nextRegexStart_spec (hl c s e h3).2.1 with ⟨h5, h6⟩ | ⟨i, h5, h6, h7, h8⟩
        · left
          rw [h5]
          refine ⟨start, rfl, fun p q hp hw => ?_⟩
          rcases Nat.lt_trichotomy p s with hlt | heq | hgt
          · exact hbefore p q hp hlt hw
          · subst heq; exact hnot q hw
          · have hbp := (hl c p q hw.1.1).2.1
            have h9 := h6 p hgt hbp
            have h10 := onBoundary_le (hl c p q hw.1.1).2.2
            have h11 := hne c p q hw.1.1
            omega
        · rw [h5]
          simp only
          have hskip : ∀ p q, start ≤ p → p < i → ¬ Wanted r check c p q := by
            intro p q hp hpi hw
            rcases Nat.lt_trichotomy p s with hlt | heq | hgt
            · exact hbefore p q hp hlt hw
            · subst heq; exact hnot q hw
            · have := h8 p hgt (hl c p q hw.1.1).2.1; omega
          rcases ih i h7 (by omega) with ⟨st, h9, h10⟩ | ⟨s', e', h9, h10, h11, h12⟩
          · left
            refine ⟨st, h9, fun p q hp hw => ?_⟩
            by_cases hpi : p < i
            · exact hskip p q hp hpi hw
            · exact h10 p q (by omega) hw
          · right
            refine ⟨s', e', h9, by omega, h11, fun p q hp hps hw => ?_⟩
            by_cases hpi : p < i
            · exact hskip p q hp hpi hw
            · exact h12 p q (by omega) hps hw

/-- The texts of a list of ranges. -/
inductive Texts (c : Str) : List (Nat × Nat) → List Str → Prop
  | nil : Texts c [] []
  | cons {s e : Nat} {m : Str} {l : List (Nat × Nat)} {ts : List Str} :
      TextAt c s e m → Texts c l ts → Texts c ((s, e) :: l) (m :: ts)

theorem Spec.Leftmost.extend {P : Nat → Nat → Prop} {start i : Nat} {l : List (Nat × Nat)} (hi : start ≤ i)
    (hskip : ∀ p q, start ≤ p → p < i → ¬ P p q) (h : Leftmost P i l) : Leftmost P start l := by
  cases h with
  | nil h =>
    refine .nil fun p e hp hw => ?_
    by_cases hpi : p < i
    · exact hskip p e hp hpi hw
    · exact h p e (by omega) hw
  | cons h1 h2 h3 h4 =>
    refine .cons (by omega) h2 (fun p q hp hps hw => ?_) h4
    by_cases hpi : p < i
    · exact hskip p q hp hpi hw
    · exact h3 p q (by omega) hps hw

/-- With exclusion: nothing is found and the texts of all matches are collected. -/
theorem nextTp_excluded {r : RegexRule} (hl : LawfulRx r.rx) (hne : NonEmptyRx r.rx) {check : Bool} {c : Str}
    (hsafe : SafeIf r check c) : ∀ (fuel start : Nat), OnBoundary c start → blen c < start + fuel →
    ∃ st ts l, nextTp r check true c fuel start = Res.ok ⟨none, st, ts⟩ ∧
      Leftmost (Wanted r check c) start l ∧ Texts c l ts := by
  intro fuel
  induction fuel with
  | zero => intro start hb hf; have := onBoundary_le hb; omega
  | succ fuel ih =>
    intro start hb hf
    unfold nextTp
    rcases searchFrom_spec hl (onBoundary_le hb) with ⟨h1, h2⟩ | ⟨s, e, h1, h2, h3, h4⟩
    · rw [h1]
      refine ⟨start, [], [], rfl, .nil fun p e hp hw => ?_, .nil⟩
      have := hw.1.1
      rw [h2 p hp] at this
      cases this
    · rw [h1]
      simp only
      obtain ⟨b, hb1, hb2⟩ := isFalsePositive_spec hl hsafe h3
      rw [hb1]
      have hbefore : ∀ p q, start ≤ p → p < s → ¬ Wanted r check c p q := by
        intro p q hp hps hw
        have := hw.1.1
        rw [h4 p hp hps] at this
        cases this
      obtain ⟨hle, hbs, hbe⟩ := hl c s e h3
      cases b with
      | false =>
        obtain ⟨m, hm⟩ := textAt_of_boundaries hbs hbe hle
        have hlt := hne c s e h3
        obtain ⟨st, ts, l, h5, h6, h7⟩ := ih e hbe (by omega)
        simp only [if_true, slice_textAt.2 hm, h5]
        exact ⟨st, m :: ts, (s, e) :: l, rfl, .cons h2 (hb2.1 rfl) hbefore h6, .cons hm h7⟩
      | true =>
        have hnot : ∀ q, ¬ Wanted r check c s q := by
          intro q hw
          have : q = e := by have := hw.1.1; rw [h3] at this; exact (Option.some.inj this).symm
          subst this
          exact absurd (hb2.2 hw) (by simp)
        simp only
        rcases nextRegexStart_spec hbs with ⟨h5, h6⟩ | ⟨i, h5, h6, h7, h8⟩
        · rw [h5]
          refine ⟨start, [], [], rfl, .nil fun p q hp hw => ?_, .nil⟩
          rcases Nat.lt_trichotomy p s with hlt | heq | hgt
          · exact hbefore p q hp hlt hw
          · subst heq; exact hnot q hw
          · have hbp := (hl c p q hw.1.1).2.1
            have h9 := h6 p hgt hbp
            have h10 := onBoundary_le (hl c p q hw.1.1).2.2
            have h11 := hne c p q hw.1.1
            omega
        · rw [h5]
          simp only
          obtain ⟨st, ts, l, h9, h10, h11⟩ := ih i h7 (by omega)
          refine ⟨st, ts, l, h9, h10.extend (by omega) ?_, h11⟩
          intro p q hp hpi hw
          rcases Nat.lt_trichotomy p s with hlt | heq | hgt
          · exact hbefore p q hp hlt hw
          · subst heq; exact hnot q hw
          · have := h8 p hgt (hl c p q hw.1.1).2.1; omega

/-! ## All matches -/

theorem collectTp_spec {r : RegexRule} (hl : LawfulRx r.rx) (hne : NonEmptyRx r.rx) {check : Bool} {c : Str}
    (hsafe : SafeIf r check c) {fuelIn : Nat} (hfi : blen c < fuelIn) : ∀ (fuel start : Nat),
    OnBoundary c start → blen c < start + fuel →
    ∃ l, collectTp r check false c fuelIn fuel start = Res.ok ⟨l, []⟩ ∧ Leftmost (Wanted r check c) start l := by
  intro fuel
  induction fuel with
  | zero => intro start hb hf; have := onBoundary_le hb; omega
  | succ fuel ih =>
    intro start hb hf
    unfold collectTp
    rcases nextTp_spec hl hne hsafe fuelIn start hb (by omega) with ⟨st, h1, h2⟩ | ⟨s, e, h1, h2, h3, h4⟩
    · rw [h1]
      exact ⟨[], rfl, .nil h2⟩
    · rw [h1]
      simp only
      have hbe := (hl c s e h3.1.1).2.2
      have := hne c s e h3.1.1
      obtain ⟨l, h5, h6⟩ := ih e hbe (by omega)
      rw [h5]
      exact ⟨(s, e) :: l, rfl, .cons h2 h3 h4 h6⟩

theorem collectTp_excluded {r : RegexRule} (hl : LawfulRx r.rx) (hne : NonEmptyRx r.rx) {check : Bool} {c : Str}
    (hsafe : SafeIf r check c) {fuelIn fuel start : Nat} (hb : OnBoundary c start) (hfi : blen c < start + fuelIn)
    (hf : 0 < fuel) :
    ∃ ts l, collectTp r check true c fuelIn fuel start = Res.ok ⟨[], ts⟩ ∧
      Leftmost (Wanted r check c) start l ∧ Texts c l ts := by
  obtain ⟨st, ts, l, h1, h2, h3⟩ := nextTp_excluded hl hne hsafe fuelIn start hb hfi
  obtain ⟨n, rfl⟩ : ∃ n, fuel = n + 1 := ⟨fuel - 1, by omega⟩
  unfold collectTp
  rw [h1]
  exact ⟨ts, l, rfl, h2, h3⟩

theorem leftmost_mem {P : Nat → Nat → Prop} {start : Nat} {l : List (Nat × Nat)} (h : Leftmost P start l) :
    ∀ m ∈ l, P m.1 m.2 := by
  induction h with
  | nil _ => simp
  | cons _ h2 _ _ ih =>
    intro m hm
    rcases List.mem_cons.1 hm with rfl | hm
    · exact h2
    · exact ih m hm

theorem leftmost_start {P : Nat → Nat → Prop} (hP : ∀ s e, P s e → s ≤ e) {start : Nat} {l : List (Nat × Nat)}
    (h : Leftmost P start l) : ∀ m ∈ l, start ≤ m.1 := by
  induction h with
  | nil _ => simp
  | cons h1 h2 _ _ ih =>
    intro m hm
    have := hP _ _ h2
    rcases List.mem_cons.1 hm with rfl | hm
    · exact h1
    · have := ih m hm; omega

theorem leftmost_pairwise {P : Nat → Nat → Prop} (hP : ∀ s e, P s e → s ≤ e) {start : Nat} {l : List (Nat × Nat)}
    (h : Leftmost P start l) : l.Pairwise (fun a b => a.2 ≤ b.1) := by
  induction h with
  | nil _ => exact .nil
  | cons _ _ _ h4 ih => exact .cons (fun m hm => leftmost_start hP h4 m hm) ih

theorem leftmost_cover {P : Nat → Nat → Prop} {start : Nat} {l : List (Nat × Nat)}
    (h : Leftmost P start l) : ∀ p e, start ≤ p → P p e → ∃ m ∈ l, m.1 ≤ p ∧ (p = m.1 ∨ p < m.2) := by
  induction h with
  | nil h => intro p e hp hP; exact absurd hP (h p e hp)
  | @cons start s e l h1 h2 h3 h4 ih =>
    intro p q hp hP
    by_cases hps : p < s
    · exact absurd hP (h3 p q hp hps)
    · by_cases hpe : p < e
      · exact ⟨(s, e), List.mem_cons_self, by simp; omega, Or.inr hpe⟩
      · obtain ⟨m, hm, h5⟩ := ih p q (by omega) hP
        exact ⟨m, List.mem_cons_of_mem _ hm, h5⟩

theorem leftmost_unique {P : Nat → Nat → Prop} (hf : ∀ s e e', P s e → P s e' → e = e') {start : Nat}
    {l l' : List (Nat × Nat)} (h : Leftmost P start l) (h' : Leftmost P start l') : l = l' := by
  induction h generalizing l' with
  | nil h =>
    cases h' with
    | nil _ => rfl
    | cons h1 h2 _ _ => exact absurd h2 (h _ _ h1)
  | @cons start s e l h1 h2 h3 h4 ih =>
    cases h' with
    | nil h => exact absurd h2 (h _ _ h1)
    | @cons _ s' e' l' h1' h2' h3' h4' =>
      have : s = s' := by
        rcases Nat.lt_trichotomy s s' with h | h | h
        · exact absurd h2 (h3' s e h1 h)
        · exact h
        · exact absurd h2' (h3 s' e' h1' h)
      subst this
      have := hf s e e' h2 h2'
      subst this
      rw [ih h4']

end Sds
