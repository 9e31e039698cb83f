import Verif.Lemmas.Included

/-! Partial correctness: what holds whenever the search returns. -/

namespace Sds
open Spec

theorem isFalsePositive_ok {r : RegexRule} (hl : LawfulRx r.rx) {check : Bool} {c : Str}
    {s e : Nat} (h : r.rx c s = some e) {b : Bool} (hb : isFalsePositive r check c s e = Res.ok b) :
    b = false ↔ Wanted r check c s e := by
  by_cases hv : ∃ b', vetoed r check c s = Res.ok b'
  · -- replace the check by one that answers the same at this position and never panics
    obtain ⟨b', hv⟩ := hv
    have hrej : ∃ b1, rejected r c s e = Res.ok b1 ∧ (b1 = false ↔ Accepted r c s e) := by
      obtain ⟨b1, h1, h2⟩ := isFalsePositive_spec (check := false) hl (c := c) (by simp [SafeIf]) h
      have : isFalsePositive r false c s e = rejected r c s e := by
        simp [isFalsePositive, vetoed]
      rw [this] at h1
      refine ⟨b1, h1, h2.trans ?_⟩
      simp [Wanted]
    obtain ⟨b1, h1, h2⟩ := hrej
    have hveto : b' = false ↔ (check = true → ∀ x, r.excluded = some x →
        containsExcluded x.eqc x.keywords x.lookAhead c s = Res.ok false) := by
      unfold vetoed at hv
      cases check with
      | false => simp at hv; simp [hv]
      | true =>
        cases hx : r.excluded with
        | none => simp [hx] at hv; simp [hv]
        | some x => simp [hx] at hv; simp [hv]
    unfold isFalsePositive at hb
    rw [hv] at hb
    cases b' with
    | true =>
      simp only [Res.ok.injEq] at hb
      subst hb
      simp only [Bool.true_eq_false, false_iff, Wanted, not_and] at hveto ⊢
      intro _; exact hveto
    | false =>
      simp only [h1, Res.ok.injEq] at hb
      subst hb
      rw [h2]
      have := hveto.1 rfl
      exact ⟨fun h => ⟨h, this⟩, fun h => h.1⟩
  · unfold isFalsePositive at hb
    cases hx : vetoed r check c s with
    | ok b' => exact absurd ⟨b', hx⟩ hv
    | panic => rw [hx] at hb; cases hb
    | hang => rw [hx] at hb; cases hb

/-- Whatever is found is wanted. -/
theorem nextTp_sound {r : RegexRule} (hl : LawfulRx r.rx) {check ex : Bool} {c : Str} :
    ∀ (fuel start : Nat) (st : TpStep), start ≤ blen c → nextTp r check ex c fuel start = Res.ok st →
      ∀ s e, st.found = some (s, e) → Wanted r check c s e ∧ st.start = e ∧ ex = false := by
  intro fuel
  induction fuel with
  | zero => intro start st _ h; cases h
  | succ fuel ih =>
    intro start st hb h s' e' hf
    unfold nextTp at h
    rcases searchFrom_spec hl hb with ⟨h1, h2⟩ | ⟨s, e, h1, h2, h3, h4⟩
    · rw [h1] at h
      simp only [Res.ok.injEq] at h
      subst h; cases hf
    · rw [h1] at h
      simp only at h
      obtain ⟨hle, hbs, hbe⟩ := hl c s e h3
      cases hfp : isFalsePositive r check c s e with
      | panic => rw [hfp] at h; cases h
      | hang => rw [hfp] at h; cases h
      | ok b =>
        rw [hfp] at h
        have hw := isFalsePositive_ok hl h3 hfp
        cases b with
        | true =>
          simp only at h
          rcases nextRegexStart_spec hbs with ⟨h5, _⟩ | ⟨i, h5, h6, h7, _⟩
          · rw [h5] at h
            simp only [Res.ok.injEq] at h
            subst h; cases hf
          · rw [h5] at h
            exact ih i st (onBoundary_le h7) h s' e' hf
        | false =>
          simp only at h
          cases ex with
          | false =>
            simp only [Bool.false_eq_true, if_false, Res.ok.injEq] at h
            subst h
            simp only [Option.some.injEq, Prod.mk.injEq] at hf
            obtain ⟨rfl, rfl⟩ := hf
            exact ⟨hw.1 rfl, rfl, rfl⟩
          | true =>
            simp only [if_true] at h
            cases hsl : slice c s e with
            | none => rw [hsl] at h; cases h
            | some t =>
              rw [hsl] at h
              simp only at h
              cases hn : nextTp r check true c fuel e with
              | panic => rw [hn] at h; cases h
              | hang => rw [hn] at h; cases h
              | ok st' =>
                rw [hn] at h
                simp only [Res.ok.injEq] at h
                subst h
                exact ih e st' (onBoundary_le hbe) hn s' e' hf

theorem collectTp_sound {r : RegexRule} (hl : LawfulRx r.rx) {check ex : Bool} {c : Str} {fuelIn : Nat} :
    ∀ (fuel start : Nat) (f : Found), start ≤ blen c → collectTp r check ex c fuelIn fuel start = Res.ok f →
      ∀ m ∈ f.matches_, Wanted r check c m.1 m.2 ∧ ex = false := by
  intro fuel
  induction fuel with
  | zero => intro start f _ h; cases h
  | succ fuel ih =>
    intro start f hb h m hm
    unfold collectTp at h
    split at h
    · cases h
    · cases h
    · simp only [Res.ok.injEq] at h
      subst h; cases hm
    · next m' st ins hn =>
      obtain ⟨s, e⟩ := m'
      obtain ⟨h1, h2, h3⟩ := nextTp_sound hl fuelIn start _ hb hn s e rfl
      simp only at h2
      subst h2
      split at h
      · next f' hc =>
        simp only [Res.ok.injEq] at h
        subst h
        rcases List.mem_cons.1 hm with rfl | hm
        · exact ⟨h1, h3⟩
        · exact ih st f' (onBoundary_le (hl c s st h1.1.1).2.2) hc m hm
      · cases h
      · cases h

/-- What a returned step says about the content from `start` on. -/
def Step (r : RegexRule) (check ex : Bool) (c : Str) (start : Nat) (st : TpStep) : Prop :=
      (ex = true ∧ st.found = none ∧ ∃ l, Leftmost (Wanted r check c) start l ∧ Texts c l st.inserted) ∨
      (ex = false ∧ st.inserted = [] ∧
        ((st.found = none ∧ ∀ p e, start ≤ p → ¬ Wanted r check c p e) ∨
         ∃ s e, st.found = some (s, e) ∧ st.start = e ∧ start ≤ s ∧ Wanted r check c s e ∧
           ∀ p q, start ≤ p → p < s → ¬ Wanted r check c p q))

/-- The next match is the first wanted one; in an excluded field all of them are collected. -/
theorem nextTp_ok {r : RegexRule} (hl : LawfulRx r.rx) (hne : NonEmptyRx r.rx) {check ex : Bool} {c : Str} :
    ∀ (fuel start : Nat) (st : TpStep), start ≤ blen c → nextTp r check ex c fuel start = Res.ok st →
      Step r check ex c start st := by
  intro fuel
  induction fuel with
  | zero => intro start st _ h; cases h
  | succ fuel ih =>
    intro start st hb h
    unfold nextTp at h
    -- nothing wanted from `start` on
    have hnone : (∀ p e, start ≤ p → ¬ Wanted r check c p e) → st = ⟨none, start, []⟩ →
        Step r check ex c start st := by
      intro hno hst
      subst hst
      cases ex with
      | true => exact Or.inl ⟨rfl, rfl, [], .nil hno, .nil⟩
      | false => exact Or.inr ⟨rfl, rfl, Or.inl ⟨rfl, hno⟩⟩
    rcases searchFrom_spec hl hb with ⟨h1, h2⟩ | ⟨s, e, h1, h2, h3, h4⟩
    · rw [h1] at h
      simp only [Res.ok.injEq] at h
      refine hnone (fun p e hp hw => ?_) h.symm
      have := hw.1.1
      rw [h2 p hp] at this
      cases this
    · rw [h1] at h
      simp only at h
      obtain ⟨hle, hbs, hbe⟩ := hl c s e h3
      have hbefore : ∀ p q, start ≤ p → p < s → ¬ Wanted r check c p q := by
        intro p q hp hps hw
        have := hw.1.1
        rw [h4 p hp hps] at this
        cases this
      cases hfp : isFalsePositive r check c s e with
      | panic => rw [hfp] at h; cases h
      | hang => rw [hfp] at h; cases h
      | ok b =>
        rw [hfp] at h
        have hw := isFalsePositive_ok hl h3 hfp
        cases b with
        | true =>
          simp only at h
          have hnot : ∀ q, ¬ Wanted r check c s q := by
            intro q hq
            have : q = e := by have := hq.1.1; rw [h3] at this; exact (Option.some.inj this).symm
            subst this
            exact absurd (hw.2 hq) (by simp)
          rcases nextRegexStart_spec hbs with ⟨h5, h6⟩ | ⟨i, h5, h6, h7, h8⟩
          · rw [h5] at h
            simp only [Res.ok.injEq] at h
            refine hnone (fun p q hp hq => ?_) h.symm
            rcases Nat.lt_trichotomy p s with hlt | heq | hgt
            · exact hbefore p q hp hlt hq
            · subst heq; exact hnot q hq
            · have h9 := h6 p hgt (hl c p q hq.1.1).2.1
              have h10 := onBoundary_le (hl c p q hq.1.1).2.2
              have h11 := hne c p q hq.1.1
              omega
          · rw [h5] at h
            simp only at h
            have hskip : ∀ p q, start ≤ p → p < i → ¬ Wanted r check c p q := by
              intro p q hp hpi hq
              rcases Nat.lt_trichotomy p s with hlt | heq | hgt
              · exact hbefore p q hp hlt hq
              · subst heq; exact hnot q hq
              · have := h8 p hgt (hl c p q hq.1.1).2.1; omega
            rcases ih i st (onBoundary_le h7) h with ⟨j1, j2, l, j3, j4⟩ | ⟨j1, j2, j3⟩
            · exact Or.inl ⟨j1, j2, l, j3.extend (by omega) hskip, j4⟩
            · refine Or.inr ⟨j1, j2, ?_⟩
              rcases j3 with ⟨j3, j4⟩ | ⟨s', e', j3, j4, j5, j6, j7⟩
              · refine Or.inl ⟨j3, fun p q hp hq => ?_⟩
                by_cases hpi : p < i
                · exact hskip p q hp hpi hq
                · exact j4 p q (by omega) hq
              · refine Or.inr ⟨s', e', j3, j4, by omega, j6, fun p q hp hps hq => ?_⟩
                by_cases hpi : p < i
                · exact hskip p q hp hpi hq
                · exact j7 p q (by omega) hps hq
        | false =>
          simp only at h
          cases ex with
          | false =>
            simp only [Bool.false_eq_true, if_false, Res.ok.injEq] at h
            subst h
            exact Or.inr ⟨rfl, rfl, Or.inr ⟨s, e, rfl, rfl, h2, hw.1 rfl, hbefore⟩⟩
          | true =>
            simp only [if_true] at h
            cases hsl : slice c s e with
            | none => rw [hsl] at h; cases h
            | some t =>
              rw [hsl] at h
              simp only at h
              cases hn : nextTp r check true c fuel e with
              | panic => rw [hn] at h; cases h
              | hang => rw [hn] at h; cases h
              | ok st' =>
                rw [hn] at h
                simp only [Res.ok.injEq] at h
                subst h
                rcases ih e st' (onBoundary_le hbe) hn with ⟨_, j2, l, j3, j4⟩ | ⟨j1, _⟩
                · exact Or.inl ⟨rfl, j2, (s, e) :: l, .cons h2 (hw.1 rfl) hbefore j3, .cons (slice_textAt.1 hsl) j4⟩
                · cases j1

theorem collectTp_ok {r : RegexRule} (hl : LawfulRx r.rx) (hne : NonEmptyRx r.rx) {check ex : Bool} {c : Str}
    {fuelIn : Nat} : ∀ (fuel start : Nat) (f : Found), start ≤ blen c →
      collectTp r check ex c fuelIn fuel start = Res.ok f →
      ∃ l, Leftmost (Wanted r check c) start l ∧
        ((ex = false ∧ f.matches_ = l ∧ f.inserted = []) ∨ (ex = true ∧ f.matches_ = [] ∧ Texts c l f.inserted)) := by
  intro fuel
  induction fuel with
  | zero => intro start f _ h; cases h
  | succ fuel ih =>
    intro start f hb h
    unfold collectTp at h
    split at h
    · cases h
    · cases h
    · next st ins hn =>
      simp only [Res.ok.injEq] at h
      subst h
      rcases nextTp_ok hl hne fuelIn start _ hb hn with ⟨h1, _, l, h3, h4⟩ | ⟨h1, h2, h3⟩
      · exact ⟨l, h3, Or.inr ⟨h1, rfl, h4⟩⟩
      · rcases h3 with ⟨_, h4⟩ | ⟨s, e, h4, _⟩
        · exact ⟨[], .nil h4, Or.inl ⟨h1, rfl, h2⟩⟩
        · cases h4
    · next m' st ins hn =>
      rcases nextTp_ok hl hne fuelIn start _ hb hn with ⟨_, h2, _⟩ | ⟨h1, h2, h3⟩
      · cases h2
      · rcases h3 with ⟨h4, _⟩ | ⟨s, e, h4, h5, h6, h7, h8⟩
        · cases h4
        · simp only [Option.some.injEq] at h4
          subst h4
          simp only at h5 h2
          subst h5 h2
          split at h
          · next f' hc =>
            simp only [Res.ok.injEq] at h
            subst h
            obtain ⟨l, i1, i2⟩ := ih st f' (onBoundary_le (hl c s st h7.1.1).2.2) hc
            rcases i2 with ⟨_, i3, i4⟩ | ⟨i3, _⟩
            · exact ⟨(s, st) :: l, .cons h6 h7 h8 i1, Or.inl ⟨h1, by rw [i3], by rw [i4]; rfl⟩⟩
            · rw [h1] at i3; cases i3
          · cases h
          · cases h

/-! ## A keyword search that meets the requirements -/

/-- Leftmost occurrence of one of the keywords. -/
def leftmostKw (eqc : Char → Char → Bool) (kws : List Str) (c : Str) (start : Nat) : Option (Nat × Nat) :=
  (boundaries c).findSome? fun p =>
    if start ≤ p then (kws.findSome? fun kw => kwMatchAt eqc kw c p).map fun e => (p, e) else none

theorem leftmostKw_lawful (eqc : Char → Char → Bool) (kws : List Str) (hkw : ∀ kw ∈ kws, kw ≠ []) (n : Nat)
    (inPath : Str → Bool) :
    LawfulKw ⟨n, leftmostKw eqc kws, inPath⟩ (fun c s e => ∃ kw ∈ kws, kwMatchAt eqc kw c s = some e) := by
  have hb : ∀ kw c s e, kwMatchAt eqc kw c s = some e → OnBoundary c s ∧ OnBoundary c e := by
    intro kw c s e h
    obtain ⟨a, m, b, rfl, rfl, rfl, _, _⟩ := (kwMatchAt_iff _ _ _ _ _).1 h
    exact ⟨⟨a, m ++ b, by simp, rfl⟩, ⟨a ++ m, b, rfl, rfl⟩⟩
  constructor
  · intro c start s e h
    obtain ⟨_, h2⟩ := findSome?_sorted (boundaries c) (boundariesFrom_pairwise c 0)
      (fun p => if start ≤ p then (kws.findSome? fun kw => kwMatchAt eqc kw c p).map fun e => (p, e) else none)
    obtain ⟨p, _, hp, _⟩ := h2 _ h
    split at hp
    · next hs =>
      obtain ⟨e', he, heq⟩ := Option.map_eq_some_iff.1 hp
      simp only [Prod.mk.injEq] at heq
      obtain ⟨rfl, rfl⟩ := heq
      obtain ⟨kw, h3, h4⟩ := List.exists_of_findSome?_eq_some he
      exact ⟨hs, kw, h3, h4⟩
    · cases hp
  · rintro c start s e ⟨kw, hk, ho⟩ hs
    obtain ⟨h1, h2⟩ := findSome?_sorted (boundaries c) (boundariesFrom_pairwise c 0)
      (fun p => if start ≤ p then (kws.findSome? fun kw => kwMatchAt eqc kw c p).map fun e => (p, e) else none)
    have hbs := mem_boundaries.2 (hb kw c s e ho).1
    have hsome : (kws.findSome? fun kw => kwMatchAt eqc kw c s).isSome := by
      rw [List.findSome?_isSome_iff]
      exact ⟨kw, hk, by rw [ho]; rfl⟩
    cases hf : leftmostKw eqc kws c start with
    | none =>
      have := h1.1 hf s hbs
      rw [if_pos hs] at this
      rw [Option.map_eq_none_iff] at this
      rw [this] at hsome; cases hsome
    | some x =>
      obtain ⟨s', e'⟩ := x
      obtain ⟨p, hp1, hp2, hp3⟩ := h2 _ hf
      have hps : p = s' := by
        split at hp2
        · obtain ⟨e'', _, heq⟩ := Option.map_eq_some_iff.1 hp2
          simp only [Prod.mk.injEq] at heq
          exact heq.1
        · cases hp2
      subst hps
      refine ⟨p, e', hf, Or.inl ?_⟩
      rcases Nat.lt_or_ge s p with hlt | hge
      · have := hp3 s hbs hlt
        rw [if_pos hs, Option.map_eq_none_iff] at this
        rw [this] at hsome; cases hsome
      · exact hge
  · rintro c s e ⟨kw, hk, ho⟩
    obtain ⟨h1, h2⟩ := hb kw c s e ho
    refine ⟨?_, h1, h2⟩
    obtain ⟨a, m, b, rfl, rfl, rfl, hst, _⟩ := (kwMatchAt_iff _ _ _ _ _).1 ho
    have : m ≠ [] := by
      rintro rfl
      cases hst
      exact hkw [] hk rfl
    have := blen_pos this
    simp; omega

end Sds
