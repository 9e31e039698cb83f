import Verif.Lemmas.Search

/-! Lemmas for the search with included keywords, and for termination. -/

namespace Sds
open Spec

/-! ## Termination -/

theorem containsExcluded_ne_hang (eqc : Char → Char → Bool) (kws : List Str) (n : Nat) (c : Str) (p : Nat) :
    containsExcluded eqc kws n c p ≠ Res.hang := by
  have h1 : ∀ s i, nextCharIndex s i ≠ Res.hang := by
    intro s i; unfold nextCharIndex; split <;> simp
  have h2 : ∀ s i, prevCharIndex s i ≠ Res.hang := by
    intro s i; unfold prevCharIndex; split <;> simp
  have h3 : ∀ p n c, getPrefixStart p n c ≠ Res.hang := by
    intro p n c
    unfold getPrefixStart
    split
    · simp
    · split <;> simp
  have h4 : ∀ s u, excludedInPrefix eqc kws s u ≠ Res.hang := by
    intro s u
    unfold excludedInPrefix
    split
    · split
      · dsimp only
        split <;> split <;> simp
      · simp
      · next h => exact absurd h (h1 _ _)
    · simp
    · next h => exact absurd h (h2 _ _)
  unfold containsExcluded
  split
  · split
    · split
      · exact h4 _ _
      · simp
    · simp
    · next h => exact absurd h (h1 _ _)
  · simp
  · next h => exact absurd h (h3 _ _ _)

theorem isFalsePositive_ne_hang (r : RegexRule) (check : Bool) (c : Str) (s e : Nat) :
    isFalsePositive r check c s e ≠ Res.hang := by
  have h1 : vetoed r check c s ≠ Res.hang := by
    unfold vetoed
    split
    · split
      · exact containsExcluded_ne_hang _ _ _ _ _
      · simp
    · simp
  have h2 : rejected r c s e ≠ Res.hang := by
    unfold rejected
    split
    · split <;> simp
    · simp
  unfold isFalsePositive
  split
  · simp
  · exact h2
  · simp
  · next h => exact absurd h h1

theorem nextTp_terminates {r : RegexRule} (hl : LawfulRx r.rx) (hne : NonEmptyRx r.rx) {check ex : Bool} {c : Str} :
    ∀ (fuel start : Nat), OnBoundary c start → blen c < start + fuel →
    nextTp r check ex c fuel start ≠ Res.hang ∧
    ∀ st, nextTp r check ex c fuel start = Res.ok st → ∀ s e, st.found = some (s, e) →
      st.start = e ∧ start ≤ s ∧ r.rx c s = some e := by
  intro fuel
  induction fuel with
  | zero => intro start hb hf; have := onBoundary_le hb; omega
  | succ fuel ih =>
    intro start hb hf
    unfold nextTp
    rcases searchFrom_spec hl (onBoundary_le hb) with ⟨h1, h2⟩ | ⟨s, e, h1, h2, h3, h4⟩
    · rw [h1]
      refine ⟨by simp, fun st hst s e hse => ?_⟩
      simp only [Res.ok.injEq] at hst
      subst hst
      cases hse
    · rw [h1]
      simp only
      obtain ⟨hle, hbs, hbe⟩ := hl c s e h3
      have hlt := hne c s e h3
      cases hfp : isFalsePositive r check c s e with
      | panic => simp
      | hang => exact absurd hfp (isFalsePositive_ne_hang _ _ _ _ _)
      | ok b =>
        cases b with
        | true =>
          simp only
          rcases nextRegexStart_spec hbs with ⟨h5, _⟩ | ⟨i, h5, h6, h7, _⟩
          · rw [h5]
            refine ⟨by simp, fun st hst s e hse => ?_⟩
            simp only [Res.ok.injEq] at hst
            subst hst
            cases hse
          · rw [h5]
            simp only
            obtain ⟨i1, i2⟩ := ih i h7 (by omega)
            refine ⟨i1, fun st hst s e hse => ?_⟩
            obtain ⟨j1, j2, j3⟩ := i2 st hst s e hse
            exact ⟨j1, by omega, j3⟩
        | false =>
          simp only
          cases ex with
          | false =>
            simp only [Bool.false_eq_true, if_false]
            refine ⟨by simp, fun st hst s' e' hse => ?_⟩
            simp only [Res.ok.injEq] at hst
            subst hst
            simp only [Option.some.injEq, Prod.mk.injEq] at hse
            obtain ⟨rfl, rfl⟩ := hse
            exact ⟨rfl, h2, h3⟩
          | true =>
            simp only [if_true]
            obtain ⟨i1, i2⟩ := ih e hbe (by omega)
            cases slice c s e with
            | none => simp
            | some t =>
              simp only
              cases hn : nextTp r check true c fuel e with
              | panic => simp
              | hang => exact absurd hn i1
              | ok st' =>
                refine ⟨by simp, fun st hst s' e' hse => ?_⟩
                simp only [Res.ok.injEq] at hst
                subst hst
                obtain ⟨j1, j2, j3⟩ := i2 st' hn s' e' hse
                exact ⟨j1, by omega, j3⟩

theorem collectTp_terminates {r : RegexRule} (hl : LawfulRx r.rx) (hne : NonEmptyRx r.rx) {check ex : Bool} {c : Str}
    {fuelIn : Nat} (hfi : blen c < fuelIn) : ∀ (fuel start : Nat), OnBoundary c start → blen c < start + fuel →
    collectTp r check ex c fuelIn fuel start ≠ Res.hang := by
  intro fuel
  induction fuel with
  | zero => intro start hb hf; have := onBoundary_le hb; omega
  | succ fuel ih =>
    intro start hb hf
    unfold collectTp
    obtain ⟨h1, h2⟩ := nextTp_terminates hl hne (check := check) (ex := ex) fuelIn start hb (by omega)
    split
    · simp
    · next h => exact absurd h h1
    · simp
    · next m st ins h =>
      obtain ⟨s, e⟩ := m
      obtain ⟨j1, j2, j3⟩ := h2 _ h s e rfl
      simp only at j1
      subst j1
      have := hne c s st j3
      split
      · simp
      · simp
      · next h => exact absurd h (ih _ (hl c s st j3).2.2 (by omega))

/-! ## Windows -/

theorem blen_take_le' (a : Str) (n : Nat) : blen (a.take n) ≤ blen a := by
  have := congrArg blen (List.take_append_drop n a)
  rw [blen_append] at this
  omega


theorem isIndexWithinPrefix_textAt {c : Str} {s t n : Nat} {m : Str} (h : TextAt c s t m) :
    isIndexWithinPrefix c s t n = Res.ok (decide (m.length ≤ n)) := by
  obtain ⟨a, b, rfl, rfl, rfl⟩ := h
  exact isIndexWithinPrefix_spec a m b n

theorem within_iff {c : Str} {s t n : Nat} {m : Str} (h : TextAt c s t m) : Within c s t n ↔ m.length ≤ n := by
  constructor
  · rintro ⟨m', h', hl⟩; rwa [textAt_unique h h']
  · intro hl; exact ⟨m, h, hl⟩

theorem textAt_split {c : Str} {s t u : Nat} {m n : Str} (h : TextAt c s t m) (h' : TextAt c t u n) :
    TextAt c s u (m ++ n) := by
  obtain ⟨a, b, rfl, rfl, rfl⟩ := h
  obtain ⟨a', b', h, h2, rfl⟩ := h'
  have : a ++ m = a' ∧ b = n ++ b' := by
    apply append_inj_blen
    · rw [h, List.append_assoc]
    · simp [h2]
  obtain ⟨rfl, rfl⟩ := this
  exact ⟨a, b', by simp, rfl, by simp; omega⟩

theorem textAt_boundaries {c : Str} {s e : Nat} {m : Str} (h : TextAt c s e m) :
    OnBoundary c s ∧ OnBoundary c e ∧ s ≤ e := by
  obtain ⟨a, b, rfl, rfl, rfl⟩ := h
  exact ⟨⟨a, m ++ b, by simp, rfl⟩, ⟨a ++ m, b, rfl, by simp⟩, by omega⟩

/-- The window of a later position ends no earlier. -/
theorem getPrefixStart_le {c : Str} {x s p n : Nat} (hn : 0 < n) (hx : OnBoundary c x) (hxp : x ≤ p)
    (h : Within c s p n) (hsx : s ≤ x) :
    ∃ i u, getPrefixStart x n c = Res.ok (i, u) ∧ i ≤ s := by
  obtain ⟨m, hm, hl⟩ := h
  obtain ⟨hbs, hbp, _⟩ := textAt_boundaries hm
  obtain ⟨m1, hm1⟩ := textAt_of_boundaries hbs hx hsx
  obtain ⟨m2, hm2⟩ := textAt_of_boundaries hx hbp hxp
  have hmm := textAt_unique hm (textAt_split hm1 hm2)
  have hl1 : m1.length ≤ n := by rw [hmm] at hl; simp at hl; omega
  obtain ⟨a, b, rfl, rfl, rfl⟩ := hm1
  refine ⟨_, _, by rw [← blen_append]; exact getPrefixStart_spec (a ++ m1) b n hn, ?_⟩
  have : (a ++ m1).take ((a ++ m1).length - n) = a.take ((a ++ m1).length - n) := by
    apply List.take_append_of_le_length
    simp; omega
  rw [this]
  exact blen_take_le' a _

theorem getPrefixStart_total {c : Str} {x n : Nat} (hn : 0 < n) (hx : OnBoundary c x) :
    ∃ i u, getPrefixStart x n c = Res.ok (i, u) ∧ i ≤ x := by
  obtain ⟨a, b, rfl, rfl⟩ := hx
  exact ⟨_, _, getPrefixStart_spec a b n hn, blen_take_le' a _⟩

/-! ## Keyword search -/

theorem nextKeyword_spec {k : IncKw} {occ : Str → Nat → Nat → Prop} (hk : LawfulKw k occ) {c : Str} {start : Nat}
    (hs : start ≤ blen c) :
    (nextKeyword k c start = Res.ok none ∧ ∀ s e, occ c s e → s < start) ∨
    (∃ ks ke ks', nextKeyword k c start = Res.ok (some (ks, ks')) ∧ occ c ks ke ∧ start ≤ ks ∧ ks < ks' ∧ ks' ≤ blen c ∧
      (∀ s e, occ c s e → start ≤ s → ks ≤ s ∨ ke ≤ e) ∧ (∀ s, ks < s → OnBoundary c s → ks' ≤ s)) := by
  unfold nextKeyword
  rw [if_pos (by omega)]
  cases hf : k.search c start with
  | none =>
    left
    refine ⟨rfl, fun s e ho => ?_⟩
    rcases Nat.lt_or_ge s start with h | h
    · exact h
    · obtain ⟨_, _, h1, _⟩ := hk.complete c start s e ho h
      rw [hf] at h1; cases h1
  | some x =>
    obtain ⟨ks, ke⟩ := x
    right
    obtain ⟨h1, h2⟩ := hk.sound c start ks ke hf
    obtain ⟨h3, h4, h5⟩ := hk.range c ks ke h2
    have hcomp : ∀ s e, occ c s e → start ≤ s → ks ≤ s ∨ ke ≤ e := by
      intro s e ho hse
      obtain ⟨_, _, h6, h7⟩ := hk.complete c start s e ho hse
      rw [hf] at h6
      simp only [Option.some.injEq, Prod.mk.injEq] at h6
      obtain ⟨rfl, rfl⟩ := h6
      exact h7
    have hnext : nextCharIndex c ks = nextRegexStart c ks := rfl
    simp only [hnext]
    rcases nextRegexStart_spec h4 with ⟨h6, h7⟩ | ⟨i, h6, h7, h8, h9⟩
    · rw [h6]
      have := h7 ke h3 h5
      refine ⟨ks, ke, ke, rfl, h2, h1, h3, by omega, hcomp, fun s hs hb => ?_⟩
      have := h7 s hs hb
      omega
    · rw [h6]
      exact ⟨ks, ke, i, rfl, h2, h1, h7, onBoundary_le h8, hcomp, h9⟩

/-! ## The loops -/

theorem innerLoop_spec {r : RegexRule} (hl : LawfulRx r.rx) (hne : NonEmptyRx r.rx) {k : IncKw} (hla : 0 < k.lookAhead)
    {c : Str} {fuelIn ks : Nat} (hfi : blen c < fuelIn) (hks : OnBoundary c ks) : ∀ (fuel kstart start : Nat),
    OnBoundary c start → ks ≤ start → blen c < start + fuel → kstart ≤ blen c →
    ∃ l g nxt, innerLoop r k false c fuelIn ks fuel kstart start = Res.ok ⟨⟨l, []⟩, nxt⟩ ∧
      Leftmost (Accepted r c) start (l ++ g) ∧ (∀ m ∈ l, Within c ks m.1 k.lookAhead) ∧
      ((nxt = none ∧ g = []) ∨
       ∃ m g' n u ks', g = m :: g' ∧ ¬ Within c ks m.1 k.lookAhead ∧ getPrefixStart m.1 k.lookAhead c = Res.ok (n, u) ∧
         nxt = some (max ks' n) ∧ kstart ≤ ks' ∧ ks' ≤ blen c ∧ (ks' = kstart ∨ ∃ x ∈ l, ks' = x.1) ∧ ∀ x ∈ l, x.1 ≤ ks') := by
  have hw : Wanted r false c = Accepted r c := by
    funext s e; simp [Wanted]
  intro fuel
  induction fuel with
  | zero => intro kstart start hb _ hf; have := onBoundary_le hb; omega
  | succ fuel ih =>
    intro kstart start hb hse hf hkb
    unfold innerLoop
    rcases nextTp_spec hl hne (check := false) (by simp [SafeIf]) fuelIn start hb (by omega) with
      ⟨st, h1, h2⟩ | ⟨s, e, h1, h2, h3, h4⟩
    · rw [h1]
      rw [hw] at h2
      exact ⟨[], [], none, rfl, .nil h2, by simp, Or.inl ⟨rfl, rfl⟩⟩
    · rw [h1]
      rw [hw] at h3 h4
      simp only
      obtain ⟨hle, hbs, hbe⟩ := hl c s e h3.1
      have hlt := hne c s e h3.1
      have hsb := onBoundary_le hbs
      obtain ⟨m, hm⟩ := textAt_of_boundaries hks hbs (by omega : ks ≤ s)
      rw [isIndexWithinPrefix_textAt hm]
      by_cases hmn : m.length ≤ k.lookAhead
      · simp only [hmn, decide_true]
        obtain ⟨l, g, nxt, i1, i2, i3, i4⟩ := ih (max kstart s) e hbe (by omega) (by omega) (by omega)
        rw [i1]
        refine ⟨(s, e) :: l, g, nxt, rfl, .cons h2 h3 h4 i2, ?_, ?_⟩
        · intro x hx
          rcases List.mem_cons.1 hx with rfl | hx
          · exact (within_iff hm).2 hmn
          · exact i3 x hx
        · rcases i4 with i4 | ⟨m', g', n, u, ks', j1, j2, j3, j4, j5, j6, j7, j8⟩
          · exact Or.inl i4
          · refine Or.inr ⟨m', g', n, u, ks', j1, j2, j3, j4, by omega, j6, ?_⟩
            refine ⟨?_, fun x hx => ?_⟩
            · rcases j7 with j7 | ⟨x, hx, j7⟩
              · rcases Nat.le_total kstart s with hk | hk
                · exact Or.inr ⟨(s, e), List.mem_cons_self, by rw [j7, Nat.max_eq_right hk]⟩
                · exact Or.inl (by rw [j7, Nat.max_eq_left hk])
              · exact Or.inr ⟨x, List.mem_cons_of_mem _ hx, j7⟩
            · rcases List.mem_cons.1 hx with rfl | hx
              · exact Nat.le_trans (Nat.le_max_right _ _) j5
              · exact j8 x hx
      · simp only [hmn, decide_false]
        obtain ⟨n, u, hp, _⟩ := getPrefixStart_total hla hbs
        rw [hp]
        obtain ⟨g', hg'⟩ : ∃ g', Leftmost (Accepted r c) e g' := by
          obtain ⟨g', _, hg'⟩ := collectTp_spec hl hne (check := false) (c := c) (by simp [SafeIf]) hfi (blen c + 1) e hbe
            (by omega)
          exact ⟨g', hw ▸ hg'⟩
        exact ⟨[], (s, e) :: g', _, rfl, .cons h2 h3 h4 hg', by simp,
          Or.inr ⟨(s, e), g', n, u, kstart, rfl, fun hc => hmn ((within_iff hm).1 hc), hp, rfl, Nat.le_refl _, hkb, Or.inl rfl, by simp⟩⟩

/-- The matches of the outer loop. -/
theorem outerLoop_spec {r : RegexRule} (hl : LawfulRx r.rx) (hne : NonEmptyRx r.rx) {k : IncKw} (hla : 0 < k.lookAhead)
    {occ : Str → Nat → Nat → Prop} (hk : LawfulKw k occ) {c : Str} {fuelIn : Nat} (hfi : blen c < fuelIn) :
    ∀ (fuel kstart : Nat), kstart ≤ blen c → blen c < kstart + fuel →
    ∃ l, outerLoop r k false c fuelIn fuel kstart = Res.ok ⟨l, []⟩ ∧
      (∀ m ∈ l, Accepted r c m.1 m.2 ∧ ∃ ks ke, occ c ks ke ∧ Within c ks m.1 k.lookAhead) ∧
      (∀ s e p q, occ c s e → kstart ≤ s → e ≤ p → Accepted r c p q → (∀ p' q', s ≤ p' → p' < p → ¬ Accepted r c p' q') →
        Within c s p k.lookAhead → (p, q) ∈ l ∨ ∃ m ∈ l, m.1 < s ∧ p < m.2) := by
  intro fuel
  induction fuel with
  | zero => intro kstart hb hf; omega
  | succ fuel ih =>
    intro kstart hb hf
    unfold outerLoop
    rcases nextKeyword_spec hk hb with ⟨h1, h2⟩ | ⟨ks, ke, ks', h1, h2, h3, h4, h5, h6, h7⟩
    · rw [h1]
      refine ⟨[], rfl, by simp, ?_⟩
      intro s e p q ho hs
      have := h2 s e ho
      omega
    · rw [h1]
      simp only
      obtain ⟨_, hbks, _⟩ := hk.range c ks ke h2
      obtain ⟨l, g, nxt, i1, i2, i3, i4⟩ := innerLoop_spec hl hne hla hfi hbks fuelIn ks' ks hbks (Nat.le_refl _) (by omega) h5
      rw [i1]
      have hle : ∀ s e, Accepted r c s e → s ≤ e := fun s e h => (hl c s e h.1).1
      have hemit : ∀ m ∈ l, Accepted r c m.1 m.2 ∧ ∃ ks ke, occ c ks ke ∧ Within c ks m.1 k.lookAhead := by
        intro m hm
        exact ⟨leftmost_mem i2 m (List.mem_append.2 (Or.inl hm)), ks, ke, h2, i3 m hm⟩
      -- a match covered by the part emitted in this round
      have hcov : ∀ s e p q m, occ c s e → Accepted r c p q → (∀ p' q', s ≤ p' → p' < p → ¬ Accepted r c p' q') →
          s ≤ p → m ∈ l → m.1 ≤ p → (p = m.1 ∨ p < m.2) → (p, q) ∈ l ∨ ∃ m ∈ l, m.1 < s ∧ p < m.2 := by
        intro s e p q m ho hp hfirst hsp hm hmp hor
        have hm' := leftmost_mem i2 m (List.mem_append.2 (Or.inl hm))
        by_cases heq : p = m.1
        · left
          have : q = m.2 := by
            have h1 := hp.1
            rw [heq, hm'.1] at h1
            exact (Option.some.inj h1).symm
          rw [heq, this]; exact hm
        · right
          refine ⟨m, hm, ?_, by omega⟩
          rcases Nat.lt_or_ge m.1 s with h | h
          · exact h
          · exact absurd hm' (hfirst m.1 m.2 h (by omega))
      have hks_le : ∀ s e p, occ c s e → kstart ≤ s → e ≤ p → ks ≤ p := by
        intro s e p ho hs hep
        have hr := hk.range c s e ho
        have hr' := hk.range c ks ke h2
        rcases h6 s e ho hs with h | h <;> omega
      rcases i4 with ⟨rfl, rfl⟩ | ⟨m, g', n, u, kk, rfl, j2, j3, rfl, j5, j6, j7, _⟩
      · refine ⟨l, rfl, hemit, ?_⟩
        intro s e p q ho hs hep hp hfirst hwin
        obtain ⟨x, hx, hx1, hx2⟩ := leftmost_cover i2 p q (hks_le s e p ho hs hep) hp
        rw [List.append_nil] at hx
        have hr := hk.range c s e ho
        exact hcov s e p q x ho hp hfirst (by omega) hx hx1 hx2
      · have hmacc := leftmost_mem i2 m (by simp)
        have hmb := (hl c m.1 m.2 hmacc.1).2.1
        have hn : n ≤ blen c := by
          obtain ⟨n', u', h, h'⟩ := getPrefixStart_total (n := k.lookAhead) hla hmb
          rw [j3] at h
          simp only [Res.ok.injEq, Prod.mk.injEq] at h
          have := onBoundary_le hmb
          omega
        obtain ⟨l', o1, o2, o3⟩ := ih (max kk n) (by omega) (by omega)
        simp only [o1]
        refine ⟨l ++ l', rfl, ?_, ?_⟩
        · intro x hx
          rcases List.mem_append.1 hx with hx | hx
          · exact hemit x hx
          · exact o2 x hx
        · intro s e p q ho hs hep hp hfirst hwin
          have hr := hk.range c s e ho
          have lift : ∀ l0 : List (Nat × Nat), (∀ x ∈ l0, x ∈ l ++ l') → ((p, q) ∈ l0 ∨ ∃ m ∈ l0, m.1 < s ∧ p < m.2) →
              (p, q) ∈ l ++ l' ∨ ∃ m ∈ l ++ l', m.1 < s ∧ p < m.2 := by
            intro l0 hsub h
            rcases h with h | ⟨x, hx, h⟩
            · exact Or.inl (hsub _ h)
            · exact Or.inr ⟨x, hsub _ hx, h⟩
          obtain ⟨x, hx, hx1, hx2⟩ := leftmost_cover i2 p q (hks_le s e p ho hs hep) hp
          have hpw := leftmost_pairwise hle i2
          rcases List.mem_append.1 hx with hx | hx
          · exact lift l (fun x hx => by simp [hx]) (hcov s e p q x ho hp hfirst (by omega) hx hx1 hx2)
          · -- covered only by a match behind the window of `ks`
            have hmx : m.1 ≤ x.1 := by
              rcases List.mem_cons.1 hx with rfl | hx
              · exact Nat.le_refl _
              · have h1 := (List.pairwise_append.1 hpw).2.1
                have := (List.pairwise_cons.1 h1).1 x hx
                have := hle _ _ hmacc
                omega
            have hmp : m.1 ≤ p := by omega
            have hksm : ks ≤ m.1 := leftmost_start hle i2 m (by simp)
            have hbs := hr.2.1
            have hbp := (hl c p q hp.1).2.1
            -- `ks` is too far from `m`, so the keyword `s` lies strictly after it
            have hkss : ks < s := by
              rcases Nat.lt_or_ge ks s with h | h
              · exact h
              · exfalso
                apply j2
                obtain ⟨t, ht, htl⟩ := hwin
                obtain ⟨t1, ht1⟩ := textAt_of_boundaries hbs hbks h
                obtain ⟨t2, ht2⟩ := textAt_of_boundaries hbks hmb hksm
                obtain ⟨t3, ht3⟩ := textAt_of_boundaries hmb hbp hmp
                have := textAt_unique ht (textAt_split ht1 (textAt_split ht2 ht3))
                rw [this] at htl
                simp at htl
                exact ⟨t2, ht2, by omega⟩
            have hsm : s ≤ m.1 ∨ m.1 < s := by omega
            have hns : n ≤ s := by
              rcases hsm with h | h
              · obtain ⟨n', u', h1, h2⟩ := getPrefixStart_le hla hmb hmp hwin h
                rw [j3] at h1
                simp only [Res.ok.injEq, Prod.mk.injEq] at h1
                omega
              · obtain ⟨n', u', h1, h2⟩ := getPrefixStart_total (n := k.lookAhead) hla hmb
                rw [j3] at h1
                simp only [Res.ok.injEq, Prod.mk.injEq] at h1
                omega
            have hkk : kk ≤ s := by
              rcases j7 with rfl | ⟨y, hy, rfl⟩
              · exact h7 s hkss hbs
              · rcases Nat.lt_or_ge s y.1 with h | h
                · exfalso
                  have hya := leftmost_mem i2 y (by simp [hy])
                  have hym := (List.pairwise_append.1 hpw).2.2 y hy m (by simp)
                  have := hne c _ _ hya.1
                  exact hfirst y.1 y.2 (by omega) (by omega) hya
                · exact h
            exact lift l' (fun x hx => by simp [hx]) (o3 s e p q ho (by omega) hep hp hfirst hwin)

/-- In an excluded field nothing is emitted; the texts after the first keyword are collected. -/
theorem outerLoop_excluded {r : RegexRule} (hl : LawfulRx r.rx) (hne : NonEmptyRx r.rx) {k : IncKw}
    {occ : Str → Nat → Nat → Prop} (hk : LawfulKw k occ) {c : Str} {fuelIn fuel : Nat} (hfi : blen c < fuelIn)
    (hf : 0 < fuel) :
    ∃ ts, outerLoop r k true c fuelIn fuel 0 = Res.ok ⟨[], ts⟩ ∧
      ((ts = [] ∧ ∀ s e, ¬ occ c s e) ∨
       ∃ s e l, occ c s e ∧ (∀ s' e', occ c s' e' → s ≤ s' ∨ e ≤ e') ∧ Leftmost (Accepted r c) s l ∧ Texts c l ts) := by
  have hw : Wanted r false c = Accepted r c := by
    funext s e; simp [Wanted]
  obtain ⟨f, rfl⟩ : ∃ f, fuel = f + 1 := ⟨fuel - 1, by omega⟩
  unfold outerLoop
  rcases nextKeyword_spec hk (Nat.zero_le (blen c)) with ⟨h1, h2⟩ | ⟨ks, ke, ks', h1, h2, h3, h4, h5, h6, h7⟩
  · rw [h1]
    exact ⟨[], rfl, Or.inl ⟨rfl, fun s e ho => by have := h2 s e ho; omega⟩⟩
  · rw [h1]
    simp only
    obtain ⟨_, hbks, _⟩ := hk.range c ks ke h2
    obtain ⟨fi, rfl⟩ : ∃ fi, fuelIn = fi + 1 := ⟨fuelIn - 1, by omega⟩
    obtain ⟨st, ts, l, i1, i2, i3⟩ := nextTp_excluded hl hne (check := false) (c := c) (by simp [SafeIf]) (fi + 1) ks hbks
      (by omega)
    unfold innerLoop
    rw [i1]
    exact ⟨ts, rfl, Or.inr ⟨ks, ke, l, h2, fun s e ho => h6 s e ho (Nat.zero_le _), hw ▸ i2, i3⟩⟩

end Sds
