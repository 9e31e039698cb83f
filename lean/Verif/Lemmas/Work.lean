import Verif.Model.Work
import Verif.Lemmas.Included

/-! # Lemmas: counting searches -/

namespace Sds
open Spec

/-! ## Counting changes nothing -/

theorem nextTpW_fst (r : RegexRule) (check ex : Bool) (c : Str) : ∀ fuel start,
    (nextTpW r check ex c fuel start).1 = nextTp r check ex c fuel start := by
  intro fuel
  induction fuel with
  | zero => intro start; rfl
  | succ fuel ih =>
    intro start
    unfold nextTpW nextTp
    cases searchFrom r.rx c start with
    | panic => rfl
    | hang => rfl
    | ok o =>
      cases o with
      | none => rfl
      | some m =>
        obtain ⟨s, e⟩ := m
        dsimp only
        cases isFalsePositive r check c s e with
        | panic => rfl
        | hang => rfl
        | ok b =>
          cases b with
          | true =>
            dsimp only
            cases nextRegexStart c s with
            | panic => rfl
            | hang => rfl
            | ok i =>
              cases i with
              | none => rfl
              | some i => exact ih i
          | false =>
            dsimp only
            cases ex with
            | false => rfl
            | true =>
              simp only [if_true]
              cases slice c s e with
              | none => rfl
              | some t =>
                simp only [Work.after, Work.map, ih e]
                cases nextTp r check true c fuel e <;> rfl

theorem nextTpW_eq {r : RegexRule} {check ex : Bool} {c : Str} {fuel start : Nat} {x : Res TpStep} {n : List Query}
    (h : nextTpW r check ex c fuel start = (x, n)) : nextTp r check ex c fuel start = x := by
  rw [← nextTpW_fst, h]

theorem collectTpW_fst (r : RegexRule) (check ex : Bool) (c : Str) (fi : Nat) : ∀ fuel start,
    (collectTpW r check ex c fi fuel start).1 = collectTp r check ex c fi fuel start := by
  intro fuel
  induction fuel with
  | zero => intro start; rfl
  | succ fuel ih =>
    intro start
    unfold collectTpW collectTp
    cases hw : nextTpW r check ex c fi start with
    | mk x n =>
      rw [nextTpW_eq hw]
      cases x with
      | panic => rfl
      | hang => rfl
      | ok st =>
        obtain ⟨f, st', ins⟩ := st
        cases f with
        | none => rfl
        | some m =>
          simp only [Work.after, Work.map, ih st']
          cases collectTp r check ex c fi fuel st' <;> rfl

theorem innerLoopW_fst (r : RegexRule) (k : IncKw) (ex : Bool) (c : Str) (fi ks : Nat) : ∀ fuel kstart start,
    (innerLoopW r k ex c fi ks fuel kstart start).1 = innerLoop r k ex c fi ks fuel kstart start := by
  intro fuel
  induction fuel with
  | zero => intro kstart start; rfl
  | succ fuel ih =>
    intro kstart start
    unfold innerLoopW innerLoop
    cases hw : nextTpW r false ex c fi start with
    | mk x n =>
      rw [nextTpW_eq hw]
      cases x with
      | panic => rfl
      | hang => rfl
      | ok st =>
        obtain ⟨f, st', ins⟩ := st
        cases f with
        | none => rfl
        | some m =>
          obtain ⟨s, e⟩ := m
          dsimp only
          cases isIndexWithinPrefix c ks s k.lookAhead with
          | panic => rfl
          | hang => rfl
          | ok b =>
            cases b with
            | true =>
              simp only [Work.after, Work.map, ih (max kstart s) st']
              cases innerLoop r k ex c fi ks fuel (max kstart s) st' <;> rfl
            | false =>
              dsimp only
              cases getPrefixStart s k.lookAhead c <;> rfl

theorem outerLoopW_fst (r : RegexRule) (k : IncKw) (ex : Bool) (c : Str) (fi : Nat) : ∀ fuel kstart,
    (outerLoopW r k ex c fi fuel kstart).1 = outerLoop r k ex c fi fuel kstart := by
  intro fuel
  induction fuel with
  | zero => intro kstart; rfl
  | succ fuel ih =>
    intro kstart
    unfold outerLoopW outerLoop
    cases nextKeyword k c kstart with
    | panic => rfl
    | hang => rfl
    | ok o =>
      cases o with
      | none => rfl
      | some x =>
        obtain ⟨ks, kstart'⟩ := x
        dsimp only
        have hi := innerLoopW_fst r k ex c fi ks fi kstart' ks
        cases hw : innerLoopW r k ex c fi ks fi kstart' ks with
        | mk x n =>
          rw [hw] at hi
          dsimp only at hi
          rw [← hi]
          cases x with
          | panic => rfl
          | hang => rfl
          | ok i =>
            obtain ⟨f, nxt⟩ := i
            cases nxt with
            | none => rfl
            | some k'' =>
              simp only [Work.after, Work.map, ih k'']
              cases outerLoop r k ex c fi fuel k'' <;> rfl

theorem pathPartW_fst (r : RegexRule) (k : IncKw) (ex : Bool) (c : Str) (p : Path) (fuel : Nat) :
    (pathPartW r k ex c p fuel).1 = pathPart r k ex c p fuel := by
  unfold pathPartW pathPart
  cases searchFrom r.rx c 0 with
  | panic => rfl
  | hang => rfl
  | ok o =>
    cases o with
    | none => rfl
    | some m =>
      dsimp only
      split
      · exact collectTpW_fst r false ex c fuel fuel 0
      · rfl

theorem withIncludedW_fst (r : RegexRule) (k : IncKw) (kp ex : Bool) (c : Str) (p : Path) (fuel : Nat) :
    (withIncludedW r k kp ex c p fuel).1 = withIncluded r k kp ex c p fuel := by
  unfold withIncludedW withIncluded
  have hi := outerLoopW_fst r k ex c fuel fuel 0
  cases hw : outerLoopW r k ex c fuel fuel 0 with
  | mk x n =>
    rw [hw] at hi
    dsimp only at hi
    rw [← hi]
    cases x with
    | panic => rfl
    | hang => rfl
    | ok f =>
      dsimp only
      split
      · simp only [Work.after, Work.map, pathPartW_fst]
        cases pathPart r k ex c p fuel <;> rfl
      · rfl

theorem stringMatchesW_fst (r : RegexRule) (kp ex : Bool) (c : Str) (p : Path) (fuel : Nat) :
    (stringMatchesW r kp ex c p fuel).1 = stringMatches r kp ex c p fuel := by
  unfold stringMatchesW stringMatches
  cases r.included with
  | none => exact collectTpW_fst r true ex c fuel fuel 0
  | some k => exact withIncludedW_fst r k kp ex c p fuel

/-! ## Places that are left -/

/-- The number of character boundaries from `p` on. -/
def rank (c : Str) (p : Nat) : Nat := ((boundaries c).filter fun q => decide (p ≤ q)).length

private theorem filter_length_le {l : List Nat} {f g : Nat → Bool} (h : ∀ x, f x = true → g x = true) :
    (l.filter f).length ≤ (l.filter g).length := by
  induction l with
  | nil => simp
  | cons a l ih =>
    simp only [List.filter_cons]
    by_cases hf : f a = true
    · simp [hf, h a hf, ih]
    · by_cases hg : g a = true <;> simp [hf, hg] <;> omega

theorem rank_mono (c : Str) {p q : Nat} (h : p ≤ q) : rank c q ≤ rank c p :=
  filter_length_le fun x hx => by simp at hx ⊢; omega

private theorem filter_length_lt {l : List Nat} {f g : Nat → Bool} (h : ∀ x, f x = true → g x = true) {a : Nat} (ha : a ∈ l)
    (hf : f a = false) (hg : g a = true) : (l.filter f).length < (l.filter g).length := by
  induction l with
  | nil => cases ha
  | cons b l ih =>
    simp only [List.filter_cons]
    rcases List.mem_cons.1 ha with rfl | ha
    · have := filter_length_le (l := l) h
      simp [hf, hg]; omega
    · have := ih ha
      by_cases hfb : f b = true
      · simp [hfb, h b hfb]; omega
      · by_cases hgb : g b = true <;> simp [hfb, hgb] <;> omega

theorem rank_lt {c : Str} {p q : Nat} (hp : OnBoundary c p) (h : p < q) : rank c q + 1 ≤ rank c p :=
  filter_length_lt (fun x hx => by simp at hx ⊢; omega) (mem_boundaries.2 hp) (by simp; omega) (by simp)

theorem rank_pos {c : Str} {p : Nat} (hp : OnBoundary c p) : 1 ≤ rank c p := by
  have := rank_lt hp (Nat.lt_succ_self p)
  omega

theorem boundariesFrom_length (c : Str) : ∀ o, (boundariesFrom o c).length = c.length + 1 := by
  induction c with
  | nil => intro o; rfl
  | cons a c ih => intro o; simp [boundariesFrom, ih]

theorem rank_zero (c : Str) : rank c 0 = c.length + 1 := by
  unfold rank
  rw [List.filter_eq_self.2 (by simp)]
  exact boundariesFrom_length c 0

theorem rank_le (c : Str) (p : Nat) : rank c p ≤ c.length + 1 := by
  rw [← rank_zero]; exact rank_mono c (Nat.zero_le p)

/-! ## One search for a true positive -/

local macro "lomega" : tactic =>
  `(tactic| ((try simp only [List.length_append, List.length_cons, List.length_nil] at *); omega))

theorem searchFrom_found {rx : Rx} (hl : LawfulRx rx) {c : Str} {start s e : Nat}
    (h : searchFrom rx c start = Res.ok (some (s, e))) :
    start ≤ s ∧ rx c s = some e ∧ ∀ p, start ≤ p → p < s → rx c p = none := by
  unfold searchFrom at h
  split at h
  · rw [Res.ok.injEq] at h
    obtain ⟨p, hp, h1, h2⟩ := (findSome?_sorted (boundaries c) (boundariesFrom_pairwise c 0) _).2 _ h
    split at h1
    · next hsp =>
      cases hr : rx c p with
      | none => rw [hr] at h1; cases h1
      | some e' =>
        rw [hr] at h1
        simp only [Option.map_some, Option.some.injEq, Prod.mk.injEq] at h1
        obtain ⟨rfl, rfl⟩ := h1
        refine ⟨hsp, hr, fun q h3 h4 => ?_⟩
        cases hq : rx c q with
        | none => rfl
        | some e'' =>
          have := h2 q (mem_boundaries.2 (hl c q e'' hq).2.1) h4
          rw [if_pos h3, hq] at this
          cases this
    · cases h1
  · cases h

theorem searchFrom_none {rx : Rx} (hl : LawfulRx rx) {c : Str} {start : Nat}
    (h : searchFrom rx c start = Res.ok none) : ∀ p, start ≤ p → rx c p = none := by
  intro p hp
  unfold searchFrom at h
  split at h
  · rw [Res.ok.injEq] at h
    cases hr : rx c p with
    | none => rfl
    | some e =>
      have := (findSome?_sorted (boundaries c) (boundariesFrom_pairwise c 0) _).1.1 h p (mem_boundaries.2 (hl c p e hr).2.1)
      rw [if_pos hp, hr] at this
      cases this
  · cases h

/-- What one call of `nextTp` costs, and where it gets. -/
theorem nextTpW_cost {r : RegexRule} (hl : LawfulRx r.rx) (hne : NonEmptyRx r.rx) (check ex : Bool) (c : Str) :
    ∀ fuel start, ∀ x n, nextTpW r check ex c fuel start = (x, n) →
      n.length ≤ max 1 (rank c start) ∧
      ∀ s e st ins, x = Res.ok ⟨some (s, e), st, ins⟩ →
        n.length + rank c s ≤ rank c start + 1 ∧ start ≤ s ∧ st = e ∧ r.rx c s = some e ∧ isFalsePositive r check c s e = Res.ok false ∧
        ∀ σ e', start ≤ σ → r.rx c σ = some e' → isFalsePositive r check c σ e' = Res.ok false → s ≤ σ := by
  intro fuel
  induction fuel with
  | zero =>
    intro start x n h
    cases h
    exact ⟨by lomega, fun s e st ins h => by cases h⟩
  | succ fuel ih =>
    intro start x n h
    unfold nextTpW at h
    cases hs : searchFrom r.rx c start with
    | panic => rw [hs] at h; cases h; exact ⟨by lomega, fun s e st ins h => by cases h⟩
    | hang => rw [hs] at h; cases h; exact ⟨by lomega, fun s e st ins h => by cases h⟩
    | ok o =>
      rw [hs] at h
      cases o with
      | none => cases h; exact ⟨by lomega, fun s e st ins h => by cases h⟩
      | some m =>
        obtain ⟨s, e⟩ := m
        dsimp only at h
        obtain ⟨h1, h2, h3⟩ := searchFrom_found hl hs
        obtain ⟨h4, h5, h6⟩ := hl c s e h2
        have h7 := hne c s e h2
        have r1 := rank_mono c h1
        have r2 := rank_pos h5
        cases hf : isFalsePositive r check c s e with
        | panic => rw [hf] at h; cases h; exact ⟨by lomega, fun s e st ins h => by cases h⟩
        | hang => rw [hf] at h; cases h; exact ⟨by lomega, fun s e st ins h => by cases h⟩
        | ok b =>
          rw [hf] at h
          cases b with
          | true =>
            dsimp only at h
            rcases nextRegexStart_spec h5 with ⟨h8, h9⟩ | ⟨i, h8, h9, h10, h11⟩
            · rw [h8] at h
              cases h
              exact ⟨by lomega, fun s e st ins h => by cases h⟩
            · rw [h8] at h
              dsimp only at h
              cases hw : nextTpW r check ex c fuel i with
              | mk x' n' =>
                rw [hw] at h
                simp only [Work.after, Prod.mk.injEq] at h
                obtain ⟨rfl, rfl⟩ := h
                obtain ⟨i1, i2⟩ := ih i x' n' hw
                have r3 := rank_lt h5 h9
                have r4 := rank_pos h10
                refine ⟨by lomega, fun s' e' st ins hx => ?_⟩
                obtain ⟨j1, j2, j3, j4, j5, j6⟩ := i2 s' e' st ins hx
                refine ⟨by lomega, by lomega, j3, j4, j5, fun σ e'' k1 k2 k3 => ?_⟩
                rcases Nat.lt_trichotomy σ s with hlt | rfl | hgt
                · rw [h3 σ k1 hlt] at k2; cases k2
                · rw [h2] at k2; cases k2; rw [hf] at k3; cases k3
                · exact j6 σ e'' (h11 σ hgt (hl c σ e'' k2).2.1) k2 k3
          | false =>
            dsimp only at h
            cases ex with
            | false =>
              simp only [Bool.false_eq_true, if_false] at h
              cases h
              refine ⟨by lomega, fun s' e' st ins hx => ?_⟩
              cases hx
              refine ⟨by lomega, h1, rfl, h2, hf, fun σ e'' k1 k2 _ => ?_⟩
              rcases Nat.lt_or_ge σ s with hlt | hge
              · rw [h3 σ k1 hlt] at k2; cases k2
              · exact hge
            | true =>
              simp only [if_true] at h
              cases hsl : slice c s e with
              | none => rw [hsl] at h; cases h; exact ⟨by lomega, fun s e st ins h => by cases h⟩
              | some t =>
                rw [hsl] at h
                dsimp only at h
                cases hw : nextTpW r check true c fuel e with
                | mk x' n' =>
                  rw [hw] at h
                  simp only [Work.after, Work.map, Prod.mk.injEq] at h
                  obtain ⟨rfl, rfl⟩ := h
                  obtain ⟨i1, i2⟩ := ih e x' n' hw
                  have r3 := rank_lt h5 h7
                  have r4 := rank_pos h6
                  refine ⟨by lomega, fun s' e' st ins hx => ?_⟩
                  -- with the flag `nextTp` never returns a match
                  exfalso
                  have hnone : ∀ fuel start st, nextTp r check true c fuel start = Res.ok st → st.found = none := by
                    intro fuel
                    induction fuel with
                    | zero => intro start st h; cases h
                    | succ fuel ih' =>
                      intro start st h
                      unfold nextTp at h
                      split at h
                      · cases h
                      · cases h
                      · cases h; rfl
                      · split at h
                        · cases h
                        · cases h
                        · split at h
                          · cases h
                          · cases h
                          · cases h; rfl
                          · exact ih' _ _ h
                        · simp only [if_true] at h
                          split at h
                          · cases h
                          · split at h
                            · next hq =>
                              have hf := ih' _ _ hq
                              cases h
                              exact hf
                            · cases h
                            · cases h
                  have hx' := nextTpW_eq hw
                  cases x' with
                  | panic => cases hx
                  | hang => cases hx
                  | ok st' =>
                    simp only [Res.map, Res.ok.injEq] at hx
                    have := hnone fuel e st' hx'
                    rw [TpStep.mk.injEq] at hx
                    rw [this] at hx
                    cases hx.1

theorem collectTpW_cost {r : RegexRule} (hl : LawfulRx r.rx) (hne : NonEmptyRx r.rx) (check ex : Bool) (c : Str) (fi : Nat) :
    ∀ fuel start, (collectTpW r check ex c fi fuel start).2.length ≤ max 1 (rank c start) := by
  intro fuel
  induction fuel with
  | zero => intro start; exact Nat.zero_le _
  | succ fuel ih =>
    intro start
    unfold collectTpW
    cases hw : nextTpW r check ex c fi start with
    | mk x n =>
      obtain ⟨h1, h2⟩ := nextTpW_cost hl hne check ex c fi start x n hw
      cases x with
      | panic => exact h1
      | hang => exact h1
      | ok st =>
        obtain ⟨f, st', ins⟩ := st
        cases f with
        | none => exact h1
        | some m =>
          obtain ⟨s, e⟩ := m
          obtain ⟨j1, j2, rfl, j4, j5, j6⟩ := h2 s e st' ins rfl
          have h3 := ih st'
          obtain ⟨_, b1, b2⟩ := hl c s st' j4
          have r3 := rank_lt b1 (hne c s st' j4)
          have r4 := rank_pos b2
          simp only [Work.after, Work.map]
          lomega

/-! ## The loops with keywords -/

/-- A far match: it is accepted at `σ`, and every place from `kstart` on is near enough to it. -/
structure Far (r : RegexRule) (k : IncKw) (c : Str) (kstart σ : Nat) : Prop where
  accepted : ∃ e, r.rx c σ = some e ∧ isFalsePositive r false c σ e = Res.ok false
  near : ∀ ks t, kstart ≤ ks → ks ≤ t → t ≤ σ → OnBoundary c ks → OnBoundary c t →
    isIndexWithinPrefix c ks t k.lookAhead = Res.ok true

theorem far_of_prefix {r : RegexRule} (hl : LawfulRx r.rx) {k : IncKw} {c : Str} {σ e p : Nat} {u : Bool}
    (h1 : r.rx c σ = some e) (h2 : isFalsePositive r false c σ e = Res.ok false)
    (h3 : getPrefixStart σ k.lookAhead c = Res.ok (p, u)) : Far r k c p σ := by
  refine ⟨⟨e, h1, h2⟩, fun ks t a1 a2 a3 b1 b2 => ?_⟩
  have hpos : 0 < k.lookAhead := by
    unfold getPrefixStart at h3
    split at h3
    · cases h3
    · omega
  obtain ⟨_, hσ, _⟩ := hl c σ e h1
  obtain ⟨m1, hm1⟩ := textAt_of_boundaries b1 b2 a2
  obtain ⟨m2, hm2⟩ := textAt_of_boundaries b2 hσ a3
  rw [isIndexWithinPrefix_textAt hm1]
  have hm := textAt_split hm1 hm2
  obtain ⟨a, b, rfl, rfl, rfl⟩ := hm
  have h3' := getPrefixStart_spec (a ++ (m1 ++ m2)) b k.lookAhead hpos
  rw [← blen_append, h3'] at h3
  simp only [Res.ok.injEq, Prod.mk.injEq] at h3
  have hle : (m1 ++ m2).length ≤ k.lookAhead := by
    apply Nat.le_of_not_lt
    intro hlt
    have : blen a < blen ((a ++ (m1 ++ m2)).take ((a ++ (m1 ++ m2)).length - k.lookAhead)) := by
      have := blen_take_lt (s := a ++ (m1 ++ m2)) (i := a.length) (j := (a ++ (m1 ++ m2)).length - k.lookAhead)
        (by rw [List.length_append]; omega) (by lomega)
      rwa [List.take_left] at this
    omega
  simp only [List.length_append] at hle
  simp; lomega

/-- Beyond a far match, or before there is one. -/
theorem innerLoopW_cost {r : RegexRule} (hl : LawfulRx r.rx) (hne : NonEmptyRx r.rx) (k : IncKw) (ex : Bool) (c : Str)
    (fi ks : Nat) : ∀ fuel kstart start x n, innerLoopW r k ex c fi ks fuel kstart start = (x, n) →
      n.length ≤ max 1 (rank c start) ∧
      ∀ f k'', x = Res.ok ⟨f, some k''⟩ → ∃ s, n.length + rank c s ≤ rank c start + 1 ∧ start ≤ s ∧ kstart ≤ k'' ∧ OnBoundary c s ∧
        Far r k c k'' s := by
  intro fuel
  induction fuel with
  | zero =>
    intro kstart start x n h
    cases h
    exact ⟨by lomega, fun f k'' h => by cases h⟩
  | succ fuel ih =>
    intro kstart start x n h
    unfold innerLoopW at h
    cases hw : nextTpW r false ex c fi start with
    | mk y m =>
      rw [hw] at h
      obtain ⟨h1, h2⟩ := nextTpW_cost hl hne false ex c fi start y m hw
      cases y with
      | panic => cases h; exact ⟨h1, fun f k'' h => by cases h⟩
      | hang => cases h; exact ⟨h1, fun f k'' h => by cases h⟩
      | ok st =>
        obtain ⟨f, st', ins⟩ := st
        cases f with
        | none => cases h; exact ⟨h1, fun f k'' h => by cases h⟩
        | some se =>
          obtain ⟨s, e⟩ := se
          dsimp only at h
          obtain ⟨j1, j2, rfl, j4, j5, j6⟩ := h2 s e st' ins rfl
          obtain ⟨_, b1, b2⟩ := hl c s st' j4
          have r3 := rank_lt b1 (hne c s st' j4)
          have r4 := rank_pos b2
          cases hi : isIndexWithinPrefix c ks s k.lookAhead with
          | panic => rw [hi] at h; cases h; exact ⟨h1, fun f k'' h => by cases h⟩
          | hang => rw [hi] at h; cases h; exact ⟨h1, fun f k'' h => by cases h⟩
          | ok b =>
            rw [hi] at h
            cases b with
            | true =>
              dsimp only at h
              cases hw' : innerLoopW r k ex c fi ks fuel (max kstart s) st' with
              | mk x' n' =>
                rw [hw'] at h
                simp only [Work.after, Work.map, Prod.mk.injEq] at h
                obtain ⟨rfl, rfl⟩ := h
                obtain ⟨i1, i2⟩ := ih _ _ _ _ hw'
                refine ⟨by lomega, fun f k'' hx => ?_⟩
                cases x' with
                | panic => cases hx
                | hang => cases hx
                | ok i =>
                  obtain ⟨f', nx⟩ := i
                  simp only [Res.map, Res.ok.injEq, Inner.mk.injEq] at hx
                  obtain ⟨_, rfl⟩ := hx
                  obtain ⟨s', g1, g2, g3, g4, g5⟩ := i2 f' k'' rfl
                  exact ⟨s', by lomega, by have := hne c s st' j4; omega, by lomega, g4, g5⟩
            | false =>
              dsimp only at h
              cases hp : getPrefixStart s k.lookAhead c with
              | panic => rw [hp] at h; cases h; exact ⟨h1, fun f k'' h => by cases h⟩
              | hang => rw [hp] at h; cases h; exact ⟨h1, fun f k'' h => by cases h⟩
              | ok pu =>
                obtain ⟨p, u⟩ := pu
                rw [hp] at h
                cases h
                refine ⟨h1, fun f k'' hx => ?_⟩
                cases hx
                have hfar := far_of_prefix hl j4 j5 hp
                exact ⟨s, j1, j2, by lomega, b1, hfar.accepted, fun ks t a1 => hfar.near ks t (by lomega)⟩

/-- Up to a far match that was found before. -/
theorem innerLoopW_again {r : RegexRule} (hl : LawfulRx r.rx) (hne : NonEmptyRx r.rx) (k : IncKw) (ex : Bool) (c : Str)
    (fi ks k0 σ : Nat) (hσ : Far r k c k0 σ) (hk0 : k0 ≤ ks) (hks : OnBoundary c ks) :
    ∀ fuel kstart start x n, ks ≤ start → start ≤ σ →
      innerLoopW r k ex c fi ks fuel kstart start = (x, n) →
      ∀ f k'', x = Res.ok ⟨f, some k''⟩ → ∃ s, n.length + rank c k'' + rank c s ≤ rank c start + 1 + rank c σ ∧ kstart ≤ k'' ∧
        OnBoundary c s ∧ Far r k c k'' s := by
  obtain ⟨eσ, q1, q2⟩ := hσ.accepted
  intro fuel
  induction fuel with
  | zero =>
    intro kstart start x n _ _ h
    cases h
    exact fun f k'' h => by cases h
  | succ fuel ih =>
    intro kstart start x n hst hsσ h
    unfold innerLoopW at h
    cases hw : nextTpW r false ex c fi start with
    | mk y m =>
      rw [hw] at h
      obtain ⟨h1, h2⟩ := nextTpW_cost hl hne false ex c fi start y m hw
      cases y with
      | panic => cases h; exact fun f k'' h => by cases h
      | hang => cases h; exact fun f k'' h => by cases h
      | ok st =>
        obtain ⟨f, st', ins⟩ := st
        cases f with
        | none => cases h; exact fun f k'' h => by cases h
        | some se =>
          obtain ⟨s, e⟩ := se
          dsimp only at h
          obtain ⟨j1, j2, rfl, j4, j5, j6⟩ := h2 s e st' ins rfl
          obtain ⟨_, b1, b2⟩ := hl c s st' j4
          have hlt := hne c s st' j4
          have r3 := rank_lt b1 hlt
          have hsle := j6 σ eσ hsσ q1 q2
          rw [hσ.near ks s hk0 (by lomega) hsle hks b1] at h
          dsimp only at h
          cases hw' : innerLoopW r k ex c fi ks fuel (max kstart s) st' with
          | mk x' n' =>
            rw [hw'] at h
            simp only [Work.after, Work.map, Prod.mk.injEq] at h
            obtain ⟨rfl, rfl⟩ := h
            intro f k'' hx
            cases x' with
            | panic => cases hx
            | hang => cases hx
            | ok i =>
              obtain ⟨f', nx⟩ := i
              simp only [Res.map, Res.ok.injEq, Inner.mk.injEq] at hx
              obtain ⟨_, rfl⟩ := hx
              rcases Nat.lt_or_ge σ st' with hgt | hle
              · obtain ⟨s', g1, g2, g3, g4, g5⟩ := (innerLoopW_cost hl hne k ex c fi ks fuel _ _ _ _ hw').2 f' k'' rfl
                have r5 := rank_lt (hl c σ eσ q1).2.1 hgt
                have r6 := rank_mono c (show s ≤ k'' by lomega)
                exact ⟨s', by lomega, by lomega, g4, g5⟩
              · obtain ⟨s', g1, g2, g3, g4⟩ := ih _ _ _ _ (by lomega) hle hw' f' k'' rfl
                exact ⟨s', by lomega, by lomega, g3, g4⟩

theorem nextKeyword_found {k : IncKw} {occ : Str → Nat → Nat → Prop} (hk : LawfulKw k occ) {c : Str} {start ks ks' : Nat}
    (h : nextKeyword k c start = Res.ok (some (ks, ks'))) : OnBoundary c ks ∧ start ≤ ks ∧ ks < ks' := by
  have hs : start ≤ blen c := by
    unfold nextKeyword at h
    split at h
    · split at h
      · cases h
      · next hf =>
        obtain ⟨h1, h2⟩ := hk.sound c start _ _ hf
        have := onBoundary_le (hk.range c _ _ h2).2.1
        omega
    · cases h
  rcases nextKeyword_spec hk hs with ⟨h1, _⟩ | ⟨ks1, ke, ks2, h1, h2, h3, h4, _⟩
  · rw [h] at h1; cases h1
  · rw [h] at h1
    cases h1
    exact ⟨(hk.range c _ _ h2).2.1, h3, h4⟩

theorem outerLoopW_again {r : RegexRule} (hl : LawfulRx r.rx) (hne : NonEmptyRx r.rx) {k : IncKw}
    {occ : Str → Nat → Nat → Prop} (hk : LawfulKw k occ) (ex : Bool) (c : Str) (fi : Nat) : ∀ fuel kstart σ,
    Far r k c kstart σ → OnBoundary c σ → (outerLoopW r k ex c fi fuel kstart).2.length ≤ 3 * rank c kstart + rank c σ + 1 := by
  intro fuel
  induction fuel with
  | zero => intro kstart σ _ _; exact Nat.zero_le _
  | succ fuel ih =>
    intro kstart σ hσ hbσ
    unfold outerLoopW
    cases hn : nextKeyword k c kstart with
    | panic => dsimp only; lomega
    | hang => dsimp only; lomega
    | ok o =>
      cases o with
      | none => dsimp only; lomega
      | some x =>
        obtain ⟨ks, kstart'⟩ := x
        obtain ⟨hks, hk1, hk2⟩ := nextKeyword_found hk hn
        have r1 := rank_mono c hk1
        have r2 := rank_pos hks
        dsimp only
        cases hw : innerLoopW r k ex c fi ks fi kstart' ks with
        | mk y n =>
          obtain ⟨h1, h2⟩ := innerLoopW_cost hl hne k ex c fi ks _ _ _ _ _ hw
          cases y with
          | panic => dsimp only; lomega
          | hang => dsimp only; lomega
          | ok i =>
            obtain ⟨f, nx⟩ := i
            cases nx with
            | none => dsimp only; lomega
            | some k'' =>
              simp only [Work.after, Work.map]
              rcases Nat.lt_or_ge σ ks with hgt | hle
              · obtain ⟨s, g1, g2, g3, g4, g5⟩ := h2 f k'' rfl
                have i1 := ih k'' s g5 g4
                have r3 := rank_lt hbσ hgt
                have r4 := rank_lt hks (show ks < k'' by lomega)
                lomega
              · obtain ⟨s, g1, g2, g3, g4⟩ :=
                  innerLoopW_again hl hne k ex c fi ks kstart σ hσ hk1 hks _ _ _ _ _ (Nat.le_refl _) hle hw f k'' rfl
                have i1 := ih k'' s g4 g3
                have r4 := rank_lt hks (show ks < k'' by lomega)
                lomega

theorem outerLoopW_cost {r : RegexRule} (hl : LawfulRx r.rx) (hne : NonEmptyRx r.rx) {k : IncKw}
    {occ : Str → Nat → Nat → Prop} (hk : LawfulKw k occ) (ex : Bool) (c : Str) (fi fuel : Nat) :
    (outerLoopW r k ex c fi fuel 0).2.length ≤ 4 * (c.length + 1) := by
  cases fuel with
  | zero => exact Nat.zero_le _
  | succ fuel =>
    unfold outerLoopW
    cases hn : nextKeyword k c 0 with
    | panic => dsimp only; lomega
    | hang => dsimp only; lomega
    | ok o =>
      cases o with
      | none => dsimp only; lomega
      | some x =>
        obtain ⟨ks, kstart'⟩ := x
        obtain ⟨hks, hk1, hk2⟩ := nextKeyword_found hk hn
        have r1 := rank_le c ks
        have r2 := rank_pos hks
        dsimp only
        cases hw : innerLoopW r k ex c fi ks fi kstart' ks with
        | mk y n =>
          obtain ⟨h1, h2⟩ := innerLoopW_cost hl hne k ex c fi ks _ _ _ _ _ hw
          cases y with
          | panic => dsimp only; lomega
          | hang => dsimp only; lomega
          | ok i =>
            obtain ⟨f, nx⟩ := i
            cases nx with
            | none => dsimp only; lomega
            | some k'' =>
              simp only [Work.after, Work.map]
              obtain ⟨s, g1, g2, g3, g4, g5⟩ := h2 f k'' rfl
              have i1 := outerLoopW_again hl hne hk ex c fi fuel k'' s g5 g4
              have r4 := rank_lt hks (show ks < k'' by lomega)
              lomega

/-! ## The listed searches are all that matter -/

theorem nextTpW_asks (r : RegexRule) (rx' : Rx) (inc' : Option IncKw) (check ex : Bool) (c : Str) : ∀ fuel start,
    (∀ p, .regex p ∈ (nextTpW r check ex c fuel start).2 → searchFrom r.rx c p = searchFrom rx' c p) →
    nextTpW { r with rx := rx', included := inc' } check ex c fuel start = nextTpW r check ex c fuel start := by
  intro fuel
  induction fuel with
  | zero => intro start _; rfl
  | succ fuel ih =>
    intro start h
    have h0 : searchFrom r.rx c start = searchFrom rx' c start := by
      apply h
      unfold nextTpW
      repeat' split
      all_goals simp [Work.after]
    unfold nextTpW at h ⊢
    have hfp : ∀ s e, isFalsePositive { r with rx := rx', included := inc' } check c s e = isFalsePositive r check c s e :=
      fun _ _ => rfl
    simp only [← h0, hfp]
    cases hs : searchFrom r.rx c start with
    | panic => rfl
    | hang => rfl
    | ok o =>
      cases o with
      | none => rfl
      | some m =>
        obtain ⟨s, e⟩ := m
        rw [hs] at h
        dsimp only at h ⊢
        cases hf : isFalsePositive r check c s e with
        | panic => rfl
        | hang => rfl
        | ok b =>
          rw [hf] at h
          cases b with
          | true =>
            dsimp only at h ⊢
            cases hn : nextRegexStart c s with
            | panic => rfl
            | hang => rfl
            | ok i =>
              rw [hn] at h
              cases i with
              | none => rfl
              | some i =>
                dsimp only at h ⊢
                rw [ih i fun p hp => h p (by simp only [Work.after]; exact List.mem_append_right _ hp)]
          | false =>
            dsimp only at h ⊢
            cases ex with
            | false => rfl
            | true =>
              simp only [if_true] at h ⊢
              cases hsl : slice c s e with
              | none => rfl
              | some t =>
                rw [hsl] at h
                dsimp only at h ⊢
                rw [ih e fun p hp => h p (by simp only [Work.after, Work.map]; exact List.mem_append_right _ hp)]

theorem collectTpW_asks (r : RegexRule) (rx' : Rx) (inc' : Option IncKw) (check ex : Bool) (c : Str) (fi : Nat) : ∀ fuel start,
    (∀ p, .regex p ∈ (collectTpW r check ex c fi fuel start).2 → searchFrom r.rx c p = searchFrom rx' c p) →
    collectTpW { r with rx := rx', included := inc' } check ex c fi fuel start = collectTpW r check ex c fi fuel start := by
  intro fuel
  induction fuel with
  | zero => intro start _; rfl
  | succ fuel ih =>
    intro start h
    unfold collectTpW at h ⊢
    have hn : nextTpW { r with rx := rx', included := inc' } check ex c fi start = nextTpW r check ex c fi start := by
      apply nextTpW_asks
      intro p hp
      apply h
      revert hp
      cases nextTpW r check ex c fi start with
      | mk x n =>
        intro hp
        split <;> (rename_i heq; cases heq) <;> simp_all [Work.after]
    rw [hn]
    cases hw : nextTpW r check ex c fi start with
    | mk x n =>
      rw [hw] at h
      cases x with
      | panic => rfl
      | hang => rfl
      | ok st =>
        obtain ⟨f, st', ins⟩ := st
        cases f with
        | none => rfl
        | some m =>
          dsimp only at h ⊢
          rw [ih st' fun p hp => h p (by simp only [Work.after, Work.map]; exact List.mem_append_right _ hp)]

theorem innerLoopW_asks (r : RegexRule) (rx' : Rx) (inc' : Option IncKw) (k : IncKw) (se : Str → Nat → Option (Nat × Nat)) (ex : Bool)
    (c : Str) (fi ks : Nat) : ∀ fuel kstart start,
    (∀ p, .regex p ∈ (innerLoopW r k ex c fi ks fuel kstart start).2 → searchFrom r.rx c p = searchFrom rx' c p) →
    innerLoopW { r with rx := rx', included := inc' } { k with search := se } ex c fi ks fuel kstart start =
      innerLoopW r k ex c fi ks fuel kstart start := by
  intro fuel
  induction fuel with
  | zero => intro kstart start _; rfl
  | succ fuel ih =>
    intro kstart start h
    unfold innerLoopW at h ⊢
    have hn : nextTpW { r with rx := rx', included := inc' } false ex c fi start = nextTpW r false ex c fi start := by
      apply nextTpW_asks
      intro p hp
      apply h
      revert hp
      cases nextTpW r false ex c fi start with
      | mk x n =>
        intro hp
        cases x with
        | panic => exact hp
        | hang => exact hp
        | ok st =>
          obtain ⟨f, st', ins⟩ := st
          cases f with
          | none => exact hp
          | some m =>
            obtain ⟨s, e⟩ := m
            dsimp only
            split
            · exact hp
            · exact hp
            · exact List.mem_append_left _ hp
            · split <;> exact hp
    rw [hn]
    cases hw : nextTpW r false ex c fi start with
    | mk x n =>
      rw [hw] at h
      cases x with
      | panic => rfl
      | hang => rfl
      | ok st =>
        obtain ⟨f, st', ins⟩ := st
        cases f with
        | none => rfl
        | some m =>
          obtain ⟨s, e⟩ := m
          dsimp only at h ⊢
          cases hi : isIndexWithinPrefix c ks s k.lookAhead with
          | panic => rfl
          | hang => rfl
          | ok b =>
            rw [hi] at h
            cases b with
            | false => rfl
            | true =>
              dsimp only at h ⊢
              rw [ih (max kstart s) st' fun p hp => h p (by simp only [Work.after, Work.map]; exact List.mem_append_right _ hp)]

theorem outerLoopW_asks (r : RegexRule) (rx' : Rx) (inc' : Option IncKw) (k : IncKw) (se : Str → Nat → Option (Nat × Nat)) (ex : Bool)
    (c : Str) (fi : Nat) : ∀ fuel kstart,
    (∀ p, .regex p ∈ (outerLoopW r k ex c fi fuel kstart).2 → searchFrom r.rx c p = searchFrom rx' c p) →
    (∀ p, .keyword p ∈ (outerLoopW r k ex c fi fuel kstart).2 → k.search c p = se c p) →
    outerLoopW { r with rx := rx', included := inc' } { k with search := se } ex c fi fuel kstart =
      outerLoopW r k ex c fi fuel kstart := by
  intro fuel
  induction fuel with
  | zero => intro kstart _ _; rfl
  | succ fuel ih =>
    intro kstart h h'
    have h0 : k.search c kstart = se c kstart := by
      apply h'
      unfold outerLoopW
      repeat' split
      all_goals simp [Work.after]
    have hk : nextKeyword { k with search := se } c kstart = nextKeyword k c kstart := by
      unfold nextKeyword
      dsimp only
      rw [h0]
    unfold outerLoopW at h h' ⊢
    rw [hk]
    cases hn : nextKeyword k c kstart with
    | panic => rfl
    | hang => rfl
    | ok o =>
      rw [hn] at h h'
      cases o with
      | none => rfl
      | some x =>
        obtain ⟨ks, kstart'⟩ := x
        dsimp only at h h' ⊢
        have hi : innerLoopW { r with rx := rx', included := inc' } { k with search := se } ex c fi ks fi kstart' ks =
            innerLoopW r k ex c fi ks fi kstart' ks := by
          apply innerLoopW_asks
          intro p hp
          apply h
          revert hp
          cases innerLoopW r k ex c fi ks fi kstart' ks with
          | mk x n =>
            intro hp
            cases x with
            | panic => exact List.mem_cons_of_mem _ hp
            | hang => exact List.mem_cons_of_mem _ hp
            | ok i =>
              obtain ⟨f, nx⟩ := i
              cases nx with
              | none => exact List.mem_cons_of_mem _ hp
              | some k'' => exact List.mem_append_left _ (List.mem_cons_of_mem _ hp)
        rw [hi]
        cases hw : innerLoopW r k ex c fi ks fi kstart' ks with
        | mk x n =>
          rw [hw] at h h'
          cases x with
          | panic => rfl
          | hang => rfl
          | ok i =>
            obtain ⟨f, nx⟩ := i
            cases nx with
            | none => rfl
            | some k'' =>
              dsimp only at h h' ⊢
              rw [ih k'' (fun p hp => h p (by simp only [Work.after, Work.map]; exact List.mem_append_right _ hp))
                (fun p hp => h' p (by simp only [Work.after, Work.map]; exact List.mem_append_right _ hp))]

theorem pathPartW_asks (r : RegexRule) (rx' : Rx) (inc' : Option IncKw) (k : IncKw) (se : Str → Nat → Option (Nat × Nat)) (ex : Bool)
    (c : Str) (pa : Path) (fuel : Nat)
    (h : ∀ p, .regex p ∈ (pathPartW r k ex c pa fuel).2 → searchFrom r.rx c p = searchFrom rx' c p) :
    pathPartW { r with rx := rx', included := inc' } { k with search := se } ex c pa fuel = pathPartW r k ex c pa fuel := by
  have h0 : searchFrom r.rx c 0 = searchFrom rx' c 0 := by
    apply h
    unfold pathPartW
    repeat' split
    all_goals simp [Work.after]
  unfold pathPartW at h ⊢
  simp only [← h0]
  cases hs : searchFrom r.rx c 0 with
  | panic => rfl
  | hang => rfl
  | ok o =>
    rw [hs] at h
    cases o with
    | none => rfl
    | some m =>
      dsimp only at h ⊢
      split
      · next hp =>
        rw [if_pos hp] at h
        rw [collectTpW_asks r rx' inc' false ex c fuel fuel 0 fun p hp => h p (by simp only [Work.after]; exact List.mem_append_right _ hp)]
      · rfl

theorem withIncludedW_asks (r : RegexRule) (rx' : Rx) (inc' : Option IncKw) (k : IncKw) (se : Str → Nat → Option (Nat × Nat)) (kp ex : Bool)
    (c : Str) (pa : Path) (fuel : Nat)
    (h : ∀ p, .regex p ∈ (withIncludedW r k kp ex c pa fuel).2 → searchFrom r.rx c p = searchFrom rx' c p)
    (h' : ∀ p, .keyword p ∈ (withIncludedW r k kp ex c pa fuel).2 → k.search c p = se c p) :
    withIncludedW { r with rx := rx', included := inc' } { k with search := se } kp ex c pa fuel = withIncludedW r k kp ex c pa fuel := by
  unfold withIncludedW at h h' ⊢
  have hsub : ∀ q ∈ (outerLoopW r k ex c fuel fuel 0).2, q ∈ (match outerLoopW r k ex c fuel fuel 0 with
      | (.panic, qs) => (Res.panic, qs)
      | (.hang, qs) => (Res.hang, qs)
      | (.ok f, qs) =>
        if kp then
          ((pathPartW r k ex c pa fuel).map fun f' =>
            (⟨f.matches_ ++ f'.matches_, f.inserted ++ f'.inserted⟩ : Found)).after qs
        else (Res.ok f, qs) : Work Found).2 := by
    cases outerLoopW r k ex c fuel fuel 0 with
    | mk x n =>
      intro q hq
      cases x with
      | panic => exact hq
      | hang => exact hq
      | ok f =>
        dsimp only
        split
        · exact List.mem_append_left _ hq
        · exact hq
  rw [outerLoopW_asks r rx' inc' k se ex c fuel fuel 0 (fun p hp => h p (hsub _ hp)) (fun p hp => h' p (hsub _ hp))]
  cases hw : outerLoopW r k ex c fuel fuel 0 with
  | mk x n =>
    rw [hw] at h
    cases x with
    | panic => rfl
    | hang => rfl
    | ok f =>
      cases kp with
      | false => rfl
      | true =>
        simp only [if_true] at h ⊢
        rw [pathPartW_asks r rx' inc' k se ex c pa fuel fun p hp => h p (by simp only [Work.after, Work.map]; exact List.mem_append_right _ hp)]

end Sds
