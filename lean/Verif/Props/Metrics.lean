import Verif.Model.Metrics
import Verif.Lemmas.Event
import Verif.Props.Scan

/-! # C75: the counters count what their names say -/

namespace Sds

namespace Spec

/-- A match of the regex starts at `p`, and there is an excluded keyword in front of it. -/
def KeywordHit (r : RegexRule) (c : Str) (p : Nat) : Prop :=
  (∃ e, r.rx c p = some e) ∧ ∃ x, r.excluded = some x ∧ containsExcluded x.eqc x.keywords x.lookAhead c p = Res.ok true

/-- `p` is in one of the ranges. -/
def Inside (l : List (Nat × Nat)) (p : Nat) : Prop := ∃ m ∈ l, m.1 ≤ p ∧ p < m.2

/-- The rule emits every match of these strings once. -/
def EmitsOnce (sc : Scanner) (leaves : List Leaf) (r : Nat) : Prop :=
  ∀ rule f, sc.rules[r]? = some rule → ∀ l ∈ leaves, rule.run l.text l.path false = Res.ok f → f.matches_.Nodup

/-- `ms` lists the matches of rule `r` in the string that are dropped because their text was found in an excluded field. -/
def DroppedHere (sc : Scanner) (blocked : List Nat) (leaves : List Leaf) (r : Nat) (l : Leaf) (ms : List M) : Prop :=
  ms.Nodup ∧ ∀ m, m ∈ ms ↔ m.rule = r ∧ Candidate sc blocked l.path l.text m ∧ Suppressed sc blocked leaves l.text m

end Spec

namespace Props
open Sds Spec

/-! ## The counter of excluded keywords -/

theorem vetoed_true {r : RegexRule} {check : Bool} {c : Str} {s : Nat} : vetoed r check c s = Res.ok true ↔
    check = true ∧ ∃ x, r.excluded = some x ∧ containsExcluded x.eqc x.keywords x.lookAhead c s = Res.ok true := by
  unfold vetoed
  cases check <;> cases r.excluded <;> simp

theorem vetoHits_eq {r : RegexRule} {check : Bool} {c : Str} {s : Nat} :
    (vetoHits r check c s = [s] ∧ vetoed r check c s = Res.ok true) ∨
    (vetoHits r check c s = [] ∧ vetoed r check c s ≠ Res.ok true) := by
  unfold vetoHits
  cases hv : vetoed r check c s with
  | ok b => cases b <;> simp
  | panic => simp
  | hang => simp

theorem nextTpV_erase (r : RegexRule) (check ex : Bool) (c : Str) : ∀ fuel start,
    (nextTpV r check ex c fuel start).map (·.1) = nextTp r check ex c fuel start := by
  intro fuel
  induction fuel with
  | zero => intro start; rfl
  | succ fuel ih =>
    intro start
    unfold nextTpV nextTp
    cases searchFrom r.rx c start with
    | panic => rfl
    | hang => rfl
    | ok o =>
      cases o with
      | none => rfl
      | some x =>
        obtain ⟨s, e⟩ := x
        simp only
        cases isFalsePositive r check c s e with
        | panic => rfl
        | hang => rfl
        | ok b =>
          cases b with
          | true =>
            simp only
            cases nextRegexStart c s with
            | panic => rfl
            | hang => rfl
            | ok o =>
              cases o with
              | none => rfl
              | some i =>
                simp only
                rw [← ih i]
                cases nextTpV r check ex c fuel i <;> rfl
          | false =>
            simp only
            cases ex with
            | false => rfl
            | true =>
              simp only [if_true]
              cases slice c s e with
              | none => rfl
              | some t =>
                simp only
                rw [← ih e]
                cases nextTpV r check true c fuel e <;> rfl

theorem collectTpV_erase (r : RegexRule) (check ex : Bool) (c : Str) (fuelIn : Nat) : ∀ fuel start,
    (collectTpV r check ex c fuelIn fuel start).map (·.1) = collectTp r check ex c fuelIn fuel start := by
  intro fuel
  induction fuel with
  | zero => intro start; rfl
  | succ fuel ih =>
    intro start
    unfold collectTpV collectTp
    rw [← nextTpV_erase]
    cases nextTpV r check ex c fuelIn start with
    | panic => rfl
    | hang => rfl
    | ok x =>
      obtain ⟨⟨o, st, ins⟩, log⟩ := x
      cases o with
      | none => rfl
      | some m =>
        simp only [Res.map]
        rw [← ih st]
        cases collectTpV r check ex c fuelIn fuel st <;> rfl

/-- What one call of `next` logs. -/
theorem nextTpV_log {r : RegexRule} (hl : LawfulRx r.rx) (hne : NonEmptyRx r.rx) {check ex : Bool} {c : Str}
    (hsafe : SafeIf r check c) : ∀ (fuel start : Nat) (st : TpStep) (log : List Nat), OnBoundary c start →
    nextTpV r check ex c fuel start = Res.ok (st, log) → log.Pairwise (· < ·) ∧
      ((st.found = none ∧ ∃ l, Leftmost (Wanted r check c) start l ∧
          ∀ p, p ∈ log ↔ start ≤ p ∧ (∃ e, r.rx c p = some e) ∧ vetoed r check c p = Res.ok true ∧ ¬ Inside l p) ∨
       (∃ s e, st.found = some (s, e) ∧ st.start = e ∧ start ≤ s ∧ Wanted r check c s e ∧
          (∀ p q, start ≤ p → p < s → ¬ Wanted r check c p q) ∧
          ∀ p, p ∈ log ↔ start ≤ p ∧ p < s ∧ (∃ e, r.rx c p = some e) ∧ vetoed r check c p = Res.ok true)) := by
  intro fuel
  induction fuel with
  | zero => intro start st log _ h; cases h
  | succ fuel ih =>
    intro start st log hb h
    unfold nextTpV at h
    rcases searchFrom_spec hl (onBoundary_le hb) with ⟨h1, h2⟩ | ⟨s, e, h1, h2, h3, h4⟩
    · rw [h1] at h
      cases h
      refine ⟨List.Pairwise.nil, .inl ⟨rfl, [], .nil fun p e hp hw => ?_, fun p => ?_⟩⟩
      · have := hw.1.1
        rw [h2 p hp] at this
        cases this
      · constructor
        · intro hp; cases hp
        · rintro ⟨hp, ⟨e, he⟩, _⟩
          rw [h2 p hp] at he
          cases he
    · rw [h1] at h
      simp only at h
      obtain ⟨b, hb1, hb2⟩ := isFalsePositive_spec hl hsafe h3
      rw [hb1] at h
      obtain ⟨hle, hbs, hbe⟩ := hl c s e h3
      have hlt := hne c s e h3
      have hbefore : ∀ p q, start ≤ p → p < s → ¬ Wanted r check c p q := by
        intro p q hp hps hw
        have := hw.1.1
        rw [h4 p hp hps] at this
        cases this
      have hnomatch : ∀ p, start ≤ p → p < s → ¬ ∃ e, r.rx c p = some e := by
        rintro p hp hps ⟨q, hq⟩
        rw [h4 p hp hps] at hq
        cases hq
      cases b with
      | false =>
        have hw := hb2.1 rfl
        have hnv : vetoed r check c s ≠ Res.ok true := by
          intro hv
          obtain ⟨hc, x, hx, hk⟩ := vetoed_true.1 hv
          have := hw.2 hc x hx
          rw [hk] at this
          cases this
        have hno : vetoHits r check c s = [] := by
          rcases vetoHits_eq (r := r) (check := check) (c := c) (s := s) with ⟨_, hv⟩ | ⟨hv, _⟩
          · exact absurd hv hnv
          · exact hv
        simp only [hno, List.nil_append] at h
        cases ex with
        | false =>
          simp only [Bool.false_eq_true, if_false] at h
          cases h
          refine ⟨List.Pairwise.nil, .inr ⟨s, e, rfl, rfl, h2, hw, hbefore, fun p => ?_⟩⟩
          constructor
          · intro hp; cases hp
          · rintro ⟨hp, hps, hm, _⟩; exact absurd hm (hnomatch p hp hps)
        | true =>
          simp only [if_true] at h
          obtain ⟨m, hm⟩ := textAt_of_boundaries hbs hbe hle
          rw [slice_textAt.2 hm] at h
          simp only at h
          cases hn : nextTpV r check true c fuel e with
          | panic => rw [hn] at h; cases h
          | hang => rw [hn] at h; cases h
          | ok x =>
            obtain ⟨st', log'⟩ := x
            rw [hn] at h
            cases h
            obtain ⟨hp, hcase⟩ := ih e st' log hbe hn
            refine ⟨hp, .inl ?_⟩
            rcases hcase with ⟨hf, l, hlm, hmem⟩ | ⟨s', e', hf, _⟩
            · refine ⟨hf, (s, e) :: l, .cons h2 hw hbefore hlm, fun p => ?_⟩
              rw [hmem p]
              constructor
              · rintro ⟨ha, hb, hv, hi⟩
                refine ⟨by omega, hb, hv, ?_⟩
                rintro ⟨x, hx, hx1, hx2⟩
                rcases List.mem_cons.1 hx with rfl | hx
                · simp only at hx1 hx2; omega
                · exact hi ⟨x, hx, hx1, hx2⟩
              · rintro ⟨ha, hb, hv, hi⟩
                refine ⟨?_, hb, hv, fun ⟨x, hx, hx'⟩ => hi ⟨x, List.mem_cons_of_mem _ hx, hx'⟩⟩
                rcases Nat.lt_or_ge p s with hps | hps
                · exact absurd hb (hnomatch p ha hps)
                · rcases Nat.lt_or_ge p e with hpe | hpe
                  · exact absurd ⟨(s, e), List.mem_cons_self, hps, hpe⟩ hi
                  · exact hpe
            · exfalso
              have := nextTp_excluded hl hne hsafe fuel e hbe
              have he := nextTpV_erase r check true c fuel e
              rw [hn] at he
              have hnone : ∀ (fuel start : Nat) (st : TpStep), nextTp r check true c fuel start = Res.ok st →
                  st.found = none := by
                intro fuel
                induction fuel with
                | zero => intro _ _ h; cases h
                | succ fuel ih2 =>
                  intro start st h
                  unfold nextTp at h
                  split at h
                  · cases h
                  · cases h
                  · cases h; rfl
                  · split at h
                    · cases h
                    · cases h
                    · split at h
                      · cases h
                      · cases h
                      · cases h; rfl
                      · exact ih2 _ _ h
                    · simp only [if_true] at h
                      split at h
                      · cases h
                      · split at h
                        · rename_i st2 h2
                          cases h
                          exact (ih2 _ st2 h2 : st2.found = none)
                        · cases h
                        · cases h
              have := hnone fuel e st' he.symm
              rw [hf] at this
              cases this
      | true =>
        have hnot : ∀ q, ¬ Wanted r check c s q := by
          intro q hw
          have : q = e := by have := hw.1.1; rw [h3] at this; exact (Option.some.inj this).symm
          subst this
          exact absurd (hb2.2 hw) (by simp)
        simp only at h
        have hhit : ∀ p, p ∈ vetoHits r check c s ↔ p = s ∧ vetoed r check c p = Res.ok true := by
          intro p
          rcases vetoHits_eq (r := r) (check := check) (c := c) (s := s) with ⟨he, hv⟩ | ⟨he, hv⟩
          · rw [he]
            simp only [List.mem_singleton]
            exact ⟨fun hp => ⟨hp, hp ▸ hv⟩, fun hp => hp.1⟩
          · rw [he]
            constructor
            · intro hp; cases hp
            · rintro ⟨rfl, hp⟩; exact absurd hp hv
        have hpair : (vetoHits r check c s).Pairwise (· < ·) := by
          rcases vetoHits_eq (r := r) (check := check) (c := c) (s := s) with ⟨he, _⟩ | ⟨he, _⟩ <;> rw [he] <;> simp
        rcases nextRegexStart_spec hbs with ⟨h5, h6⟩ | ⟨i, h5, h6, h7, h8⟩
        · rw [h5] at h
          cases h
          have hlast : ∀ p, s < p → ¬ ∃ q, r.rx c p = some q := by
            rintro p hgt ⟨q, hq⟩
            have h9 := h6 p hgt (hl c p q hq).2.1
            have h10 := onBoundary_le (hl c p q hq).2.2
            have h11 := hne c p q hq
            omega
          refine ⟨hpair, .inl ⟨rfl, [], .nil fun p q hp hw => ?_, fun p => ?_⟩⟩
          · rcases Nat.lt_trichotomy p s with hlt | heq | hgt
            · exact hbefore p q hp hlt hw
            · subst heq; exact hnot q hw
            · exact hlast p hgt ⟨q, hw.1.1⟩
          · rw [hhit]
            constructor
            · rintro ⟨rfl, hv⟩
              exact ⟨h2, ⟨e, h3⟩, hv, fun ⟨_, hx, _⟩ => by cases hx⟩
            · rintro ⟨hp, hm, hv, _⟩
              refine ⟨?_, hv⟩
              rcases Nat.lt_trichotomy p s with hlt | heq | hgt
              · exact absurd hm (hnomatch p hp hlt)
              · exact heq
              · exact absurd hm (hlast p hgt)
        · rw [h5] at h
          simp only at h
          have hskip : ∀ p q, start ≤ p → p < i → ¬ Wanted r check c p q := by
            intro p q hp hpi hw
            rcases Nat.lt_trichotomy p s with hlt | heq | hgt
            · exact hbefore p q hp hlt hw
            · subst heq; exact hnot q hw
            · have := h8 p hgt (hl c p q hw.1.1).2.1; omega
          have honly : ∀ p, start ≤ p → p < i → (∃ q, r.rx c p = some q) → p = s := by
            rintro p hp hpi ⟨q, hq⟩
            rcases Nat.lt_trichotomy p s with hlt | heq | hgt
            · exact absurd ⟨q, hq⟩ (hnomatch p hp hlt)
            · exact heq
            · have := h8 p hgt (hl c p q hq).2.1; omega
          cases hn : nextTpV r check ex c fuel i with
          | panic => rw [hn] at h; cases h
          | hang => rw [hn] at h; cases h
          | ok x =>
            obtain ⟨st', log'⟩ := x
            rw [hn] at h
            cases h
            obtain ⟨hp, hcase⟩ := ih i st log' h7 hn
            have hge : ∀ p ∈ log', i ≤ p := by
              intro p hp
              rcases hcase with ⟨_, l, _, hmem⟩ | ⟨_, _, _, _, _, _, _, hmem⟩
              · exact ((hmem p).1 hp).1
              · exact ((hmem p).1 hp).1
            refine ⟨List.pairwise_append.2 ⟨hpair, hp, fun a ha b hb => ?_⟩, ?_⟩
            · have h1 := ((hhit a).1 ha).1
              have h2 := hge b hb
              omega
            · rcases hcase with ⟨hf, l, hlm, hmem⟩ | ⟨s', e', hf, hst, h9, h10, h11, hmem⟩
              · refine .inl ⟨hf, l, hlm.extend (by omega) hskip, fun p => ?_⟩
                rw [List.mem_append, hhit, hmem]
                constructor
                · rintro (⟨rfl, hv⟩ | ⟨ha, hb, hv, hi⟩)
                  · refine ⟨h2, ⟨e, h3⟩, hv, ?_⟩
                    rintro ⟨x, hx, hx1, hx2⟩
                    have := leftmost_start (fun a b hw => (hl c a b hw.1.1).1) hlm x hx
                    omega
                  · exact ⟨by omega, hb, hv, hi⟩
                · rintro ⟨ha, hb, hv, hi⟩
                  rcases Nat.lt_or_ge p i with hpi | hpi
                  · exact .inl ⟨honly p ha hpi hb, hv⟩
                  · exact .inr ⟨hpi, hb, hv, hi⟩
              · refine .inr ⟨s', e', hf, hst, by omega, h10, fun p q hp hps hw => ?_, fun p => ?_⟩
                · rcases Nat.lt_or_ge p i with hpi | hpi
                  · exact hskip p q hp hpi hw
                  · exact h11 p q hpi hps hw
                · rw [List.mem_append, hhit, hmem]
                  constructor
                  · rintro (⟨rfl, hv⟩ | ⟨ha, hb, hm, hv⟩)
                    · exact ⟨h2, by omega, ⟨e, h3⟩, hv⟩
                    · exact ⟨by omega, hb, hm, hv⟩
                  · rintro ⟨ha, hb, hm, hv⟩
                    rcases Nat.lt_or_ge p i with hpi | hpi
                    · exact .inl ⟨honly p ha hpi hm, hv⟩
                    · exact .inr ⟨hpi, hb, hm, hv⟩

theorem collectTpV_log {r : RegexRule} (hl : LawfulRx r.rx) (hne : NonEmptyRx r.rx) {check ex : Bool} {c : Str}
    (hsafe : SafeIf r check c) {fuelIn : Nat} : ∀ (fuel start : Nat) (f : Found) (log : List Nat), OnBoundary c start →
    collectTpV r check ex c fuelIn fuel start = Res.ok (f, log) → log.Pairwise (· < ·) ∧
      ∃ l, Leftmost (Wanted r check c) start l ∧
        ∀ p, p ∈ log ↔ start ≤ p ∧ (∃ e, r.rx c p = some e) ∧ vetoed r check c p = Res.ok true ∧ ¬ Inside l p := by
  intro fuel
  induction fuel with
  | zero => intro start f log _ h; cases h
  | succ fuel ih =>
    intro start f log hb h
    unfold collectTpV at h
    cases hn : nextTpV r check ex c fuelIn start with
    | panic => rw [hn] at h; cases h
    | hang => rw [hn] at h; cases h
    | ok x =>
      obtain ⟨⟨o, st, ins⟩, log0⟩ := x
      rw [hn] at h
      obtain ⟨hp, hcase⟩ := nextTpV_log hl hne hsafe fuelIn start _ log0 hb hn
      cases o with
      | none =>
        cases h
        refine ⟨hp, ?_⟩
        rcases hcase with ⟨_, hl⟩ | ⟨_, _, hf, _⟩
        · exact hl
        · cases hf
      | some m =>
        simp only at h
        rcases hcase with ⟨hf, _⟩ | ⟨s, e, hf, hst, h1, h2, h3, hmem⟩
        · cases hf
        · simp only [Option.some.injEq] at hf
          simp only at hst
          subst hf hst
          have hbe := (hl c s st h2.1.1).2.2
          have hlt := hne c s st h2.1.1
          cases hc : collectTpV r check ex c fuelIn fuel st with
          | panic => rw [hc] at h; cases h
          | hang => rw [hc] at h; cases h
          | ok x =>
            obtain ⟨f', log'⟩ := x
            rw [hc] at h
            cases h
            obtain ⟨hp', l, hlm, hmem'⟩ := ih st f' log' hbe hc
            have hstart : ∀ x ∈ l, st ≤ x.1 := fun x hx =>
              leftmost_start (fun a b hw => (hl c a b hw.1.1).1) hlm x hx
            refine ⟨List.pairwise_append.2 ⟨hp, hp', fun a ha b hb => ?_⟩, (s, st) :: l, .cons h1 h2 h3 hlm, fun p => ?_⟩
            · have h4 := ((hmem a).1 ha).2.1
              have h5 := ((hmem' b).1 hb).1
              omega
            · rw [List.mem_append, hmem, hmem']
              constructor
              · rintro (⟨ha, hb, hm, hv⟩ | ⟨ha, hm, hv, hi⟩)
                · refine ⟨ha, hm, hv, ?_⟩
                  rintro ⟨x, hx, hx1, hx2⟩
                  rcases List.mem_cons.1 hx with rfl | hx
                  · simp only at hx1; omega
                  · have := hstart x hx; omega
                · refine ⟨by omega, hm, hv, ?_⟩
                  rintro ⟨x, hx, hx1, hx2⟩
                  rcases List.mem_cons.1 hx with rfl | hx
                  · simp only at hx2; omega
                  · exact hi ⟨x, hx, hx1, hx2⟩
              · rintro ⟨ha, hm, hv, hi⟩
                rcases Nat.lt_or_ge p s with hps | hps
                · exact .inl ⟨ha, hps, hm, hv⟩
                · rcases Nat.lt_or_ge p st with hpe | hpe
                  · exact absurd ⟨(s, st), List.mem_cons_self, hps, hpe⟩ hi
                  · exact .inr ⟨hpe, hm, hv, fun ⟨x, hx, hx'⟩ => hi ⟨x, List.mem_cons_of_mem _ hx, hx'⟩⟩

/-- C75, excluded keywords: counting changes nothing, and the counter is incremented once for every start of a match of
the regex that has an excluded keyword in front of it and is not inside a match that is found (C20). -/
theorem C75_keyword_counter_partial {r : RegexRule} (hl : LawfulRx r.rx) (hne : NonEmptyRx r.rx) (hi : r.included = none)
    {kp ex : Bool} {c : Str} (hs : ChecksSafely r c) {path : Path} {fuel : Nat} {f : Found} {log : List Nat}
    (h : stringMatchesV r kp ex c path fuel = Res.ok (f, log)) :
    stringMatches r kp ex c path fuel = Res.ok f ∧ log.Pairwise (· < ·) ∧
      ∃ l, Leftmost (Genuine r c) 0 l ∧ ∀ p, p ∈ log ↔ KeywordHit r c p ∧ ¬ Inside l p := by
  unfold stringMatchesV at h
  rw [hi] at h
  simp only at h
  have he := collectTpV_erase r true ex c fuel fuel 0
  rw [h] at he
  refine ⟨by rw [stringMatches, hi]; exact he.symm, ?_⟩
  obtain ⟨hp, l, hlm, hmem⟩ := collectTpV_log hl hne (fun _ => hs) fuel 0 f log (onBoundary_zero c) h
  have hw : Wanted r true c = Genuine r c := by
    funext s e
    simp [Wanted, Genuine]
  rw [hw] at hlm
  refine ⟨hp, l, hlm, fun p => ?_⟩
  rw [hmem, vetoed_true]
  simp only [KeywordHit]
  constructor
  · rintro ⟨_, hm, ⟨_, hv⟩, hn⟩; exact ⟨⟨hm, hv⟩, hn⟩
  · rintro ⟨⟨hm, hv⟩, hn⟩; exact ⟨Nat.zero_le _, hm, ⟨trivial, hv⟩, hn⟩

private def notId : RegexRule := ⟨digitsRx, none, none, some ⟨fun a b => a == b, 10, ["id".toList]⟩⟩

/-- C75, finding: there is one match in `id 12345`, and it is dropped because of the excluded keyword `id`.  The counter goes
up by five: the search goes on with `2345`, `345`, `45` and `5`. -/
theorem C75_keyword_counted_repeatedly :
    stringMatchesV ⟨digitsRx, none, none, none⟩ false false "id 12345".toList [] 9 = Res.ok (⟨[(3, 8)], []⟩, []) ∧
    stringMatchesV notId false false "id 12345".toList [] 9 = Res.ok (⟨[], []⟩, [3, 4, 5, 6, 7]) := by
  decide +kernel

/-- The hypotheses of `C75_keyword_counter_partial`, with a match that is found and one that is not. -/
example : LawfulRx notId.rx ∧ NonEmptyRx notId.rx ∧ notId.included = none ∧
    stringMatchesV notId false false "77 id 12".toList [] 9 = Res.ok (⟨[(0, 2)], []⟩, [6, 7]) :=
  ⟨digitsRx_ok.1, digitsRx_ok.2, rfl, by decide +kernel⟩

/-! ## The counters of a scan -/

theorem runRules_mem_rule {sc : Scanner} {blocked : List Nat} {v : Visit} : ∀ (rs : List Nat) (ex : List Str) (ms : List M)
    (ex' : List Str), runRules sc blocked v rs ex = Res.ok (ms, ex') → ∀ m ∈ ms, m.rule ∈ rs := by
  intro rs
  induction rs with
  | nil => intro ex ms ex' h m hm; cases h; cases hm
  | cons r rs ih =>
    intro ex ms ex' h m hm
    unfold runRules at h
    split at h
    · exact List.mem_cons_of_mem _ (ih _ _ _ h m hm)
    · split at h
      · cases h
      · split at h
        · cases h
        · cases h
        · split at h
          · cases h
          · cases h
          · rename_i h2
            cases h
            rcases List.mem_append.1 hm with hm | hm
            · obtain ⟨x, _, rfl⟩ := List.mem_map.1 hm
              exact List.mem_cons_self
            · exact List.mem_cons_of_mem _ (ih _ _ _ h2 m hm)

theorem runRules_nodup {sc : Scanner} {blocked : List Nat} {v : Visit} {r : Nat}
    (hr : ∀ rule f ex, sc.rules[r]? = some rule → rule.run v.content v.path ex = Res.ok f → f.matches_.Nodup) :
    ∀ (rs : List Nat) (ex : List Str) (ms : List M) (ex' : List Str), rs.Nodup →
    runRules sc blocked v rs ex = Res.ok (ms, ex') → (ms.filter fun m => m.rule == r).Nodup := by
  intro rs
  induction rs with
  | nil => intro ex ms ex' _ h; cases h; exact List.nodup_nil
  | cons r0 rs ih =>
    intro ex ms ex' hnd h
    simp only [List.nodup_cons] at hnd
    unfold runRules at h
    split at h
    · exact ih _ _ _ hnd.2 h
    · split at h
      · cases h
      · rename_i rule hrule
        split at h
        · cases h
        · cases h
        · rename_i f hf
          split at h
          · cases h
          · cases h
          · rename_i ms' ex'' h2
            cases h
            rw [List.filter_append]
            by_cases he : r0 = r
            · subst he
              have h3 : ms'.filter (fun m => m.rule == r0) = [] := by
                rw [List.filter_eq_nil_iff]
                intro m hm he
                simp only [beq_iff_eq] at he
                exact hnd.1 (he ▸ runRules_mem_rule _ _ _ _ h2 m hm)
              rw [h3, List.append_nil]
              refine List.Nodup.sublist List.filter_sublist ?_
              refine List.Pairwise.map _ ?_ (hr rule f _ hrule hf)
              intro a b hab heq
              apply hab
              obtain ⟨a1, a2⟩ := a
              obtain ⟨b1, b2⟩ := b
              simp only [M.mk.injEq, true_and] at heq
              rw [heq.1, heq.2]
            · have h3 : (f.matches_.map fun m => (⟨r0, m.1, m.2⟩ : M)).filter (fun m => m.rule == r) = [] := by
                rw [List.filter_eq_nil_iff]
                intro m hm heq
                obtain ⟨x, _, rfl⟩ := List.mem_map.1 hm
                simp only [beq_iff_eq] at heq
                exact he heq
              rw [h3, List.nil_append]
              exact ih _ _ _ hnd.2 h2

/-- The match is dropped. -/
def IsDropped (sc : Scanner) (excluded : List Str) (c : Str) (m : M) : Prop :=
  ∃ rule t, sc.rules[m.rule]? = some rule ∧ rule.multipass = true ∧ TextAt c m.st m.en t ∧ t ∈ excluded

open Classical in
theorem droppedBy_spec {sc : Scanner} (excluded : List Str) (c : Str) : ∀ (ms : List M),
    (∀ m ∈ ms, ∃ rule, sc.rules[m.rule]? = some rule) →
    (∀ m ∈ ms, m.st < m.en ∧ OnBoundary c m.st ∧ OnBoundary c m.en) →
    droppedBy sc excluded c ms = Res.ok ((ms.filter fun m => decide (IsDropped sc excluded c m)).map (·.rule)) := by
  intro ms
  induction ms with
  | nil => intro _ _; rfl
  | cons m ms ih =>
    intro hr hb
    have h1 := ih (fun x hx => hr x (List.mem_cons_of_mem _ hx)) (fun x hx => hb x (List.mem_cons_of_mem _ hx))
    obtain ⟨rule, hrule⟩ := hr m List.mem_cons_self
    obtain ⟨hlt, hb1, hb2⟩ := hb m List.mem_cons_self
    obtain ⟨t, ht⟩ := textAt_of_boundaries hb1 hb2 (Nat.le_of_lt hlt)
    have hsl : slice c m.st m.en = some t := slice_textAt.2 ht
    rw [droppedBy, hrule]
    simp only
    by_cases hmp : rule.multipass = true
    · rw [if_pos hmp, hsl]
      simp only [h1]
      have hd : IsDropped sc excluded c m ↔ excluded.contains t = true := by
        constructor
        · rintro ⟨rule', t', _, _, ht', hin⟩
          rw [textAt_unique ht' ht] at hin
          simpa using hin
        · intro h
          exact ⟨rule, t, hrule, hmp, ht, by simpa using h⟩
      by_cases hc : excluded.contains t = true
      · rw [if_pos hc, List.filter_cons_of_pos (by simpa using hd.2 hc)]
        rfl
      · rw [if_neg hc, List.filter_cons_of_neg (by simpa [-List.contains_eq_mem] using fun h => hc (hd.1 h))]
    · rw [if_neg hmp, h1, List.filter_cons_of_neg]
      simp only [decide_eq_true_eq]
      rintro ⟨rule', _, hr', hmp', _⟩
      rw [hrule] at hr'
      cases hr'
      exact hmp hmp'

open Classical in
/-- The matches dropped in a string. -/
noncomputable def droppedIn (sc : Scanner) (excluded : List Str) (l : Leaf) (ms : List M) : List M :=
  if sc.multipassEnabled then (sortBy startLe ms).filter fun m => decide (IsDropped sc excluded l.text m) else []

theorem countLeaf_spec {sc : Scanner} (hok : ScannerOk sc) (blocked : List Nat) (excluded : List Str) (l : Leaf)
    (ms : List M) (hms : ∀ m, m ∈ ms ↔ Candidate sc blocked l.path l.text m) :
    ∃ log, countLeaf sc excluded ⟨l.path, l.text, sortBy startLe ms⟩ l.text = Res.ok (l.text, log) ∧
      log.map (·.rule) = (droppedIn sc excluded l ms).map (·.rule) := by
  have hmem : ∀ m, m ∈ sortBy startLe ms ↔ Candidate sc blocked l.path l.text m := by
    intro m; rw [(sortBy_perm _ _).mem_iff, hms]
  unfold countLeaf droppedIn
  cases hmp : sc.multipassEnabled with
  | false => exact ⟨[], by simp, by simp⟩
  | true =>
    have h1 := droppedBy_spec (sc := sc) excluded l.text (sortBy startLe ms)
      (fun m hm => by obtain ⟨rule, f, ha, _⟩ := (hmem m).1 hm; exact ⟨rule, ha.2.1⟩)
      (fun m hm => ((hmem m).1 hm).bounds hok)
    simp only [if_true, h1]
    exact ⟨_, rfl, by simp [Function.comp_def]⟩

theorem editAllC_spec {E : Type} {impl : EventImpl E} {wf : E → Prop} {leavesOf : E → List Leaf}
    {rew : (Path → Str → Str) → E → E} (hE : LawfulEvent impl wf leavesOf rew) {sc : Scanner} (hok : ScannerOk sc)
    (blocked : List Nat) (e : E) (hwf : wf e) {excluded : List Str}
    (hex : ∀ t, t ∈ excluded ↔ FoundInExcluded sc blocked (leavesOf e) t) (ms : Leaf → List M)
    (hms : ∀ l ∈ leavesOf e, ∀ m, m ∈ ms l ↔ Candidate sc blocked l.path l.text m) :
    ∀ (todo : List Leaf), (todo.map (·.path)).Nodup → (∀ l ∈ todo, l ∈ leavesOf e ∧ l.fixed = false) →
    ∀ g : Path → Str → Str, (∀ l ∈ todo, g l.path l.text = l.text) → ∀ R,
      editAll impl sc excluded (todo.map fun l => ⟨l.path, l.text, sortBy startLe (ms l)⟩) (rew g e) = Res.ok R →
      editAllC impl sc excluded (todo.map fun l => ⟨l.path, l.text, sortBy startLe (ms l)⟩) (rew g e) =
        Res.ok (R, todo.flatMap fun l => (droppedIn sc excluded l (ms l)).map (·.rule)) := by
  intro todo
  induction todo with
  | nil => intro _ _ g _ R h; cases h; rfl
  | cons l todo ih =>
    intro hnd hl g hg R hR
    simp only [List.map_cons, List.nodup_cons] at hnd
    obtain ⟨hnot, hnd⟩ := hnd
    obtain ⟨hle, hfix⟩ := hl l List.mem_cons_self
    obtain ⟨os, new, hout, hedit⟩ := editLeaf_spec hE.enc hok blocked (leavesOf e) hex l (ms l) (hms l hle)
    obtain ⟨log, hcount, hlog⟩ := countLeaf_spec hok blocked excluded l (ms l) (hms l hle)
    have hl' : l ∈ leavesOf (rew g e) := by
      rw [hE.leaves_rew]
      refine List.mem_map.2 ⟨l, hle, ?_⟩
      rw [hfix, hg l List.mem_cons_self]
      obtain ⟨p, t, b⟩ := l
      simp only at hfix
      simp [hfix]
    have hmut := hE.edit (rew g e) (hE.wf_rew g e hwf) l hl' hfix
      (editLeaf sc impl.enc excluded ⟨l.path, l.text, sortBy startLe (ms l)⟩)
    rw [hedit] at hmut
    simp only [Res.mapFst, hE.rew_rew] at hmut
    have hprobe := hE.edit (rew g e) (hE.wf_rew g e hwf) l hl' hfix
      (countLeaf sc excluded ⟨l.path, l.text, sortBy startLe (ms l)⟩)
    rw [hcount] at hprobe
    simp only [Res.mapFst, hE.rew_rew] at hprobe
    simp only [List.map_cons, editAll] at hR
    rw [hmut] at hR
    simp only at hR
    cases hr : editAll impl sc excluded (todo.map fun l => ⟨l.path, l.text, sortBy startLe (ms l)⟩)
        (rew (fun p c => only l.path new p (g p c)) e) with
    | panic => rw [hr] at hR; cases hR
    | hang => rw [hr] at hR; cases hR
    | ok x =>
      obtain ⟨e'', os'⟩ := x
      rw [hr] at hR
      cases hR
      have := ih hnd (fun x hx => hl x (List.mem_cons_of_mem _ hx)) _ (fun x hx => by
        have : x.path ≠ l.path := fun h => hnot (h ▸ List.mem_map_of_mem hx)
        simp only [only, if_neg this]
        exact hg x (List.mem_cons_of_mem _ hx)) _ hr
      simp only [List.map_cons, editAllC]
      rw [hprobe]
      simp only
      rw [hmut]
      simp only
      rw [this]
      simp only [List.flatMap_cons, hlog]

theorem sum_filter {α : Type} {p : α → Bool} {n : α → Nat} : ∀ (l : List α), (∀ a ∈ l, p a = false → n a = 0) →
    ((l.filter p).map n).sum = (l.map n).sum := by
  intro l
  induction l with
  | nil => intro _; rfl
  | cons a l ih =>
    intro h
    have h1 := ih fun b hb => h b (List.mem_cons_of_mem _ hb)
    cases hp : p a with
    | true => rw [List.filter_cons_of_pos hp]; simp [h1]
    | false => rw [List.filter_cons_of_neg (by simp [hp])]; simp [h1, h a List.mem_cons_self hp]

section
variable {E : Type} {impl : EventImpl E} {wf : E → Prop} {leavesOf : E → List Leaf} {rew : (Path → Str → Str) → E → E}

theorem scanC_spec (hE : LawfulEvent impl wf leavesOf rew) {sc : Scanner} (hok : ScannerOk sc) (blocked : List Nat)
    (e : E) (h : Scannable wf leavesOf sc blocked e) : ∃ e' os n, scan impl sc e blocked = Res.ok (e', os) ∧
      scanC impl sc e blocked = Res.ok ((e', os), n) ∧ n.scannedEvents = 1 ∧ n.matchCount = os.length ∧
      ∀ r, EmitsOnce sc (leavesOf e) r → ∃ K : Leaf → List M,
        (∀ l ∈ leavesOf e, DroppedHere sc blocked (leavesOf e) r l (K l)) ∧
        n.excludedMatch.count r = ((leavesOf e).map fun l => (K l).length).sum := by
  have hwf := h.wf
  obtain ⟨out, G, _, hscan⟩ := scan_leafOut hE hok blocked e hwf h.returns h.strings
  obtain ⟨rules, excl, hp, hv⟩ := visits_spec (sc.rules.map (·.scope)) sc.wildcards
  have hvis := hv _ _ (hE.visits e hwf)
  rw [List.map_map] at hvis
  obtain ⟨ms, ins, hms, hins, hrules, hrun⟩ := runVisits_runRules hok blocked (leavesOf e) h.returns
    (fun l => ⟨l.path, l.text, rules l.path, excl l.path⟩)
    (fun l => ⟨rfl, rfl, (hp l.path).2.1, (hp l.path).2.2⟩)
  have hsub : ((leavesOf e).filter fun l => !(ms l).isEmpty).Sublist (leavesOf e) := List.filter_sublist
  have hr := hrun []
  simp only [List.nil_append] at hr
  have hscan' := hscan
  unfold scan at hscan'
  rw [hvis] at hscan'
  simp only [Function.comp_def] at hscan'
  rw [hr] at hscan'
  simp only at hscan'
  have hC := editAllC_spec hE hok blocked e hwf hins ms hms
    ((leavesOf e).filter fun l => !(ms l).isEmpty) ((hsub.map _).nodup (hE.nodup e hwf)) (fun l hl => by
      obtain ⟨hl1, hl2⟩ := List.mem_filter.1 hl
      refine ⟨hl1, ?_⟩
      cases hf : l.fixed with
      | false => rfl
      | true =>
        exfalso
        cases hm : ms l with
        | nil => rw [hm] at hl2; cases hl2
        | cons m r => exact h.strings l hl1 hf m ((hms l hl1 m).1 (by rw [hm]; exact List.mem_cons_self)))
    (fun _ c => c) (fun _ _ => rfl)
  rw [hE.rew_id] at hC
  have hC := hC _ hscan'
  refine ⟨_, _, ⟨1, ((leavesOf e).flatMap fun l => (out l).1).length, ((leavesOf e).filter fun l =>
    !(ms l).isEmpty).flatMap fun l => (droppedIn sc ins l (ms l)).map (·.rule)⟩, hscan, ?_, rfl, rfl, ?_⟩
  · unfold scanC
    rw [hvis]
    simp only [Function.comp_def]
    rw [hr]
    simp only
    rw [hC]
  · intro r hemit
    refine ⟨fun l => (droppedIn sc ins l (ms l)).filter fun m => m.rule == r, fun l hl => ⟨?_, fun m => ?_⟩, ?_⟩
    · obtain ⟨ex, hru⟩ := hrules l hl
      have hnd : ((ms l).filter fun m => m.rule == r).Nodup := by
        refine runRules_nodup (v := ⟨l.path, l.text, rules l.path, excl l.path⟩) ?_ _ _ _ _ (hp l.path).1 hru
        intro rule f b hrule hf
        cases b with
        | false => exact hemit rule f hrule l hl hf
        | true => rw [(hok.at hrule).excluded _ _ _ hf]; exact List.nodup_nil
      unfold droppedIn
      split
      · have h1 : ((sortBy startLe (ms l)).filter fun m => m.rule == r).Nodup :=
          ((sortBy_perm startLe (ms l)).filter _).nodup_iff.2 hnd
        exact h1.sublist (List.Sublist.filter _ List.filter_sublist)
      · simp
    · have hmem : m ∈ sortBy startLe (ms l) ↔ Candidate sc blocked l.path l.text m := by
        rw [(sortBy_perm _ _).mem_iff, hms l hl]
      unfold droppedIn Suppressed
      cases hmp : sc.multipassEnabled with
      | false => simp
      | true =>
        have hd : IsDropped sc ins l.text m ↔ ∃ rule t, sc.rules[m.rule]? = some rule ∧ rule.multipass = true ∧
            TextAt l.text m.st m.en t ∧ FoundInExcluded sc blocked (leavesOf e) t := by
          simp only [IsDropped, hins]
        simp only [if_true, List.mem_filter, hmem, beq_iff_eq, decide_eq_true_eq, hd, true_and]
        constructor
        · rintro ⟨⟨a, b⟩, c⟩; exact ⟨c, a, b⟩
        · rintro ⟨c, a, b⟩; exact ⟨⟨a, b⟩, c⟩
    · simp only
      rw [List.count_flatMap]
      have : ∀ l, List.count r ((droppedIn sc ins l (ms l)).map (·.rule)) =
          ((droppedIn sc ins l (ms l)).filter fun m => m.rule == r).length := by
        intro l
        rw [List.count, List.countP_map, List.countP_eq_length_filter]
        rfl
      rw [show (List.count r ∘ fun l => (droppedIn sc ins l (ms l)).map (·.rule)) =
        fun l => ((droppedIn sc ins l (ms l)).filter fun m => m.rule == r).length from funext this]
      apply sum_filter
      intro l _ hl
      simp only [Bool.not_eq_false'] at hl
      rw [List.isEmpty_iff.1 hl]
      unfold droppedIn
      split <;> rfl

/-- C75: a scan with the counters returns what the scan returns; `scanned_events` goes up by one and `scanning.match_count` by
the number of matches that are returned. -/
theorem C75_scan_counters (hE : LawfulEvent impl wf leavesOf rew) {sc : Scanner} (hok : ScannerOk sc) (blocked : List Nat)
    (e : E) (h : Scannable wf leavesOf sc blocked e) : ∃ e' os n, scan impl sc e blocked = Res.ok (e', os) ∧
      scanC impl sc e blocked = Res.ok ((e', os), n) ∧ n.scannedEvents = 1 ∧ n.matchCount = os.length := by
  obtain ⟨e', os, n, h1, h2, h3, h4, _⟩ := scanC_spec hE hok blocked e h
  exact ⟨e', os, n, h1, h2, h3, h4⟩

/-- C75: for a rule that emits each of its matches once, `false_positive.multipass.excluded_match` goes up by the number of
its matches that are dropped because their text was found in an excluded field. -/
theorem C75_excluded_match_partial (hE : LawfulEvent impl wf leavesOf rew) {sc : Scanner} (hok : ScannerOk sc)
    (blocked : List Nat) (e : E) (h : Scannable wf leavesOf sc blocked e) {r : Nat} (hr : EmitsOnce sc (leavesOf e) r)
    {x : E × List RuleMatch} {n : Counts} (hn : scanC impl sc e blocked = Res.ok (x, n)) : ∃ K : Leaf → List M,
      (∀ l ∈ leavesOf e, DroppedHere sc blocked (leavesOf e) r l (K l)) ∧
      n.excludedMatch.count r = ((leavesOf e).map fun l => (K l).length).sum := by
  obtain ⟨e', os, n', _, h2, _, _, h5⟩ := scanC_spec hE hok blocked e h
  rw [hn] at h2
  cases h2
  exact h5 r hr

end

/-- Rules without included keywords emit each match once. -/
theorem emitsOnce_regex {sc : Scanner} {leaves : List Leaf} {i : Nat} {r : RegexRule} (hl : LawfulRx r.rx)
    (hne : NonEmptyRx r.rx) (hi : r.included = none) {info : RuleInfo} {s : Scope} {kp : Bool} {fuel : Str → Nat}
    (hr : sc.rules[i]? = some (r.toCRule info s kp fuel)) (hs : ∀ l ∈ leaves, ChecksSafely r l.text)
    (hf : ∀ c, blen c < fuel c) : EmitsOnce sc leaves i := by
  intro rule f hrule l hleaf hrun
  rw [hr] at hrule
  cases hrule
  have : stringMatches r kp false l.text l.path (fuel l.text) = Res.ok f := hrun
  unfold stringMatches at this
  rw [hi] at this
  simp only at this
  obtain ⟨ms, h1, h2⟩ := collectTp_spec hl hne (fun _ => hs l hleaf) (hf l.text) (fuel l.text) 0 (onBoundary_zero _)
    (by have := hf l.text; omega)
  rw [h1] at this
  cases this
  have hp := leftmost_pairwise (fun a b hw => (hl _ a b hw.1.1).1) h2
  refine List.Pairwise.imp_of_mem ?_ hp
  intro a b ha hb hab heq
  have := hne _ _ _ (leftmost_mem h2 a ha).1.1
  subst heq
  omega

/-! ## Examples and finding -/

private def fld (s : String) : Seg := .field s.toList

private def digitsRule : RegexRule := ⟨digitsRx, none, none, none⟩

private def exScanner : Scanner :=
  ⟨[digitsRule.toCRule ⟨.none, false⟩ (.excl [[fld "x"]]) false (fun c => blen c + 1)], false, true, true,
    ⟨fun _ => 0, fun _ => 0⟩⟩

private def exEv : Ev := .map (.cons "x".toList (.str "12".toList)
  (.cons "n".toList (.str "12 7 12".toList) .nil))

/-- Two matches are dropped and one is reported. -/
example : (scanC jsonEvent exScanner exEv []).map (·.2) = Res.ok ⟨1, 1, [0, 0]⟩ := by decide +kernel

example : ScannerOk exScanner ∧ Scannable WellKeyed (Ev.leaves false) exScanner [] exEv ∧
    EmitsOnce exScanner (Ev.leaves false exEv) 0 := by
  refine ⟨?_, ⟨?_, ?_, ?_⟩, ?_⟩
  · intro rule h
    simp only [exScanner, List.mem_singleton] at h
    subst h
    exact regexRule_ok digitsRx_ok.1 digitsRx_ok.2 (by intro k hk; cases hk) (by intro c; omega) (by simp) _ false
  · simp [exEv, WellKeyed, WellKeyedFields, keys]
  · intro rule h l _ ex
    simp only [exScanner, List.mem_singleton] at h
    subst h
    exact stringMatches_returns (r := digitsRule) digitsRx_ok.1 digitsRx_ok.2
      (by intro k hk; cases hk) false ex (by intro _ x hx; cases hx) l.path (Nat.lt_succ_self _)
  · have : ∀ l ∈ Ev.leaves false exEv, l.fixed = false := by decide +kernel
    intro l hl hf
    rw [this l hl] at hf
    cases hf
  · exact emitsOnce_regex (r := digitsRule) digitsRx_ok.1 digitsRx_ok.2 rfl rfl (by intro l _ x hx; cases hx)
      (by intro c; omega)

/-- Digits near the keyword `id`, which is also looked for in paths; the path of every field contains it. -/
private def nearId : RegexRule :=
  ⟨digitsRx, none, some ⟨5, leftmostKw (fun a b => a == b) ["id".toList], fun _ => true⟩, none⟩

/-- C75, finding: there is one match in `n`, and it is dropped because its text is in the excluded field `x`.  The counter
goes up by two: the match is emitted for the keyword in the text and for the one in the path. -/
theorem C75_excluded_match_counted_twice :
    let sc : Scanner := ⟨[nearId.toCRule ⟨.none, false⟩ (.excl [[fld "x"]]) true (fun c => blen c + 1)], false, true, true,
      ⟨fun _ => 0, fun _ => 0⟩⟩
    let n := Ev.str "id 12".toList
    (scan jsonEvent sc (.map (.cons "n".toList n .nil)) []).map (fun r => r.2.length) = Res.ok 1 ∧
    (scanC jsonEvent sc (.map (.cons "x".toList (.str "12".toList) (.cons "n".toList n .nil))) []).map (·.2) =
      Res.ok ⟨1, 0, [0, 0]⟩ := by
  decide +kernel

end Props
end Sds
