import Verif.Lemmas.Builder
import Verif.Props.Keywords

/-! # C45-C47, C59, C61: building scanners, error codes, statistics, pool size, complexity -/

namespace Sds.Props

open Sds.Spec

/-! ## C45 -/

/-- The internal count is right under every interleaving: whenever nobody is in the middle of an update, it equals the
number of scanners alive, and so does the difference of the exported creation and deletion counters. -/
theorem C45_count_is_live {w : StatWorld} (h : StatReach w) (hq : Quiet w) :
    w.count = liveScanners w ∧ (w.creations : Int) - w.deletions = liveScanners w := by
  have hi := statInv h
  have hc := hi.count
  rw [live_of_quiet hq] at hc
  exact ⟨hc, hi.diff.symm.trans hc⟩

def g1 : StatWorld := ⟨0, 0, 0, 0, [.building]⟩
def g2 : StatWorld := ⟨0, 0, 0, 0, [.building, .building]⟩
def g3 : StatWorld := ⟨1, 0, 1, 0, [.counted 0, .building]⟩
def g4 : StatWorld := ⟨2, 0, 2, 0, [.counted 0, .counted 1]⟩
def g5 : StatWorld := ⟨2, 0, 2, 2, [.counted 0, .alive]⟩
def g6 : StatWorld := ⟨2, 0, 2, 1, [.alive, .alive]⟩

theorem g6_reach : StatReach g6 :=
  .step (.step (.step (.step (.step (.step .init (.spawn .init : StatStep _ g1)) (.spawn g1 : StatStep _ g2))
    (.add g2 0 rfl : StatStep _ g3)) (.add g3 1 rfl : StatStep _ g4)) (.addSet g4 1 1 rfl : StatStep _ g5))
    (.addSet g5 0 0 rfl : StatStep _ g6)

/-- The claim fails for the exported gauge: two scanners created at the same time can leave it at 1 for good, because
the count and the gauge are updated in two steps. -/
theorem C45_gauge_wrong : ∃ w, StatReach w ∧ Quiet w ∧ w.gauge ≠ liveScanners w :=
  ⟨g6, g6_reach, by intro pc hm; simp [g6] at hm; subst hm; rfl, by decide⟩

/-- The gauge is right if scanners are created and dropped by one client at a time. -/
theorem C45_gauge_is_live_partial {w : StatWorld} (h : SerialReach w) (hq : Quiet w) : w.gauge = liveScanners w :=
  ((serialInv h).quiet hq).trans (C45_count_is_live h.reach hq).1

/-- A wrong gauge is set right by the next creation that is not disturbed. -/
theorem C45_gauge_recovers {w w1 w2 : StatWorld} (h : StatReach w) (hq : Quiet w) {i : Nat}
    (h1 : w1 = { w with creations := w.creations + 1, count := w.count + 1, clients := w.clients.set i (.counted w.count) })
    (h2 : StatStep w1 w2) (hi : w.clients[i]? = some .building) (hdone : w2.clients[i]? = some .alive) :
    w2.gauge = liveScanners w2 := by
  have hr2 : StatReach w2 := .step (.step h (h1 ▸ .add w i hi)) h2
  have hi1 : w1.clients[i]? = some (.counted w.count) := by
    rw [h1]; exact List.getElem?_set_self (List.getElem?_eq_some_iff.mp hi).1
  cases h2 with
  | addSet j prev hj =>
    by_cases e : j = i
    · subst e
      rw [hi1] at hj
      cases hj
      have hq2 : Quiet { w1 with gauge := w.count + 1, clients := w1.clients.set j .alive } := by
        rw [quiet_iff]
        have ha := countP_set_add Updating (.counted w.count) hi
        have hb := countP_set_add Updating .alive hi1
        have hc := quiet_iff.mp hq
        simp only [Updating, Bool.false_eq_true, if_false, if_true] at ha hb
        show (w1.clients.set j .alive).countP Updating = 0
        have : w1.clients = w.clients.set j (.counted w.count) := by rw [h1]
        rw [this] at hb ⊢
        omega
      rw [← (C45_count_is_live hr2 hq2).1]
      show w.count + 1 = w1.count
      rw [h1]
    · have : (w1.clients.set j .alive)[i]? = some .alive := hdone
      rw [List.getElem?_set_ne e, hi1] at this
      cases this
  | spawn =>
    have : (w1.clients ++ [StatPc.building])[i]? = some .alive := hdone
    rw [List.getElem?_append_left (List.getElem?_eq_some_iff.mp hi1).1, hi1] at this
    cases this
  | fail j hj =>
    have : (w1.clients.set j .gone)[i]? = some .alive := hdone
    by_cases e : j = i
    · subst e; rw [hi1] at hj; cases hj
    · rw [List.getElem?_set_ne e, hi1] at this; cases this
  | add j hj =>
    have : (w1.clients.set j _)[i]? = some .alive := hdone
    by_cases e : j = i
    · subst e; rw [hi1] at hj; cases hj
    · rw [List.getElem?_set_ne e, hi1] at this; cases this
  | drop j hj =>
    have : (w1.clients.set j _)[i]? = some .alive := hdone
    by_cases e : j = i
    · subst e; rw [hi1] at hj; cases hj
    · rw [List.getElem?_set_ne e, hi1] at this; cases this
  | dropSet j prev hj =>
    have : (w1.clients.set j .gone)[i]? = some .alive := hdone
    by_cases e : j = i
    · subst e; rw [hi1] at hj; cases hj
    · rw [List.getElem?_set_ne e, hi1] at this; cases this

/-- Non-vacuity: a serial history with one scanner created, one failed. -/
example : SerialReach ⟨1, 0, 1, 1, [.alive, .gone]⟩ :=
  .step (.step (.step (.step (.step .init (.spawn .init : StatStep _ g1) (by decide)) (.spawn g1 : StatStep _ g2) (by decide))
    (.add g2 0 rfl : StatStep _ g3) (by decide)) (.fail g3 1 rfl : StatStep _ ⟨1, 0, 1, 0, [.counted 0, .gone]⟩) (by decide))
    (.addSet _ 0 0 rfl) (by decide)

/-! ## C46 -/

variable {V : Type}

theorem compile_cases (regexOf : Str → Except RegexErr V) (r : RuleCfg) (i : Nat) :
    (∃ e, r.compile regexOf i = .error e ∧ Faulty regexOf r e ∧ ¬ ValidRule regexOf r) ∨
    (∃ v ks, r.compile regexOf i = .ok ⟨i, v, r.action, ks.1, ks.2, r.vtype, r.vtype.map VType.itype⟩ ∧
      ValidRule regexOf r ∧ regexOf r.pattern = .ok v ∧
      (r.keywords = none → ks = (none, none)) ∧ (∀ c, r.keywords = some c → compileConfig c = .ok ks)) := by
  unfold RuleCfg.compile
  cases hp : regexOf r.pattern with
  | error e => exact .inl ⟨_, rfl, .regex hp, fun h => by obtain ⟨⟨v, hv⟩, _⟩ := h; rw [hp] at hv; cases hv⟩
  | ok v =>
    dsimp only
    cases ha : r.action.validate with
    | false =>
      have hb := (validate_iff _).mp ha
      exact .inl ⟨_, by simp, .action hp hb, fun h => h.2.1 hb⟩
    | true =>
      have hb : ¬ BadAction r.action := fun h => by
        rw [(validate_iff _).mpr h] at ha
        cases ha
      rw [if_pos rfl]
      cases hk : r.keywords with
      | none =>
        refine .inr ⟨v, (none, none), rfl, ⟨⟨v, hp⟩, hb, fun c hc => ?_⟩, rfl, fun _ => rfl, fun c hc => ?_⟩
        · rw [hk] at hc; cases hc
        · cases hc
      | some c =>
        dsimp only
        cases hc : compileConfig c with
        | error e =>
          refine .inl ⟨_, rfl, .keywords hp hb hk ((C28_first_error c e).mp hc), fun h => ?_⟩
          obtain ⟨x, hx⟩ := (C28_accepted_iff c).mpr (h.2.2 c hk)
          rw [hc] at hx
          cases hx
        | ok ks =>
          refine .inr ⟨v, ks, rfl, ⟨⟨v, hp⟩, hb, fun c' hc' => ?_⟩, rfl, (fun h => by cases h), fun c' hc' => ?_⟩
          · rw [hk] at hc'
            cases hc'
            exact (C28_accepted_iff c).mp ⟨ks, hc⟩
          · cases hc'
            exact hc

theorem faulty_unique {regexOf : Str → Except RegexErr V} {r : RuleCfg} {e e' : CreateErr} (h : Faulty regexOf r e)
    (h' : Faulty regexOf r e') : e = e' := by
  cases h with
  | regex h1 =>
    cases h' with
    | regex h2 => rw [h1] at h2; cases h2; rfl
    | action h2 => rw [h1] at h2; cases h2
    | keywords h2 => rw [h1] at h2; cases h2
  | action h1 hb =>
    cases h' with
    | regex h2 => rw [h1] at h2; cases h2
    | action h2 => rfl
    | keywords h2 hb' => exact absurd hb hb'
  | keywords h1 hb hk hf =>
    cases h' with
    | regex h2 => rw [h1] at h2; cases h2
    | action h2 hb' => exact absurd hb' hb
    | keywords h2 hb' hk' hf' =>
      rw [hk] at hk'
      cases hk'
      have a := (C28_first_error _ _).mpr hf
      have b := (C28_first_error _ _).mpr hf'
      rw [a] at b
      cases b
      rfl

theorem faulty_not_valid {regexOf : Str → Except RegexErr V} {r : RuleCfg} {e : CreateErr} (h : Faulty regexOf r e) :
    ¬ ValidRule regexOf r := by
  rintro ⟨⟨v, hv⟩, hb, hk⟩
  cases h with
  | regex h1 => rw [h1] at hv; cases hv
  | action _ hb' => exact hb hb'
  | keywords _ _ hk' hf =>
    obtain ⟨x, hx⟩ := (C28_accepted_iff _).mpr (hk _ hk')
    rw [(C28_first_error _ _).mpr hf] at hx
    cases hx

theorem compileRules_cases (regexOf : Str → Except RegexErr V) : ∀ (rules : List RuleCfg) (i : Nat),
    (∃ e l r rs, compileRules regexOf rules i = .error e ∧ rules = l ++ r :: rs ∧ (∀ x ∈ l, ValidRule regexOf x) ∧
      Faulty regexOf r e) ∨
    (∃ bs, compileRules regexOf rules i = .ok bs ∧ (∀ r ∈ rules, ValidRule regexOf r) ∧ bs.length = rules.length ∧
      ∀ (j : Nat) (b : BuiltRule V), bs[j]? = some b → ∃ r : RuleCfg, rules[j]? = some r ∧ r.compile regexOf (i + j) = .ok b)
  | [], i => .inr ⟨[], rfl, (fun _ h => by cases h), rfl, (fun j b h => by simp at h)⟩
  | r :: rules, i => by
    rw [compileRules]
    rcases compile_cases regexOf r i with ⟨e, he, hf, _⟩ | ⟨v, ks, he, hval, _⟩
    · rw [he]
      exact .inl ⟨e, [], r, rules, rfl, rfl, (fun _ h => by cases h), hf⟩
    · rw [he]
      dsimp only
      rcases compileRules_cases regexOf rules (i + 1) with ⟨e, l, r', rs, he', hl, hv, hf⟩ | ⟨bs, he', hv, hlen, hget⟩
      · rw [he']
        refine .inl ⟨e, r :: l, r', rs, rfl, by rw [hl]; rfl, ?_, hf⟩
        intro x hx
        rcases List.mem_cons.mp hx with rfl | hx
        · exact hval
        · exact hv x hx
      · rw [he']
        refine .inr ⟨_, rfl, ?_, by rw [List.length_cons, hlen, List.length_cons], ?_⟩
        · intro x hx
          rcases List.mem_cons.mp hx with rfl | hx
          · exact hval
          · exact hv x hx
        · intro j b hb
          cases j with
          | zero =>
            have hb : _ = b := Option.some.inj hb
            rw [← hb]
            exact ⟨r, rfl, he⟩
          | succ j =>
            obtain ⟨r', h1, h2⟩ := hget j b hb
            exact ⟨r', h1, by rw [← h2]; congr 1; omega⟩

theorem buildScanner_eq (regexOf : Str → Except RegexErr V) (rules : List RuleCfg) :
    ∃ vs, buildScanner regexOf rules = match compileRules regexOf rules 0 with
      | .error e => .error e
      | .ok bs => .ok ⟨bs, vs, (rules.map (·.vtype)).any (fun o => o.any VType.canCreate)⟩ := by
  obtain ⟨vs, hvs, _⟩ := buildValidators_spec (rules.map (·.vtype)) [] false (by intro h; exact absurd rfl h)
  refine ⟨vs, ?_⟩
  unfold buildScanner
  rw [hvs]
  rfl

/-- A scanner is built iff every rule is valid. -/
theorem C46_built_iff (regexOf : Str → Except RegexErr V) (rules : List RuleCfg) :
    (∃ s, buildScanner regexOf rules = .ok s) ↔ ∀ r ∈ rules, ValidRule regexOf r := by
  obtain ⟨vs, h⟩ := buildScanner_eq regexOf rules
  rw [h]
  rcases compileRules_cases regexOf rules 0 with ⟨e, l, r, rs, he, hl, hv, hf⟩ | ⟨bs, he, hv, _⟩
  · rw [he]
    refine ⟨fun ⟨s, hs⟩ => (by cases hs), fun hall => ?_⟩
    exact absurd (hall r (by rw [hl]; simp)) (faulty_not_valid hf)
  · rw [he]
    exact ⟨fun _ => hv, fun _ => ⟨_, rfl⟩⟩

/-- Otherwise the error is that of the first faulty rule; in a rule regex errors come before action errors, which come
before keyword errors. -/
theorem C46_first_fault (regexOf : Str → Except RegexErr V) (rules : List RuleCfg) (e : CreateErr) :
    buildScanner regexOf rules = .error e ↔
    ∃ l r rs, rules = l ++ r :: rs ∧ (∀ x ∈ l, ValidRule regexOf x) ∧ Faulty regexOf r e := by
  obtain ⟨vs, h⟩ := buildScanner_eq regexOf rules
  rw [h]
  rcases compileRules_cases regexOf rules 0 with ⟨e', l, r, rs, he, hl, hv, hf⟩ | ⟨bs, he, hv, _⟩
  · rw [he]
    constructor
    · intro h'
      cases h'
      exact ⟨l, r, rs, hl, hv, hf⟩
    · rintro ⟨l2, r2, rs2, hl2, hv2, hf2⟩
      have : l = l2 ∧ r = r2 := by
        rw [hl] at hl2
        rcases List.append_eq_append_iff.mp hl2 with ⟨a, ha, hb⟩ | ⟨a, ha, hb⟩
        · cases a with
          | nil =>
            rw [List.append_nil] at ha
            exact ⟨ha.symm, (List.cons.inj hb).1⟩
          | cons x a =>
            have hx := (List.cons.inj hb).1
            subst hx
            exact absurd (hv2 r (by rw [ha]; simp)) (faulty_not_valid hf)
        · cases a with
          | nil =>
            rw [List.append_nil] at ha
            exact ⟨ha, (List.cons.inj hb).1.symm⟩
          | cons x a =>
            have hx := (List.cons.inj hb).1
            subst hx
            exact absurd (hv r2 (by rw [ha]; simp)) (faulty_not_valid hf2)
      obtain ⟨rfl, rfl⟩ := this
      dsimp only
      rw [faulty_unique hf hf2]
  · rw [he]
    refine ⟨fun h' => (by cases h'), ?_⟩
    rintro ⟨l2, r2, rs2, hl2, _, hf2⟩
    exact absurd (hv r2 (by rw [hl2]; simp)) (faulty_not_valid hf2)

/-- The compiled rules keep their positions as indices, and every one is compiled from the rule at its position. -/
theorem C46_positions {regexOf : Str → Except RegexErr V} {rules : List RuleCfg} {s : BuiltScanner V}
    (h : buildScanner regexOf rules = .ok s) :
    s.rules.length = rules.length ∧
    ∀ (i : Nat) (b : BuiltRule V), s.rules[i]? = some b → ∃ r, rules[i]? = some r ∧ b.index = i ∧
      regexOf r.pattern = .ok b.regex ∧ b.action = r.action ∧ b.vtype = r.vtype ∧
      (r.keywords = none → b.included = none ∧ b.excluded = none) ∧
      (∀ c, r.keywords = some c → compileConfig c = .ok (b.included, b.excluded)) := by
  obtain ⟨vs, h'⟩ := buildScanner_eq regexOf rules
  rw [h'] at h
  rcases compileRules_cases regexOf rules 0 with ⟨e', l, r, rs, he, hl, hv, hf⟩ | ⟨bs, he, hv, hlen, hget⟩
  · rw [he] at h; cases h
  · rw [he] at h
    cases h
    refine ⟨hlen, fun i b hb => ?_⟩
    obtain ⟨r, hr, hc⟩ := hget i b hb
    refine ⟨r, hr, ?_⟩
    rw [Nat.zero_add] at hc
    rcases compile_cases regexOf r i with ⟨e, he', _⟩ | ⟨v, ks, he', _, hv', hk1, hk2⟩
    · rw [he'] at hc; cases hc
    · rw [he'] at hc
      cases hc
      refine ⟨rfl, hv', rfl, rfl, ?_, hk2⟩
      intro hn
      rw [hk1 hn]
      exact ⟨rfl, rfl⟩

/-- Non-vacuity: the second rule has a bad regex and a bad action, the third a bad keyword. -/
def exRegexOf : Str → Except RegexErr Unit := fun p => if p = ['('] then .error .invalidSyntax else .ok ()
def exRules : List RuleCfg :=
  [⟨['a'], .none, none, none⟩, ⟨['('], .partialFirst 0, none, none⟩, ⟨['b'], .none, some ⟨5, [[]], []⟩, none⟩]
example : buildScanner exRegexOf exRules = .error (.invalidRegex .invalidSyntax) := rfl
example : ∃ s, buildScanner exRegexOf [⟨['a'], .none, none, none⟩, ⟨['c'], .hash, some ⟨5, [['x']], []⟩, none⟩] = .ok s :=
  ⟨_, rfl⟩

/-! ## C47 -/

/-- The claim fails: `InvalidMatchValidator` has the code of a panic. -/
theorem C47_ambiguous : ∃ a b, outcomeKind a ≠ outcomeKind b ∧ a.native.1 = b.native.1 :=
  ⟨.error .invalidMatchValidator, .panic [], by decide, rfl⟩

/-- All other outcomes have different codes. -/
theorem C47_codes_partial (a b : CreateOutcome) (ha : outcomeKind a ≠ .validator) (hb : outcomeKind b ≠ .validator)
    (h : a.native.1 = b.native.1) : outcomeKind a = outcomeKind b := by
  have hpos : ∀ n : Nat, (n : Int) ≠ -2 ∧ (n : Int) ≠ -3 ∧ (n : Int) ≠ -4 ∧ (n : Int) ≠ -5 := by omega
  rcases a with a | (_ | _ | _ | _) | _ <;> rcases b with b | (_ | _ | _ | _) | _ <;>
    simp_all [outcomeKind, CreateOutcome.native, CreateErr.code]
  all_goals first
    | omega
    | (have := hpos a; omega)
    | (have := hpos b; omega)

/-- The ambiguity does not show: the builder never reports an invalid match validator, so what Go's `CreateScanner`
returns determines which kind of error building the rules gave. -/
theorem C47_builder_unambiguous {regexOf : Str → Except RegexErr V} {rules : List RuleCfg} {e : CreateErr}
    (h : buildScanner regexOf rules = .error e) :
    goCreate (CreateOutcome.native (.error e)) =
      match outcomeKind (.error e) with
      | .regex => .error .invalidRegex
      | .keywords => .error .invalidKeywords
      | .action => .error .invalidMatchAction
      | _ => .error .unknown := by
  obtain ⟨l, r, rs, _, _, hf⟩ := (C46_first_fault regexOf rules e).mp h
  cases hf <;> rfl

/-- A scanner and a panic are reported as such. -/
theorem C47_success_and_panic (a : Nat) (m : Str) :
    goCreate (CreateOutcome.native (.scanner a)) = .ok (a : Int) ∧
    goCreate (CreateOutcome.native (.panic m)) = .error (.panic (some m)) := by
  constructor
  · unfold goCreate CreateOutcome.native
    dsimp only
    rw [if_neg (by omega)]
  · rfl

/-! ## C59 -/

/-- The pool has the smallest supported number of stacks (4, 8, 16, 32, 64) that is at least the CPU count, or 64. -/
theorem C59_pool_size (n : Nat) :
    poolStacks n ∈ [4, 8, 16, 32, 64] ∧ (n ≤ 64 → n ≤ poolStacks n) ∧ (64 < n → poolStacks n = 64) ∧
    ∀ s ∈ [4, 8, 16, 32, 64], n ≤ s → poolStacks n ≤ s := by
  unfold poolStacks
  refine ⟨?_, ?_, ?_, ?_⟩
  · repeat' split
    all_goals simp
  · intro h
    repeat' split
    all_goals omega
  · intro h
    repeat' split
    all_goals omega
  · intro s hs hn
    simp only [List.mem_cons, List.not_mem_nil, or_false] at hs
    repeat' split
    all_goals omega

example : poolStacks 7 = 8 ∧ poolStacks 16 = 16 ∧ poolStacks 42 = 64 ∧ poolStacks 1 = 4 := by decide

/-! ## C61 -/

/-- For a pattern that converts, and a compiler that only fails for size and does so monotonically: the estimate is the
smallest limit from 1 on that suffices, or ten times the default limit if no smaller one does. -/
theorem C61_estimate_exact {lib : RegexLib V} {input p : Str} (hc : lib.convert input = .ok p)
    (hs : ∀ l e, lib.build p l = .error e → e = .tooComplex)
    (hm : ∀ l l', l ≤ l' → (∃ v, lib.build p l = .ok v) → ∃ v, lib.build p l' = .ok v) :
    ∃ r, lib.estimate input = .ok r ∧ 1 ≤ r ∧ r ≤ 10 * 1000000 ∧
      (∀ l, 1 ≤ l → l < r → lib.build p l = .error .tooComplex) ∧
      (r < 10 * 1000000 → ∃ v, lib.build p r = .ok v) := by
  unfold RegexLib.estimate
  rw [hc]
  exact bisect_spec hs hm _ 1 (10 * complexityLimit) (Nat.le_refl _) (by decide)

/-- The estimate is at most the default limit iff the pattern is accepted, unless it matches the empty text. -/
theorem C61_estimate_decides {lib : RegexLib V} {input p : Str} (hc : lib.convert input = .ok p)
    (hs : ∀ l e, lib.build p l = .error e → e = .tooComplex)
    (hm : ∀ l l', l ≤ l' → (∃ v, lib.build p l = .ok v) → ∃ v, lib.build p l' = .ok v)
    (hne : ∀ v, lib.build p 1000000 = .ok v → lib.matchesEmpty v = false) :
    (∃ v, lib.validate input = .ok v) ↔ ∃ r, lib.estimate input = .ok r ∧ r ≤ 1000000 := by
  obtain ⟨r, hr, h1, h2, h3, h4⟩ := C61_estimate_exact hc hs hm
  have hval : (∃ v, lib.validate input = .ok v) ↔ ∃ v, lib.build p 1000000 = .ok v := by
    unfold RegexLib.validate
    rw [hc]
    show (∃ v, (match lib.build p 1000000 with
      | .error e => .error e
      | .ok v => if lib.matchesEmpty v then .error .matchesEmptyString else .ok v) = Except.ok v) ↔ _
    cases hb : lib.build p 1000000 with
    | error e => exact ⟨fun ⟨v, hv⟩ => (by cases hv), fun ⟨v, hv⟩ => (by cases hv)⟩
    | ok v => exact ⟨fun _ => ⟨v, rfl⟩, fun _ => ⟨v, by dsimp only; rw [hne v hb]; rfl⟩⟩
  rw [hval]
  constructor
  · rintro ⟨v, hv⟩
    refine ⟨r, hr, ?_⟩
    by_cases hlt : 1000000 < r
    · rw [h3 1000000 (by omega) hlt] at hv
      cases hv
    · omega
  · rintro ⟨r', hr', hle⟩
    rw [hr] at hr'
    cases hr'
    exact hm r 1000000 hle (h4 (by omega))

/-- Non-vacuity: a compiler that needs 37. -/
def lib37 : RegexLib Unit := ⟨.ok, fun _ l => if 37 ≤ l then .ok () else .error .tooComplex, fun _ => false⟩
example : lib37.convert ['a'] = .ok ['a'] ∧ (∀ l e, lib37.build ['a'] l = .error e → e = .tooComplex) ∧
    (∀ l l', l ≤ l' → (∃ v, lib37.build ['a'] l = .ok v) → ∃ v, lib37.build ['a'] l' = .ok v) := by
  refine ⟨rfl, ?_, ?_⟩
  · intro l e h
    unfold lib37 at h
    dsimp only at h
    split at h
    · cases h
    · cases h; rfl
  · rintro l l' hl ⟨v, hv⟩
    refine ⟨(), ?_⟩
    unfold lib37 at hv ⊢
    dsimp only at hv ⊢
    split at hv
    · rw [if_pos (by omega)]
    · cases hv

end Sds.Props
