import Verif.Lemmas.BuildingInv
import Verif.Model.PatternCheck

/-! # C93: scanners built in one process

`BuildReach E A s`: `s` is a state of a process in which any number of scanners, with lists of rules in `A`, are built, used and
dropped at the same time, and share one regex store. -/

namespace Sds.Props
open Sds.Spec Sds.Re

variable {V : Type} {E : Factories V} {A A' : List RuleCfg → Prop}

/-- C93: a scanner has the regexes that its own rules and keywords say, at their places, and an error is that of its first faulty
rule; if no pattern of a rule is a text made of keywords, in the whole process. -/
theorem C93_as_configured_partial (hc : NoClash E A) : AlwaysAsConfigured E A :=
  fun _ b _ hr hb ho => buildProg_run E b.rules (outcome_run hc hr hb ho)

/-- C93, the same everywhere: building the same rules in two processes, or twice in one, ends in the same way, with the same
regexes. -/
theorem C93_same_everywhere_partial (hc : NoClash E A) (hc' : NoClash E A') {s s' : Builders V} (hr : BuildReach E A s)
    (hr' : BuildReach E A' s') {b b' : Build} (hb : b ∈ s.builds) (hb' : b' ∈ s'.builds) (he : b.rules = b'.rules)
    {o o' : Except CreateErr (StoredScanner V)} (ho : Outcome s b o) (ho' : Outcome s' b' o') : o = o' := by
  have h1 := outcome_run hc hr hb ho
  have h2 := outcome_run hc' hr' hb' ho'
  rw [he, h2] at h1
  cases h1
  rfl

/-- C93, until it is dropped: whatever is dropped elsewhere, a scanner that has been returned and has not been dropped has all of its
regexes. -/
theorem C93_keeps_regexes_partial (hc : NoClash E A) {s : Builders V} (hr : BuildReach E A s) {b : Build} (hb : b ∈ s.builds)
    {r : Except CreateErr (StoredScanner Nat)} (hp : b.pc = .returned r) : ∃ o, Outcome s b o :=
  returned_outcome hc hr hb hp

/-- C93, no panics: if the crate accepts the texts of keywords that its parser reads, building never panics. -/
theorem C93_no_panic (hk : ∀ p, (readRust p).isSome = true → (E.keyword p).isSome = true)
    {s : Builders V} (hr : BuildReach E A s) {b : Build} (hb : b ∈ s.builds) : b.pc ≠ .panicked := by
  intro hp
  obtain ⟨i, hi⟩ := List.getElem?_of_mem hb
  have h0 := (procInv hr).plain i b hi
  unfold PlainInv at h0
  rw [hp] at h0
  obtain ⟨p, ⟨r, _, k, _, c, q, hpq, ht⟩, hn⟩ := h0
  have hread : ∀ {la : Nat} {removed : Char → Bool} {kws : List Str}, TextsOf la removed kws c q →
      (readRust c).isSome = true ∧ (readRust q).isSome = true := by
    intro la removed kws ht
    obtain ⟨res, he, _, _, h3⟩ := C92_texts_read la removed kws
    rw [TextsOf, he] at ht
    obtain ⟨_, _, _, _, _, h⟩ := h3 c q (by cases ht; rfl)
    exact h
  have hcq := ht.elim hread hread
  have : (E.keyword p).isSome = true := by
    rcases hpq with rfl | rfl
    · exact hk _ hcq.1
    · exact hk _ hcq.2
  rw [hn] at this
  cases this

/-- C93, progress: while a call of `build` has not ended, it can go on, or a call of the store can (other builders and other scanners
never block it for good). -/
theorem C93_progress {s : Builders V} (hr : BuildReach E A s) {b : Build} (hb : b ∈ s.builds) (hu : Unfinished b) :
    ∃ s', BuildStep E A s s' ∧
      (s'.builds ≠ s.builds ∨ ∃ (j : Nat), Pending s.world j ∧ ∃ pc, s'.world.threads[j]? = some pc ∧ s.world.threads[j]? ≠ some pc) := by
  obtain ⟨i, hi⟩ := List.getElem?_of_mem hb
  have hlt : i < s.builds.length := (List.getElem?_eq_some_iff.mp hi).1
  have hne : ∀ {b' : Build}, b' ≠ b → s.builds.set i b' ≠ s.builds := by
    intro b' h e
    have h1 : (s.builds.set i b')[i]? = some b' := List.getElem?_set_self hlt
    rw [e, hi] at h1
    exact h (Option.some.inj h1).symm
  have hpl := (procInv hr).plain i b hi
  obtain ⟨rules, calls, pc⟩ := b
  cases pc with
  | running prog =>
    cases prog with
    | done r => exact ⟨_, .finish s i _ r hi rfl, .inl (hne fun h => by cases h)⟩
    | panic => exact ⟨_, .panic s i _ hi rfl, .inl (hne fun h => by cases h)⟩
    | ask kind p k => exact ⟨_, .ask s i _ kind p k hi rfl, .inl (hne fun h => by cases h)⟩
  | waiting c kind p k =>
    obtain ⟨_, _, pc, hpc, hpat⟩ := hpl
    have hpend : ∀ (_ : Pending s.world c), ∃ s', BuildStep E A s s' ∧ (s'.builds ≠ s.builds ∨
        ∃ (j : Nat), Pending s.world j ∧ ∃ pc, s'.world.threads[j]? = some pc ∧ s.world.threads[j]? ≠ some pc) := by
      intro hp
      have hreach : StoreReach (fun _ _ => True) s.world := by
        have := (procInv hr).world
        generalize s.world = w at this
        induction this with
        | init => exact .init
        | step _ hs ih =>
          refine .step ih ?_
          cases hs with
          | spawn q f _ => exact .spawn _ q f trivial
          | found i q f h ht h1 h2 => exact .found _ i q f h ht h1 h2
          | missing i q f ht h1 h2 => exact .missing _ i q f ht h1 h2
          | built i q f v ht h1 => exact .built _ i q f v ht h1
          | rejected i q f ht h1 => exact .rejected _ i q f ht h1
          | lock i q v ht h1 h2 => exact .lock _ i q v ht h1 h2
          | lockCollect i q v order ht h1 h2 h3 => exact .lockCollect _ i q v order ht h1 h2 h3
          | visit i q v x todo st ht h1 => exact .visit _ i q v x todo st ht h1
          | crash i q v x todo ht h1 => exact .crash _ i q v x todo ht h1
          | collected i q v ht => exact .collected _ i q v ht
          | reuse i q v h st ht h1 => exact .reuse _ i q v h st ht h1
          | store i q v h st slot ht h1 h2 => exact .store _ i q v h st slot ht h1 h2
          | drop i q h ht => exact .drop _ i q h ht
          | newCaches => exact .newCaches _
          | search i q h j c c' r ht h1 h2 => exact .search _ i q h j c c' r ht h1 h2
          | searchCrash i q h j c ht h1 h2 => exact .searchCrash _ i q h j c ht h1 h2
      obtain ⟨j, pc', w', hj, hst, hth, hdiff⟩ := C42_no_deadlock hreach hp
      have hjlt : j < s.world.threads.length := by
        obtain ⟨x, hx, _⟩ := hj
        exact (List.getElem?_eq_some_iff.mp hx).1
      refine ⟨_, .store s w' ⟨hst, by rw [hth, List.length_set], fun d q h hd => ?_⟩, .inr ⟨j, hj, pc', ?_, hdiff⟩⟩
      · rw [hth, List.getElem?_set_ne]
        · exact hd
        · rintro rfl
          obtain ⟨x, hx, hm⟩ := hj
          rw [hd] at hx
          cases hx
          exact hm
      · show w'.threads[j]? = _
        rw [hth]
        exact List.getElem?_set_self hjlt
    cases pc with
    | start q f => exact hpend ⟨_, hpc, trivial⟩
    | factory q f => exact hpend ⟨_, hpc, trivial⟩
    | waiting q v => exact hpend ⟨_, hpc, trivial⟩
    | collect q v todo => exact hpend ⟨_, hpc, trivial⟩
    | finish q v => exact hpend ⟨_, hpc, trivial⟩
    | holds q h =>
      have hq : q = p := hpat
      subst hq
      exact ⟨_, .answer s i _ c kind _ k h hi rfl hpc, .inl (hne fun h => by cases h)⟩
    | failed q =>
      obtain ⟨rfl, hf⟩ := hpat
      cases kind with
      | keyword => exact ⟨_, .crash s i _ c _ k hi rfl hpc, .inl (hne fun h => by cases h)⟩
      | rule =>
        simp only [Factories.of] at hf
        cases he : E.rule q with
        | ok v => rw [he] at hf; cases hf
        | error e => exact ⟨_, .refuse s i _ c _ k e hi rfl hpc he, .inl (hne fun h => by cases h)⟩
    | done => exact absurd hpat id
  | returned r => exact absurd hu id
  | panicked => exact absurd hu id
  | dropped => exact absurd hu id

/-! ## A schedule for the examples

One call of `build` is run to its end, with the calls of the store that it makes. -/

/-- The next step of a call of the store (without a collection, and into a new slot). -/
def callStep (w : World V) (i : Nat) : Option (World V) :=
  match w.threads[i]? with
  | some (.start p f) =>
    if w.lock = none then
      match w.store.get w.alive p with
      | some h => some { w with threads := w.threads.set i (.holds p h) }
      | none => some { w with threads := w.threads.set i (.factory p f) }
    else none
  | some (.factory p f) =>
    match f p with
    | some v => some { w with threads := w.threads.set i (.waiting p v) }
    | none => some { w with threads := w.threads.set i (.failed p) }
  | some (.waiting p v) =>
    if w.lock = none ∧ w.store.counter + 1 < gcFrequency then
      some { w with
        store := { w.store with counter := w.store.counter + 1 }
        threads := w.threads.set i (.finish p v), lock := some i, log := .insert :: w.log }
    else none
  | some (.finish p v) =>
    match w.store.insertNew w.alive p w.regs.length w.store.slots.length with
    | (st, h, true) => some { w with
        store := st, regs := w.regs ++ [(p, v)]
        threads := w.threads.set i (.holds p h), lock := none, log := .added p :: w.log }
    | _ => none
  | _ => none

private theorem kept_set {l : List (Pc V)} {i : Nat} {pc0 pc1 : Pc V} (h0 : l[i]? = some pc0) (hn : ∀ p h, pc0 ≠ .holds p h)
    (c : Nat) (p : Str) (h : Handle) (hc : l[c]? = some (.holds p h)) : (l.set i pc1)[c]? = some (.holds p h) := by
  rw [List.getElem?_set_ne]
  · exact hc
  · rintro rfl
    rw [h0] at hc
    exact hn p h (Option.some.inj hc)

theorem callStep_internal {w w' : World V} {i : Nat} (h : callStep w i = some w') : Internal w w' := by
  unfold callStep at h
  split at h
  · rename_i p f ht
    split at h
    · rename_i hl
      split at h
      · rename_i hd hg
        cases h
        exact ⟨.found w i p f hd ht hl hg, List.length_set, kept_set ht (fun _ _ e => by cases e)⟩
      · rename_i hg
        cases h
        exact ⟨.missing w i p f ht hl hg, List.length_set, kept_set ht (fun _ _ e => by cases e)⟩
    · cases h
  · rename_i p f ht
    split at h
    · rename_i v hf
      cases h
      exact ⟨.built w i p f v ht hf, List.length_set, kept_set ht (fun _ _ e => by cases e)⟩
    · rename_i hf
      cases h
      exact ⟨.rejected w i p f ht hf, List.length_set, kept_set ht (fun _ _ e => by cases e)⟩
  · rename_i p v ht
    split at h
    · rename_i hl
      cases h
      exact ⟨.lock w i p v ht hl.1 hl.2, List.length_set, kept_set ht (fun _ _ e => by cases e)⟩
    · cases h
  · rename_i p v ht
    split at h
    · rename_i st hd he
      cases h
      exact ⟨.store w i p v hd st _ ht (.inr rfl) he, List.length_set, kept_set ht (fun _ _ e => by cases e)⟩
    · cases h
  · cases h

/-- The next step of a call of `build`, or of the call of the store that it waits for. -/
def buildStep (E : Factories V) (s : Builders V) (i : Nat) : Option (Builders V) :=
  match s.builds[i]? with
  | some b =>
    match b.pc with
    | .running (.ask kind p k) =>
      some ⟨{ s.world with threads := s.world.threads ++ [Pc.start p (E.of kind)] },
        s.builds.set i { b with calls := s.world.threads.length :: b.calls, pc := .waiting s.world.threads.length kind p k }⟩
    | .running (.done r) => some { s with builds := s.builds.set i { b with pc := .returned r } }
    | .waiting c kind p k =>
      match s.world.threads[c]? with
      | some (.holds q _) => if q = p then some { s with builds := s.builds.set i { b with pc := .running (k c) } } else none
      | some (.failed q) =>
        match kind, E.rule p with
        | .rule, .error e =>
          if q = p then some { s with builds := s.builds.set i { b with pc := .returned (.error (.invalidRegex e)) } } else none
        | _, _ => none
      | _ => (callStep s.world c).map fun w' => { s with world := w' }
    | _ => none
  | none => none

theorem buildStep_step {s s' : Builders V} {i : Nat} (h : buildStep E s i = some s') : BuildStep E A s s' := by
  unfold buildStep at h
  split at h
  · rename_i b hb
    split at h
    · rename_i kind p k hp
      cases h
      exact .ask s i b kind p k hb hp
    · rename_i r hp
      cases h
      exact .finish s i b r hb hp
    · rename_i c kind p k hp
      split at h
      · rename_i q hd ht
        split at h
        · rename_i hq
          subst hq
          cases h
          exact .answer s i b c kind q k hd hb hp ht
        · cases h
      · rename_i q ht
        split at h
        · rename_i e he
          split at h
          · rename_i hq
            subst hq
            cases h
            exact .refuse s i b c q k e hb hp ht he
          · cases h
        · cases h
      · obtain ⟨w', hw, rfl⟩ := Option.map_eq_some_iff.mp h
        exact .store s w' (callStep_internal hw)
    · cases h
  · cases h

/-- As many steps as possible, at most `n`. -/
def buildRun (E : Factories V) (i : Nat) : Nat → Builders V → Builders V
  | 0, s => s
  | n + 1, s =>
    match buildStep E s i with
    | some s' => buildRun E i n s'
    | none => s

theorem buildRun_reach (i : Nat) : ∀ (n : Nat) {s : Builders V}, BuildReach E A s → BuildReach E A (buildRun E i n s)
  | 0, _, h => h
  | n + 1, s, h => by
    rw [buildRun]
    split
    · rename_i s' hs
      exact buildRun_reach i n (.step h (buildStep_step hs))
    · exact h

/-- `build` is called. -/
def buildNew (rules : List RuleCfg) (s : Builders V) : Builders V :=
  { s with builds := s.builds ++ [⟨rules, [], .running (buildProg rules)⟩] }

/-! ## What goes wrong

A regex is represented by whether it ignores case. -/

/-- The factories, with the parser and the conversion of the library; the crate builds everything that its parser reads. -/
def sampleFactories : Factories Bool where
  rule p :=
    match validatePattern (fun _ _ => Except.ok false) (fun _ => false) p with
    | .ok r => r
    | _ => .error .invalidSyntax
  keyword p := if (readRust p).isSome then some true else none

/-- A rule with the keyword `id`. -/
def idRules : List RuleCfg := [⟨"[0-9]+".toList, .redact ['*'], some ⟨30, ["id".toList], []⟩, none⟩]
/-- A rule whose pattern is the text that is made of the keyword `id`; the parser of the library refuses it. -/
def boundaryRules : List RuleCfg := [⟨"(?-u:\\b)id(?-u:\\b)".toList, .redact ['*'], none, none⟩]

/-- Both are used in one process. -/
def idProcess : List RuleCfg → Prop := fun rs => rs = idRules ∨ rs = boundaryRules

/-- The second rule alone. -/
def aloneState : Builders Bool := buildRun sampleFactories 0 20 (buildNew boundaryRules (.init Bool))
/-- The second rule, while the scanner with the first one is alive. -/
def togetherState : Builders Bool :=
  buildRun sampleFactories 1 20 (buildNew boundaryRules (buildRun sampleFactories 0 40 (buildNew idRules (.init Bool))))

theorem aloneState_reach : BuildReach sampleFactories idProcess aloneState :=
  buildRun_reach 0 20 (.step .init (.create _ boundaryRules (.inr rfl)))

theorem togetherState_reach : BuildReach sampleFactories idProcess togetherState :=
  buildRun_reach 1 20 (.step (buildRun_reach 0 40 (.step .init (.create _ idRules (.inl rfl)))) (.create _ boundaryRules (.inr rfl)))

/-- How a call of `build` in a state has ended. -/
def outcomeOf (s : Builders Bool) (i : Nat) : Option (CreateErr ⊕ StoredScanner (Option Bool)) :=
  match s.builds[i]? with
  | some ⟨_, _, .returned (.error e)⟩ => some (.inl e)
  | some ⟨_, _, .returned (.ok sc)⟩ => some (.inr (sc.map (regexOfCall s.world)))
  | _ => none

/-- A scanner with one rule. -/
def oneRule {H : Type} (regex : H) (included : Option (H × H)) : StoredScanner H :=
  ⟨[⟨0, regex, .redact ['*'], included, none, none, none⟩], [], false⟩

/-- Alone, the rule is refused. -/
theorem alone_refused : outcomeOf aloneState 0 = some (.inl (.invalidRegex .invalidSyntax)) := by decide +kernel

/-- Together with the other scanner, it is accepted, and has the regex of the keyword. -/
theorem together_accepted : outcomeOf togetherState 1 = some (.inr ((oneRule true none).map some)) := by decide +kernel

private theorem outcomeOf_ok {s : Builders Bool} {i : Nat} {t : StoredScanner Bool} (h : outcomeOf s i = some (.inr (t.map some))) :
    ∃ b, s.builds[i]? = some b ∧ Outcome s b (.ok t) := by
  unfold outcomeOf at h
  split at h
  · cases h
  · rename_i rules calls sc he
    injection h with h
    injection h with h
    exact ⟨_, he, sc, rfl, h⟩
  · cases h

private theorem outcomeOf_error {s : Builders Bool} {i : Nat} {e : CreateErr} (h : outcomeOf s i = some (.inl e)) :
    ∃ b, s.builds[i]? = some b ∧ Outcome s b (.error e) := by
  unfold outcomeOf at h
  split at h
  · rename_i rules calls e' he
    injection h with h
    injection h with h
    subst h
    exact ⟨_, he, rfl⟩
  · cases h
  · cases h

/-- The claim fails: a pattern that the parser of the library refuses is accepted while a scanner is alive whose keywords are made
into the same text, and the rule gets the regex of the keywords, which ignores case. -/
theorem C93_depends_on_others : ¬ AlwaysAsConfigured sampleFactories idProcess := by
  intro h
  obtain ⟨b, hb, ho⟩ := outcomeOf_ok together_accepted
  have hbr : b.rules = boundaryRules := by
    have : (togetherState.builds[1]?).map (·.rules) = some boundaryRules := by decide +kernel
    rw [hb] at this
    exact Option.some.inj this
  obtain ⟨hv, _⟩ := h _ b _ togetherState_reach (List.mem_of_getElem? hb) ho
  rw [hbr] at hv
  obtain ⟨⟨v, hp⟩, _⟩ := hv _ List.mem_cons_self
  have hp' : (match sampleFactories.rule "(?-u:\\b)id(?-u:\\b)".toList with | .ok _ => true | .error _ => false) = true := by
    rw [show "(?-u:\\b)id(?-u:\\b)".toList = (⟨"(?-u:\\b)id(?-u:\\b)".toList, .redact ['*'], none, none⟩ : RuleCfg).pattern from rfl, hp]
  revert hp'
  decide +kernel

/-- The same rules end in two ways in one process. -/
theorem C93_two_outcomes : ∃ (s s' : Builders Bool) (b b' : Build) (e : CreateErr) (t : StoredScanner Bool),
    BuildReach sampleFactories idProcess s ∧ BuildReach sampleFactories idProcess s' ∧ b ∈ s.builds ∧ b' ∈ s'.builds ∧
    b.rules = b'.rules ∧ Outcome s b (.error e) ∧ Outcome s' b' (.ok t) := by
  obtain ⟨b, hb, ho⟩ := outcomeOf_error alone_refused
  obtain ⟨b', hb', ho'⟩ := outcomeOf_ok together_accepted
  refine ⟨_, _, b, b', _, _, aloneState_reach, togetherState_reach, List.mem_of_getElem? hb, List.mem_of_getElem? hb', ?_, ho, ho'⟩
  have h1 : (aloneState.builds[0]?).map (·.rules) = some boundaryRules := by decide +kernel
  have h2 : (togetherState.builds[1]?).map (·.rules) = some boundaryRules := by decide +kernel
  rw [hb] at h1
  rw [hb'] at h2
  exact (Option.some.inj h1).trans (Option.some.inj h2).symm

/-- The other way round: while a scanner with the rule `été` is alive, the keyword `été` gets the regex of the rule, which respects
case (`false`), for content and for paths. -/
def eteRules : List RuleCfg := [⟨"été".toList, .redact ['*'], none, none⟩]
def eteKeyword : List RuleCfg := [⟨"[0-9]+".toList, .redact ['*'], some ⟨30, ["été".toList], []⟩, none⟩]

example : outcomeOf (buildRun sampleFactories 0 40 (buildNew eteKeyword (.init Bool))) 0 =
    some (.inr ((oneRule false (some (true, true))).map some)) := by decide +kernel

example : outcomeOf
    (buildRun sampleFactories 1 40 (buildNew eteKeyword (buildRun sampleFactories 0 20 (buildNew eteRules (.init Bool))))) 1 =
    some (.inr ((oneRule false (some (false, false))).map some)) := by decide +kernel

/-- Non-vacuity: two scanners with keywords and the same pattern, one after the other, with no clash of texts; the second one shares the
regexes of the first one. -/
def twiceState : Builders Bool :=
  buildRun sampleFactories 1 40 (buildNew idRules (buildRun sampleFactories 0 40 (buildNew idRules (.init Bool))))

example : NoClash sampleFactories (fun rs => rs = idRules) ∧ BuildReach sampleFactories (fun rs => rs = idRules) twiceState ∧
    outcomeOf twiceState 1 = some (.inr ((oneRule false (some (true, true))).map some)) ∧ twiceState.world.regs.length = 2 := by
  refine ⟨?_, buildRun_reach 1 40 (.step (buildRun_reach 0 40 (.step .init (.create _ idRules rfl))) (.create _ idRules rfl)), by decide +kernel, by decide +kernel⟩
  rintro p ⟨_, rfl, r, hr, rfl⟩ ⟨_, rfl, r', hr', k, hk, c, q, hpq, ht⟩
  exfalso
  rw [List.mem_singleton.mp hr] at hpq
  rw [List.mem_singleton.mp hr'] at hk
  cases hk
  have hc : ∀ {x y : Str}, TextsOf 30 (fun _ => false) ["id".toList] x y → ("[0-9]+".toList = x ∨ "[0-9]+".toList = y) → False := by
    intro x y h hxy
    have e : keywordTexts 30 (fun _ => false) ["id".toList] =
        .ok (.ok (some ("(?-u:\\b)id(?-u:\\b)".toList, "(?-u:\\b)id(?-u:\\b)".toList))) := by rfl
    rw [TextsOf, e] at h
    cases h
    revert hxy
    decide
  rcases ht with ht | ht
  · exact hc ht hpq
  · have e : keywordTexts 30 isStripped [] = .ok (.ok none) := by rfl
    rw [TextsOf, show (KwConfig.mk 30 ["id".toList] []).excluded = [] from rfl, e] at ht
    cases ht

/-- Non-vacuity of the other theorems: the factories accept all texts that the crate reads. -/
example : ∀ p, (readRust p).isSome = true → (sampleFactories.keyword p).isSome = true := by
  intro p h
  show (if (readRust p).isSome then some true else none).isSome = true
  rw [if_pos h]
  rfl

end Sds.Props
