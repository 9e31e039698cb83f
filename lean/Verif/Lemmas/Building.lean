import Verif.Spec.Building
import Verif.Props.Store
import Verif.Props.Builder
import Verif.Props.KeywordRegex

/-! # Lemmas for scanners built through the store -/

namespace Sds
open Spec Props

variable {V H K α β γ δ : Type}

/-! ## Programs -/

/-- The rest of a program after some answers. -/
def Prog.resume : Prog H α → List H → Prog H α
  | p, [] => p
  | .ask _ _ k, h :: hs => (k h).resume hs
  | p, _ :: _ => p

/-- A program run with the factories alone. -/
def Prog.run (E : Factories V) : Prog V α → Res (Except CreateErr α)
  | .done r => .ok r
  | .ask .rule p k =>
    match E.rule p with
    | .ok v => (k v).run E
    | .error e => .ok (.error (.invalidRegex e))
  | .ask .keyword p k =>
    match E.keyword p with
    | some v => (k v).run E
    | none => .panic
  | .panic => .panic

/-- The second program does the same with the images of the answers. -/
inductive Prog.Image (f : H → K) (g : α → β) : Prog H α → Prog K β → Prop where
  | ok (a) : Image f g (.done (.ok a)) (.done (.ok (g a)))
  | error (e) : Image f g (.done (.error e)) (.done (.error e))
  | ask (kind p k k') : (∀ h, Image f g (k h) (k' (f h))) → Image f g (.ask kind p k) (.ask kind p k')
  | panic : Image f g .panic .panic

/-- All requests of a program, which does not panic by itself. -/
inductive Prog.Only (Q : AskKind → Str → Prop) : Prog H α → Prop where
  | done (r) : Only Q (.done r)
  | ask (kind p k) : Q kind p → (∀ h, Only Q (k h)) → Only Q (.ask kind p k)

theorem Prog.Image.bind {f : H → K} {g : α → β} {g' : γ → δ} {p : Prog H α} {q : Prog K β} {k : α → Prog H γ} {k' : β → Prog K δ}
    (h : Prog.Image f g p q) (hk : ∀ a, Prog.Image f g' (k a) (k' (g a))) : Prog.Image f g' (p.bind k) (q.bind k') := by
  induction h with
  | ok a => exact hk a
  | error e => exact .error e
  | ask kind p k k' _ ih => exact .ask _ _ _ _ ih
  | panic => exact .panic

theorem Prog.Image.resume {f : H → K} {g : α → β} {p : Prog H α} {q : Prog K β} (h : Prog.Image f g p q) :
    ∀ hs, Prog.Image f g (p.resume hs) (q.resume (hs.map f)) := by
  induction h with
  | ok a => intro hs; cases hs <;> exact .ok a
  | error e => intro hs; cases hs <;> exact .error e
  | ask kind p k k' hk ih =>
    intro hs
    cases hs with
    | nil => exact .ask _ _ _ _ hk
    | cons h hs => exact ih h hs
  | panic => intro hs; cases hs <;> exact .panic

theorem Prog.Only.bind {Q : AskKind → Str → Prop} {p : Prog H α} {k : α → Prog H β} (h : p.Only Q) (hk : ∀ a, (k a).Only Q) :
    (p.bind k).Only Q := by
  induction h with
  | done r =>
    cases r with
    | ok a => exact hk a
    | error e => exact .done _
  | ask kind p k hq _ ih => exact .ask _ _ _ hq ih

theorem Prog.Only.resume {Q : AskKind → Str → Prop} {p : Prog H α} (h : p.Only Q) : ∀ hs, (p.resume hs).Only Q := by
  induction h with
  | done r => intro hs; cases hs <;> exact .done r
  | ask kind p k hq hk ih =>
    intro hs
    cases hs with
    | nil => exact .ask _ _ _ hq hk
    | cons h hs => exact ih h hs

theorem Prog.Only.mono {Q Q' : AskKind → Str → Prop} (hQ : ∀ k p, Q k p → Q' k p) {p : Prog H α} (h : p.Only Q) : p.Only Q' := by
  induction h with
  | done r => exact .done r
  | ask kind p k hq _ ih => exact .ask _ _ _ (hQ _ _ hq) ih

theorem Prog.resume_append (p : Prog H α) (hs : List H) (h : H) {kind : AskKind} {t : Str} {k : H → Prog H α}
    (he : p.resume hs = .ask kind t k) : p.resume (hs ++ [h]) = k h := by
  induction hs generalizing p with
  | nil =>
    have he : p = .ask kind t k := by cases p <;> exact he
    subst he
    show (k h).resume [] = k h
    cases k h <;> rfl
  | cons x hs ih =>
    cases p with
    | done r => cases he
    | panic => cases he
    | ask kd t' k' => exact ih (k' x) he

theorem Prog.run_bind (E : Factories V) (p : Prog V α) (k : α → Prog V β) :
    (p.bind k).run E = match p.run E with
      | .ok (.ok a) => (k a).run E
      | .ok (.error e) => .ok (.error e)
      | .panic => .panic
      | .hang => .hang := by
  induction p with
  | done r => cases r <;> rfl
  | panic => rfl
  | ask kind p k' ih =>
    cases kind with
    | rule =>
      simp only [Prog.bind, Prog.run]
      cases E.rule p with
      | ok v => exact ih v
      | error e => rfl
    | keyword =>
      simp only [Prog.bind, Prog.run]
      cases E.keyword p with
      | some v => exact ih v
      | none => rfl

/-! ## The program of `build` treats all answers alike -/

theorem keywordProg_image (f : H → K) (la : Nat) (removed : Char → Bool) (kws : List Str) :
    Prog.Image f (Option.map fun x : H × H => (f x.1, f x.2)) (keywordProg la removed kws) (keywordProg la removed kws) := by
  unfold keywordProg
  split
  · exact .error _
  · exact .ok none
  · exact .ask _ _ _ _ fun a => .ask _ _ _ _ fun b => .ok (some (a, b))
  · exact .panic

theorem keywordsProg_image (f : H → K) (c : Option KwConfig) :
    Prog.Image f
      (fun x : Option (H × H) × Option (H × H) => (x.1.map fun y => (f y.1, f y.2), x.2.map fun y => (f y.1, f y.2)))
      (keywordsProg c) (keywordsProg c) := by
  cases c with
  | none => exact .ok (none, none)
  | some c =>
    simp only [keywordsProg]
    split
    · exact .error _
    · split
      · exact .error _
      · refine (keywordProg_image f _ _ _).bind fun inc => ?_
        exact (keywordProg_image f _ _ _).bind fun exc => .ok (inc, exc)

theorem ruleProg_image (f : H → K) (r : RuleCfg) (i : Nat) : Prog.Image f (StoredRule.map f) (ruleProg r i) (ruleProg r i) := by
  refine .ask _ _ _ _ fun h => ?_
  by_cases ha : r.action.validate = true
  · rw [if_pos ha, if_pos ha]
    refine (keywordsProg_image f r.keywords).bind fun ks => ?_
    exact .ok (⟨i, h, r.action, ks.1, ks.2, r.vtype, r.vtype.map VType.itype⟩ : StoredRule H)
  · rw [if_neg ha, if_neg ha]
    exact .error _

theorem rulesProg_image (f : H → K) : ∀ (rs : List RuleCfg) (i : Nat),
    Prog.Image f (List.map (StoredRule.map f)) (rulesProg rs i) (rulesProg rs i)
  | [], _ => .ok []
  | r :: rs, i => (ruleProg_image f r i).bind fun b => (rulesProg_image f rs (i + 1)).bind fun bs => .ok (b :: bs)

theorem buildProg_image (f : H → K) (rules : List RuleCfg) :
    Prog.Image f (StoredScanner.map f) (buildProg rules) (buildProg rules) := by
  unfold buildProg
  split
  · exact .error _
  · exact (rulesProg_image f rules 0).bind fun bs => .ok (⟨bs, _, _⟩ : StoredScanner H)

/-! ## What it asks for -/

/-- The request is for a rule among these. -/
def AskedBy (rules : List RuleCfg) : AskKind → Str → Prop
  | .rule, p => ∃ r ∈ rules, r.pattern = p
  | .keyword, p => ∃ r ∈ rules, ∃ k, r.keywords = some k ∧ ∃ c q, (p = c ∨ p = q) ∧
    (TextsOf k.lookAhead (fun _ => false) k.included c q ∨ TextsOf k.lookAhead isStripped k.excluded c q)

theorem AskedBy.mono {rules rules' : List RuleCfg} (hs : ∀ r ∈ rules, r ∈ rules') (kind : AskKind) (p : Str) :
    AskedBy rules kind p → AskedBy rules' kind p := by
  cases kind with
  | rule => rintro ⟨r, hr, h⟩; exact ⟨r, hs r hr, h⟩
  | keyword => rintro ⟨r, hr, h⟩; exact ⟨r, hs r hr, h⟩

theorem keywordProg_only {Q : AskKind → Str → Prop} {la : Nat} {removed : Char → Bool} {kws : List Str}
    (h : ∀ c q, TextsOf la removed kws c q → Q .keyword c ∧ Q .keyword q) :
    (keywordProg (H := H) la removed kws).Only Q := by
  obtain ⟨res, he, _⟩ := C92_texts_read la removed kws
  unfold keywordProg
  rw [he]
  cases res with
  | error e => exact .done _
  | ok o => cases o with
    | none => exact .done _
    | some cq =>
      obtain ⟨c, p⟩ := cq
      exact .ask _ _ _ (h c p he).1 fun a => .ask _ _ _ (h c p he).2 fun b => .done _

theorem ruleProg_only (r : RuleCfg) (i : Nat) : (ruleProg (H := H) r i).Only (AskedBy [r]) := by
  refine .ask _ _ _ ⟨r, List.mem_cons_self, rfl⟩ fun h => ?_
  split
  · refine Prog.Only.bind ?_ fun ks => .done _
    cases hk : r.keywords with
    | none => exact .done _
    | some c =>
      simp only [keywordsProg]
      split
      · exact .done _
      · split
        · exact .done _
        · refine Prog.Only.bind (keywordProg_only fun a b h => ?_) fun inc =>
            Prog.Only.bind (keywordProg_only fun a b h => ?_) fun exc => .done _
          · exact ⟨⟨r, List.mem_cons_self, c, hk, a, b, .inl rfl, .inl h⟩, ⟨r, List.mem_cons_self, c, hk, a, b, .inr rfl, .inl h⟩⟩
          · exact ⟨⟨r, List.mem_cons_self, c, hk, a, b, .inl rfl, .inr h⟩, ⟨r, List.mem_cons_self, c, hk, a, b, .inr rfl, .inr h⟩⟩
  · exact .done _

theorem rulesProg_only : ∀ (rs : List RuleCfg) (i : Nat), (rulesProg (H := H) rs i).Only (AskedBy rs)
  | [], _ => .done _
  | r :: rs, i => by
    refine Prog.Only.bind ((ruleProg_only r i).mono (AskedBy.mono ?_)) fun b =>
      Prog.Only.bind ((rulesProg_only rs (i + 1)).mono (AskedBy.mono ?_)) fun bs => .done _
    · intro x hx
      rw [List.mem_singleton.mp hx]
      exact List.mem_cons_self
    · intro x hx
      exact List.mem_cons_of_mem _ hx

theorem buildProg_only (rules : List RuleCfg) : (buildProg (H := H) rules).Only (AskedBy rules) := by
  unfold buildProg
  split
  · exact .done _
  · exact (rulesProg_only rules 0).bind fun bs => .done _

/-! ## What it gives with the factories alone -/

theorem keywordProg_run (E : Factories V) (la : Nat) (removed : Char → Bool) (kws : List Str) :
    (∃ e, compileKeywords la removed kws = .error e ∧ (keywordProg la removed kws).run E = .ok (.error (.invalidKeywords e))) ∨
    (∃ x, compileKeywords la removed kws = .ok x ∧
      ((keywordProg la removed kws).run E = .panic ∨
        ∃ o, (keywordProg la removed kws).run E = .ok (.ok o) ∧ KeywordRegexes E la removed kws o)) := by
  obtain ⟨res, he, h1, h2, h3⟩ := C92_texts_read la removed kws
  unfold keywordProg
  rw [he]
  cases res with
  | error e => exact .inl ⟨e, (h1 e).mp rfl, rfl⟩
  | ok o =>
    have hc : ∃ x, compileKeywords la removed kws = .ok x := by
      cases hc : compileKeywords la removed kws with
      | ok x => exact ⟨x, rfl⟩
      | error e => have := (h1 e).mpr hc; cases this
    obtain ⟨x, hx⟩ := hc
    refine .inr ⟨x, hx, ?_⟩
    cases o with
    | none => exact .inr ⟨none, rfl, .inl ⟨h2.mp rfl, rfl⟩⟩
    | some cq =>
      obtain ⟨c, q⟩ := cq
      simp only [Prog.run]
      cases hcv : E.keyword c with
      | none => exact .inl rfl
      | some a =>
        simp only
        cases hqv : E.keyword q with
        | none => exact .inl rfl
        | some b => exact .inr ⟨_, rfl, .inr ⟨c, q, a, b, he, hcv, hqv, rfl⟩⟩

theorem keywordsProg_run (E : Factories V) (c : KwConfig) :
    (∃ e, compileConfig c = .error e ∧ (keywordsProg (some c)).run E = .ok (.error (.invalidKeywords e))) ∨
    (keywordsProg (some c)).run E = .panic ∨
    (∃ x o, compileConfig c = .ok x ∧ (keywordsProg (some c)).run E = .ok (.ok o) ∧
      KeywordRegexes E c.lookAhead (fun _ => false) c.included o.1 ∧ KeywordRegexes E c.lookAhead isStripped c.excluded o.2) := by
  simp only [keywordsProg, compileConfig]
  by_cases h1 : c.lookAhead = 0 ∨ c.lookAhead > 50
  · rw [if_pos h1, if_pos h1]
    exact .inl ⟨_, rfl, rfl⟩
  rw [if_neg h1, if_neg h1]
  by_cases h2 : c.included.length > 50 ∨ c.excluded.length > 50
  · rw [if_pos h2, if_pos h2]
    exact .inl ⟨_, rfl, rfl⟩
  rw [if_neg h2, if_neg h2, Prog.run_bind]
  rcases keywordProg_run E c.lookAhead (fun _ => false) c.included with ⟨e, he, hr⟩ | ⟨x, hx, hr | ⟨o, hr, ho⟩⟩
  · rw [he, hr]
    exact .inl ⟨e, rfl, rfl⟩
  · rw [hr]
    exact .inr (.inl rfl)
  · rw [hx, hr]
    simp only [Prog.run_bind]
    rcases keywordProg_run E c.lookAhead isStripped c.excluded with ⟨e, he, hr⟩ | ⟨x', hx', hr | ⟨o', hr, ho'⟩⟩
    · rw [he, hr]
      exact .inl ⟨e, rfl, rfl⟩
    · rw [hr]
      exact .inr (.inl rfl)
    · rw [hx', hr]
      exact .inr (.inr ⟨_, _, rfl, rfl, ho, ho'⟩)

theorem ruleProg_run (E : Factories V) (r : RuleCfg) (i : Nat) :
    (∃ e, (ruleProg r i).run E = .ok (.error e) ∧ Faulty E.rule r e) ∨
    (ruleProg r i).run E = .panic ∨
    (∃ b, (ruleProg r i).run E = .ok (.ok b) ∧ ValidRule E.rule r ∧ CompiledFrom E i r b) := by
  simp only [ruleProg, Prog.run]
  cases hp : E.rule r.pattern with
  | error e => exact .inl ⟨_, rfl, .regex hp⟩
  | ok v =>
    simp only
    cases ha : r.action.validate with
    | false =>
      exact .inl ⟨_, rfl, .action hp ((validate_iff _).mp ha)⟩
    | true =>
      have hb : ¬ BadAction r.action := fun h => by
        rw [(validate_iff _).mpr h] at ha
        cases ha
      rw [if_pos rfl, Prog.run_bind]
      cases hk : r.keywords with
      | none =>
        refine .inr (.inr ⟨_, rfl, ⟨⟨v, hp⟩, hb, fun c hc => ?_⟩, rfl, hp, rfl, rfl, rfl, fun _ => ⟨rfl, rfl⟩, fun c hc => ?_, fun c hc => ?_⟩)
        all_goals (rw [hk] at hc; cases hc)
      | some c =>
        rcases keywordsProg_run E c with ⟨e, he, hr⟩ | hr | ⟨x, o, hx, hr, h1, h2⟩
        · rw [hr]
          exact .inl ⟨_, rfl, .keywords hp hb hk ((C28_first_error c e).mp he)⟩
        · rw [hr]
          exact .inr (.inl rfl)
        · rw [hr]
          refine .inr (.inr ⟨_, rfl, ⟨⟨v, hp⟩, hb, fun c' hc => ?_⟩, rfl, hp, rfl, rfl, rfl, fun hc => ?_, fun c' hc => ?_, fun c' hc => ?_⟩)
          · rw [hk] at hc
            cases hc
            exact (C28_accepted_iff c).mp ⟨x, hx⟩
          · rw [hk] at hc
            cases hc
          · rw [hk] at hc
            cases hc
            exact h1
          · rw [hk] at hc
            cases hc
            exact h2

theorem rulesProg_run (E : Factories V) : ∀ (rules : List RuleCfg) (i : Nat),
    (∃ e l r rs, (rulesProg rules i).run E = .ok (.error e) ∧ rules = l ++ r :: rs ∧ (∀ x ∈ l, ValidRule E.rule x) ∧ Faulty E.rule r e) ∨
    (rulesProg rules i).run E = .panic ∨
    (∃ bs, (rulesProg rules i).run E = .ok (.ok bs) ∧ (∀ r ∈ rules, ValidRule E.rule r) ∧ bs.length = rules.length ∧
      ∀ j b, bs[j]? = some b → ∃ r, rules[j]? = some r ∧ CompiledFrom E (i + j) r b)
  | [], i => .inr (.inr ⟨[], rfl, by simp, rfl, by simp⟩)
  | r :: rs, i => by
    simp only [rulesProg, Prog.run_bind]
    rcases ruleProg_run E r i with ⟨e, hr, hf⟩ | hr | ⟨b, hr, hv, hm⟩
    · rw [hr]
      exact .inl ⟨e, [], r, rs, rfl, rfl, by simp, hf⟩
    · rw [hr]
      exact .inr (.inl rfl)
    · rw [hr]
      simp only
      rcases rulesProg_run E rs (i + 1) with ⟨e, l, r', rs', hr', hl, hv', hf⟩ | hr' | ⟨bs, hr', hv', hlen, hget⟩
      · rw [hr']
        refine .inl ⟨e, r :: l, r', rs', rfl, by rw [hl]; rfl, fun x hx => ?_, hf⟩
        rcases List.mem_cons.mp hx with rfl | hx
        · exact hv
        · exact hv' x hx
      · rw [hr']
        exact .inr (.inl rfl)
      · rw [hr']
        refine .inr (.inr ⟨b :: bs, rfl, fun x hx => ?_, by simp [hlen], fun j b' hb => ?_⟩)
        · rcases List.mem_cons.mp hx with rfl | hx
          · exact hv
          · exact hv' x hx
        · cases j with
          | zero =>
            cases hb
            exact ⟨r, rfl, hm⟩
          | succ j =>
            obtain ⟨r', h1, h2⟩ := hget j b' hb
            exact ⟨r', h1, by rw [show i + (j + 1) = i + 1 + j by omega]; exact h2⟩

theorem buildProg_run (E : Factories V) (rules : List RuleCfg) {o : Except CreateErr (StoredScanner V)}
    (h : (buildProg rules).run E = .ok o) : AsConfigured E rules o := by
  obtain ⟨vs, hvs, _⟩ := buildValidators_spec (rules.map (·.vtype)) [] false (by intro h; exact absurd rfl h)
  unfold buildProg at h
  rw [hvs] at h
  simp only [Prog.run_bind] at h
  rcases rulesProg_run E rules 0 with ⟨e, l, r, rs, hr, hl, hv, hf⟩ | hr | ⟨bs, hr, hv, hlen, hget⟩
  · rw [hr] at h
    cases h
    exact ⟨l, r, rs, hl, hv, hf⟩
  · rw [hr] at h
    cases h
  · rw [hr] at h
    cases h
    refine ⟨hv, hlen, ?_, fun i b hb => ?_⟩
    · simp only [Bool.false_or, List.any_eq_true, List.mem_map, Option.any_eq_true]
      constructor
      · rintro ⟨_, ⟨r, hr, rfl⟩, v, h1, h2⟩
        exact ⟨r, hr, v, h1, h2⟩
      · rintro ⟨r, hr, v, h1, h2⟩
        exact ⟨_, ⟨r, hr, rfl⟩, v, h1, h2⟩
    obtain ⟨r, h1, h2⟩ := hget i b hb
    exact ⟨r, h1, by rw [Nat.zero_add] at h2; exact h2⟩

/-! ## Steps of the store -/

/-- The call is one for the pattern `p` with the factory `f`. -/
def Pc.For (p : Str) (f : Str → Option V) : Pc V → Prop
  | .start q g => q = p ∧ g = f
  | .factory q g => q = p ∧ g = f
  | .waiting q _ => q = p
  | .collect q _ _ => q = p
  | .finish q _ => q = p
  | .holds q _ => q = p
  | .failed q => q = p ∧ f p = none
  | .done => False

private theorem for_set {l : List (Pc V)} {i c : Nat} {pc pc0 pc1 : Pc V} {p : Str} {f : Str → Option V} (h0 : l[i]? = some pc0)
    (he : pc0.For p f → pc1.For p f) (hc : l[c]? = some pc) (hp : pc.For p f) :
    ∃ pc', (l.set i pc1)[c]? = some pc' ∧ pc'.For p f := by
  by_cases hi : i = c
  · subst hi
    rw [h0] at hc
    cases hc
    exact ⟨pc1, List.getElem?_set_self (List.getElem?_eq_some_iff.mp h0).1, he hp⟩
  · exact ⟨pc, by rw [List.getElem?_set_ne hi]; exact hc, hp⟩

theorem internal_for {w w' : World V} (hs : Internal w w') {c : Nat} {pc : Pc V} {p : Str} {f : Str → Option V}
    (hc : w.threads[c]? = some pc) (hp : pc.For p f) : ∃ pc', w'.threads[c]? = some pc' ∧ pc'.For p f := by
  have hk := hs.kept
  have hl := hs.calls
  cases hs.step with
  | spawn q f _ => exact absurd hl (by simp)
  | found i q f h ht _ _ => exact for_set ht (pc1 := .holds q h) (fun h => h.1) hc hp
  | missing i q f ht _ _ => exact for_set ht (pc1 := .factory q f) id hc hp
  | built i q f v ht _ => exact for_set ht (pc1 := .waiting q v) (fun h => h.1) hc hp
  | rejected i q g ht hg => exact for_set ht (pc1 := .failed q) (fun h => ⟨h.1, by rw [← h.1, ← h.2]; exact hg⟩) hc hp
  | lock i q v ht _ _ => exact for_set ht (pc1 := .finish q v) id hc hp
  | lockCollect i q v order ht _ _ _ => exact for_set ht (pc1 := .collect q v order) id hc hp
  | visit i q v x todo st ht _ => exact for_set ht (pc1 := .collect q v todo) id hc hp
  | crash => exact ⟨pc, hc, hp⟩
  | collected i q v ht => exact for_set ht (pc1 := .finish q v) id hc hp
  | reuse i q v h st ht _ => exact for_set ht (pc1 := .holds q h) id hc hp
  | store i q v h st slot ht _ _ => exact for_set ht (pc1 := .holds q h) id hc hp
  | drop i q h ht =>
    have := hk i q h ht
    simp only [List.getElem?_set_self (List.getElem?_eq_some_iff.mp ht).1] at this
    cases this
  | newCaches => exact ⟨pc, hc, hp⟩
  | search => exact ⟨pc, hc, hp⟩
  | searchCrash => exact ⟨pc, hc, hp⟩

theorem step_regs {F : Str → (Str → Option V) → Prop} {w w' : World V} (hs : StoreStep F w w') : ∃ l, w'.regs = w.regs ++ l := by
  cases hs with
  | store i p v h st slot ht hf he => exact ⟨[(p, v)], rfl⟩
  | _ => exact ⟨[], (List.append_nil _).symm⟩

theorem internal_step {F : Str → (Str → Option V) → Prop} {w w' : World V} (hs : Internal w w') : StoreStep F w w' := by
  have hl := hs.calls
  cases hs.step with
  | spawn q f _ => exact absurd hl (by simp)
  | found i q f h ht h1 h2 => exact .found w i q f h ht h1 h2
  | missing i q f ht h1 h2 => exact .missing w i q f ht h1 h2
  | built i q f v ht h1 => exact .built w i q f v ht h1
  | rejected i q f ht h1 => exact .rejected w i q f ht h1
  | lock i q v ht h1 h2 => exact .lock w i q v ht h1 h2
  | lockCollect i q v order ht h1 h2 h3 => exact .lockCollect w i q v order ht h1 h2 h3
  | visit i q v x todo st ht h1 => exact .visit w i q v x todo st ht h1
  | crash i q v x todo ht h1 => exact .crash w i q v x todo ht h1
  | collected i q v ht => exact .collected w i q v ht
  | reuse i q v h st ht h1 => exact .reuse w i q v h st ht h1
  | store i q v h st slot ht h1 h2 => exact .store w i q v h st slot ht h1 h2
  | drop i q h ht => exact .drop w i q h ht
  | newCaches => exact .newCaches w
  | search i q h j c c' r ht h1 h2 => exact .search w i q h j c c' r ht h1 h2
  | searchCrash i q h j c ht h1 h2 => exact .searchCrash w i q h j c ht h1 h2

theorem regexOfCall_some {w : World V} {c : Nat} {v : V} (h : regexOfCall w c = some v) :
    ∃ p hd q, w.threads[c]? = some (.holds p hd) ∧ w.regs[hd.reg]? = some (q, v) := by
  unfold regexOfCall at h
  split at h
  · rename_i p hd he
    obtain ⟨⟨q, v'⟩, hq, rfl⟩ := Option.map_eq_some_iff.mp h
    exact ⟨p, hd, q, he, hq⟩
  · cases h

theorem regexOfCall_holds {w : World V} {c : Nat} {v : V} {p q : Str} {hd : Handle} (h : w.threads[c]? = some (.holds p hd))
    (hr : w.regs[hd.reg]? = some (q, v)) : regexOfCall w c = some v := by
  unfold regexOfCall
  rw [h]
  simp only [hr]
  rfl

/-- The regexes of calls stay if the calls keep them. -/
theorem regexOfCall_kept {w w' : World V} {c : Nat} {v : V} {l : List (Str × V)} (hr : w'.regs = w.regs ++ l)
    (hk : ∀ p h, w.threads[c]? = some (Pc.holds p h) → w'.threads[c]? = some (Pc.holds p h)) (h : regexOfCall w c = some v) :
    regexOfCall w' c = some v := by
  obtain ⟨p, hd, q, h1, h2⟩ := regexOfCall_some h
  refine regexOfCall_holds (hk p hd h1) (q := q) ?_
  rw [hr, List.getElem?_append_left (List.getElem?_eq_some_iff.mp h2).1]
  exact h2

/-! ## The invariant -/

/-- The requests of a process. -/
def Uses (E : Factories V) (A : List RuleCfg → Prop) (p : Str) (f : Str → Option V) : Prop :=
  ∃ rules kind, A rules ∧ AskedBy rules kind p ∧ f = E.of kind

theorem uses_agree {E : Factories V} {A : List RuleCfg → Prop} (hc : NoClash E A) {p : Str} {f g : Str → Option V}
    (hf : Uses E A p f) (hg : Uses E A p g) : f p = g p := by
  obtain ⟨rs, k, ha, hk, rfl⟩ := hf
  obtain ⟨rs', k', ha', hk', rfl⟩ := hg
  cases k with
  | rule =>
    cases k' with
    | rule => rfl
    | keyword => exact hc p ⟨rs, ha, hk⟩ ⟨rs', ha', hk'⟩
  | keyword =>
    cases k' with
    | keyword => rfl
    | rule => exact (hc p ⟨rs', ha', hk'⟩ ⟨rs, ha, hk⟩).symm

/-- The program is what remains of `build` after some answers, which were those of the factories. -/
def Replays (E : Factories V) (w : World V) (b : Build) (prog : Prog Nat (StoredScanner Nat)) : Prop :=
  ∃ (cs : List Nat) (vs : List V), (∀ c ∈ cs, c ∈ b.calls) ∧ cs.map (regexOfCall w) = vs.map some ∧
    (buildProg b.rules).resume cs = prog ∧ ((buildProg b.rules).resume vs).run E = (buildProg b.rules).run E

def BuildInv (E : Factories V) (w : World V) (b : Build) : Prop :=
  match b.pc with
  | .running prog => Replays E w b prog
  | .waiting c kind p k => c ∈ b.calls ∧ Replays E w b (.ask kind p k)
  | .returned (.ok sc) => Replays E w b (.done (.ok sc))
  | .returned (.error e) => (buildProg b.rules).run E = .ok (.error e)
  | _ => True

/-- The requests alone, which does not need `NoClash`. -/
def PlainInv (E : Factories V) (w : World V) (b : Build) : Prop :=
  match b.pc with
  | .running prog => prog.Only (AskedBy b.rules)
  | .waiting c kind p k =>
    c ∈ b.calls ∧ (Prog.ask kind p k).Only (AskedBy b.rules) ∧ ∃ pc, w.threads[c]? = some pc ∧ pc.For p (E.of kind)
  | .panicked => ∃ p, AskedBy b.rules .keyword p ∧ E.keyword p = none
  | _ => True

structure ProcInv (E : Factories V) (A : List RuleCfg → Prop) (s : Builders V) : Prop where
  world : StoreReach (Uses E A) s.world
  calls : ∀ (i : Nat) b, s.builds[i]? = some b → ∀ c ∈ b.calls, c < s.world.threads.length
  apart : ∀ (i j : Nat) b b', s.builds[i]? = some b → s.builds[j]? = some b' → i ≠ j → ∀ c ∈ b.calls, c ∉ b'.calls
  allowed : ∀ (i : Nat) b, s.builds[i]? = some b → A b.rules
  plain : ∀ (i : Nat) b, s.builds[i]? = some b → PlainInv E s.world b

end Sds
