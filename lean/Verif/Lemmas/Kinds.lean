import Verif.Spec.Kinds
import Verif.Lemmas.Scan

/-! Lemmas about rule kinds with shared data. -/

namespace Sds
open Spec

section
variable {V : Nat → Type}

/-! ## Maps of dynamically typed values -/

/-- The map has the values of `f`, each under its type. -/
def Tracks (m : AnyMap V) (f : (t : Nat) → Option (V t)) : Prop :=
  ∀ t, m.lookup t = (f t).map fun v => ⟨t, v⟩

theorem asType_self {t : Nat} (v : V t) : asType t v = some v := by simp [asType]

theorem asType_ne {s t : Nat} (h : s ≠ t) (v : V s) : asType t v = none := by simp [asType, h]

theorem Tracks.nil : Tracks ([] : AnyMap V) fun _ => none := fun _ => rfl

theorem Tracks.value {m : AnyMap V} {f : (t : Nat) → Option (V t)} (h : Tracks m f) (t : Nat) : m.value t = f t := by
  unfold AnyMap.value
  rw [h t]
  cases f t with
  | none => rfl
  | some v => simp [AnyVal.downcast]

theorem Tracks.entry {m : AnyMap V} {f : (t : Nat) → Option (V t)} (h : Tracks m f) (t : Nat) (x : V t) :
    Tracks (m.entry t x) fun u => (f u).or (asType u x) := by
  intro u
  unfold AnyMap.entry
  rw [h t]
  by_cases hu : t = u
  · subst hu
    dsimp only
    cases hf : f t with
    | none => simp [asType_self, List.lookup_cons]
    | some v => simp [h t, hf]
  · dsimp only
    rw [asType_ne hu, Option.or_none, ← h u]
    cases f t with
    | none =>
      simp only [Option.map_none, List.lookup_cons]
      have : (u == t) = false := by simpa using fun e : u = t => hu e.symm
      rw [this]
    | some v => rfl

theorem lookup_put (m : AnyMap V) (t : Nat) (v : V t) (u : Nat) :
    (m.put t v).lookup u = if t = u then (m.lookup u).map fun _ => ⟨t, v⟩ else m.lookup u := by
  induction m with
  | nil => simp [AnyMap.put]
  | cons x m ih =>
    obtain ⟨k, a⟩ := x
    unfold AnyMap.put at ih ⊢
    simp only [List.map_cons]
    by_cases hk : k = t
    · subst hk
      rw [if_pos rfl, List.lookup_cons, List.lookup_cons, ih]
      by_cases hu : k = u
      · subst hu; simp
      · have : (u == k) = false := by simpa using fun e : u = k => hu e.symm
        simp [this, hu]
    · rw [if_neg hk, List.lookup_cons, List.lookup_cons, ih]
      by_cases hu : k = u
      · subst hu
        have hk' : ¬ t = k := fun e => hk e.symm
        simp [hk']
      · have : (u == k) = false := by simpa using fun e : u = k => hu e.symm
        simp [this]

/-- The map after a call: the value of the type `t` is the new one. -/
theorem Tracks.update {m : AnyMap V} {f : (t : Nat) → Option (V t)} (h : Tracks m f) (t : Nat) (x v : V t) :
    Tracks ((m.entry t x).put t v) fun u => (asType u v).or (f u) := by
  intro u
  rw [lookup_put, h.entry t x u]
  by_cases hu : t = u
  · subst hu
    dsimp only
    rw [if_pos rfl, asType_self, asType_self]
    cases f t <;> rfl
  · dsimp only
    rw [if_neg hu, asType_ne hu, asType_ne hu]
    simp

theorem Tracks.entry_value {m : AnyMap V} {f : (t : Nat) → Option (V t)} (h : Tracks m f) (t : Nat) (x : V t) :
    (m.entry t x).value t = some ((f t).getD x) := by
  rw [(h.entry t x).value t, asType_self]
  cases f t <;> rfl

/-! ## The configuration -/

theorem configSteps_append (rs rs' : List (KRule V)) (t : Nat) :
    configSteps (rs ++ rs') t = configSteps rs t ++ configSteps rs' t := by
  simp [configSteps, List.filterMap_append]

theorem configMade_snoc (rs : List (KRule V)) (r : KRule V) (t : Nat) :
    configMade (rs ++ [r]) t =
      (asType t (r.process ((configMade rs r.configT).getD r.createConfig))).or (configMade rs t) := by
  unfold configMade
  rw [configSteps_append]
  by_cases ht : r.configT = t
  · subst ht
    have h1 : configSteps [r] r.configT = [(r.createConfig, r.process)] := by simp [configSteps]
    rw [h1, asType_self]
    cases h : configSteps rs r.configT with
    | nil => simp
    | cons a l => simp [List.foldl_append]
  · have h1 : configSteps [r] t = [] := by simp [configSteps, ht]
    rw [h1, asType_ne ht, List.append_nil]
    rfl

theorem groupConfigs_tracks (rs : List (KRule V)) : ∀ (done : List (KRule V)) (m : AnyMap V),
    Tracks m (configMade done) → ∃ m', groupConfigs rs m = Res.ok m' ∧ Tracks m' (configMade (done ++ rs)) := by
  induction rs with
  | nil => intro done m h; exact ⟨m, rfl, by simpa using h⟩
  | cons r rs ih =>
    intro done m h
    have hu := h.update r.configT r.createConfig (r.process ((configMade done r.configT).getD r.createConfig))
    obtain ⟨m', h1, h2⟩ := ih (done ++ [r]) _ (fun t => by rw [configMade_snoc]; exact hu t)
    refine ⟨m', ?_, by simpa using h2⟩
    rw [groupConfigs]
    unfold KRule.processDyn
    simp only [h.entry_value]
    exact h1

theorem configMade_some {rules : List (KRule V)} {r : Nat} {rule : KRule V} (h : rules[r]? = some rule) :
    ∃ g, configMade rules rule.configT = some g := by
  unfold configMade
  have hm : (rule.createConfig, rule.process) ∈ configSteps rules rule.configT :=
    List.mem_filterMap.2 ⟨rule, List.mem_of_getElem? h, by simp⟩
  cases hc : configSteps rules rule.configT with
  | nil => rw [hc] at hm; cases hm
  | cons a l => exact ⟨_, rfl⟩

/-- The scanner was built: it has the configuration of its rules. -/
def HasConfigs (sc : KScanner V) : Prop := Tracks sc.configs (configMade sc.rules)

theorem build_ok (rules : List (KRule V)) (wc mp rm : Bool) (fp : Fingerprint) :
    ∃ sc, KScanner.build rules wc mp rm fp = Res.ok sc ∧ HasConfigs sc ∧ sc.rules = rules ∧ sc.wildcards = wc ∧
      sc.multipassEnabled = mp ∧ sc.returnMatches = rm ∧ sc.fp = fp := by
  obtain ⟨m, h1, h2⟩ := groupConfigs_tracks rules [] [] Tracks.nil
  refine ⟨⟨rules, wc, mp, rm, fp, m⟩, by rw [KScanner.build, h1], ?_, rfl, rfl, rfl, rfl, rfl⟩
  simpa [HasConfigs] using h2

/-! ## Histories -/

theorem dataLeft_cons (c : Call V) (cs : List (Call V)) (i t : Nat) :
    dataLeft (c :: cs) i t = if c.due.string = i then (asType t c.data').or (dataLeft cs i t) else dataLeft cs i t := by
  unfold dataLeft
  rw [List.findSome?_cons]
  by_cases h : c.due.string = i
  · rw [if_pos h, if_pos h]
    cases asType t c.data' <;> rfl
  · rw [if_neg h, if_neg h]

theorem cacheLeft_cons (c : Call V) (cs : List (Call V)) (t : Nat) :
    cacheLeft (c :: cs) t = (asType t c.cache').or (cacheLeft cs t) := by
  unfold cacheLeft
  rw [List.findSome?_cons]
  cases asType t c.cache' <;> rfl

theorem Spec.Lawful.tail {rules : List (KRule V)} {c : Call V} {cs : List (Call V)} (h : Lawful rules (c :: cs)) :
    Lawful rules cs := by
  cases h; assumption

theorem Spec.Lawful.drop {rules : List (KRule V)} {cs cs' : List (Call V)} (h : Lawful rules (cs' ++ cs)) :
    Lawful rules cs := by
  induction cs' with
  | nil => exact h
  | cons c cs' ih => exact ih h.tail

/-- The history is determined by the calls that were due. -/
theorem Spec.Lawful.unique {rules : List (KRule V)} : ∀ {cs cs' : List (Call V)}, Lawful rules cs → Lawful rules cs' →
    cs.map (·.due) = cs'.map (·.due) → cs = cs' := by
  intro cs
  induction cs with
  | nil => intro cs' _ _ h; cases cs' with
    | nil => rfl
    | cons c cs' => simp at h
  | cons c cs ih =>
    intro cs' h1 h2 h
    cases cs' with
    | nil => simp at h
    | cons c' cs' =>
      simp only [List.map_cons, List.cons.injEq] at h
      have e := ih h1.tail h2.tail h.2
      subst e
      cases h1 with
      | call _ g1 r1 =>
        cases h2 with
        | call _ g2 r2 =>
          obtain ⟨d, rule, a, b, k, f, a', k'⟩ := c
          obtain ⟨d', rule', x, y, z, f', x', z'⟩ := c'
          obtain ⟨e1, e2, e3, e4⟩ := g1
          obtain ⟨e1', e2', e3', e4'⟩ := g2
          have hd : d = d' := h.1
          subst hd
          simp only at e1 e2 e3 e4 e1' e2' e3' e4' r1 r2
          rw [e1] at e1'
          cases e1'
          rw [e3] at e3'
          cases e3'
          rw [← e2] at e2'
          rw [← e4] at e4'
          cases e2'
          cases e4'
          rw [r1] at r2
          cases r2
          rfl

/-! ## One call -/

/-- The calls to be made on a string. -/
def dueRules (blocked : List Nat) (i : Nat) (v : Visit) (rs : List Nat) : List Due :=
  (rs.filter fun r => !blocked.contains r).map fun r => ⟨i, v.path, v.content, r, v.excluded.contains r⟩

/-- The calls to be made on the strings from number `i`. -/
def dueVisits (blocked : List Nat) : Nat → List Visit → List Due
  | _, [] => []
  | i, v :: vs => dueRules blocked i v v.rules ++ dueVisits blocked (i + 1) vs

/-- A scanner of rules without data finds the same on these calls. -/
def Same (calls : List (Call V)) (sc' : Scanner) : Prop :=
  ∀ c ∈ calls, ∃ rule, sc'.rules[c.due.index]? = some rule ∧
    rule.run c.due.content c.due.path c.due.excluded = Res.ok c.found

theorem runRulesK_trace {sc : KScanner V} (hb : HasConfigs sc) (blocked : List Nat) (i : Nat) (v : Visit) :
    ∀ (rs : List Nat), (∀ r ∈ rs, ∃ rule, sc.rules[r]? = some rule) →
    ∀ (cs : List (Call V)) (datas caches : AnyMap V) (ex : List Str), Lawful sc.rules cs →
    Tracks datas (dataLeft cs i) → Tracks caches (cacheLeft cs) →
    (∃ new ms caches' ex', Lawful sc.rules (new ++ cs) ∧ new.reverse.map (·.due) = dueRules blocked i v rs ∧
      runRulesK sc blocked v rs datas caches ex = Res.ok (ms, caches', ex') ∧ Tracks caches' (cacheLeft (new ++ cs)) ∧
      ∀ sc', Same new sc' → runRules sc' blocked v rs ex = Res.ok (ms, ex')) ∨
    (∃ new d rest, Lawful sc.rules (new ++ cs) ∧ new.reverse.map (·.due) ++ d :: rest = dueRules blocked i v rs ∧
      Fails sc.rules (new ++ cs) d (runRulesK sc blocked v rs datas caches ex)) := by
  intro rs
  induction rs with
  | nil =>
    intro _ cs datas caches ex hl _ hk
    exact Or.inl ⟨[], [], caches, ex, hl, rfl, rfl, hk, fun _ _ => rfl⟩
  | cons r rs ih =>
    intro hrs cs datas caches ex hl hd hk
    have ih := ih (fun r hr => hrs r (List.mem_cons_of_mem _ hr))
    by_cases hbl : blocked.contains r = true
    · have e1 : dueRules blocked i v (r :: rs) = dueRules blocked i v rs := by
        unfold dueRules
        rw [List.filter_cons_of_neg (by simpa using hbl)]
      rw [e1, runRulesK, if_pos hbl]
      rcases ih cs datas caches ex hl hd hk with ⟨new, ms, c', ex', a, b, c, d, e⟩ | h
      · exact Or.inl ⟨new, ms, c', ex', a, b, c, d, fun sc' h => by rw [runRules, if_pos hbl]; exact e sc' h⟩
      · exact Or.inr h
    · have e1 : dueRules blocked i v (r :: rs) =
          ⟨i, v.path, v.content, r, v.excluded.contains r⟩ :: dueRules blocked i v rs := by
        unfold dueRules
        rw [List.filter_cons_of_pos (by simpa using hbl)]
        rfl
      obtain ⟨rule, hr⟩ := hrs r List.mem_cons_self
      obtain ⟨g, hg⟩ := configMade_some hr
      have given : GivenRight sc.rules cs ⟨i, v.path, v.content, r, v.excluded.contains r⟩ rule
          ((dataLeft cs i rule.dataT).getD rule.createData) g ((cacheLeft cs rule.cacheT).getD rule.createCache) :=
        ⟨hr, rfl, hg, rfl⟩
      have hrun : rule.runDyn v.content v.path (v.excluded.contains r) datas sc.configs caches =
          match rule.run v.content v.path (v.excluded.contains r)
            ((dataLeft cs i rule.dataT).getD rule.createData) g ((cacheLeft cs rule.cacheT).getD rule.createCache) with
          | .panic => Res.panic
          | .hang => Res.hang
          | .ok (f, d', k') => Res.ok (f, (datas.entry rule.dataT rule.createData).put rule.dataT d',
              (caches.entry rule.cacheT rule.createCache).put rule.cacheT k') := by
        unfold KRule.runDyn
        simp only [hd.entry_value, hk.entry_value, hb.value, hg]
        rfl
      rw [e1, runRulesK, if_neg hbl, hr]
      dsimp only
      rw [hrun]
      cases hres : rule.run v.content v.path (v.excluded.contains r)
          ((dataLeft cs i rule.dataT).getD rule.createData) g ((cacheLeft cs rule.cacheT).getD rule.createCache) with
      | panic => exact Or.inr ⟨[], _, _, hl, rfl, rule, _, _, _, given, Or.inl ⟨hres, rfl⟩⟩
      | hang => exact Or.inr ⟨[], _, _, hl, rfl, rule, _, _, _, given, Or.inr ⟨hres, rfl⟩⟩
      | ok y =>
        obtain ⟨f, d', k'⟩ := y
        dsimp only
        let c : Call V := ⟨⟨i, v.path, v.content, r, v.excluded.contains r⟩, rule,
          (dataLeft cs i rule.dataT).getD rule.createData, g, (cacheLeft cs rule.cacheT).getD rule.createCache, f, d', k'⟩
        have hl' : Lawful sc.rules (c :: cs) := Lawful.call hl given hres
        have hd' : Tracks ((datas.entry rule.dataT rule.createData).put rule.dataT d') (dataLeft (c :: cs) i) := by
          intro t
          rw [dataLeft_cons, if_pos rfl]
          exact hd.update rule.dataT rule.createData d' t
        have hk' : Tracks ((caches.entry rule.cacheT rule.createCache).put rule.cacheT k') (cacheLeft (c :: cs)) := by
          intro t
          rw [cacheLeft_cons]
          exact hk.update rule.cacheT rule.createCache k' t
        rcases ih (c :: cs) _ _ (ex ++ f.inserted) hl' hd' hk' with
          ⟨new, ms, c', ex', a, b, h, d, e⟩ | ⟨new, d, rest, a, b, rl, x, y, z, hgiv, h⟩
        · refine Or.inl ⟨new ++ [c], f.matches_.map (fun m => ⟨r, m.1, m.2⟩) ++ ms, c', ex', by simpa using a, ?_, ?_,
            by simpa using d, fun sc' hs => ?_⟩
          · rw [List.reverse_append, List.map_append, b]
            rfl
          · rw [h]
          · obtain ⟨rule', hr', hf'⟩ := hs c (by simp)
            rw [runRules, if_neg hbl]
            have hr'' : sc'.rules[r]? = some rule' := hr'
            have hf'' : rule'.run v.content v.path (v.excluded.contains r) = Res.ok f := hf'
            rw [hr'']
            dsimp only
            rw [hf'']
            dsimp only
            rw [e sc' (fun x hx => hs x (by simp [hx]))]
        · refine Or.inr ⟨new ++ [c], d, rest, by simpa using a, ?_, rl, x, y, z, by simpa using hgiv, ?_⟩
          · rw [List.reverse_append, List.map_append, ← b]
            rfl
          · rcases h with ⟨h1, h2⟩ | ⟨h1, h2⟩
            · exact Or.inl ⟨h1, by rw [h2]⟩
            · exact Or.inr ⟨h1, by rw [h2]⟩

theorem dataLeft_fresh {cs : List (Call V)} {i : Nat} (h : ∀ c ∈ cs, c.due.string < i) (t : Nat) :
    dataLeft cs i t = none := by
  unfold dataLeft
  rw [List.findSome?_eq_none_iff]
  intro c hc
  rw [if_neg (Nat.ne_of_lt (h c hc))]

theorem dueRules_string {blocked : List Nat} {i : Nat} {v : Visit} {rs : List Nat} {d : Due}
    (h : d ∈ dueRules blocked i v rs) : d.string = i := by
  obtain ⟨r, _, rfl⟩ := List.mem_map.1 h
  rfl

theorem runVisitsK_trace {sc : KScanner V} (hb : HasConfigs sc) (blocked : List Nat) :
    ∀ (vs : List Visit), (∀ v ∈ vs, ∀ r ∈ v.rules, ∃ rule, sc.rules[r]? = some rule) →
    ∀ (i : Nat) (cs : List (Call V)) (caches : AnyMap V) (ex : List Str), Lawful sc.rules cs →
    (∀ c ∈ cs, c.due.string < i) → Tracks caches (cacheLeft cs) →
    (∃ new l ex', Lawful sc.rules (new ++ cs) ∧ new.reverse.map (·.due) = dueVisits blocked i vs ∧
      runVisitsK sc blocked vs caches ex = Res.ok (l, ex') ∧
      ∀ sc', Same new sc' → runVisits sc' blocked vs ex = Res.ok (l, ex')) ∨
    (∃ new d rest, Lawful sc.rules (new ++ cs) ∧ new.reverse.map (·.due) ++ d :: rest = dueVisits blocked i vs ∧
      Fails sc.rules (new ++ cs) d (runVisitsK sc blocked vs caches ex)) := by
  intro vs
  induction vs with
  | nil =>
    intro _ i cs caches ex hl _ _
    exact Or.inl ⟨[], [], ex, hl, rfl, rfl, fun _ _ => rfl⟩
  | cons v vs ih =>
    intro hvs i cs caches ex hl hi hk
    have ih := ih (fun v hv => hvs v (List.mem_cons_of_mem _ hv))
    rw [dueVisits, runVisitsK]
    have hd : Tracks ([] : AnyMap V) (dataLeft cs i) := fun t => by rw [dataLeft_fresh hi]; rfl
    rcases runRulesK_trace hb blocked i v v.rules (hvs v List.mem_cons_self) cs [] caches ex hl hd hk with
      ⟨new, ms, caches', ex', h1, h2, h3, h4, h5⟩ | ⟨new, d, rest, h1, h2, rl, x, y, z, hg, h3⟩
    · rw [h3]
      dsimp only
      have hi' : ∀ c ∈ new ++ cs, c.due.string < i + 1 := by
        intro c hc
        rcases List.mem_append.1 hc with hc | hc
        · have : c.due ∈ dueRules blocked i v v.rules := by
            rw [← h2]
            exact List.mem_map_of_mem (List.mem_reverse.2 hc)
          have := dueRules_string this
          omega
        · have := hi c hc
          omega
      rcases ih (i + 1) (new ++ cs) caches' ex' h1 hi' h4 with
        ⟨new', l, ex'', g1, g2, g3, g4⟩ | ⟨new', d, rest, g1, g2, rl, x, y, z, hg, g3⟩
      · refine Or.inl ⟨new' ++ new, _, ex'', by simpa using g1, ?_, by rw [g3], fun sc' hs => ?_⟩
        · rw [List.reverse_append, List.map_append, h2, g2]
        · rw [runVisits, h5 sc' (fun c hc => hs c (by simp [hc]))]
          dsimp only
          rw [g4 sc' (fun c hc => hs c (by simp [hc]))]
      · refine Or.inr ⟨new' ++ new, d, rest, by simpa using g1, ?_, rl, x, y, z, by simpa using hg, ?_⟩
        · rw [List.reverse_append, List.map_append, h2, List.append_assoc, g2]
        · rcases g3 with ⟨a, b⟩ | ⟨a, b⟩
          · exact Or.inl ⟨a, by rw [b]⟩
          · exact Or.inr ⟨a, by rw [b]⟩
    · refine Or.inr ⟨new, d, rest ++ dueVisits blocked (i + 1) vs, h1, ?_, rl, x, y, z, hg, ?_⟩
      · rw [← h2]
        simp
      · rcases h3 with ⟨a, b⟩ | ⟨a, b⟩
        · exact Or.inl ⟨a, by rw [b]⟩
        · exact Or.inr ⟨a, by rw [b]⟩

/-! ## Rules of a separate group -/

theorem dataLeft_filter {rules : List (KRule V)} {K : Nat → Bool} (hK : Separate rules K) {rule : KRule V} {r : Nat}
    (hr : rules[r]? = some rule) (hk : K r = true) (i : Nat) : ∀ {cs : List (Call V)}, Lawful rules cs →
    dataLeft (cs.filter fun c => K c.due.index) i rule.dataT = dataLeft cs i rule.dataT := by
  intro cs
  induction cs with
  | nil => intro _; rfl
  | cons c cs ih =>
    intro h
    have ih := ih h.tail
    cases h with
    | call _ g _ =>
      by_cases hc : K c.due.index = true
      · rw [List.filter_cons_of_pos (by simpa using hc), dataLeft_cons, dataLeft_cons, ih]
      · rw [List.filter_cons_of_neg (by simpa using hc), dataLeft_cons, ih]
        have hne := (hK _ _ _ _ hr g.1 hk (by simpa using hc)).1
        rw [asType_ne (fun e => hne e.symm)]
        simp

theorem cacheLeft_filter {rules : List (KRule V)} {K : Nat → Bool} (hK : Separate rules K) {rule : KRule V} {r : Nat}
    (hr : rules[r]? = some rule) (hk : K r = true) : ∀ {cs : List (Call V)}, Lawful rules cs →
    cacheLeft (cs.filter fun c => K c.due.index) rule.cacheT = cacheLeft cs rule.cacheT := by
  intro cs
  induction cs with
  | nil => intro _; rfl
  | cons c cs ih =>
    intro h
    have ih := ih h.tail
    cases h with
    | call _ g _ =>
      by_cases hc : K c.due.index = true
      · rw [List.filter_cons_of_pos (by simpa using hc), cacheLeft_cons, cacheLeft_cons, ih]
      · rw [List.filter_cons_of_neg (by simpa using hc), cacheLeft_cons, ih]
        have hne := (hK _ _ _ _ hr g.1 hk (by simpa using hc)).2.2
        rw [asType_ne (fun e => hne e.symm)]
        simp

theorem Spec.Lawful.filter {rules : List (KRule V)} {K : Nat → Bool} (hK : Separate rules K) :
    ∀ {cs : List (Call V)}, Lawful rules cs → Lawful rules (cs.filter fun c => K c.due.index) := by
  intro cs h
  induction h with
  | nil => exact Lawful.nil
  | @call earlier c hl g hrun ih =>
    by_cases hc : K c.due.index = true
    · rw [List.filter_cons_of_pos (by simpa using hc)]
      refine Lawful.call ih ⟨g.1, ?_, g.2.2.1, ?_⟩ hrun
      · rw [dataLeft_filter hK g.1 hc _ hl]; exact g.2.1
      · rw [cacheLeft_filter hK g.1 hc hl]; exact g.2.2.2
    · rw [List.filter_cons_of_neg (by simpa using hc)]
      exact ih

theorem configMade_filter {rules : List (KRule V)} {K : KRule V → Bool} {t : Nat}
    (h : ∀ r ∈ rules, r.configT = t → K r = true) : configMade (rules.filter K) t = configMade rules t := by
  have : configSteps (rules.filter K) t = configSteps rules t := by
    unfold configSteps
    induction rules with
    | nil => rfl
    | cons r rs ih =>
      have ih := ih (fun r hr => h r (List.mem_cons_of_mem _ hr))
      by_cases hk : K r = true
      · rw [List.filter_cons_of_pos hk, List.filterMap_cons, List.filterMap_cons, ih]
      · rw [List.filter_cons_of_neg hk, List.filterMap_cons, ih]
        have : r.configT ≠ t := fun e => hk (h r List.mem_cons_self e)
        rw [dif_neg this]
  unfold configMade
  rw [this]

/-! ## The second phase -/

theorem retain_same {sc1 sc2 : Scanner} (hm : sc1.rules.map (·.multipass) = sc2.rules.map (·.multipass))
    (excluded : List Str) (c : Str) (ms : List M) : retainMatches sc1 excluded c ms = retainMatches sc2 excluded c ms := by
  induction ms with
  | nil => rfl
  | cons m ms ih =>
    simp only [retainMatches]
    rw [ih]
    have h := congrArg (fun l : List Bool => l[m.rule]?) hm
    simp only [List.getElem?_map] at h
    cases h1 : sc1.rules[m.rule]? with
    | none =>
      cases h2 : sc2.rules[m.rule]? with
      | none => rfl
      | some b => rw [h1, h2] at h; simp at h
    | some a =>
      cases h2 : sc2.rules[m.rule]? with
      | none => rw [h1, h2] at h; simp at h
      | some b =>
        rw [h1, h2] at h
        simp only [Option.map_some, Option.some.injEq] at h
        dsimp only
        rw [h]

theorem editAll_same {E : Type} (impl : EventImpl E) {sc1 sc2 : Scanner}
    (hi : sc1.rules.map (·.info) = sc2.rules.map (·.info)) (hm : sc1.rules.map (·.multipass) = sc2.rules.map (·.multipass))
    (he : sc1.multipassEnabled = sc2.multipassEnabled) (hr : sc1.returnMatches = sc2.returnMatches)
    (hf : sc1.fp = sc2.fp) (excluded : List Str) (l : List PathMatches) (e : E) :
    editAll impl sc1 excluded l e = editAll impl sc2 excluded l e := by
  have hred : sc1.redacts = sc2.redacts := by
    funext r
    have h := congrArg (fun l : List RuleInfo => l[r]?) hi
    simp only [List.getElem?_map] at h
    unfold Scanner.redacts
    cases h1 : sc1.rules[r]? with
    | none =>
      cases h2 : sc2.rules[r]? with
      | none => rfl
      | some b => rw [h1, h2] at h; simp at h
    | some a =>
      cases h2 : sc2.rules[r]? with
      | none => rw [h1, h2] at h; simp at h
      | some b =>
        rw [h1, h2] at h
        simp only [Option.map_some, Option.some.injEq] at h
        dsimp only
        rw [h]
  have hleaf : ∀ pm, editLeaf sc1 impl.enc excluded pm = editLeaf sc2 impl.enc excluded pm := by
    intro pm
    funext c
    unfold editLeaf
    rw [retain_same hm, hred, hi, he, hr, hf]
  induction l generalizing e with
  | nil => rfl
  | cons pm l ih =>
    simp only [editAll]
    rw [hleaf]
    simp only [ih]

end

end Sds
