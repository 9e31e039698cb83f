import Verif.Lemmas.Kinds

/-! Lemmas about scans with rule kinds that share data: which calls are made, and scanners that repeat them. -/

namespace Sds
open Spec

section
variable {V : Nat → Type}

theorem mem_dueVisits {blocked : List Nat} {d : Due} : ∀ {vs : List Visit} {i : Nat}, d ∈ dueVisits blocked i vs ↔
    ∃ j v, vs[j]? = some v ∧ d ∈ dueRules blocked (i + j) v v.rules := by
  intro vs
  induction vs with
  | nil => intro i; simp [dueVisits]
  | cons v vs ih =>
    intro i
    rw [dueVisits, List.mem_append, ih]
    constructor
    · rintro (h | ⟨j, w, h1, h2⟩)
      · exact ⟨0, v, rfl, h⟩
      · refine ⟨j + 1, w, by simpa using h1, ?_⟩
        have : i + (j + 1) = i + 1 + j := by omega
        rw [this]; exact h2
    · rintro ⟨j, w, h1, h2⟩
      cases j with
      | zero => simp only [List.getElem?_cons_zero, Option.some.injEq] at h1; subst h1; exact Or.inl h2
      | succ j =>
        refine Or.inr ⟨j, w, by simpa using h1, ?_⟩
        have : i + (j + 1) = i + 1 + j := by omega
        rw [← this]; exact h2

theorem mem_dueRules {blocked : List Nat} {i : Nat} {v : Visit} {rs : List Nat} {d : Due} :
    d ∈ dueRules blocked i v rs ↔ d.string = i ∧ d.path = v.path ∧ d.content = v.content ∧ d.index ∈ rs ∧
      d.index ∉ blocked ∧ d.excluded = v.excluded.contains d.index := by
  unfold dueRules
  rw [List.mem_map]
  constructor
  · rintro ⟨r, hr, rfl⟩
    rw [List.mem_filter] at hr
    exact ⟨rfl, rfl, rfl, hr.1, by simpa using hr.2, rfl⟩
  · rintro ⟨h1, h2, h3, h4, h5, h6⟩
    obtain ⟨a, b, c, r, x⟩ := d
    simp only at h1 h2 h3 h4 h5 h6
    subst h1 h2 h3 h6
    exact ⟨r, List.mem_filter.2 ⟨h4, by simpa using h5⟩, rfl⟩

theorem dueVisits_ge {blocked : List Nat} {vs : List Visit} {i : Nat} {d : Due} (h : d ∈ dueVisits blocked i vs) :
    i ≤ d.string := by
  obtain ⟨j, v, _, h⟩ := mem_dueVisits.1 h
  rw [(mem_dueRules.1 h).1]
  omega

theorem dueVisits_order (blocked : List Nat) : ∀ (vs : List Visit) (i : Nat),
    (dueVisits blocked i vs).Pairwise (fun a b => a.string ≤ b.string) := by
  intro vs
  induction vs with
  | nil => intro i; simp [dueVisits]
  | cons v vs ih =>
    intro i
    rw [dueVisits, List.pairwise_append]
    refine ⟨?_, ih _, ?_⟩
    · unfold dueRules
      rw [List.pairwise_map]
      exact List.Pairwise.imp (fun _ => Nat.le_refl _) (List.pairwise_of_forall (R := fun _ _ => True) (fun _ _ => trivial))
    · intro a ha b hb
      rw [dueRules_string ha]
      have := dueVisits_ge hb
      omega

theorem dueVisits_once (blocked : List Nat) : ∀ (vs : List Visit) (i : Nat), (∀ v ∈ vs, v.rules.Nodup) →
    ((dueVisits blocked i vs).map fun c => (c.string, c.index)).Nodup := by
  intro vs
  induction vs with
  | nil => intro i _; simp [dueVisits]
  | cons v vs ih =>
    intro i h
    rw [dueVisits, List.map_append, List.nodup_append]
    refine ⟨?_, ih _ (fun v hv => h v (List.mem_cons_of_mem _ hv)), ?_⟩
    · unfold dueRules
      rw [List.map_map]
      have : ((v.rules.filter fun r => !blocked.contains r).map fun r => (i, r)).Nodup := by
        rw [List.Nodup, List.pairwise_map]
        exact ((h v List.mem_cons_self).filter _).imp (fun hab e => hab (Prod.mk.inj e).2)
      exact this
    · intro a ha b hb e
      subst e
      obtain ⟨x, hx, rfl⟩ := List.mem_map.1 ha
      obtain ⟨y, hy, e⟩ := List.mem_map.1 hb
      have h1 := dueRules_string hx
      have h2 := dueVisits_ge hy
      have h3 : y.string = x.string := (Prod.mk.inj e).1
      omega

/-- The visits of an event. -/
structure VisitsOf (rules : List (KRule V)) (wc : Bool) (leaves : List Leaf) (vs : List Visit) : Prop where
  strings : vs.map (fun v => (v.path, v.content)) = leaves.map fun l => (l.path, l.text)
  nodup : ∀ v ∈ vs, v.rules.Nodup
  scanned : ∀ v ∈ vs, ∀ r, r ∈ v.rules ↔ ∃ s, (rules.map (·.scope))[r]? = some s ∧ Scans wc v.path s
  excluded : ∀ v ∈ vs, ∀ r, r ∈ v.excluded ↔ ∃ s, (rules.map (·.scope))[r]? = some s ∧ Excludes wc v.path s

theorem VisitsOf.at_leaf {rules : List (KRule V)} {wc : Bool} {leaves : List Leaf} {vs : List Visit}
    (h : VisitsOf rules wc leaves vs) {i : Nat} {v : Visit} (hv : vs[i]? = some v) :
    ∃ l, leaves[i]? = some l ∧ v.path = l.path ∧ v.content = l.text := by
  have := congrArg (fun x => x[i]?) h.strings
  simp only [List.getElem?_map, hv, Option.map_some] at this
  cases hl : leaves[i]? with
  | none => rw [hl] at this; simp at this
  | some l =>
    rw [hl] at this
    simp only [Option.map_some, Option.some.injEq, Prod.mk.injEq] at this
    exact ⟨l, rfl, this⟩

theorem VisitsOf.at_visit {rules : List (KRule V)} {wc : Bool} {leaves : List Leaf} {vs : List Visit}
    (h : VisitsOf rules wc leaves vs) {i : Nat} {l : Leaf} (hl : leaves[i]? = some l) :
    ∃ v, vs[i]? = some v ∧ v.path = l.path ∧ v.content = l.text := by
  have := congrArg (fun x => x[i]?) h.strings
  simp only [List.getElem?_map, hl, Option.map_some] at this
  cases hv : vs[i]? with
  | none => rw [hv] at this; simp at this
  | some v =>
    rw [hv] at this
    simp only [Option.map_some, Option.some.injEq, Prod.mk.injEq] at this
    exact ⟨v, rfl, this⟩

theorem VisitsOf.rule {rules : List (KRule V)} {wc : Bool} {leaves : List Leaf} {vs : List Visit}
    (h : VisitsOf rules wc leaves vs) : ∀ v ∈ vs, ∀ r ∈ v.rules, ∃ rule, rules[r]? = some rule := by
  intro v hv r hr
  obtain ⟨s, hs, _⟩ := (h.scanned v hv r).1 hr
  rw [List.getElem?_map] at hs
  cases hx : rules[r]? with
  | none => rw [hx] at hs; simp at hs
  | some x => exact ⟨x, rfl⟩

theorem VisitsOf.inOrder {rules : List (KRule V)} {wc : Bool} {leaves : List Leaf} {vs : List Visit}
    (h : VisitsOf rules wc leaves vs) (blocked : List Nat) : InOrder rules wc blocked leaves (dueVisits blocked 0 vs) where
  order := dueVisits_order _ _ _
  once := dueVisits_once _ _ _ h.nodup
  due := by
    intro c hc
    obtain ⟨j, v, hv, hc⟩ := mem_dueVisits.1 hc
    obtain ⟨h1, h2, h3, h4, h5, h6⟩ := mem_dueRules.1 hc
    rw [Nat.zero_add] at h1
    obtain ⟨l, hl, hp, ht⟩ := h.at_leaf hv
    have hmem := List.mem_of_getElem? hv
    obtain ⟨s, hs, hsc⟩ := (h.scanned v hmem _).1 h4
    rw [List.getElem?_map] at hs
    cases hx : rules[c.index]? with
    | none => rw [hx] at hs; simp at hs
    | some rule =>
      rw [hx] at hs
      simp only [Option.map_some, Option.some.injEq] at hs
      subst hs
      refine ⟨l, rule, by rw [h1]; exact hl, by rw [h2, hp], by rw [h3, ht], h5, rfl, by rw [← hp]; exact hsc, ?_⟩
      rw [h6, List.contains_iff_mem, h.excluded v hmem, List.getElem?_map, hx, ← hp]
      simp

theorem VisitsOf.allMade {rules : List (KRule V)} {wc : Bool} {leaves : List Leaf} {vs : List Visit}
    (h : VisitsOf rules wc leaves vs) (blocked : List Nat) : AllMade rules wc blocked leaves (dueVisits blocked 0 vs) := by
  rintro i l hl r ⟨hb, rule, hr, hs⟩
  obtain ⟨v, hv, hp, ht⟩ := h.at_visit hl
  refine ⟨⟨i, v.path, v.content, r, v.excluded.contains r⟩, mem_dueVisits.2 ⟨i, v, hv, ?_⟩, rfl, rfl⟩
  rw [Nat.zero_add]
  refine mem_dueRules.2 ⟨rfl, rfl, rfl, ?_, hb, rfl⟩
  refine (h.scanned v (List.mem_of_getElem? hv) r).2 ⟨rule.scope, by simp [List.getElem?_map, hr], by rw [hp]; exact hs⟩

theorem Spec.InOrder.sublist {rules : List (KRule V)} {wc : Bool} {blocked : List Nat} {leaves : List Leaf} {l l' : List Due}
    (h : InOrder rules wc blocked leaves l) (hs : l'.Sublist l) : InOrder rules wc blocked leaves l' where
  order := h.order.sublist hs
  once := h.once.sublist (hs.map _)
  due := fun c hc => h.due c (hs.subset hc)

theorem dueVisits_filter {blocked blocked' : List Nat} {K : Nat → Bool} : ∀ {vs : List Visit} {i : Nat},
    (∀ v ∈ vs, ∀ r ∈ v.rules, (r ∈ blocked' ↔ r ∈ blocked ∨ K r = false)) →
    dueVisits blocked' i vs = (dueVisits blocked i vs).filter fun d => K d.index := by
  intro vs
  induction vs with
  | nil => intro i _; rfl
  | cons v vs ih =>
    intro i h
    rw [dueVisits, dueVisits, List.filter_append, ← ih (fun v hv => h v (List.mem_cons_of_mem _ hv))]
    congr 1
    unfold dueRules
    rw [List.filter_map, List.filter_filter]
    congr 1
    refine List.filter_congr fun r hr => ?_
    have := h v List.mem_cons_self r hr
    simp only [Function.comp_apply]
    rw [Bool.eq_iff_iff]
    simp only [Bool.not_eq_true', List.contains_eq_mem, decide_eq_false_iff_not, Bool.and_eq_true]
    rw [this]
    simp [and_comm]

/-! ## Scanners that repeat the calls -/

theorem Spec.Repeats.same {sc : KScanner V} {calls : List (Call V)} {sc' : Scanner} (h : Repeats sc calls sc')
    (hr : ∀ c ∈ calls, ∃ rule, sc.rules[c.due.index]? = some rule) : Same calls sc' := by
  intro c hc
  obtain ⟨rule, hrule⟩ := hr c hc
  have := congrArg (fun l => l[c.due.index]?) h.rules
  simp only [List.getElem?_map, hrule, Option.map_some] at this
  cases hx : sc'.rules[c.due.index]? with
  | none => rw [hx] at this; simp at this
  | some x => exact ⟨x, rfl, h.found c hc x hx⟩

theorem Spec.Lawful.rule {rules : List (KRule V)} {cs : List (Call V)} (h : Lawful rules cs) :
    ∀ c ∈ cs, rules[c.due.index]? = some c.rule := by
  induction h with
  | nil => intro c hc; cases hc
  | call _ g _ ih =>
    intro c hc
    rcases List.mem_cons.1 hc with rfl | hc
    · exact g.1
    · exact ih c hc

theorem Spec.Lawful.did {rules : List (KRule V)} {cs : List (Call V)} (h : Lawful rules cs) :
    ∀ c ∈ cs, c.rule.run c.due.content c.due.path c.due.excluded c.data c.config c.cache =
      Res.ok (c.found, c.data', c.cache') := by
  induction h with
  | nil => intro c hc; cases hc
  | call _ _ hr ih =>
    intro c hc
    rcases List.mem_cons.1 hc with rfl | hc
    · exact hr
    · exact ih c hc

/-- What rule number `r` answered. -/
def answer (calls : List (Call V)) (r : Nat) (c : Str) (p : Path) (ex : Bool) : Res Found :=
  match calls.find? (fun x => decide (x.due.index = r ∧ x.due.path = p ∧ x.due.content = c ∧ x.due.excluded = ex)) with
  | some x => Res.ok x.found
  | none => Res.ok ⟨[], []⟩

open Classical in
/-- The rules without data which repeat the calls; stateless rules are themselves. -/
noncomputable def repeating (sc : KScanner V) (calls : List (Call V)) : Scanner :=
  ⟨sc.rules.mapIdx fun r rule => ⟨rule.info, rule.scope, rule.multipass,
    if h : ∃ f, Stateless rule f then h.choose else answer calls r⟩,
    sc.wildcards, sc.multipassEnabled, sc.returnMatches, sc.fp⟩

theorem Spec.Stateless.ok {rule : KRule V} {f : Str → Path → Bool → Res Found} (h : Stateless rule f)
    {c : Str} {p : Path} {ex : Bool} {d : V rule.dataT} {g : V rule.configT} {k : V rule.cacheT} {x : Found}
    {d' : V rule.dataT} {k' : V rule.cacheT} (hr : rule.run c p ex d g k = Res.ok (x, d', k')) :
    f c p ex = Res.ok x := by
  rw [h] at hr
  cases hf : f c p ex with
  | panic => rw [hf] at hr; cases hr
  | hang => rw [hf] at hr; cases hr
  | ok y => rw [hf] at hr; cases hr; rfl

theorem Spec.Stateless.unique {rule : KRule V} {f f' : Str → Path → Bool → Res Found} (h : Stateless rule f)
    (h' : Stateless rule f') : f = f' := by
  funext c p ex
  have := h c p ex rule.createData rule.createConfig rule.createCache
  rw [h'] at this
  cases hf : f c p ex <;> cases hf' : f' c p ex <;> rw [hf, hf'] at this <;> first | rfl | cases this
  rfl

theorem find_call {rules : List (KRule V)} {wc : Bool} {blocked : List Nat} {leaves : List Leaf} {calls : List (Call V)}
    (hin : InOrder rules wc blocked leaves (calls.map (·.due))) (hnd : (leaves.map (·.path)).Nodup) {c x : Call V}
    (hc : c ∈ calls) (hx : x ∈ calls) (hi : x.due.index = c.due.index) (hp : x.due.path = c.due.path) : x = c := by
  obtain ⟨l, _, hl, hlp, _⟩ := hin.due _ (List.mem_map_of_mem hc)
  obtain ⟨l', _, hl', hlp', _⟩ := hin.due _ (List.mem_map_of_mem hx)
  have hs : x.due.string = c.due.string := by
    have h1 : (leaves.map (·.path))[x.due.string]? = (leaves.map (·.path))[c.due.string]? := by
      rw [List.getElem?_map, List.getElem?_map, hl, hl']
      simp [← hlp, ← hlp', hp]
    have hlt : x.due.string < (leaves.map (·.path)).length := by
      rw [List.length_map]
      exact (List.getElem?_eq_some_iff.1 hl').1
    exact (List.getElem?_inj hlt hnd).1 h1
  have honce := hin.once
  rw [List.map_map] at honce
  exact eq_of_nodup_map honce hx hc (by simp [hs, hi])

theorem repeating_rule {sc : KScanner V} {calls : List (Call V)} {r : Nat} {rule' : CRule}
    (h : (repeating sc calls).rules[r]? = some rule') : ∃ rule, sc.rules[r]? = some rule ∧ rule'.info = rule.info ∧
      ((∃ f, Stateless rule f ∧ rule'.run = f) ∨ rule'.run = answer calls r) := by
  simp only [repeating, List.getElem?_mapIdx] at h
  cases hr : sc.rules[r]? with
  | none => rw [hr] at h; simp at h
  | some rule =>
    rw [hr] at h
    simp only [Option.map_some, Option.some.injEq] at h
    subst h
    refine ⟨rule, rfl, rfl, ?_⟩
    by_cases hs : ∃ f, Stateless rule f
    · exact Or.inl ⟨hs.choose, hs.choose_spec, by simp [hs]⟩
    · exact Or.inr (by simp [hs])

theorem repeating_repeats {sc : KScanner V} {blocked : List Nat} {leaves : List Leaf} {calls : List (Call V)}
    (hl : Lawful sc.rules calls.reverse) (hin : InOrder sc.rules sc.wildcards blocked leaves (calls.map (·.due)))
    (hnd : (leaves.map (·.path)).Nodup) : Repeats sc calls (repeating sc calls) where
  wildcards := rfl
  multipass := rfl
  returns := rfl
  fp := rfl
  rules := by
    apply List.ext_getElem?
    intro i
    simp only [repeating, List.getElem?_map, List.getElem?_mapIdx]
    cases sc.rules[i]? <;> rfl
  found := by
    intro c hc rule' hr'
    obtain ⟨rule, hr, _, h⟩ := repeating_rule hr'
    have hcr := hl.rule c (List.mem_reverse.2 hc)
    rw [hr] at hcr
    cases hcr
    rcases h with ⟨f, hf, e⟩ | e
    · rw [e]
      exact hf.ok (hl.did c (List.mem_reverse.2 hc))
    · rw [e]
      unfold answer
      split
      · next x hx =>
        have hp := List.find?_some hx
        simp only [decide_eq_true_eq] at hp
        rw [find_call hin hnd hc (List.mem_of_find?_eq_some hx) hp.1 hp.2.1]
      · next hx =>
        have := List.find?_eq_none.1 hx c hc
        simp at this

theorem repeating_stateless {sc : KScanner V} {calls : List (Call V)} {r : Nat} {rule : KRule V}
    {f : Str → Path → Bool → Res Found} (hr : sc.rules[r]? = some rule) (hf : Stateless rule f) :
    ∃ rule', (repeating sc calls).rules[r]? = some rule' ∧ rule'.run = f := by
  have hs : ∃ f, Stateless rule f := ⟨f, hf⟩
  refine ⟨_, by simp only [repeating, List.getElem?_mapIdx, hr, Option.map_some]; rfl, ?_⟩
  simp only [hs, dif_pos]
  exact hs.choose_spec.unique hf

theorem repeating_ok {sc : KScanner V} {calls : List (Call V)} (hl : Lawful sc.rules calls.reverse)
    (hok : ∀ rule ∈ sc.rules, KRuleOk rule) : ScannerOk (repeating sc calls) := by
  intro rule' hmem
  obtain ⟨r, hr⟩ := List.getElem?_of_mem hmem
  obtain ⟨rule, hrule, hinfo, h⟩ := repeating_rule hr
  have hk := hok rule (List.mem_of_getElem? hrule)
  -- whatever the rule finds was found by a call of the real one
  have key : ∀ c p ex f, rule'.run c p ex = Res.ok f → f = ⟨[], []⟩ ∨ ∃ d g k d' k', rule.run c p ex d g k = Res.ok (f, d', k') := by
    intro c p ex f hf
    rcases h with ⟨f0, hf0, e⟩ | e
    · refine Or.inr ⟨rule.createData, rule.createConfig, rule.createCache, rule.createData, rule.createCache, ?_⟩
      rw [hf0, ← e, hf]
      rfl
    · rw [e] at hf
      unfold answer at hf
      split at hf
      · next x hx =>
        cases hf
        have hp := List.find?_some hx
        simp only [decide_eq_true_eq] at hp
        have hxm := List.mem_reverse.2 (List.mem_of_find?_eq_some hx)
        have hd := hl.did x hxm
        have hxr := hl.rule x hxm
        rw [hp.1, hrule] at hxr
        cases hxr
        rw [hp.2.1, hp.2.2.1, hp.2.2.2] at hd
        exact Or.inr ⟨_, _, _, _, _, hd⟩
      · cases hf
        exact Or.inl rfl
  refine ⟨?_, ?_, ?_, by rw [hinfo]; exact hk.action⟩
  · intro c p ex f hf m hm
    rcases key c p ex f hf with rfl | ⟨d, g, k, d', k', h⟩
    · cases hm
    · exact hk.ranges _ _ _ _ _ _ _ _ _ h m hm
  · intro c p f hf
    rcases key c p true f hf with rfl | ⟨d, g, k, d', k', h⟩
    · rfl
    · exact hk.excluded _ _ _ _ _ _ _ _ h
  · intro c p f hf
    rcases key c p false f hf with rfl | ⟨d, g, k, d', k', h⟩
    · rfl
    · exact hk.scanned _ _ _ _ _ _ _ _ h

theorem repeating_returns {sc : KScanner V} {calls : List (Call V)} {leaves : List Leaf}
    (h : ∀ rule ∈ sc.rules, ∀ c p ex d g k, ∃ x, rule.run c p ex d g k = Res.ok x) :
    Returns (repeating sc calls) leaves := by
  intro rule' hmem l _ ex
  obtain ⟨r, hr⟩ := List.getElem?_of_mem hmem
  obtain ⟨rule, hrule, _, hs⟩ := repeating_rule hr
  rcases hs with ⟨f, hf, e⟩ | e
  · obtain ⟨x, hx⟩ := h rule (List.mem_of_getElem? hrule) l.text l.path ex rule.createData rule.createConfig rule.createCache
    rw [e]
    exact ⟨x.1, hf.ok (d' := x.2.1) (k' := x.2.2) hx⟩
  · rw [e]
    unfold answer
    split
    · exact ⟨_, rfl⟩
    · exact ⟨_, rfl⟩

/-! ## The scan -/

theorem scanK_trace {E : Type} {impl : EventImpl E} {wf : E → Prop} {leavesOf : E → List Leaf}
    {rew : (Path → Str → Str) → E → E} (hE : LawfulEvent impl wf leavesOf rew) {sc : KScanner V} (hb : HasConfigs sc)
    (e : E) (hwf : wf e) : ∃ vs, VisitsOf sc.rules sc.wildcards (leavesOf e) vs ∧ ∀ blocked,
    (∃ calls, Lawful sc.rules calls.reverse ∧ calls.map (·.due) = dueVisits blocked 0 vs ∧
      ∀ sc', Repeats sc calls sc' → scanK impl sc e blocked = scan impl sc' e blocked) ∨
    (∃ (calls : List (Call V)) (d : Due) (rest : List Due), Lawful sc.rules calls.reverse ∧
      calls.map (·.due) ++ d :: rest = dueVisits blocked 0 vs ∧
      Fails sc.rules calls.reverse d (scanK impl sc e blocked)) := by
  obtain ⟨vs, h1, h2, h3⟩ := Props.visits_of_scopes (sc.rules.map (·.scope)) sc.wildcards (hE.visits e hwf)
  have hvo : VisitsOf sc.rules sc.wildcards (leavesOf e) vs :=
    ⟨h2, fun v hv => (h3 v hv).1, fun v hv => (h3 v hv).2.1, fun v hv => (h3 v hv).2.2⟩
  refine ⟨vs, hvo, fun blocked => ?_⟩
  unfold scanK
  rw [h1]
  dsimp only
  rcases runVisitsK_trace hb blocked vs hvo.rule 0 [] [] [] Lawful.nil (by simp) Tracks.nil with
    ⟨new, l, ex', g1, g2, g3, g4⟩ | ⟨new, d, rest, g1, g2, rule, x, y, z, hg, g3⟩
  · refine Or.inl ⟨new.reverse, by simpa using g1, g2, fun sc' hr => ?_⟩
    have hsame : Same new sc' := by
      have := hr.same (fun c hc => ⟨c.rule, by
        have := g1.rule c (by simpa using hc)
        exact this⟩)
      intro c hc
      exact this c (List.mem_reverse.2 hc)
    have hsc : sc'.rules.map (·.scope) = sc.rules.map (·.scope) := by
      have := congrArg (List.map fun x : RuleInfo × Scope × Bool => x.2.1) hr.rules
      simpa [List.map_map, Function.comp_def] using this
    unfold scan
    rw [hsc, hr.wildcards, h1]
    dsimp only
    rw [g3, g4 sc' hsame]
    dsimp only
    refine editAll_same impl ?_ ?_ hr.multipass.symm hr.returns.symm hr.fp.symm _ _ _
    · have := congrArg (List.map fun x : RuleInfo × Scope × Bool => x.1) hr.rules
      simp only [List.map_map, Function.comp_def] at this
      rw [this]
      simp [KScanner.frame, List.map_map, Function.comp_def]
    · have := congrArg (List.map fun x : RuleInfo × Scope × Bool => x.2.2) hr.rules
      simp only [List.map_map, Function.comp_def] at this
      rw [this]
      simp [KScanner.frame, List.map_map, Function.comp_def]
  · refine Or.inr ⟨new.reverse, d, rest, by simpa using g1, g2, rule, x, y, z, by simpa using hg, ?_⟩
    rcases g3 with ⟨a, b⟩ | ⟨a, b⟩
    · exact Or.inl ⟨a, by rw [b]⟩
    · exact Or.inr ⟨a, by rw [b]⟩

end

end Sds
