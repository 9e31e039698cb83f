import Verif.Lemmas.ParResult
import Verif.Props.Validation

/-! # C88: match validation by many threads

Every theorem is about all interleavings of the steps of all threads (`ParRun`) and about all replies the servers might
give.  The groups, the checks of a group and the orders of the tables are those of the code. -/

namespace Sds.Props

open Sds.Spec

theorem typeOf_ofType (rules : List (Option VType)) (t : IType) (m : RuleMatch) :
    (typeOf rules m == some t) = ofType rules t m := by
  cases t with
  | aws => exact typeOf_aws rules m
  | http es => exact typeOf_http rules es m

theorem all2_mem_right {α β : Type} {R : α → β → Prop} {as : List α} {bs : List β} (h : All2 R as bs) {b : β}
    (hb : b ∈ bs) : ∃ a ∈ as, R a b := by
  induction h with
  | nil => simp at hb
  | cons h1 _ ih =>
    rcases List.mem_cons.1 hb with rfl | hb
    · exact ⟨_, by simp, h1⟩
    · obtain ⟨a, ha, hr⟩ := ih hb
      exact ⟨a, by simp [ha], hr⟩

theorem all2_mem_left {α β : Type} {R : α → β → Prop} {as : List α} {bs : List β} (h : All2 R as bs) {a : α}
    (ha : a ∈ as) : ∃ b ∈ bs, R a b := by
  induction h with
  | nil => simp at ha
  | cons h1 _ ih =>
    rcases List.mem_cons.1 ha with rfl | ha
    · exact ⟨_, by simp, h1⟩
    · obtain ⟨b, hb, hr⟩ := ih ha
      exact ⟨b, by simp [hb], hr⟩

theorem types_eq {sg : Signer} {rules : List (Option VType)} {vs : List (IType × Validator)}
    {gs : List (IType × List RuleMatch)} {groups : List Group} (h : All2 (OneOk sg rules vs) gs groups) :
    groups.map (·.type) = gs.map (·.1) := by
  induction h with
  | nil => rfl
  | cons h1 _ ih => simp [h1.type, ih]

theorem groupOf_of_mem {gs : List (IType × List RuleMatch)} (hn : (gs.map (·.1)).Nodup) {o : IType × List RuleMatch}
    (ho : o ∈ gs) : groupOf gs o.1 = o.2 := by
  induction gs with
  | nil => simp at ho
  | cons x gs ih =>
    obtain ⟨u, l⟩ := x
    simp only [List.map_cons, List.nodup_cons] at hn
    rcases List.mem_cons.1 ho with rfl | ho
    · simp [groupOf]
    · have hne : o.1 ≠ u := fun e => hn.1 (e ▸ List.mem_map_of_mem (f := (·.1)) ho)
      have hb : (o.1 == u) = false := by simp [hne]
      have := ih hn.2 ho
      unfold groupOf at this ⊢
      rw [List.lookup_cons, hb]
      exact this

/-- The groups of a call, at any time. -/
theorem par_groups {sg : Signer} {rules : List (Option VType)} {vs : List (IType × Validator)} {ms : List RuleMatch}
    {gs : List (IType × List RuleMatch)} {groups : List Group} (hg : groupMatches rules ms [] = .ok gs)
    (hr : ParRun sg rules (startGroups vs gs) groups) :
    (groups.map (·.type)).Nodup ∧ (∀ m ∈ ms, ∀ t, ofType rules t m = true → t ∈ groups.map (·.type)) ∧
    ∀ g ∈ groups, OneOk sg rules vs (g.type, ms.filter (ofType rules g.type)) g := by
  have hi := par_inv hr
  obtain ⟨n1, g1, k1, -⟩ := groupMatches_ok rules ms [] gs hg (by simp)
  rw [types_eq hi]
  refine ⟨n1, fun m hm t ht => (k1 t).2 (.inr ⟨m, hm, ?_⟩), fun g hgm => ?_⟩
  · rw [← typeOf_ofType] at ht
    exact eq_of_beq ht
  · obtain ⟨o, ho, h1⟩ := all2_mem_right hi hgm
    have e : o.2 = ms.filter (ofType rules o.1) := by
      rw [← groupOf_of_mem n1 ho, g1]
      simp only [groupOf, List.lookup_nil, Option.getD_none, List.nil_append]
      exact congrArg (fun f => ms.filter f) (funext fun m => typeOf_ofType rules o.1 m)
    rw [h1.type, ← e]
    exact h1

/-- C88, requests: at any time of a call, the groups are those of the validation types of the matches; for each check of
a group at most one request was made, the one its configuration prescribes, and at most one reply taken; groups
without a validator make none. -/
theorem C88_requests_once {sg : Signer} {rules : List (Option VType)} {vs : List (IType × Validator)} {ms : List RuleMatch}
    {gs : List (IType × List RuleMatch)} {groups : List Group} (hg : groupMatches rules ms [] = .ok gs)
    (hr : ParRun sg rules (startGroups vs gs) groups) :
    (groups.map (·.type)).Nodup ∧
    ∀ g ∈ groups, ∀ k, traffic g.log k ≠ [] → ∃ v r, vs.lookup g.type = some v ∧
      Prescribed sg.word rules (ms.filter (ofType rules g.type)) v k r ∧ AtMostOnce g.log k r := by
  obtain ⟨h1, -, h2⟩ := par_groups hg hr
  refine ⟨h1, fun g hgm k hk => ?_⟩
  have ho := h2 g hgm
  cases e : vs.lookup g.type with
  | none =>
    have := (ho.idle e).log
    rw [this] at hk
    exact absurd rfl hk
  | some v =>
    obtain ⟨r, hr, ha⟩ := ((ho.busy v e).traffic k).resolve_left hk
    exact ⟨v, r, rfl, hr, ha⟩

/-- C88, results: whatever the interleaving and the replies, when `validate_matches` returns, every prescribed request
was made exactly once and answered; every match keeps its place in its group, and its status is the highest of the one it
had and those that the replies for it give; what is returned is the matches of the groups, sorted by their starts: exactly
the given matches whose rules have a validation type, up to the statuses. -/
theorem C88_result {sg : Signer} {rules : List (Option VType)} {vs : List (IType × Validator)} {ms : List RuleMatch}
    {groups : List Group} {outs : List RuleMatch} (h : ParValidates sg rules vs ms groups outs) :
    (∀ g ∈ groups, Judged g.log rules (ms.filter (ofType rules g.type)) g.matches_ (vs.lookup g.type) ∧
      ∀ v k r, vs.lookup g.type = some v → Prescribed sg.word rules (ms.filter (ofType rules g.type)) v k r →
        ∃ a, Exchanged g.log k r a) ∧
    outs.Perm (groups.flatMap (·.matches_)) ∧ outs.Pairwise (fun a b => a.start ≤ b.start) ∧
    (outs.map fixedPart).Perm ((ms.filter (isValidated rules)).map fixedPart) := by
  obtain ⟨gs, _, order, hg, hr, hf, ho⟩ := h
  obtain ⟨hn, hall, h2⟩ := par_groups hg hr
  have hperm : (sortBy startIndexLe (order.flatMap (·.matches_))).Perm (groups.flatMap (·.matches_)) :=
    (sortBy_perm _ _).trans (ho.flatMap_right _)
  have hj : ∀ g ∈ groups, Judged g.log rules (ms.filter (ofType rules g.type)) g.matches_ (vs.lookup g.type) :=
    fun g hgm => (h2 g hgm).judged (hf g hgm)
  refine ⟨fun g hgm => ⟨hj g hgm, fun v k r hv hp => ((h2 g hgm).busy v hv).all_asked (hf g hgm) hp⟩, hperm, ?_, ?_⟩
  · have := sortBy_pairwise (le := startIndexLe) (fun a b c h1 h2 => by simp [startIndexLe] at *; omega)
      (fun a b => by simp [startIndexLe]; omega) (order.flatMap (·.matches_))
    exact this.imp (fun h => by simpa [startIndexLe] using h)
  · refine (hperm.map fixedPart).trans ?_
    have he : ∀ g ∈ groups, g.matches_.map fixedPart = (ms.filter fun m => typeOf rules m == some g.type).map fixedPart := by
      intro g hgm
      have hef : (fun m => typeOf rules m == some g.type) = ofType rules g.type := funext fun m => typeOf_ofType rules g.type m
      rw [hef]
      have := hj g hgm
      cases e : vs.lookup g.type with
      | none => rw [e] at this; exact congrArg _ this
      | some v =>
        rw [e] at this
        rw [← map_fixedPart g.matches_, ← map_fixedPart (ms.filter _)]
        cases v with
        | http cfg => rw [Spec.Updated.erase this]
        | aws cfg => rw [Spec.Updated.erase this]
    rw [flatMap_map_congr groups (·.matches_) (fun g => ms.filter fun m => typeOf rules m == some g.type) fixedPart he]
    have hp := perm_groups rules (groups.map (·.type)) hn ms (fun m hm t ht => hall m hm t (by
      rw [← typeOf_ofType, ht]; simp))
    rw [List.flatMap_map] at hp
    have := hp.map fixedPart
    simpa only [typeOf_some] using this

/-- C88, panics: the parallel loop panics only when some check cannot make its request, and then no interleaving
returns. -/
theorem C88_panics_alike {sg : Signer} {rules : List (Option VType)} {vs : List (IType × Validator)}
    {ms : List RuleMatch} :
    (∀ groups, ParPanics sg rules vs ms groups →
      ∃ g ∈ groups, FaultyGroup sg rules (ms.filter (ofType rules g.type)) (vs.lookup g.type)) ∧
    ∀ groups outs, ParValidates sg rules vs ms groups outs →
      ∀ t, ¬ FaultyGroup sg rules (ms.filter (ofType rules t)) (vs.lookup t) := by
  refine ⟨fun groups h => ?_, fun groups outs h t hF => ?_⟩
  · obtain ⟨gs, _, hg, hr, ⟨g, hgm, hc⟩, -⟩ := h
    have ho := (par_groups hg hr).2.2 g hgm
    refine ⟨g, hgm, ?_⟩
    cases e : vs.lookup g.type with
    | none =>
      have := (ho.idle e).phase
      rw [hc] at this
      simp at this
    | some v => exact (ho.busy v e).faulty hc
  · obtain ⟨gs, _, order, hg, hr, hf, -⟩ := h
    obtain ⟨-, hall, h2⟩ := par_groups hg hr
    have hne : ∃ m ∈ ms, ofType rules t m = true := by
      cases e : vs.lookup t with
      | none => rw [e] at hF; exact hF.elim
      | some v =>
        rw [e] at hF
        cases v with
        | http cfg =>
          obtain ⟨-, m, hm, -⟩ := hF
          exact ⟨m, List.mem_filter.1 hm⟩
        | aws cfg =>
          obtain ⟨i, j, r, ⟨⟨a, b, ha, -⟩, -⟩, -⟩ := hF
          exact ⟨a, List.mem_filter.1 (List.mem_of_getElem? ha)⟩
    obtain ⟨m, hm, ht⟩ := hne
    obtain ⟨g, hgm, rfl⟩ := List.mem_map.1 (hall m hm t ht)
    cases e : vs.lookup g.type with
    | none => rw [e] at hF; exact hF
    | some v => rw [e] at hF; exact ((h2 g hgm).busy v e).not_faulty (hf g hgm) hF

/-- C88, termination: there is no infinite run, from any state; and a call in which all servers reply or time out always
goes on until it returns or panics. -/
theorem C88_ends {sg : Signer} {rules : List (Option VType)} :
    WellFounded (fun gs' gs => ParStep sg rules gs gs') ∧
    ∀ {vs : List (IType × Validator)} {ms : List RuleMatch} {gs : List (IType × List RuleMatch)} {groups : List Group},
      groupMatches rules ms [] = .ok gs → ParRun sg rules (startGroups vs gs) groups →
      (∃ groups', ParStep sg rules groups groups') ∨ (∃ outs, ParValidates sg rules vs ms groups outs) ∨
        ParPanics sg rules vs ms groups := by
  refine ⟨Subrelation.wf (r := InvImage (· < ·) fun gs : List Group => (gs.map (Group.weight rules)).sum) (fun h => par_weight h)
    (InvImage.wf _ Nat.lt_wfRel.wf), fun {vs ms gs groups} hg hr => ?_⟩
  have h2 := (par_groups hg hr).2.2
  by_cases hs : ∃ g ∈ groups, ∃ g', GroupStep sg rules g g'
  · obtain ⟨g, hgm, g', hs⟩ := hs
    obtain ⟨a, b, rfl⟩ := List.append_of_mem hgm
    exact .inl ⟨_, .mk a g g' b hs⟩
  · have hend : ∀ g ∈ groups, g.phase = .finished ∨ g.phase = .crashed := fun g hgm => by
      rcases (h2 g hgm).progress with h | h | h
      · exact .inl h
      · exact .inr h
      · exact absurd ⟨g, hgm, h⟩ hs
    by_cases hc : ∃ g ∈ groups, g.phase = .crashed
    · exact .inr (.inr ⟨gs, _, hg, hr, hc, fun g hgm => (hend g hgm).elim (fun h => .inr (.inl h)) .inl⟩)
    · exact .inr (.inl ⟨_, gs, _, groups, hg, hr,
        fun g hgm => (hend g hgm).resolve_right fun h => hc ⟨g, hgm, h⟩, .refl _⟩)

/-! ## The sequential model -/

/-- The reply that was received for a check. -/
def replyOf (log : List NetEvent) (k : CheckKey) : Reply :=
  match traffic log k with
  | [_, .received _ a] => a
  | _ => .failed []

theorem replyOf_eq {log : List NetEvent} {k : CheckKey} {r : Request} {a : Reply} (h : Exchanged log k r a) :
    replyOf log k = a := by
  unfold replyOf
  rw [show traffic log k = _ from h]

/-- The outside world as a group saw it. -/
def netOf (sg : Signer) (log : List NetEvent) : Net where
  http := fun i r => replyOf log (.http i r.endpoint)
  aws := fun i j _ => replyOf log (.aws i j)
  signable := sg.signable
  word := sg.word

theorem refines_http {sg : Signer} {rules : List (Option VType)} {ins : List RuleMatch} {g : Group} {cfg : HttpConfig}
    (h : GroupOk sg rules ins (.http cfg) g) (hp : g.phase = .finished) (sch : Sched) (hf : Fair sch) :
    httpValidate (netOf sg g.log) sch cfg ins = .ok g.matches_ := by
  have hj := h.judged_http hp
  have hn := h.not_faulty hp
  have hok : ∃ outs, httpValidate (netOf sg g.log) sch cfg ins = .ok outs := by
    by_cases he : cfg.endpoints = []
    · exact ⟨_, httpValidate_none _ sch hf cfg he ins⟩
    · obtain ⟨outs, e, -⟩ := httpValidate_ok (netOf sg g.log) sch hf cfg ins
        (fun m hm hv => hn ⟨he, m, hm, hv⟩)
      exact ⟨outs, e⟩
  obtain ⟨outs, e⟩ := hok
  rw [e]
  congr 1
  refine Updated.unique httpFinal_unique (httpValidate_final _ sch hf cfg ins outs e) (hj.mono fun i m s hm hs => ?_)
  refine hs.congr fun x => or_congr Iff.rfl ?_
  constructor
  · rintro ⟨ep, r, a, hx, ho⟩
    obtain ⟨r', hr', ha⟩ := (h.traffic (.http i ep)).resolve_left (by rw [hx]; simp)
    cases hr' with
    | http _ _ m' text _ q hm' hv hq =>
      rw [hm] at hm'
      cases hm'
      refine ⟨text, hv, ep, q, hq, ?_⟩
      have : (netOf sg g.log).http i q = a := by
        show replyOf g.log (.http i q.endpoint) = a
        rw [hq.2.1]
        exact replyOf_eq hx
      rw [this]
      exact ho
  · rintro ⟨text, hv, ep, q, hq, ho⟩
    obtain ⟨a, hx⟩ := h.all_asked hp (Prescribed.http cfg i m text ep q hm hv hq)
    refine ⟨ep, _, a, hx, ?_⟩
    have : (netOf sg g.log).http i q = a := by
      show replyOf g.log (.http i q.endpoint) = a
      rw [hq.2.1]
      exact replyOf_eq hx
    rw [this] at ho
    exact ho

theorem pairOutcome_iff {sg : Signer} {rules : List (Option VType)} {ins : List RuleMatch} {g : Group} {cfg : AwsConfig}
    (h : GroupOk sg rules ins (.aws cfg) g) (hp : g.phase = .finished) (i j : Nat) (x : MatchStatus) :
    PairOutcome g.log rules ins i j x ↔ AwsPair rules ins i j ∧ AwsResult (netOf sg g.log) cfg ins i j x := by
  have asked : ∀ {a b id secret}, AwsPair rules ins i j → ins[i]? = some a → ins[j]? = some b → a.value = some id →
      b.value = some secret → ∃ r y, Exchanged g.log (.aws i j) r y ∧
        (netOf sg g.log).aws i j ⟨cfg, id, (netOf sg g.log).secretOf secret⟩ = y := by
    intro a b id secret h0 h1 h2 h3 h4
    obtain ⟨y, hy⟩ := h.all_asked hp (Prescribed.aws cfg i j _ ⟨h0, a, b, id, secret, h1, h2, h3, h4, rfl⟩)
    exact ⟨_, y, hy, replyOf_eq hy⟩
  constructor
  · intro hx
    have hpair := h.pair_of_outcome hx
    refine ⟨hpair, ?_⟩
    cases hx with
    | noSecret b _ h1 h2 => exact .noSecret b h1 h2
    | noId a b se _ h1 h2 h3 h4 => exact .noId a b se h1 h2 h3 h4
    | reply r y s hy hs =>
      obtain ⟨r', hr', -⟩ := (h.traffic (.aws i j)).resolve_left (by rw [hy]; simp)
      cases hr' with
      | aws _ _ _ q hq =>
        obtain ⟨-, a, b, id, se, h1, h2, h3, h4, -⟩ := hq
        have hn : (netOf sg g.log).aws i j ⟨cfg, id, (netOf sg g.log).secretOf se⟩ = y := replyOf_eq hy
        cases hs with
        | accepted code h5 h6 => exact .accepted ⟨a, b, id, se, code, h1, h2, h3, h4, hn, h5, h6⟩
        | refused code h5 h6 => exact .refused a b id se code h1 h2 h3 h4 hn h5 h6
        | server code h5 h6 => exact .server a b id se code h1 h2 h3 h4 hn h5 h6
        | failed e => exact .failed a b id se e h1 h2 h3 h4 hn
  · rintro ⟨hpair, hx⟩
    cases hx with
    | noSecret b h1 h2 => exact .noSecret b hpair h1 h2
    | noId a b se h1 h2 h3 h4 => exact .noId a b se hpair h1 h2 h3 h4
    | accepted ha =>
      obtain ⟨a, b, id, se, code, h1, h2, h3, h4, h5, h6, h7⟩ := ha
      obtain ⟨r, y, hy, e⟩ := asked hpair h1 h2 h3 h4
      rw [e] at h5
      exact .reply r y _ hy (h5 ▸ .accepted code h6 h7)
    | refused a b id se code h1 h2 h3 h4 h5 h6 h7 =>
      obtain ⟨r, y, hy, e⟩ := asked hpair h1 h2 h3 h4
      rw [e] at h5
      exact .reply r y _ hy (h5 ▸ .refused code h6 h7)
    | server a b id se code h1 h2 h3 h4 h5 h6 h7 =>
      obtain ⟨r, y, hy, e⟩ := asked hpair h1 h2 h3 h4
      rw [e] at h5
      exact .reply r y _ hy (h5 ▸ .server code h6 h7)
    | failed a b id se e h1 h2 h3 h4 h5 =>
      obtain ⟨r, y, hy, e'⟩ := asked hpair h1 h2 h3 h4
      rw [e'] at h5
      exact .reply r y _ hy (h5 ▸ .failed e)

theorem refines_aws {sg : Signer} {rules : List (Option VType)} {ins : List RuleMatch} {g : Group} {cfg : AwsConfig}
    (h : GroupOk sg rules ins (.aws cfg) g) (hp : g.phase = .finished) (sch : Sched) (hf : Fair sch) :
    awsValidate (netOf sg g.log) sch cfg rules ins = .ok g.matches_ := by
  have hj := h.judged_aws hp
  have hs : Signable (netOf sg g.log) cfg rules ins := by
    intro i j a b id secret h0 h1 h2 h3 h4
    cases hc : (netOf sg g.log).signable ⟨cfg, id, (netOf sg g.log).secretOf secret⟩ with
    | true => rfl
    | false => exact absurd ⟨i, j, _, ⟨h0, a, b, id, secret, h1, h2, h3, h4, rfl⟩, hc⟩ (h.not_faulty hp)
  obtain ⟨outs, e, hu⟩ := C38_aws (netOf sg g.log) sch hf cfg rules ins hs
  rw [e]
  congr 1
  refine Updated.unique (P := fun i m s => Highest (fun x => x = m.status ∨
    (∃ j, AwsPair rules ins i j ∧ AwsResult (netOf sg g.log) cfg ins i j x) ∨
    (∃ j, AwsPair rules ins j i ∧ AwsResult (netOf sg g.log) cfg ins j i x)) s)
    (fun i m s s' h h' => Highest.unique h h') hu (hj.mono fun i m s _ hs => ?_)
  refine hs.congr fun x => or_congr Iff.rfl (or_congr ?_ ?_)
  · exact exists_congr fun j => pairOutcome_iff h hp i j x
  · exact exists_congr fun j => pairOutcome_iff h hp j i x

/-- C88, refinement: in every interleaving, each group ends as the sequential model says for the replies it received, in
whatever order that model goes through its tables. -/
theorem C88_refines_sequential {sg : Signer} {rules : List (Option VType)} {vs : List (IType × Validator)}
    {ms : List RuleMatch} {groups : List Group} {outs : List RuleMatch} (h : ParValidates sg rules vs ms groups outs) :
    ∀ g ∈ groups, ∀ v, vs.lookup g.type = some v → ∃ net : Net, net.signable = sg.signable ∧ net.word = sg.word ∧
      (∀ i r a, Exchanged g.log (.http i r.endpoint) (.http r) a → net.http i r = a) ∧
      (∀ i j r a, Exchanged g.log (.aws i j) (.aws r) a → net.aws i j r = a) ∧
      ∀ sch, Fair sch → v.validate net sch rules (ms.filter (ofType rules g.type)) = .ok g.matches_ := by
  obtain ⟨gs, _, order, hg, hr, hf, ho⟩ := h
  intro g hgm v hv
  have h1 := ((par_groups hg hr).2.2 g hgm).busy v hv
  refine ⟨netOf sg g.log, rfl, rfl, fun i r a hx => replyOf_eq hx, fun i j r a hx => replyOf_eq hx, fun sch hs => ?_⟩
  cases v with
  | http cfg => exact refines_http h1 (hf g hgm) sch hs
  | aws cfg => exact refines_aws h1 (hf g hgm) sch hs

/-! ## An example: two groups make equal requests, get different replies, and their steps alternate -/

def twoRules : List (Option VType) :=
  [some (.http (webCfg ['g'])), some (.http { webCfg ['g'] with endpoints := [['u'], ['v']] })]

def twoVs : List (IType × Validator) :=
  [(.http [['u']], .http (webCfg ['g'])), (.http [['u'], ['v']], .http { webCfg ['g'] with endpoints := [['u'], ['v']] })]

def anySigner : Signer := ⟨fun _ => true, fun _ => false⟩

namespace ParExample

def cfgA : Validator := .http { webCfg ['g'] with endpoints := [['u'], ['v']] }
def cfgB : Validator := .http (webCfg ['g'])

def a0 : Group := { type := .http [['u'], ['v']], matches_ := [aMatch 1 5 ['b'] .notChecked], validator := some cfgA }
def a1 : Group := { a0 with phase := .checking, keys := jobKeys twoRules a0.matches_ cfgA }
def a2 : Group := { a1 with jobs := setJob a1.jobs (.http 0 ['u']) .waiting, log := a1.log ++ [.sent (.http 0 ['u']) (.http ⟨.get, ['u'], [(['k'], ['g'])], 3⟩)] }
def a3 : Group := { a2 with jobs := setJob a2.jobs (.http 0 ['v']) .waiting, log := a2.log ++ [.sent (.http 0 ['v']) (.http ⟨.get, ['v'], [(['k'], ['g'])], 3⟩)] }
def a4 : Group := { a3 with jobs := setJob a3.jobs (.http 0 ['v']) (.done .invalid), log := a3.log ++ [.received (.http 0 ['v']) (.response 404)] }
def a5 : Group := { a4 with jobs := setJob a4.jobs (.http 0 ['u']) (.done .invalid), log := a4.log ++ [.received (.http 0 ['u']) (.response 403)] }
def a6 : Group := { a5 with phase := .merging [.http 0 ['v'], .http 0 ['u']] }
def a7 : Group := { a6 with phase := .merging [.http 0 ['u']], matches_ := mergeKey a6.matches_ .invalid (.http 0 ['v']) }
def a8 : Group := { a7 with phase := .merging [], matches_ := mergeKey a7.matches_ .invalid (.http 0 ['u']) }
def a9 : Group := { a8 with phase := .finished }

def b0 : Group := { type := .http [['u']], matches_ := [aMatch 0 2 ['b'] .notChecked], validator := some cfgB }
def b1 : Group := { b0 with phase := .checking, keys := jobKeys twoRules b0.matches_ cfgB }
def b2 : Group := { b1 with jobs := setJob b1.jobs (.http 0 ['u']) .waiting, log := b1.log ++ [.sent (.http 0 ['u']) (.http ⟨.get, ['u'], [(['k'], ['g'])], 3⟩)] }
def b3 : Group := { b2 with jobs := setJob b2.jobs (.http 0 ['u']) (.done .valid), log := b2.log ++ [.received (.http 0 ['u']) (.response 200)] }
def b4 : Group := { b3 with phase := .merging [.http 0 ['u']] }
def b5 : Group := { b4 with phase := .merging [], matches_ := mergeKey b4.matches_ .valid (.http 0 ['u']) }
def b6 : Group := { b5 with phase := .finished }

theorem doneA : ∀ k ∈ a5.keys, ∃ s, a5.jobs k = .done s := by
  intro k hk
  have : k = .http 0 ['u'] ∨ k = .http 0 ['v'] := by
    have e : a5.keys = [.http 0 ['u'], .http 0 ['v']] := by decide
    simpa [e] using hk
  rcases this with rfl | rfl <;> exact ⟨.invalid, rfl⟩

theorem doneB : ∀ k ∈ b3.keys, ∃ s, b3.jobs k = .done s := by
  intro k hk
  have : k = .http 0 ['u'] := by
    have e : b3.keys = [.http 0 ['u']] := by decide
    simpa [e] using hk
  subst this
  exact ⟨.valid, rfl⟩

theorem run : ParRun anySigner twoRules [a0, b0] [a9, b6] := by
  have h0 : ParRun anySigner twoRules [a0, b0] [a0, b0] := .refl _
  have h1 : ParRun anySigner twoRules [a0, b0] [a1, b0] := .tail h0 (.mk [] a0 a1 [b0] (.start _ cfgA rfl rfl))
  have h2 : ParRun anySigner twoRules [a0, b0] [a1, b1] := .tail h1 (.mk [a1] b0 b1 [] (.start _ cfgB rfl rfl))
  have h3 : ParRun anySigner twoRules [a0, b0] [a2, b1] := .tail h2 (.mk [] a1 a2 [b1] (.send _ cfgA (.http 0 ['u']) (.http ⟨.get, ['u'], [(['k'], ['g'])], 3⟩) rfl rfl (by decide) rfl (by decide)))
  have h4 : ParRun anySigner twoRules [a0, b0] [a2, b2] := .tail h3 (.mk [a2] b1 b2 [] (.send _ cfgB (.http 0 ['u']) (.http ⟨.get, ['u'], [(['k'], ['g'])], 3⟩) rfl rfl (by decide) rfl (by decide)))
  have h5 : ParRun anySigner twoRules [a0, b0] [a2, b3] := .tail h4 (.mk [a2] b2 b3 [] (.receive _ cfgB (.http 0 ['u']) (.response 200) rfl rfl (by decide) rfl))
  have h6 : ParRun anySigner twoRules [a0, b0] [a3, b3] := .tail h5 (.mk [] a2 a3 [b3] (.send _ cfgA (.http 0 ['v']) (.http ⟨.get, ['v'], [(['k'], ['g'])], 3⟩) rfl rfl (by decide) rfl (by decide)))
  have h7 : ParRun anySigner twoRules [a0, b0] [a4, b3] := .tail h6 (.mk [] a3 a4 [b3] (.receive _ cfgA (.http 0 ['v']) (.response 404) rfl rfl (by decide) rfl))
  have h8 : ParRun anySigner twoRules [a0, b0] [a5, b3] := .tail h7 (.mk [] a4 a5 [b3] (.receive _ cfgA (.http 0 ['u']) (.response 403) rfl rfl (by decide) rfl))
  have h9 : ParRun anySigner twoRules [a0, b0] [a6, b3] := .tail h8 (.mk [] a5 a6 [b3] (.join _ [.http 0 ['v'], .http 0 ['u']] rfl doneA (List.Perm.swap _ _ _)))
  have h10 : ParRun anySigner twoRules [a0, b0] [a7, b3] := .tail h9 (.mk [] a6 a7 [b3] (.merge _ (.http 0 ['v']) [.http 0 ['u']] .invalid rfl rfl))
  have h11 : ParRun anySigner twoRules [a0, b0] [a7, b4] := .tail h10 (.mk [a7] b3 b4 [] (.join _ [.http 0 ['u']] rfl doneB (.refl _)))
  have h12 : ParRun anySigner twoRules [a0, b0] [a8, b4] := .tail h11 (.mk [] a7 a8 [b4] (.merge _ (.http 0 ['u']) [] .invalid rfl rfl))
  have h13 : ParRun anySigner twoRules [a0, b0] [a8, b5] := .tail h12 (.mk [a8] b4 b5 [] (.merge _ (.http 0 ['u']) [] .valid rfl rfl))
  have h14 : ParRun anySigner twoRules [a0, b0] [a9, b5] := .tail h13 (.mk [] a8 a9 [b5] (.finish _ rfl))
  have h15 : ParRun anySigner twoRules [a0, b0] [a9, b6] := .tail h14 (.mk [a9] b5 b6 [] (.finish _ rfl))
  exact h15

/-- The match of the first rule is found valid at `u`; the same request for the match of the second rule is refused. -/
example : ParValidates anySigner twoRules twoVs [aMatch 1 5 ['b'] .notChecked, aMatch 0 2 ['b'] .notChecked] [a9, b6]
    [aMatch 0 2 ['b'] .valid, aMatch 1 5 ['b'] .invalid] := by
  have e : [aMatch 0 2 ['b'] .valid, aMatch 1 5 ['b'] .invalid] = sortBy startIndexLe ([b6, a9].flatMap (·.matches_)) := by
    decide
  rw [e]
  refine .mk [(a0.type, a0.matches_), (b0.type, b0.matches_)] _ _ (by decide) run ?_ (List.Perm.swap _ _ _)
  intro g hg
  simp at hg
  rcases hg with rfl | rfl <;> rfl

def noText : RuleMatch := { aMatch 0 2 ['b'] .notChecked with value := none }
def c0 : Group := { type := .http [['u']], matches_ := [noText, aMatch 0 4 ['b'] .notChecked], validator := some cfgB }
def c1 : Group := { c0 with phase := .checking, keys := jobKeys twoRules c0.matches_ cfgB }
def c2 : Group := { c1 with jobs := setJob c1.jobs (.http 0 ['u']) .crashed }
def c3 : Group := { c2 with phase := .crashed }

theorem idleC : ∀ k ∈ c2.keys, c2.jobs k ≠ .waiting := by
  intro k hk
  have : k = .http 0 ['u'] ∨ k = .http 1 ['u'] := by
    have e : c2.keys = [.http 0 ['u'], .http 1 ['u']] := by decide
    simpa [e] using hk
  rcases this with rfl | rfl <;> decide

/-- A match without a text: the call panics, here before the request for the other match is made. -/
example : ParPanics anySigner twoRules twoVs [noText, aMatch 0 4 ['b'] .notChecked] [c3] ∧ c3.log = [] ∧
    FaultyGroup anySigner twoRules [noText, aMatch 0 4 ['b'] .notChecked] (some cfgB) := by
  refine ⟨.mk [(c0.type, c0.matches_)] [c3] (by decide) ?_ ⟨c3, by simp, rfl⟩ (by intro g hg; simp at hg; subst hg; exact .inl rfl),
    rfl, by decide, noText, by simp, rfl⟩
  have h1 : ParRun anySigner twoRules [c0] [c1] := .tail (.refl _) (.mk [] c0 c1 [] (.start _ cfgB rfl rfl))
  have h2 : ParRun anySigner twoRules [c0] [c2] :=
    .tail h1 (.mk [] c1 c2 [] (.panic _ cfgB (.http 0 ['u']) rfl rfl (by decide) rfl (by decide)))
  exact .tail h2 (.mk [] c2 c3 [] (.crash _ (.http 0 ['u']) rfl (by decide) rfl idleC))

end ParExample

end Sds.Props
