import Verif.Lemmas.ParValidate

/-! # The threads that validate matches: requests, results and panics of a group -/

namespace Sds

open Spec

theorem mem_jobKeys_http {rules : List (Option VType)} {ms : List RuleMatch} {cfg : HttpConfig} {k : CheckKey} :
    k ∈ jobKeys rules ms (.http cfg) ↔ ∃ i e, k = .http i e ∧ i < ms.length ∧ e ∈ cfg.endpoints := by
  simp only [jobKeys, List.mem_map, mem_httpKeys]
  constructor
  · rintro ⟨⟨i, e⟩, ⟨h1, h2⟩, rfl⟩; exact ⟨i, e, rfl, h1, h2⟩
  · rintro ⟨i, e, rfl, h1, h2⟩; exact ⟨(i, e), ⟨h1, h2⟩, rfl⟩

theorem mem_jobKeys_aws {rules : List (Option VType)} {ms : List RuleMatch} {cfg : AwsConfig} {k : CheckKey} :
    k ∈ jobKeys rules ms (.aws cfg) ↔ ∃ i j, k = .aws i j ∧ AwsPair rules ms i j := by
  simp only [jobKeys, List.mem_map]
  constructor
  · rintro ⟨⟨i, j⟩, h, rfl⟩; exact ⟨i, j, rfl, (mem_awsPairs rules ms i j).1 h⟩
  · rintro ⟨i, j, rfl, h⟩; exact ⟨(i, j), (mem_awsPairs rules ms i j).2 h, rfl⟩

theorem bind_value {ms : List RuleMatch} {i : Nat} {m : RuleMatch} (h : ms[i]? = some m) :
    (ms[i]?).bind (·.value) = m.value := by rw [h]; rfl

/-- The three ways a check of an AWS pair begins. -/
theorem begin_aws (sg : Signer) {rules : List (Option VType)} {ms : List RuleMatch} (cfg : AwsConfig) {i j : Nat}
    (hp : AwsPair rules ms i j) :
    (∃ b, ms[j]? = some b ∧ b.value = none ∧ beginCheck sg ms (.aws cfg) (.aws i j) = .known (.error missingSecret)) ∨
    (∃ a b secret, ms[i]? = some a ∧ ms[j]? = some b ∧ b.value = some secret ∧ a.value = none ∧
      beginCheck sg ms (.aws cfg) (.aws i j) = .known (.error missingId)) ∨
    ∃ r, AwsRequest sg.word cfg rules ms i j r ∧
      beginCheck sg ms (.aws cfg) (.aws i j) = if sg.signable r then .send (.aws r) else .panics := by
  obtain ⟨a, b, ha, hb, -, -⟩ := id hp
  cases hbv : b.value with
  | none =>
    refine .inl ⟨b, hb, hbv, ?_⟩
    simp only [beginCheck, bind_value hb, hbv]
  | some secret =>
    cases hav : a.value with
    | none =>
      refine .inr (.inl ⟨a, b, secret, ha, hb, hbv, hav, ?_⟩)
      simp only [beginCheck, bind_value hb, bind_value ha, hbv, hav]
    | some id =>
      refine .inr (.inr ⟨_, ⟨hp, a, b, id, secret, ha, hb, hav, hbv, rfl⟩, ?_⟩)
      simp only [beginCheck, bind_value hb, bind_value ha, hbv, hav]

theorem awsRequest_unique {word : Char → Bool} {cfg : AwsConfig} {rules : List (Option VType)} {ms : List RuleMatch}
    {i j : Nat} {r r' : AwsReq} (h : AwsRequest word cfg rules ms i j r) (h' : AwsRequest word cfg rules ms i j r') :
    r = r' := by
  obtain ⟨-, a, b, id, se, h1, h2, h3, h4, rfl⟩ := h
  obtain ⟨-, a', b', id', se', h1', h2', h3', h4', rfl⟩ := h'
  rw [h1] at h1'; cases h1'
  rw [h2] at h2'; cases h2'
  rw [h3] at h3'; cases h3'
  rw [h4] at h4'; cases h4'
  rfl

/-- Only prescribed requests are made. -/
theorem begin_send {sg : Signer} {rules : List (Option VType)} {ms : List RuleMatch} {v : Validator} {k : CheckKey}
    {r : Request} (hk : k ∈ jobKeys rules ms v) (h : beginCheck sg ms v k = .send r) :
    Prescribed sg.word rules ms v k r := by
  cases v with
  | http cfg =>
    obtain ⟨i, e, rfl, hi, he⟩ := mem_jobKeys_http.1 hk
    have hm := List.getElem?_eq_getElem hi
    simp only [beginCheck, bind_value hm] at h
    cases hv : ms[i].value with
    | none => rw [hv] at h; cases h
    | some text =>
      rw [hv] at h
      cases h
      exact .http cfg i _ text e _ hm hv ((httpRequest_iff cfg e text _).2 ⟨he, rfl⟩)
  | aws cfg =>
    obtain ⟨i, j, rfl, hp⟩ := mem_jobKeys_aws.1 hk
    rcases begin_aws sg cfg hp with ⟨_, _, _, e⟩ | ⟨_, _, _, _, _, _, _, e⟩ | ⟨q, hq, e⟩
    · rw [e] at h; cases h
    · rw [e] at h; cases h
    · rw [e] at h
      split at h
      · cases h; exact .aws cfg i j q hq
      · cases h

/-- A prescribed request belongs to a check, which makes it unless it panics. -/
theorem begin_prescribed {sg : Signer} {rules : List (Option VType)} {ms : List RuleMatch} {v : Validator} {k : CheckKey}
    {r : Request} (h : Prescribed sg.word rules ms v k r) :
    k ∈ jobKeys rules ms v ∧ (beginCheck sg ms v k = .send r ∨ beginCheck sg ms v k = .panics) := by
  cases h with
  | http cfg i m text e r hm hv hr =>
    obtain ⟨he, rfl⟩ := (httpRequest_iff cfg e text r).1 hr
    refine ⟨mem_jobKeys_http.2 ⟨i, e, rfl, (List.getElem?_eq_some_iff.1 hm).1, he⟩, .inl ?_⟩
    simp only [beginCheck, bind_value hm, hv]
  | aws cfg i j r hr =>
    refine ⟨mem_jobKeys_aws.2 ⟨i, j, rfl, hr.1⟩, ?_⟩
    rcases begin_aws sg cfg hr.1 with ⟨b, h1, h2, -⟩ | ⟨a, b, se, h1, h2, h3, h4, -⟩ | ⟨q, hq, e⟩
    · obtain ⟨-, a', b', id', se', h1', h2', h3', h4', -⟩ := hr
      rw [h1] at h2'; cases h2'
      rw [h2] at h4'; cases h4'
    · obtain ⟨-, a', b', id', se', h1', h2', h3', h4', -⟩ := hr
      rw [h1] at h1'; cases h1'
      rw [h4] at h3'; cases h3'
    · cases awsRequest_unique hr hq
      rw [e]
      split
      · exact .inl rfl
      · exact .inr rfl

/-- Some check panics exactly when the group is faulty. -/
theorem begin_panics {sg : Signer} {rules : List (Option VType)} {ms : List RuleMatch} {v : Validator} :
    (∃ k ∈ jobKeys rules ms v, beginCheck sg ms v k = .panics) ↔ FaultyGroup sg rules ms (some v) := by
  cases v with
  | http cfg =>
    constructor
    · rintro ⟨k, hk, h⟩
      obtain ⟨i, e, rfl, hi, he⟩ := mem_jobKeys_http.1 hk
      have hm := List.getElem?_eq_getElem hi
      simp only [beginCheck, bind_value hm] at h
      refine ⟨fun e0 => by rw [e0] at he; simp at he, ms[i], List.getElem_mem hi, ?_⟩
      cases hv : ms[i].value with
      | none => rfl
      | some text => rw [hv] at h; cases h
    · rintro ⟨he, m, hm, hv⟩
      obtain ⟨i, hi, rfl⟩ := List.getElem_of_mem hm
      obtain ⟨e, es, hes⟩ := List.exists_cons_of_ne_nil he
      refine ⟨.http i e, mem_jobKeys_http.2 ⟨i, e, rfl, hi, by simp [hes]⟩, ?_⟩
      simp only [beginCheck, bind_value (List.getElem?_eq_getElem hi), hv]
  | aws cfg =>
    constructor
    · rintro ⟨k, hk, h⟩
      obtain ⟨i, j, rfl, hp⟩ := mem_jobKeys_aws.1 hk
      rcases begin_aws sg cfg hp with ⟨_, _, _, e⟩ | ⟨_, _, _, _, _, _, _, e⟩ | ⟨q, hq, e⟩
      · rw [e] at h; cases h
      · rw [e] at h; cases h
      · rw [e] at h
        split at h
        · cases h
        · rename_i hs
          exact ⟨i, j, q, hq, by simpa using hs⟩
    · rintro ⟨i, j, r, hr, hs⟩
      obtain ⟨hk, h⟩ := begin_prescribed (sg := sg) (Prescribed.aws cfg i j r hr)
      refine ⟨_, hk, h.resolve_left fun h => ?_⟩
      rcases begin_aws sg cfg hr.1 with ⟨_, _, _, e⟩ | ⟨_, _, _, _, _, _, _, e⟩ | ⟨q, hq, e⟩
      · rw [e] at h; cases h
      · rw [e] at h; cases h
      · cases awsRequest_unique hr hq
        rw [e, hs] at h
        cases h

section Group

variable {sg : Signer} {rules : List (Option VType)} {ins : List RuleMatch} {v : Validator} {g : Group}

theorem GroupOk.keys_of_log (h : GroupOk sg rules ins v g) {k : CheckKey} (ht : traffic g.log k ≠ []) :
    k ∈ g.keys ∧ k ∈ jobKeys rules ins v := by
  have hk : k ∈ g.keys := Classical.byContradiction fun hk => ht (h.other k hk)
  refine ⟨hk, ?_⟩
  rcases h.keys with hw | hw
  · have := h.phase
    rw [hw] at this
    rw [this.2.1] at ht
    exact absurd rfl ht
  · rw [← hw]; exact hk

/-- At any time, only prescribed requests were made, each at most once. -/
theorem GroupOk.traffic (h : GroupOk sg rules ins v g) (k : CheckKey) :
    traffic g.log k = [] ∨ ∃ r, Prescribed sg.word rules ins v k r ∧ AtMostOnce g.log k r := by
  by_cases ht : Spec.traffic g.log k = []
  · exact .inl ht
  · obtain ⟨hk, hk'⟩ := h.keys_of_log ht
    have hj := h.jobs k hk
    cases e : g.jobs k with
    | todo => rw [e] at hj; exact .inl hj
    | waiting =>
      rw [e] at hj
      obtain ⟨r, hb, hr⟩ := hj
      exact .inr ⟨r, begin_send hk' hb, .inr (.inl hr)⟩
    | done s =>
      rw [e] at hj
      rcases hj with ⟨-, hj⟩ | ⟨r, a, hb, -, hr⟩
      · exact .inl hj
      · exact .inr ⟨r, begin_send hk' hb, .inr (.inr ⟨a, hr⟩)⟩
    | crashed => rw [e] at hj; exact .inl hj.2

theorem GroupOk.finished (h : GroupOk sg rules ins v g) (hp : g.phase = .finished) :
    g.keys = jobKeys rules ins v ∧ AllDone g ∧ ∃ order : List CheckKey, order.Perm g.keys ∧
      g.matches_ = mergeSeq (order.flatMap (doneEntries g.jobs)) ins := by
  have hk : g.keys = jobKeys rules ins v := h.keys.resolve_left (by rw [hp]; simp)
  have h0 := h.phase
  rw [hp] at h0
  exact ⟨hk, h0⟩

/-- When `validate` returns, every prescribed request was made, and answered. -/
theorem GroupOk.all_asked (h : GroupOk sg rules ins v g) (hp : g.phase = .finished) {k : CheckKey} {r : Request}
    (hr : Prescribed sg.word rules ins v k r) : ∃ a, Exchanged g.log k r a := by
  obtain ⟨hk, hd, -⟩ := h.finished hp
  obtain ⟨hk', hb⟩ := begin_prescribed (sg := sg) hr
  rw [← hk] at hk'
  obtain ⟨s, hs⟩ := hd k hk'
  have hj := h.jobs k hk'
  rw [hs] at hj
  rcases hj with ⟨e, -⟩ | ⟨r', a, e, -, ht⟩
  · rw [e] at hb; simp at hb
  · rw [e] at hb
    simp at hb
    subst hb
    exact ⟨a, ht⟩

theorem GroupOk.not_faulty (h : GroupOk sg rules ins v g) (hp : g.phase = .finished) :
    ¬ FaultyGroup sg rules ins (some v) := by
  rw [← begin_panics]
  rintro ⟨k, hk', hb⟩
  obtain ⟨hk, hd, -⟩ := h.finished hp
  rw [← hk] at hk'
  obtain ⟨s, hs⟩ := hd k hk'
  have hj := h.jobs k hk'
  rw [hs] at hj
  rcases hj with ⟨e, -⟩ | ⟨r', a, e, -, ht⟩ <;> · rw [e] at hb; cases hb

theorem GroupOk.faulty (h : GroupOk sg rules ins v g) (hp : g.phase = .crashed) : FaultyGroup sg rules ins (some v) := by
  rw [← begin_panics]
  have hk : g.keys = jobKeys rules ins v := h.keys.resolve_left (by rw [hp]; simp)
  have h0 := h.phase
  rw [hp] at h0
  obtain ⟨k, hk', hj⟩ := h0
  have := h.jobs k hk'
  rw [hj] at this
  exact ⟨k, hk ▸ hk', this.1⟩

theorem endCheck_http (cfg : HttpConfig) (a : Reply) : endCheck (.http cfg) a = httpOutcome cfg a := by
  cases a <;> rfl

theorem mem_entries {order : List CheckKey} {jobs : CheckKey → Job} {i : Nat} {x : MatchStatus} :
    (i, x) ∈ order.flatMap (doneEntries jobs) ↔ ∃ k ∈ order, jobs k = .done x ∧ (i, x) ∈ keyed x k := by
  rw [List.mem_flatMap]
  constructor
  · rintro ⟨k, hk, h⟩
    refine ⟨k, hk, ?_⟩
    unfold doneEntries at h
    cases e : jobs k with
    | done s =>
      rw [e] at h
      have : x = s := by
        cases k with
        | http i' e' => simp [keyed] at h; exact h.2
        | aws i' j' => simp [keyed] at h; rcases h with h | h <;> exact h.2
      subst this
      exact ⟨rfl, h⟩
    | _ => rw [e] at h; simp at h
  · rintro ⟨k, hk, e, h⟩
    exact ⟨k, hk, by simpa [doneEntries, e] using h⟩

theorem GroupOk.judged_http {cfg : HttpConfig} (h : GroupOk sg rules ins (.http cfg) g) (hp : g.phase = .finished) :
    Judged g.log rules ins g.matches_ (some (.http cfg)) := by
  obtain ⟨hk, hd, order, ho, hm⟩ := h.finished hp
  rw [hm]
  refine (mergeSeq_updated _ ins).mono fun i m s _ hs => hs.congr fun x => ?_
  refine or_congr Iff.rfl ?_
  rw [mem_entries]
  constructor
  · rintro ⟨k, hko, hj, hx⟩
    have hkk := ho.mem_iff.1 hko
    obtain ⟨i', e, rfl, -, -⟩ := mem_jobKeys_http.1 (hk ▸ hkk)
    simp [keyed] at hx
    subst hx
    have := h.jobs _ hkk
    rw [hj] at this
    rcases this with ⟨e', -⟩ | ⟨r, a, -, rfl, ht⟩
    · unfold beginCheck at e'
      dsimp only at e'
      split at e' <;> cases e'
    · exact ⟨e, r, a, ht, by rw [endCheck_http, httpOutcome_iff]⟩
  · rintro ⟨e, r, a, ht, hx⟩
    have hkk := (h.keys_of_log (k := .http i e) (by rw [ht]; simp)).1
    obtain ⟨s', hj⟩ := hd _ hkk
    have := h.jobs _ hkk
    rw [hj] at this
    rcases this with ⟨-, h0⟩ | ⟨r', a', -, rfl, ht'⟩
    · rw [ht] at h0; cases h0
    · rw [ht] at ht'
      simp at ht'
      obtain ⟨-, rfl⟩ := ht'
      rw [httpOutcome_iff] at hx
      refine ⟨_, ho.mem_iff.2 hkk, ?_, ?_⟩
      · rw [hj, endCheck_http, hx]
      · simp [keyed]

/-- The status an AWS reply gives, if any. -/
theorem awsOutcome_end (cfg : AwsConfig) (a : Reply) :
    (endCheck (.aws cfg) a = .notChecked ∨ AwsOutcome a (endCheck (.aws cfg) a)) ∧
      ∀ x, AwsOutcome a x → x = endCheck (.aws cfg) a := by
  cases a with
  | failed e => exact ⟨.inr (.failed e), fun x hx => by cases hx; rfl⟩
  | response code =>
    have hm : unexpectedCode code = "Unexpected HTTP status code ".toList ++ (toString code).toList := by
      rw [toString_toList]; rfl
    simp only [endCheck, awsClassify]
    refine ⟨?_, fun x hx => ?_⟩
    · split
      · rename_i hc
        simp at hc
        exact .inr (.accepted code hc.1 hc.2)
      · split
        · rename_i hc
          simp at hc
          exact .inr (.refused code hc.1 hc.2)
        · split
          · rename_i hc
            simp at hc
            rw [hm]
            exact .inr (.server code hc.1 hc.2)
          · exact .inl rfl
    · cases hx with
      | accepted _ h1 h2 => rw [if_pos (by simp; omega)]
      | refused _ h1 h2 => rw [if_neg (by simp; omega), if_pos (by simp; omega)]
      | server _ h1 h2 =>
        rw [if_neg (by simp; omega), if_neg (by simp; omega), if_pos (by simp; omega), hm]

/-- The table of an AWS validator agrees with the outcomes of its pairs. -/
theorem GroupOk.pair {cfg : AwsConfig} (h : GroupOk sg rules ins (.aws cfg) g) {i j : Nat} {s : MatchStatus}
    (hp : AwsPair rules ins i j) (hk : CheckKey.aws i j ∈ g.keys) (hj : g.jobs (.aws i j) = .done s) :
    (s = .notChecked ∨ PairOutcome g.log rules ins i j s) ∧ ∀ x, PairOutcome g.log rules ins i j x → x = s := by
  have hjk := h.jobs _ hk
  rw [hj] at hjk
  rcases begin_aws sg cfg hp with ⟨b, h1, h2, e⟩ | ⟨a, b, se, h1, h2, h3, h4, e⟩ | ⟨q, hq, e⟩
  · rcases hjk with ⟨e', ht⟩ | ⟨r, a, e', -, -⟩
    · rw [e] at e'
      cases e'
      refine ⟨.inr (.noSecret b hp h1 h2), fun x hx => ?_⟩
      cases hx with
      | noSecret => rfl
      | noId a' b' se' _ _ hb' hs' => rw [h1] at hb'; cases hb'; rw [h2] at hs'; cases hs'
      | reply r a s ht' => rw [Exchanged, ht] at ht'; cases ht'
    · rw [e] at e'; cases e'
  · rcases hjk with ⟨e', ht⟩ | ⟨r, a, e', -, -⟩
    · rw [e] at e'
      cases e'
      refine ⟨.inr (.noId a b se hp h1 h2 h3 h4), fun x hx => ?_⟩
      cases hx with
      | noSecret b' _ hb' hs' => rw [h2] at hb'; cases hb'; rw [h3] at hs'; cases hs'
      | noId => rfl
      | reply r a s ht' => rw [Exchanged, ht] at ht'; cases ht'
    · rw [e] at e'; cases e'
  · rcases hjk with ⟨e', ht⟩ | ⟨r, a, -, rfl, ht⟩
    · rw [e] at e'
      split at e' <;> cases e'
    · obtain ⟨h1, h2⟩ := awsOutcome_end cfg a
      refine ⟨h1.imp_right fun h1 => .reply r a _ ht h1, fun x hx => ?_⟩
      obtain ⟨-, a', b', id', se', k1, k2, k3, k4, -⟩ := hq
      cases hx with
      | noSecret b _ hb hs => rw [k2] at hb; cases hb; rw [k4] at hs; cases hs
      | noId a b se _ ha _ _ hs => rw [k1] at ha; cases ha; rw [k3] at hs; cases hs
      | reply r' a' s ht' hs =>
        rw [Exchanged, ht] at ht'
        simp at ht'
        obtain ⟨-, rfl⟩ := ht'
        exact h2 x hs

theorem GroupOk.pair_of_outcome {cfg : AwsConfig} (h : GroupOk sg rules ins (.aws cfg) g) {i j : Nat} {x : MatchStatus}
    (hx : PairOutcome g.log rules ins i j x) : AwsPair rules ins i j := by
  cases hx with
  | noSecret _ hp => exact hp
  | noId _ _ _ hp => exact hp
  | reply r a s ht =>
    obtain ⟨i', j', e, hp⟩ := mem_jobKeys_aws.1 (h.keys_of_log (k := .aws i j) (by rw [ht]; simp)).2
    cases e
    exact hp

theorem GroupOk.judged_aws {cfg : AwsConfig} (h : GroupOk sg rules ins (.aws cfg) g) (hp : g.phase = .finished) :
    Judged g.log rules ins g.matches_ (some (.aws cfg)) := by
  obtain ⟨hk, hd, order, ho, hm⟩ := h.finished hp
  rw [hm]
  have key : ∀ i x, (i, x) ∈ order.flatMap (doneEntries g.jobs) ↔
      ∃ a b, AwsPair rules ins a b ∧ g.jobs (.aws a b) = .done x ∧ (i = a ∨ i = b) := by
    intro i x
    rw [mem_entries]
    constructor
    · rintro ⟨k, hko, hj, hx⟩
      obtain ⟨a, b, rfl, hpair⟩ := mem_jobKeys_aws.1 (hk ▸ ho.mem_iff.1 hko)
      simp [keyed] at hx
      exact ⟨a, b, hpair, hj, hx⟩
    · rintro ⟨a, b, hpair, hj, hx⟩
      refine ⟨.aws a b, ho.mem_iff.2 (hk ▸ mem_jobKeys_aws.2 ⟨a, b, rfl, hpair⟩), hj, ?_⟩
      simp [keyed]
      exact hx
  have mem : ∀ {a b}, AwsPair rules ins a b → CheckKey.aws a b ∈ g.keys := fun hpair =>
    hk ▸ mem_jobKeys_aws.2 ⟨_, _, rfl, hpair⟩
  refine (mergeSeq_updated _ ins).mono fun i m s _ hs => ?_
  obtain ⟨h1, h2⟩ := hs
  have low : s = .notChecked → m.status = .notChecked := by
    rintro rfl
    exact (h2 _ (Or.inl rfl)).antisymm (.notChecked _)
  refine ⟨?_, ?_⟩
  · rcases h1 with h1 | h1
    · exact .inl h1
    · obtain ⟨a, b, hpair, hj, hi⟩ := (key i s).1 h1
      rcases (h.pair hpair (mem hpair) hj).1 with e | ho'
      · exact .inl (by rw [e, low e])
      · rcases hi with rfl | rfl
        · exact .inr (.inl ⟨b, ho'⟩)
        · exact .inr (.inr ⟨a, ho'⟩)
  · rintro x (rfl | ⟨j, hx⟩ | ⟨j, hx⟩)
    · exact h2 _ (.inl rfl)
    · have hpair := h.pair_of_outcome hx
      obtain ⟨y, hj⟩ := hd _ (mem hpair)
      rw [(h.pair hpair (mem hpair) hj).2 x hx]
      exact h2 _ (.inr ((key i y).2 ⟨i, j, hpair, hj, .inl rfl⟩))
    · have hpair := h.pair_of_outcome hx
      obtain ⟨y, hj⟩ := hd _ (mem hpair)
      rw [(h.pair hpair (mem hpair) hj).2 x hx]
      exact h2 _ (.inr ((key i y).2 ⟨j, i, hpair, hj, .inr rfl⟩))

end Group

theorem OneOk.judged {sg : Signer} {rules : List (Option VType)} {vs : List (IType × Validator)} {o : IType × List RuleMatch}
    {g : Group} (h : OneOk sg rules vs o g) (hp : g.phase = .finished) :
    Judged g.log rules o.2 g.matches_ (vs.lookup o.1) := by
  cases e : vs.lookup o.1 with
  | none => exact (h.idle e).same
  | some v =>
    cases v with
    | http cfg => exact (h.busy _ e).judged_http hp
    | aws cfg => exact (h.busy _ e).judged_aws hp

/-! ## Runs end -/

def jobWeight : Job → Nat
  | .todo => 2
  | .waiting => 1
  | _ => 0

/-- A bound for the number of steps left for a group. -/
def Group.weight (rules : List (Option VType)) (g : Group) : Nat :=
  match g.phase with
  | .waiting =>
    match g.validator with
    | none => 1
    | some v => 3 * (jobKeys rules g.matches_ v).length + 4
  | .checking => (g.keys.map fun k => jobWeight (g.jobs k)).sum + g.keys.length + 3
  | .merging left => left.length + 1
  | .finished => 0
  | .crashed => 0

theorem jobWeight_le (j : Job) : jobWeight j ≤ 2 := by cases j <;> simp [jobWeight]

theorem sum_le (ks : List CheckKey) (f : CheckKey → Nat) (n : Nat) (h : ∀ k, f k ≤ n) :
    (ks.map f).sum ≤ n * ks.length := by
  induction ks with
  | nil => simp
  | cons k ks ih =>
    have := h k
    simp only [List.map_cons, List.sum_cons, List.length_cons, Nat.mul_succ]
    omega

theorem sum_lt {ks : List CheckKey} {f f' : CheckKey → Nat} {k : CheckKey} (hk : k ∈ ks) (hlt : f' k < f k)
    (h : ∀ k, f' k ≤ f k) : (ks.map f').sum < (ks.map f).sum := by
  induction ks with
  | nil => simp at hk
  | cons x ks ih =>
    have hle : (ks.map f').sum ≤ (ks.map f).sum := by
      clear ih hk
      induction ks with
      | nil => simp
      | cons y ks ih => have := h y; simp only [List.map_cons, List.sum_cons]; omega
    simp only [List.map_cons, List.sum_cons]
    rcases List.mem_cons.1 hk with rfl | hk
    · omega
    · have := ih hk
      have := h x
      omega

theorem setJob_weight {g : Group} {k : CheckKey} {j : Job} (hk : k ∈ g.keys) (h : jobWeight j < jobWeight (g.jobs k)) :
    (g.keys.map fun k' => jobWeight (setJob g.jobs k j k')).sum < (g.keys.map fun k' => jobWeight (g.jobs k')).sum := by
  refine sum_lt (k := k) hk ?_ fun k' => ?_
  · show jobWeight (setJob g.jobs k j k) < _
    rw [setJob_same]; exact h
  · show jobWeight (setJob g.jobs k j k') ≤ _
    by_cases e : k' = k
    · subst e; rw [setJob_same]; omega
    · rw [setJob_other _ e]; omega

theorem weight_step {sg : Signer} {rules : List (Option VType)} {g g' : Group} (h : GroupStep sg rules g g') :
    g'.weight rules < g.weight rules := by
  cases h with
  | none hp hv => simp [Group.weight, hp, hv]
  | start v hp hv =>
    simp only [Group.weight, hp, hv]
    have := sum_le (jobKeys rules g.matches_ v) (fun k => jobWeight (g.jobs k)) 2 fun k => jobWeight_le _
    omega
  | known v k s hp hv hk hj hb =>
    have := setJob_weight (j := .done s) hk (by rw [hj]; simp [jobWeight])
    simp only [Group.weight, hp]; omega
  | send v k r hp hv hk hj hb =>
    have := setJob_weight (j := .waiting) hk (by rw [hj]; decide)
    simp only [Group.weight, hp]; omega
  | panic v k hp hv hk hj hb =>
    have := setJob_weight (j := .crashed) hk (by rw [hj]; decide)
    simp only [Group.weight, hp]; omega
  | receive v k a hp hv hk hj =>
    have := setJob_weight (j := .done (endCheck v a)) hk (by rw [hj]; simp [jobWeight])
    simp only [Group.weight, hp]; omega
  | join order hp hd ho =>
    have := ho.length_eq
    simp only [Group.weight, hp]; omega
  | crash k hp => simp only [Group.weight, hp]; omega
  | merge k left s hp => simp only [Group.weight, hp, List.length_cons]; omega
  | finish hp => simp only [Group.weight, hp]; simp

theorem par_weight {sg : Signer} {rules : List (Option VType)} {gs gs' : List Group} (h : ParStep sg rules gs gs') :
    (gs'.map (Group.weight rules)).sum < (gs.map (Group.weight rules)).sum := by
  cases h with
  | mk a g g' b hs =>
    have := weight_step hs
    simp only [List.map_append, List.sum_append, List.map_cons, List.sum_cons]
    omega

/-- A group that has neither returned nor panicked can go on. -/
theorem OneOk.progress {sg : Signer} {rules : List (Option VType)} {vs : List (IType × Validator)}
    {o : IType × List RuleMatch} {g : Group} (h : OneOk sg rules vs o g) :
    g.phase = .finished ∨ g.phase = .crashed ∨ ∃ g', GroupStep sg rules g g' := by
  cases e : vs.lookup o.1 with
  | none =>
    rcases (h.idle e).phase with hp | hp
    · exact .inr (.inr ⟨_, .none g hp (h.idle e).val⟩)
    · exact .inl hp
  | some v =>
    have hg := h.busy v e
    cases hp : g.phase with
    | finished => exact .inl rfl
    | crashed => exact .inr (.inl rfl)
    | waiting => exact .inr (.inr ⟨_, .start g v hp hg.val⟩)
    | merging left =>
      cases left with
      | nil => exact .inr (.inr ⟨_, .finish g hp⟩)
      | cons k left =>
        have h0 := hg.phase
        rw [hp] at h0
        obtain ⟨hd, pre, hpre, -⟩ := h0
        obtain ⟨s, hs⟩ := hd k (hpre.mem_iff.1 (by simp))
        exact .inr (.inr ⟨_, .merge g k left s hp hs⟩)
    | checking =>
      refine .inr (.inr ?_)
      by_cases h1 : ∃ k ∈ g.keys, g.jobs k = .todo
      · obtain ⟨k, hk, hj⟩ := h1
        cases hb : beginCheck sg g.matches_ v k with
        | known s => exact ⟨_, .known g v k s hp hg.val hk hj hb⟩
        | send r => exact ⟨_, .send g v k r hp hg.val hk hj hb⟩
        | panics => exact ⟨_, .panic g v k hp hg.val hk hj hb⟩
      · by_cases h2 : ∃ k ∈ g.keys, g.jobs k = .waiting
        · obtain ⟨k, hk, hj⟩ := h2
          exact ⟨_, .receive g v k (.failed []) hp hg.val hk hj⟩
        · by_cases h3 : ∃ k ∈ g.keys, g.jobs k = .crashed
          · obtain ⟨k, hk, hj⟩ := h3
            exact ⟨_, .crash g k hp hk hj fun k' hk' e => h2 ⟨k', hk', e⟩⟩
          · refine ⟨_, .join g g.keys hp (fun k hk => ?_) (.refl _)⟩
            cases hj : g.jobs k with
            | done s => exact ⟨s, rfl⟩
            | todo => exact absurd ⟨k, hk, hj⟩ h1
            | waiting => exact absurd ⟨k, hk, hj⟩ h2
            | crashed => exact absurd ⟨k, hk, hj⟩ h3

end Sds
