import Verif.Lemmas.Validation

namespace Sds

open Spec

/-! ## Keys -/

theorem nodup_eraseDups {α : Type} [BEq α] [LawfulBEq α] (l : List α) : l.eraseDups.Nodup := by
  have : ∀ n (l : List α), l.length ≤ n → l.eraseDups.Nodup := by
    intro n
    induction n with
    | zero => intro l h; cases l <;> simp at h ⊢
    | succ n ih =>
      intro l h
      cases l with
      | nil => simp
      | cons a l =>
        rw [List.eraseDups_cons, List.nodup_cons]
        refine ⟨by simp [List.mem_eraseDups], ih _ ?_⟩
        have := List.length_filter_le (fun b => !b == a) l
        simp at h
        omega
  exact this _ l (Nat.le_refl _)

theorem nodup_pairs {α β : Type} (l : List α) (f : α → List β) (hl : l.Nodup) (hf : ∀ a, (f a).Nodup) :
    (l.flatMap fun a => (f a).map fun b => (a, b)).Nodup := by
  induction l with
  | nil => simp
  | cons a l ih =>
    simp only [List.nodup_cons] at hl
    rw [List.flatMap_cons, List.nodup_append]
    refine ⟨?_, ih hl.2, ?_⟩
    · have := hf a
      rw [List.Nodup, List.pairwise_map]
      exact this.imp (fun h e => h (by simpa using e))
    · intro x hx y hy e
      subst e
      simp at hx hy
      obtain ⟨b, -, rfl⟩ := hx
      obtain ⟨a', ha', b', -, h⟩ := hy
      simp at h
      exact hl.1 (h.1 ▸ ha')

theorem httpKeys_nodup (cfg : HttpConfig) (n : Nat) : (httpKeys cfg n).Nodup :=
  nodup_pairs _ _ List.nodup_range (fun _ => nodup_eraseDups _)

theorem mem_httpKeys (cfg : HttpConfig) (n : Nat) (k : Nat × Str) : k ∈ httpKeys cfg n ↔ k.1 < n ∧ k.2 ∈ cfg.endpoints := by
  obtain ⟨i, e⟩ := k
  simp only [httpKeys, List.mem_flatMap, List.mem_range, List.mem_map, List.mem_eraseDups]
  constructor
  · rintro ⟨i', h, e', he, h'⟩
    simp at h'
    exact ⟨h'.1 ▸ h, h'.2 ▸ he⟩
  · rintro ⟨h, he⟩
    exact ⟨i, h, e, he, rfl⟩

theorem awsPairs_nodup (rules : List (Option VType)) (ms : List RuleMatch) : (awsPairs rules ms).Nodup :=
  nodup_pairs _ _ (List.nodup_range.filter _) (fun _ => List.nodup_range.filter _)

theorem vtypeOf_eq_some {rules : List (Option VType)} {m : RuleMatch} {t : VType} :
    vtypeOf rules m = some t ↔ rules[m.rule]? = some (some t) := by
  unfold vtypeOf
  cases rules[m.rule]? with
  | none => simp
  | some o => simp

theorem isSecret_iff (rules : List (Option VType)) (m : RuleMatch) :
    isSecret (vtypeOf rules m) = true ↔ IsAwsSecret rules m := by
  unfold IsAwsSecret
  constructor
  · intro h
    cases hv : vtypeOf rules m with
    | none => rw [hv] at h; simp [isSecret] at h
    | some t =>
      cases t <;> rw [hv] at h <;> simp [isSecret] at h
      exact ⟨_, vtypeOf_eq_some.mp hv⟩
  · rintro ⟨cfg, h⟩
    rw [vtypeOf_eq_some.mpr h]; rfl

theorem any_eq_some {α : Type} {o : Option α} {p : α → Bool} : o.any p = true ↔ ∃ a, o = some a ∧ p a = true := by
  cases o <;> simp

theorem mem_awsPairs (rules : List (Option VType)) (ms : List RuleMatch) (i j : Nat) :
    (i, j) ∈ awsPairs rules ms ↔ AwsPair rules ms i j := by
  have lt : ∀ {i : Nat} {a : RuleMatch}, ms[i]? = some a → i < ms.length := fun h =>
    (List.getElem?_eq_some_iff.mp h).1
  simp only [awsPairs, List.mem_flatMap, List.mem_map, awsIds, awsSecrets, List.mem_filter, List.mem_range, any_eq_some,
    AwsPair, IsAwsId]
  constructor
  · rintro ⟨i', ⟨-, a, ha, h⟩, j', ⟨-, b, hb, h'⟩, e⟩
    simp at e
    obtain ⟨rfl, rfl⟩ := e
    exact ⟨a, b, ha, hb, vtypeOf_eq_some.mp (by simpa using h), (isSecret_iff rules b).mp h'⟩
  · rintro ⟨a, b, ha, hb, h, h'⟩
    exact ⟨i, ⟨lt ha, a, ha, by simp [vtypeOf_eq_some.mpr h]⟩, j, ⟨lt hb, b, hb, (isSecret_iff rules b).mpr h'⟩, rfl⟩

/-! ## Updated lists -/

theorem Spec.Updated.unique {P : Nat → RuleMatch → MatchStatus → Prop} {ins a b : List RuleMatch}
    (hP : ∀ i m s s', P i m s → P i m s' → s = s') (ha : Updated P ins a) (hb : Updated P ins b) : a = b := by
  apply List.ext_getElem?
  intro i
  by_cases h : i < ins.length
  · have h1 : i < a.length := by rw [ha.len]; exact h
    have h2 : i < b.length := by rw [hb.len]; exact h
    obtain ⟨s1, p1⟩ := ha.each i _ _ (List.getElem?_eq_getElem h) (List.getElem?_eq_getElem h1)
    obtain ⟨s2, p2⟩ := hb.each i _ _ (List.getElem?_eq_getElem h) (List.getElem?_eq_getElem h2)
    rw [List.getElem?_eq_getElem h1, List.getElem?_eq_getElem h2]
    have e := hP _ _ _ _ p1 p2
    generalize a[i] = x at *
    generalize b[i] = y at *
    generalize ins[i] = z at *
    simp only [SameButStatus] at s1 s2
    cases x; cases y; cases z
    simp at s1 s2 e ⊢
    obtain ⟨rfl, rfl, rfl, rfl, rfl, rfl, rfl⟩ := s1
    obtain ⟨rfl, rfl, rfl, rfl, rfl, rfl, rfl⟩ := s2
    simp [e]
  · rw [List.getElem?_eq_none (by rw [ha.len]; omega), List.getElem?_eq_none (by rw [hb.len]; omega)]

theorem Spec.Updated.mono {P Q : Nat → RuleMatch → MatchStatus → Prop} {ins outs : List RuleMatch}
    (hPQ : ∀ i m s, ins[i]? = some m → P i m s → Q i m s) (h : Updated P ins outs) : Updated Q ins outs :=
  ⟨h.len, fun i a b ha hb => ⟨(h.each i a b ha hb).1, hPQ i a _ ha (h.each i a b ha hb).2⟩⟩

/-- Forget the status. -/
def eraseStatus (m : RuleMatch) : RuleMatch := { m with status := .valid }

theorem Spec.Updated.erase {P : Nat → RuleMatch → MatchStatus → Prop} {ins outs : List RuleMatch}
    (h : Updated P ins outs) : outs.map eraseStatus = ins.map eraseStatus := by
  apply List.ext_getElem?
  intro i
  simp only [List.getElem?_map]
  by_cases hi : i < ins.length
  · have h1 : i < outs.length := by rw [h.len]; exact hi
    have := (h.each i _ _ (List.getElem?_eq_getElem hi) (List.getElem?_eq_getElem h1)).1
    rw [List.getElem?_eq_getElem h1, List.getElem?_eq_getElem hi]
    simp only [Option.map_some]
    exact congrArg some this.symm
  · rw [List.getElem?_eq_none (by rw [h.len]; omega), List.getElem?_eq_none (by omega)]

/-! ## The HTTP validator -/

theorem any_inRange (rs : List (Nat × Nat)) (code : Nat) : rs.any (inRange code) = true ↔ CodeIn rs code := by
  simp only [List.any_eq_true, inRange, CodeIn]
  constructor
  · rintro ⟨⟨lo, hi⟩, hm, h⟩
    simp at h
    exact ⟨lo, hi, hm, h⟩
  · rintro ⟨lo, hi, hm, h⟩
    exact ⟨(lo, hi), hm, by simp [h]⟩

/-- The status for a reply. -/
def httpOutcome (cfg : HttpConfig) : Reply → MatchStatus
  | .response code => cfg.classify code
  | .failed e => .error (requestError e)

theorem toString_toList (n : Nat) : (toString n).toList = Nat.toDigits 10 n := by
  show (Nat.repr n).toList = _
  simp [Nat.repr]

theorem httpOutcome_iff (cfg : HttpConfig) (r : Reply) (s : MatchStatus) :
    HttpOutcome cfg r s ↔ s = httpOutcome cfg r := by
  cases r with
  | failed e =>
    cases s with
    | error m => exact ⟨fun h => congrArg MatchStatus.error h, fun h => MatchStatus.error.inj h⟩
    | _ => exact ⟨fun h => h.elim, fun h => by cases h⟩
  | response code =>
    have hm : unexpectedCode code = "Unexpected HTTP status code ".toList ++ (toString code).toList := by
      unfold unexpectedCode
      exact congrArg (fun x => "Unexpected HTTP status code ".toList ++ x) (toString_toList code).symm
    simp only [httpOutcome, HttpConfig.classify]
    have h1 := any_inRange cfg.valid code
    have h2 := any_inRange cfg.invalid code
    cases s with
    | error m =>
      simp only [HttpOutcome]
      rw [← hm, ← h1, ← h2]
      cases hv : cfg.valid.any (inRange code) <;> cases hi : cfg.invalid.any (inRange code) <;> simp
    | _ =>
      simp only [HttpOutcome]
      try rw [← h1]
      try rw [← h2]
      cases hv : cfg.valid.any (inRange code) <;> cases hi : cfg.invalid.any (inRange code) <;> simp

theorem matchVar_eq : ("$MATCH".toList : Str) = '$' :: ['M', 'A', 'T', 'C', 'H'] := by decide
theorem hostVar_eq : ("$HOST".toList : Str) = '$' :: ['H', 'O', 'S', 'T'] := by decide

theorem headers_iff (hs gs : List (Str × Str)) (text : Str) :
    All2 (fun h g => g.1 = h.1 ∧ Substituted "$MATCH".toList text h.2 g.2) hs gs ↔
      gs = hs.map fun h => (h.1, headerValue h.2 text) := by
  have key : ∀ a b, Substituted "$MATCH".toList text a b ↔ b = headerValue a text := fun a b => by
    rw [matchVar_eq]
    exact substituted_iff (by decide) text a b
  constructor
  · intro h
    induction h with
    | nil => rfl
    | cons h _ ih =>
      rw [ih, List.map_cons, ← (key _ _).mp h.2, ← h.1]
  · rintro rfl
    induction hs with
    | nil => exact .nil
    | cons h hs ih => exact .cons ⟨rfl, (key _ _).mpr rfl⟩ ih

theorem httpRequest_iff (cfg : HttpConfig) (e text : Str) (r : HttpReq) :
    HttpRequest cfg e text r ↔ e ∈ cfg.endpoints ∧ r = cfg.request e text := by
  unfold HttpRequest
  rw [headers_iff]
  cases r
  simp only [HttpConfig.request, HttpReq.mk.injEq]
  constructor
  · rintro ⟨h, rfl, rfl, rfl, rfl⟩; exact ⟨h, rfl, rfl, rfl, rfl⟩
  · rintro ⟨h, rfl, rfl, rfl, rfl⟩; exact ⟨h, rfl, rfl, rfl, rfl⟩

theorem httpResult_iff (net : Net) (cfg : HttpConfig) (i : Nat) (text : Str) (s : MatchStatus) :
    HttpResult net cfg i text s ↔ ∃ e ∈ cfg.endpoints, s = httpOutcome cfg (net.http i (cfg.request e text)) := by
  simp only [HttpResult, httpRequest_iff, httpOutcome_iff]
  constructor
  · rintro ⟨e, r, ⟨he, rfl⟩, h⟩; exact ⟨e, he, h⟩
  · rintro ⟨e, he, h⟩; exact ⟨e, _, ⟨he, rfl⟩, h⟩

theorem httpCheck_eq (net : Net) (cfg : HttpConfig) (ms : List RuleMatch) (k : Nat × Str) (s : MatchStatus) :
    httpCheck net cfg ms k s =
      match (ms[k.1]?).bind (·.value) with
      | none => .panic
      | some v => .ok (httpOutcome cfg (net.http k.1 (cfg.request k.2 v))) := by
  unfold httpCheck
  cases (ms[k.1]?).bind (·.value) with
  | none => rfl
  | some v => cases h : net.http k.1 (cfg.request k.2 v) <;> simp [httpOutcome, h]

/-- What the HTTP validator makes of match number `i`. -/
def HttpFinal (net : Net) (cfg : HttpConfig) (i : Nat) (m : RuleMatch) : MatchStatus → Prop :=
  Highest fun x => x = m.status ∨ ∃ text, m.value = some text ∧ HttpResult net cfg i text x

theorem httpValidate_ok (net : Net) (sch : Sched) (hf : Fair sch) (cfg : HttpConfig) (ms : List RuleMatch)
    (hv : ∀ m ∈ ms, m.value ≠ none) :
    ∃ outs, httpValidate net sch cfg ms = .ok outs ∧ Updated (HttpFinal net cfg) ms outs := by
  let f : Nat × Str → MatchStatus := fun k =>
    match (ms[k.1]?).bind (·.value) with
    | none => .valid
    | some v => httpOutcome cfg (net.http k.1 (cfg.request k.2 v))
  have hval : ∀ k ∈ httpKeys cfg ms.length, httpCheck net cfg ms k .notChecked = .ok (f k) := by
    intro k hk
    have hl := ((mem_httpKeys cfg _ k).mp hk).1
    rw [httpCheck_eq]
    simp only [f]
    cases h : (ms[k.1]?).bind (·.value) with
    | some v => rfl
    | none =>
      rw [List.getElem?_eq_getElem hl] at h
      exact absurd h (hv _ (List.getElem_mem hl))
  have hp := hf.httpRun (httpKeys cfg ms.length)
  obtain ⟨t, h1, h2⟩ := runChecks_ok (httpCheck net cfg ms) f (sch.httpRun (httpKeys cfg ms.length))
    (hp.nodup_iff.mpr (httpKeys_nodup _ _))
    (fun k => if k ∈ httpKeys cfg ms.length then some .notChecked else none)
    (fun k hk => by simp [hp.mem_iff.mp hk])
    (fun k hk => hval k (hp.mem_iff.mp hk))
  refine ⟨httpMergeLoop t (sch.httpMerge (httpKeys cfg ms.length)) ms, ?_, ?_⟩
  · simp only [httpValidate, h1]
  · rw [httpMergeLoop_eq]
    refine Updated.mono ?_ (mergeSeq_updated _ ms)
    intro i m s hm hs
    refine Highest.congr (fun x => ?_) hs
    apply or_congr Iff.rfl
    have hi : i < ms.length := (List.getElem?_eq_some_iff.mp hm).1
    have hmv : (ms[i]?).bind (·.value) = m.value := by rw [hm]; rfl
    have ht : ∀ k ∈ httpKeys cfg ms.length, t k = some (f k) := fun k hk => by
      rw [h2, if_pos (hp.mem_iff.mpr hk)]
    simp only [List.mem_filterMap, (hf.httpMerge _).mem_iff, httpResult_iff]
    constructor
    · rintro ⟨k, hk, h⟩
      rw [ht k hk] at h
      simp at h
      obtain ⟨rfl, rfl⟩ := h
      cases hv' : m.value with
      | none => exact absurd hv' (hv m (List.mem_of_getElem? hm))
      | some text =>
        refine ⟨text, rfl, k.2, ((mem_httpKeys cfg _ k).mp hk).2, ?_⟩
        simp only [f]
        rw [hmv, hv']
    · rintro ⟨text, htext, e, he, rfl⟩
      have hk : (i, e) ∈ httpKeys cfg ms.length := (mem_httpKeys cfg _ _).mpr ⟨hi, he⟩
      refine ⟨(i, e), hk, ?_⟩
      rw [ht _ hk]
      simp only [f, Option.map_some]
      rw [hmv, htext]

theorem httpValidate_panic (net : Net) (sch : Sched) (hf : Fair sch) (cfg : HttpConfig) (he : cfg.endpoints ≠ [])
    (ms : List RuleMatch) (hv : ∃ m ∈ ms, m.value = none) : httpValidate net sch cfg ms = .panic := by
  have hp := hf.httpRun (httpKeys cfg ms.length)
  have := runChecks_panic (httpCheck net cfg ms) (sch.httpRun (httpKeys cfg ms.length))
    (hp.nodup_iff.mpr (httpKeys_nodup _ _))
    (fun k => if k ∈ httpKeys cfg ms.length then some .notChecked else none)
    (fun k hk => by simp [hp.mem_iff.mp hk])
    (fun k hk => by
      rw [httpCheck_eq]
      cases (ms[k.1]?).bind (·.value) <;> simp) (by
      obtain ⟨m, hm, hnone⟩ := hv
      obtain ⟨i, hi, rfl⟩ := List.getElem_of_mem hm
      obtain ⟨e, he'⟩ := List.exists_mem_of_ne_nil _ he
      refine ⟨(i, e), hp.mem_iff.mpr ((mem_httpKeys cfg _ _).mpr ⟨hi, he'⟩), ?_⟩
      rw [httpCheck_eq]
      simp [List.getElem?_eq_getElem hi, hnone])
  simp only [httpValidate, this]

theorem httpValidate_none (net : Net) (sch : Sched) (hf : Fair sch) (cfg : HttpConfig) (he : cfg.endpoints = [])
    (ms : List RuleMatch) : httpValidate net sch cfg ms = .ok ms := by
  have : httpKeys cfg ms.length = [] := by
    simp [httpKeys, he]
  have h1 := (hf.httpRun []).eq_nil
  have h2 := (hf.httpMerge []).eq_nil
  simp [httpValidate, this, h1, h2, runChecks, httpMergeLoop]

theorem httpFinal_unique {net : Net} {cfg : HttpConfig} (i : Nat) (m : RuleMatch) (s s' : MatchStatus)
    (h : HttpFinal net cfg i m s) (h' : HttpFinal net cfg i m s') : s = s' := Highest.unique h h'

theorem httpValidate_sched (net : Net) (s1 s2 : Sched) (h1 : Fair s1) (h2 : Fair s2) (cfg : HttpConfig)
    (ms : List RuleMatch) : httpValidate net s1 cfg ms = httpValidate net s2 cfg ms := by
  by_cases hv : ∀ m ∈ ms, m.value ≠ none
  · obtain ⟨o1, e1, u1⟩ := httpValidate_ok net s1 h1 cfg ms hv
    obtain ⟨o2, e2, u2⟩ := httpValidate_ok net s2 h2 cfg ms hv
    rw [e1, e2, Updated.unique httpFinal_unique u1 u2]
  · by_cases he : cfg.endpoints = []
    · rw [httpValidate_none net s1 h1 cfg he, httpValidate_none net s2 h2 cfg he]
    · have : ∃ m ∈ ms, m.value = none := by
        simpa using hv
      rw [httpValidate_panic net s1 h1 cfg he ms this, httpValidate_panic net s2 h2 cfg he ms this]

/-! ## The AWS validator -/

/-- What the AWS validator makes of match number `i`. -/
def AwsFinal (net : Net) (cfg : AwsConfig) (rules : List (Option VType)) (ms : List RuleMatch) (i : Nat) (m : RuleMatch) :
    MatchStatus → Prop :=
  Highest fun x => x = m.status ∨
    (∃ j, AwsPair rules ms i j ∧ awsCheck net cfg ms (i, j) .notChecked = .ok x) ∨
    (∃ j, AwsPair rules ms j i ∧ awsCheck net cfg ms (j, i) .notChecked = .ok x)

theorem awsCheck_ne_hang (net : Net) (cfg : AwsConfig) (ms : List RuleMatch) (k : Nat × Nat) (s : MatchStatus) :
    awsCheck net cfg ms k s ≠ .hang := by
  unfold awsCheck
  split
  · simp
  · simp
  · dsimp only
    split
    · split <;> simp
    · simp

theorem awsValidate_ok (net : Net) (sch : Sched) (hf : Fair sch) (cfg : AwsConfig) (rules : List (Option VType))
    (ms : List RuleMatch) (hv : ∀ i j, AwsPair rules ms i j → awsCheck net cfg ms (i, j) .notChecked ≠ .panic) :
    ∃ outs, awsValidate net sch cfg rules ms = .ok outs ∧ Updated (AwsFinal net cfg rules ms) ms outs := by
  let f : Nat × Nat → MatchStatus := fun k =>
    match awsCheck net cfg ms k .notChecked with
    | .ok s => s
    | _ => .valid
  have hval : ∀ k ∈ awsPairs rules ms, awsCheck net cfg ms k .notChecked = .ok (f k) := by
    rintro ⟨i, j⟩ hk
    have h1 := hv i j ((mem_awsPairs rules ms i j).mp hk)
    have h2 := awsCheck_ne_hang net cfg ms (i, j) .notChecked
    simp only [f]
    cases h : awsCheck net cfg ms (i, j) .notChecked with
    | ok s => rfl
    | panic => exact absurd h h1
    | hang => exact absurd h h2
  have hp := hf.awsRun (awsPairs rules ms)
  obtain ⟨t, h1, h2⟩ := runChecks_ok (awsCheck net cfg ms) f (sch.awsRun (awsPairs rules ms))
    (hp.nodup_iff.mpr (awsPairs_nodup _ _))
    (fun k => if k ∈ awsPairs rules ms then some .notChecked else none)
    (fun k hk => by simp [hp.mem_iff.mp hk])
    (fun k hk => hval k (hp.mem_iff.mp hk))
  refine ⟨awsMergeLoop t (sch.awsMerge (awsPairs rules ms)) ms, ?_, ?_⟩
  · simp only [awsValidate, h1]
  · rw [awsMergeLoop_eq]
    refine Updated.mono ?_ (mergeSeq_updated _ ms)
    intro i m s hm hs
    refine Highest.congr (fun x => ?_) hs
    apply or_congr Iff.rfl
    have ht : ∀ k ∈ awsPairs rules ms, t k = some (f k) := fun k hk => by
      rw [h2, if_pos (hp.mem_iff.mpr hk)]
    simp only [List.mem_flatMap, (hf.awsMerge _).mem_iff]
    constructor
    · rintro ⟨⟨a, b⟩, hk, h⟩
      rw [ht _ hk] at h
      simp at h
      rcases h with ⟨rfl, rfl⟩ | ⟨rfl, rfl⟩
      · exact Or.inl ⟨b, (mem_awsPairs rules ms _ _).mp hk, hval _ hk⟩
      · exact Or.inr ⟨a, (mem_awsPairs rules ms _ _).mp hk, hval _ hk⟩
    · rintro (⟨j, hj, h⟩ | ⟨j, hj, h⟩)
      · have hk := (mem_awsPairs rules ms _ _).mpr hj
        refine ⟨(i, j), hk, ?_⟩
        rw [hval _ hk] at h
        rw [ht _ hk]
        simp at h ⊢
        exact Or.inl h.symm
      · have hk := (mem_awsPairs rules ms _ _).mpr hj
        refine ⟨(j, i), hk, ?_⟩
        rw [hval _ hk] at h
        rw [ht _ hk]
        simp at h ⊢
        exact Or.inr h.symm

theorem awsValidate_panic (net : Net) (sch : Sched) (hf : Fair sch) (cfg : AwsConfig) (rules : List (Option VType))
    (ms : List RuleMatch) (i j : Nat) (hp' : AwsPair rules ms i j)
    (hv : awsCheck net cfg ms (i, j) .notChecked = .panic) : awsValidate net sch cfg rules ms = .panic := by
  have hp := hf.awsRun (awsPairs rules ms)
  have := runChecks_panic (awsCheck net cfg ms) (sch.awsRun (awsPairs rules ms))
    (hp.nodup_iff.mpr (awsPairs_nodup _ _))
    (fun k => if k ∈ awsPairs rules ms then some .notChecked else none)
    (fun k hk => by simp [hp.mem_iff.mp hk])
    (fun k _ => awsCheck_ne_hang net cfg ms k .notChecked)
    ⟨(i, j), hp.mem_iff.mpr ((mem_awsPairs rules ms i j).mpr hp'), hv⟩
  simp only [awsValidate, this]

theorem awsFinal_unique {net : Net} {cfg : AwsConfig} {rules : List (Option VType)} {ms : List RuleMatch} (i : Nat)
    (m : RuleMatch) (s s' : MatchStatus) (h : AwsFinal net cfg rules ms i m s) (h' : AwsFinal net cfg rules ms i m s') :
    s = s' := Highest.unique h h'

theorem awsValidate_sched (net : Net) (s1 s2 : Sched) (h1 : Fair s1) (h2 : Fair s2) (cfg : AwsConfig)
    (rules : List (Option VType)) (ms : List RuleMatch) :
    awsValidate net s1 cfg rules ms = awsValidate net s2 cfg rules ms := by
  by_cases hv : ∀ i j, AwsPair rules ms i j → awsCheck net cfg ms (i, j) .notChecked ≠ .panic
  · obtain ⟨o1, e1, u1⟩ := awsValidate_ok net s1 h1 cfg rules ms hv
    obtain ⟨o2, e2, u2⟩ := awsValidate_ok net s2 h2 cfg rules ms hv
    rw [e1, e2, Updated.unique awsFinal_unique u1 u2]
  · simp only [Classical.not_forall, Classical.not_not] at hv
    obtain ⟨i, j, hp, hv⟩ := hv
    rw [awsValidate_panic net s1 h1 cfg rules ms i j hp hv, awsValidate_panic net s2 h2 cfg rules ms i j hp hv]

theorem validate_sched (net : Net) (s1 s2 : Sched) (h1 : Fair s1) (h2 : Fair s2) (rules : List (Option VType))
    (ms : List RuleMatch) (v : Validator) : v.validate net s1 rules ms = v.validate net s2 rules ms := by
  cases v with
  | aws cfg => exact awsValidate_sched net s1 s2 h1 h2 cfg rules ms
  | http cfg => exact httpValidate_sched net s1 s2 h1 h2 cfg ms

theorem validate_updated (net : Net) (sch : Sched) (hf : Fair sch) (rules : List (Option VType)) (ms outs : List RuleMatch)
    (v : Validator) (h : v.validate net sch rules ms = .ok outs) :
    Updated (fun _ m s => StatusLe m.status s) ms outs := by
  cases v with
  | aws cfg =>
    simp only [Validator.validate] at h
    by_cases hv : ∀ i j, AwsPair rules ms i j → awsCheck net cfg ms (i, j) .notChecked ≠ .panic
    · obtain ⟨o1, e1, u1⟩ := awsValidate_ok net sch hf cfg rules ms hv
      rw [e1] at h
      cases h
      exact u1.mono (fun i m s _ hs => hs.2 _ (Or.inl rfl))
    · simp only [Classical.not_forall, Classical.not_not] at hv
      obtain ⟨i, j, hp, hv⟩ := hv
      rw [awsValidate_panic net sch hf cfg rules ms i j hp hv] at h
      cases h
  | http cfg =>
    simp only [Validator.validate] at h
    by_cases hv : ∀ m ∈ ms, m.value ≠ none
    · obtain ⟨o1, e1, u1⟩ := httpValidate_ok net sch hf cfg ms hv
      rw [e1] at h
      cases h
      exact u1.mono (fun i m s _ hs => hs.2 _ (Or.inl rfl))
    · by_cases he : cfg.endpoints = []
      · rw [httpValidate_none net sch hf cfg he] at h
        cases h
        refine ⟨rfl, fun i a b ha hb => ?_⟩
        rw [ha] at hb
        cases hb
        exact ⟨rfl, .refl _⟩
      · have : ∃ m ∈ ms, m.value = none := by
          simpa using hv
        rw [httpValidate_panic net sch hf cfg he ms this] at h
        cases h

end Sds
