import Verif.Lemmas.ValidateGroups

/-! # C37-C40, C60: match validation

The network (`Net`) and every order the code leaves open (`Sched`) are arbitrary; `Fair` only says that a
schedule runs through exactly the keys it is given. -/

namespace Sds.Props

open Sds.Spec

/-! ## Shared examples -/

/-- A schedule: everything in insertion order. -/
def inOrder : Sched := ⟨id, id, id, id, id⟩
/-- Another one: everything backwards. -/
def backwards : Sched := ⟨List.reverse, List.reverse, List.reverse, List.reverse, List.reverse⟩

theorem inOrder_fair : Fair inOrder :=
  ⟨fun _ => .refl _, fun _ => .refl _, fun _ => .refl _, fun _ => .refl _, fun _ => .refl _⟩
theorem backwards_fair : Fair backwards :=
  ⟨fun l => l.reverse_perm, fun l => l.reverse_perm, fun l => l.reverse_perm, fun l => l.reverse_perm, fun l => l.reverse_perm⟩

def aMatch (rule start : Nat) (value : Str) (status : MatchStatus) : RuleMatch :=
  ⟨rule, [], .none, start, start + 1, 0, some value, status⟩

def webCfg (header : Str) : HttpConfig := ⟨[['u']], .get, [(['k'], header)], [(200, 300)], [(400, 500)], 3⟩
def awsCfg : AwsConfig := ⟨['s'], none, 3⟩

/-- An AWS secret. -/
def someKey : Str := List.replicate 40 's'

/-- Replies 200 to an HTTP request carrying header value `g`, 403 otherwise; accepts AWS id `i` with secret `someKey`. -/
def someNet : Net where
  http := fun _ r => if r.headers.any (fun h => h.2 == ['g']) then .response 200 else .response 403
  aws := fun _ _ r => if r.id == ['i'] && r.secret == someKey then .response 200 else .response 403
  signable := fun _ => true
  word := fun _ => false

theorem typeOf_aws (rules : List (Option VType)) (m : RuleMatch) : (typeOf rules m == some .aws) = isAws rules m := by
  unfold typeOf vtypeOf isAws
  cases rules[m.rule]? with
  | none => rfl
  | some o => cases o with
    | none => rfl
    | some t => cases t <;> rfl

theorem typeOf_http (rules : List (Option VType)) (es : List Str) (m : RuleMatch) :
    (typeOf rules m == some (.http es)) = usesEndpoints rules es m := by
  unfold typeOf vtypeOf usesEndpoints
  cases rules[m.rule]? with
  | none => rfl
  | some o => cases o with
    | none => rfl
    | some t => cases t with
      | http cfg =>
        show (some (IType.http cfg.endpoints) == some (IType.http es)) = decide (cfg.endpoints = es)
        by_cases h : cfg.endpoints = es <;> simp [h]
      | _ => rfl

theorem typeOf_some (rules : List (Option VType)) (m : RuleMatch) : (typeOf rules m).isSome = isValidated rules m := by
  unfold typeOf vtypeOf isValidated
  cases rules[m.rule]? with
  | none => rfl
  | some o => cases o <;> simp

theorem fixedPart_eraseStatus (m : RuleMatch) : fixedPart (eraseStatus m) = fixedPart m := rfl

theorem map_fixedPart (l : List RuleMatch) : (l.map eraseStatus).map fixedPart = l.map fixedPart := by
  rw [List.map_map]; rfl

/-! ## C37 -/

/-- C37 fails: `validate_matches` drops the matches of every rule without a validation type (as soon as some
other rule has one). -/
theorem C37_refuted : ¬ ∀ (net : Net) (sch : Sched) (rules : List (Option VType)) (vs : List (IType × Validator))
    (ret : Bool) (ms outs : List RuleMatch), Fair sch → buildValidators rules [] false = some (vs, ret) →
    validateMatches net sch rules vs ret ms = .ok (some outs) → (outs.map fixedPart).Perm (ms.map fixedPart) := by
  intro h
  have := h someNet inOrder [none, some (.http (webCfg ['g']))] [(.http [['u']], .http (webCfg ['g']))] true
    [aMatch 0 0 ['a'] .notAvailable, aMatch 1 5 ['b'] .notChecked] [aMatch 1 5 ['b'] .valid] inOrder_fair rfl
    (by decide)
  exact absurd this.length_eq (by decide)

/-- C37 (partial: only for rules with a validation type): when every match comes from a rule with a validation
type, validation returns exactly the given matches, in everything but their status; in general it returns exactly
those of such rules.  The result is ordered by start.  Missing: the matches of other rules are lost. -/
theorem C37_keeps_matches_partial (net : Net) (sch : Sched) (hf : Fair sch) (rules : List (Option VType))
    (vs : List (IType × Validator)) (ret : Bool) (ms outs : List RuleMatch)
    (h : validateMatches net sch rules vs ret ms = .ok (some outs)) :
    (outs.map fixedPart).Perm ((ms.filter (isValidated rules)).map fixedPart) ∧
      ((∀ m ∈ ms, isValidated rules m = true) → (outs.map fixedPart).Perm (ms.map fixedPart)) ∧
      outs.Pairwise (fun a b => a.start ≤ b.start) := by
  obtain ⟨h1, h2, -⟩ := validateMatches_ok net sch hf rules vs ret ms outs h
  have h3 : (outs.map fixedPart).Perm ((ms.filter (isValidated rules)).map fixedPart) := by
    have := h1.map fixedPart
    rw [map_fixedPart, map_fixedPart] at this
    simpa only [typeOf_some] using this
  refine ⟨h3, fun hall => ?_, h2⟩
  rwa [List.filter_eq_self.mpr hall] at h3

/-- Two matches, given out of order. -/
example : validateMatches someNet backwards [some (.http (webCfg ['g']))] [(.http [['u']], .http (webCfg ['g']))] true
    [aMatch 0 5 ['b'] .notChecked, aMatch 0 0 ['a'] .notChecked] =
    .ok (some [aMatch 0 0 ['a'] .valid, aMatch 0 5 ['b'] .valid]) := by decide

/-- Scanners without any validator reject the call and leave the matches alone. -/
theorem C37_no_validator (net : Net) (sch : Sched) (rules : List (Option VType)) (vs : List (IType × Validator)) (ret : Bool)
    (hb : buildValidators rules [] false = some (vs, ret)) (ms : List RuleMatch) :
    validateMatches net sch rules vs ret ms = .ok none ↔ ¬ HasValidator rules := by
  obtain ⟨vs', h1, -⟩ := buildValidators_spec rules [] false (fun h => absurd rfl h)
  rw [h1] at hb
  simp only [Bool.false_or, Option.some.injEq, Prod.mk.injEq] at hb
  have hv : ret = true ↔ HasValidator rules := by
    rw [← hb.2, List.any_eq_true]
    constructor
    · rintro ⟨o, ho, h⟩
      cases o with
      | none => simp at h
      | some t => exact ⟨t, ho, by cases t <;> simp_all [VType.canCreate]⟩
    · rintro ⟨t, ht, h⟩
      refine ⟨some t, ht, ?_⟩
      rcases h with ⟨cfg, rfl⟩ | ⟨cfg, rfl⟩ <;> rfl
  rw [← hv]
  cases ret with
  | false => simp [validateMatches]
  | true =>
    simp only [validateMatches, Bool.not_true, Bool.false_eq_true, if_false, not_true_eq_false, iff_false]
    intro h
    split at h
    · cases h
    · cases h
    · split at h
      · cases h
      · cases h
      · cases h

example : HasValidator [none, some .awsId, some (.awsSecret awsCfg)] := ⟨_, by simp, Or.inl ⟨awsCfg, rfl⟩⟩
example : ¬ HasValidator [none, some .awsId] := by
  rintro ⟨t, ht, h⟩
  simp at ht
  subst ht
  rcases h with ⟨_, h⟩ | ⟨_, h⟩ <;> cases h

/-! ## C38 -/

/-- C38, merging: whatever the order of the outcomes, the status becomes the highest of the initial one and all
outcomes. -/
theorem C38_merge (s : MatchStatus) (l : List MatchStatus) :
    Highest (fun x => x = s ∨ x ∈ l) (l.foldl MatchStatus.merge s) ∧
      StatusLe s (l.foldl MatchStatus.merge s) ∧
      ∀ l' : List MatchStatus, l'.Perm l → l'.foldl MatchStatus.merge s = l.foldl MatchStatus.merge s := by
  have h := foldl_merge_spec l s
  refine ⟨h, h.2 _ (Or.inl rfl), fun l' hp => ?_⟩
  exact Highest.unique (Highest.congr (fun x => by rw [hp.mem_iff]) (foldl_merge_spec l' s)) h

example : [MatchStatus.invalid, .error ['a', 'b'], .notAvailable, .error ['a']].foldl MatchStatus.merge .notChecked =
    .error ['a', 'b'] := by decide

/-- The order is the one the claim names: statuses are totally ordered, and "highest" is unique. -/
theorem C38_order (a b c : MatchStatus) :
    StatusLe a a ∧ (StatusLe a b → StatusLe b c → StatusLe a c) ∧ (StatusLe a b → StatusLe b a → a = b) ∧
      (StatusLe a b ∨ StatusLe b a) ∧ StatusLe .notChecked .notAvailable ∧ StatusLe .notAvailable .invalid ∧
      (∀ m, StatusLe .invalid (.error m) ∧ StatusLe (.error m) .valid) := by
  refine ⟨.refl a, StatusLe.trans, StatusLe.antisymm, ?_, .notChecked _, .notAvailable _ (by simp), fun m =>
    ⟨.invalid _ (by simp) (by simp), .valid _⟩⟩
  rcases lt_tri a b with h | rfl | h
  · exact Or.inl (statusLe_of_lt h)
  · exact Or.inl (.refl _)
  · exact Or.inr (statusLe_of_lt h)

/-- C38, HTTP: the final status of each match is the highest of its initial status and of the outcomes at all
endpoints, for every schedule. -/
theorem C38_http (net : Net) (sch : Sched) (hf : Fair sch) (cfg : HttpConfig) (ms : List RuleMatch)
    (hv : ∀ m ∈ ms, m.value ≠ none) :
    ∃ outs, httpValidate net sch cfg ms = .ok outs ∧
      Updated (fun i m s => Highest (fun x => x = m.status ∨ ∃ text, m.value = some text ∧ HttpResult net cfg i text x) s)
        ms outs :=
  httpValidate_ok net sch hf cfg ms hv

example : httpValidate ⟨fun i r => if r.endpoint = ['v'] ∧ i = 1 then .response 302 else .response 404, fun _ _ _ => .failed [],
      fun _ => true, fun _ => false⟩ backwards ⟨[['u'], ['v']], .get, [], [(200, 300)], [(400, 500)], 3⟩
    [aMatch 0 0 ['a'] .notChecked, aMatch 0 1 ['b'] .notChecked] =
    .ok [aMatch 0 0 ['a'] .invalid, aMatch 0 1 ['b'] (.error "Unexpected HTTP status code 302".toList)] := by decide +kernel

/-- C38, AWS: the final status of each match is the highest of its initial status and of the outcomes of all
pairs it takes part in, for every schedule.  (`Signable`: the signature of every request is a legal header value;
the code panics otherwise.) -/
theorem C38_aws (net : Net) (sch : Sched) (hf : Fair sch) (cfg : AwsConfig) (rules : List (Option VType))
    (ms : List RuleMatch) (hs : Signable net cfg rules ms) :
    ∃ outs, awsValidate net sch cfg rules ms = .ok outs ∧
      Updated (fun i m s => Highest (fun x => x = m.status ∨
        (∃ j, AwsPair rules ms i j ∧ AwsResult net cfg ms i j x) ∨
        (∃ j, AwsPair rules ms j i ∧ AwsResult net cfg ms j i x)) s) ms outs := by
  obtain ⟨outs, h1, h2⟩ := awsValidate_ok net sch hf cfg rules ms ((signable_no_panic net cfg rules ms).mp hs)
  exact ⟨outs, h1, h2.mono (fun i m s _ h => awsFinal_results hs h)⟩

def awsRules : List (Option VType) := [some .awsId, some (.awsSecret awsCfg)]

/-- Two ids and two secrets; only one pair is accepted. -/
example : awsValidate someNet backwards awsCfg awsRules
    [aMatch 0 0 ['x'] .notChecked, aMatch 1 1 someKey .notChecked, aMatch 0 2 ['i'] .notChecked, aMatch 1 3 ['y'] .notChecked] =
    .ok [aMatch 0 0 ['x'] .invalid, aMatch 1 1 someKey .valid, aMatch 0 2 ['i'] .valid, aMatch 1 3 ['y'] .invalid] := by
  decide

/-- C38, the whole of `validate_matches`: under any two schedules it panics or rejects alike, and returns the same
matches with the same statuses (in the same order up to ties in the start index); no status decreases. -/
theorem C38_schedule_independent (net : Net) (s1 s2 : Sched) (h1 : Fair s1) (h2 : Fair s2) (rules : List (Option VType))
    (vs : List (IType × Validator)) (ret : Bool) (ms : List RuleMatch) :
    (validateMatches net s1 rules vs ret ms = .panic ↔ validateMatches net s2 rules vs ret ms = .panic) ∧
    (validateMatches net s1 rules vs ret ms = .ok none ↔ validateMatches net s2 rules vs ret ms = .ok none) ∧
    ∀ o1, validateMatches net s1 rules vs ret ms = .ok (some o1) →
      ∃ o2, validateMatches net s2 rules vs ret ms = .ok (some o2) ∧ o1.Perm o2 := by
  unfold validateMatches
  rw [show validateGroups net s1 rules vs = validateGroups net s2 rules vs from
    funext (validateGroups_sched net s1 s2 h1 h2 rules vs)]
  cases ret with
  | false => simp
  | true =>
    simp only [Bool.not_true, Bool.false_eq_true, if_false]
    cases groupMatches rules ms [] with
    | panic => simp
    | hang => simp
    | ok gs =>
      dsimp only
      cases validateGroups net s2 rules vs gs with
      | panic => simp
      | hang => simp
      | ok gs' =>
        simp
        refine (sortBy_perm _ _).trans (List.Perm.trans ?_ (sortBy_perm _ _).symm)
        exact ((h1.groups _).trans (h2.groups _).symm).flatMap_right _

/-- C38: no status decreases.  The result splits into the groups of the validator keys, each the group of the
input with statuses raised. -/
theorem C38_never_decreases (net : Net) (sch : Sched) (hf : Fair sch) (rules : List (Option VType))
    (vs : List (IType × Validator)) (ret : Bool) (ms outs : List RuleMatch)
    (h : validateMatches net sch rules vs ret ms = .ok (some outs)) :
    ∀ b ∈ outs, ∃ a ∈ ms, fixedPart a = fixedPart b ∧ StatusLe a.status b.status := by
  obtain ⟨h1, -, h3⟩ := validateMatches_ok net sch hf rules vs ret ms outs h
  intro b hb
  have hty : (typeOf rules b).isSome = true := by
    have : eraseStatus b ∈ (ms.filter fun m => (typeOf rules m).isSome).map eraseStatus :=
      h1.mem_iff.mp (List.mem_map_of_mem hb)
    obtain ⟨a, ha, e⟩ := List.mem_map.mp this
    rw [← eraseStatus_type e rules]
    exact (List.mem_filter.mp ha).2
  obtain ⟨t, ht⟩ := Option.isSome_iff_exists.mp hty
  obtain ⟨G, hG, hp⟩ := h3 t
  have hbG : b ∈ G := hp.mem_iff.mp (List.mem_filter.mpr ⟨hb, by simp [ht]⟩)
  have hu := validateGroup_updated net sch hf rules vs t _ G hG
  obtain ⟨i, hi, rfl⟩ := List.getElem_of_mem hbG
  have hi' : i < (ms.filter fun m => typeOf rules m == some t).length := by rw [← hu.len]; exact hi
  obtain ⟨e, hle⟩ := hu.each i _ _ (List.getElem?_eq_getElem hi') (List.getElem?_eq_getElem hi)
  refine ⟨_, (List.mem_filter.mp (List.getElem_mem hi')).1, ?_, hle⟩
  have := congrArg fixedPart e
  exact this

/-- A mixed list, validated under two schedules. -/
example : validateMatches someNet inOrder (some (.http (webCfg ['g'])) :: awsRules)
      [(.http [['u']], .http (webCfg ['g'])), (.aws, .aws awsCfg)] true
      [aMatch 0 0 ['b'] .notChecked, aMatch 1 0 ['i'] .notChecked, aMatch 2 3 someKey .notChecked] =
      .ok (some [aMatch 0 0 ['b'] .valid, aMatch 1 0 ['i'] .valid, aMatch 2 3 someKey .valid]) ∧
    validateMatches someNet backwards (some (.http (webCfg ['g'])) :: awsRules)
      [(.http [['u']], .http (webCfg ['g'])), (.aws, .aws awsCfg)] true
      [aMatch 0 0 ['b'] .notChecked, aMatch 1 0 ['i'] .notChecked, aMatch 2 3 someKey .notChecked] =
      .ok (some [aMatch 1 0 ['i'] .valid, aMatch 0 0 ['b'] .valid, aMatch 2 3 someKey .valid]) := by decide

/-! ## C39 -/

theorem awsClaim_of_final {net : Net} {cfg : AwsConfig} {rules : List (Option VType)} {ms : List RuleMatch} {i : Nat}
    {m : RuleMatch} {s : MatchStatus} (hs : Signable net cfg rules ms) (h : AwsFinal net cfg rules ms i m s) :
    AwsClaim net cfg rules ms i m s := by
  obtain ⟨h1, h2⟩ := awsFinal_results hs h
  have acc : ∀ {a b}, AwsResult net cfg ms a b .valid → AwsAccepted net cfg ms a b := fun h => by
    cases h; assumption
  have top : StatusLe .valid s → s = .valid := fun h => h.antisymm (.valid _) |>.symm
  refine ⟨⟨?_, ?_⟩, ?_⟩
  · rintro rfl
    rcases h1 with h | ⟨j, hj, h⟩ | ⟨j, hj, h⟩
    · exact Or.inl h.symm
    · exact Or.inr (Or.inl ⟨j, hj, acc h⟩)
    · exact Or.inr (Or.inr ⟨j, hj, acc h⟩)
  · rintro (h | ⟨j, hj, h⟩ | ⟨j, hj, h⟩)
    · exact top (h2 _ (Or.inl h.symm))
    · exact top (h2 _ (Or.inr (Or.inl ⟨j, hj, .accepted h⟩)))
    · exact top (h2 _ (Or.inr (Or.inr ⟨j, hj, .accepted h⟩)))
  · intro hn
    rcases h1 with h | ⟨j, hj, -⟩ | ⟨j, hj, -⟩
    · exact h
    · exact absurd hj (hn j).1
    · exact absurd hj (hn j).2

/-- C39: an id (secret) match ends Valid iff it was Valid or some combination with a secret (id) match of the list is
accepted; with no partner its status is unchanged.  The validator does not panic when every signature is a legal
header value. -/
theorem C39_aws_pairs (net : Net) (sch : Sched) (hf : Fair sch) (cfg : AwsConfig) (rules : List (Option VType))
    (ms : List RuleMatch) :
    (Signable net cfg rules ms → ∃ outs, awsValidate net sch cfg rules ms = .ok outs) ∧
    ∀ outs, awsValidate net sch cfg rules ms = .ok outs → Updated (AwsClaim net cfg rules ms) ms outs := by
  refine ⟨fun hs => ?_, fun outs h => ?_⟩
  · obtain ⟨outs, h, -⟩ := awsValidate_ok net sch hf cfg rules ms ((signable_no_panic net cfg rules ms).mp hs)
    exact ⟨outs, h⟩
  · obtain ⟨hs, hu⟩ := awsValidate_final net sch hf cfg rules ms outs h
    exact hu.mono (fun i m s _ h => awsClaim_of_final hs h)

/-- C39 for a whole scanner: the AWS matches among the result are the AWS matches of the input, judged as above at
the endpoint of the first secret rule; without a secret rule their statuses are unchanged. -/
theorem C39_scanner (net : Net) (sch : Sched) (hf : Fair sch) (rules : List (Option VType))
    (vs : List (IType × Validator)) (ret : Bool) (hb : buildValidators rules [] false = some (vs, ret))
    (ms outs : List RuleMatch) (h : validateMatches net sch rules vs ret ms = .ok (some outs)) :
    ∃ G, (outs.filter (isAws rules)).Perm G ∧
      (∀ cfg, (secretConfigs rules).head? = some cfg →
        Updated (AwsClaim net cfg rules (ms.filter (isAws rules))) (ms.filter (isAws rules)) G) ∧
      ((∀ cfg, some (.awsSecret cfg) ∉ rules) → G = ms.filter (isAws rules)) := by
  obtain ⟨-, -, h3⟩ := validateMatches_ok net sch hf rules vs ret ms outs h
  obtain ⟨G, hG, hp⟩ := h3 .aws
  simp only [typeOf_aws] at hG hp
  obtain ⟨vs', e1, e2⟩ := buildValidators_spec rules [] false (fun h => absurd rfl h)
  rw [e1] at hb
  simp only [Option.some.injEq, Prod.mk.injEq] at hb
  obtain ⟨rfl, -⟩ := hb
  have key : ∀ rules : List (Option VType), firstFor rules .aws =
      ((secretConfigs rules).head?).map VType.awsSecret := by
    intro rules
    induction rules with
    | nil => rfl
    | cons o rules ih =>
      cases o with
      | none => simpa [firstFor, secretConfigs] using ih
      | some t => cases t with
        | awsSecret c => simp [firstFor, VType.canCreate, VType.itype, secretConfigs]
        | awsId => simpa [firstFor, VType.canCreate, secretConfigs] using ih
        | awsSession => simpa [firstFor, VType.canCreate, secretConfigs] using ih
        | http c => simpa [firstFor, VType.canCreate, VType.itype, secretConfigs] using ih
  have hl := e2 .aws
  rw [key] at hl
  refine ⟨G, hp, fun cfg hc => ?_, fun hn => ?_⟩
  · rw [hc] at hl
    simp [VType.validator] at hl
    simp only [validateGroup, hl, Validator.validate] at hG
    exact (C39_aws_pairs net sch hf cfg rules _).2 G hG
  · have : secretConfigs rules = [] := by
      unfold secretConfigs
      rw [List.filterMap_eq_nil_iff]
      intro o ho
      split
      · rename_i c
        exact absurd ho (hn c)
      · rfl
    rw [this] at hl
    have hl' : vs'.lookup .aws = none := hl
    simp only [validateGroup, hl'] at hG
    exact (Res.ok.inj hG).symm

/-- The hypotheses hold of `awsRules`, with matches of a third rule in between. -/
example : buildValidators (awsRules ++ [some (.http (webCfg ['g']))]) [] false =
      some ([(.aws, .aws awsCfg), (.http [['u']], .http (webCfg ['g']))], true) ∧
    validateMatches someNet backwards (awsRules ++ [some (.http (webCfg ['g']))])
      [(.aws, .aws awsCfg), (.http [['u']], .http (webCfg ['g']))] true
      [aMatch 0 0 ['i'] .notChecked, aMatch 2 1 ['q'] .notChecked, aMatch 1 2 ['x'] .notChecked] =
      .ok (some [aMatch 0 0 ['i'] .invalid, aMatch 2 1 ['q'] .valid, aMatch 1 2 ['x'] .invalid]) := by decide

/-! ## C40 -/

/-- C40, classification: the outcome of a check is Valid iff the code lies in a valid range, Invalid iff in none of
those but in an invalid range, and Error otherwise. -/
theorem C40_classification (cfg : HttpConfig) (code : Nat) :
    (cfg.classify code = .valid ↔ CodeIn cfg.valid code) ∧
    (cfg.classify code = .invalid ↔ ¬ CodeIn cfg.valid code ∧ CodeIn cfg.invalid code) ∧
    ((∃ m, cfg.classify code = .error m) ↔ ¬ CodeIn cfg.valid code ∧ ¬ CodeIn cfg.invalid code) := by
  have key := fun s => httpOutcome_iff cfg (.response code) s
  simp only [httpOutcome, HttpOutcome] at key
  refine ⟨?_, ?_, ?_⟩
  · rw [eq_comm, ← key .valid]
  · rw [eq_comm, ← key .invalid]
  · constructor
    · rintro ⟨m, hm⟩
      have := (key (.error m)).mpr hm.symm
      exact ⟨this.1, this.2.1⟩
    · intro h
      exact ⟨_, ((key (.error _)).mp ⟨h.1, h.2, rfl⟩).symm⟩

example : (webCfg []).classify 299 = .valid ∧ (webCfg []).classify 400 = .invalid ∧
    (webCfg []).classify 300 = .error "Unexpected HTTP status code 300".toList := by decide +kernel

/-- C40 fails for rules sharing their endpoints: here both rules check at `u`, but with different headers; the match
of the second is judged by a request with the header of the first. -/
theorem C40_own_configuration_refuted : ¬ ∀ (net : Net) (sch : Sched) (rules : List (Option VType))
    (vs : List (IType × Validator)) (ret : Bool) (ms outs : List RuleMatch), Fair sch →
    buildValidators rules [] false = some (vs, ret) →
    validateMatches net sch rules vs ret ms = .ok (some outs) →
    ∀ r cfg, rules[r]? = some (some (.http cfg)) → ∀ b ∈ outs, b.rule = r →
      ∃ a ∈ ms, fixedPart a = fixedPart b ∧ ∃ i,
        Highest (fun x => x = a.status ∨ ∃ text, a.value = some text ∧ HttpResult net cfg i text x) b.status := by
  intro h
  obtain ⟨a, ha, -, i, hi, -⟩ := h someNet inOrder [some (.http (webCfg ['g'])), some (.http (webCfg ['x']))]
    [(.http [['u']], .http (webCfg ['g']))] true [aMatch 1 0 ['m'] .notChecked] [aMatch 1 0 ['m'] .valid] inOrder_fair
    (by decide) (by decide) 1 (webCfg ['x']) rfl (aMatch 1 0 ['m'] .valid) (by simp) rfl
  simp only [List.mem_singleton] at ha
  subst ha
  rcases hi with hi | ⟨text, -, hi⟩
  · cases hi
  · obtain ⟨e, he, hx⟩ := (httpResult_iff _ _ _ _ _).mp hi
    have hu : e = ['u'] := by simpa [webCfg] using he
    subst hu
    have : httpOutcome (webCfg ['x']) (someNet.http i ((webCfg ['x']).request ['u'] text)) = .invalid := rfl
    rw [this] at hx
    cases hx

/-- C40 (partial): each match of an HTTP rule gets the highest of its initial status and of the outcomes of the
requests its rule's configuration prescribes, classified by its ranges, provided all rules with the same endpoints
have the same configuration.  Missing: rules that share endpoints but not headers, method or ranges
(`C40_own_configuration_refuted`). -/
theorem C40_own_configuration_partial (net : Net) (sch : Sched) (hf : Fair sch) (rules : List (Option VType))
    (vs : List (IType × Validator)) (ret : Bool) (hb : buildValidators rules [] false = some (vs, ret))
    (ms outs : List RuleMatch) (h : validateMatches net sch rules vs ret ms = .ok (some outs)) (cfg : HttpConfig)
    (hr : some (.http cfg) ∈ rules)
    (hsame : ∀ cfg', some (.http cfg') ∈ rules → cfg'.endpoints = cfg.endpoints → cfg' = cfg) :
    ∃ G, (outs.filter (usesEndpoints rules cfg.endpoints)).Perm G ∧
      Updated (fun i m s => Highest (fun x => x = m.status ∨ ∃ text, m.value = some text ∧ HttpResult net cfg i text x) s)
        (ms.filter (usesEndpoints rules cfg.endpoints)) G := by
  obtain ⟨-, -, h3⟩ := validateMatches_ok net sch hf rules vs ret ms outs h
  obtain ⟨G, hG, hp⟩ := h3 (.http cfg.endpoints)
  simp only [typeOf_http] at hG hp
  obtain ⟨vs', e1, e2⟩ := buildValidators_spec rules [] false (fun h => absurd rfl h)
  rw [e1] at hb
  simp only [Option.some.injEq, Prod.mk.injEq] at hb
  obtain ⟨rfl, -⟩ := hb
  have hl := e2 (.http cfg.endpoints)
  have hfirst : firstFor rules (.http cfg.endpoints) = some (.http cfg) := by
    cases hff : firstFor rules (.http cfg.endpoints) with
    | none =>
      unfold firstFor at hff
      rw [List.find?_eq_none] at hff
      have := hff (.http cfg) (List.mem_filterMap.mpr ⟨some (.http cfg), hr, rfl⟩)
      simp [VType.canCreate, VType.itype] at this
    | some vt =>
      unfold firstFor at hff
      have h1 := List.find?_some hff
      have h2 := List.mem_of_find?_eq_some hff
      simp at h1 h2
      cases vt with
      | http c =>
        simp [VType.itype] at h1
        rw [hsame c h2 h1.2]
      | _ => simp [VType.itype] at h1
  rw [hfirst] at hl
  simp [VType.validator] at hl
  simp only [validateGroup, hl, Validator.validate] at hG
  exact ⟨G, hp, httpValidate_final net sch hf cfg _ G hG⟩

/-- Two rules with different endpoints, so that each is judged by its own configuration. -/
example :
    let cfg' : HttpConfig := ⟨[['v']], .post, [(['k'], ['$', 'M', 'A', 'T', 'C', 'H'])], [(403, 404)], [], 3⟩
    let rules := [some (.http (webCfg ['g'])), some (.http cfg')]
    buildValidators rules [] false = some ([(.http [['u']], .http (webCfg ['g'])), (.http [['v']], .http cfg')], true) ∧
    validateMatches someNet inOrder rules [(.http [['u']], .http (webCfg ['g'])), (.http [['v']], .http cfg')] true
      [aMatch 1 0 ['m'] .notChecked, aMatch 0 1 ['m'] .notChecked] =
      .ok (some [aMatch 1 0 ['m'] .valid, aMatch 0 1 ['m'] .valid]) := by decide

/-! ## C60 -/

/-- C60: a configuration is accepted iff the endpoint mentions `$HOST` exactly when hosts are given; it then has one
endpoint per host, with all placeholders substituted, or the endpoint itself; never an empty list.  Method, headers,
ranges and time limit are those asked for. -/
theorem C60_hosts (b : HttpBuilder) :
    ((∃ cfg, b.build = some cfg) ↔ (OccursIn "$HOST".toList b.endpoint ↔ b.hosts ≠ [])) ∧
    ∀ cfg, b.build = some cfg →
      (b.hosts = [] → cfg.endpoints = [b.endpoint]) ∧
      (b.hosts ≠ [] → All2 (fun h e => Substituted "$HOST".toList h b.endpoint e) b.hosts cfg.endpoints) ∧
      cfg.endpoints ≠ [] ∧ cfg.method = b.method ∧ cfg.headers = b.headers ∧ cfg.valid = b.valid ∧
      cfg.invalid = b.invalid ∧ cfg.timeout = b.timeout := by
  have hc := containsStr_iff hostVar (by decide) b.endpoint
  have hh : ("$HOST".toList : Str) = hostVar := hostVar_eq
  rw [hh]
  constructor
  · rw [← hc]
    unfold HttpBuilder.build HttpConfig.new
    cases containsStr hostVar b.endpoint <;> cases b.hosts <;> simp
  · intro cfg h
    have key : ∀ l : List Str,
        All2 (fun h e => Substituted hostVar h b.endpoint e) l (l.map fun h => replaceStr hostVar h b.endpoint) := by
      intro l
      induction l with
      | nil => exact .nil
      | cons x l ih => exact .cons ((substituted_iff (by decide) x b.endpoint _).mpr rfl) ih
    unfold HttpBuilder.build HttpConfig.new at h
    cases hx : containsStr hostVar b.endpoint <;> cases hy : b.hosts with
    | nil =>
      simp [hx, hy] at h
      try (subst h; simp)
    | cons x l =>
      simp [hx, hy] at h
      try (subst h; simp; exact key (x :: l))

/-- C60, defaults: a configuration that is not built asks with GET and no headers, waits three seconds, takes the status codes
200 to 299 for valid and 400 to 499 for invalid; it is accepted for the same endpoints and hosts, and has the same endpoints. -/
theorem C60_defaults (endpoint : Str) (hosts : List Str) :
    ((∃ cfg, HttpConfig.new endpoint hosts = some cfg) ↔ (OccursIn "$HOST".toList endpoint ↔ hosts ≠ [])) ∧
    ∀ cfg, HttpConfig.new endpoint hosts = some cfg →
      (hosts = [] → cfg.endpoints = [endpoint]) ∧
      (hosts ≠ [] → All2 (fun h e => Substituted "$HOST".toList h endpoint e) hosts cfg.endpoints) ∧
      cfg.method = .get ∧ cfg.headers = [] ∧ cfg.timeout = 3 * 1000000000 ∧
      ∀ s, ((∃ r ∈ cfg.valid, r.1 ≤ s ∧ s < r.2) ↔ 200 ≤ s ∧ s ≤ 299) ∧ ((∃ r ∈ cfg.invalid, r.1 ≤ s ∧ s < r.2) ↔ 400 ≤ s ∧ s ≤ 499) := by
  have hb := C60_hosts ⟨endpoint, hosts, .get, [], [], [], 0⟩
  have he : ∀ cfg, HttpConfig.new endpoint hosts = some cfg →
      (⟨endpoint, hosts, .get, [], [], [], 0⟩ : HttpBuilder).build = some { cfg with method := .get, headers := [], valid := [], invalid := [], timeout := 0 } := by
    intro cfg h
    simp [HttpBuilder.build, h]
  constructor
  · rw [← hb.1]
    constructor
    · rintro ⟨cfg, h⟩
      exact ⟨_, he cfg h⟩
    · rintro ⟨cfg, h⟩
      cases hn : HttpConfig.new endpoint hosts with
      | none => simp [HttpBuilder.build, hn] at h
      | some cfg => exact ⟨cfg, rfl⟩
  · intro cfg h
    have h1 := hb.2 _ (he cfg h)
    refine ⟨h1.1, h1.2.1, ?_⟩
    unfold HttpConfig.new at h
    split at h
    · cases h
    · split at h
      · cases h
      · cases h
        refine ⟨rfl, rfl, rfl, fun s => ⟨?_, ?_⟩⟩
        · constructor
          · rintro ⟨r, hr, h1, h2⟩
            cases List.mem_singleton.mp hr
            exact ⟨h1, Nat.le_of_lt_succ h2⟩
          · exact fun ⟨h1, h2⟩ => ⟨_, List.mem_singleton_self _, h1, Nat.lt_succ_of_le h2⟩
        · constructor
          · rintro ⟨r, hr, h1, h2⟩
            cases List.mem_singleton.mp hr
            exact ⟨h1, Nat.le_of_lt_succ h2⟩
          · exact fun ⟨h1, h2⟩ => ⟨_, List.mem_singleton_self _, h1, Nat.lt_succ_of_le h2⟩

example : (HttpConfig.new "https://$HOST/".toList ["a".toList]).isSome = true ∧
    HttpConfig.new "https://b/".toList ["a".toList] = none := by decide +kernel

example : (⟨"https://$HOST/$HOST".toList, ["a".toList, "$HOST".toList], .put, [], [], [], 1⟩ : HttpBuilder).build =
    some ⟨["https://a/a".toList, "https://$HOST/$HOST".toList], .put, [], [], [], 1⟩ := by decide +kernel
example : (⟨"https://$HOST/".toList, [], .put, [], [], [], 1⟩ : HttpBuilder).build = none := by decide +kernel

end Sds.Props
