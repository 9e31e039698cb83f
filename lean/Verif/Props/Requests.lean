import Verif.Spec.Requests
import Verif.Props.Whereto

/-! # C117: how many requests a validation sends -/

namespace Sds.Props
open Sds Spec

/-! ## One group -/

private def sentKeys : List NetEvent → List CheckKey
  | [] => []
  | .sent k _ :: log => k :: sentKeys log
  | .received _ _ :: log => sentKeys log

private theorem sentKeys_length : ∀ log, (sentKeys log).length = sentIn log
  | [] => rfl
  | .sent _ _ :: log => by simp [sentKeys, sentIn, sentKeys_length log]
  | .received _ _ :: log => by simp [sentKeys, sentIn, sentKeys_length log]

private theorem sentKeys_count (k : CheckKey) : ∀ log, (sentKeys log).count k = (sentKeys (traffic log k)).length
  | [] => rfl
  | .sent k' r :: log => by
    have ih := sentKeys_count k log
    by_cases h : k' = k
    · have : traffic (.sent k' r :: log) k = .sent k' r :: traffic log k := by simp [traffic, keyOf, h]
      rw [this]
      simp [sentKeys, ih, h]
    · have : traffic (.sent k' r :: log) k = traffic log k := by simp [traffic, keyOf, h]
      rw [this]
      simp [sentKeys, ih, h]
  | .received k' a :: log => by
    have ih := sentKeys_count k log
    by_cases h : k' = k
    · have : traffic (.received k' a :: log) k = .received k' a :: traffic log k := by simp [traffic, keyOf, h]
      rw [this]
      simpa [sentKeys] using ih
    · have : traffic (.received k' a :: log) k = traffic log k := by simp [traffic, keyOf, h]
      rw [this]
      simpa [sentKeys] using ih

private theorem jobKeys_nodup (rules : List (Option VType)) (ms : List RuleMatch) (v : Validator) : (jobKeys rules ms v).Nodup := by
  cases v with
  | http cfg =>
    refine List.Pairwise.map _ (fun a b h e => h ?_) (httpKeys_nodup cfg ms.length)
    simp only [CheckKey.http.injEq] at e
    exact Prod.ext e.1 e.2
  | aws cfg =>
    refine List.Pairwise.map _ (fun a b h e => h ?_) (awsPairs_nodup rules ms)
    simp only [CheckKey.aws.injEq] at e
    exact Prod.ext e.1 e.2

private theorem count_nodup {l : List CheckKey} (h : l.Nodup) (k : CheckKey) : l.count k = if k ∈ l then 1 else 0 := by
  split
  · rename_i hk
    have h1 := List.nodup_iff_count.1 h k
    have h2 := List.count_pos_iff.2 hk
    omega
  · rename_i hk
    exact List.count_eq_zero_of_not_mem hk

section
variable {sg : Signer} {rules : List (Option VType)} {ins : List RuleMatch} {v : Validator} {g : Group}

private theorem group_at_most (h : GroupOk sg rules ins v g) : sentIn g.log ≤ (jobKeys rules ins v).length := by
  have hp : (sentKeys g.log).Perm ((jobKeys rules ins v).filter fun k => decide (k ∈ sentKeys g.log)) := by
    rw [List.perm_iff_count]
    intro k
    have h1 := sentKeys_count k g.log
    have h2 : (sentKeys g.log).count k ≤ 1 := by
      rw [h1]
      rcases h.traffic k with e | ⟨r, -, e | e | ⟨a, e⟩⟩
      · rw [e]; simp [sentKeys]
      · rw [e]; simp [sentKeys]
      · rw [e]; simp [sentKeys]
      · rw [show traffic g.log k = _ from e]; simp [sentKeys]
    by_cases hk : k ∈ sentKeys g.log
    · have hk' : k ∈ jobKeys rules ins v := by
        refine (h.keys_of_log (k := k) fun e => ?_).2
        have := List.count_pos_iff.2 hk
        rw [h1, e] at this
        simp [sentKeys] at this
      rw [List.count_filter (by simpa using hk), count_nodup (jobKeys_nodup rules ins v), if_pos hk']
      have := List.count_pos_iff.2 hk
      omega
    · rw [List.count_eq_zero_of_not_mem hk, List.count_eq_zero_of_not_mem]
      intro hm
      exact hk (by simpa using (List.mem_filter.1 hm).2)
  rw [← sentKeys_length, hp.length_eq]
  exact List.length_filter_le _ _

private theorem group_exactly (h : GroupOk sg rules ins v g) (hf : g.phase = .finished) (hv : ∀ m ∈ ins, m.value ≠ none) :
    sentIn g.log = (jobKeys rules ins v).length := by
  refine Nat.le_antisymm (group_at_most h) ?_
  rw [← sentKeys_length]
  have all : ∀ k ∈ jobKeys rules ins v, 1 ≤ (sentKeys g.log).count k := by
    intro k hk
    have : ∃ r, Prescribed sg.word rules ins v k r := by
      cases v with
      | http cfg =>
        obtain ⟨i, e, rfl, hi, he⟩ := mem_jobKeys_http.1 hk
        obtain ⟨text, ht⟩ := Option.ne_none_iff_exists'.1 (hv _ (List.getElem_mem hi))
        exact ⟨_, .http cfg i _ text e _ (List.getElem?_eq_getElem hi) ht ((httpRequest_iff cfg e text _).2 ⟨he, rfl⟩)⟩
      | aws cfg =>
        obtain ⟨i, j, rfl, hp⟩ := mem_jobKeys_aws.1 hk
        obtain ⟨a, b, ha, hb, h1, h2⟩ := hp
        obtain ⟨id, hid⟩ := Option.ne_none_iff_exists'.1 (hv _ (List.mem_of_getElem? ha))
        obtain ⟨se, hse⟩ := Option.ne_none_iff_exists'.1 (hv _ (List.mem_of_getElem? hb))
        exact ⟨_, .aws cfg i j _ ⟨⟨a, b, ha, hb, h1, h2⟩, a, b, id, se, ha, hb, hid, hse, rfl⟩⟩
    obtain ⟨r, hr⟩ := this
    obtain ⟨a, e⟩ := h.all_asked hf hr
    rw [sentKeys_count, show traffic g.log k = _ from e]
    simp [sentKeys]
  have hsub : ∀ (l l' : List CheckKey), l.Nodup → (∀ k ∈ l, k ∈ l') → l.length ≤ l'.length := by
    intro l
    induction l with
    | nil => intro _ _ _; exact Nat.zero_le _
    | cons x l ih =>
      intro l' hn hs
      rw [List.nodup_cons] at hn
      have := ih (l'.erase x) hn.2 fun k hk =>
        (List.mem_erase_of_ne fun e => hn.1 (by rw [← e]; exact hk)).2 (hs k (List.mem_cons_of_mem _ hk))
      rw [List.length_erase_of_mem (hs x List.mem_cons_self)] at this
      have := List.length_pos_of_mem (hs x List.mem_cons_self)
      rw [List.length_cons]
      omega
  exact hsub _ _ (jobKeys_nodup rules ins v) fun k hk => List.count_pos_iff.1 (all k hk)

end

/-! ## The number of checks -/

private theorem range_filter (p : RuleMatch → Bool) : ∀ ms : List RuleMatch,
    ((List.range ms.length).filter fun i => (ms[i]?).any p).length = (ms.filter p).length
  | [] => rfl
  | m :: ms => by
    have ih := range_filter p ms
    rw [List.length_cons, List.range_succ_eq_map, List.filter_cons, List.filter_map, List.filter_cons]
    have : ((fun i => ((m :: ms)[i]?).any p) ∘ Nat.succ) = fun i => (ms[i]?).any p := by
      funext i
      simp
    rw [this]
    cases h : p m <;> simp [h, ih]

private theorem http_keys_length (rules : List (Option VType)) (ms : List RuleMatch) (cfg : HttpConfig) :
    (jobKeys rules ms (.http cfg)).length = cfg.endpoints.eraseDups.length * ms.length := by
  simp only [jobKeys, List.length_map, httpKeys, List.length_flatMap]
  generalize cfg.endpoints.eraseDups.length = n
  induction ms with
  | nil => simp
  | cons m ms ih =>
    rw [List.length_cons, List.range_succ, List.map_append, List.sum_append, ih]
    simp [Nat.mul_succ]

private theorem flat_length (l : List Nat) (l' : List Nat) :
    (l.flatMap fun i => l'.map fun j => (i, j)).length = l.length * l'.length := by
  induction l with
  | nil => simp
  | cons x l ih => simp [ih, Nat.succ_mul, Nat.add_comm]

private theorem aws_keys_length (rules : List (Option VType)) (ms : List RuleMatch) (cfg : AwsConfig) :
    (jobKeys rules ms (.aws cfg)).length = (ms.filter (isIdMatch rules)).length * (ms.filter (isSecretMatch rules)).length := by
  simp only [jobKeys, List.length_map, awsPairs, flat_length]
  have h1 : (awsIds rules ms).length = (ms.filter (isIdMatch rules)).length := by
    rw [← range_filter]
    unfold awsIds
    congr 2
    funext i
    congr 1
    funext m
    unfold vtypeOf isIdMatch
    rcases rules[m.rule]? with _ | _ | _ | _ | _ | _ <;> rfl
  have h2 : (awsSecrets rules ms).length = (ms.filter (isSecretMatch rules)).length := by
    rw [← range_filter]
    unfold awsSecrets
    congr 2
    funext i
    congr 1
    funext m
    unfold vtypeOf isSecretMatch isSecret
    rcases rules[m.rule]? with _ | _ | _ | _ | _ | _ <;> rfl
  rw [h1, h2]

private theorem aws_filter (rules : List (Option VType)) (ms : List RuleMatch) :
    ((ms.filter (isAws rules)).filter (isIdMatch rules)) = ms.filter (isIdMatch rules) ∧
    ((ms.filter (isAws rules)).filter (isSecretMatch rules)) = ms.filter (isSecretMatch rules) := by
  constructor <;> rw [List.filter_filter] <;> refine List.filter_congr fun m _ => ?_
  · unfold isIdMatch isAws
    rcases rules[m.rule]? with _ | _ | _ | _ | _ | _ <;> rfl
  · unfold isSecretMatch isAws
    rcases rules[m.rule]? with _ | _ | _ | _ | _ | _ <;> rfl

/-! ## All groups -/

private def httpPart (rules : List (Option VType)) (ms : List RuleMatch) : IType → Nat
  | .aws => 0
  | .http es => es.eraseDups.length * (ms.filter (usesEndpoints rules es)).length

private def awsPart (n : Nat) : IType → Nat
  | .aws => n
  | .http _ => 0

private theorem sum_awsPart (n : Nat) : ∀ ts : List IType, ts.Nodup → (ts.map (awsPart n)).sum = if .aws ∈ ts then n else 0
  | [], _ => rfl
  | t :: ts, h => by
    rw [List.nodup_cons] at h
    rw [List.map_cons, List.sum_cons, sum_awsPart n ts h.2]
    cases t with
    | aws => simp [awsPart, h.1]
    | http es => simp [awsPart]

private def inHttp (rules : List (Option VType)) (ts : List IType) (m : RuleMatch) : Bool :=
  ts.any fun t => match t with
    | .aws => false
    | .http es => usesEndpoints rules es m

private theorem uses_unique {rules : List (Option VType)} {es es' : List Str} {m : RuleMatch}
    (h : usesEndpoints rules es m = true) (h' : usesEndpoints rules es' m = true) : es = es' := by
  unfold usesEndpoints at h h'
  split at h
  · simp_all
  · cases h

private theorem checksOf_uses {rules : List (Option VType)} {es : List Str} {m : RuleMatch} (h : usesEndpoints rules es m = true) :
    checksOf rules m = es.eraseDups.length := by
  unfold usesEndpoints at h
  unfold checksOf
  split at h
  · rename_i heq
    rw [heq, ← of_decide_eq_true h]
  · cases h

private theorem sum_or (rules : List (Option VType)) (es : List Str) (q : RuleMatch → Bool)
    (h : ∀ m, usesEndpoints rules es m = true → q m = false) : ∀ ms : List RuleMatch,
    es.eraseDups.length * (ms.filter (usesEndpoints rules es)).length + (ms.map fun m => if q m then checksOf rules m else 0).sum =
      (ms.map fun m => if usesEndpoints rules es m || q m then checksOf rules m else 0).sum
  | [] => rfl
  | m :: ms => by
    have ih := sum_or rules es q h ms
    simp only [List.map_cons, List.sum_cons, ← ih]
    cases hp : usesEndpoints rules es m
    · rw [List.filter_cons_of_neg (by simp [hp])]
      simp only [Bool.false_or]
      omega
    · rw [List.filter_cons_of_pos hp, h m hp, checksOf_uses hp, List.length_cons, Nat.mul_succ]
      simp only [Bool.or_false, if_true, Bool.false_eq_true, if_false]
      omega

private theorem sum_httpPart (rules : List (Option VType)) (ms : List RuleMatch) : ∀ ts : List IType, ts.Nodup →
    (ts.map (httpPart rules ms)).sum = (ms.map fun m => if inHttp rules ts m then checksOf rules m else 0).sum
  | [], _ => by
    have : inHttp rules [] = fun _ => false := rfl
    rw [this]
    induction ms with
    | nil => rfl
    | cons m ms ih => simpa using ih
  | t :: ts, h => by
    rw [List.nodup_cons] at h
    rw [List.map_cons, List.sum_cons, sum_httpPart rules ms ts h.2]
    cases t with
    | aws =>
      have : inHttp rules (.aws :: ts) = inHttp rules ts := by
        funext m
        simp [inHttp]
      rw [this]
      simp [httpPart]
    | http es =>
      have : inHttp rules (.http es :: ts) = fun m => usesEndpoints rules es m || inHttp rules ts m := by
        funext m
        simp [inHttp]
      rw [this]
      refine sum_or rules es _ (fun m hm => ?_) ms
      cases hq : inHttp rules ts m with
      | false => rfl
      | true =>
        unfold inHttp at hq
        rw [List.any_eq_true] at hq
        obtain ⟨t', ht', hx⟩ := hq
        cases t' with
        | aws => cases hx
        | http es' => exact absurd (uses_unique hm hx ▸ ht') h.1

private theorem sum_covered (rules : List (Option VType)) (q : RuleMatch → Bool) (ms : List RuleMatch) :
    (ms.map fun m => if q m then checksOf rules m else 0).sum ≤ (ms.map (checksOf rules)).sum := by
  induction ms with
  | nil => exact Nat.le_refl _
  | cons m ms ih =>
    simp only [List.map_cons, List.sum_cons]
    split <;> omega

private theorem sum_parts (h a : IType → Nat) (ts : List IType) :
    (ts.map fun t => h t + a t).sum = (ts.map h).sum + (ts.map a).sum := by
  induction ts with
  | nil => rfl
  | cons t ts ih =>
    simp only [List.map_cons, List.sum_cons, ih]
    omega

private theorem sum_le (c : IType → Nat) (groups : List Group) (h : ∀ g ∈ groups, sentIn g.log ≤ c g.type) :
    requestsSent groups ≤ ((groups.map (·.type)).map c).sum := by
  unfold requestsSent
  induction groups with
  | nil => exact Nat.le_refl _
  | cons g groups ih =>
    simp only [List.map_cons, List.sum_cons]
    have := h g (by simp)
    have := ih fun g' hg => h g' (by simp [hg])
    omega

private theorem sum_eq (c : IType → Nat) (groups : List Group) (h : ∀ g ∈ groups, sentIn g.log = c g.type) :
    requestsSent groups = ((groups.map (·.type)).map c).sum := by
  unfold requestsSent
  rw [List.map_map]
  exact congrArg List.sum (List.map_congr_left fun g hg => h g hg)

section
variable {sg : Signer} {rules : List (Option VType)} {vs : List (IType × Validator)} {ret : Bool} {ms : List RuleMatch}

/-- C117, at any moment: at most one request for each different endpoint of each match that is validated over HTTP, and one for each pair of an
AWS id and an AWS secret. -/
theorem C117_at_most {gs : List (IType × List RuleMatch)} {groups : List Group}
    (hb : buildValidators rules [] false = some (vs, ret)) (hg : groupMatches rules ms [] = .ok gs)
    (hr : ParRun sg rules (startGroups vs gs) groups) :
    requestsSent groups ≤ (ms.map (checksOf rules)).sum +
      (ms.filter (isIdMatch rules)).length * (ms.filter (isSecretMatch rules)).length := by
  obtain ⟨hn, -, h2⟩ := par_groups hg hr
  generalize hN : (ms.filter (isIdMatch rules)).length * (ms.filter (isSecretMatch rules)).length = N
  refine Nat.le_trans (sum_le (fun t => httpPart rules ms t + awsPart N t) groups fun g hgm => ?_) ?_
  · have ho := h2 g hgm
    cases e : vs.lookup g.type with
    | none =>
      rw [(ho.idle e).log]
      exact Nat.zero_le _
    | some v =>
      obtain ⟨vt, -, f2, f3, f4⟩ := lookup_first hb e
      refine Nat.le_trans (group_at_most (ho.busy v e)) ?_
      cases v with
      | http cfg =>
        have hvt : vt = .http cfg := by cases vt <;> simp_all [VType.validator]
        subst hvt
        rw [http_keys_length, ← f4]
        exact Nat.le_refl _
      | aws cfg =>
        have hvt : vt = .awsSecret cfg := by cases vt <;> simp_all [VType.validator]
        subst hvt
        rw [aws_keys_length, ← f4]
        show ((ms.filter (isAws rules)).filter _).length * ((ms.filter (isAws rules)).filter _).length ≤ 0 + N
        rw [(aws_filter rules ms).1, (aws_filter rules ms).2, hN]
        omega
  · rw [sum_parts, sum_httpPart rules ms _ hn, sum_awsPart N _ hn]
    refine Nat.add_le_add (sum_covered rules _ ms) ?_
    · split
      · exact Nat.le_refl _
      · exact Nat.zero_le _

/-- C117, when the call returns: exactly one request for each different endpoint of each match that is validated over HTTP, and one for each pair
of an AWS id and an AWS secret, if all matches have texts. Matches with the same text are not checked together. -/
theorem C117_exactly {groups : List Group} {outs : List RuleMatch} (hb : buildValidators rules [] false = some (vs, ret))
    (h : ParValidates sg rules vs ms groups outs) (hv : ∀ m ∈ ms, m.value ≠ none) :
    requestsSent groups = (ms.map (checksOf rules)).sum +
      (ms.filter (isIdMatch rules)).length * (ms.filter (isSecretMatch rules)).length := by
  obtain ⟨gs, _, order, hg, hr, hf, -⟩ := h
  obtain ⟨hn, hall, h2⟩ := par_groups hg hr
  have hspec : ∀ t, vs.lookup t = (firstFor rules t).bind VType.validator := by
    obtain ⟨vs', e1, e2⟩ := buildValidators_spec rules [] false (fun h => absurd rfl h)
    rw [e1] at hb
    simp only [Option.some.injEq, Prod.mk.injEq] at hb
    obtain ⟨rfl, -⟩ := hb
    intro t
    simpa using e2 t
  have hfind : ∀ vt : VType, some vt ∈ rules → vt.canCreate = true → vs.lookup vt.itype ≠ none := by
    intro vt hvt hc e
    rw [hspec] at e
    cases hff : firstFor rules vt.itype with
    | none =>
      have := List.find?_eq_none.1 hff vt (List.mem_filterMap.2 ⟨some vt, hvt, rfl⟩)
      simp [hc] at this
    | some vt' =>
      rw [hff] at e
      have hx := List.find?_some hff
      rw [Bool.and_eq_true] at hx
      have := validator_isSome vt'
      rw [hx.1] at this
      simp only [Option.bind_some] at e
      rw [e] at this
      cases this
  generalize hN : (ms.filter (isIdMatch rules)).length * (ms.filter (isSecretMatch rules)).length = N
  rw [sum_eq (fun t => httpPart rules ms t + awsPart N t) groups]
  · rw [sum_parts, sum_httpPart rules ms _ hn, sum_awsPart N _ hn]
    congr 1
    · refine congrArg List.sum (List.map_congr_left fun m hm => ?_)
      split
      · rfl
      · rename_i hx
        unfold checksOf
        split
        · rename_i cfg heq
          have hu : usesEndpoints rules cfg.endpoints m = true := by simp [usesEndpoints, heq]
          exact absurd (List.any_eq_true.2 ⟨_, hall m hm (.http cfg.endpoints) hu, hu⟩) hx
        · rfl
    · split
      · rfl
      · rename_i hno
        have : ms.filter (isIdMatch rules) = [] := by
          rw [List.filter_eq_nil_iff]
          intro m hm hx
          refine hno (hall m hm .aws ?_)
          unfold isIdMatch at hx
          show isAws rules m = true
          unfold isAws
          split at hx
          · rename_i heq; rw [heq]
          · cases hx
        rw [← hN, this]
        simp
  · intro g hgm
    have ho := h2 g hgm
    cases e : vs.lookup g.type with
    | none =>
      rw [(ho.idle e).log]
      cases ht : g.type with
      | http es =>
        have : ms.filter (usesEndpoints rules es) = [] := by
          rw [List.filter_eq_nil_iff]
          intro m hm hx
          unfold usesEndpoints at hx
          split at hx
          · rename_i cfg heq
            refine hfind (.http cfg) (List.mem_of_getElem? heq) rfl ?_
            rw [show (VType.http cfg).itype = .http es from congrArg IType.http (of_decide_eq_true hx), ← ht]
            exact e
          · cases hx
        simp [sentIn, httpPart, awsPart, this]
      | aws =>
        have : ms.filter (isSecretMatch rules) = [] := by
          rw [List.filter_eq_nil_iff]
          intro m hm hx
          unfold isSecretMatch at hx
          split at hx
          · rename_i cfg heq
            refine hfind (.awsSecret cfg) (List.mem_of_getElem? heq) rfl ?_
            rw [show (VType.awsSecret cfg).itype = .aws from rfl, ← ht]
            exact e
          · cases hx
        simp [sentIn, httpPart, awsPart, ← hN, this]
    | some v =>
      obtain ⟨vt, -, f2, f3, f4⟩ := lookup_first hb e
      rw [group_exactly (ho.busy v e) (hf g hgm) fun m hm => hv m (List.mem_filter.1 hm).1]
      cases v with
      | http cfg =>
        have hvt : vt = .http cfg := by cases vt <;> simp_all [VType.validator]
        subst hvt
        rw [http_keys_length, ← f4]
        rfl
      | aws cfg =>
        have hvt : vt = .awsSecret cfg := by cases vt <;> simp_all [VType.validator]
        subst hvt
        rw [aws_keys_length, ← f4]
        show ((ms.filter (isAws rules)).filter _).length * ((ms.filter (isAws rules)).filter _).length = 0 + N
        rw [(aws_filter rules ms).1, (aws_filter rules ms).2, hN]
        omega

/-- C117: a secret that is found `n` times is sent `n` times to each endpoint. -/
theorem C117_equal_texts {groups : List Group} {outs : List RuleMatch} (hb : buildValidators rules [] false = some (vs, ret))
    (h : ParValidates sg rules vs ms groups outs) {r : Nat} {cfg : HttpConfig} {text : Str} (hr : rules[r]? = some (some (.http cfg)))
    (ht : ∀ m ∈ ms, m.rule = r ∧ m.value = some text) :
    requestsSent groups = ms.length * cfg.endpoints.eraseDups.length := by
  rw [C117_exactly hb h fun m hm e => by rw [(ht m hm).2] at e; cases e]
  have h1 : ms.filter (isIdMatch rules) = [] := by
    rw [List.filter_eq_nil_iff]
    intro m hm
    simp [isIdMatch, (ht m hm).1, hr]
  have h2 : ms.map (checksOf rules) = List.replicate ms.length cfg.endpoints.eraseDups.length := by
    rw [List.eq_replicate_iff]
    refine ⟨by simp, fun b hx => ?_⟩
    obtain ⟨m, hm, rfl⟩ := List.mem_map.1 hx
    simp [checksOf, (ht m hm).1, hr]
  rw [h1, h2]
  simp

end

namespace RequestsExample
open ParExample

/-- The hypotheses of `C117_at_most` and `C117_exactly` are met: both matches have the text `b`, one is checked at `u` and `v` and the
other at `u`. -/
example : buildValidators twoRules [] false = some (twoVs, true) ∧
    groupMatches twoRules [aMatch 1 5 ['b'] .notChecked, aMatch 0 2 ['b'] .notChecked] [] =
      .ok [(a0.type, a0.matches_), (b0.type, b0.matches_)] ∧
    ParRun anySigner twoRules (startGroups twoVs [(a0.type, a0.matches_), (b0.type, b0.matches_)]) [a9, b6] ∧
    ParValidates anySigner twoRules twoVs [aMatch 1 5 ['b'] .notChecked, aMatch 0 2 ['b'] .notChecked] [a9, b6]
      (sortBy startIndexLe ([b6, a9].flatMap (·.matches_))) ∧
    (∀ m ∈ [aMatch 1 5 ['b'] .notChecked, aMatch 0 2 ['b'] .notChecked], m.value ≠ none) ∧ requestsSent [a9, b6] = 3 := by
  refine ⟨by decide, by decide, run, .mk [(a0.type, a0.matches_), (b0.type, b0.matches_)] _ _ (by decide) run ?_
    (List.Perm.swap _ _ _), by decide, by decide⟩
  intro g hg
  simp at hg
  rcases hg with rfl | rfl <;> rfl

private def twice : Group := { b0 with matches_ := [aMatch 0 2 ['b'] .notChecked, aMatch 0 7 ['b'] .notChecked] }
private def req : Request := .http ⟨.get, ['u'], [(['k'], ['g'])], 3⟩
private def t1 : Group := { twice with phase := .checking, keys := jobKeys twoRules twice.matches_ cfgB }
private def t2 : Group := { t1 with jobs := setJob t1.jobs (.http 0 ['u']) .waiting, log := t1.log ++ [.sent (.http 0 ['u']) req] }
private def t3 : Group := { t2 with jobs := setJob t2.jobs (.http 1 ['u']) .waiting, log := t2.log ++ [.sent (.http 1 ['u']) req] }
private def t4 : Group :=
  { t3 with jobs := setJob t3.jobs (.http 0 ['u']) (.done .valid), log := t3.log ++ [.received (.http 0 ['u']) (.response 200)] }
private def t5 : Group :=
  { t4 with jobs := setJob t4.jobs (.http 1 ['u']) (.done .invalid), log := t4.log ++ [.received (.http 1 ['u']) (.response 403)] }
private def t6 : Group := { t5 with phase := .merging [.http 0 ['u'], .http 1 ['u']] }
private def t7 : Group := { t6 with phase := .merging [.http 1 ['u']], matches_ := mergeKey t6.matches_ .valid (.http 0 ['u']) }
private def t8 : Group := { t7 with phase := .merging [], matches_ := mergeKey t7.matches_ .invalid (.http 1 ['u']) }
private def t9 : Group := { t8 with phase := .finished }

/-- The hypotheses of `C117_equal_texts` are met: the text `b` is found twice and sent twice, and the two answers differ. -/
example : ParValidates anySigner twoRules twoVs [aMatch 0 2 ['b'] .notChecked, aMatch 0 7 ['b'] .notChecked] [t9]
      [aMatch 0 2 ['b'] .valid, aMatch 0 7 ['b'] .invalid] ∧
    twoRules[0]? = some (some (.http (webCfg ['g']))) ∧
    (∀ m ∈ [aMatch 0 2 ['b'] .notChecked, aMatch 0 7 ['b'] .notChecked], m.rule = 0 ∧ m.value = some ['b']) ∧
    requestsSent [t9] = 2 := by
  have hk : t5.keys = [.http 0 ['u'], .http 1 ['u']] := by decide
  have hdone : ∀ k ∈ t5.keys, ∃ s, t5.jobs k = .done s := by
    intro k hx
    rw [hk] at hx
    simp at hx
    rcases hx with rfl | rfl
    · exact ⟨.valid, rfl⟩
    · exact ⟨.invalid, rfl⟩
  have h1 : ParRun anySigner twoRules [twice] [t1] := .tail (.refl _) (.mk [] twice t1 [] (.start _ cfgB rfl rfl))
  have h2 : ParRun anySigner twoRules [twice] [t2] :=
    .tail h1 (.mk [] t1 t2 [] (.send _ cfgB (.http 0 ['u']) req rfl rfl (by decide) rfl (by decide)))
  have h3 : ParRun anySigner twoRules [twice] [t3] :=
    .tail h2 (.mk [] t2 t3 [] (.send _ cfgB (.http 1 ['u']) req rfl rfl (by decide) rfl (by decide)))
  have h4 : ParRun anySigner twoRules [twice] [t4] :=
    .tail h3 (.mk [] t3 t4 [] (.receive _ cfgB (.http 0 ['u']) (.response 200) rfl rfl (by decide) rfl))
  have h5 : ParRun anySigner twoRules [twice] [t5] :=
    .tail h4 (.mk [] t4 t5 [] (.receive _ cfgB (.http 1 ['u']) (.response 403) rfl rfl (by decide) rfl))
  have h6 : ParRun anySigner twoRules [twice] [t6] :=
    .tail h5 (.mk [] t5 t6 [] (.join _ [.http 0 ['u'], .http 1 ['u']] rfl hdone (.refl _)))
  have h7 : ParRun anySigner twoRules [twice] [t7] :=
    .tail h6 (.mk [] t6 t7 [] (.merge _ (.http 0 ['u']) [.http 1 ['u']] .valid rfl rfl))
  have h8 : ParRun anySigner twoRules [twice] [t8] := .tail h7 (.mk [] t7 t8 [] (.merge _ (.http 1 ['u']) [] .invalid rfl rfl))
  have h9 : ParRun anySigner twoRules [twice] [t9] := .tail h8 (.mk [] t8 t9 [] (.finish _ rfl))
  refine ⟨?_, by decide, by decide, by decide⟩
  have e : [aMatch 0 2 ['b'] .valid, aMatch 0 7 ['b'] .invalid] = sortBy startIndexLe ([t9].flatMap (·.matches_)) := by
    decide
  rw [e]
  refine .mk [(twice.type, twice.matches_)] _ _ (by decide) h9 ?_ (.refl _)
  intro g hg
  simp at hg
  subst hg
  rfl

end RequestsExample
end Sds.Props
