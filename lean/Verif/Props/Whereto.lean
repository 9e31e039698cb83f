import Verif.Spec.Whereto
import Verif.Props.ParValidate
import Verif.Props.ScanValidate

/-! # C115: a found text is sent only to the endpoints of its own rule -/

namespace Sds.Props
open Sds Spec

theorem lookup_first {rules : List (Option VType)} {vs : List (IType × Validator)} {ret : Bool}
    (hb : buildValidators rules [] false = some (vs, ret)) {t : IType} {v : Validator} (h : vs.lookup t = some v) :
    ∃ vt, firstFor rules t = some vt ∧ vt.validator = some v ∧ some vt ∈ rules ∧ vt.itype = t := by
  obtain ⟨vs', e1, e2⟩ := buildValidators_spec rules [] false (fun h => absurd rfl h)
  rw [e1] at hb
  simp only [Option.some.injEq, Prod.mk.injEq] at hb
  obtain ⟨rfl, -⟩ := hb
  have := e2 t
  rw [h] at this
  simp only [List.lookup_nil, Option.none_or] at this
  cases hf : firstFor rules t with
  | none => rw [hf] at this; cases this
  | some vt =>
    rw [hf] at this
    refine ⟨vt, rfl, this.symm, ?_, ?_⟩
    · obtain ⟨o, ho, he⟩ := List.mem_filterMap.1 (List.mem_of_find?_eq_some hf)
      cases o with
      | none => cases he
      | some x => cases he; exact ho
    · have := List.find?_some hf
      rw [Bool.and_eq_true] at this
      exact of_decide_eq_true this.2

private theorem sent_prescribed {sg : Signer} {rules : List (Option VType)} {vs : List (IType × Validator)} {ms : List RuleMatch}
    {gs : List (IType × List RuleMatch)} {groups : List Group} (hg : groupMatches rules ms [] = .ok gs)
    (hr : ParRun sg rules (startGroups vs gs) groups) {r : Request} (h : WasSent groups r) :
    ∃ t v k, vs.lookup t = some v ∧ Prescribed sg.word rules (ms.filter (ofType rules t)) v k r := by
  obtain ⟨g, hgm, k, hk⟩ := h
  have hmem : .sent k r ∈ traffic g.log k := List.mem_filter.2 ⟨hk, decide_eq_true rfl⟩
  obtain ⟨v, r', h1, h2, h3⟩ := (C88_requests_once hg hr).2 g hgm k (List.ne_nil_of_mem hmem)
  refine ⟨g.type, v, k, h1, ?_⟩
  have : r = r' := by
    rcases h3 with h3 | h3 | ⟨a, h3⟩
    · rw [h3] at hmem; cases hmem
    · rw [h3] at hmem
      simp only [List.mem_singleton, NetEvent.sent.injEq, true_and] at hmem
      exact hmem
    · rw [show traffic g.log k = _ from h3] at hmem
      simp only [List.mem_cons, List.not_mem_nil, or_false, NetEvent.sent.injEq, true_and, reduceCtorEq] at hmem
      exact hmem
  exact this ▸ h2

section
variable {sg : Signer} {rules : List (Option VType)} {vs : List (IType × Validator)} {ret : Bool} {ms : List RuleMatch}
  {gs : List (IType × List RuleMatch)} {groups : List Group}

/-- C115, HTTP: at every moment of every execution, a request that was sent tells the text of one match, at an endpoint of the rule
that found it. -/
theorem C115_http (hb : buildValidators rules [] false = some (vs, ret)) (hg : groupMatches rules ms [] = .ok gs)
    (hr : ParRun sg rules (startGroups vs gs) groups) {r : HttpReq} (h : WasSent groups (.http r)) :
    HttpToOwnEndpoint rules ms r := by
  obtain ⟨t, v, k, h1, h2⟩ := sent_prescribed hg hr h
  obtain ⟨vt, -, f2, f3, f4⟩ := lookup_first hb h1
  cases h2 with
  | http cfg i m text e _ hi hv hreq =>
    have hvt : vt = .http cfg := by cases vt <;> simp_all [VType.validator]
    subst hvt
    have hm := List.mem_of_getElem? hi
    rw [List.mem_filter] at hm
    obtain ⟨q1, q2, q3, -, q5⟩ := hreq
    rw [← f4] at hm
    obtain ⟨hm, ht⟩ := hm
    simp only [VType.itype, ofType, usesEndpoints] at ht
    split at ht
    · rename_i own hown
      refine ⟨m, hm, own, text, cfg, hown, hv, ?_, f3, q2 ▸ q1, q3, q5⟩
      rw [of_decide_eq_true ht, q2]
      exact q1
    · cases ht

private theorem extract_part (word : Char → Bool) : ∀ s : Str, ∃ before after, s = before ++ extractSecret word s ++ after
  | [] => ⟨[], [], rfl⟩
  | c :: s => by
    unfold extractSecret
    split
    · exact ⟨[], (c :: s).drop 40, (List.take_append_drop 40 (c :: s)).symm⟩
    · obtain ⟨before, after, h⟩ := extract_part word s
      exact ⟨c :: before, after, by rw [List.cons_append, List.cons_append, ← h]⟩

/-- C115, AWS: a request tells an id and a part of a secret that were found by rules for them, at the endpoint of the first rule for
secrets. -/
theorem C115_aws (hb : buildValidators rules [] false = some (vs, ret)) (hg : groupMatches rules ms [] = .ok gs)
    (hr : ParRun sg rules (startGroups vs gs) groups) {r : AwsReq} (h : WasSent groups (.aws r)) :
    (∃ own, AwsTold rules ms own r) ∧ (secretConfigs rules).head? = some r.cfg := by
  obtain ⟨t, v, k, h1, h2⟩ := sent_prescribed hg hr h
  obtain ⟨vt, f1, f2, f3, f4⟩ := lookup_first hb h1
  cases h2 with
  | aws cfg i j _ hreq =>
    have hvt : vt = .awsSecret cfg := by cases vt <;> simp_all [VType.validator]
    subst hvt
    obtain ⟨⟨a', b', ha', hb', hid, own, hown⟩, a, b, id, secret, ha, hb2, hva, hvb, rfl⟩ := hreq
    rw [ha'] at ha
    cases ha
    rw [hb'] at hb2
    cases hb2
    refine ⟨⟨own, a', (List.mem_filter.1 (List.mem_of_getElem? ha')).1, b', (List.mem_filter.1 (List.mem_of_getElem? hb')).1, hid,
      hown, hva, secret, ?_⟩, ?_⟩
    · obtain ⟨before, after, he⟩ := extract_part sg.word secret
      exact ⟨before, after, hvb, he⟩
    · have key : ∀ rules : List (Option VType), firstFor rules .aws = ((secretConfigs rules).head?).map VType.awsSecret := by
        intro rules
        induction rules with
        | nil => rfl
        | cons o rules ih =>
          rcases o with _ | vt
          · simpa [firstFor, secretConfigs] using ih
          · cases vt <;> simp [firstFor, secretConfigs, VType.canCreate, VType.itype] at ih ⊢ <;> exact ih
      have ht : t = .aws := f4.symm
      rw [ht, key, Option.map_eq_some_iff] at f1
      obtain ⟨c, hc, he⟩ := f1
      cases he
      exact hc

/-- C115, AWS (partial: only if all rules for AWS secrets have the same endpoint): this is the endpoint of the rule that found the
secret.  Missing: with different endpoints all secrets are sent to that of the first rule (`C115_aws_other_endpoint`). -/
theorem C115_aws_partial (hb : buildValidators rules [] false = some (vs, ret)) (hg : groupMatches rules ms [] = .ok gs)
    (hr : ParRun sg rules (startGroups vs gs) groups)
    (hsame : ∀ cfg cfg', some (.awsSecret cfg) ∈ rules → some (.awsSecret cfg') ∈ rules → cfg.endpoint = cfg'.endpoint)
    {r : AwsReq} (h : WasSent groups (.aws r)) : ∃ own, AwsTold rules ms own r ∧ r.cfg.endpoint = own.endpoint := by
  obtain ⟨⟨own, h1⟩, h2⟩ := C115_aws hb hg hr h
  refine ⟨own, h1, hsame _ _ ?_ ?_⟩
  · obtain ⟨o, ho, he⟩ := List.mem_filterMap.1 (List.mem_of_mem_head? h2)
    split at he
    · cases he; exact ho
    · cases he
  · obtain ⟨_, _, _, _, _, h, _⟩ := h1
    exact List.mem_of_getElem? h

end

/-! ## The matches of a scan -/

section
variable {E : Type} {impl : EventImpl E} {wf : E → Prop} {leavesOf : E → List Leaf} {rew : (Path → Str → Str) → E → E}

private theorem found_as (hE : LawfulEvent impl wf leavesOf rew) {sc : Scanner} (hok : ScannerOk sc) {blocked : List Nat}
    {e e' : E} (h : Scannable wf leavesOf sc blocked e) {os : List RuleMatch} (hs : scan impl sc e blocked = Res.ok (e', os))
    {o : RuleMatch} (ho : o ∈ os) {text : Str} (hv : o.value = some text) :
    ∃ l ∈ leavesOf e, FoundAs sc blocked (leavesOf e) o l text := by
  obtain ⟨out, G, h1, h2⟩ := C10_scan_result hE hok blocked e h
  rw [h1] at hs
  simp only [Res.ok.injEq, Prod.mk.injEq] at hs
  obtain ⟨-, rfl⟩ := hs
  obtain ⟨l, hl, ho⟩ := List.mem_flatMap.1 ho
  obtain ⟨⟨ks, res, ps, tail, hk, hres, _, h3, h4, h5, _⟩, _⟩ := h2 l hl
  rw [h5] at ho
  obtain ⟨b, u, a, e1, e2, e3, e4, -⟩ := reports_from (tail := tail) [] [] ho
  have hu : text = u := by
    rw [hv] at e4
    split at e4
    · exact Option.some.inj e4
    · cases e4
  subst hu
  refine ⟨l, hl, e3, hv, b, a, by rw [h3, ← e1, List.nil_append], ?_⟩
  rw [show blen ([] : Str) = 0 from rfl, ← h4] at e2
  exact (hk _).1 (hres.1 _ e2)

/-- C115 for a scan and the validation of its matches: every text that is sent was found in the event, as it was before anything was
replaced, by a rule that is to be validated; over HTTP at an endpoint of this rule. -/
theorem C115_scan (hE : LawfulEvent impl wf leavesOf rew) {sc : Scanner} (hok : ScannerOk sc) {blocked : List Nat}
    {e e' : E} (h : Scannable wf leavesOf sc blocked e) {os : List RuleMatch} (hs : scan impl sc e blocked = Res.ok (e', os))
    {sg : Signer} {types : List (Option VType)} {vs : List (IType × Validator)} {ret : Bool} {gs : List (IType × List RuleMatch)}
    {groups : List Group} (hb : buildValidators types [] false = some (vs, ret)) (hg : groupMatches types os [] = .ok gs)
    (hr : ParRun sg types (startGroups vs gs) groups) :
    (∀ r, WasSent groups (.http r) → HttpFromEvent sc blocked (leavesOf e) types r) ∧
    ∀ r, WasSent groups (.aws r) → AwsFromEvent sc blocked (leavesOf e) types r := by
  constructor
  · intro r hw
    obtain ⟨m, hm, own, text, cfg, h1, h2, h3⟩ := C115_http hb hg hr hw
    obtain ⟨l, hl, hf⟩ := found_as hE hok h hs hm h2
    exact ⟨l, hl, m, text, own, cfg, hf, h1, h3⟩
  · intro r hw
    obtain ⟨⟨own, a, ha, b, hb', h1, h2, h3, text, before, after, h4, h5⟩, -⟩ := C115_aws hb hg hr hw
    obtain ⟨l, hl, hf⟩ := found_as hE hok h hs ha h3
    obtain ⟨l', hl', hf'⟩ := found_as hE hok h hs hb' h4
    exact ⟨l, hl, l', hl', a, b, text, own, before, after, hf, hf', h1, h2, h5⟩

end

/-! ## Examples -/

namespace WheretoExample
open ParExample

/-- The hypotheses of `C115_http` are met, in the middle of an execution with two groups. -/
example : buildValidators twoRules [] false = some (twoVs, true) ∧
    groupMatches twoRules [aMatch 1 5 ['b'] .notChecked, aMatch 0 2 ['b'] .notChecked] [] =
      .ok [(a0.type, a0.matches_), (b0.type, b0.matches_)] ∧
    ParRun anySigner twoRules (startGroups twoVs [(a0.type, a0.matches_), (b0.type, b0.matches_)]) [a9, b6] ∧
    WasSent [a9, b6] (.http ⟨.get, ['v'], [(['k'], ['g'])], 3⟩) :=
  ⟨by decide, by decide, run, a9, by simp, .http 0 ['v'], by decide⟩

private def here : AwsConfig := ⟨"https://here".toList, none, 3⟩
private def there : AwsConfig := ⟨"https://there".toList, none, 3⟩

private def key : Str := List.replicate 40 'a'

private def rules2 (c : AwsConfig) : List (Option VType) := [some .awsId, some (.awsSecret here), some (.awsSecret c)]

private def found : List RuleMatch := [aMatch 0 0 ['i'] .notChecked, aMatch 2 5 key .notChecked]

private def g0 : Group := { type := .aws, matches_ := found, validator := some (.aws here) }
private def g1 (c : AwsConfig) : Group := { g0 with phase := .checking, keys := jobKeys (rules2 c) found (.aws here) }
private def g2 (c : AwsConfig) : Group :=
  { g1 c with jobs := setJob (g1 c).jobs (.aws 0 1) .waiting, log := (g1 c).log ++ [.sent (.aws 0 1) (.aws ⟨here, ['i'], key⟩)] }

private theorem run2 (c : AwsConfig) : ParRun anySigner (rules2 c) [g0] [g2 c] := by
  have h1 : ParRun anySigner (rules2 c) [g0] [g1 c] := .tail (.refl _) (.mk [] g0 (g1 c) [] (.start _ (.aws here) rfl rfl))
  refine .tail h1 (.mk [] (g1 c) (g2 c) [] (.send _ (.aws here) (.aws 0 1) (.aws ⟨here, ['i'], key⟩) rfl rfl ?_ rfl ?_))
  · simp [g1, jobKeys, awsPairs, awsIds, awsSecrets, found, rules2, aMatch, vtypeOf, isSecret, List.range, List.range.loop]
  · show beginCheck anySigner found (.aws here) (.aws 0 1) = _
    decide +kernel

/-- The hypotheses of `C115_aws` and `C115_aws_partial` are met. -/
example : buildValidators (rules2 here) [] false = some ([(.aws, .aws here)], true) ∧
    groupMatches (rules2 here) found [] = .ok [(.aws, found)] ∧
    ParRun anySigner (rules2 here) (startGroups [(.aws, .aws here)] [(.aws, found)]) [g2 here] ∧
    (∀ cfg cfg', some (.awsSecret cfg) ∈ rules2 here → some (.awsSecret cfg') ∈ rules2 here → cfg.endpoint = cfg'.endpoint) ∧
    WasSent [g2 here] (.aws ⟨here, ['i'], key⟩) := by
  refine ⟨by decide +kernel, by decide +kernel, run2 here, ?_, g2 here, by simp, .aws 0 1, by simp [g2]⟩
  intro cfg cfg' h h'
  simp only [rules2, List.mem_cons, Option.some.injEq, reduceCtorEq, VType.awsSecret.injEq, List.not_mem_nil, or_false, false_or,
    or_self] at h h'
  rw [h, h']

/-- What a scan finds: an id, a password and a secret. -/
private def vFound : List RuleMatch :=
  [⟨0, [.field ['a']], .placeholder, 3, 4, -1, some "AK".toList, .notChecked⟩,
   ⟨2, [.field ['b']], .placeholder, 0, 1, -1, some "pw".toList, .notChecked⟩,
   ⟨1, [.field ['b']], .placeholder, 2, 3, -40, some someKey, .notChecked⟩]

private def vVs : List (IType × Validator) := [(.aws, .aws awsCfg), (.http [['u']], .http (webCfg "$MATCH".toList))]
private def vGs : List (IType × List RuleMatch) := [(.aws, [vFound[0], vFound[2]]), (.http [['u']], [vFound[1]])]

private def w0 : Group := { type := .aws, matches_ := [vFound[0], vFound[2]], validator := some (.aws awsCfg) }
private def x0 : Group := { type := .http [['u']], matches_ := [vFound[1]], validator := some (.http (webCfg "$MATCH".toList)) }
private def w1 : Group := { w0 with phase := .checking, keys := jobKeys vTypes w0.matches_ (.aws awsCfg) }
private def x1 : Group := { x0 with phase := .checking, keys := jobKeys vTypes x0.matches_ (.http (webCfg "$MATCH".toList)) }
private def w2 : Group :=
  { w1 with jobs := setJob w1.jobs (.aws 0 1) .waiting, log := w1.log ++ [.sent (.aws 0 1) (.aws ⟨awsCfg, "AK".toList, someKey⟩)] }
private def x2 : Group :=
  { x1 with jobs := setJob x1.jobs (.http 0 ['u']) .waiting,
            log := x1.log ++ [.sent (.http 0 ['u']) (.http ⟨.get, ['u'], [(['k'], "pw".toList)], 3⟩)] }

/-- The hypotheses of `C115_scan` are met, with a request of each kind. -/
example : ∃ e' os groups, LawfulEvent jsonEvent WellKeyed (Ev.leaves false) rewrite ∧ ScannerOk (vScanner "AK".toList) ∧
    Scannable WellKeyed (Ev.leaves false) (vScanner "AK".toList) [] (vEv "AK".toList) ∧
    scan jsonEvent (vScanner "AK".toList) (vEv "AK".toList) [] = Res.ok (e', os) ∧
    buildValidators vTypes [] false = some (vVs, true) ∧ groupMatches vTypes os [] = .ok vGs ∧
    ParRun anySigner vTypes (startGroups vVs vGs) groups ∧
    WasSent groups (.http ⟨.get, ['u'], [(['k'], "pw".toList)], 3⟩) ∧
    WasSent groups (.aws ⟨awsCfg, "AK".toList, someKey⟩) := by
  have hs : ∃ e', scan jsonEvent (vScanner "AK".toList) (vEv "AK".toList) [] = Res.ok (e', vFound) := by
    have h : (match scan jsonEvent (vScanner "AK".toList) (vEv "AK".toList) [] with
        | .ok r => decide (r.2 = vFound)
        | _ => false) = true := by decide +kernel
    revert h
    cases scan jsonEvent (vScanner "AK".toList) (vEv "AK".toList) [] with
    | ok r => intro h; exact ⟨r.1, by rw [← of_decide_eq_true h]⟩
    | panic => intro h; cases h
    | hang => intro h; cases h
  obtain ⟨e', hs⟩ := hs
  refine ⟨e', vFound, [w2, x2], jsonEvent_lawful, vScanner_ok (by decide), v_scannable (by decide) (by decide +kernel), hs, rfl,
    by decide +kernel, ?_, ⟨x2, by simp, .http 0 ['u'], by simp [x2]⟩, w2, by simp, .aws 0 1, by simp [w2]⟩
  have h1 : ParRun anySigner vTypes [w0, x0] [w1, x0] := .tail (.refl _) (.mk [] w0 w1 [x0] (.start _ (.aws awsCfg) rfl rfl))
  have h2 : ParRun anySigner vTypes [w0, x0] [w1, x1] := .tail h1 (.mk [w1] x0 x1 [] (.start _ (.http _) rfl rfl))
  have h3 : ParRun anySigner vTypes [w0, x0] [w2, x1] :=
    .tail h2 (.mk [] w1 w2 [x1] (.send _ (.aws awsCfg) (.aws 0 1) _ rfl rfl (by decide +kernel) rfl (by decide +kernel)))
  exact .tail h3 (.mk [w2] x1 x2 [] (.send _ (.http _) (.http 0 ['u']) _ rfl rfl (by decide +kernel) rfl (by decide +kernel)))

end WheretoExample

open WheretoExample in
/-- Finding (C115): with two rules for AWS secrets that have different endpoints, a secret that is found by the second one is sent to
the endpoint of the first one. -/
theorem C115_aws_other_endpoint : ¬ ∀ (sg : Signer) (rules : List (Option VType)) (vs : List (IType × Validator)) (ret : Bool)
    (ms : List RuleMatch) (gs : List (IType × List RuleMatch)) (groups : List Group) (r : AwsReq),
    buildValidators rules [] false = some (vs, ret) → groupMatches rules ms [] = .ok gs →
    ParRun sg rules (startGroups vs gs) groups → WasSent groups (.aws r) →
    ∃ own, AwsTold rules ms own r ∧ r.cfg.endpoint = own.endpoint := by
  intro h
  obtain ⟨own, ⟨a, _, b, hb, _, ho, _⟩, he⟩ := h anySigner (rules2 there) [(.aws, .aws here)] true found [(.aws, found)] [g2 there]
    ⟨here, ['i'], key⟩ (by decide +kernel) (by decide +kernel) (run2 there) ⟨g2 there, by simp, .aws 0 1, by simp [g2]⟩
  have hown : own = there := by
    simp only [found, List.mem_cons, List.not_mem_nil, or_false] at hb
    rcases hb with rfl | rfl
    · simp [rules2, aMatch] at ho
    · simp [rules2, aMatch] at ho
      exact ho.symm
  rw [hown] at he
  exact absurd he (by decide)

end Sds.Props
