import Verif.Spec.ScanValidate
import Verif.Props.Validation
import Verif.Props.EndToEnd

/-! # C77: validating the matches of a scan

Composition of the scan (C10) with `validate_matches` (C37-C40). -/

namespace Sds.Props
open Sds Sds.Spec

/-- If every group can be validated, so can all. -/
private theorem validateGroups_total (net : Net) (sch : Sched) (rules : List (Option VType)) (vs : List (IType × Validator))
    (gs : List (IType × List RuleMatch)) (h : ∀ g ∈ gs, ∃ o, validateGroup net sch rules vs g.1 g.2 = .ok o) :
    ∃ gs', validateGroups net sch rules vs gs = .ok gs' := by
  induction gs with
  | nil => exact ⟨[], rfl⟩
  | cons g gs ih =>
    obtain ⟨t, ms⟩ := g
    obtain ⟨o, ho⟩ := h (t, ms) (by simp)
    obtain ⟨gs', hgs⟩ := ih fun g hg => h g (by simp [hg])
    rw [validateGroups_cons]
    simp only at ho
    rw [ho, hgs]
    exact ⟨_, rfl⟩

private theorem groupOf_mem {gs : List (IType × List RuleMatch)} (hn : (gs.map (·.1)).Nodup) {g : IType × List RuleMatch}
    (hg : g ∈ gs) : groupOf gs g.1 = g.2 := by
  induction gs with
  | nil => cases hg
  | cons x gs ih =>
    obtain ⟨t, ms⟩ := x
    simp only [List.map_cons, List.nodup_cons] at hn
    rcases List.mem_cons.1 hg with rfl | hg'
    · simp [groupOf]
    · have hne : (g.1 == t) = false := by
        simp only [beq_eq_false_iff_ne]
        intro ht
        exact hn.1 (ht ▸ List.mem_map_of_mem (f := (·.1)) hg')
      have := ih hn.2 hg'
      simpa [groupOf, List.lookup_cons, hne] using this

/-- `validate_matches` returns if every match has a rule and a text, and every request can be signed. -/
private theorem validateMatches_total {net : Net} {sch : Sched} (hf : Fair sch) {rules : List (Option VType)}
    {vs : List (IType × Validator)} {ms : List RuleMatch} (hr : ∀ m ∈ ms, m.rule < rules.length)
    (hv : ∀ m ∈ ms, m.value ≠ none)
    (hs : ∀ cfg ms', (∀ m ∈ ms', m ∈ ms) → Signable net cfg rules ms') :
    ∃ outs, validateMatches net sch rules vs true ms = .ok (some outs) := by
  obtain ⟨gs, hgs⟩ := groupMatches_total rules ms [] hr
  obtain ⟨h1, h2, _⟩ := groupMatches_ok rules ms [] gs hgs (by simp)
  have hmem : ∀ g ∈ gs, ∀ m ∈ g.2, m ∈ ms := by
    intro g hg m hm
    rw [← groupOf_mem h1 hg, h2 g.1] at hm
    simp only [groupOf, List.lookup_nil, Option.getD_none, List.nil_append] at hm
    exact (List.mem_filter.1 hm).1
  obtain ⟨gs', hgs'⟩ := validateGroups_total net sch rules vs gs (by
    intro g hg
    unfold validateGroup
    cases vs.lookup g.1 with
    | none => exact ⟨_, rfl⟩
    | some v =>
      cases v with
      | aws cfg =>
        exact (C39_aws_pairs net sch hf cfg rules g.2).1 (hs cfg g.2 (hmem g hg))
      | http cfg =>
        obtain ⟨o, ho, _⟩ := C38_http net sch hf cfg g.2 fun m hm => hv m (hmem g hg m hm)
        exact ⟨o, ho⟩)
  unfold validateMatches
  rw [hgs]
  simp only [hgs']
  exact ⟨_, rfl⟩

variable {E : Type} {impl : EventImpl E} {wf : E → Prop} {leavesOf : E → List Leaf} {rew : (Path → Str → Str) → E → E}

/-- A report comes from a piece. -/
theorem reports_from {units : Str → Nat} {rules : Nat → RuleInfo} {f : Nat → Str → Str} {rm : Bool} {path : Path}
    {ps : List Piece} {tail : Str} {o : RuleMatch} : ∀ (inn out : Str), o ∈ reports units rules f rm path inn out ps →
      ∃ before u after, inn ++ input ps tail = before ++ u ++ after ∧
        (⟨o.rule, blen before, blen before + blen u⟩ : M) ∈ ranges (blen inn) ps ∧ o.path = path ∧
        o.value = (if rm then some u else none) ∧
        o.status = if (rules o.rule).hasValidation then .notChecked else .notAvailable := by
  induction ps with
  | nil => intro _ _ h; cases h
  | cons p ps ih =>
    intro inn out h
    rcases List.mem_cons.1 h with rfl | h
    · refine ⟨inn ++ p.gap, p.text, input ps tail, by simp [input], ?_, rfl, rfl, rfl⟩
      simp [ranges]
    · obtain ⟨b, u, a, h1, h2, h3⟩ := ih _ _ h
      refine ⟨b, u, a, by rw [← h1]; simp [input], ?_, h3⟩
      have hb : blen (inn ++ p.gap ++ p.text) = blen inn + blen p.gap + blen p.text := by simp [Nat.add_assoc]
      rw [hb] at h2
      exact List.mem_cons_of_mem _ h2

/-- Everything that a scan reports, with its status. -/
private theorem scan_reports (hE : LawfulEvent impl wf leavesOf rew) {sc : Scanner} (hok : ScannerOk sc) {blocked : List Nat}
    {e : E} (h : Scannable wf leavesOf sc blocked e) (hret : sc.returnMatches = true) :
    ∃ G os, scan impl sc e blocked = Res.ok (rew G e, os) ∧
      ∀ o ∈ os, o.status = (if (infoOf sc o.rule).hasValidation then .notChecked else .notAvailable) ∧
        ∃ l ∈ leavesOf e, ∃ u, FoundAs sc blocked (leavesOf e) o l u := by
  obtain ⟨out, G, h1, h2⟩ := C10_scan_result hE hok blocked e h
  refine ⟨G, _, h1, ?_⟩
  intro o ho
  obtain ⟨l, hl, ho⟩ := List.mem_flatMap.1 ho
  obtain ⟨⟨ks, res, ps, tail, hk, hres, _, h3, h4, h5, _⟩, _⟩ := h2 l hl
  rw [h5] at ho
  obtain ⟨b, u, a, e1, e2, e3, e4, e5⟩ := reports_from (tail := tail) [] [] ho
  refine ⟨e5, l, hl, u, e3, by rw [e4, hret]; rfl, b, a, by rw [h3, ← e1, List.nil_append], ?_⟩
  rw [show blen ([] : Str) = 0 from rfl, ← h4] at e2
  exact (hk _).1 (hres.1 _ e2)

private theorem kept_rule {sc : Scanner} {blocked : List Nat} {leaves : List Leaf} {p : Path} {c : Str} {m : M}
    (h : Kept sc blocked leaves p c m) : m.rule < sc.rules.length := by
  obtain ⟨⟨rule, f, ha, _⟩, _⟩ := h
  exact (List.getElem?_eq_some_iff.1 ha.2.1).1

private theorem fixedPart_eq {a b : RuleMatch} (h : fixedPart a = fixedPart b) :
    a.rule = b.rule ∧ a.path = b.path ∧ a.value = b.value := by
  simp only [fixedPart, Prod.mk.injEq] at h
  exact ⟨h.1, h.2.1, h.2.2.2.2.2.2⟩

/-- C77: validating the matches of a scan returns, whatever the network does; it gives the matches of the rules with a
validation type, each with the text that was found in the event before anything was replaced.  Missing: AWS ids that are
not printable (`C77_line_break_panics`). -/
theorem C77_scan_then_validate_partial (hE : LawfulEvent impl wf leavesOf rew) {sc : Scanner} (hok : ScannerOk sc)
    {blocked : List Nat} {e : E} (h : Scannable wf leavesOf sc blocked e)
    {types : List (Option VType)} {vs : List (IType × Validator)} {ret : Bool}
    (hb : buildValidators types [] false = some (vs, ret)) (ht : TypesOf sc types ret) (hv : HasValidator types)
    {net : Net} (hn : SignsPrintable net) {sch : Sched} (hf : Fair sch)
    (hid : ∀ b l u, l ∈ leavesOf e → FoundAs sc blocked (leavesOf e) b l u → IsAwsId types b → Printable u) :
    ∃ G os outs, scan impl sc e blocked = Res.ok (rew G e, os) ∧
      validateMatches net sch types vs ret os = Res.ok (some outs) ∧
      (outs.map fixedPart).Perm ((os.filter (isValidated types)).map fixedPart) ∧
      ∀ b ∈ outs, ∃ l ∈ leavesOf e, ∃ u, FoundAs sc blocked (leavesOf e) b l u := by
  have hret : ret = true := by
    cases ret with
    | true => rfl
    | false =>
      have := (C37_no_validator net sch types vs false hb []).1 (by simp [validateMatches])
      exact absurd hv this
  obtain ⟨G, os, h1, h2⟩ := scan_reports hE hok h (by rw [ht.returns, hret])
  have hrule : ∀ m ∈ os, m.rule < types.length := by
    intro m hm
    obtain ⟨_, l, _, u, _, _, _, _, _, hk⟩ := h2 m hm
    rw [ht.len]
    exact kept_rule hk
  obtain ⟨outs, h3⟩ := validateMatches_total (net := net) (vs := vs) hf hrule
    (by intro m hm hnone
        obtain ⟨_, l, _, u, _, hu, _⟩ := h2 m hm
        rw [hnone] at hu; cases hu)
    (by intro cfg ms' hsub i j a b id secret hp ha hb' hav hbv
        refine hn.printable _ ?_
        obtain ⟨a', b', ha', _, hia, _⟩ := hp
        rw [ha] at ha'
        cases ha'
        obtain ⟨_, l, hl, u, hfound⟩ := h2 a (hsub a (List.mem_of_getElem? ha))
        have : u = id := by
          have := hfound.2.1
          rw [hav] at this
          exact (Option.some.inj this).symm
        subst this
        exact hid a l u hl hfound hia)
  have h4 := (C37_keeps_matches_partial net sch hf types vs true os outs h3).1
  refine ⟨G, os, outs, h1, by rw [hret]; exact h3, h4, ?_⟩
  intro b hb'
  obtain ⟨a, ha, hab, _⟩ := C38_never_decreases net sch hf types vs true os outs h3 b hb'
  obtain ⟨e1, e2, e3⟩ := fixedPart_eq hab
  obtain ⟨_, l, hl, u, hfound⟩ := h2 a ha
  refine ⟨l, hl, u, e2 ▸ hfound.1, e3 ▸ hfound.2.1, ?_⟩
  rw [← e1]
  exact hfound.2.2

private theorem initial_status {sc : Scanner} {types : List (Option VType)} {ret : Bool} (ht : TypesOf sc types ret)
    {o : RuleMatch} (ho : o.status = if (infoOf sc o.rule).hasValidation then .notChecked else .notAvailable) {t : VType}
    (hr : types[o.rule]? = some (some t)) : o.status = .notChecked := by
  rw [ho, if_pos ((ht.flags _ _ hr).2 (by simp))]

private theorem Steady.httpResult {net : Net} (h : Steady net) {cfg : HttpConfig} {i : Nat} {u : Str} {x : MatchStatus} :
    HttpResult net cfg i u x ↔ HttpResult net cfg 0 u x := by
  unfold HttpResult
  constructor <;> rintro ⟨e, r, h1, h2⟩ <;> refine ⟨e, r, h1, ?_⟩
  · rw [h.http 0 i]; exact h2
  · rw [h.http i 0]; exact h2

private theorem sameButStatus_eq {a b : RuleMatch} (h : SameButStatus a b) : a.rule = b.rule ∧ a.value = b.value := by
  unfold SameButStatus at h
  simp only [RuleMatch.mk.injEq] at h
  exact ⟨h.1, by simp_all⟩

/-- C77: the statuses.  With a network that answers equal requests equally, the status of an HTTP rule's match is decided
by the replies for the text that was found, and an AWS id (or secret) is valid iff some secret (or id) found in the
same event is accepted with it. -/
theorem C77_statuses (hE : LawfulEvent impl wf leavesOf rew) {sc : Scanner} (hok : ScannerOk sc)
    {blocked : List Nat} {e e' : E} (h : Scannable wf leavesOf sc blocked e)
    {types : List (Option VType)} {vs : List (IType × Validator)} {ret : Bool}
    (hb : buildValidators types [] false = some (vs, ret)) (ht : TypesOf sc types ret)
    {net : Net} (hn : Steady net) {sch : Sched} (hf : Fair sch) {os outs : List RuleMatch}
    (h1 : scan impl sc e blocked = Res.ok (e', os))
    (h2 : validateMatches net sch types vs ret os = Res.ok (some outs)) :
    (∀ b ∈ outs, ∀ cfg, types[b.rule]? = some (some (.http cfg)) →
      (∀ cfg', some (.http cfg') ∈ types → cfg'.endpoints = cfg.endpoints → cfg' = cfg) →
      ∃ u, b.value = some u ∧ Highest (fun x => x = .notChecked ∨ HttpResult net cfg 0 u x) b.status) ∧
    ∀ cfg, (secretConfigs types).head? = some cfg → ∀ b ∈ outs,
      (IsAwsId types b → (b.status = .valid ↔ ∃ c ∈ outs, IsAwsSecret types c ∧
        ∃ id text, b.value = some id ∧ c.value = some text ∧ Accepts net cfg id text)) ∧
      (IsAwsSecret types b → (b.status = .valid ↔ ∃ c ∈ outs, IsAwsId types c ∧
        ∃ id text, c.value = some id ∧ b.value = some text ∧ Accepts net cfg id text)) := by
  have hret : ret = true := by
    cases ret with
    | true => rfl
    | false => simp [validateMatches] at h2
  obtain ⟨G, os', h3, h4⟩ := scan_reports hE hok h (by rw [ht.returns, hret])
  rw [h1] at h3
  simp only [Res.ok.injEq, Prod.mk.injEq] at h3
  obtain ⟨-, rfl⟩ := h3
  constructor
  · intro b hbo cfg hr hsame
    obtain ⟨G, hp, hu⟩ := C40_own_configuration_partial net sch hf types vs ret hb os outs h2 cfg
      (List.mem_of_getElem? hr) hsame
    have hbG : b ∈ G := hp.mem_iff.1 (List.mem_filter.2 ⟨hbo, by simp [usesEndpoints, hr]⟩)
    obtain ⟨i, hi, hbi⟩ := List.getElem_of_mem hbG
    have hia : i < (os.filter (usesEndpoints types cfg.endpoints)).length := by rw [← hu.len]; exact hi
    obtain ⟨hsb, hh⟩ := hu.each i _ b (List.getElem?_eq_getElem hia) (by rw [List.getElem?_eq_getElem hi, hbi])
    have hmem := List.getElem_mem hia
    generalize (os.filter (usesEndpoints types cfg.endpoints))[i] = a at hsb hh hmem
    obtain ⟨ha, -⟩ := List.mem_filter.1 hmem
    obtain ⟨e1, e2⟩ := sameButStatus_eq hsb
    obtain ⟨hs, l, hl, u, hfound⟩ := h4 a ha
    have hnc := initial_status ht hs (t := .http cfg) (by rw [e1]; exact hr)
    have huv : a.value = some u := hfound.2.1
    refine ⟨u, by rw [← e2]; exact huv, ?_⟩
    rw [hnc] at hh
    have key : ∀ x, (x = MatchStatus.notChecked ∨ ∃ text, a.value = some text ∧ HttpResult net cfg i text x) ↔
        (x = .notChecked ∨ HttpResult net cfg 0 u x) := by
      intro x
      rw [← Steady.httpResult hn (i := i), huv]
      simp
    exact ⟨(key _).1 hh.1, fun x hx => hh.2 x ((key x).2 hx)⟩
  · intro cfg hcfg
    obtain ⟨G, hp, hu, -⟩ := C39_scanner net sch hf types vs ret hb os outs h2
    have hu := hu cfg hcfg
    generalize hms : os.filter (isAws types) = ms at hu
    have hmsos : ∀ m ∈ ms, m ∈ os := fun m hm => (List.mem_filter.1 (hms ▸ hm)).1
    -- input and output positions correspond
    have fwd : ∀ (i : Nat) (a : RuleMatch), ms[i]? = some a → ∃ b ∈ outs, G[i]? = some b ∧ a.rule = b.rule ∧ a.value = b.value := by
      intro i a ha
      have hi : i < G.length := by rw [hu.len]; exact (List.getElem?_eq_some_iff.1 ha).1
      obtain ⟨e1, e2⟩ := sameButStatus_eq (hu.each i a _ ha (List.getElem?_eq_getElem hi)).1
      exact ⟨G[i], (List.mem_filter.1 (hp.mem_iff.2 (List.getElem_mem hi))).1, List.getElem?_eq_getElem hi, e1, e2⟩
    have bwd : ∀ b ∈ outs, isAws types b = true → ∃ (i : Nat) (a : RuleMatch), ms[i]? = some a ∧ G[i]? = some b ∧
        a.rule = b.rule ∧ a.value = b.value ∧ AwsClaim net cfg types ms i a b.status := by
      intro b hbo haws
      obtain ⟨i, hi, hbi⟩ := List.getElem_of_mem (hp.mem_iff.1 (List.mem_filter.2 ⟨hbo, haws⟩))
      have hia : i < ms.length := by rw [← hu.len]; exact hi
      have hbi' : G[i]? = some b := by rw [List.getElem?_eq_getElem hi, hbi]
      obtain ⟨hsb, hh⟩ := hu.each i _ b (List.getElem?_eq_getElem hia) hbi'
      obtain ⟨e1, e2⟩ := sameButStatus_eq hsb
      exact ⟨i, _, List.getElem?_eq_getElem hia, hbi', e1, e2, hh⟩
    intro b hbo
    constructor
    · intro hid
      obtain ⟨i, a, hai, -, e1, e2, hc, -⟩ := bwd b hbo (by unfold IsAwsId at hid; simp [isAws, hid])
      have hida : IsAwsId types a := by unfold IsAwsId; rw [e1]; exact hid
      have hnc := initial_status ht (h4 a (hmsos a (List.mem_of_getElem? hai))).1 hida
      rw [hc, hnc]
      constructor
      · rintro (hx | ⟨j, hpair, a', c, id, text, code, g1, g2, g3, g4, g5, g6⟩ | ⟨j, ⟨_, a', _, g2, _, g4⟩, _⟩)
        · cases hx
        · rw [hai] at g1; cases g1
          obtain ⟨_, c', _, hc', _, hsec⟩ := hpair
          rw [g2] at hc'; cases hc'
          obtain ⟨d, hd, -, f1, f2⟩ := fwd j c g2
          refine ⟨d, hd, ?_, id, text, by rw [← e2]; exact g3, by rw [← f2]; exact g4, code, ?_, g6⟩
          · unfold IsAwsSecret; rw [← f1]; exact hsec
          · rw [hn.aws 0 0 i j]; exact g5
        · rw [hai] at g2; cases g2
          obtain ⟨cfg', g4⟩ := g4
          unfold IsAwsId at hida
          rw [hida] at g4; cases g4
      · rintro ⟨c, hco, hsec, id, text, v1, v2, code, v3, v4⟩
        obtain ⟨j, a', haj, -, f1, f2, -⟩ := bwd c hco (by obtain ⟨_, hsec⟩ := hsec; simp [isAws, hsec])
        refine Or.inr (Or.inl ⟨j, ⟨a, a', hai, haj, hida, ?_⟩, a, a', id, text, code, hai, haj, by rw [e2]; exact v1,
          by rw [f2]; exact v2, ?_, v4⟩)
        · unfold IsAwsSecret; rw [f1]; exact hsec
        · rw [hn.aws i j 0 0]; exact v3
    · intro hsec
      obtain ⟨i, a, hai, -, e1, e2, hc, -⟩ := bwd b hbo (by obtain ⟨_, hsec⟩ := hsec; simp [isAws, hsec])
      have hseca : IsAwsSecret types a := by unfold IsAwsSecret; rw [e1]; exact hsec
      have hnc := initial_status ht (h4 a (hmsos a (List.mem_of_getElem? hai))).1 hseca.choose_spec
      rw [hc, hnc]
      constructor
      · rintro (hx | ⟨j, ⟨a', _, g2, _, g4, _⟩, _⟩ | ⟨j, hpair, c, a', id, text, code, g1, g2, g3, g4, g5, g6⟩)
        · cases hx
        · rw [hai] at g2; cases g2
          obtain ⟨cfg', hseca⟩ := hseca
          unfold IsAwsId at g4
          rw [hseca] at g4; cases g4
        · rw [hai] at g2; cases g2
          obtain ⟨c', _, hc', _, hid, _⟩ := hpair
          rw [g1] at hc'; cases hc'
          obtain ⟨d, hd, -, f1, f2⟩ := fwd j c g1
          refine ⟨d, hd, ?_, id, text, by rw [← f2]; exact g3, by rw [← e2]; exact g4, code, ?_, g6⟩
          · unfold IsAwsId; rw [← f1]; exact hid
          · rw [hn.aws 0 0 j i]; exact g5
      · rintro ⟨c, hco, hid, id, text, v1, v2, code, v3, v4⟩
        obtain ⟨j, a', haj, -, f1, f2, -⟩ := bwd c hco (by unfold IsAwsId at hid; simp [isAws, hid])
        refine Or.inr (Or.inr ⟨j, ⟨a', a, haj, hai, ?_, hseca⟩, a', a, id, text, code, haj, hai, by rw [f2]; exact v1,
          by rw [e2]; exact v2, ?_, v4⟩)
        · unfold IsAwsId; rw [f1]; exact hid
        · rw [hn.aws j i 0 0]; exact v3

/-! ## The hypotheses are met, and what happens without them -/

def vRule (t : Str) : CRule :=
  RegexRule.toCRule ⟨textRx t, none, none, none⟩ ⟨.redact "#".toList, true⟩ (.excl []) false (fun c => blen c + 1)

/-- A rule for ids, one for secrets and one checked over HTTP. -/
def vScanner (id : Str) : Scanner := ⟨[vRule id, vRule someKey, vRule "pw".toList], false, false, true, ⟨List.length, List.length⟩⟩

def vTypes : List (Option VType) := [some .awsId, some (.awsSecret awsCfg), some (.http (webCfg "$MATCH".toList))]

private def vNet : Net where
  http := fun _ r => if r.headers.any (fun h => h.2 == "pw".toList) then .response 200 else .response 403
  aws := fun _ _ r => if r.id == "AK".toList && r.secret == someKey then .response 200 else .response 403
  signable := fun r => r.id.all fun c => 32 ≤ c.toNat && c.toNat < 127
  word := fun _ => false

def vEv (id : Str) : Ev :=
  .map (.cons "a".toList (.str ("id ".toList ++ id)) (.cons "b".toList (.str ("pw ".toList ++ someKey)) .nil))

private theorem vNet_ok : SignsPrintable vNet ∧ Steady vNet where
  left := {
    printable := by
      intro r h
      simp only [vNet, List.all_eq_true, Bool.and_eq_true, decide_eq_true_eq]
      exact h
    lineBreak := by
      intro r h
      simp only [vNet, List.all_eq_false]
      exact ⟨_, h, by decide⟩ }
  right := ⟨fun _ _ _ => rfl, fun _ _ _ _ _ => rfl⟩

theorem vTypes_ok (id : Str) : TypesOf (vScanner id) vTypes true where
  len := rfl
  flags := by
    intro i t h
    match i with
    | 0 => cases h; simp [infoOf, vScanner, vRule, RegexRule.toCRule]
    | 1 => cases h; simp [infoOf, vScanner, vRule, RegexRule.toCRule]
    | 2 => cases h; simp [infoOf, vScanner, vRule, RegexRule.toCRule]
    | n + 3 => simp [vTypes] at h
  returns := rfl

theorem vScanner_ok {id : Str} (h : id ≠ []) : ScannerOk (vScanner id) := by
  intro rule hr
  simp only [vScanner, List.mem_cons, List.not_mem_nil, or_false] at hr
  have key : ∀ t : Str, t ≠ [] → RuleOk (vRule t) := fun t ht =>
    regexRule_ok (textRx_ok _ ht).1 (textRx_ok _ ht).2 (by intro k hk; cases hk) (by intro c; omega) (by simp) _ false
  rcases hr with rfl | rfl | rfl
  · exact key _ h
  · exact key _ (by decide)
  · exact key _ (by decide)

theorem v_scannable {id : Str} (h : id ≠ []) (hall : ∀ l ∈ Ev.leaves false (vEv id), l.fixed = false) :
    Scannable WellKeyed (Ev.leaves false) (vScanner id) [] (vEv id) where
  wf := by simp [vEv, WellKeyed, WellKeyedFields, keys]
  returns := by
    intro rule hr l _ ex
    simp only [vScanner, List.mem_cons, List.not_mem_nil, or_false] at hr
    have key : ∀ t : Str, t ≠ [] → ∃ f, (vRule t).run l.text l.path ex = Res.ok f := fun t ht =>
      stringMatches_returns (r := ⟨textRx _, none, none, none⟩) (textRx_ok _ ht).1 (textRx_ok _ ht).2
        (by intro k hk; cases hk) false ex (by intro _ x hx; cases hx) l.path (Nat.lt_succ_self _)
    rcases hr with rfl | rfl | rfl
    · exact key _ h
    · exact key _ (by decide)
    · exact key _ (by decide)
  strings := by
    intro l hl hf
    rw [hall l hl] at hf
    cases hf

/-- A case meeting the hypotheses of both theorems: an id and a secret in different strings, accepted together, and a
password checked over HTTP; all three are replaced in the event. -/
example : LawfulEvent jsonEvent WellKeyed (Ev.leaves false) rewrite ∧ ScannerOk (vScanner "AK".toList) ∧
    Scannable WellKeyed (Ev.leaves false) (vScanner "AK".toList) [] (vEv "AK".toList) ∧
    TypesOf (vScanner "AK".toList) vTypes true ∧ SignsPrintable vNet ∧ Steady vNet ∧ Fair backwards ∧
    (∀ b l u, l ∈ Ev.leaves false (vEv "AK".toList) →
      FoundAs (vScanner "AK".toList) [] (Ev.leaves false (vEv "AK".toList)) b l u → IsAwsId vTypes b → Printable u) ∧
    ∃ vs, buildValidators vTypes [] false = some (vs, true) ∧ HasValidator vTypes ∧
      (match scan jsonEvent (vScanner "AK".toList) (vEv "AK".toList) [] with
        | .ok (_, os) => (validateMatches vNet backwards vTypes vs true os).map fun (o : Option (List RuleMatch)) =>
            (o.getD []).map fun m => (m.value, m.status)
        | _ => .panic) =
        Res.ok [(some "pw".toList, MatchStatus.valid), (some someKey, .valid), (some "AK".toList, .valid)] := by
  refine ⟨jsonEvent_lawful, vScanner_ok (by decide), v_scannable (by decide) (by decide +kernel), vTypes_ok _, vNet_ok.1,
    vNet_ok.2, backwards_fair, ?_,
    [(.aws, .aws awsCfg), (.http [['u']], .http (webCfg "$MATCH".toList))], rfl, ⟨.awsSecret awsCfg, by simp [vTypes], Or.inl ⟨_, rfl⟩⟩, by decide +kernel⟩
  intro b l u hl ⟨_, _, before, after, ht, _⟩ _ c hc
  have hall : ∀ l ∈ Ev.leaves false (vEv "AK".toList), ∀ c ∈ l.text, 32 ≤ c.toNat ∧ c.toNat < 127 := by decide +kernel
  exact hall l hl c (by rw [ht]; simp [hc])

/-- Without the condition on ids, C77 fails: an id with a line break, found with a secret, makes validation panic. -/
theorem C77_line_break_panics : ∃ (sc : Scanner) (e : Ev) (types : List (Option VType)) (vs : List (IType × Validator)) (net : Net)
    (sch : Sched), ScannerOk sc ∧ Scannable WellKeyed (Ev.leaves false) sc [] e ∧
    buildValidators types [] false = some (vs, true) ∧ TypesOf sc types true ∧ HasValidator types ∧ SignsPrintable net ∧
    Fair sch ∧ ∃ r, scan jsonEvent sc e [] = Res.ok r ∧ validateMatches net sch types vs true r.2 = Res.panic := by
  refine ⟨vScanner "A\nK".toList, vEv "A\nK".toList, vTypes, _, vNet, inOrder, vScanner_ok (by decide),
    v_scannable (by decide) (by decide +kernel), rfl, vTypes_ok _, ⟨.awsSecret awsCfg, by simp [vTypes], Or.inl ⟨_, rfl⟩⟩,
    vNet_ok.1, inOrder_fair, ?_⟩
  have h : (match scan jsonEvent (vScanner "A\nK".toList) (vEv "A\nK".toList) [] with
      | .ok r => decide (validateMatches vNet inOrder vTypes
          [(.aws, .aws awsCfg), (.http [['u']], .http (webCfg "$MATCH".toList))] true r.2 = .panic)
      | _ => false) = true := by decide +kernel
  revert h
  cases scan jsonEvent (vScanner "A\nK".toList) (vEv "A\nK".toList) [] with
  | ok r => intro h; exact ⟨r, rfl, of_decide_eq_true h⟩
  | panic => intro h; cases h
  | hang => intro h; cases h

end Sds.Props
