import Verif.Spec.Revalidate
import Verif.Props.ParValidate

/-! # C116: matches that are validated again -/

namespace Sds.Props
open Sds Spec

/-! ## What the checks say does not depend on statuses -/

private theorem value_unchecked (ms : List RuleMatch) (i : Nat) :
    (((ms.map unchecked)[i]?).bind (·.value)) = ((ms[i]?).bind (·.value)) := by
  rw [List.getElem?_map]
  cases ms[i]? <;> rfl

private theorem http_unchecked (net : Net) (cfg : HttpConfig) (ms : List RuleMatch) :
    httpCheck net cfg (ms.map unchecked) = httpCheck net cfg ms := by
  funext k s
  unfold httpCheck
  rw [value_unchecked]

private theorem aws_unchecked (net : Net) (cfg : AwsConfig) (ms : List RuleMatch) :
    awsCheck net cfg (ms.map unchecked) = awsCheck net cfg ms := by
  funext k s
  unfold awsCheck
  rw [value_unchecked, value_unchecked]

private theorem pairs_unchecked (rules : List (Option VType)) (ms : List RuleMatch) :
    awsPairs rules (ms.map unchecked) = awsPairs rules ms := by
  have h : ∀ (i : Nat) (p : Option VType → Bool),
      ((ms.map unchecked)[i]?).any (fun m => p (vtypeOf rules m)) = (ms[i]?).any fun m => p (vtypeOf rules m) := by
    intro i p
    rw [List.getElem?_map]
    cases ms[i]? <;> rfl
  have h1 : awsIds rules (ms.map unchecked) = awsIds rules ms := by
    unfold awsIds
    rw [List.length_map]
    exact List.filter_congr fun i _ => h i (· == some .awsId)
  have h2 : awsSecrets rules (ms.map unchecked) = awsSecrets rules ms := by
    unfold awsSecrets
    rw [List.length_map]
    exact List.filter_congr fun i _ => h i isSecret
  unfold awsPairs
  rw [h1, h2]

private theorem pair_unchecked (rules : List (Option VType)) (ms : List RuleMatch) (i j : Nat) :
    AwsPair rules (ms.map unchecked) i j ↔ AwsPair rules ms i j := by
  unfold AwsPair
  simp only [List.getElem?_map, Option.map_eq_some_iff]
  constructor
  · rintro ⟨_, _, ⟨a, ha, rfl⟩, ⟨b, hb, rfl⟩, h1, h2⟩
    exact ⟨a, b, ha, hb, h1, h2⟩
  · rintro ⟨a, b, ha, hb, h1, h2⟩
    exact ⟨_, _, ⟨a, ha, rfl⟩, ⟨b, hb, rfl⟩, h1, h2⟩

/-- What the checks of match number `i` say. -/
private def Says (net : Net) (rules : List (Option VType)) (vs : List (IType × Validator)) (t : IType) (ms : List RuleMatch) (i : Nat)
    (m : RuleMatch) (x : MatchStatus) : Prop :=
  match vs.lookup t with
  | none => False
  | some (.http cfg) => ∃ text, m.value = some text ∧ HttpResult net cfg i text x
  | some (.aws cfg) => (∃ j, AwsPair rules ms i j ∧ awsCheck net cfg ms (i, j) .notChecked = .ok x) ∨
    (∃ j, AwsPair rules ms j i ∧ awsCheck net cfg ms (j, i) .notChecked = .ok x)

private theorem says_unchecked (net : Net) (rules : List (Option VType)) (vs : List (IType × Validator)) (t : IType)
    (ms : List RuleMatch) (i : Nat) (m : RuleMatch) (x : MatchStatus) :
    Says net rules vs t (ms.map unchecked) i (unchecked m) x ↔ Says net rules vs t ms i m x := by
  unfold Says
  cases vs.lookup t with
  | none => exact Iff.rfl
  | some v =>
    cases v with
    | http cfg => exact Iff.rfl
    | aws cfg => simp only [aws_unchecked, pair_unchecked]

private theorem group_says {net : Net} {sch : Sched} (hf : Fair sch) {rules : List (Option VType)} {vs : List (IType × Validator)}
    {t : IType} {ms outs : List RuleMatch} (h : validateGroup net sch rules vs t ms = .ok outs) :
    Updated (fun i m s => Highest (fun x => x = m.status ∨ Says net rules vs t ms i m x) s) ms outs := by
  unfold validateGroup at h
  unfold Says
  cases hv : vs.lookup t with
  | none =>
    rw [hv] at h
    cases h
    refine ⟨rfl, fun i a b ha hb => ?_⟩
    rw [ha] at hb
    cases hb
    refine ⟨rfl, Or.inl rfl, ?_⟩
    rintro x (rfl | hx)
    · exact .refl _
    · cases hx
  | some v =>
    rw [hv] at h
    cases v with
    | http cfg => exact httpValidate_final net sch hf cfg ms outs h
    | aws cfg => exact (awsValidate_final net sch hf cfg rules ms outs h).2

private theorem higher_of {a f s : MatchStatus} {R : MatchStatus → Prop} (hs : Highest (fun x => x = a ∨ R x) s)
    (hf : Highest (fun x => x = .notChecked ∨ R x) f) : Highest (fun x => x = a ∨ x = f) s := by
  have hfs : StatusLe f s := by
    rcases hf.1 with h | h
    · rw [h]; exact .notChecked _
    · exact hs.2 _ (Or.inr h)
  refine ⟨?_, ?_⟩
  · rcases hs.1 with h | h
    · exact Or.inl h
    · exact Or.inr ((hf.2 _ (Or.inr h)).antisymm hfs)
  · rintro x (rfl | rfl)
    · exact hs.2 _ (Or.inl rfl)
    · exact hfs

theorem with_status {a b : RuleMatch} (h : SameButStatus a b) : b = { a with status := b.status } := by
  unfold SameButStatus at h
  cases a; cases b
  simp only [RuleMatch.mk.injEq] at h ⊢
  simp_all

private theorem raised {P Q : Nat → RuleMatch → MatchStatus → Prop} : ∀ {ms news outs : List RuleMatch},
    Updated P (ms.map unchecked) news → Updated Q ms outs →
    (∀ i a f s, ms[i]? = some a → P i (unchecked a) f → Q i a s → Highest (fun x => x = a.status ∨ x = f) s) →
    RaisedTo ms news outs := by
  intro ms news outs hp hq hr
  refine ⟨(ms.zip (news.zip outs)).map fun x => (x.1, x.2.1.status, x.2.2.status), ?_, ?_, ?_, ?_⟩
  · rw [List.map_map]
    show (ms.zip (news.zip outs)).map Prod.fst = ms
    refine List.map_fst_zip ?_
    have := hp.len
    have := hq.len
    simp at *
    omega
  · refine List.Perm.of_eq (List.ext_getElem? fun i => ?_)
    rw [List.map_map, List.getElem?_map]
    by_cases hi : i < ms.length
    · have h1 : i < news.length := by rw [hp.len, List.length_map]; exact hi
      have h2 : i < outs.length := by rw [hq.len]; exact hi
      rw [List.getElem?_eq_getElem h1, List.getElem?_eq_getElem (by simp; omega)]
      simp only [Option.map_some, List.getElem_zip, Function.comp_def, Option.some.injEq]
      have := with_status (hp.each i (unchecked ms[i]) news[i] (by simp [hi]) (List.getElem?_eq_getElem h1)).1
      rw [this]
      rfl
    · rw [List.getElem?_eq_none (by rw [hp.len, List.length_map]; omega), List.getElem?_eq_none (by simp; omega)]
      rfl
  · refine List.Perm.of_eq (List.ext_getElem? fun i => ?_)
    rw [List.map_map, List.getElem?_map]
    by_cases hi : i < ms.length
    · have h1 : i < news.length := by rw [hp.len, List.length_map]; exact hi
      have h2 : i < outs.length := by rw [hq.len]; exact hi
      rw [List.getElem?_eq_getElem h2, List.getElem?_eq_getElem (by simp; omega)]
      simp only [Option.map_some, List.getElem_zip, Function.comp_def, Option.some.injEq]
      exact with_status (hq.each i ms[i] outs[i] (List.getElem?_eq_getElem hi) (List.getElem?_eq_getElem h2)).1
    · rw [List.getElem?_eq_none (by rw [hq.len]; omega), List.getElem?_eq_none (by simp; omega)]
      rfl
  · intro x hx
    obtain ⟨y, hy, rfl⟩ := List.mem_map.1 hx
    obtain ⟨i, hi, rfl⟩ := List.getElem_of_mem hy
    simp only [List.length_zip] at hi
    simp only [List.getElem_zip]
    have h0 : i < ms.length := by omega
    have h1 : i < news.length := by omega
    have h2 : i < outs.length := by omega
    exact hr i _ _ _ (List.getElem?_eq_getElem h0)
      (hp.each i (unchecked ms[i]) news[i] (by simp [h0]) (List.getElem?_eq_getElem h1)).2
      (hq.each i ms[i] outs[i] (List.getElem?_eq_getElem h0) (List.getElem?_eq_getElem h2)).2

private theorem filter_unchecked (rules : List (Option VType)) (t : IType) (ms : List RuleMatch) :
    (ms.map unchecked).filter (fun m => typeOf rules m == some t) = (ms.filter fun m => typeOf rules m == some t).map unchecked := by
  rw [List.filter_map]
  rfl

/-! ## Whether validation returns does not depend on statuses -/

private def groupUnchecked (g : IType × List RuleMatch) : IType × List RuleMatch := (g.1, g.2.map unchecked)

private theorem push_unchecked (t : IType) (m : RuleMatch) (gs : List (IType × List RuleMatch)) :
    pushGroup t (unchecked m) (gs.map groupUnchecked) = (pushGroup t m gs).map groupUnchecked := by
  induction gs with
  | nil => rfl
  | cons g gs ih =>
    obtain ⟨t', l⟩ := g
    simp only [List.map_cons, groupUnchecked, pushGroup]
    split
    · simp [groupUnchecked]
    · rw [List.map_cons, ← ih]
      rfl

private theorem groupMatches_unchecked (rules : List (Option VType)) (ms : List RuleMatch) (gs : List (IType × List RuleMatch)) :
    groupMatches rules (ms.map unchecked) (gs.map groupUnchecked) =
      match groupMatches rules ms gs with
      | .ok gs' => .ok (gs'.map groupUnchecked)
      | .panic => .panic
      | .hang => .hang := by
  induction ms generalizing gs with
  | nil => rfl
  | cons m ms ih =>
    simp only [List.map_cons, groupMatches]
    rw [show (unchecked m).rule = m.rule from rfl]
    cases rules[m.rule]? with
    | none => rfl
    | some o =>
      cases o with
      | none => exact ih gs
      | some t =>
        show groupMatches rules (ms.map unchecked) (pushGroup t.itype (unchecked m) (gs.map groupUnchecked)) = _
        rw [push_unchecked]
        exact ih _

private theorem group_returns (net : Net) (sch : Sched) (rules : List (Option VType)) (vs : List (IType × Validator)) (t : IType)
    (ms : List RuleMatch) :
    (∃ o, validateGroup net sch rules vs t (ms.map unchecked) = .ok o) ↔ ∃ o, validateGroup net sch rules vs t ms = .ok o := by
  unfold validateGroup
  cases vs.lookup t with
  | none => simp
  | some v =>
    cases v with
    | http cfg =>
      simp only [Validator.validate, httpValidate, http_unchecked, List.length_map]
      split <;> simp_all
    | aws cfg =>
      simp only [Validator.validate, awsValidate, aws_unchecked, pairs_unchecked]
      split <;> simp_all

private theorem groups_returns (net : Net) (sch : Sched) (rules : List (Option VType)) (vs : List (IType × Validator))
    (gs : List (IType × List RuleMatch)) :
    (∃ o, validateGroups net sch rules vs (gs.map groupUnchecked) = .ok o) ↔ ∃ o, validateGroups net sch rules vs gs = .ok o := by
  induction gs with
  | nil => exact Iff.rfl
  | cons g gs ih =>
    obtain ⟨t, ms⟩ := g
    have hg := group_returns net sch rules vs t ms
    have key : ∀ (ms : List RuleMatch) (gs : List (IType × List RuleMatch)),
        (∃ o, validateGroups net sch rules vs ((t, ms) :: gs) = .ok o) ↔
          (∃ o, validateGroup net sch rules vs t ms = .ok o) ∧ ∃ o, validateGroups net sch rules vs gs = .ok o := by
      intro ms gs
      rw [validateGroups_cons]
      cases validateGroup net sch rules vs t ms <;> cases validateGroups net sch rules vs gs <;> simp
    rw [List.map_cons, show groupUnchecked (t, ms) = (t, ms.map unchecked) from rfl, key, key, hg, ih]

/-- C116: a call for matches that were validated returns if and only if it would return had they not been. -/
theorem C116_returns (net : Net) (sch : Sched) (rules : List (Option VType)) (vs : List (IType × Validator)) (ret : Bool)
    (ms : List RuleMatch) :
    (∃ news, validateMatches net sch rules vs ret (ms.map unchecked) = .ok (some news)) ↔
      ∃ outs, validateMatches net sch rules vs ret ms = .ok (some outs) := by
  unfold validateMatches
  cases ret with
  | false => simp
  | true =>
    have hg := groupMatches_unchecked rules ms []
    rw [List.map_nil] at hg
    rw [hg]
    cases groupMatches rules ms [] with
    | panic => simp
    | hang => simp
    | ok gs =>
      have hr := groups_returns net sch rules vs gs
      simp only [Bool.not_true, Bool.false_eq_true, if_false]
      cases h1 : validateGroups net sch rules vs (gs.map groupUnchecked) <;> cases h2 : validateGroups net sch rules vs gs <;>
        simp_all

/-! ## The theorems -/

section
variable {net : Net} {s1 s2 : Sched} {rules : List (Option VType)} {vs : List (IType × Validator)} {ret : Bool}
  {ms news outs : List RuleMatch}

/-- C116, exactly: validating matches gives each one the higher one of the status it has and the status that it would get if it had
never been validated. -/
theorem C116_higher (hf1 : Fair s1) (hf2 : Fair s2) (h1 : validateMatches net s1 rules vs ret (ms.map unchecked) = .ok (some news))
    (h2 : validateMatches net s2 rules vs ret ms = .ok (some outs)) (t : IType) :
    RaisedTo (ms.filter (ofType rules t)) (news.filter (ofType rules t)) (outs.filter (ofType rules t)) := by
  obtain ⟨-, -, h1⟩ := validateMatches_ok net s1 hf1 rules vs ret _ news h1
  obtain ⟨-, -, h2⟩ := validateMatches_ok net s2 hf2 rules vs ret _ outs h2
  obtain ⟨G1, g1, p1⟩ := h1 t
  obtain ⟨G2, g2, p2⟩ := h2 t
  rw [filter_unchecked] at g1
  simp only [typeOf_ofType] at g1 g2 p1 p2
  obtain ⟨each, e1, e2, e3, e4⟩ := raised (group_says hf1 g1) (group_says hf2 g2) (by
    intro i a f s _ hp hq
    simp only [says_unchecked] at hp
    exact higher_of hq hp)
  exact ⟨each, e1, p1.trans e2, p2.trans e3, e4⟩

theorem all_typed (hf : Fair s1) (h : validateMatches net s1 rules vs ret ms = .ok (some outs)) :
    ∀ b ∈ outs, ∃ t, ofType rules t b = true := by
  intro b hb
  obtain ⟨h1, -, -⟩ := validateMatches_ok net s1 hf rules vs ret ms outs h
  have : eraseStatus b ∈ (ms.filter fun m => (typeOf rules m).isSome).map eraseStatus :=
    h1.mem_iff.mp (List.mem_map_of_mem hb)
  obtain ⟨a, ha, e⟩ := List.mem_map.mp this
  have hty : (typeOf rules b).isSome = true := by
    rw [← eraseStatus_type e rules]
    exact (List.mem_filter.mp ha).2
  obtain ⟨t, ht⟩ := Option.isSome_iff_exists.mp hty
  exact ⟨t, by rw [← typeOf_ofType, ht]; simp⟩

theorem perm_of_types {l l' : List RuleMatch} (hl : ∀ b ∈ l, ∃ t, ofType rules t b = true)
    (hl' : ∀ b ∈ l', ∃ t, ofType rules t b = true)
    (h : ∀ t, (l.filter (ofType rules t)).Perm (l'.filter (ofType rules t))) : l.Perm l' := by
  rw [List.perm_iff_count]
  intro b
  by_cases hb : ∃ t, ofType rules t b = true
  · obtain ⟨t, ht⟩ := hb
    have := (h t).count_eq b
    rwa [List.count_filter ht, List.count_filter ht] at this
  · rw [List.count_eq_zero_of_not_mem fun hm => hb (hl b hm), List.count_eq_zero_of_not_mem fun hm => hb (hl' b hm)]

/-- C116 (partial: only if no match has a status above the one it would get if it had never been validated): validating again gives
the matches the statuses of a first validation.  Missing: a higher status stays, whatever the replies are (`C116_refused_later`,
`C116_revoked`). -/
theorem C116_up_to_date_partial (hf1 : Fair s1) (hf2 : Fair s2)
    (h1 : validateMatches net s1 rules vs ret (ms.map unchecked) = .ok (some news))
    (h2 : validateMatches net s2 rules vs ret ms = .ok (some outs))
    (hle : ∀ a ∈ ms, ∀ b ∈ news, fixedPart a = fixedPart b → StatusLe a.status b.status) : outs.Perm news := by
  refine perm_of_types (all_typed hf2 h2) (all_typed hf1 h1) fun t => ?_
  obtain ⟨each, e1, e2, e3, e4⟩ := C116_higher hf1 hf2 h1 h2 t
  refine e3.trans (List.Perm.trans (List.Perm.of_eq ?_) e2.symm)
  refine List.map_congr_left fun x hx => ?_
  have ha : x.1 ∈ ms := by
    have : x.1 ∈ each.map (·.1) := List.mem_map_of_mem hx
    rw [e1] at this
    exact (List.mem_filter.1 this).1
  have hb : ({ x.1 with status := x.2.1 } : RuleMatch) ∈ news :=
    (List.mem_filter.1 (e2.mem_iff.2 (List.mem_map_of_mem (f := fun x => ({ x.1 with status := x.2.1 } : RuleMatch)) hx))).1
  have hle := hle _ ha _ hb rfl
  have : x.2.2 = x.2.1 := by
    rcases (e4 x hx).1 with h | h
    · exact StatusLe.antisymm (h ▸ hle) ((e4 x hx).2 _ (Or.inr rfl))
    · exact h
  rw [this]

end

/-! ## Validating twice with the same answers -/

def valueCheck (net : Net) (cfg : AwsConfig) (id secret : Option Str) : Res MatchStatus :=
  match secret, id with
  | none, _ => Res.ok (.error missingSecret)
  | some _, none => Res.ok (.error missingId)
  | some secret, some id =>
    if net.signable ⟨cfg, id, net.secretOf secret⟩ then
      match net.aws 0 0 ⟨cfg, id, net.secretOf secret⟩ with
      | .response code => Res.ok (awsClassify .notChecked code)
      | .failed e => Res.ok (.error (requestError e))
    else Res.panic

private theorem check_value {net : Net} (hn : Steady net) (cfg : AwsConfig) (ms : List RuleMatch) (i j : Nat) :
    awsCheck net cfg ms (i, j) .notChecked = valueCheck net cfg ((ms[i]?).bind (·.value)) ((ms[j]?).bind (·.value)) := by
  unfold awsCheck valueCheck
  cases (ms[j]?).bind (·.value) with
  | none => rfl
  | some secret =>
    cases (ms[i]?).bind (·.value) with
    | none => rfl
    | some id =>
      simp only [hn.aws i j 0 0]
      rfl

/-- What the checks of a match say, in terms of the matches alone. -/
def SaysOf (net : Net) (rules : List (Option VType)) (vs : List (IType × Validator)) (t : IType) (ms : List RuleMatch)
    (m : RuleMatch) (x : MatchStatus) : Prop :=
  match vs.lookup t with
  | none => False
  | some (.http cfg) => ∃ text, m.value = some text ∧ HttpResult net cfg 0 text x
  | some (.aws cfg) =>
    (IsAwsId rules m ∧ ∃ b ∈ ms, IsAwsSecret rules b ∧ valueCheck net cfg m.value b.value = .ok x) ∨
    (IsAwsSecret rules m ∧ ∃ a ∈ ms, IsAwsId rules a ∧ valueCheck net cfg a.value m.value = .ok x)

private theorem says_of {net : Net} (hn : Steady net) {rules : List (Option VType)} {vs : List (IType × Validator)} {t : IType}
    {ms : List RuleMatch} {i : Nat} {m : RuleMatch} (hm : ms[i]? = some m) (x : MatchStatus) :
    Says net rules vs t ms i m x ↔ SaysOf net rules vs t ms m x := by
  unfold Says SaysOf
  cases vs.lookup t with
  | none => exact Iff.rfl
  | some v =>
    cases v with
    | http cfg =>
      have : ∀ text, HttpResult net cfg i text x ↔ HttpResult net cfg 0 text x := by
        intro text
        unfold HttpResult
        constructor <;> rintro ⟨e, r, h1, h2⟩ <;> refine ⟨e, r, h1, ?_⟩
        · rw [hn.http 0 i]; exact h2
        · rw [hn.http i 0]; exact h2
      simp only [this]
    | aws cfg =>
      simp only [check_value hn, hm, Option.bind_some]
      refine or_congr ?_ ?_
      · constructor
        · rintro ⟨j, ⟨a, b, ha, hb, h1, h2⟩, h3⟩
          rw [hm] at ha
          cases ha
          rw [hb] at h3
          exact ⟨h1, b, List.mem_of_getElem? hb, h2, h3⟩
        · rintro ⟨h1, b, hb, h2, h3⟩
          obtain ⟨j, hj⟩ := List.mem_iff_getElem?.1 hb
          exact ⟨j, ⟨m, b, hm, hj, h1, h2⟩, by rw [hj]; exact h3⟩
      · constructor
        · rintro ⟨j, ⟨a, b, ha, hb, h1, h2⟩, h3⟩
          rw [hm] at hb
          cases hb
          rw [ha] at h3
          exact ⟨h2, a, List.mem_of_getElem? ha, h1, h3⟩
        · rintro ⟨h2, a, ha, h1, h3⟩
          obtain ⟨j, hj⟩ := List.mem_iff_getElem?.1 ha
          exact ⟨j, ⟨a, m, hj, hm, h1, h2⟩, by rw [hj]; exact h3⟩

theorem group_steady {net : Net} (hn : Steady net) {sch : Sched} (hf : Fair sch) {rules : List (Option VType)}
    {vs : List (IType × Validator)} {t : IType} {ms outs : List RuleMatch} (h : validateGroup net sch rules vs t ms = .ok outs) :
    Updated (fun _ m s => Highest (fun x => x = m.status ∨ SaysOf net rules vs t ms m x) s) ms outs := by
  have hu := group_says hf h
  refine ⟨hu.len, fun i a b ha hb => ?_⟩
  obtain ⟨h1, h2⟩ := hu.each i a b ha hb
  simp only [says_of hn ha] at h2
  exact ⟨h1, h2⟩

private theorem saysOf_mono {net : Net} {rules : List (Option VType)} {vs : List (IType × Validator)} {t : IType}
    {ms ms' : List RuleMatch} {m m' : RuleMatch} (h : ∀ a ∈ ms, ∃ a' ∈ ms', a.rule = a'.rule ∧ a.value = a'.value)
    (hr : m.rule = m'.rule) (hv : m.value = m'.value) {x : MatchStatus} (hx : SaysOf net rules vs t ms m x) :
    SaysOf net rules vs t ms' m' x := by
  unfold SaysOf at hx ⊢
  cases hl : vs.lookup t with
  | none => rw [hl] at hx; cases hx
  | some v =>
    rw [hl] at hx
    cases v with
    | http cfg =>
      simp only at hx ⊢
      rw [← hv]
      exact hx
    | aws cfg =>
      simp only [IsAwsId, IsAwsSecret] at hx ⊢
      rw [← hr, ← hv]
      rcases hx with ⟨h1, b, hb, h2, h3⟩ | ⟨h1, b, hb, h2, h3⟩ <;> obtain ⟨b', hb', e1, e2⟩ := h b hb
      · exact Or.inl ⟨h1, b', hb', e1 ▸ h2, e2 ▸ h3⟩
      · exact Or.inr ⟨h1, b', hb', e1 ▸ h2, e2 ▸ h3⟩

/-- C116: if equal requests get equal replies, validating the validated matches once more changes nothing. -/
theorem C116_steady {net : Net} (hn : Steady net) {s1 s2 : Sched} (hf1 : Fair s1) (hf2 : Fair s2) {rules : List (Option VType)}
    {vs : List (IType × Validator)} {ret : Bool} {ms outs again : List RuleMatch}
    (h1 : validateMatches net s1 rules vs ret ms = .ok (some outs))
    (h2 : validateMatches net s2 rules vs ret outs = .ok (some again)) : again.Perm outs := by
  refine perm_of_types (all_typed hf2 h2) (all_typed hf1 h1) fun t => ?_
  obtain ⟨-, -, h1⟩ := validateMatches_ok net s1 hf1 rules vs ret _ outs h1
  obtain ⟨-, -, h2⟩ := validateMatches_ok net s2 hf2 rules vs ret _ again h2
  obtain ⟨G1, g1, p1⟩ := h1 t
  obtain ⟨G2, g2, p2⟩ := h2 t
  simp only [typeOf_ofType] at g1 g2 p1 p2
  have u1 := group_says hf1 g1
  have u2 := group_says hf2 g2
  refine p2.trans (List.Perm.of_eq (List.ext_getElem? fun i => ?_))
  by_cases hi : i < (outs.filter (ofType rules t)).length
  · have hi2 : i < G2.length := by rw [u2.len]; exact hi
    have ha := List.getElem?_eq_getElem hi
    obtain ⟨hsb, hh⟩ := u2.each i _ _ ha (List.getElem?_eq_getElem hi2)
    rw [ha, List.getElem?_eq_getElem hi2]
    -- the match in the first call
    have hmem := p1.mem_iff.1 (List.getElem_mem hi)
    obtain ⟨k, hk, hbk⟩ := List.getElem_of_mem hmem
    have hk0 : k < (ms.filter (ofType rules t)).length := by rw [← u1.len]; exact hk
    have hc := List.getElem?_eq_getElem hk0
    obtain ⟨hsb1, hh1⟩ := u1.each k _ _ hc (List.getElem?_eq_getElem hk)
    rw [hbk] at hsb1 hh1
    have hst : G2[i].status = ((outs.filter (ofType rules t))[i]).status := by
      rcases hh.1 with h | h
      · exact h
      · refine StatusLe.antisymm (hh1.2 _ (Or.inr ?_)) (hh.2 _ (Or.inl rfl))
        rw [says_of hn hc]
        refine saysOf_mono ?_ ?_ ?_ ((says_of hn ha _).1 h)
        · intro a hao
          obtain ⟨k', hk', rfl⟩ := List.getElem_of_mem (p1.mem_iff.1 hao)
          have hk0' : k' < (ms.filter (ofType rules t)).length := by rw [← u1.len]; exact hk'
          have := with_status (u1.each k' _ _ (List.getElem?_eq_getElem hk0') (List.getElem?_eq_getElem hk')).1
          exact ⟨_, List.getElem_mem hk0', by rw [this], by rw [this]⟩
        · rw [with_status hsb1]
        · rw [with_status hsb1]
    rw [with_status hsb, hst]
  · rw [List.getElem?_eq_none (by rw [u2.len]; exact Nat.le_of_not_lt hi), List.getElem?_eq_none (Nat.le_of_not_lt hi)]

/-! ## Witnesses -/

/-- Nothing can be reached. -/
private def downNet : Net := { someNet with http := fun _ _ => .failed "timeout".toList }

private def oneRule : List (Option VType) := [some (.http (webCfg ['x']))]
private def oneVs : List (IType × Validator) := [(.http [['u']], .http (webCfg ['x']))]

/-- Finding (C116): if the endpoint could not be reached in a first validation, and refuses the secret in a second one, the match
still has the status of the failure. -/
theorem C116_refused_later : ∃ (before now : Net) (sch : Sched) (rules : List (Option VType)) (vs : List (IType × Validator))
    (m out new : RuleMatch), Fair sch ∧ buildValidators rules [] false = some (vs, true) ∧ m.status = .notChecked ∧
    validateMatches before sch rules vs true [m] = .ok (some [out]) ∧
    validateMatches now sch rules vs true [out] = .ok (some [out]) ∧
    validateMatches now sch rules vs true [m] = .ok (some [new]) ∧
    out.status = .error "Error making HTTP request: timeout".toList ∧ new.status = .invalid :=
  ⟨downNet, someNet, inOrder, oneRule, oneVs, aMatch 0 0 ['a'] .notChecked,
    aMatch 0 0 ['a'] (.error "Error making HTTP request: timeout".toList), aMatch 0 0 ['a'] .invalid, inOrder_fair, by decide, rfl,
    by decide +kernel, by decide +kernel, by decide +kernel, rfl, rfl⟩

/-- Accepts every secret. -/
private def openNet : Net := { someNet with http := fun _ _ => .response 200 }

/-- Finding (C116): a match that was found valid stays valid when the endpoint refuses the secret afterwards. -/
theorem C116_revoked : ∃ (before now : Net) (sch : Sched) (rules : List (Option VType)) (vs : List (IType × Validator))
    (m out new : RuleMatch), Fair sch ∧ buildValidators rules [] false = some (vs, true) ∧ m.status = .notChecked ∧
    validateMatches before sch rules vs true [m] = .ok (some [out]) ∧
    validateMatches now sch rules vs true [out] = .ok (some [out]) ∧
    validateMatches now sch rules vs true [m] = .ok (some [new]) ∧ out.status = .valid ∧ new.status = .invalid :=
  ⟨openNet, someNet, inOrder, oneRule, oneVs, aMatch 0 0 ['a'] .notChecked, aMatch 0 0 ['a'] .valid, aMatch 0 0 ['a'] .invalid,
    inOrder_fair, by decide, rfl, by decide +kernel, by decide +kernel, by decide +kernel, rfl, rfl⟩

/-- The hypotheses of `C116_higher` and `C116_up_to_date_partial` are met: a match that could not be checked is accepted now. -/
example : Fair inOrder ∧ Fair backwards ∧
    validateMatches openNet inOrder oneRule oneVs true ([aMatch 0 0 ['a'] (.error ['e']), aMatch 0 4 ['b'] .invalid].map unchecked) =
      .ok (some [aMatch 0 0 ['a'] .valid, aMatch 0 4 ['b'] .valid]) ∧
    validateMatches openNet backwards oneRule oneVs true [aMatch 0 0 ['a'] (.error ['e']), aMatch 0 4 ['b'] .invalid] =
      .ok (some [aMatch 0 0 ['a'] .valid, aMatch 0 4 ['b'] .valid]) ∧
    ∀ a ∈ [aMatch 0 0 ['a'] (.error ['e']), aMatch 0 4 ['b'] .invalid],
      ∀ b ∈ [aMatch 0 0 ['a'] .valid, aMatch 0 4 ['b'] .valid], fixedPart a = fixedPart b → StatusLe a.status b.status := by
  refine ⟨inOrder_fair, backwards_fair, by decide +kernel, by decide +kernel, ?_⟩
  intro a _ b hb _
  have : b.status = .valid := by
    simp only [List.mem_cons, List.not_mem_nil, or_false] at hb
    rcases hb with rfl | rfl <;> rfl
  rw [this]
  exact .valid _

/-- The hypotheses of `C116_steady` are met, with an id and a secret. -/
example : Steady someNet ∧ Fair inOrder ∧ Fair backwards ∧
    validateMatches someNet inOrder awsRules [(.aws, .aws awsCfg)] true
      [aMatch 1 3 someKey .notChecked, aMatch 0 0 ['i'] .notChecked, aMatch 0 1 ['j'] .notChecked] =
      .ok (some [aMatch 0 0 ['i'] .valid, aMatch 0 1 ['j'] .invalid, aMatch 1 3 someKey .valid]) ∧
    validateMatches someNet backwards awsRules [(.aws, .aws awsCfg)] true
      [aMatch 0 0 ['i'] .valid, aMatch 0 1 ['j'] .invalid, aMatch 1 3 someKey .valid] =
      .ok (some [aMatch 0 0 ['i'] .valid, aMatch 0 1 ['j'] .invalid, aMatch 1 3 someKey .valid]) :=
  ⟨⟨fun _ _ _ => rfl, fun _ _ _ _ _ => rfl⟩, inOrder_fair, backwards_fair, by decide +kernel, by decide +kernel⟩

end Sds.Props
