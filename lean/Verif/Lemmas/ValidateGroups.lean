import Verif.Lemmas.Validate

namespace Sds

open Spec

/-! ## AWS outcomes -/

theorem awsCheck_cases (net : Net) (cfg : AwsConfig) (rules : List (Option VType)) (ms : List RuleMatch) (i j : Nat)
    (hs : Signable net cfg rules ms) (hp : AwsPair rules ms i j) :
    ∃ s, awsCheck net cfg ms (i, j) .notChecked = .ok s ∧ (s = .notChecked ∨ AwsResult net cfg ms i j s) ∧
      ∀ x, AwsResult net cfg ms i j x → x = s := by
  obtain ⟨a, b, ha, hb, -, -⟩ := id hp
  have ea : ∀ {a'}, ms[i]? = some a' → a' = a := fun h => by rw [ha] at h; exact (Option.some.inj h).symm
  have eb : ∀ {b'}, ms[j]? = some b' → b' = b := fun h => by rw [hb] at h; exact (Option.some.inj h).symm
  unfold awsCheck
  simp only [ha, hb, Option.bind_some]
  cases hbv : b.value with
  | none =>
    refine ⟨_, rfl, Or.inr (.noSecret b hb hbv), ?_⟩
    intro x hx
    cases hx with
    | accepted h =>
      obtain ⟨a', b', _, _, _, _, h2, _, h4, _⟩ := h
      rw [eb h2, hbv] at h4; cases h4
    | noSecret => rfl
    | noId a' b' _ _ h2 h3 _ => rw [eb h2, hbv] at h3; cases h3
    | refused a' b' _ _ _ _ h2 _ h4 => rw [eb h2, hbv] at h4; cases h4
    | server a' b' _ _ _ _ h2 _ h4 => rw [eb h2, hbv] at h4; cases h4
    | failed a' b' _ _ _ _ h2 _ h4 => rw [eb h2, hbv] at h4; cases h4
  | some secret =>
    cases hav : a.value with
    | none =>
      refine ⟨_, rfl, Or.inr (.noId a b secret ha hb hbv hav), ?_⟩
      intro x hx
      cases hx with
      | accepted h =>
        obtain ⟨a', b', _, _, _, h1, h2, h3, h4, _⟩ := h
        rw [ea h1, hav] at h3; cases h3
      | noSecret b' h1 h2 => rw [eb h1, hbv] at h2; cases h2
      | noId => rfl
      | refused a' b' _ _ _ h1 h2 h3 => rw [ea h1, hav] at h3; cases h3
      | server a' b' _ _ _ h1 h2 h3 => rw [ea h1, hav] at h3; cases h3
      | failed a' b' _ _ _ h1 h2 h3 => rw [ea h1, hav] at h3; cases h3
    | some id =>
      simp only [hs i j a b id secret hp ha hb hav hbv, if_true]
      have ei : ∀ {a' id'}, ms[i]? = some a' → a'.value = some id' → id' = id := fun h h' => by
        rw [ea h, hav] at h'; exact (Option.some.inj h').symm
      have es : ∀ {b' s'}, ms[j]? = some b' → b'.value = some s' → s' = secret := fun h h' => by
        rw [eb h, hbv] at h'; exact (Option.some.inj h').symm
      cases hr : net.aws i j ⟨cfg, id, net.secretOf secret⟩ with
      | failed e =>
        refine ⟨_, rfl, Or.inr (.failed a b id secret e ha hb hav hbv hr), ?_⟩
        intro x hx
        cases hx with
        | accepted h =>
          obtain ⟨a', b', _, _, _, h1, h2, h3, h4, h5, _⟩ := h
          rw [ei h1 h3, es h2 h4, hr] at h5; cases h5
        | noSecret b' h1 h2 => rw [eb h1, hbv] at h2; cases h2
        | noId a' b' _ h1 _ _ h2 => rw [ea h1, hav] at h2; cases h2
        | refused a' b' _ _ _ h1 h2 h3 h4 h5 => rw [ei h1 h3, es h2 h4, hr] at h5; cases h5
        | server a' b' _ _ _ h1 h2 h3 h4 h5 => rw [ei h1 h3, es h2 h4, hr] at h5; cases h5
        | failed a' b' _ _ _ h1 h2 h3 h4 h5 => rw [ei h1 h3, es h2 h4, hr] at h5; cases h5; rfl
      | response code =>
        have hm : unexpectedCode code = "Unexpected HTTP status code ".toList ++ (toString code).toList := by
          unfold unexpectedCode
          exact congrArg (fun x => "Unexpected HTTP status code ".toList ++ x) (toString_toList code).symm
        refine ⟨_, rfl, ?_, ?_⟩
        · unfold awsClassify
          split
          · rename_i h
            simp at h
            exact Or.inr (.accepted ⟨a, b, id, secret, code, ha, hb, hav, hbv, hr, h.1, h.2⟩)
          · split
            · rename_i h
              simp at h
              exact Or.inr (.refused a b id secret code ha hb hav hbv hr h.1 h.2)
            · split
              · rename_i h
                simp at h
                rw [hm]
                exact Or.inr (.server a b id secret code ha hb hav hbv hr h.1 h.2)
              · exact Or.inl rfl
        · intro x hx
          unfold awsClassify
          cases hx with
          | accepted h =>
            obtain ⟨a', b', _, _, _, h1, h2, h3, h4, h5, h6, h7⟩ := h
            rw [ei h1 h3, es h2 h4, hr] at h5; cases h5
            simp [h6, h7]
          | noSecret b' h1 h2 => rw [eb h1, hbv] at h2; cases h2
          | noId a' b' _ h1 _ _ h2 => rw [ea h1, hav] at h2; cases h2
          | refused a' b' _ _ _ h1 h2 h3 h4 h5 h6 h7 =>
            rw [ei h1 h3, es h2 h4, hr] at h5; cases h5
            rw [if_neg (by simp; omega), if_pos (by simp; omega)]
          | server a' b' _ _ _ h1 h2 h3 h4 h5 h6 h7 =>
            rw [ei h1 h3, es h2 h4, hr] at h5; cases h5
            rw [if_neg (by simp; omega), if_neg (by simp; omega), if_pos (by simp; omega), hm]
          | failed a' b' _ _ _ h1 h2 h3 h4 h5 => rw [ei h1 h3, es h2 h4, hr] at h5; cases h5

theorem awsFinal_results {net : Net} {cfg : AwsConfig} {rules : List (Option VType)} {ms : List RuleMatch} {i : Nat}
    {m : RuleMatch} {s : MatchStatus} (hs : Signable net cfg rules ms) (h : AwsFinal net cfg rules ms i m s) :
    Highest (fun x => x = m.status ∨ (∃ j, AwsPair rules ms i j ∧ AwsResult net cfg ms i j x) ∨
      (∃ j, AwsPair rules ms j i ∧ AwsResult net cfg ms j i x)) s := by
  obtain ⟨h1, h2⟩ := h
  have low : s = .notChecked → m.status = .notChecked := by
    rintro rfl
    exact (h2 _ (Or.inl rfl)).antisymm (.notChecked _)
  refine ⟨?_, ?_⟩
  · rcases h1 with h1 | ⟨j, hj, h1⟩ | ⟨j, hj, h1⟩
    · exact Or.inl h1
    · obtain ⟨x, hx, hx', -⟩ := awsCheck_cases net cfg rules ms i j hs hj
      rw [hx] at h1; cases h1
      rcases hx' with rfl | hx'
      · exact Or.inl (low rfl).symm
      · exact Or.inr (Or.inl ⟨j, hj, hx'⟩)
    · obtain ⟨x, hx, hx', -⟩ := awsCheck_cases net cfg rules ms j i hs hj
      rw [hx] at h1; cases h1
      rcases hx' with rfl | hx'
      · exact Or.inl (low rfl).symm
      · exact Or.inr (Or.inr ⟨j, hj, hx'⟩)
  · rintro x (rfl | ⟨j, hj, hx⟩ | ⟨j, hj, hx⟩)
    · exact h2 _ (Or.inl rfl)
    · obtain ⟨y, hy, -, hu⟩ := awsCheck_cases net cfg rules ms i j hs hj
      rw [hu x hx]
      exact h2 _ (Or.inr (Or.inl ⟨j, hj, hy⟩))
    · obtain ⟨y, hy, -, hu⟩ := awsCheck_cases net cfg rules ms j i hs hj
      rw [hu x hx]
      exact h2 _ (Or.inr (Or.inr ⟨j, hj, hy⟩))

/-! ## Groups -/

/-- The validator key of the rule of a match. -/
def typeOf (rules : List (Option VType)) (m : RuleMatch) : Option IType := (vtypeOf rules m).map VType.itype

def groupOf (gs : List (IType × List RuleMatch)) (t : IType) : List RuleMatch := (gs.lookup t).getD []

theorem pushGroup_keys (t : IType) (m : RuleMatch) (gs : List (IType × List RuleMatch)) :
    (pushGroup t m gs).map (·.1) = if t ∈ gs.map (·.1) then gs.map (·.1) else gs.map (·.1) ++ [t] := by
  induction gs with
  | nil => simp [pushGroup]
  | cons g gs ih =>
    obtain ⟨t', ms⟩ := g
    by_cases h : t' = t
    · simp [pushGroup, h]
    · have h' : ¬ t = t' := fun e => h e.symm
      by_cases hm : t ∈ gs.map (·.1)
      · simp only [pushGroup, h, if_false, List.map_cons, ih, hm, if_true, List.mem_cons, or_true]
      · simp only [pushGroup, h, if_false, List.map_cons, ih, hm, List.mem_cons, or_false, h', List.cons_append]

theorem pushGroup_group (t t' : IType) (m : RuleMatch) (gs : List (IType × List RuleMatch)) :
    groupOf (pushGroup t m gs) t' = if t = t' then groupOf gs t' ++ [m] else groupOf gs t' := by
  induction gs with
  | nil =>
    by_cases h : t = t'
    · simp [pushGroup, groupOf, List.lookup, h]
    · have : (t' == t) = false := by simp; exact fun e => h e.symm
      simp [pushGroup, groupOf, List.lookup, h, this]
  | cons g gs ih =>
    obtain ⟨u, ms⟩ := g
    unfold groupOf at ih ⊢
    by_cases h : u = t
    · subst h
      simp only [pushGroup, if_true, List.lookup_cons]
      by_cases h' : u = t'
      · subst h'; simp
      · have : (t' == u) = false := by simp; exact fun e => h' e.symm
        simp [this, h']
    · simp only [pushGroup, h, if_false, List.lookup_cons]
      by_cases h' : t' = u
      · have ht : ¬ t = t' := fun e => h (h' ▸ e.symm)
        simp [h']
        intro e
        exact absurd e.symm h
      · have : (t' == u) = false := by simp [h']
        simp only [this]
        exact ih

theorem groupMatches_ok (rules : List (Option VType)) (ms : List RuleMatch) (gs gs' : List (IType × List RuleMatch))
    (h : groupMatches rules ms gs = .ok gs') (hn : (gs.map (·.1)).Nodup) :
    (gs'.map (·.1)).Nodup ∧ (∀ t, groupOf gs' t = groupOf gs t ++ ms.filter fun m => typeOf rules m == some t) ∧
      (∀ t, t ∈ gs'.map (·.1) ↔ t ∈ gs.map (·.1) ∨ ∃ m ∈ ms, typeOf rules m = some t) ∧
      ∀ m ∈ ms, rules[m.rule]? ≠ none := by
  induction ms generalizing gs with
  | nil =>
    simp only [groupMatches] at h
    cases h
    simp [hn]
  | cons m ms ih =>
    rw [groupMatches] at h
    split at h
    · cases h
    · rename_i hr
      have ht : typeOf rules m = none := by simp [typeOf, vtypeOf, hr]
      obtain ⟨h1, h2, h3, h4⟩ := ih gs h hn
      refine ⟨h1, fun t => ?_, fun t => ?_, ?_⟩
      · rw [h2]; simp [ht]
      · rw [h3]; simp [ht]
      · intro m' hm'
        rcases List.mem_cons.mp hm' with rfl | hm'
        · simp [hr]
        · exact h4 m' hm'
    · rename_i vt hr
      have ht : typeOf rules m = some vt.itype := by simp [typeOf, vtypeOf, hr]
      have hn' : ((pushGroup vt.itype m gs).map (·.1)).Nodup := by
        rw [pushGroup_keys]
        split
        · exact hn
        · rename_i hx
          rw [List.nodup_append]
          refine ⟨hn, by simp, ?_⟩
          intro a ha b hb e
          simp only [List.mem_singleton] at hb
          subst e; subst hb
          exact hx ha
      obtain ⟨h1, h2, h3, h4⟩ := ih _ h hn'
      refine ⟨h1, fun t => ?_, fun t => ?_, ?_⟩
      · rw [h2, pushGroup_group]
        by_cases e : vt.itype = t
        · simp [ht, e]
        · simp [ht, e]
      · rw [h3, pushGroup_keys]
        simp only [List.mem_cons, exists_eq_or_imp, ht, Option.some.injEq]
        split
        · rename_i hx
          constructor
          · rintro (h | h)
            · exact Or.inl h
            · exact Or.inr (Or.inr h)
          · rintro (h | h | h)
            · exact Or.inl h
            · exact Or.inl (h ▸ hx)
            · exact Or.inr h
        · simp only [List.mem_append, List.mem_singleton]
          constructor
          · rintro ((h | h) | h)
            · exact Or.inl h
            · exact Or.inr (Or.inl h.symm)
            · exact Or.inr (Or.inr h)
          · rintro (h | h | h)
            · exact Or.inl (Or.inl h)
            · exact Or.inl (Or.inr h.symm)
            · exact Or.inr h
      · intro m' hm'
        rcases List.mem_cons.mp hm' with rfl | hm'
        · simp [hr]
        · exact h4 m' hm'

theorem groupMatches_ne_hang (rules : List (Option VType)) (ms : List RuleMatch) (gs : List (IType × List RuleMatch)) :
    groupMatches rules ms gs ≠ .hang := by
  induction ms generalizing gs with
  | nil => simp [groupMatches]
  | cons m ms ih =>
    rw [groupMatches]
    split
    · simp
    · exact ih _
    · exact ih _

theorem groupMatches_total (rules : List (Option VType)) (ms : List RuleMatch) (gs : List (IType × List RuleMatch))
    (h : ∀ m ∈ ms, m.rule < rules.length) : ∃ gs', groupMatches rules ms gs = .ok gs' := by
  induction ms generalizing gs with
  | nil => exact ⟨gs, rfl⟩
  | cons m ms ih =>
    rw [groupMatches, List.getElem?_eq_getElem (h m (by simp))]
    cases rules[m.rule]'(h m (by simp)) with
    | none => exact ih _ (fun m' hm' => h m' (by simp [hm']))
    | some t => exact ih _ (fun m' hm' => h m' (by simp [hm']))

/-- What happens to the group of a key. -/
def validateGroup (net : Net) (sch : Sched) (rules : List (Option VType)) (vs : List (IType × Validator)) (t : IType)
    (ms : List RuleMatch) : Res (List RuleMatch) :=
  match vs.lookup t with
  | some v => v.validate net sch rules ms
  | none => .ok ms

theorem validateGroups_cons (net : Net) (sch : Sched) (rules : List (Option VType)) (vs : List (IType × Validator))
    (t : IType) (ms : List RuleMatch) (rest : List (IType × List RuleMatch)) :
    validateGroups net sch rules vs ((t, ms) :: rest) =
      match validateGroup net sch rules vs t ms with
      | .panic => .panic
      | .hang => .hang
      | .ok ms' =>
        match validateGroups net sch rules vs rest with
        | .panic => .panic
        | .hang => .hang
        | .ok rest' => .ok ((t, ms') :: rest') := rfl

theorem validateGroups_ok (net : Net) (sch : Sched) (rules : List (Option VType)) (vs : List (IType × Validator))
    (gs gs' : List (IType × List RuleMatch)) (h : validateGroups net sch rules vs gs = .ok gs') :
    gs'.map (·.1) = gs.map (·.1) ∧
      ∀ t ∈ gs.map (·.1), validateGroup net sch rules vs t (groupOf gs t) = .ok (groupOf gs' t) := by
  induction gs generalizing gs' with
  | nil =>
    simp only [validateGroups] at h
    cases h
    simp
  | cons g gs ih =>
    obtain ⟨t, ms⟩ := g
    rw [validateGroups_cons] at h
    cases h1 : validateGroup net sch rules vs t ms with
    | panic => rw [h1] at h; cases h
    | hang => rw [h1] at h; cases h
    | ok ms' =>
      rw [h1] at h
      cases h2 : validateGroups net sch rules vs gs with
      | panic => rw [h2] at h; cases h
      | hang => rw [h2] at h; cases h
      | ok rest' =>
        rw [h2] at h
        cases h
        obtain ⟨e1, e2⟩ := ih rest' h2
        refine ⟨by simp [e1], ?_⟩
        intro t' ht'
        by_cases e : t' = t
        · subst e
          simp [groupOf, h1]
        · have e' : (t' == t) = false := by simp [e]
          have := e2 t' (by
            rcases List.mem_cons.mp (by simpa using ht' : t' ∈ t :: gs.map (·.1)) with h | h
            · exact absurd h e
            · exact h)
          simpa [groupOf, List.lookup_cons, e'] using this

theorem validateGroup_sched (net : Net) (s1 s2 : Sched) (h1 : Fair s1) (h2 : Fair s2) (rules : List (Option VType))
    (vs : List (IType × Validator)) (t : IType) (ms : List RuleMatch) :
    validateGroup net s1 rules vs t ms = validateGroup net s2 rules vs t ms := by
  unfold validateGroup
  cases vs.lookup t with
  | none => rfl
  | some v => exact validate_sched net s1 s2 h1 h2 rules ms v

theorem validateGroups_sched (net : Net) (s1 s2 : Sched) (h1 : Fair s1) (h2 : Fair s2) (rules : List (Option VType))
    (vs : List (IType × Validator)) (gs : List (IType × List RuleMatch)) :
    validateGroups net s1 rules vs gs = validateGroups net s2 rules vs gs := by
  induction gs with
  | nil => rfl
  | cons g gs ih =>
    obtain ⟨t, ms⟩ := g
    rw [validateGroups_cons, validateGroups_cons, ih, validateGroup_sched net s1 s2 h1 h2]

theorem validateGroup_updated (net : Net) (sch : Sched) (hf : Fair sch) (rules : List (Option VType))
    (vs : List (IType × Validator)) (t : IType) (ms outs : List RuleMatch)
    (h : validateGroup net sch rules vs t ms = .ok outs) : Updated (fun _ m s => StatusLe m.status s) ms outs := by
  unfold validateGroup at h
  cases hv : vs.lookup t with
  | none =>
    rw [hv] at h
    cases h
    refine ⟨rfl, fun i a b ha hb => ?_⟩
    rw [ha] at hb
    cases hb
    exact ⟨rfl, .refl _⟩
  | some v =>
    rw [hv] at h
    exact validate_updated net sch hf rules ms outs v h

theorem eraseStatus_type {a b : RuleMatch} (h : eraseStatus a = eraseStatus b) (rules : List (Option VType)) :
    typeOf rules a = typeOf rules b := by
  simp [eraseStatus] at h
  simp [typeOf, vtypeOf, h]

theorem perm_flatMap_insert {α β : Type} [DecidableEq α] (keys : List α) (hn : keys.Nodup) (t : α) (ht : t ∈ keys) (x : β)
    (f g : α → List β) (h1 : g t = x :: f t) (h2 : ∀ u, u ≠ t → g u = f u) :
    (keys.flatMap g).Perm (x :: keys.flatMap f) := by
  induction keys with
  | nil => simp at ht
  | cons k keys ih =>
    simp only [List.nodup_cons] at hn
    simp only [List.flatMap_cons]
    by_cases e : k = t
    · subst e
      have : keys.flatMap g = keys.flatMap f := by
        rw [List.flatMap_def, List.flatMap_def,
          List.map_congr_left (fun u hu => h2 u (fun e => hn.1 (e ▸ hu)))]
      rw [h1, this]
      simp
    · rw [h2 k e]
      have := ih hn.2 (by
        rcases List.mem_cons.mp ht with h | h
        · exact absurd h.symm e
        · exact h)
      exact (this.append_left (f k)).trans List.perm_middle

theorem perm_groups (rules : List (Option VType)) (keys : List IType) (hn : keys.Nodup) (ms : List RuleMatch)
    (hk : ∀ m ∈ ms, ∀ t, typeOf rules m = some t → t ∈ keys) :
    (keys.flatMap fun t => ms.filter fun m => typeOf rules m == some t).Perm
      (ms.filter fun m => (typeOf rules m).isSome) := by
  induction ms with
  | nil => simp
  | cons m ms ih =>
    have ih := ih (fun m' hm' => hk m' (by simp [hm']))
    cases ht : typeOf rules m with
    | none => simpa [ht] using ih
    | some t =>
      have := perm_flatMap_insert keys hn t (hk m (by simp) t ht) m
        (fun t => ms.filter fun m => typeOf rules m == some t)
        (fun t => (m :: ms).filter fun m => typeOf rules m == some t)
        (by simp [ht]) (fun u hu => by
          have : ¬ t = u := fun e => hu e.symm
          simp [ht, this])
      refine this.trans ?_
      simpa [ht] using ih


theorem lookup_some_mem {α β : Type} [BEq α] [LawfulBEq α] {l : List (α × β)} {a : α} {b : β} (h : l.lookup a = some b) :
    a ∈ l.map (·.1) := by
  induction l with
  | nil => simp at h
  | cons x l ih =>
    obtain ⟨k, v⟩ := x
    rw [List.lookup_cons] at h
    cases hk : a == k with
    | true => simp [eq_of_beq hk]
    | false =>
      rw [hk] at h
      simp [ih h]

theorem filter_flatMap_keys (rules : List (Option VType)) (keys : List IType) (hn : keys.Nodup) (t : IType)
    (g : IType → List RuleMatch) (hg : ∀ u ∈ keys, ∀ m ∈ g u, typeOf rules m = some u) :
    (keys.flatMap g).filter (fun m => typeOf rules m == some t) = if t ∈ keys then g t else [] := by
  induction keys with
  | nil => simp
  | cons k keys ih =>
    simp only [List.nodup_cons] at hn
    rw [List.flatMap_cons, List.filter_append, ih hn.2 (fun u hu => hg u (by simp [hu]))]
    have hk := hg k (by simp)
    by_cases e : t = k
    · subst e
      rw [List.filter_eq_self.mpr (fun m hm => by simp [hk m hm])]
      simp [hn.1]
    · rw [List.filter_eq_nil_iff.mpr (fun m hm => by
        rw [hk m hm]
        simp
        exact fun e' => e e'.symm)]
      simp [e]

theorem validateGroup_nil (net : Net) (sch : Sched) (hf : Fair sch) (rules : List (Option VType))
    (vs : List (IType × Validator)) (t : IType) : validateGroup net sch rules vs t [] = .ok [] := by
  unfold validateGroup
  cases vs.lookup t with
  | none => rfl
  | some v =>
    cases v with
    | aws cfg =>
      have h1 := (hf.awsRun []).eq_nil
      have h2 := (hf.awsMerge []).eq_nil
      simp [Validator.validate, awsValidate, awsPairs, awsIds, h1, h2, runChecks, awsMergeLoop]
    | http cfg =>
      have h1 := (hf.httpRun []).eq_nil
      have h2 := (hf.httpMerge []).eq_nil
      simp [Validator.validate, httpValidate, httpKeys, h1, h2, runChecks, httpMergeLoop]

theorem flatMap_map_congr {α β γ : Type} (l : List α) (f g : α → List β) (h : β → γ)
    (hfg : ∀ a ∈ l, (f a).map h = (g a).map h) : (l.flatMap f).map h = (l.flatMap g).map h := by
  induction l with
  | nil => rfl
  | cons a l ih =>
    simp only [List.flatMap_cons, List.map_append]
    rw [hfg a (by simp), ih (fun b hb => hfg b (by simp [hb]))]

/-- What `validate_matches` returns. -/
theorem validateMatches_ok (net : Net) (sch : Sched) (hf : Fair sch) (rules : List (Option VType))
    (vs : List (IType × Validator)) (ret : Bool) (ms outs : List RuleMatch)
    (h : validateMatches net sch rules vs ret ms = .ok (some outs)) :
    (outs.map eraseStatus).Perm ((ms.filter fun m => (typeOf rules m).isSome).map eraseStatus) ∧
      outs.Pairwise (fun a b => a.start ≤ b.start) ∧
      ∀ t, ∃ G, validateGroup net sch rules vs t (ms.filter fun m => typeOf rules m == some t) = .ok G ∧
        (outs.filter fun m => typeOf rules m == some t).Perm G := by
  unfold validateMatches at h
  cases ret with
  | false => simp at h
  | true =>
    simp only [Bool.not_true, Bool.false_eq_true, if_false] at h
    cases hg : groupMatches rules ms [] with
    | panic => rw [hg] at h; cases h
    | hang => rw [hg] at h; cases h
    | ok gs =>
      rw [hg] at h
      dsimp only at h
      cases hv : validateGroups net sch rules vs gs with
      | panic => rw [hv] at h; cases h
      | hang => rw [hv] at h; cases h
      | ok gs' =>
        rw [hv] at h
        simp only [Res.ok.injEq, Option.some.injEq] at h
        obtain ⟨n1, g1, k1, -⟩ := groupMatches_ok rules ms [] gs hg (by simp)
        obtain ⟨e1, e2⟩ := validateGroups_ok net sch rules vs gs gs' hv
        have g1' : ∀ t, groupOf gs t = ms.filter fun m => typeOf rules m == some t := fun t => by
          rw [g1]; simp [groupOf]
        have k1' : ∀ t, t ∈ gs.map (·.1) ↔ ∃ m ∈ ms, typeOf rules m = some t := fun t => by
          rw [k1]; simp
        have hperm : outs.Perm ((gs.map (·.1)).flatMap (groupOf gs')) := by
          rw [← h]
          refine (sortBy_perm _ _).trans ?_
          have := (hf.groups (gs'.map (·.1))).flatMap_right (groupOf gs')
          rw [e1] at this ⊢
          exact this
        have hup : ∀ t ∈ gs.map (·.1), Updated (fun _ m s => StatusLe m.status s)
            (ms.filter fun m => typeOf rules m == some t) (groupOf gs' t) := fun t ht => by
          have := e2 t ht
          rw [g1'] at this
          exact validateGroup_updated net sch hf rules vs t _ _ this
        have htype : ∀ t ∈ gs.map (·.1), ∀ m ∈ groupOf gs' t, typeOf rules m = some t := fun t ht m hm => by
          have he := (hup t ht).erase
          have : eraseStatus m ∈ (groupOf gs' t).map eraseStatus := List.mem_map_of_mem hm
          rw [he] at this
          obtain ⟨m', hm', e⟩ := List.mem_map.mp this
          rw [eraseStatus_type e.symm rules]
          simpa using (List.mem_filter.mp hm').2
        refine ⟨?_, ?_, ?_⟩
        · refine (hperm.map eraseStatus).trans ?_
          rw [flatMap_map_congr (gs.map (·.1)) (groupOf gs')
            (fun t => ms.filter fun m => typeOf rules m == some t) eraseStatus (fun t ht => (hup t ht).erase)]
          exact (perm_groups rules _ n1 ms (fun m hm t ht => (k1' t).mpr ⟨m, hm, ht⟩)).map eraseStatus
        · rw [← h]
          have := sortBy_pairwise (le := startIndexLe) (fun a b c h1 h2 => by simp [startIndexLe] at *; omega)
            (fun a b => by simp [startIndexLe]; omega)
            ((sch.groups (gs'.map (·.1))).flatMap fun t => (gs'.lookup t).getD [])
          exact this.imp (fun h => by simpa [startIndexLe] using h)
        · intro t
          by_cases ht : t ∈ gs.map (·.1)
          · refine ⟨groupOf gs' t, ?_, ?_⟩
            · rw [← g1']; exact e2 t ht
            · have := hperm.filter (fun m => typeOf rules m == some t)
              rw [filter_flatMap_keys rules _ n1 t _ htype, if_pos ht] at this
              exact this
          · refine ⟨[], ?_, ?_⟩
            · rw [List.filter_eq_nil_iff.mpr (fun m hm hh => ht ((k1' t).mpr ⟨m, hm, by simpa using hh⟩))]
              exact validateGroup_nil net sch hf rules vs t
            · have := hperm.filter (fun m => typeOf rules m == some t)
              rw [filter_flatMap_keys rules _ n1 t _ htype, if_neg ht] at this
              exact this

theorem httpValidate_final (net : Net) (sch : Sched) (hf : Fair sch) (cfg : HttpConfig) (ms outs : List RuleMatch)
    (h : httpValidate net sch cfg ms = .ok outs) : Updated (HttpFinal net cfg) ms outs := by
  by_cases hv : ∀ m ∈ ms, m.value ≠ none
  · obtain ⟨o, e, u⟩ := httpValidate_ok net sch hf cfg ms hv
    rw [e] at h
    cases h
    exact u
  · by_cases he : cfg.endpoints = []
    · rw [httpValidate_none net sch hf cfg he] at h
      cases h
      refine ⟨rfl, fun i a b ha hb => ?_⟩
      rw [ha] at hb
      cases hb
      refine ⟨rfl, Or.inl rfl, ?_⟩
      rintro x (rfl | ⟨text, -, hx⟩)
      · exact .refl _
      · obtain ⟨e, he', -⟩ := (httpResult_iff net cfg i text x).mp hx
        rw [he] at he'
        simp at he'
    · have : ∃ m ∈ ms, m.value = none := by
        simpa using hv
      rw [httpValidate_panic net sch hf cfg he ms this] at h
      cases h

theorem signable_no_panic (net : Net) (cfg : AwsConfig) (rules : List (Option VType)) (ms : List RuleMatch) :
    Signable net cfg rules ms ↔ ∀ i j, AwsPair rules ms i j → awsCheck net cfg ms (i, j) .notChecked ≠ .panic := by
  constructor
  · intro hs i j hp h
    obtain ⟨s, e, -⟩ := awsCheck_cases net cfg rules ms i j hs hp
    rw [e] at h
    cases h
  · intro h i j a b id secret hp ha hb hav hbv
    have := h i j hp
    unfold awsCheck at this
    simp only [ha, hb, Option.bind_some, hav, hbv] at this
    cases hh : net.signable ⟨cfg, id, net.secretOf secret⟩ with
    | true => rfl
    | false =>
      rw [hh] at this
      simp at this

theorem awsValidate_final (net : Net) (sch : Sched) (hf : Fair sch) (cfg : AwsConfig) (rules : List (Option VType))
    (ms outs : List RuleMatch) (h : awsValidate net sch cfg rules ms = .ok outs) :
    Signable net cfg rules ms ∧ Updated (AwsFinal net cfg rules ms) ms outs := by
  have hs : Signable net cfg rules ms := by
    rw [signable_no_panic]
    intro i j hp hc
    rw [awsValidate_panic net sch hf cfg rules ms i j hp hc] at h
    cases h
  obtain ⟨o, e, u⟩ := awsValidate_ok net sch hf cfg rules ms ((signable_no_panic net cfg rules ms).mp hs)
  rw [e] at h
  cases h
  exact ⟨hs, u⟩

/-! ## The validator map -/

/-- The first rule with which a validator for `t` is made. -/
def firstFor (rules : List (Option VType)) (t : IType) : Option VType :=
  (rules.filterMap id).find? fun vt => vt.canCreate && decide (vt.itype = t)

theorem validator_isSome (vt : VType) : vt.validator.isSome = vt.canCreate := by cases vt <;> rfl

theorem lookup_append' {α β : Type} [BEq α] (l l' : List (α × β)) (a : α) :
    (l ++ l').lookup a = (l.lookup a).or (l'.lookup a) := by
  induction l with
  | nil => simp
  | cons x l ih =>
    obtain ⟨k, v⟩ := x
    simp only [List.cons_append, List.lookup_cons, ih]
    cases a == k <;> simp

theorem buildValidators_spec (rules : List (Option VType)) (acc : List (IType × Validator)) (ret : Bool)
    (hr : acc ≠ [] → ret = true) :
    ∃ vs, buildValidators rules acc ret = some (vs, ret || rules.any (fun o => o.any VType.canCreate)) ∧
      ∀ t, vs.lookup t = (acc.lookup t).or ((firstFor rules t).bind VType.validator) := by
  induction rules generalizing acc ret with
  | nil => exact ⟨acc, by simp [buildValidators], fun t => by simp [firstFor]⟩
  | cons o rules ih =>
    cases o with
    | none =>
      obtain ⟨vs, h1, h2⟩ := ih acc ret hr
      exact ⟨vs, by simp [buildValidators, h1], fun t => by rw [h2]; simp [firstFor]⟩
    | some vt =>
      rw [buildValidators]
      cases hc : vt.canCreate with
      | false =>
        obtain ⟨vs, h1, h2⟩ := ih acc ret hr
        refine ⟨vs, by simp [h1, hc], fun t => by rw [h2]; simp [firstFor, hc]⟩
      | true =>
        have hv := validator_isSome vt
        rw [hc] at hv
        obtain ⟨v, hv⟩ := Option.isSome_iff_exists.mp hv
        simp only [hv, if_true]
        cases hl : acc.lookup vt.itype with
        | some w =>
          have hret : ret = true := hr (by rintro rfl; simp at hl)
          subst hret
          obtain ⟨vs, h1, h2⟩ := ih acc true hr
          refine ⟨vs, by simpa using h1, fun t => ?_⟩
          rw [h2]
          by_cases e : vt.itype = t
          · subst e; simp [hl]
          · simp [firstFor, hc, e]
        | none =>
          obtain ⟨vs, h1, h2⟩ := ih (acc ++ [(vt.itype, v)]) true (fun _ => rfl)
          refine ⟨vs, by simp [h1, hc], fun t => ?_⟩
          rw [h2, lookup_append']
          by_cases e : vt.itype = t
          · subst e; simp [hl, firstFor, hc, hv]
          · have e' : (t == vt.itype) = false := by simp; exact fun h => e h.symm
            simp [firstFor, hc, e, e', List.lookup_cons]

end Sds
