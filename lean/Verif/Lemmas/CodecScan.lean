import Verif.Lemmas.CodecApply

/-! Lemmas about scanning a Go event. -/

namespace Sds
open Spec

/-! ## Storage -/

theorem insertNew_perm {p : Path} {v : Bool × Str} : ∀ {st : Storage}, p ∉ st.map (·.1) →
    (Storage.insertNew st p v).Perm ((p, v) :: st)
  | [], _ => by simp [Storage.insertNew]
  | (q, w) :: rest, h => by
    simp only [List.map_cons, List.mem_cons, not_or] at h
    rw [Storage.insertNew, if_neg h.1]
    split
    · exact List.Perm.refl _
    · exact ((insertNew_perm h.2).cons _).trans (List.Perm.swap _ _ _)

def entryOf (pm : PathMatches) : Path × (Bool × Str) := (pm.path, (false, pm.content))

theorem storage_foldl : ∀ (pms : List PathMatches) (st : Storage), (st.map (·.1) ++ pms.map (·.path)).Nodup →
    (pms.foldl (fun st pm => Storage.insertNew st pm.path (false, pm.content)) st).Perm (st ++ pms.map entryOf)
  | [], st, _ => by simp
  | pm :: pms, st, h => by
    have hp : pm.path ∉ st.map (·.1) := by
      intro hm
      rw [List.nodup_append] at h
      exact h.2.2 _ hm _ (by simp) rfl
    have hperm := insertNew_perm (v := (false, pm.content)) hp
    rw [List.foldl_cons]
    refine (storage_foldl pms _ ?_).trans ?_
    · have h1 : ((Storage.insertNew st pm.path (false, pm.content)).map (·.1) ++ pms.map (·.path)).Perm
          (st.map (·.1) ++ (pm :: pms).map (·.path)) := by
        refine ((hperm.map _).append_right _).trans ?_
        simp only [List.map_cons, List.cons_append]
        exact List.perm_middle.symm
      exact h1.nodup_iff.2 h
    · refine (hperm.append_right _).trans ?_
      simp only [List.map_cons, List.cons_append]
      exact List.perm_middle.symm

theorem storageOf_perm {pms : List PathMatches} (h : (pms.map (·.path)).Nodup) :
    (storageOf pms).Perm (pms.map entryOf) := by
  have := storage_foldl pms [] (by simpa using h)
  simpa [storageOf] using this

theorem storage_get {p : Path} {v : Bool × Str} : ∀ {st : Storage}, (st.map (·.1)).Nodup → (p, v) ∈ st →
    st.get p = some v
  | [], _, h => by cases h
  | (q, w) :: rest, hn, h => by
    simp only [List.map_cons, List.nodup_cons] at hn
    rw [Storage.get]
    rcases List.mem_cons.1 h with h | h
    · injection h with h1 h2
      rw [if_pos h1, h2]
    · have : p ≠ q := fun e => hn.1 (e ▸ List.mem_map_of_mem (f := (·.1)) h)
      rw [if_neg this]
      exact storage_get hn.2 h

theorem storage_set_keys {p : Path} {v : Bool × Str} : ∀ st : Storage, (st.set p v).map (·.1) = st.map (·.1)
  | [] => rfl
  | (q, w) :: rest => by
    rw [Storage.set]
    split
    · rfl
    · simp [storage_set_keys rest]

theorem mem_storage_set {p : Path} {v : Bool × Str} {x : Path × (Bool × Str)} : ∀ {st : Storage},
    (st.map (·.1)).Nodup → p ∈ st.map (·.1) → (x ∈ st.set p v ↔ x = (p, v) ∨ (x.1 ≠ p ∧ x ∈ st))
  | [], _, h => by cases h
  | (q, w) :: rest, hn, h => by
    simp only [List.map_cons, List.nodup_cons] at hn
    rw [Storage.set]
    by_cases e : p = q
    · subst e
      rw [if_pos rfl]
      simp only [List.mem_cons]
      constructor
      · rintro (rfl | hx)
        · exact Or.inl rfl
        · exact Or.inr ⟨fun e => hn.1 (e ▸ List.mem_map_of_mem (f := (·.1)) hx), Or.inr hx⟩
      · rintro (rfl | ⟨h1, rfl | hx⟩)
        · exact Or.inl rfl
        · exact absurd rfl h1
        · exact Or.inr hx
    · rw [if_neg e]
      have hp : p ∈ rest.map (·.1) := by
        simpa [e] using h
      simp only [List.mem_cons, mem_storage_set hn.2 hp]
      constructor
      · rintro (rfl | rfl | hx)
        · exact Or.inr ⟨fun h => e h.symm, Or.inl rfl⟩
        · exact Or.inl rfl
        · exact Or.inr ⟨hx.1, Or.inr hx.2⟩
      · rintro (rfl | ⟨h1, rfl | hx⟩)
        · exact Or.inr (Or.inl rfl)
        · exact Or.inl rfl
        · exact Or.inr (Or.inr ⟨h1, hx⟩)

/-! ## The flag -/

theorem applyLoop_rules {fp : Fingerprint} {enc : Enc} {rm : Bool} {rules : List RuleInfo} {path : Path} {orig : Str} :
    ∀ (ms : List M) (s : ApplyState) (os : List RuleMatch) (s' : ApplyState),
    applyLoop fp enc rm rules path orig ms s = Res.ok (os, s') → os.map (·.rule) = ms.map (·.rule)
  | [], s, os, s', h => by
    have : (([] : List RuleMatch), s) = (os, s') := Res.ok.inj h
    simp only [Prod.mk.injEq] at this
    rw [← this.1]
    rfl
  | m :: ms, s, os, s', h => by
    rw [applyLoop] at h
    cases h1 : applyOne fp enc rm rules path orig m s with
    | panic => rw [h1] at h; cases h
    | hang => rw [h1] at h; cases h
    | ok x =>
      obtain ⟨o, s1⟩ := x
      rw [h1, Res.bind_ok] at h
      dsimp only at h
      cases h2 : applyLoop fp enc rm rules path orig ms s1 with
      | panic => rw [h2] at h; cases h
      | hang => rw [h2] at h; cases h
      | ok y =>
        obtain ⟨os1, s2⟩ := y
        rw [h2, Res.bind_ok] at h
        have : (o :: os1, s2) = (os, s') := Res.ok.inj h
        simp only [Prod.mk.injEq] at this
        rw [← this.1, List.map_cons, List.map_cons, applyLoop_rules ms s1 os1 s2 h2]
        congr 1
        -- the report carries the rule of the match
        unfold applyOne at h1
        cases hr : rules[m.rule]? with
        | none => rw [hr] at h1; cases h1
        | some rule =>
          rw [hr, Res.ofOption_some, Res.bind_ok] at h1
          cases ha : toUsize (enc.idx orig m.st + s.cdelta) with
          | panic => rw [ha] at h1; cases h1
          | hang => rw [ha] at h1; cases h1
          | ok cstart =>
            rw [ha, Res.bind_ok] at h1
            cases hb : matchValue rm m s with
            | panic => rw [hb] at h1; cases h1
            | hang => rw [hb] at h1; cases h1
            | ok value =>
              rw [hb, Res.bind_ok] at h1
              cases hc : applyMutation fp enc rule.action m s with
              | panic => rw [hc] at h1; cases h1
              | hang => rw [hc] at h1; cases h1
              | ok s3 =>
                rw [hc, Res.bind_ok] at h1
                cases hd : toUsize (enc.idx orig m.en + s3.cdelta) with
                | panic => rw [hd] at h1; cases h1
                | hang => rw [hd] at h1; cases h1
                | ok cend =>
                  rw [hd, Res.bind_ok] at h1
                  have := Res.ok.inj h1
                  simp only [Prod.mk.injEq] at this
                  rw [← this.1]

theorem any_of_map {α β γ : Type} {f : α → γ} {g : β → γ} {l : List α} {l' : List β} (p : γ → Bool)
    (h : l.map f = l'.map g) : l.any (fun x => p (f x)) = l'.any (fun x => p (g x)) := by
  have h1 : l.any (fun x => p (f x)) = (l.map f).any p := by rw [List.any_map]; rfl
  have h2 : l'.any (fun x => p (g x)) = (l'.map g).any p := by rw [List.any_map]; rfl
  rw [h1, h2, h]

theorem editLeafB_ok {sc : Scanner} {ex : List Str} {pm : PathMatches} {c new : Str} {os : List RuleMatch}
    (h : editLeaf sc Enc.utf8 ex pm c = Res.ok (new, os)) :
    editLeafB sc ex pm c = Res.ok (os.any (fun o => sc.redacts o.rule), new, os) := by
  unfold editLeafB
  have h' := h
  unfold editLeaf at h'
  cases hr : (if sc.multipassEnabled = true then retainMatches sc ex c pm.ms else Res.ok pm.ms) with
  | panic => rw [hr] at h'; cases h'
  | hang => rw [hr] at h'; cases h'
  | ok ms =>
    rw [hr] at h'
    dsimp only at h' ⊢
    rw [h]
    dsimp only
    cases hl : applyLoop sc.fp Enc.utf8 sc.returnMatches (sc.rules.map (·.info)) pm.path pm.content
        (resolve sc.redacts ms) ⟨c, 0, 0⟩ with
    | panic => rw [hl] at h'; cases h'
    | hang => rw [hl] at h'; cases h'
    | ok x =>
      obtain ⟨os', s⟩ := x
      rw [hl] at h'
      have : (s.content, os') = (new, os) := Res.ok.inj h'
      simp only [Prod.mk.injEq] at this
      have hrules := applyLoop_rules _ _ _ _ hl
      rw [this.2] at hrules
      rw [any_of_map sc.redacts hrules]

/-! ## Editing the storage -/

theorem editAllB_spec {sc : Scanner} {ex : List Str} (res : PathMatches → Str × List RuleMatch) :
    ∀ (pms : List PathMatches) (st : Storage), (pms.map (·.path)).Nodup → (st.map (·.1)).Nodup →
    (∀ pm ∈ pms, entryOf pm ∈ st) → (∀ pm ∈ pms, editLeaf sc Enc.utf8 ex pm pm.content = Res.ok (res pm)) →
    ∃ st', editAllB sc ex pms st = Res.ok (st', pms.flatMap fun pm => (res pm).2) ∧
      st'.map (·.1) = st.map (·.1) ∧
      ∀ x, x ∈ st' ↔ (∃ pm ∈ pms, x = (pm.path, ((res pm).2.any (fun o => sc.redacts o.rule), (res pm).1))) ∨
        (x.1 ∉ pms.map (·.path) ∧ x ∈ st)
  | [], st, _, _, _, _ => ⟨st, rfl, rfl, fun x => by simp⟩
  | pm :: pms, st, hp, hs, hm, hr => by
    simp only [List.map_cons, List.nodup_cons] at hp
    have hin := hm pm List.mem_cons_self
    have hkey : pm.path ∈ st.map (·.1) := List.mem_map_of_mem (f := (·.1)) hin
    have hedit := editLeafB_ok (hr pm List.mem_cons_self)
    have hset := fun x => mem_storage_set (v := ((res pm).2.any (fun o => sc.redacts o.rule), (res pm).1)) (x := x) hs hkey
    obtain ⟨st', h1, h2, h3⟩ := editAllB_spec res pms
      (st.set pm.path ((res pm).2.any (fun o => sc.redacts o.rule), (res pm).1)) hp.2
      (by rw [storage_set_keys]; exact hs)
      (fun q hq => (hset _).2 (Or.inr ⟨fun e => hp.1 (by
        have : q.path = pm.path := e
        rw [← this]; exact List.mem_map_of_mem hq), hm q (List.mem_cons_of_mem _ hq)⟩))
      (fun q hq => hr q (List.mem_cons_of_mem _ hq))
    refine ⟨st', ?_, by rw [h2, storage_set_keys], fun x => ?_⟩
    · rw [editAllB, storage_get hs hin]
      dsimp only
      rw [hedit]
      dsimp only
      rw [h1]
      rfl
    · rw [h3, hset]
      simp only [List.map_cons, List.mem_cons, not_or]
      constructor
      · rintro (⟨q, hq, rfl⟩ | ⟨hx, rfl | ⟨h4, h5⟩⟩)
        · exact Or.inl ⟨q, Or.inr hq, rfl⟩
        · exact Or.inl ⟨pm, Or.inl rfl, rfl⟩
        · exact Or.inr ⟨⟨h4, hx⟩, h5⟩
      · rintro (⟨q, rfl | hq, rfl⟩ | ⟨⟨h4, hx⟩, h5⟩)
        · exact Or.inr ⟨hp.1, Or.inl rfl⟩
        · exact Or.inl ⟨q, hq, rfl⟩
        · exact Or.inr ⟨hx, Or.inr ⟨h4, h5⟩⟩

/-! ## The scan -/

theorem mem_mutations {st : Storage} {p : Path} {s : Str} : (p, s) ∈ mutations st ↔ (p, (true, s)) ∈ st := by
  unfold mutations
  rw [List.mem_filterMap]
  constructor
  · rintro ⟨⟨q, fl, t⟩, h1, h2⟩
    cases fl with
    | false => simp at h2
    | true =>
      simp only [if_true, Option.some.injEq, Prod.mk.injEq] at h2
      rw [← h2.1, ← h2.2]
      exact h1
  · intro h
    exact ⟨_, h, by simp⟩

theorem mutations_keys (st : Storage) : ((mutations st).map (·.1)).Sublist (st.map (·.1)) := by
  induction st with
  | nil => exact List.Sublist.refl _
  | cons x st ih =>
    obtain ⟨p, c⟩ := x
    rw [mutations_cons]
    cases c.1 with
    | false => simpa using ih.cons p
    | true => simpa using ih.cons_cons p

theorem scanBinary_spec {sc : Scanner} (hok : ScannerOk sc) {v : GoVal} (hk : GoKeyed v) (hs : GoSized v)
    (hu : KeysUtf8 v) (htot : Returns sc (v.toEv.leaves false)) :
    ∃ (bytes : Bytes) (out : Leaf → List RuleMatch × Str) (st : Storage), v.encode = some bytes ∧
      scanBinary sc bytes = Res.ok (st, (v.toEv.leaves false).flatMap fun l => (out l).1) ∧
      (∀ l ∈ v.toEv.leaves false, LeafOut jsonEvent sc [] (v.toEv.leaves false) l (out l).1 (out l).2) ∧
      (st.map (·.1)).Nodup ∧
      ∀ p s, (p, s) ∈ mutations st ↔ ∃ l ∈ v.toEv.leaves false, p = l.path ∧
        (out l).1.any (fun o => sc.redacts o.rule) = true ∧ s = (out l).2 := by
  obtain ⟨bytes, henc, hops⟩ := v.read_ops hs
  have hwf := v.wellKeyed hk hu
  generalize he : v.toEv = e at *
  have hE := jsonEvent_lawful
  obtain ⟨rules, excl, hp, hv⟩ := Props.visits_spec (sc.rules.map (·.scope)) sc.wildcards
  have hvis := hv _ _ (hE.visits e hwf)
  rw [List.map_map] at hvis
  obtain ⟨ms, ins, hms, hins, hrun⟩ := runVisits_spec hok [] (e.leaves false) htot
    (fun l => ⟨l.path, l.text, rules l.path, excl l.path⟩)
    (fun l => ⟨rfl, rfl, (hp l.path).2.1, (hp l.path).2.2⟩)
  have hout : ∀ l, ∃ x : List RuleMatch × Str, l ∈ e.leaves false →
      LeafOut jsonEvent sc [] (e.leaves false) l x.1 x.2 ∧
      editLeaf sc Enc.utf8 ins ⟨l.path, l.text, sortBy startLe (ms l)⟩ l.text = Res.ok (x.2, x.1) := by
    intro l
    by_cases hl : l ∈ e.leaves false
    · obtain ⟨os, new, h, h'⟩ := editLeaf_spec hE.enc hok [] (e.leaves false) hins l (ms l) (hms l hl)
      exact ⟨(os, new), fun _ => ⟨h, h'⟩⟩
    · exact ⟨([], []), fun h => absurd h hl⟩
  obtain ⟨out, hout⟩ : ∃ out : Leaf → List RuleMatch × Str, ∀ l ∈ e.leaves false,
      LeafOut jsonEvent sc [] (e.leaves false) l (out l).1 (out l).2 ∧
      editLeaf sc Enc.utf8 ins ⟨l.path, l.text, sortBy startLe (ms l)⟩ l.text = Res.ok ((out l).2, (out l).1) :=
    ⟨fun l => (hout l).choose, fun l => (hout l).choose_spec⟩
  have hnil : ∀ l ∈ e.leaves false, (ms l).isEmpty = true → (out l).1 = [] := by
    intro l hl0 hl
    refine (leafOut_unique hok (fun _ => Iff.rfl) (hout l hl0).1 (leafOut_nil (fun m hm => ?_))).1
    have := (hms l hl0 m).2 hm
    rw [List.isEmpty_iff.1 hl] at this
    cases this
  have hnd := hE.nodup e hwf
  let todo := (e.leaves false).filter fun l => !(ms l).isEmpty
  let pmOf : Leaf → PathMatches := fun l => ⟨l.path, l.text, sortBy startLe (ms l)⟩
  have hsub : todo.Sublist (e.leaves false) := List.filter_sublist
  have hpaths : ((todo.map pmOf).map (·.path)).Nodup := by
    rw [List.map_map]
    exact (hsub.map _).nodup hnd
  have hperm := storageOf_perm hpaths
  have hkeys : ((storageOf (todo.map pmOf)).map (·.1)).Nodup := by
    refine (hperm.map _).nodup_iff.2 ?_
    rw [List.map_map]
    exact hpaths
  -- a result for every collected string
  have hres : ∀ pm, ∃ x : Str × List RuleMatch, pm ∈ todo.map pmOf →
      editLeaf sc Enc.utf8 ins pm pm.content = Res.ok x := by
    intro pm
    by_cases h : pm ∈ todo.map pmOf
    · obtain ⟨l, hl, rfl⟩ := List.mem_map.1 h
      exact ⟨_, fun _ => (hout l (hsub.mem hl)).2⟩
    · exact ⟨([], []), fun h' => absurd h' h⟩
  obtain ⟨res, hres⟩ : ∃ res : PathMatches → Str × List RuleMatch, ∀ pm ∈ todo.map pmOf,
      editLeaf sc Enc.utf8 ins pm pm.content = Res.ok (res pm) :=
    ⟨fun pm => (hres pm).choose, fun pm => (hres pm).choose_spec⟩
  have hresl : ∀ l ∈ todo, res (pmOf l) = ((out l).2, (out l).1) := by
    intro l hl
    have h1 := hres (pmOf l) (List.mem_map_of_mem hl)
    have h2 := (hout l (hsub.mem hl)).2
    exact Res.ok.inj (h1.symm.trans h2)
  obtain ⟨st, h1, h2, h3⟩ := editAllB_spec res (todo.map pmOf) (storageOf (todo.map pmOf)) hpaths hkeys
    (fun pm hpm => hperm.mem_iff.2 (List.mem_map_of_mem hpm)) hres
  refine ⟨bytes, out, st, henc, ?_, fun l hl => (hout l hl).1, by rw [h2]; exact hkeys, fun p s => ?_⟩
  · unfold scanBinary
    have hj : jsonEvent.ops e = e.jsonOps := rfl
    rw [hops]
    dsimp only
    rw [hj] at hvis
    rw [hvis]
    dsimp only
    have hr := hrun []
    simp only [List.nil_append] at hr
    have hfun : ((fun x : Path × Str => (⟨x.1, x.2, rules x.1, excl x.1⟩ : Visit)) ∘ fun l : Leaf => (l.path, l.text)) =
        fun l : Leaf => (⟨l.path, l.text, rules l.path, excl l.path⟩ : Visit) := rfl
    rw [hfun, hr]
    dsimp only
    have h1' := h1
    simp only [todo, pmOf] at h1'
    rw [h1']
    simp only [Res.ok.injEq, Prod.mk.injEq, true_and]
    rw [flatMap_filter_nil (out := fun l => (out l).1) (p := fun l => !(ms l).isEmpty)]
    · rw [List.flatMap_map]
      exact flatMap_congr' (fun l hl => by
        have := hresl l hl
        simp only [pmOf] at this
        rw [this])
    · intro l hl hm
      exact hnil l hl (by simpa using hm)
  · rw [mem_mutations, h3]
    constructor
    · rintro (⟨pm, hpm, he⟩ | ⟨hx, hin⟩)
      · obtain ⟨l, hl, rfl⟩ := List.mem_map.1 hpm
        rw [hresl l hl] at he
        simp only [Prod.mk.injEq] at he
        exact ⟨l, hsub.mem hl, he.1, he.2.1.symm, he.2.2⟩
      · obtain ⟨pm, hpm, he⟩ := List.mem_map.1 (hperm.mem_iff.1 hin)
        simp only [entryOf, Prod.mk.injEq, Bool.false_eq_true, false_and, and_false] at he
    · rintro ⟨l, hl, rfl, hany, rfl⟩
      have hl' : l ∈ todo := by
        refine List.mem_filter.2 ⟨hl, ?_⟩
        cases hm : (ms l).isEmpty with
        | false => rfl
        | true =>
          rw [hnil l hl hm] at hany
          cases hany
      exact Or.inl ⟨pmOf l, List.mem_map_of_mem hl', by rw [hresl l hl', hany]⟩

end Sds
