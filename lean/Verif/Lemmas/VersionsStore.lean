import Verif.Lemmas.Versions

/-! # The store itself does not notice that versions wrap around -/

namespace Sds

variable {V : Type} {F : Str → (Str → Option V) → Prop} {zero : Bool}

theorem slotRemove32_some {slots : List (Nat × Option Nat)} {k : Key} {r : Nat} (h : slots[k.1]? = some (k.2, some r)) :
    slotRemove32 slots k = slots.set k.1 ((k.2 + 1) % slotVersions, none) := by
  unfold slotRemove32
  rw [slotGet_iff.mpr h]

/-- What holds however often slots were reused. -/
structure StoreInv32 (w : World V) : Prop where
  wf : StoreWf w.store.index w.store.slots w.regs
  held : ∀ (i : Nat) (p : Str) (h : Handle), w.threads[i]? = some (Pc.holds p h) → Registered w.store.index w.store.slots p h

theorem get_some32 {w : World V} {alive : Nat → Bool} {p : Str} {h : Handle} (hg : w.store.get alive p = some h) :
    Registered w.store.index w.store.slots p h := by
  unfold RegexStore.get at hg
  split at hg
  · cases hg
  · rename_i k hl
    split at hg
    · cases hg
    · rename_i r hr
      split at hg
      · cases hg
        exact ⟨mem_of_lookup hl, slotGet_iff.mp hr⟩
      · cases hg

theorem get_of_holds32 {w : World V} (hi : StoreInv32 w) {i : Nat} {p : Str} {h : Handle}
    (ht : w.threads[i]? = some (.holds p h)) : w.store.get w.alive p = some h :=
  get_of_registered hi.wf (hi.held i p h ht) (alive_of_holds ht)

theorem gcEntry32_spec {st : RegexStore} {regs : List (Str × V)} (hw : StoreWf st.index st.slots regs)
    (alive : Nat → Bool) (q : Str) :
    ∃ st', st.gcEntry32 alive q = .ok st' ∧
      (st' = st ∨
       (∃ k, (q, k) ∈ st.index ∧ st.get alive q = none ∧
        st' = { st with index := st.index.filter (fun e => e.1 != q),
                        slots := st.slots.set k.1 ((k.2 + 1) % slotVersions, none) })) := by
  unfold RegexStore.gcEntry32 RegexStore.get
  cases hl : st.index.lookup q with
  | none => exact ⟨st, rfl, .inl rfl⟩
  | some k =>
    have hm := mem_of_lookup hl
    obtain ⟨r, x, hs, _⟩ := hw.slot q k hm
    dsimp only
    rw [slotGet_iff.mpr hs]
    dsimp only
    cases ha : alive r with
    | true => exact ⟨st, by simp, .inl rfl⟩
    | false =>
      refine ⟨_, by simp; rfl, .inr ⟨k, hm, by simp, ?_⟩⟩
      rw [slotRemove32_some hs]

theorem insertNew32_spec {st st' : RegexStore} {regs : List (Str × V)} (hw : StoreWf st.index st.slots regs)
    {alive : Nat → Bool} {p : Str} {slot : Nat} {h : Handle} (hf : st.Free slot)
    (he : st.insertNew32 alive p regs.length slot = (st', h, true)) (val : V) :
    StoreWf st'.index st'.slots (regs ++ [(p, val)]) ∧ Registered st'.index st'.slots p h ∧ st.get alive p = none ∧
    (∀ q hd, q ≠ p → Registered st.index st.slots q hd → Registered st'.index st'.slots q hd) := by
  obtain ⟨v, hk, hnew, hold, hvac⟩ := slotInsert_spec (r := regs.length) hf
  unfold RegexStore.insertNew32 at he
  split at he
  · cases he
  rename_i hg
  rw [hk] at he
  dsimp only at he
  have h1 := (Prod.mk.inj he).1
  have h2 := (Prod.mk.inj (Prod.mk.inj he).2).1
  subst h1 h2
  clear he
  dsimp only
  cases hl : st.index.lookup p with
  | none =>
    dsimp only
    have hp : p ∉ st.index.map (·.1) := by
      intro hm
      obtain ⟨⟨q, k⟩, hq, e⟩ := List.mem_map.mp hm
      have := lookup_of_mem hw.patterns hq
      rw [show q = p from e] at this
      rw [this] at hl
      cases hl
    have hfilter : st.index.filter (fun e => e.1 != p) = st.index := by
      rw [List.filter_eq_self]
      intro e he
      simpa using fun x : e.1 = p => hp (x ▸ List.mem_map_of_mem he)
    rw [hfilter]
    exact ⟨hw.add hp hvac hnew hold, ⟨List.mem_cons_self, hnew⟩, hg, fun q hd _ hr => hr.add hvac hold⟩
  | some old =>
    dsimp only
    have hm := mem_of_lookup hl
    obtain ⟨r, x, hs, _⟩ := hw.slot p old hm
    have hne : old.1 ≠ slot := by
      intro e
      rw [e] at hs
      rcases hvac with hv | hv <;> rw [hv] at hs <;> cases hs
    rw [slotRemove32_some (r := r) (by rw [hold _ hne]; exact hs)]
    have hp : p ∉ (st.index.filter (fun e => e.1 != p)).map (·.1) := by
      intro hx
      obtain ⟨e, he, rfl⟩ := List.mem_map.mp hx
      simpa using (List.mem_filter.mp he).2
    generalize (old.2 + 1) % slotVersions = ver
    have hvac' : (st.slots.set old.1 (ver, none))[slot]? = some (v, none) ∨ (st.slots.set old.1 (ver, none))[slot]? = none := by
      rw [List.getElem?_set_ne hne]; exact hvac
    have hnew' : ((slotInsert st.slots slot regs.length).1.set old.1 (ver, none))[slot]? = some (v, some regs.length) := by
      rw [List.getElem?_set_ne hne]; exact hnew
    have hold' : ∀ s, s ≠ slot → ((slotInsert st.slots slot regs.length).1.set old.1 (ver, none))[s]? =
        (st.slots.set old.1 (ver, none))[s]? := by
      intro s hss
      by_cases e : old.1 = s
      · subst e
        rw [List.getElem?_set_self (List.getElem?_eq_some_iff.mp hs).1,
          List.getElem?_set_self (List.getElem?_eq_some_iff.mp ((hold _ hne).trans hs)).1]
      · rw [List.getElem?_set_ne e, List.getElem?_set_ne e]
        exact hold s hss
    exact ⟨(hw.remove hm).add hp hvac' hnew' hold', ⟨List.mem_cons_self, hnew'⟩, hg,
      fun q hd hq hr => (Registered.remove hw hm hr hq).add hvac' hold'⟩

/-- Changing one thread to something that owns no regex. -/
theorem StoreInv32.thread {w w' : World V} (hi : StoreInv32 w) {i : Nat} {pc : Pc V} (hpc : ∀ p h, pc ≠ .holds p h)
    (ht : w'.threads = w.threads.set i pc) (hix : w'.store.index = w.store.index) (hsl : w'.store.slots = w.store.slots)
    (hrg : w'.regs = w.regs) : StoreInv32 w' := by
  refine ⟨by rw [hix, hsl, hrg]; exact hi.wf, ?_⟩
  intro j p h hj
  rw [ht] at hj
  rw [hix, hsl]
  rcases getElem?_set_cases hj with ⟨_, e⟩ | ⟨_, e⟩
  · exact absurd e.symm (hpc p h)
  · exact hi.held j p h e

/-- A thread becomes the owner of a registered regex. -/
theorem StoreInv32.own {w w' : World V} (hi : StoreInv32 w) {i : Nat} {p : Str} {h : Handle}
    (hr : Registered w.store.index w.store.slots p h) (ht : w'.threads = w.threads.set i (.holds p h))
    (hst : w'.store = w.store) (hrg : w'.regs = w.regs) : StoreInv32 w' := by
  refine ⟨by rw [hst, hrg]; exact hi.wf, ?_⟩
  intro j q h' hj
  rw [ht] at hj
  rw [hst]
  rcases getElem?_set_cases hj with ⟨_, e⟩ | ⟨_, e⟩
  · cases e; exact hr
  · exact hi.held j q h' e

theorem storeInv32_same {w w' : World V} (hi : StoreInv32 w) (hs : StoreStep F w w') (hsl : w'.store.slots = w.store.slots) :
    StoreInv32 w' := by
  cases hs with
  | spawn p f hf =>
    refine ⟨hi.wf, ?_⟩
    intro j q h hj
    rcases getElem?_append_one hj with e | ⟨_, e⟩
    · exact hi.held j q h e
    · cases e
  | found i p f h ht hl hg => exact hi.own (get_some32 hg) rfl rfl rfl
  | missing i p f ht hl hg => exact hi.thread (by intro p h e; cases e) rfl rfl rfl rfl
  | built i p f v ht hf => exact hi.thread (by intro p h e; cases e) rfl rfl rfl rfl
  | rejected i p f ht hf => exact hi.thread (by intro p h e; cases e) rfl rfl rfl rfl
  | lock i p v ht hl hc => exact hi.thread (by intro p h e; cases e) rfl rfl rfl rfl
  | lockCollect i p v order ht hl hc ho => exact hi.thread (by intro p h e; cases e) rfl rfl rfl rfl
  | visit i p v q todo st ht hg =>
    obtain ⟨st', he, hcase⟩ := gcEntry_spec hi.wf w.alive q
    rw [hg] at he
    obtain rfl : st = st' := by injection he
    rcases hcase with ⟨rfl, _⟩ | ⟨k, r, hm, hs, hdead, hnone, rfl⟩
    · exact hi.thread (by intro p h e; cases e) rfl rfl rfl rfl
    · have : (w.store.slots.set k.1 (k.2 + 1, none))[k.1]? = some (k.2 + 1, none) :=
        List.getElem?_set_self (List.getElem?_eq_some_iff.mp hs).1
      rw [show w.store.slots.set k.1 (k.2 + 1, none) = w.store.slots from hsl, hs] at this
      simp at this
  | crash i p v q todo ht hg => exact ⟨hi.wf, hi.held⟩
  | collected i p v ht => exact hi.thread (by intro p h e; cases e) rfl rfl rfl rfl
  | reuse i p v h st ht he =>
    obtain ⟨rfl, hg⟩ := insertNew_reuse he
    exact hi.own (get_some32 hg) rfl rfl rfl
  | store i p v h st slot ht hf he =>
    obtain ⟨hwf, hreg, hr, _, _, hnone, hkeep, _⟩ := insertNew_spec hi.wf hf he v
    refine ⟨hwf, ?_⟩
    intro j q h' hj
    rcases getElem?_set_cases hj with ⟨_, e⟩ | ⟨_, e⟩
    · cases e; exact hreg
    · refine hkeep q h' ?_ (hi.held j q h' e)
      rintro rfl
      have := get_of_holds32 hi e
      rw [hnone] at this
      cases this
  | drop i p h ht => exact hi.thread (by intro p h e; cases e) rfl rfl rfl rfl
  | newCaches => exact ⟨hi.wf, hi.held⟩
  | search i p h j c c' r ht hc hg => exact ⟨hi.wf, hi.held⟩
  | searchCrash i p h j c ht hc hg => exact ⟨hi.wf, hi.held⟩

theorem storeInv32_step {w w' : World V} (hi : StoreInv32 w) (hs : Step32 zero F w w') : StoreInv32 w' := by
  cases hs with
  | same _ hs hsl _ _ => exact storeInv32_same hi hs hsl
  | visit i p v q todo st ht hg =>
    obtain ⟨st', he, hcase⟩ := gcEntry32_spec hi.wf w.alive q
    rw [hg] at he
    obtain rfl : st = st' := by injection he
    rcases hcase with rfl | ⟨k, hm, hnone, rfl⟩
    · exact hi.thread (by intro p h e; cases e) rfl rfl rfl rfl
    · refine ⟨hi.wf.remove hm, ?_⟩
      intro j q' h hj
      rcases getElem?_set_cases hj with ⟨_, e⟩ | ⟨_, e⟩
      · cases e
      · refine Registered.remove hi.wf hm (hi.held j q' h e) ?_
        rintro rfl
        have := get_of_holds32 hi e
        rw [hnone] at this
        cases this
  | crash i p v q todo ht hg => exact ⟨hi.wf, hi.held⟩
  | store i p v h st slot ht hf he =>
    obtain ⟨hwf, hreg, hnone, hkeep⟩ := insertNew32_spec hi.wf hf he v
    refine ⟨hwf, ?_⟩
    intro j q h' hj
    rcases getElem?_set_cases hj with ⟨_, e⟩ | ⟨_, e⟩
    · cases e; exact hreg
    · refine hkeep q h' ?_ (hi.held j q h' e)
      rintro rfl
      have := get_of_holds32 hi e
      rw [hnone] at this
      cases this
  | newCaches => exact ⟨hi.wf, hi.held⟩
  | search i p h j c c' r ht hc hg => exact ⟨hi.wf, hi.held⟩
  | searchCrash i p h j c ht hc hg => exact ⟨hi.wf, hi.held⟩

theorem storeInv32 {w : World V} (h : Reach32 zero F w) : StoreInv32 w := by
  induction h with
  | init =>
    refine ⟨⟨List.nodup_nil, List.nodup_nil, ?_, ?_⟩, ?_⟩
    · intro p k h; cases h
    · intro s v r h; cases h
    · intro i p h h'; cases h'
  | step _ hs ih => exact storeInv32_step ih hs

end Sds
