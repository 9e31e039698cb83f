import Verif.Lemmas.StoreSteps
import Verif.Spec.Store

namespace Sds

open Sds.Spec

variable {V : Type} {F : Str → (Str → Option V) → Prop}

theorem bijection_of_wf {st : RegexStore} {regs : List (Str × V)} (h : StoreWf st.index st.slots regs) : Bijection st := by
  refine ⟨h.patterns, ?_, ?_⟩
  · intro p k hm
    obtain ⟨r, _, hs, _⟩ := h.slot p k hm
    exact ⟨r, hs⟩
  · intro s v r hs
    obtain ⟨p, hp⟩ := h.back s v r hs
    exact ⟨p, hp, fun q hq => mem_unique_left h.keys hq hp⟩

/-! ## An uninterrupted collection -/

theorem get_eq_some_iff {st : RegexStore} {regs : List (Str × V)} (hw : StoreWf st.index st.slots regs)
    {alive : Nat → Bool} {p : Str} {h : Handle} :
    st.get alive p = some h ↔ Registered st.index st.slots p h ∧ alive h.reg = true := by
  constructor
  · intro hg
    unfold RegexStore.get at hg
    split at hg
    · cases hg
    · rename_i k hk
      split at hg
      · cases hg
      · rename_i r hr
        split at hg
        · rename_i ha
          cases hg
          exact ⟨⟨mem_of_lookup hk, slotGet_iff.mp hr⟩, ha⟩
        · cases hg
  · rintro ⟨hr, ha⟩
    exact get_of_registered hw hr ha

theorem option_ext {α : Type} {a b : Option α} (h : ∀ x, a = some x ↔ b = some x) : a = b := by
  cases a with
  | some x => exact ((h x).mp rfl).symm
  | none =>
    cases b with
    | none => rfl
    | some y => exact (h y).mpr rfl

/-- One round: no lookup changes, and the entry visited is in use afterwards or gone. -/
theorem gcEntry_get {st : RegexStore} {regs : List (Str × V)} (hw : StoreWf st.index st.slots regs)
    (alive : Nat → Bool) (q : Str) :
    ∃ st', st.gcEntry alive q = .ok st' ∧ StoreWf st'.index st'.slots regs ∧ st'.counter = st.counter ∧
      (∀ p, st'.get alive p = st.get alive p) ∧
      (∀ p, p ∈ st'.index.map (·.1) ↔ p ∈ st.index.map (·.1) ∧ (p = q → (st.get alive p).isSome)) := by
  obtain ⟨st', he, hc⟩ := gcEntry_spec hw alive q
  refine ⟨st', he, ?_⟩
  rcases hc with ⟨rfl, hk⟩ | ⟨k, r, hm, hs, hd, hn, rfl⟩
  · refine ⟨hw, rfl, fun _ => rfl, fun p => ⟨fun hp => ⟨hp, ?_⟩, fun hp => hp.1⟩⟩
    rintro rfl
    exact hk hp
  · have hw' := hw.remove (ver := k.2 + 1) hm
    refine ⟨hw', rfl, ?_, ?_⟩
    · intro p
      refine option_ext fun h => ?_
      rw [get_eq_some_iff hw, get_eq_some_iff (st := { st with index := _, slots := _ }) hw']
      constructor
      · rintro ⟨⟨hi, hsl⟩, ha⟩
        refine ⟨⟨(List.mem_filter.mp hi).1, ?_⟩, ha⟩
        have hne : p ≠ q := by simpa using (List.mem_filter.mp hi).2
        have hne' : k.1 ≠ h.key.1 := fun e => hne (slot_of_mem hw hm (List.mem_filter.mp hi).1 e).2.symm
        rw [List.getElem?_set_ne hne'] at hsl
        exact hsl
      · rintro ⟨hr, ha⟩
        refine ⟨Registered.remove hw hm hr ?_, ha⟩
        rintro rfl
        have := get_of_registered hw hr ha
        rw [hn] at this
        cases this
    · intro p
      constructor
      · intro hp
        obtain ⟨e, he, rfl⟩ := List.mem_map.mp hp
        obtain ⟨he, hne⟩ := List.mem_filter.mp he
        exact ⟨List.mem_map_of_mem he, fun e' => absurd e' (by simpa using hne)⟩
      · rintro ⟨hp, hne⟩
        obtain ⟨e, he, rfl⟩ := List.mem_map.mp hp
        refine List.mem_map_of_mem (List.mem_filter.mpr ⟨he, ?_⟩)
        have : e.1 ≠ q := fun x => by
          have := hne x
          rw [x, hn] at this
          cases this
        simpa using this

theorem gcLoop_spec {regs : List (Str × V)} (alive : Nat → Bool) : ∀ (order : List Str) (st : RegexStore),
    StoreWf st.index st.slots regs →
    ∃ st', RegexStore.gcLoop alive order st = .ok st' ∧ StoreWf st'.index st'.slots regs ∧ st'.counter = st.counter ∧
      (∀ p, st'.get alive p = st.get alive p) ∧
      (∀ p, p ∈ st'.index.map (·.1) ↔ p ∈ st.index.map (·.1) ∧ (p ∈ order → (st.get alive p).isSome))
  | [], st, hw => ⟨st, rfl, hw, rfl, fun _ => rfl, fun p => by simp⟩
  | q :: order, st, hw => by
    obtain ⟨st1, he, hw1, hc1, hg1, hm1⟩ := gcEntry_get hw alive q
    obtain ⟨st2, he2, hw2, hc2, hg2, hm2⟩ := gcLoop_spec alive order st1 hw1
    refine ⟨st2, ?_, hw2, hc2.trans hc1, fun p => (hg2 p).trans (hg1 p), ?_⟩
    · rw [RegexStore.gcLoop, he]
      exact he2
    · intro p
      rw [hm2, hm1, hg1]
      constructor
      · rintro ⟨⟨h1, h2⟩, h3⟩
        exact ⟨h1, fun hp => (List.mem_cons.mp hp).elim h2 h3⟩
      · rintro ⟨h1, h2⟩
        exact ⟨⟨h1, fun e => h2 (e ▸ List.mem_cons_self)⟩, fun hp => h2 (List.mem_cons_of_mem _ hp)⟩

/-! ## The lock -/

theorem inside_set {w : World V} {l : Nat} {i : Nat} {pc pc0 : Pc V} (h0 : w.threads[i]? = some pc0)
    (h : ∃ pc, w.threads[l]? = some pc ∧ pc.Inside) (hpc : pc0.Inside → pc.Inside) :
    ∃ pc', (w.threads.set i pc)[l]? = some pc' ∧ pc'.Inside := by
  obtain ⟨pc', h1, h2⟩ := h
  by_cases e : i = l
  · subst e
    rw [h0] at h1
    cases h1
    exact ⟨pc, List.getElem?_set_self (List.getElem?_eq_some_iff.mp h0).1, hpc h2⟩
  · exact ⟨pc', by rw [List.getElem?_set_ne e]; exact h1, h2⟩

/-- Whoever has the lock is inside `insert`. -/
theorem locked {w : World V} (h : StoreReach F w) : ∀ l, w.lock = some l → ∃ pc, w.threads[l]? = some pc ∧ pc.Inside := by
  induction h with
  | init => intro l h; cases h
  | @step w w' hr hs ih =>
    intro l hl
    cases hs with
    | spawn p f hf =>
      obtain ⟨pc, h1, h2⟩ := ih l hl
      refine ⟨pc, ?_, h2⟩
      show (w.threads ++ _)[l]? = _
      rw [List.getElem?_append_left (List.getElem?_eq_some_iff.mp h1).1]
      exact h1
    | found i p f h ht _ _ => exact inside_set ht (ih l hl) (fun h => h)
    | missing i p f ht _ _ => exact inside_set ht (ih l hl) (fun h => h)
    | built i p f v ht _ => exact inside_set ht (ih l hl) (fun h => h)
    | rejected i p f ht _ => exact inside_set ht (ih l hl) (fun h => h)
    | lock i p v ht _ _ =>
      cases hl
      exact ⟨_, List.getElem?_set_self (List.getElem?_eq_some_iff.mp ht).1, trivial⟩
    | lockCollect i p v order ht _ _ _ =>
      cases hl
      exact ⟨_, List.getElem?_set_self (List.getElem?_eq_some_iff.mp ht).1, trivial⟩
    | visit i p v q todo st ht _ => exact inside_set ht (ih l hl) (fun h => h)
    | crash => exact ih l hl
    | collected i p v ht => exact inside_set ht (ih l hl) (fun h => h)
    | reuse => cases hl
    | store => cases hl
    | drop i p h ht => exact inside_set ht (ih l hl) (fun h => h)
    | newCaches => exact ih l hl
    | search => exact ih l hl
    | searchCrash => exact ih l hl

/-- Somebody can always go on. -/
theorem progress {w : World V} (h : StoreReach F w) {i : Nat} (hp : Pending w i) :
    ∃ j pc w', Pending w j ∧ StoreStep F w w' ∧ w'.threads = w.threads.set j pc ∧ w.threads[j]? ≠ some pc := by
  have hinside : ∀ (l : Nat) (pc : Pc V), w.threads[l]? = some pc → pc.Inside →
      ∃ j pc w', Pending w j ∧ StoreStep F w w' ∧ w'.threads = w.threads.set j pc ∧ w.threads[j]? ≠ some pc := by
    intro l pc hl hin
    cases pc with
    | collect p v todo =>
      cases todo with
      | nil =>
        exact ⟨l, .finish p v, _, ⟨_, hl, trivial⟩, .collected w l p v hl, rfl, by
          rw [hl]; intro e; cases e⟩
      | cons q todo =>
        obtain ⟨st', he, _⟩ := gcEntry_spec (storeInv h).wf w.alive q
        refine ⟨l, .collect p v todo, _, ⟨_, hl, trivial⟩, .visit w l p v q todo st' hl he, rfl, ?_⟩
        rw [hl]
        intro e
        have := congrArg List.length (Pc.collect.inj (Option.some.inj e)).2.2
        simp at this
    | finish p v =>
      cases hg : w.store.get w.alive p with
      | some hd =>
        refine ⟨l, .holds p hd, _, ⟨_, hl, trivial⟩, .reuse w l p v hd w.store hl ?_, rfl, by
          rw [hl]; intro e; cases e⟩
        unfold RegexStore.insertNew
        rw [hg]
      | none =>
        have : ∃ st hd, w.store.insertNew w.alive p w.regs.length w.store.slots.length = (st, hd, true) := by
          unfold RegexStore.insertNew
          rw [hg]
          exact ⟨_, _, rfl⟩
        obtain ⟨st, hd, he⟩ := this
        exact ⟨l, .holds p hd, _, ⟨_, hl, trivial⟩, .store w l p v hd st _ hl (.inr rfl) he, rfl, by
          rw [hl]; intro e; cases e⟩
    | _ => exact absurd hin id
  cases hlock : w.lock with
  | some l =>
    obtain ⟨pc, hl, hin⟩ := locked h l hlock
    exact hinside l pc hl hin
  | none =>
    obtain ⟨pc, hi, hm⟩ := hp
    cases pc with
    | start p f =>
      cases hg : w.store.get w.alive p with
      | some hd =>
        exact ⟨i, .holds p hd, _, ⟨_, hi, trivial⟩, .found w i p f hd hi hlock hg, rfl, by rw [hi]; intro e; cases e⟩
      | none =>
        exact ⟨i, .factory p f, _, ⟨_, hi, trivial⟩, .missing w i p f hi hlock hg, rfl, by rw [hi]; intro e; cases e⟩
    | factory p f =>
      cases hf : f p with
      | some v => exact ⟨i, .waiting p v, _, ⟨_, hi, trivial⟩, .built w i p f v hi hf, rfl, by rw [hi]; intro e; cases e⟩
      | none => exact ⟨i, .failed p, _, ⟨_, hi, trivial⟩, .rejected w i p f hi hf, rfl, by rw [hi]; intro e; cases e⟩
    | waiting p v =>
      by_cases hc : w.store.counter + 1 < gcFrequency
      · exact ⟨i, .finish p v, _, ⟨_, hi, trivial⟩, .lock w i p v hi hlock hc, rfl, by rw [hi]; intro e; cases e⟩
      · exact ⟨i, .collect p v _, _, ⟨_, hi, trivial⟩, .lockCollect w i p v _ hi hlock (by omega) (.refl _), rfl, by
          rw [hi]; intro e; cases e⟩
    | collect p v todo => exact hinside i _ hi trivial
    | finish p v => exact hinside i _ hi trivial
    | holds p hd => exact absurd hm id
    | failed p => exact absurd hm id
    | done => exact absurd hm id

/-! ## The log -/

theorem sinceCollect_of_spec : ∀ {log l : List StoreEv}, SinceCollection log l → sinceCollect log = l := by
  intro log l h
  obtain ⟨hn, h⟩ := h
  have hall : ∀ e ∈ l, (e != StoreEv.collect) = true := by
    intro e he
    have : e ≠ .collect := fun x => hn (x ▸ he)
    simpa using this
  unfold sinceCollect
  rcases h with rfl | ⟨older, rfl⟩
  · rw [← List.append_nil log, List.takeWhile_append_of_pos (by simpa using hall)]
    simp
  · rw [List.takeWhile_append_of_pos hall, List.takeWhile_cons_of_neg (by simp), List.append_nil]

theorem sinceCollection_exists : ∀ log : List StoreEv, ∃ l, SinceCollection log l
  | [] => ⟨[], by simp, .inl rfl⟩
  | e :: log => by
    obtain ⟨l, hn, h⟩ := sinceCollection_exists log
    by_cases he : e = .collect
    · exact ⟨[], by simp, .inr ⟨log, by rw [he]; rfl⟩⟩
    · refine ⟨e :: l, ?_, ?_⟩
      · intro hm
        rcases List.mem_cons.mp hm with h | h
        · exact he h.symm
        · exact hn h
      · rcases h with rfl | ⟨older, rfl⟩
        · exact .inl rfl
        · exact .inr ⟨older, rfl⟩

theorem addedIn_length (l : List StoreEv) : (addedIn l).length = l.countP StoreEv.isAdded := by
  induction l with
  | nil => rfl
  | cons e l ih =>
    unfold addedIn at ih ⊢
    rw [List.filterMap_cons]
    cases e <;> simp [List.countP_cons, StoreEv.isAdded, ih]

theorem mem_keptIn {l : List StoreEv} {p : Str} : p ∈ keptIn l ↔ StoreEv.kept p ∈ l := by
  unfold keptIn
  rw [List.mem_filterMap]
  constructor
  · rintro ⟨e, he, h⟩
    cases e <;> simp at h
    subst h
    exact he
  · intro h
    exact ⟨_, h, rfl⟩

theorem mem_addedIn {l : List StoreEv} {p : Str} : p ∈ addedIn l ↔ StoreEv.added p ∈ l := by
  unfold addedIn
  rw [List.mem_filterMap]
  constructor
  · rintro ⟨e, he, h⟩
    cases e <;> simp at h
    subst h
    exact he
  · intro h
    exact ⟨_, h, rfl⟩

end Sds
