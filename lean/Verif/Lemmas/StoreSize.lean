import Verif.Lemmas.StoreMore
import Verif.Spec.StoreSize

/-! # The size of the regex store -/

namespace Sds

open Sds.Spec

variable {V : Type} {F : Str → (Str → Option V) → Prop} {N : Nat}

theorem smallReach_reach {w : World V} (h : SmallReach F N w) : StoreReach F w := by
  induction h with
  | init => exact .init
  | step _ hs _ _ ih => exact .step ih hs

/-- A pattern that a lookup finds is in use. -/
theorem inUse_of_get {w : World V} (hi : StoreInv w) {p : Str} {h : Handle} (hg : w.store.get w.alive p = some h) :
    InUse w p := by
  obtain ⟨⟨hm, hs⟩, ha⟩ := get_some hi hg
  obtain ⟨i, q, hd, hq, hr⟩ := holds_of_alive ha
  obtain ⟨r, v, hs', hv⟩ := hi.wf.slot p h.key hm
  rw [hs] at hs'
  cases hs'
  obtain ⟨hm2, hs2⟩ := hi.held i q hd hq
  obtain ⟨r2, v2, hs2', hv2⟩ := hi.wf.slot q hd.key hm2
  rw [hs2] at hs2'
  cases hs2'
  rw [hr, hv] at hv2
  obtain rfl : p = q := (Prod.mk.inj (Option.some.inj hv2)).1
  exact ⟨i, hd, hq⟩

/-- A collection in progress has the pattern on its list. -/
def Listed (w : World V) (p : Str) : Prop :=
  ∃ (i : Nat) (q : Str) (v : V) (todo : List Str), w.threads[i]? = some (Pc.collect q v todo) ∧ p ∈ todo

/-- The last collection kept the pattern or is going to keep it unless it is dropped before. -/
def Keeps (w : World V) (p : Str) : Prop :=
  StoreEv.kept p ∈ sinceCollect w.log ∨ (Listed w p ∧ InUse w p)

def KeepBound (N : Nat) (w : World V) : Prop := ∀ l : List Str, l.Nodup → (∀ p ∈ l, Keeps w p) → l.length ≤ N

theorem KeepBound.mono {w w' : World V} (h : KeepBound N w) (hs : ∀ p, Keeps w' p → Keeps w p) : KeepBound N w' :=
  fun l hn hl => h l hn (fun p hp => hs p (hl p hp))

/-- While a thread is inside `insert` and does not collect, nobody collects. -/
theorem not_listed {w : World V} (hl : LogInv w) (h : w.lock = none ∨ ∃ (i : Nat) (p : Str) (v : V), w.threads[i]? = some (Pc.finish p v))
    (p : Str) : ¬ Listed w p := by
  rintro ⟨i, q, v, todo, hi, _⟩
  have h1 := hl.owner i _ hi trivial
  rcases h with h | ⟨j, q', v', hj⟩
  · rw [h1] at h
    cases h
  · have h2 := hl.owner j _ hj trivial
    rw [h1] at h2
    cases h2
    rw [hi] at hj
    cases hj

/-- Changing a thread to something that neither collects nor owns. -/
theorem Listed.of_set {w : World V} {i : Nat} {pc : Pc V} (hpc : ∀ q v t, pc ≠ .collect q v t) {p : Str}
    (h : ∃ (j : Nat) (q : Str) (v : V) (todo : List Str), (w.threads.set i pc)[j]? = some (Pc.collect q v todo) ∧ p ∈ todo) :
    Listed w p := by
  obtain ⟨j, q, v, todo, hj, hp⟩ := h
  rcases getElem?_set_cases hj with ⟨_, e⟩ | ⟨_, e⟩
  · exact absurd e.symm (hpc q v todo)
  · exact ⟨j, q, v, todo, e, hp⟩

theorem InUse.of_set {w : World V} {i : Nat} {pc : Pc V} (hpc : ∀ q h, pc ≠ .holds q h) {p : Str}
    (h : ∃ (j : Nat) (hd : Handle), (w.threads.set i pc)[j]? = some (Pc.holds p hd)) : InUse w p := by
  obtain ⟨j, hd, hj⟩ := h
  rcases getElem?_set_cases hj with ⟨_, e⟩ | ⟨_, e⟩
  · exact absurd e.symm (hpc p hd)
  · exact ⟨j, hd, e⟩

/-- A step that changes one thread to something harmless and leaves the log. -/
theorem KeepBound.quiet {w : World V} (h : KeepBound N w) {i : Nat} {pc : Pc V} (hpc : ∀ q v t, pc ≠ .collect q v t)
    (hpc' : ∀ q h, pc ≠ .holds q h) (st : RegexStore) (lock : Option Nat) :
    KeepBound N { w with threads := w.threads.set i pc, store := st, lock := lock } := by
  refine h.mono fun p hp => ?_
  rcases hp with hp | ⟨h1, h2⟩
  · exact .inl hp
  · exact .inr ⟨Listed.of_set hpc h1, InUse.of_set hpc' h2⟩

theorem keepBound_step {w w' : World V} (hv : StoreInv w) (hl : LogInv w) (hl' : LogInv w') (hk : KeepBound N w)
    (hN : AtMostInUse N w') (hs : StoreStep F w w') : KeepBound N w' := by
  cases hs with
  | spawn p f hf =>
    refine hk.mono fun q hq => ?_
    rcases hq with hq | ⟨⟨j, q', v, todo, hj, hm⟩, j2, hd, hj2⟩
    · exact .inl hq
    · refine .inr ⟨?_, ?_⟩
      · rcases getElem?_append_one hj with e | ⟨_, e⟩
        · exact ⟨j, q', v, todo, e, hm⟩
        · cases e
      · rcases getElem?_append_one hj2 with e | ⟨_, e⟩
        · exact ⟨j2, hd, e⟩
        · cases e
  | found i p f h ht hlock hg =>
    refine hk.mono fun q hq => ?_
    rcases hq with hq | ⟨h1, _⟩
    · exact .inl hq
    · exact absurd h1 (not_listed hl' (.inl hlock) q)
  | missing i p f ht hlock hg => exact hk.quiet (by intro _ _ _ e; cases e) (by intro _ _ e; cases e) w.store w.lock
  | built i p f v ht hf => exact hk.quiet (by intro _ _ _ e; cases e) (by intro _ _ e; cases e) w.store w.lock
  | rejected i p f ht hf => exact hk.quiet (by intro _ _ _ e; cases e) (by intro _ _ e; cases e) w.store w.lock
  | lock i p v ht hlock hc =>
    refine hk.mono fun q hq => ?_
    rcases hq with hq | ⟨h1, _⟩
    · dsimp only at hq
      rw [sinceCollect_cons (by intro e; cases e)] at hq
      rcases List.mem_cons.mp hq with e | e
      · cases e
      · exact .inl e
    · refine absurd h1 (not_listed hl' (.inr ⟨i, p, v, ?_⟩) q)
      exact List.getElem?_set_self (List.getElem?_eq_some_iff.mp ht).1
  | lockCollect i p v order ht hlock hc ho =>
    intro l hn hm
    refine hN l hn fun q hq => ?_
    rcases hm q hq with h | ⟨_, h⟩
    · dsimp only at h
      rw [sinceCollect_collect] at h
      cases h
    · exact h
  | visit i p v q todo st ht hg =>
    refine hk.mono fun q' hq' => ?_
    rcases hq' with h | ⟨⟨j, q2, v2, todo2, hj, hm⟩, h2⟩
    · dsimp only at h
      split at h
      · rename_i hsome
        rw [sinceCollect_cons (by intro e; cases e)] at h
        rcases List.mem_cons.mp h with e | e
        · cases e
          obtain ⟨hd, hget⟩ := Option.isSome_iff_exists.mp hsome
          exact .inr ⟨⟨i, p, v, _, ht, List.mem_cons_self⟩, inUse_of_get hv hget⟩
        · exact .inl e
      · exact .inl h
    · refine .inr ⟨?_, InUse.of_set (by intro _ _ e; cases e) h2⟩
      rcases getElem?_set_cases hj with ⟨_, e⟩ | ⟨_, e⟩
      · cases e
        exact ⟨i, p, v, _, ht, List.mem_cons_of_mem _ hm⟩
      · exact ⟨j, q2, v2, todo2, e, hm⟩
  | crash i p v q todo ht hg => exact hk
  | collected i p v ht => exact hk.quiet (by intro _ _ _ e; cases e) (by intro _ _ e; cases e) w.store w.lock
  | reuse i p v h st ht he =>
    refine hk.mono fun q hq => ?_
    rcases hq with hq | ⟨h1, _⟩
    · exact .inl hq
    · exact absurd h1 (not_listed hl' (.inl rfl) q)
  | store i p v h st slot ht hf he =>
    refine hk.mono fun q hq => ?_
    rcases hq with hq | ⟨h1, _⟩
    · dsimp only at hq
      rw [sinceCollect_cons (by intro e; cases e)] at hq
      rcases List.mem_cons.mp hq with e | e
      · cases e
      · exact .inl e
    · exact absurd h1 (not_listed hl' (.inl rfl) q)
  | drop i p h ht => exact hk.quiet (by intro _ _ _ e; cases e) (by intro _ _ e; cases e) w.store w.lock
  | newCaches => exact hk
  | search i p h j c c' r ht hc hg =>
    refine hk.mono fun q hq => ?_
    rcases hq with hq | hq
    · dsimp only at hq
      rw [sinceCollect_cons (by intro e; cases e)] at hq
      rcases List.mem_cons.mp hq with e | e
      · cases e
      · exact .inl e
    · exact .inr hq
  | searchCrash i p h j c ht hc hg => exact hk

/-- The number of entries while nobody collects. -/
theorem index_le {w : World V} (hv : StoreInv w) (hl : LogInv w) (hk : KeepBound N w) (hno : ∀ p, ¬ Listed w p) :
    w.store.index.length ≤ N + (sinceCollect w.log).countP StoreEv.isAdded := by
  have key : ∀ l : List Str, l.Nodup →
      (∀ p ∈ l, StoreEv.kept p ∈ sinceCollect w.log ∨ StoreEv.added p ∈ sinceCollect w.log) →
      l.length ≤ N + (sinceCollect w.log).countP StoreEv.isAdded := by
    intro l hn hm
    have h1 : (l.filter (fun p => decide (StoreEv.kept p ∈ sinceCollect w.log))).length ≤ N :=
      hk _ (hn.sublist List.filter_sublist) (fun p hp => .inl (of_decide_eq_true (List.mem_filter.mp hp).2))
    have h2 : (l.filter (fun p => !decide (StoreEv.kept p ∈ sinceCollect w.log))).length ≤
        (addedIn (sinceCollect w.log)).length := by
      refine length_le_of_nodup_subset (hn.sublist List.filter_sublist) fun p hp => ?_
      obtain ⟨hp, hnk⟩ := List.mem_filter.mp hp
      rcases hm p hp with h | h
      · simp [h] at hnk
      · exact mem_addedIn.mpr h
    rw [addedIn_length] at h2
    have h3 : ∀ (q : Str → Bool) (l : List Str), l.length = (l.filter q).length + (l.filter (fun x => !q x)).length := by
      intro q l
      induction l with
      | nil => rfl
      | cons a l ih => cases h : q a <;> simp [h] <;> omega
    rw [h3 (fun p => decide (StoreEv.kept p ∈ sinceCollect w.log)) l]
    omega
  rw [← List.length_map (f := (·.1))]
  refine key _ hv.wf.patterns fun p hp => ?_
  rcases hl.entries p hp with h | h
  · exact absurd h (hno p)
  · exact h

/-- If every slot is taken there are at least as many entries as slots. -/
theorem slots_le_index {st : RegexStore} {regs : List (Str × V)} (hw : StoreWf st.index st.slots regs)
    (hfull : ∀ (s v : Nat), st.slots[s]? ≠ some (v, none)) : st.slots.length ≤ st.index.length := by
  rw [← List.length_range (n := st.slots.length), ← List.length_map (as := st.index) (f := fun e => e.2.1)]
  refine length_le_of_nodup_subset List.nodup_range fun s hs => ?_
  have hs := List.mem_range.mp hs
  obtain ⟨⟨v, o⟩, hx⟩ : ∃ x, st.slots[s]? = some x := ⟨_, List.getElem?_eq_getElem hs⟩
  cases o with
  | none => exact absurd hx (hfull s v)
  | some r =>
    obtain ⟨p, hp⟩ := hw.back s v r hx
    exact List.mem_map.mpr ⟨_, hp, rfl⟩

/-- The slot map after an insertion. -/
theorem insertNew_slots {st st' : RegexStore} {alive : Nat → Bool} {p : Str} {r slot : Nat} {h : Handle} {b : Bool}
    (he : st.insertNew alive p r slot = (st', h, b)) :
    st'.slots.length = st.slots.length ∨ st'.slots.length = st.slots.length + 1 := by
  have hrem : ∀ (sl : List (Nat × Option Nat)) k, (slotRemove sl k).length = sl.length := by
    intro sl k
    unfold slotRemove
    split <;> simp
  have hins : ∀ (sl : List (Nat × Option Nat)), (slotInsert sl slot r).1.length = sl.length ∨
      (slotInsert sl slot r).1.length = sl.length + 1 := by
    intro sl
    unfold slotInsert
    split <;> simp
  unfold RegexStore.insertNew at he
  split at he
  · exact .inl (by rw [(Prod.mk.inj he).1])
  · have h1 := (Prod.mk.inj he).1
    subst h1
    dsimp only
    split
    · rw [hrem]; exact hins _
    · exact hins _

/-- The bounds. -/
structure SizeInv (N : Nat) (w : World V) : Prop where
  keep : KeepBound N w
  index : w.store.index.length ≤ N + 1000
  slots : w.store.slots.length ≤ N + 1000
  caches : ∀ c ∈ w.caches, (c.map (·.1)).Nodup

theorem cachesGet_nodup {c c' : Caches} {h : Handle} {r : Nat} (hn : (c.map (·.1)).Nodup)
    (hg : Caches.get c h = .ok (c', r)) : (c'.map (·.1)).Nodup := by
  unfold Caches.get at hg
  split at hg
  · split at hg
    · cases hg
    · split at hg
      · injection hg with hg
        rw [← (Prod.mk.inj hg).1]
        exact hn
      · injection hg with hg
        rw [← (Prod.mk.inj hg).1, List.map_cons, List.nodup_cons]
        refine ⟨?_, nodup_map_filter hn⟩
        intro hm
        obtain ⟨e, he, h⟩ := List.mem_map.mp hm
        have := (List.mem_filter.mp he).2
        simp [h] at this
  · rename_i hnone
    injection hg with hg
    rw [← (Prod.mk.inj hg).1, List.map_cons, List.nodup_cons]
    refine ⟨?_, hn⟩
    intro hm
    obtain ⟨⟨k, x⟩, he, hk⟩ := List.mem_map.mp hm
    rw [← show k = h.key.1 from hk, lookup_of_mem hn he] at hnone
    cases hnone

theorem sizeInv {w : World V} (h : SmallReach F N w) : SizeInv N w := by
  induction h with
  | init =>
    refine ⟨?_, Nat.zero_le _, Nat.zero_le _, fun c hc => by cases hc⟩
    intro l hn hl
    cases l with
    | nil => exact Nat.zero_le _
    | cons p l =>
      rcases hl p List.mem_cons_self with h | ⟨⟨i, q, v, todo, hi, _⟩, _⟩
      · cases h
      · cases hi
  | @step w w' hr hs hfrugal hN ih =>
    have hreach := smallReach_reach hr
    have hreach' : StoreReach F w' := .step hreach hs
    have hv := storeInv hreach
    have hl := logInv hreach
    have hv' := storeInv hreach'
    have hl' := logInv hreach'
    have hk' := keepBound_step hv hl hl' ih.keep hN hs
    cases hs with
    | visit i p v q todo st ht hg =>
      obtain ⟨st', he, hcase⟩ := gcEntry_spec hv.wf w.alive q
      rw [hg] at he
      obtain rfl : st = st' := by injection he
      refine ⟨hk', ?_, ?_, ih.caches⟩
      · rcases hcase with ⟨rfl, _⟩ | ⟨k, r, _, _, _, _, rfl⟩
        · exact ih.index
        · exact Nat.le_trans (List.length_filter_le _ _) ih.index
      · rcases hcase with ⟨rfl, _⟩ | ⟨k, r, _, _, _, _, rfl⟩
        · exact ih.slots
        · show (w.store.slots.set _ _).length ≤ _
          rw [List.length_set]
          exact ih.slots
    | reuse i p v h st ht he =>
      obtain ⟨rfl, _⟩ := insertNew_reuse he
      exact ⟨hk', ih.index, ih.slots, ih.caches⟩
    | store i p v h st slot ht hf he =>
      refine ⟨hk', ?_, ?_, ih.caches⟩
      · have h1 := index_le hv' hl' hk' (not_listed hl' (.inl rfl))
        have h2 := hl'.added
        have h3 : st.counter < 1000 := hl'.small
        dsimp only at h1 h2
        simp only [Option.isSome_none, Bool.false_eq_true, if_false] at h2
        show st.index.length ≤ _
        omega
      · rcases insertNew_slots he with e | e
        · show st.slots.length ≤ _
          rw [e]
          exact ih.slots
        · have hfull := hfrugal (by show _ < st.slots.length; rw [e]; omega)
          have h0 := slots_le_index hv.wf hfull
          have h1 := index_le hv hl ih.keep (not_listed hl (.inr ⟨i, p, v, ht⟩))
          have h2 := hl.added
          have h3 : w.store.counter < 1000 := hl.small
          rw [hl.owner i _ ht trivial] at h2
          simp only [Option.isSome_some, if_true] at h2
          show st.slots.length ≤ _
          omega
    | newCaches =>
      refine ⟨hk', ih.index, ih.slots, ?_⟩
      intro c hc
      rcases List.mem_append.mp hc with hc | hc
      · exact ih.caches c hc
      · rw [List.mem_singleton.mp hc]
        exact List.nodup_nil
    | search i p h j c c' r ht hc hg =>
      refine ⟨hk', ih.index, ih.slots, ?_⟩
      intro c0 hc0
      rcases List.mem_or_eq_of_mem_set hc0 with hm | rfl
      · exact ih.caches c0 hm
      · exact cachesGet_nodup (ih.caches c (List.mem_of_getElem? hc)) hg
    | _ => exact ⟨hk', ih.index, ih.slots, ih.caches⟩

/-- A cache map has at most one cache per slot. -/
theorem caches_le {slots : List (Nat × Option Nat)} {c : Caches} (hc : CachesOk slots c) (hn : (c.map (·.1)).Nodup) :
    c.length ≤ slots.length := by
  rw [← List.length_range (n := slots.length), ← List.length_map (as := c) (f := (·.1))]
  refine length_le_of_nodup_subset hn fun s hs => ?_
  obtain ⟨⟨s', v, r⟩, he, rfl⟩ := List.mem_map.mp hs
  obtain ⟨_, _, h, _⟩ := hc s' v r (lookup_of_mem hn he)
  exact List.mem_range.mpr (List.getElem?_eq_some_iff.mp h).1

/-! ## Compiling again and again -/

/-- Nobody owns a regex and nobody is asking for one. -/
def NobodyBusy (w : World V) : Prop := w.lock = none ∧ ∀ pc ∈ w.threads, pc = .done

theorem getElem?_append_self {α : Type} {l : List α} {a : α} : (l ++ [a])[l.length]? = some a := by simp

theorem set_append_self {α : Type} {l : List α} {a b : α} : (l ++ [a]).set l.length b = l ++ [b] := by
  rw [List.set_append_right _ _ (Nat.le_refl _), Nat.sub_self]
  rfl

/-- Among threads of which all but the last are done, only the last may own a regex. -/
theorem atMost_one {w : World V} {ts : List (Pc V)} (hd : ∀ pc ∈ ts, pc = .done) {pc : Pc V} (hw : w.threads = ts ++ [pc]) :
    AtMostInUse 1 w := by
  intro l hn hl
  have key : ∀ p ∈ l, ∃ h, pc = .holds p h := by
    intro p hp
    obtain ⟨i, h, hi⟩ := hl p hp
    unfold Owns at hi
    rw [hw] at hi
    rcases getElem?_append_one hi with e | ⟨_, e⟩
    · cases hd _ (List.mem_of_getElem? e)
    · exact ⟨h, e.symm⟩
  match l, hn, key with
  | [], _, _ => exact Nat.zero_le _
  | [_], _, _ => exact Nat.le_refl _
  | a :: b :: _, hn, key =>
    obtain ⟨h, e⟩ := key a List.mem_cons_self
    obtain ⟨h', e'⟩ := key b (List.mem_cons_of_mem _ List.mem_cons_self)
    rw [e] at e'
    cases e'
    exact absurd List.mem_cons_self (List.nodup_cons.mp hn).1

theorem dead_of_done {w : World V} {ts : List (Pc V)} (hd : ∀ pc ∈ ts, pc = .done) {pc : Pc V} (hpc : ∀ r, pc.owns r = false)
    (hw : w.threads = ts ++ [pc]) (r : Nat) : w.alive r = false := by
  unfold World.alive World.strong
  refine decide_eq_false ?_
  rw [List.countP_pos_iff]
  rintro ⟨x, hx, ho⟩
  rw [hw] at hx
  rcases List.mem_append.mp hx with hx | hx
  · rw [hd x hx] at ho
    cases ho
  · rw [List.mem_singleton.mp hx, hpc] at ho
    cases ho

theorem get_none_of_dead {st : RegexStore} {alive : Nat → Bool} (h : ∀ r, alive r = false) (p : Str) :
    st.get alive p = none := by
  unfold RegexStore.get
  split
  · rfl
  · split
    · rfl
    · rw [if_neg (by rw [h]; exact Bool.false_ne_true)]

theorem gcEntry_length {st st' : RegexStore} {alive : Nat → Bool} {q : Str} (h : st.gcEntry alive q = .ok st') :
    st'.slots.length = st.slots.length := by
  unfold RegexStore.gcEntry at h
  split at h
  · injection h with h; rw [h]
  · split at h
    · cases h
    · split at h
      · injection h with h; rw [h]
      · injection h with h
        rw [← h]
        unfold slotRemove
        dsimp only
        split <;> simp

/-- The slot a slot map with a list of its vacant slots would use. -/
theorem frugal_slot (st : RegexStore) :
    ∃ slot, st.Free slot ∧ (slot < st.slots.length ∨ ∀ (s v : Nat), st.slots[s]? ≠ some (v, none)) := by
  by_cases h : ∃ (s v : Nat), st.slots[s]? = some (v, none)
  · obtain ⟨s, v, h⟩ := h
    exact ⟨s, .inl ⟨v, h⟩, .inl (List.getElem?_eq_some_iff.mp h).1⟩
  · exact ⟨_, .inr rfl, .inr fun s v e => h ⟨s, v, e⟩⟩

theorem insertNew_slots_of_lt {st st' : RegexStore} {alive : Nat → Bool} {p : Str} {r slot : Nat} {h : Handle} {b : Bool}
    (hlt : slot < st.slots.length) (he : st.insertNew alive p r slot = (st', h, b)) :
    st'.slots.length = st.slots.length := by
  have hrem : ∀ (sl : List (Nat × Option Nat)) k, (slotRemove sl k).length = sl.length := by
    intro sl k
    unfold slotRemove
    split <;> simp
  have hins : (slotInsert st.slots slot r).1.length = st.slots.length := by
    unfold slotInsert
    rw [List.getElem?_eq_getElem hlt]
    simp
  unfold RegexStore.insertNew at he
  split at he
  · rw [(Prod.mk.inj he).1]
  · have h1 := (Prod.mk.inj he).1
    subst h1
    dsimp only
    split
    · rw [hrem]; exact hins
    · exact hins

/-- The rest of a collection. -/
theorem collect_rest {p : Str} {v : V} {ts : List (Pc V)} (hd : ∀ pc ∈ ts, pc = .done) : ∀ (todo : List Str) (w : World V),
    SmallReach F 1 w → w.threads = ts ++ [Pc.collect p v todo] →
    ∃ w', SmallReach F 1 w' ∧ w'.threads = ts ++ [Pc.finish p v] ∧ w'.regs = w.regs
  | [], w, hr, hw => by
    have ht : w.threads[ts.length]? = some (Pc.collect p v []) := by rw [hw]; exact getElem?_append_self
    have hth : w.threads.set ts.length (.finish p v) = ts ++ [.finish p v] := by rw [hw]; exact set_append_self
    exact ⟨_, .step hr (.collected w ts.length p v ht) (fun h => absurd h (Nat.lt_irrefl _)) (atMost_one hd hth), hth, rfl⟩
  | q :: todo, w, hr, hw => by
    have ht : w.threads[ts.length]? = some (Pc.collect p v (q :: todo)) := by rw [hw]; exact getElem?_append_self
    have hth : w.threads.set ts.length (Pc.collect p v todo) = ts ++ [Pc.collect p v todo] := by
      rw [hw]; exact set_append_self
    obtain ⟨st, he, _⟩ := gcEntry_spec (storeInv (smallReach_reach hr)).wf w.alive q
    have hs := StoreStep.visit (F := F) w ts.length p v q todo st ht he
    obtain ⟨w', h1, h2, h3⟩ := collect_rest hd todo _ (.step hr hs (fun h => by
      dsimp only at h
      rw [gcEntry_length he] at h
      exact absurd h (Nat.lt_irrefl _)) (atMost_one hd hth)) hth
    exact ⟨w', h1, h2, h3⟩

/-- One more regex. -/
theorem compile_one {p : Str} {f : Str → Option V} {v : V} (hF : F p f) (hf : f p = some v) {w : World V}
    (hr : SmallReach F 1 w) (hi : NobodyBusy w) :
    ∃ w', SmallReach F 1 w' ∧ NobodyBusy w' ∧ w'.regs.length = w.regs.length + 1 := by
  obtain ⟨hlock, hd⟩ := hi
  have small : ∀ {w0 w1 : World V} {pc : Pc V}, SmallReach F 1 w0 → StoreStep F w0 w1 →
      w1.store.slots.length = w0.store.slots.length → w1.threads = w.threads ++ [pc] → SmallReach F 1 w1 :=
    fun h hs hsl hth => .step h hs (fun h => absurd h (by rw [hsl]; exact Nat.lt_irrefl _)) (atMost_one hd hth)
  -- the request
  have r1 := small hr (StoreStep.spawn w p f hF) rfl rfl
  -- nothing found
  have r2 := small r1 (StoreStep.missing _ w.threads.length p f getElem?_append_self hlock
    (get_none_of_dead (dead_of_done hd (fun _ => rfl) rfl) p)) rfl set_append_self
  have e2 : ((w.threads ++ [Pc.start p f]).set w.threads.length (.factory p f)) = w.threads ++ [.factory p f] := set_append_self
  dsimp only at r2
  rw [e2] at r2
  -- compiled
  have r3 := small r2 (StoreStep.built _ w.threads.length p f v getElem?_append_self hf) rfl set_append_self
  have e3 : ((w.threads ++ [Pc.factory p f]).set w.threads.length (.waiting p v)) = w.threads ++ [.waiting p v] := set_append_self
  dsimp only at r3
  rw [e3] at r3
  -- the lock, and a collection if it is due
  have r4 : ∃ w', SmallReach F 1 w' ∧ w'.threads = w.threads ++ [Pc.finish p v] ∧ w'.regs = w.regs := by
    by_cases hc : w.store.counter + 1 < gcFrequency
    · exact ⟨_, small r3 (StoreStep.lock _ w.threads.length p v getElem?_append_self hlock hc) rfl set_append_self,
        set_append_self, rfl⟩
    · have r := small r3 (StoreStep.lockCollect _ w.threads.length p v _ getElem?_append_self hlock (Nat.le_of_not_lt hc) (.refl _)) rfl
        set_append_self
      obtain ⟨w', h1, h2, h3⟩ := collect_rest hd _ _ r set_append_self
      exact ⟨w', h1, h2, h3⟩
  obtain ⟨w4, r4, t4, g4⟩ := r4
  -- stored
  obtain ⟨slot, hfree, hslot⟩ := frugal_slot w4.store
  have hdead := get_none_of_dead (st := w4.store) (dead_of_done hd (fun _ => rfl) t4) p
  obtain ⟨st, hd5, he⟩ : ∃ st hd, w4.store.insertNew w4.alive p w4.regs.length slot = (st, hd, true) := by
    unfold RegexStore.insertNew
    rw [hdead]
    exact ⟨_, _, rfl⟩
  have ht4 : w4.threads[w.threads.length]? = some (.finish p v) := by rw [t4]; exact getElem?_append_self
  have th5 : w4.threads.set w.threads.length (.holds p hd5) = w.threads ++ [.holds p hd5] := by rw [t4]; exact set_append_self
  have r5 : SmallReach F 1 _ := .step r4 (StoreStep.store w4 w.threads.length p v hd5 st slot ht4 hfree he) (by
    intro h
    rcases hslot with hlt | h'
    · dsimp only at h
      rw [insertNew_slots_of_lt hlt he] at h
      exact absurd h (Nat.lt_irrefl _)
    · exact h') (atMost_one hd th5)
  rw [th5] at r5
  -- dropped
  have th6 : (w.threads ++ [Pc.holds p hd5]).set w.threads.length .done = w.threads ++ [Pc.done] := set_append_self
  have r6 := small r5 (StoreStep.drop _ w.threads.length p hd5 getElem?_append_self) rfl th6
  refine ⟨_, r6, ⟨rfl, ?_⟩, ?_⟩
  · intro pc hpc
    dsimp only at hpc
    rw [th6] at hpc
    rcases List.mem_append.mp hpc with hpc | hpc
    · exact hd pc hpc
    · exact List.mem_singleton.mp hpc
  · show (w4.regs ++ [(p, v)]).length = _
    rw [g4, List.length_append]
    rfl

end Sds
