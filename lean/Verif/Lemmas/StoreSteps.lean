import Verif.Lemmas.Store

/-! # Every step keeps the invariants of the regex store -/

namespace Sds

variable {V : Type} {F : Str → (Str → Option V) → Prop}

theorem storeInv_init : StoreInv (World.init V) := by
  refine ⟨⟨List.nodup_nil, List.nodup_nil, ?_, ?_⟩, ?_, ?_, rfl, ?_⟩
  · intro p k h; cases h
  · intro s v r h; cases h
  · intro i p h h'; cases h'
  · intro c h; cases h
  · intro a b h; cases h

/-- Changing one thread to something that owns no regex, and logging something harmless. -/
theorem StoreInv.thread {w : World V} (hi : StoreInv w) (i : Nat) (pc : Pc V) (hpc : ∀ p h, pc ≠ .holds p h)
    (counter : Nat) (lock : Option Nat) (log : List StoreEv) (hlog : ∀ a b, StoreEv.search a b ∈ log → a = b) :
    StoreInv { w with threads := w.threads.set i pc, store := { w.store with counter := counter }, lock := lock,
                      log := log } := by
  refine ⟨hi.wf, ?_, hi.caches, hi.calm, hlog⟩
  intro j p h hj
  rcases getElem?_set_cases hj with ⟨_, e⟩ | ⟨_, e⟩
  · exact absurd e.symm (hpc p h)
  · exact hi.held j p h e

/-- A thread becomes the owner of a registered regex. -/
theorem StoreInv.own {w : World V} (hi : StoreInv w) (i : Nat) {p : Str} {h : Handle}
    (hr : Registered w.store.index w.store.slots p h) (lock : Option Nat) :
    StoreInv { w with threads := w.threads.set i (.holds p h), lock := lock } := by
  refine ⟨hi.wf, ?_, hi.caches, hi.calm, hi.search⟩
  intro j q h' hj
  rcases getElem?_set_cases hj with ⟨_, e⟩ | ⟨_, e⟩
  · cases e; exact hr
  · exact hi.held j q h' e

theorem storeInv_step {w w' : World V} (hi : StoreInv w) (hs : StoreStep F w w') : StoreInv w' := by
  cases hs with
  | spawn p f hf =>
    refine ⟨hi.wf, ?_, hi.caches, hi.calm, hi.search⟩
    intro j q h hj
    rcases getElem?_append_one hj with e | ⟨_, e⟩
    · exact hi.held j q h e
    · cases e
  | found i p f h ht hl hg => exact hi.own i (get_some hi hg).1 w.lock
  | missing i p f ht hl hg => exact hi.thread i _ (by intro p h e; cases e) w.store.counter w.lock w.log hi.search
  | built i p f v ht hf => exact hi.thread i _ (by intro p h e; cases e) w.store.counter w.lock w.log hi.search
  | rejected i p f ht hf => exact hi.thread i _ (by intro p h e; cases e) w.store.counter w.lock w.log hi.search
  | lock i p v ht hl hc =>
    refine hi.thread i _ (by intro p h e; cases e) _ _ _ ?_
    intro a b hm
    rcases List.mem_cons.mp hm with e | e
    · cases e
    · exact hi.search a b e
  | lockCollect i p v order ht hl hc ho =>
    refine hi.thread i _ (by intro p h e; cases e) _ _ _ ?_
    intro a b hm
    rcases List.mem_cons.mp hm with e | e
    · cases e
    · rcases List.mem_cons.mp e with e | e
      · cases e
      · exact hi.search a b e
  | visit i p v q todo st ht hg =>
    have hlog : ∀ a b, StoreEv.search a b ∈ (if (w.store.get w.alive q).isSome then StoreEv.kept q :: w.log else w.log) →
        a = b := by
      intro a b hm
      split at hm
      · rcases List.mem_cons.mp hm with e | e
        · cases e
        · exact hi.search a b e
      · exact hi.search a b hm
    obtain ⟨st', he, hcase⟩ := gcEntry_spec hi.wf w.alive q
    rw [hg] at he
    obtain rfl : st = st' := by injection he
    rcases hcase with ⟨rfl, _⟩ | ⟨k, r, hm, hsl, hdead, hnone, rfl⟩
    · exact hi.thread i _ (by intro p h e; cases e) w.store.counter w.lock _ hlog
    · refine ⟨hi.wf.remove hm, ?_, fun c hc => (hi.caches c hc).remove hsl, hi.calm, hlog⟩
      intro j q' h hj
      rcases getElem?_set_cases hj with ⟨_, e⟩ | ⟨_, e⟩
      · cases e
      · have hr := hi.held j q' h e
        refine Registered.remove hi.wf hm hr ?_
        rintro rfl
        have := get_of_holds hi e
        rw [hnone] at this
        cases this
  | crash i p v q todo ht hg =>
    obtain ⟨st', he, _⟩ := gcEntry_spec hi.wf w.alive q
    rw [hg] at he
    cases he
  | collected i p v ht => exact hi.thread i _ (by intro p h e; cases e) w.store.counter w.lock w.log hi.search
  | reuse i p v h st ht he =>
    obtain ⟨rfl, hg⟩ := insertNew_reuse he
    exact hi.own i (get_some hi hg).1 none
  | store i p v h st slot ht hf he =>
    obtain ⟨hwf, hreg, hr, _, _, hnone, hkeep, hcaches⟩ := insertNew_spec hi.wf hf he v
    refine ⟨hwf, ?_, fun c hc => hcaches c (hi.caches c hc), hi.calm, ?_⟩
    · intro j q h' hj
      rcases getElem?_set_cases hj with ⟨_, e⟩ | ⟨_, e⟩
      · cases e; exact hreg
      · refine hkeep q h' ?_ (hi.held j q h' e)
        rintro rfl
        have := get_of_holds hi e
        rw [hnone] at this
        cases this
    · intro a b hm
      rcases List.mem_cons.mp hm with e | e
      · cases e
      · exact hi.search a b e
  | drop i p h ht => exact hi.thread i _ (by intro p h e; cases e) w.store.counter w.lock w.log hi.search
  | newCaches =>
    refine ⟨hi.wf, hi.held, ?_, hi.calm, hi.search⟩
    intro c hc
    rcases List.mem_append.mp hc with hc | hc
    · exact hi.caches c hc
    · rw [List.mem_singleton.mp hc]
      intro s v r hl
      cases hl
  | search i p h j c c' r ht hc hg =>
    obtain ⟨c'', he, hok⟩ := cachesGet_spec (hi.caches c (List.mem_of_getElem? hc)) (hi.held i p h ht).2
    rw [hg] at he
    have he : (c', r) = (c'', h.reg) := by injection he
    obtain ⟨rfl, rfl⟩ := Prod.mk.inj he
    refine ⟨hi.wf, hi.held, ?_, hi.calm, ?_⟩
    · intro c0 hc0
      rcases List.mem_or_eq_of_mem_set hc0 with hm | rfl
      · exact hi.caches c0 hm
      · exact hok
    · intro a b hm
      rcases List.mem_cons.mp hm with e | e
      · cases e; rfl
      · exact hi.search a b e
  | searchCrash i p h j c ht hc hg =>
    obtain ⟨c'', he, hok⟩ := cachesGet_spec (hi.caches c (List.mem_of_getElem? hc)) (hi.held i p h ht).2
    rw [hg] at he
    cases he

theorem storeInv {w : World V} (h : StoreReach F w) : StoreInv w := by
  induction h with
  | init => exact storeInv_init
  | step _ hs ih => exact storeInv_step ih hs

/-! ## Where regexes come from -/

/-- Requests are allowed ones, and compiled regexes come from them. -/
def Pc.Good (F : Str → (Str → Option V) → Prop) : Pc V → Prop
  | .start p f => F p f
  | .factory p f => F p f
  | .waiting p v => ∃ f, F p f ∧ f p = some v
  | .collect p v _ => ∃ f, F p f ∧ f p = some v
  | .finish p v => ∃ f, F p f ∧ f p = some v
  | .holds _ _ => True
  | .failed p => ∃ f, F p f ∧ f p = none
  | .done => True

structure ProvInv (F : Str → (Str → Option V) → Prop) (w : World V) : Prop where
  regs : ∀ p v, (p, v) ∈ w.regs → ∃ f, F p f ∧ f p = some v
  threads : ∀ pc ∈ w.threads, pc.Good F

theorem good_set {l : List (Pc V)} (h : ∀ pc ∈ l, pc.Good F) (i : Nat) {pc : Pc V} (hpc : pc.Good F) :
    ∀ pc' ∈ l.set i pc, pc'.Good F := by
  intro pc' hm
  rcases List.mem_or_eq_of_mem_set hm with hm | rfl
  · exact h pc' hm
  · exact hpc

theorem provInv_step {w w' : World V} (hi : ProvInv F w) (hs : StoreStep F w w') : ProvInv F w' := by
  cases hs with
  | spawn p f hf =>
    refine ⟨hi.regs, ?_⟩
    intro pc hm
    rcases List.mem_append.mp hm with hm | hm
    · exact hi.threads pc hm
    · rw [List.mem_singleton.mp hm]; exact hf
  | found i p f h ht hl hg => exact ⟨hi.regs, good_set hi.threads i trivial⟩
  | missing i p f ht hl hg =>
    exact ⟨hi.regs, good_set hi.threads i (hi.threads _ (List.mem_of_getElem? ht) : F p f)⟩
  | built i p f v ht hf =>
    exact ⟨hi.regs, good_set hi.threads i ⟨f, (hi.threads _ (List.mem_of_getElem? ht) : F p f), hf⟩⟩
  | rejected i p f ht hf =>
    exact ⟨hi.regs, good_set hi.threads i ⟨f, (hi.threads _ (List.mem_of_getElem? ht) : F p f), hf⟩⟩
  | lock i p v ht hl hc =>
    exact ⟨hi.regs, good_set hi.threads i (hi.threads (.waiting p v) (List.mem_of_getElem? ht))⟩
  | lockCollect i p v order ht hl hc ho =>
    exact ⟨hi.regs, good_set hi.threads i (hi.threads (.waiting p v) (List.mem_of_getElem? ht))⟩
  | visit i p v q todo st ht hg =>
    have hg' : ∃ f, F p f ∧ f p = some v := hi.threads (.collect p v (q :: todo)) (List.mem_of_getElem? ht)
    exact ⟨hi.regs, good_set hi.threads i hg'⟩
  | crash i p v q todo ht hg => exact ⟨hi.regs, hi.threads⟩
  | collected i p v ht =>
    exact ⟨hi.regs, good_set hi.threads i (hi.threads (.collect p v _) (List.mem_of_getElem? ht))⟩
  | reuse i p v h st ht he => exact ⟨hi.regs, good_set hi.threads i trivial⟩
  | store i p v h st slot ht hf he =>
    refine ⟨?_, good_set hi.threads i trivial⟩
    intro q x hm
    rcases List.mem_append.mp hm with hm | hm
    · exact hi.regs q x hm
    · obtain ⟨rfl, rfl⟩ := Prod.mk.inj (List.mem_singleton.mp hm)
      exact hi.threads (.finish q x) (List.mem_of_getElem? ht)
  | drop i p h ht => exact ⟨hi.regs, good_set hi.threads i trivial⟩
  | newCaches => exact ⟨hi.regs, hi.threads⟩
  | search i p h j c c' r ht hc hg => exact ⟨hi.regs, hi.threads⟩
  | searchCrash i p h j c ht hc hg => exact ⟨hi.regs, hi.threads⟩

theorem provInv {w : World V} (h : StoreReach F w) : ProvInv F w := by
  induction h with
  | init => exact ⟨(fun p v h => by cases h), (fun pc h => by cases h)⟩
  | step _ hs ih => exact provInv_step ih hs

/-! ## Collections -/

/-- What happened since the last collection started. -/
def sinceCollect (log : List StoreEv) : List StoreEv := log.takeWhile (fun e => e != .collect)

theorem sinceCollect_cons {e : StoreEv} (h : e ≠ .collect) (log : List StoreEv) :
    sinceCollect (e :: log) = e :: sinceCollect log := by
  unfold sinceCollect
  rw [List.takeWhile_cons_of_pos (by simpa using h)]

theorem sinceCollect_collect (log : List StoreEv) : sinceCollect (.collect :: log) = [] := by
  unfold sinceCollect
  rw [List.takeWhile_cons_of_neg (by simp)]

def StoreEv.isAdded : StoreEv → Bool
  | .added _ => true
  | _ => false

def Pc.Inside : Pc V → Prop
  | .collect _ _ _ => True
  | .finish _ _ => True
  | _ => False

structure LogInv (w : World V) : Prop where
  count : w.store.counter = (sinceCollect w.log).count .insert
  small : w.store.counter < gcFrequency
  owner : ∀ (i : Nat) (pc : Pc V), w.threads[i]? = some pc → pc.Inside → w.lock = some i
  added : (sinceCollect w.log).countP StoreEv.isAdded ≤ w.store.counter + (if w.lock.isSome then 0 else 1)
  entries : ∀ p ∈ w.store.index.map (·.1),
    (∃ (i : Nat) (q : Str) (v : V) (todo : List Str), w.threads[i]? = some (.collect q v todo) ∧ p ∈ todo) ∨
    StoreEv.kept p ∈ sinceCollect w.log ∨ StoreEv.added p ∈ sinceCollect w.log

theorem owner_set {l : List (Pc V)} {lock : Option Nat}
    (h : ∀ (i : Nat) (pc : Pc V), l[i]? = some pc → pc.Inside → lock = some i) (i : Nat) {pc : Pc V}
    (hpc : pc.Inside → lock = some i) :
    ∀ (j : Nat) (pc' : Pc V), (l.set i pc)[j]? = some pc' → pc'.Inside → lock = some j := by
  intro j pc' hj hin
  rcases getElem?_set_cases hj with ⟨rfl, rfl⟩ | ⟨_, e⟩
  · exact hpc hin
  · exact h j pc' e hin

/-- A running collection other than thread `i`'s is not affected by a change of thread `i`. -/
theorem collect_set {l : List (Pc V)} {i : Nat} {pc0 : Pc V} (h0 : l[i]? = some pc0) (hpc : ∀ q v t, pc0 ≠ .collect q v t)
    (pc : Pc V) {p : Str}
    (h : ∃ (j : Nat) (q : Str) (v : V) (todo : List Str), l[j]? = some (.collect q v todo) ∧ p ∈ todo) :
    ∃ (j : Nat) (q : Str) (v : V) (todo : List Str), (l.set i pc)[j]? = some (.collect q v todo) ∧ p ∈ todo := by
  obtain ⟨j, q, v, todo, hj, hp⟩ := h
  refine ⟨j, q, v, todo, ?_, hp⟩
  rw [List.getElem?_set_ne]
  · exact hj
  · rintro rfl
    rw [h0] at hj
    exact hpc q v todo (Option.some.inj hj)

/-- A thread outside of `insert` changes to another state outside of `insert`. -/
theorem LogInv.outside {w : World V} (hi : LogInv w) {i : Nat} {pc0 pc : Pc V} (h0 : w.threads[i]? = some pc0)
    (hpc0 : ¬ pc0.Inside) (hpc : ¬ pc.Inside) : LogInv { w with threads := w.threads.set i pc } := by
  refine ⟨hi.count, hi.small, owner_set hi.owner i (fun h => absurd h hpc), hi.added, ?_⟩
  intro p hp
  rcases hi.entries p hp with h | h
  · exact .inl (collect_set h0 (by rintro q v t rfl; exact hpc0 trivial) pc h)
  · exact .inr h

theorem logInv_step {w w' : World V} (hv : StoreInv w) (hi : LogInv w) (hs : StoreStep F w w') : LogInv w' := by
  cases hs with
  | spawn p f hf =>
    refine ⟨hi.count, hi.small, ?_, hi.added, ?_⟩
    · intro j pc hj hin
      rcases getElem?_append_one hj with e | ⟨_, e⟩
      · exact hi.owner j pc e hin
      · subst e; exact absurd hin id
    · intro q hq
      rcases hi.entries q hq with ⟨j, q', v, todo, hj, hm⟩ | h
      · refine .inl ⟨j, q', v, todo, ?_, hm⟩
        show (w.threads ++ [Pc.start p f])[j]? = _
        rw [List.getElem?_append_left (List.getElem?_eq_some_iff.mp hj).1]
        exact hj
      · exact .inr h
  | found i p f h ht hl hg => exact hi.outside ht id id
  | missing i p f ht hl hg => exact hi.outside ht id id
  | built i p f v ht hf => exact hi.outside ht id id
  | rejected i p f ht hf => exact hi.outside ht id id
  | lock i p v ht hl hc =>
    refine ⟨?_, hc, ?_, ?_, ?_⟩
    · show w.store.counter + 1 = _
      rw [sinceCollect_cons (by intro e; cases e), List.count_cons_self, hi.count]
    · intro j pc hj hin
      rcases getElem?_set_cases hj with ⟨rfl, rfl⟩ | ⟨_, e⟩
      · rfl
      · have := hi.owner j pc e hin
        rw [hl] at this
        cases this
    · show _ ≤ w.store.counter + 1 + 0
      rw [sinceCollect_cons (by intro e; cases e), List.countP_cons_of_neg (by simp [StoreEv.isAdded])]
      have := hi.added
      rw [hl] at this
      exact this
    · intro q hq
      rcases hi.entries q hq with h | h
      · exact .inl (collect_set ht (by intro q v t e; cases e) _ h)
      · refine .inr ?_
        show StoreEv.kept q ∈ sinceCollect (_ :: w.log) ∨ StoreEv.added q ∈ sinceCollect (_ :: w.log)
        rw [sinceCollect_cons (by intro e; cases e)]
        exact h.imp (List.mem_cons_of_mem _) (List.mem_cons_of_mem _)
  | lockCollect i p v order ht hl hc ho =>
    refine ⟨?_, (by decide : 0 < gcFrequency), ?_, ?_, ?_⟩
    · show 0 = _
      rw [sinceCollect_collect]
      rfl
    · intro j pc hj hin
      rcases getElem?_set_cases hj with ⟨rfl, rfl⟩ | ⟨_, e⟩
      · rfl
      · have := hi.owner j pc e hin
        rw [hl] at this
        cases this
    · rw [sinceCollect_collect]
      exact Nat.zero_le _
    · intro q hq
      refine .inl ⟨i, p, v, order, ?_, ho.mem_iff.mpr hq⟩
      exact List.getElem?_set_self (List.getElem?_eq_some_iff.mp ht).1
  | visit i p v q todo st ht hg =>
    obtain ⟨st', he, hcase⟩ := gcEntry_spec hv.wf w.alive q
    rw [hg] at he
    obtain rfl : st = st' := by injection he
    have hcounter : st.counter = w.store.counter := by
      rcases hcase with ⟨rfl, _⟩ | ⟨k, r, _, _, _, _, rfl⟩ <;> rfl
    have hlog : ∀ e, e ∈ sinceCollect w.log →
        e ∈ sinceCollect (if (w.store.get w.alive q).isSome then StoreEv.kept q :: w.log else w.log) := by
      intro e he
      split
      · rw [sinceCollect_cons (by intro e; cases e)]
        exact List.mem_cons_of_mem _ he
      · exact he
    refine ⟨?_, ?_, owner_set hi.owner i (fun _ => hi.owner i _ ht trivial), ?_, ?_⟩
    · show st.counter = _
      rw [hcounter, hi.count]
      split
      · rw [sinceCollect_cons (by intro e; cases e), List.count_cons_of_ne (by intro e; cases e)]
      · rfl
    · show st.counter < _
      rw [hcounter]
      exact hi.small
    · show _ ≤ st.counter + _
      rw [hcounter]
      refine Nat.le_trans (Nat.le_of_eq ?_) hi.added
      split
      · rw [sinceCollect_cons (by intro e; cases e), List.countP_cons_of_neg (by simp [StoreEv.isAdded])]
      · rfl
    · intro q' hq'
      have hold : q' ∈ w.store.index.map (·.1) := by
        rcases hcase with ⟨rfl, _⟩ | ⟨k, r, _, _, _, _, rfl⟩
        · exact hq'
        · obtain ⟨e, he, rfl⟩ := List.mem_map.mp hq'
          exact List.mem_map_of_mem (List.mem_filter.mp he).1
      rcases hi.entries q' hold with ⟨j, q2, v2, todo2, hj, hm⟩ | h
      · by_cases hji : j = i
        · subst hji
          rw [ht] at hj
          cases hj
          rcases List.mem_cons.mp hm with rfl | hm
          · rcases hcase with ⟨rfl, hk⟩ | ⟨k, r, _, _, _, _, rfl⟩
            · refine .inr (.inl ?_)
              dsimp only
              rw [if_pos (hk hold), sinceCollect_cons (by intro e; cases e)]
              exact List.mem_cons_self
            · obtain ⟨e, he, h⟩ := List.mem_map.mp hq'
              have := (List.mem_filter.mp he).2
              exact absurd h (by simpa using this)
          · exact .inl ⟨j, p, v, todo, List.getElem?_set_self (List.getElem?_eq_some_iff.mp ht).1, hm⟩
        · exact .inl ⟨j, q2, v2, todo2, by
            show (w.threads.set i _)[j]? = _
            rw [List.getElem?_set_ne (fun e => hji e.symm)]; exact hj, hm⟩
      · exact .inr (h.imp (hlog _) (hlog _))
  | crash i p v q todo ht hg => exact ⟨hi.count, hi.small, hi.owner, hi.added, hi.entries⟩
  | collected i p v ht =>
    refine ⟨hi.count, hi.small, owner_set hi.owner i (fun _ => hi.owner i _ ht trivial), hi.added, ?_⟩
    intro q hq
    rcases hi.entries q hq with ⟨j, q2, v2, todo2, hj, hm⟩ | h
    · by_cases hji : j = i
      · subst hji
        rw [ht] at hj
        cases hj
        cases hm
      · exact .inl ⟨j, q2, v2, todo2, by
            show (w.threads.set i _)[j]? = _
            rw [List.getElem?_set_ne (fun e => hji e.symm)]; exact hj, hm⟩
    · exact .inr h
  | reuse i p v h st ht he =>
    obtain ⟨rfl, hg⟩ := insertNew_reuse he
    have hlock := hi.owner i _ ht trivial
    refine ⟨hi.count, hi.small, ?_, ?_, ?_⟩
    · intro j pc hj hin
      rcases getElem?_set_cases hj with ⟨rfl, rfl⟩ | ⟨hne, e⟩
      · exact absurd hin id
      · have := hi.owner j pc e hin
        rw [hlock] at this
        exact absurd (Option.some.inj this).symm hne
    · have := hi.added
      rw [hlock] at this
      exact Nat.le_trans this (Nat.add_le_add_left (Nat.zero_le _) _)
    · intro q hq
      rcases hi.entries q hq with h | h
      · exact .inl (collect_set ht (by intro q v t e; cases e) _ h)
      · exact .inr h
  | store i p v h st slot ht hf he =>
    obtain ⟨hwf, hreg, hr, hcounter, hindex, hnone, hkeep, hcaches⟩ := insertNew_spec hv.wf hf he v
    have hlock := hi.owner i _ ht trivial
    refine ⟨?_, ?_, ?_, ?_, ?_⟩
    · show st.counter = _
      rw [hcounter, hi.count, sinceCollect_cons (by intro e; cases e), List.count_cons_of_ne (by intro e; cases e)]
    · show st.counter < _
      rw [hcounter]
      exact hi.small
    · intro j pc hj hin
      rcases getElem?_set_cases hj with ⟨rfl, rfl⟩ | ⟨hne, e⟩
      · exact absurd hin id
      · have := hi.owner j pc e hin
        rw [hlock] at this
        exact absurd (Option.some.inj this).symm hne
    · show _ ≤ st.counter + 1
      rw [hcounter, sinceCollect_cons (by intro e; cases e), List.countP_cons_of_pos (by rfl)]
      have := hi.added
      rw [hlock] at this
      exact Nat.add_le_add_right this 1
    · intro q hq
      have hq : q ∈ st.index.map (·.1) := hq
      rw [hindex] at hq
      show _ ∨ StoreEv.kept q ∈ sinceCollect (_ :: w.log) ∨ StoreEv.added q ∈ sinceCollect (_ :: w.log)
      rw [sinceCollect_cons (by intro e; cases e)]
      rcases List.mem_cons.mp hq with rfl | hq
      · exact .inr (.inr List.mem_cons_self)
      · obtain ⟨e, he, rfl⟩ := List.mem_map.mp hq
        rcases hi.entries e.1 (List.mem_map_of_mem (List.mem_filter.mp he).1) with h | h
        · exact .inl (collect_set ht (by intro q v t e; cases e) _ h)
        · exact .inr (h.imp (List.mem_cons_of_mem _) (List.mem_cons_of_mem _))
  | drop i p h ht => exact hi.outside ht id id
  | newCaches => exact ⟨hi.count, hi.small, hi.owner, hi.added, hi.entries⟩
  | search i p h j c c' r ht hc hg =>
    refine ⟨?_, hi.small, hi.owner, ?_, ?_⟩
    · dsimp only
      rw [sinceCollect_cons (by intro e; cases e), List.count_cons_of_ne (by intro e; cases e)]
      exact hi.count
    · dsimp only
      rw [sinceCollect_cons (by intro e; cases e), List.countP_cons_of_neg (by simp [StoreEv.isAdded])]
      exact hi.added
    · intro q hq
      rcases hi.entries q hq with h | h
      · exact .inl h
      · refine .inr ?_
        dsimp only
        rw [sinceCollect_cons (by intro e; cases e)]
        exact h.imp (List.mem_cons_of_mem _) (List.mem_cons_of_mem _)
  | searchCrash i p h j c ht hc hg => exact ⟨hi.count, hi.small, hi.owner, hi.added, hi.entries⟩

theorem logInv {w : World V} (h : StoreReach F w) : LogInv w := by
  induction h with
  | init =>
    refine ⟨rfl, (by decide : 0 < gcFrequency), ?_, (by decide : 0 ≤ 0 + 1), ?_⟩
    · intro i pc h; cases h
    · intro p h; cases h
  | step hr hs ih => exact logInv_step (storeInv hr) ih hs

end Sds
