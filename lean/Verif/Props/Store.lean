import Verif.Lemmas.StoreMore

/-! # C41-C44, C62: the shared regex store

`StoreReach F w`: `w` can be reached by any number of clients, each running `get_memoized_regex` with a pattern and
a factory allowed by `F`, interleaved in any way with each other, with drops and with searches. -/

namespace Sds.Props

open Sds.Spec

variable {V : Type} {F : Str → (Str → Option V) → Prop}

/-! ## A process history for the examples

A regex is represented by whether it ignores case.  The first client compiles the included keyword `été`, the second
asks for a rule with the pattern `été`. -/

/-- The pattern generated for the keyword `été`: the keyword itself, since word boundaries are only added next to ASCII
letters and digits (proximity_keywords/mod.rs 238-262). -/
def etePattern : Str := ['é', 't', 'é']
/-- The factory for keywords: ignores case (proximity_keywords/mod.rs 222-235). -/
def kwFactory : Str → Option Bool := fun _ => some true
/-- The factory for rules: respects case (validation.rs 64-72). -/
def ruleFactory : Str → Option Bool := fun _ => some false
/-- Both are used for any pattern. -/
def bothKinds : Str → (Str → Option Bool) → Prop := fun _ f => f = kwFactory ∨ f = ruleFactory

def h0 : Handle := ⟨0, (0, 0)⟩
def st0 : RegexStore := ⟨[(etePattern, (0, 0))], [(0, some 0)], 1⟩

def w1 : World Bool := { World.init Bool with threads := [.start etePattern kwFactory] }
def w2 : World Bool := { w1 with threads := [.factory etePattern kwFactory] }
def w3 : World Bool := { w1 with threads := [.waiting etePattern true] }
def w4 : World Bool :=
  { w1 with threads := [.finish etePattern true], lock := some 0, store := ⟨[], [], 1⟩, log := [.insert] }
def w5 : World Bool :=
  { w1 with threads := [.holds etePattern h0], store := st0, regs := [(etePattern, true)],
            log := [.added etePattern, .insert] }
def w6 : World Bool := { w5 with threads := [.holds etePattern h0, .start etePattern ruleFactory] }
def w7 : World Bool := { w5 with threads := [.holds etePattern h0, .holds etePattern h0] }

theorem step1 : StoreStep bothKinds (World.init Bool) w1 := .spawn _ etePattern kwFactory (.inl rfl)
theorem step2 : StoreStep bothKinds w1 w2 := .missing w1 0 etePattern kwFactory rfl rfl rfl
theorem step3 : StoreStep bothKinds w2 w3 := .built w2 0 etePattern kwFactory true rfl rfl
theorem step4 : StoreStep bothKinds w3 w4 := .lock w3 0 etePattern true rfl rfl (by decide)
theorem step5 : StoreStep bothKinds w4 w5 := .store w4 0 etePattern true h0 st0 0 rfl (.inr rfl) rfl
theorem step6 : StoreStep bothKinds w5 w6 := .spawn w5 etePattern ruleFactory (.inr rfl)
theorem step7 : StoreStep bothKinds w6 w7 := .found w6 1 etePattern ruleFactory h0 rfl rfl rfl

theorem reach6 : StoreReach bothKinds w6 :=
  .step (.step (.step (.step (.step (.step .init step1) step2) step3) step4) step5) step6
theorem reach7 : StoreReach bothKinds w7 := .step reach6 step7

/-! ## C41 -/

/-- In every reachable state: index and slot map are in bijection; a lookup returns a regex compiled for exactly the
pattern; and as long as anybody owns a regex for a pattern, a lookup of the pattern returns that regex. -/
theorem C41_store_consistent {w : World V} (hr : StoreReach F w) :
    Bijection w.store ∧
    (∀ p h, w.store.get w.alive p = some h → ∃ v, w.regs[h.reg]? = some (p, v)) ∧
    (∀ i p h, Owns w i p h → w.store.get w.alive p = some h) := by
  have hi := storeInv hr
  refine ⟨bijection_of_wf hi.wf, ?_, fun i p h ho => get_of_holds hi ho⟩
  intro p h hg
  obtain ⟨⟨hm, hs⟩, _⟩ := get_some hi hg
  obtain ⟨r, v, hs', hv⟩ := hi.wf.slot p h.key hm
  rw [hs] at hs'
  cases hs'
  exact ⟨v, hv⟩

/-- The store never panics. -/
theorem C41_no_panic {w : World V} (hr : StoreReach F w) : w.crashed = false := (storeInv hr).calm

/-- In every reachable state a collection of any entry returns, and a search with an owned regex gets a cache of this regex. -/
theorem C41_calls_return {w : World V} (hr : StoreReach F w) :
    (∀ q, ∃ st, w.store.gcEntry w.alive q = .ok st) ∧
    (∀ i p h c, Owns w i p h → c ∈ w.caches → ∃ c', Caches.get c h = .ok (c', h.reg)) := by
  have hi := storeInv hr
  refine ⟨fun q => ?_, fun i p h c ho hc => ?_⟩
  · obtain ⟨st, h, _⟩ := gcEntry_spec hi.wf w.alive q
    exact ⟨st, h⟩
  · obtain ⟨c', h, _⟩ := cachesGet_spec (hi.caches c hc) (hi.held i p h ho).2
    exact ⟨c', h⟩

/-- Non-vacuity: a state with two owners, the second of which found the regex of the first. -/
example : StoreReach bothKinds w7 ∧ Owns w7 0 etePattern h0 ∧ Owns w7 1 etePattern h0 ∧
    w7.store.get w7.alive etePattern = some h0 := ⟨reach7, rfl, rfl, rfl⟩

/-! ## C42 -/

/-- All owners of a regex for the same pattern own the same regex, owners of different patterns different ones; and
the regex was made from exactly that pattern by the factory of some request for it. -/
theorem C42_one_regex_per_pattern {w : World V} (hr : StoreReach F w) {i : Nat} {p : Str} {h : Handle}
    (ho : Owns w i p h) :
    (∀ j q h', Owns w j q h' → (q = p ↔ h'.reg = h.reg) ∧ (q = p → h' = h)) ∧
    (∃ v f, w.regs[h.reg]? = some (p, v) ∧ F p f ∧ f p = some v) := by
  have hreg := (C41_store_consistent hr).2.1 p h ((C41_store_consistent hr).2.2 i p h ho)
  obtain ⟨v, hv⟩ := hreg
  obtain ⟨f, hf, hfp⟩ := (provInv hr).regs p v (List.mem_of_getElem? hv)
  refine ⟨?_, v, f, hv, hf, hfp⟩
  intro j q h' ho'
  have hsame : q = p → h' = h := by
    rintro rfl
    exact Option.some.inj (((C41_store_consistent hr).2.2 j q h' ho').symm.trans ((C41_store_consistent hr).2.2 i q h ho))
  refine ⟨⟨fun e => by rw [hsame e], fun e => ?_⟩, hsame⟩
  obtain ⟨v', hv'⟩ := (C41_store_consistent hr).2.1 q h' ((C41_store_consistent hr).2.2 j q h' ho')
  rw [e, hv] at hv'
  exact (Prod.mk.inj (Option.some.inj hv')).1.symm

/-- Only one client at a time is inside `insert`. -/
theorem C42_mutual_exclusion {w : World V} (hr : StoreReach F w) {i j : Nat} {a b : Pc V}
    (hi : w.threads[i]? = some a) (hj : w.threads[j]? = some b) (ha : a.Inside) (hb : b.Inside) : i = j :=
  Option.some.inj (((logInv hr).owner i a hi ha).symm.trans ((logInv hr).owner j b hj hb))

/-- The clients never get stuck: while a request is pending, a pending request can take a step. -/
theorem C42_no_deadlock {w : World V} (hr : StoreReach F w) {i : Nat} (hp : Pending w i) :
    ∃ j pc w', Pending w j ∧ StoreStep F w w' ∧ w'.threads = w.threads.set j pc ∧ w.threads[j]? ≠ some pc :=
  progress hr hp

example : StoreReach bothKinds w6 ∧ Pending w6 1 := ⟨reach6, _, rfl, trivial⟩

/-! ## C43 -/

/-- The claim fails: keyword patterns and rule patterns share the store, so a rule whose pattern is the one generated
for a keyword gets the keyword's regex, which ignores case. -/
theorem C43_history_dependent : ¬ HistoryFree bothKinds := by
  intro h
  obtain ⟨v, hv, hf⟩ := (h w6 w7 1 etePattern ruleFactory reach6 rfl (.step (.refl _) step7)).1 h0 rfl
  cases hv
  cases hf

/-- What the example means: the rule got a regex ignoring case where its own factory makes one respecting case. -/
example : Owns w7 1 etePattern h0 ∧ w7.regs[h0.reg]? = some (etePattern, true) ∧ ruleFactory etePattern = some false :=
  ⟨rfl, rfl, rfl⟩

theorem run_reach {w w' : World V} (hr : StoreReach F w) (h : Run F w w') : StoreReach F w' := by
  induction h with
  | refl => exact hr
  | step _ hs ih => exact .step ih hs

/-- The claim holds if no pattern is requested with factories that treat it differently (for instance if rules and
keywords never have the same pattern). -/
theorem C43_history_independent_partial (hF : ∀ p f g, F p f → F p g → f p = g p) : HistoryFree F := by
  intro w w' i p f hr ht hrun
  have hf : F p f := (provInv hr).threads _ (List.mem_of_getElem? ht)
  have hr' := run_reach hr hrun
  constructor
  · intro h ho
    obtain ⟨v, g, hv, hg, hgp⟩ := (C42_one_regex_per_pattern hr' ho).2
    exact ⟨v, hv, (hF p f g hf hg).trans hgp⟩
  · intro hfail
    obtain ⟨g, hg, hgp⟩ : ∃ g, F p g ∧ g p = none := (provInv hr').threads (.failed p) (List.mem_of_getElem? hfail)
    exact (hF p f g hf hg).trans hgp

/-- Non-vacuity: keyword patterns start with `(?-u:`, rule patterns do not. -/
example : ∀ p f g, (fun (p : Str) f => f = if p.take 5 = ['(', '?', '-', 'u', ':'] then kwFactory else ruleFactory) p f →
    (fun (p : Str) f => f = if p.take 5 = ['(', '?', '-', 'u', ':'] then kwFactory else ruleFactory) p g → f p = g p := by
  intro p f g hf hg
  rw [hf, hg]

/-! ## C44 -/

/-- An uninterrupted collection, in any order of the hash map: it does not panic, changes no lookup, and leaves
exactly the entries that are in use. -/
theorem C44_collection_exact {w : World V} (hr : StoreReach F w) {order : List Str}
    (ho : List.Perm order (w.store.index.map (·.1))) :
    ∃ st, w.store.gc w.alive order = .ok st ∧ Bijection st ∧
      (∀ p, st.get w.alive p = w.store.get w.alive p) ∧
      (∀ p, (∃ k, (p, k) ∈ st.index) ↔ ∃ i h, Owns w i p h) := by
  have hi := storeInv hr
  obtain ⟨st, he, hwf, _, hg, hm⟩ := gcLoop_spec (regs := w.regs) w.alive order { w.store with counter := 0 } hi.wf
  have hg' : ∀ p, st.get w.alive p = w.store.get w.alive p := fun p => hg p
  refine ⟨st, he, bijection_of_wf hwf, hg', fun p => ?_⟩
  have hmap : ∀ l : List (Str × Key), (∃ k, (p, k) ∈ l) ↔ p ∈ l.map (·.1) := fun l =>
    ⟨fun ⟨k, hk⟩ => List.mem_map_of_mem (f := (·.1)) hk, fun h => by
      obtain ⟨e, he, rfl⟩ := List.mem_map.mp h
      exact ⟨e.2, he⟩⟩
  rw [hmap, hm]
  constructor
  · rintro ⟨h1, h2⟩
    have h2 : (w.store.get w.alive p).isSome := h2 (ho.mem_iff.mpr h1)
    obtain ⟨h, hh⟩ := Option.isSome_iff_exists.mp h2
    obtain ⟨hreg, ha⟩ := get_some hi hh
    obtain ⟨i, q, hd, hq, hrq⟩ := holds_of_alive ha
    have hpq : q = p := by
      obtain ⟨_, hv⟩ := (C41_store_consistent hr).2.1 p h hh
      obtain ⟨_, hv'⟩ := (C41_store_consistent hr).2.1 q hd ((C41_store_consistent hr).2.2 i q hd hq)
      rw [hrq, hv] at hv'
      exact (Prod.mk.inj (Option.some.inj hv')).1.symm
    subst hpq
    exact ⟨i, hd, hq⟩
  · rintro ⟨i, h, hh⟩
    have hget := (C41_store_consistent hr).2.2 i p h hh
    exact ⟨List.mem_map_of_mem (f := (·.1)) (hi.held i p h hh).1, fun _ => by
      show (w.store.get w.alive p).isSome
      rw [hget]; rfl⟩

/-- A collection interrupted by other clients: no round of it changes the outcome of any lookup. -/
theorem C44_collection_invisible {w : World V} (hr : StoreReach F w) {i : Nat} {p q : Str} {v : V} {todo : List Str}
    (ht : w.threads[i]? = some (.collect p v (q :: todo))) :
    ∃ st, w.store.gcEntry w.alive q = .ok st ∧
      ∀ r, st.get { w with threads := w.threads.set i (.collect p v todo) }.alive r = w.store.get w.alive r := by
  obtain ⟨st, he, _, _, hg, _⟩ := gcEntry_get (storeInv hr).wf w.alive q
  refine ⟨st, he, fun r => ?_⟩
  have : World.alive { w with threads := w.threads.set i (.collect p v todo) } = w.alive := by
    funext x
    rw [Bool.eq_iff_iff]
    constructor
    · intro h
      obtain ⟨j, q', hd, hj, rfl⟩ := holds_of_alive h
      rcases getElem?_set_cases hj with ⟨_, e⟩ | ⟨_, e⟩
      · cases e
      · exact alive_of_holds e
    · intro h
      obtain ⟨j, q', hd, hj, rfl⟩ := holds_of_alive h
      refine alive_of_holds (w := { w with threads := w.threads.set i (.collect p v todo) }) (i := j) (p := q') ?_
      show (w.threads.set i _)[j]? = _
      rw [List.getElem?_set_ne]
      · exact hj
      · rintro rfl
        rw [ht] at hj
        cases hj
  rw [this]
  exact hg r

/-- The size of the store: whenever nobody is inside `insert`, every entry was found in use by the last collection or
was added since; at most 1000 were added since; fewer than 1000 insertions happened since. -/
theorem C44_store_bounded {w : World V} (hr : StoreReach F w) {recent : List StoreEv} (hs : SinceCollection w.log recent) :
    (w.lock = none → ∀ p k, (p, k) ∈ w.store.index → p ∈ keptIn recent ∨ p ∈ addedIn recent) ∧
    (w.lock = none → w.store.index.length ≤ (keptIn recent).length + (addedIn recent).length) ∧
    (addedIn recent).length ≤ 1000 ∧
    recent.count .insert < 1000 := by
  have hl := logInv hr
  have hrec := sinceCollect_of_spec hs
  have hent : w.lock = none → ∀ p k, (p, k) ∈ w.store.index → p ∈ keptIn recent ∨ p ∈ addedIn recent := by
    intro hlock p k hm
    rcases hl.entries p (List.mem_map_of_mem (f := (·.1)) hm) with ⟨i, q, v, todo, hi, _⟩ | h
    · have := hl.owner i _ hi trivial
      rw [hlock] at this
      cases this
    · rw [hrec] at h
      exact h.imp mem_keptIn.mpr mem_addedIn.mpr
  refine ⟨hent, ?_, ?_, ?_⟩
  · intro hlock
    rw [← List.length_append, ← List.length_map (f := (·.1))]
    refine length_le_of_nodup_subset (storeInv hr).wf.patterns ?_
    intro p hp
    obtain ⟨e, he, rfl⟩ := List.mem_map.mp hp
    exact List.mem_append.mpr (hent hlock e.1 e.2 he)
  · rw [addedIn_length, ← hrec]
    have h1 := hl.added
    have h2 : w.store.counter < 1000 := hl.small
    split at h1 <;> omega
  · rw [← hrec, ← hl.count]
    exact hl.small

/-- Every log has such a recent part. -/
theorem C44_recent_exists (log : List StoreEv) : ∃ recent, SinceCollection log recent := sinceCollection_exists log

/-- Non-vacuity: a collection of the store with one used entry, and the log of a process that never collected. -/
example : w7.store.gc w7.alive [etePattern] = .ok { st0 with counter := 0 } := rfl
example : (w7.store.gc (fun _ => false) [etePattern]) = .ok ⟨[], [(1, none)], 0⟩ := rfl
example : SinceCollection w7.log [.added etePattern, .insert] := ⟨by decide, .inl rfl⟩

/-! ## C62 -/

/-- Every search so far used the cache of its own regex; the next one will, too, with any cache map of the pool, and
does not panic. -/
theorem C62_own_cache {w : World V} (hr : StoreReach F w) :
    (∀ a b, StoreEv.search a b ∈ w.log → a = b) ∧
    (∀ i p h c, Owns w i p h → c ∈ w.caches → ∃ c', Caches.get c h = .ok (c', h.reg)) := by
  have hi := storeInv hr
  refine ⟨hi.search, ?_⟩
  intro i p h c ho hc
  obtain ⟨c', he, _⟩ := cachesGet_spec (hi.caches c hc) (hi.held i p h ho).2
  exact ⟨c', he⟩

/-- Non-vacuity: a cache map with a cache for the regex. -/
example : ∃ w : World Bool, StoreReach bothKinds w ∧ Owns w 1 etePattern h0 ∧ [(0, 0, 0)] ∈ w.caches ∧
    StoreEv.search 0 0 ∈ w.log := by
  have s1 : StoreStep bothKinds w7 { w7 with caches := [[]] } := .newCaches w7
  have s2 : StoreStep bothKinds { w7 with caches := [[]] }
      { w7 with caches := [[(0, 0, 0)]], log := .search 0 0 :: w7.log } :=
    .search { w7 with caches := [[]] } 0 etePattern h0 0 [] [(0, 0, 0)] 0 rfl rfl rfl
  exact ⟨_, .step (.step reach7 s1) s2, rfl, List.mem_cons_self, List.mem_cons_self⟩

end Sds.Props
