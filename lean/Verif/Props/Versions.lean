import Verif.Lemmas.VersionsRun
import Verif.Lemmas.VersionsStore
import Verif.Props.Store

/-! # C95: the regex store with 32-bit versions -/

namespace Sds.Props

open Sds.Spec

variable {V : Type} {F : Str → (Str → Option V) → Prop} {zero : Bool}

/-- The claim, while at most 2^30 regexes were stored since the start of the process: nothing panicked, every search used
the cache of its own regex, and the next one will, too. -/
theorem C95_own_cache_partial {w : World V} (hr : Reach32 zero F w) (hb : (addedIn w.log).length ≤ 1073741824) :
    w.crashed = false ∧
    (∀ a b, StoreEv.search a b ∈ w.log → a = b) ∧
    (∀ i p h c, Owns w i p h → c ∈ w.caches → ∃ c', Caches.get32 zero c h = .ok (c', h.reg)) := by
  have hr' := reach_of_reach32 hr hb
  refine ⟨C41_no_panic hr', (C62_own_cache hr').1, ?_⟩
  intro i p h c ho hc
  obtain ⟨c', he⟩ := (C62_own_cache hr').2 i p h c ho hc
  have hi := storeInv hr'
  exact ⟨c', by rw [get32_eq (versionsOk hr') hb (hi.caches c hc) (hi.held i p h ho).2]; exact he⟩

/-- The store itself never goes wrong, however many regexes were stored: index and slot map stay in bijection, a lookup
returns a regex for the pattern, an owned regex is found, and no collection panics. -/
theorem C95_store_unaffected {w : World V} (hr : Reach32 zero F w) :
    Bijection w.store ∧
    (∀ p h, w.store.get w.alive p = some h → ∃ v, w.regs[h.reg]? = some (p, v)) ∧
    (∀ i p h, Owns w i p h → w.store.get w.alive p = some h) ∧
    (∀ q, ∃ st, w.store.gcEntry32 w.alive q = .ok st) := by
  have hi := storeInv32 hr
  refine ⟨bijection_of_wf hi.wf, ?_, fun i p h ho => get_of_holds32 hi ho, ?_⟩
  · intro p h hg
    obtain ⟨hm, hs⟩ := get_some32 hg
    obtain ⟨r, v, hs', hv⟩ := hi.wf.slot p h.key hm
    rw [hs] at hs'
    cases hs'
    exact ⟨v, hv⟩
  · intro q
    obtain ⟨st, he, _⟩ := gcEntry32_spec hi.wf w.alive q
    exact ⟨st, he⟩

/-! ## Where the claim fails

One pattern is requested and dropped again and again, each time by one client (and now and then by two at once); a cache
that was used with its first regex is not used meanwhile. -/

/-- The pattern that comes and goes. -/
def comingPattern : Str := ['q']
/-- Any pattern is requested with the factory for rules. -/
def onlyRules : Str → (Str → Option Bool) → Prop := fun _ f => f = ruleFactory

/-- After 2^30 reuses of a slot: a search with an owned regex panics. -/
theorem C95_search_panics (zero : Bool) : ∃ w : World Bool, Reach32 zero onlyRules w ∧ w.crashed = true := by
  obtain ⟨w, i, r, hw, hcalm, ht, hc, _⟩ := reused (zero := zero) (F := onlyRules) (q := comingPattern) (p := etePattern)
    (f := ruleFactory) (g := ruleFactory) rfl rfl rfl rfl (by decide) 1073741823
  rw [show (1073741823 + 1) % slotVersions = 1073741824 by decide +kernel] at ht
  obtain ⟨j, hj⟩ := List.mem_iff_getElem?.mp hc
  exact ⟨_, .step hw (.searchCrash w i etePattern _ j _ ht hj
    (by simp [Caches.get32, show olderVersion 1073741824 0 = true by decide +kernel])), rfl⟩

/-- After 2^31 reuses: a search with an owned regex uses the cache of a regex for another pattern. -/
theorem C95_foreign_cache (zero : Bool) : ∃ (w : World Bool) (a b : Nat) (v v' : Bool), Reach32 zero onlyRules w ∧
    StoreEv.search a b ∈ w.log ∧ w.regs[a]? = some (etePattern, v) ∧ w.regs[b]? = some (comingPattern, v') := by
  obtain ⟨w, i, r, hw, hcalm, ht, hc, hr, ⟨y, hy⟩, _⟩ := reused (zero := zero) (F := onlyRules) (q := comingPattern)
    (p := etePattern) (f := ruleFactory) (g := ruleFactory) rfl rfl rfl rfl (by decide) 2147483647
  rw [show (2147483647 + 1) % slotVersions = 0 by decide +kernel] at ht
  obtain ⟨j, hj⟩ := List.mem_iff_getElem?.mp hc
  exact ⟨_, r, 0, _, y, .step hw (.search w i etePattern _ j _ [(0, 0, 0)] 0 ht hj rfl), List.mem_cons_self, hr, hy⟩

/-- Non-vacuity of `C95_own_cache_partial`: a slot is reused, and a cache with its former regex is used. -/
example : ∃ (w : World Bool) (i : Nat) (h : Handle) (c : Caches), Reach32 true onlyRules w ∧ Owns w i etePattern h ∧
    h.key = (0, 1) ∧ c ∈ w.caches ∧ c = [(0, 0, 0)] := by
  obtain ⟨w, i, r, hw, hcalm, ht, hc, _⟩ := reused (zero := true) (F := onlyRules) (q := comingPattern) (p := etePattern)
    (f := ruleFactory) (g := ruleFactory) rfl rfl rfl rfl (by decide) 0
  exact ⟨w, i, _, _, hw, ht, rfl, hc, rfl⟩

end Sds.Props
