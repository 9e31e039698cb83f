import Verif.Lemmas.StoreSize
import Verif.Props.Store

/-! # C101: the regex store does not grow with the number of regexes ever compiled

`SmallReach F N w`: `w` can be reached by any number of clients, interleaved in any way, in a process in which at no
time more than `N` different patterns are in use. -/

namespace Sds.Props

open Sds.Spec

variable {V : Type} {F : Str → (Str → Option V) → Prop} {N : Nat}

/-- The index, the slot map and every map of caches have at most 1000 entries more than there were patterns in use at
the same time. -/
theorem C101_size {w : World V} (h : SmallReach F N w) :
    w.store.index.length ≤ N + 1000 ∧ w.store.slots.length ≤ N + 1000 ∧ ∀ c ∈ w.caches, c.length ≤ N + 1000 := by
  have hs := sizeInv h
  exact ⟨hs.index, hs.slots, fun c hc =>
    Nat.le_trans (caches_le ((storeInv (smallReach_reach h)).caches c hc) (hs.caches c hc)) hs.slots⟩

/-- The keys are small numbers: no slot number exceeds the bound, so the vectors behind the slot map and behind the
maps of caches, which are indexed by slot, do not either. -/
theorem C101_slots {w : World V} (h : SmallReach F N w) :
    (∀ i p hd, Owns w i p hd → hd.key.1 < N + 1000) ∧ (∀ c ∈ w.caches, ∀ e ∈ c, e.1 < N + 1000) := by
  have hs := sizeInv h
  have hv := storeInv (smallReach_reach h)
  refine ⟨fun i p hd ho => ?_, fun c hc e he => ?_⟩
  · exact Nat.lt_of_lt_of_le (List.getElem?_eq_some_iff.mp (hv.held i p hd ho).2).1 hs.slots
  · obtain ⟨s, v, r⟩ := e
    obtain ⟨_, _, hx, _⟩ := hv.caches c hc s v r (lookup_of_mem (hs.caches c hc) he)
    exact Nat.lt_of_lt_of_le (List.getElem?_eq_some_iff.mp hx).1 hs.slots

/-- Non-vacuity: with at most one pattern in use at a time any number of regexes can be compiled. -/
theorem C101_compiled {p : Str} {f : Str → Option V} {v : V} (hF : F p f) (hf : f p = some v) (n : Nat) :
    ∃ w, SmallReach F 1 w ∧ w.regs.length = n := by
  have : ∃ w, SmallReach F 1 w ∧ NobodyBusy w ∧ w.regs.length = n := by
    induction n with
    | zero => exact ⟨World.init V, .init, ⟨rfl, fun pc h => by cases h⟩, rfl⟩
    | succ n ih =>
      obtain ⟨w, hr, hi, hn⟩ := ih
      obtain ⟨w', hr', hi', hn'⟩ := compile_one hF hf hr hi
      exact ⟨w', hr', hi', by rw [hn', hn]⟩
  obtain ⟨w, hr, _, hn⟩ := this
  exact ⟨w, hr, hn⟩

/-- A million regexes compiled, and the store has at most 1001 entries. -/
example : ∃ w : World Bool, SmallReach (fun _ _ => True) 1 w ∧ w.regs.length = 1000000 ∧ w.store.index.length ≤ 1001 := by
  obtain ⟨w, hr, hn⟩ := C101_compiled (F := fun _ _ => True) (p := ['a']) (f := fun _ => some true) (v := true) trivial rfl 1000000
  exact ⟨w, hr, hn, (C101_size hr).1⟩

/-- What stays although nobody needs it (part of the 1000): the cache of a regex that was dropped remains in its map,
and its entry in the store, until a collection or a new regex in the same slot. -/
theorem C101_dead_cache : ∃ w : World Bool, SmallReach bothKinds 1 w ∧ w.alive 0 = false ∧ w.caches = [[(0, 0, 0)]] ∧
    w.store.slots = [(0, some 0)] := by
  have one : ∀ {w : World Bool} {pc : Pc Bool}, w.threads = [pc] → AtMostInUse 1 w :=
    fun h => atMost_one (ts := []) (by intro pc h; cases h) h
  have r5 : SmallReach bothKinds 1 w5 := by
    refine .step (.step (.step (.step (.step .init step1 ?_ (one rfl)) step2 ?_ (one rfl)) step3 ?_ (one rfl)) step4 ?_
      (one rfl)) step5 ?_ (one rfl)
    all_goals intro _ s v e; cases e
  have s6 : StoreStep bothKinds w5 { w5 with caches := [[]] } := .newCaches w5
  have s7 : StoreStep bothKinds { w5 with caches := [[]] }
      { w5 with caches := [[(0, 0, 0)]], log := .search 0 0 :: w5.log } :=
    .search { w5 with caches := [[]] } 0 etePattern h0 0 [] [(0, 0, 0)] 0 rfl rfl rfl
  have s8 : StoreStep bothKinds { w5 with caches := [[(0, 0, 0)]], log := .search 0 0 :: w5.log }
      { w5 with caches := [[(0, 0, 0)]], log := .search 0 0 :: w5.log, threads := [.done] } :=
    .drop { w5 with caches := [[(0, 0, 0)]], log := .search 0 0 :: w5.log } 0 etePattern h0 rfl
  have no : ∀ n : Nat, ¬ n < n := Nat.lt_irrefl
  exact ⟨_, .step (.step (.step r5 s6 (fun h => absurd h (no _)) (one rfl)) s7 (fun h => absurd h (no _)) (one rfl)) s8
    (fun h => absurd h (no _)) (one rfl), rfl, rfl, rfl⟩

end Sds.Props
