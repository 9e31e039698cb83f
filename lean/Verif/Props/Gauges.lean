import Verif.Lemmas.Gauges
import Verif.Props.Store

/-! # C78: the gauges of the regex store -/

namespace Sds.Props
open Sds Sds.Spec

variable {V : Type} {F : Str → (Str → Option V) → Prop} {size : Nat → Nat}

/-- Every step of the process is one with gauges, and the other way round. -/
theorem gaugeStep_total {w w' : World V} (h : StoreStep F w w') (g : Gauges) : ∃ g', GaugeStep F size (w, g) (w', g') := by
  have h' := h
  have hset : ∀ (i : Nat) (a b : Pc V), w.threads[i]? = some a → (∀ p v todo, a ≠ Pc.collect p v todo) →
      ∀ (j : Nat) p v todo, w.threads[j]? = some (Pc.collect p v todo) → (w.threads.set i b)[j]? = w.threads[j]? := by
    intro i a b hi ha j p v todo hj
    rw [List.getElem?_set_ne]
    rintro rfl
    rw [hi] at hj
    exact ha p v todo (Option.some.inj hj)
  cases h with
  | spawn p f hF =>
    refine ⟨_, .other _ _ _ h' rfl rfl ?_⟩
    intro j p v todo hj
    exact List.getElem?_append_left (List.getElem?_eq_some_iff.1 hj).1
  | found i p f h hi hl hg => exact ⟨_, .other _ _ _ h' rfl rfl (hset i _ _ hi (by intros; simp))⟩
  | missing i p f hi hl hg => exact ⟨_, .other _ _ _ h' rfl rfl (hset i _ _ hi (by intros; simp))⟩
  | built i p f v hi hf => exact ⟨_, .other _ _ _ h' rfl rfl (hset i _ _ hi (by intros; simp))⟩
  | rejected i p f hi hf => exact ⟨_, .other _ _ _ h' rfl rfl (hset i _ _ hi (by intros; simp))⟩
  | lock i p v hi hl hc => exact ⟨_, .other _ _ _ h' rfl rfl (hset i _ _ hi (by intros; simp))⟩
  | lockCollect i p v order hi hl hc hp => exact ⟨_, .other _ _ _ h' rfl rfl (hset i _ _ hi (by intros; simp))⟩
  | visit i p v q todo st hi hg => exact ⟨_, .visit _ _ _ i p v q todo hi h' rfl rfl hg⟩
  | crash i p v q todo hi hg => exact ⟨_, .other _ _ _ h' rfl rfl (fun _ _ _ _ _ => rfl)⟩
  | collected i p v hi => exact ⟨_, .collected _ _ _ i p v hi h' rfl rfl rfl⟩
  | reuse i p v h st hi he =>
    exact ⟨_, .other _ _ _ h' (by rw [(insertNew_reuse he).1]) rfl (hset i _ _ hi (by intros; simp))⟩
  | store i p v h st slot hi hf he => exact ⟨_, .store _ _ _ i p v h slot hi hf h' rfl rfl he⟩
  | drop i p h hi => exact ⟨_, .other _ _ _ h' rfl rfl (hset i _ _ hi (by intros; simp))⟩
  | newCaches => exact ⟨_, .other _ _ _ h' rfl rfl (fun _ _ _ _ _ => rfl)⟩
  | search i p h j c c' r hi hc hg => exact ⟨_, .other _ _ _ h' rfl rfl (fun _ _ _ _ _ => rfl)⟩
  | searchCrash i p h j c hi hc hg => exact ⟨_, .other _ _ _ h' rfl rfl (fun _ _ _ _ _ => rfl)⟩

theorem gaugeStep_store {w w' : World V} {g g' : Gauges} (h : GaugeStep F size (w, g) (w', g')) : StoreStep F w w' := by
  cases h <;> assumption

theorem gaugeReach_store {w : World V} {g : Gauges} (h : GaugeReach F size w g) : StoreReach F w := by
  induction h with
  | init => exact .init
  | step _ hs ih => exact .step ih (gaugeStep_store hs)

/-- Every reachable state has gauges. -/
theorem gaugeReach_exists {w : World V} (h : StoreReach F w) : ∃ g, GaugeReach F size w g := by
  induction h with
  | init => exact ⟨_, .init⟩
  | step _ hs ih =>
    obtain ⟨g, hg⟩ := ih
    obtain ⟨g', hg'⟩ := gaugeStep_total (size := size) hs g
    exact ⟨g', .step hg hg'⟩

private theorem gauge_inv {w : World V} {g : Gauges} (h : GaugeReach F size w g) :
    (NotCollecting w → g.regexes = slotLen w.store.slots) ∧
      g.cache + (everStored size w).sum = slotSum size w.store.slots := by
  induction h with
  | init => exact ⟨fun _ => rfl, rfl⟩
  | @step w w' g g' hr hs ih =>
    cases hs with
    | visit _ _ _ i p v q todo hi' hst hregs ht hg =>
      constructor
      · intro hn
        refine absurd ?_ (hn i p v todo)
        rw [ht, List.getElem?_set_self (List.getElem?_eq_some_iff.1 hi').1]
      · have h1 := ih.2
        have h2 := gcFreed_spec (size := size) hg
        unfold everStored at h1 ⊢
        rw [hregs]
        simp only [Gauges.addCache]
        omega
    | collected _ _ _ i p v hi' hst hs' hregs ht =>
      refine ⟨fun _ => by rw [hs']; rfl, ?_⟩
      have h1 := ih.2
      unfold everStored at h1 ⊢
      rw [hregs, hs']
      exact h1
    | store _ _ _ i p v h slot hi' hf hst hregs ht he =>
      refine ⟨fun _ => rfl, ?_⟩
      have h1 := ih.2
      have h2 := insertFreed_spec (size := size) hf he
      unfold everStored at h1 ⊢
      rw [hregs]
      simp only [Gauges.setTotal, Gauges.addCache, List.length_append, List.length_cons, List.length_nil, Nat.zero_add,
        List.range_succ, List.map_append, List.sum_append, List.map_cons, List.map_nil, List.sum_cons, List.sum_nil]
      omega
    | other _ _ _ hst hs' hregs ht =>
      constructor
      · intro hn
        rw [hs']
        refine ih.1 fun i p v todo hc => hn i p v todo ?_
        rw [ht i p v todo hc]
        exact hc
      · have h1 := ih.2
        unfold everStored at h1 ⊢
        rw [hregs, hs']
        exact h1

/-- C78: whatever clients do, when no collection is running, `total_regexes` is the number of patterns in the store. -/
theorem C78_total_regexes {w : World V} {g : Gauges} (h : GaugeReach F size w g) (hn : NotCollecting w) :
    g.regexes = w.store.index.length := by
  rw [(gauge_inv h).1 hn, slotLen_eq (storeInv (gaugeReach_store h)).wf]

/-- C78 (partial): `total_regex_cache_size` is the total size of the caches of the regexes in the store minus that of
all regexes ever stored.  Missing: the latter is never added. -/
theorem C78_cache_gauge_partial {w : World V} {g : Gauges} (h : GaugeReach F size w g) :
    g.cache = ((cacheSizes size w.store).sum : Int) - (everStored size w).sum := by
  have h1 := (gauge_inv h).2
  rw [cacheSizes_sum (storeInv (gaugeReach_store h)).wf]
  omega

/-- So it is right exactly when no regex with a cache was ever stored. -/
theorem C78_cache_gauge_right_iff {w : World V} {g : Gauges} (h : GaugeReach F size w g) :
    g.cache = ((cacheSizes size w.store).sum : Int) ↔ ∀ r < w.regs.length, size r = 0 := by
  rw [C78_cache_gauge_partial h]
  have key : ∀ n, ((List.range n).map size).sum = 0 ↔ ∀ r < n, size r = 0 := by
    intro n
    induction n with
    | zero => simp
    | succ n ih =>
      simp only [List.range_succ, List.map_append, List.sum_append, List.map_cons, List.map_nil, List.sum_cons, List.sum_nil,
        Nat.add_zero, Nat.add_eq_zero_iff, ih]
      constructor
      · rintro ⟨h1, h2⟩ r hr
        rcases Nat.lt_succ_iff_lt_or_eq.1 hr with h | rfl
        · exact h1 r h
        · exact h2
      · intro h
        exact ⟨fun r hr => h r (by omega), h n (by omega)⟩
  rw [← key]
  unfold everStored
  omega

/-- C78 fails for `total_regex_cache_size`: with one regex in the store, whose cache has 64 bytes, it is still 0. -/
theorem C78_cache_gauge_wrong : ∃ (w : World Bool) (g : Gauges), GaugeReach bothKinds (fun _ => 64) w g ∧ NotCollecting w ∧
    g.cache = 0 ∧ cacheSizes (fun _ => 64) w.store = [64] := by
  obtain ⟨g, hg⟩ := gaugeReach_exists (size := fun _ => 64) reach6
  refine ⟨w6, g, hg, ?_, ?_, by decide⟩
  · intro i p v todo
    match i with
    | 0 => simp [w6]
    | 1 => simp [w6]
    | n + 2 => simp [w6]
  · rw [C78_cache_gauge_partial hg]
    decide

/-- The same state meets the hypotheses of `C78_total_regexes`: one pattern. -/
example : ∃ g, GaugeReach bothKinds (fun _ => 64) w6 g ∧ g.regexes = 1 := by
  obtain ⟨g, hg⟩ := gaugeReach_exists (size := fun _ => 64) reach6
  refine ⟨g, hg, C78_total_regexes hg ?_⟩
  intro i p v todo
  match i with
  | 0 => simp [w6]
  | 1 => simp [w6]
  | n + 2 => simp [w6]

end Sds.Props
