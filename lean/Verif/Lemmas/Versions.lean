import Verif.Model.Versions
import Verif.Spec.Store
import Verif.Lemmas.StoreMore

/-! # As long as no version wraps around, 32-bit versions make no difference -/

namespace Sds

variable {V : Type} {F : Str → (Str → Option V) → Prop} {zero : Bool}

/-- How many regexes were stored. -/
def World.adds (w : World V) : Nat := (Spec.addedIn w.log).length

/-- Versions are at most the number of regexes stored; occupied ones less. -/
def VersionsOk (n : Nat) (slots : List (Nat × Option Nat)) : Prop :=
  ∀ (s v : Nat) (o : Option Nat), slots[s]? = some (v, o) → v + (if o.isSome then 1 else 0) ≤ n

theorem VersionsOk.mono {n m : Nat} {slots : List (Nat × Option Nat)} (h : VersionsOk n slots) (hle : n ≤ m) :
    VersionsOk m slots := fun s v o e => Nat.le_trans (h s v o e) hle

theorem VersionsOk.remove {n : Nat} {slots : List (Nat × Option Nat)} (h : VersionsOk n slots) {k : Key} {r : Nat}
    (hs : slots[k.1]? = some (k.2, some r)) : VersionsOk n (slots.set k.1 (k.2 + 1, none)) := by
  intro s v o e
  rcases getElem?_set_cases e with ⟨_, e⟩ | ⟨_, e⟩
  · cases e
    have := h _ _ _ hs
    simpa using this
  · exact h s v o e

theorem addedIn_cons (e : StoreEv) (l : List StoreEv) :
    (Spec.addedIn (e :: l)).length = (Spec.addedIn l).length + (if e.isAdded then 1 else 0) := by
  cases e <;> simp [Spec.addedIn, StoreEv.isAdded]

theorem VersionsOk.insert {n : Nat} {st : RegexStore} (h : VersionsOk n st.slots) {slot r : Nat} (hf : st.Free slot) :
    VersionsOk (n + 1) (slotInsert st.slots slot r).1 := by
  obtain ⟨v, _, hnew, hold, hvac⟩ := slotInsert_spec (r := r) hf
  intro s x o e
  by_cases hs : s = slot
  · subst hs
    rw [hnew] at e
    cases e
    rcases hvac with hv | hv
    · have := h _ _ _ hv
      simpa using this
    · rcases hf with ⟨v', hv'⟩ | rfl
      · rw [hv] at hv'; cases hv'
      · have e0 : slotInsert st.slots st.slots.length r = (st.slots ++ [(0, some r)], (st.slots.length, 0)) := by
          unfold slotInsert; rw [hv]
        rw [e0] at hnew
        simp at hnew
        subst hnew
        simp
  · rw [hold s hs] at e
    exact Nat.le_trans (h s x o e) (Nat.le_succ n)

theorem versions_step {w w' : World V} (hi : StoreInv w) (h : VersionsOk w.adds w.store.slots) (hs : StoreStep F w w') :
    VersionsOk w'.adds w'.store.slots := by
  cases hs with
  | spawn p f hf => exact h
  | found i p f hd ht hl hg => exact h
  | missing i p f ht hl hg => exact h
  | built i p f v ht hf => exact h
  | rejected i p f ht hf => exact h
  | lock i p v ht hl hc => exact h
  | lockCollect i p v order ht hl hc ho => exact h
  | visit i p v q todo st ht hg =>
    have hadds : World.adds { w with
        store := st
        threads := w.threads.set i (Pc.collect p v todo)
        log := if (w.store.get w.alive q).isSome then .kept q :: w.log else w.log } = w.adds := by
      unfold World.adds
      dsimp only
      split
      · rfl
      · rfl
    rw [hadds]
    obtain ⟨st', he, hcase⟩ := gcEntry_spec hi.wf w.alive q
    rw [hg] at he
    obtain rfl : st = st' := by injection he
    rcases hcase with ⟨rfl, _⟩ | ⟨k, r, hm, hsl, hdead, hnone, rfl⟩
    · exact h
    · exact h.remove hsl
  | crash i p v q todo ht hg => exact h
  | collected i p v ht => exact h
  | reuse i p v hd st ht he =>
    obtain ⟨rfl, hg⟩ := insertNew_reuse he
    exact h
  | store i p v hd st slot ht hf he =>
    have hadds : World.adds { w with
        store := st, regs := w.regs ++ [(p, v)]
        threads := w.threads.set i (.holds p hd), lock := none, log := .added p :: w.log } = w.adds + 1 := rfl
    rw [hadds]
    have hins := h.insert (r := w.regs.length) hf
    obtain ⟨ver, hk, hnew, hold, hvac⟩ := slotInsert_spec (r := w.regs.length) hf
    unfold RegexStore.insertNew at he
    split at he
    · cases he
    rename_i hg
    rw [hk] at he
    dsimp only at he
    have h1 := (Prod.mk.inj he).1
    subst h1
    dsimp only
    cases hl : w.store.index.lookup p with
    | none => exact hins
    | some old =>
      dsimp only
      obtain ⟨r, x, hs, _⟩ := hi.wf.slot p old (mem_of_lookup hl)
      have hne : old.1 ≠ slot := by
        intro e
        rw [e] at hs
        rcases hvac with hv | hv <;> rw [hv] at hs <;> cases hs
      have hs' := (hold _ hne).trans hs
      rw [slotRemove_some (r := r) hs']
      exact hins.remove hs'
  | drop i p hd ht => exact h
  | newCaches => exact h
  | search i p hd j c c' r ht hc hg => exact h
  | searchCrash i p hd j c ht hc hg => exact h

theorem versionsOk {w : World V} (h : StoreReach F w) : VersionsOk w.adds w.store.slots := by
  induction h with
  | init => intro s v o e; cases e
  | step hr hs ih => exact versions_step (storeInv hr) ih hs

/-! ## The two models agree below the bound -/

theorem slotRemove32_eq {slots : List (Nat × Option Nat)} {k : Key} {n : Nat} (h : VersionsOk n slots) (hn : n < 2147483648) :
    slotRemove32 slots k = slotRemove slots k := by
  unfold slotRemove32 slotRemove
  cases hg : slotGet slots k with
  | none => rfl
  | some r =>
    have := h _ _ _ (slotGet_iff.mp hg)
    simp only [Option.isSome_some, if_true] at this
    dsimp only
    rw [Nat.mod_eq_of_lt (by unfold slotVersions; omega)]

theorem gcEntry32_eq {st : RegexStore} {n : Nat} (h : VersionsOk n st.slots) (hn : n < 2147483648) (alive : Nat → Bool) (q : Str) :
    st.gcEntry32 alive q = st.gcEntry alive q := by
  unfold RegexStore.gcEntry32 RegexStore.gcEntry
  cases st.index.lookup q with
  | none => rfl
  | some k =>
    dsimp only
    cases slotGet st.slots k with
    | none => rfl
    | some r => dsimp only; rw [slotRemove32_eq h hn]

theorem insertNew32_eq {st : RegexStore} {n : Nat} (h : VersionsOk n st.slots) (hn : n + 1 < 2147483648) (alive : Nat → Bool) (p : Str)
    (r : Nat) {slot : Nat} (hf : st.Free slot) : st.insertNew32 alive p r slot = st.insertNew alive p r slot := by
  unfold RegexStore.insertNew32 RegexStore.insertNew
  cases st.get alive p with
  | some hd => rfl
  | none =>
    dsimp only
    cases st.index.lookup p with
    | none => rfl
    | some k => dsimp only; rw [slotRemove32_eq (h.insert hf) hn]

theorem olderVersion_eq {a b : Nat} (ha : a < 1073741824) (hb : b < 1073741824) : olderVersion a b = decide (a < b) := by
  unfold olderVersion
  by_cases h : a < b
  · rw [decide_eq_true h]
    exact decide_eq_true (by omega)
  · rw [decide_eq_false h]
    exact decide_eq_false (by omega)

theorem get32_eq {slots : List (Nat × Option Nat)} {n : Nat} (h : VersionsOk n slots) (hn : n ≤ 1073741824) {c : Caches} {hd : Handle}
    (hc : CachesOk slots c) (hs : slots[hd.key.1]? = some (hd.key.2, some hd.reg)) : Caches.get32 zero c hd = Caches.get c hd := by
  have hk := h _ _ _ hs
  simp only [Option.isSome_some, if_true] at hk
  unfold Caches.get32 Caches.get
  cases hl : c.lookup hd.key.1 with
  | none =>
    dsimp only
    rw [if_neg (by omega)]
  | some vr =>
    obtain ⟨v, r⟩ := vr
    obtain ⟨cur, occ, e, hv⟩ := hc _ v r hl
    rw [hs] at e
    obtain ⟨rfl, rfl⟩ := Prod.mk.inj (Option.some.inj e)
    have hle : v ≤ hd.key.2 := by omega
    dsimp only
    rw [olderVersion_eq (by omega) (by omega)]
    rw [if_neg (show ¬ hd.key.2 < v by omega), decide_eq_false (show ¬ hd.key.2 < v by omega)]
    rfl

theorem adds_mono {w w' : World V} (hs : StoreStep F w w') : w.adds ≤ w'.adds := by
  cases hs with
  | visit i p v q todo st ht hg =>
    unfold World.adds
    dsimp only
    split
    · exact Nat.le_refl _
    · exact Nat.le_refl _
  | store i p v hd st slot ht hf he => exact Nat.le_succ _
  | _ => exact Nat.le_refl _

theorem adds_mono32 {w w' : World V} (hs : Step32 zero F w w') : w.adds ≤ w'.adds := by
  cases hs with
  | same _ hs _ _ _ => exact adds_mono hs
  | visit i p v q todo st ht hg =>
    unfold World.adds
    dsimp only
    split
    · exact Nat.le_refl _
    · exact Nat.le_refl _
  | store i p v hd st slot ht hf he => exact Nat.le_succ _
  | _ => exact Nat.le_refl _

/-- A state reached with 32-bit versions is one reached with unbounded ones, while at most 2^30 regexes were stored. -/
theorem reach_of_reach32 {w : World V} (h : Reach32 zero F w) (hb : w.adds ≤ 1073741824) : StoreReach F w := by
  induction h with
  | init => exact .init
  | @step a b hr hs ih =>
    have hr := ih (Nat.le_trans (adds_mono32 hs) hb)
    have hi := storeInv hr
    have hv := versionsOk hr
    have hle := Nat.le_trans (adds_mono32 hs) hb
    refine .step hr ?_
    cases hs with
    | same _ hs _ _ _ => exact hs
    | visit i p v q todo st ht hg => exact .visit a i p v q todo st ht (by rw [← gcEntry32_eq hv (by omega)]; exact hg)
    | crash i p v q todo ht hg => exact .crash a i p v q todo ht (by rw [← gcEntry32_eq hv (by omega)]; exact hg)
    | store i p v hd st slot ht hf he =>
      exact .store a i p v hd st slot ht hf (by rw [← insertNew32_eq hv (by omega) _ _ _ hf]; exact he)
    | newCaches => exact .newCaches a
    | search i p hd j c c' r ht hc hg =>
      exact .search a i p hd j c c' r ht hc
        (by rw [← get32_eq hv hle (hi.caches c (List.mem_of_getElem? hc)) (hi.held i p hd ht).2 (zero := zero)]; exact hg)
    | searchCrash i p hd j c ht hc hg =>
      exact .searchCrash a i p hd j c ht hc
        (by rw [← get32_eq hv hle (hi.caches c (List.mem_of_getElem? hc)) (hi.held i p hd ht).2 (zero := zero)]; exact hg)

end Sds
