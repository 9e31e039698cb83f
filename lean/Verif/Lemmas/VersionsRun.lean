import Verif.Lemmas.Versions

/-! # A process that stores many regexes, one after the other -/

namespace Sds

variable {V : Type} {F : Str → (Str → Option V) → Prop} {zero : Bool}

/-- Nobody owns a regex. -/
def Idle (w : World V) : Prop := ∀ pc ∈ w.threads, ∀ p h, pc ≠ Pc.holds p h

theorem alive_false {w : World V} (h : Idle w) (r : Nat) : w.alive r = false := by
  cases ha : w.alive r with
  | false => rfl
  | true =>
    obtain ⟨i, p, hd, hi, _⟩ := holds_of_alive ha
    exact absurd rfl (h _ (List.mem_of_getElem? hi) p hd)

theorem get_dead {alive : Nat → Bool} (ha : ∀ r, alive r = false) (st : RegexStore) (p : Str) : st.get alive p = none := by
  unfold RegexStore.get
  cases st.index.lookup p with
  | none => rfl
  | some k =>
    dsimp only
    cases slotGet st.slots k with
    | none => rfl
    | some r => simp [ha r]

theorem idle_append {w : World V} (h : Idle w) {l : List (Pc V)} (hl : ∀ pc ∈ l, ∀ p h, pc ≠ Pc.holds p h) {w' : World V}
    (he : w'.threads = w.threads ++ l) : Idle w' := by
  intro pc hpc
  rw [he] at hpc
  rcases List.mem_append.mp hpc with h' | h'
  · exact h pc h'
  · exact hl pc h'

theorem get_last {α : Type} (l : List α) (a : α) : (l ++ [a])[l.length]? = some a := by simp
theorem set_last {α : Type} (l : List α) (a b : α) : (l ++ [a]).set l.length b = l ++ [b] := by
  rw [List.set_append_right _ _ (Nat.le_refl _)]; simp
theorem get_pair0 {α : Type} (l : List α) (a b : α) : (l ++ [a, b])[l.length]? = some a := by simp
theorem get_pair1 {α : Type} (l : List α) (a b : α) : (l ++ [a, b])[l.length + 1]? = some b := by
  rw [List.getElem?_append_right (by omega)]; simp
theorem set_pair0 {α : Type} (l : List α) (a b c : α) : (l ++ [a, b]).set l.length c = l ++ [c, b] := by
  rw [List.set_append_right _ _ (Nat.le_refl _)]; simp
theorem set_pair1 {α : Type} (l : List α) (a b c : α) : (l ++ [a, b]).set (l.length + 1) c = l ++ [a, c] := by
  rw [List.set_append_right _ _ (by omega)]; simp

/-- A step that is the same in both models. -/
theorem Reach32.same {w w' : World V} (h : Reach32 zero F w) (hs : StoreStep F w w') (h1 : w'.store.slots = w.store.slots)
    (h2 : w'.caches = w.caches) (h3 : w'.crashed = w.crashed) : Reach32 zero F w' := .step h (.same w w' hs h1 h2 h3)

/-- The state with other clients. -/
abbrev World.with (w : World V) (l : List (Pc V)) : World V := { w with threads := w.threads ++ l }

/-- One client gets a new regex. -/
theorem create {w : World V} (h : Reach32 zero F w) (hi : Idle w) (hl : w.lock = none) {p : Str} {f : Str → Option V} {v : V}
    (hf : F p f) (hv : f p = some v) (hc : w.store.counter + 1 < 1000) {slot : Nat} (hfree : w.store.Free slot)
    {st : RegexStore} {hd : Handle}
    (he : RegexStore.insertNew32 (fun _ => false) { w.store with counter := w.store.counter + 1 } p w.regs.length slot =
      (st, hd, true)) :
    Reach32 zero F { w with store := st, regs := w.regs ++ [(p, v)], threads := w.threads ++ [.holds p hd],
                            log := .added p :: .insert :: w.log } := by
  have s1 : Reach32 zero F (w.with [.start p f]) := h.same (.spawn w p f hf) rfl rfl rfl
  have i1 : Idle (w.with [.start p f]) := idle_append hi (by intro pc hpc; simp at hpc; subst hpc; intro p h e; cases e) rfl
  have s2 : Reach32 zero F (w.with [.factory p f]) := by
    have := s1.same (.missing _ w.threads.length p f (get_last _ _) hl (get_dead (alive_false i1) _ _)) rfl rfl rfl
    simpa only [set_last] using this
  have s3 : Reach32 zero F (w.with [.waiting p v]) := by
    have := s2.same (.built _ w.threads.length p f v (get_last _ _) hv) rfl rfl rfl
    simpa only [set_last] using this
  have s4 : Reach32 zero F { w.with [.finish p v] with
      store := { w.store with counter := w.store.counter + 1 }, lock := some w.threads.length, log := .insert :: w.log } := by
    have := s3.same (.lock _ w.threads.length p v (get_last _ _) hl hc) rfl rfl rfl
    simpa only [set_last] using this
  have i4 : Idle { w.with [.finish p v] with
      store := { w.store with counter := w.store.counter + 1 }, lock := some w.threads.length, log := .insert :: w.log } :=
    idle_append hi (by intro pc hpc; simp at hpc; subst hpc; intro p h e; cases e) rfl
  have s5 := Reach32.step s4 (.store _ w.threads.length p v hd st slot (get_last _ _) hfree
    (by rw [show World.alive _ = (fun _ => false) from funext (alive_false i4)]; exact he))
  simp only [set_last] at s5
  rw [hl] at *
  exact s5

/-- The owner of the regex drops it. -/
theorem dropLast {w : World V} {l : List (Pc V)} {p : Str} {hd : Handle} (h : Reach32 zero F w)
    (ht : w.threads = l ++ [.holds p hd]) : Reach32 zero F { w with threads := l ++ [.done] } := by
  have := h.same (.drop _ l.length p hd (by rw [ht]; exact get_last _ _)) rfl rfl rfl
  simpa only [ht, set_last] using this

theorem alive_pair {w : World V} {l : List (Pc V)} {a : Pc V} {p : Str} {hd : Handle} (h : w.threads = l ++ [.holds p hd, a]) :
    w.alive hd.reg = true := alive_of_holds (i := l.length) (p := p) (by rw [h, get_pair0])

/-- Two clients ask for the same regex at the same time: the first stores it, the second collects garbage and takes the
first one's. -/
theorem createTwo {w : World V} (h : Reach32 zero F w) (hi : Idle w) (hl : w.lock = none) {p : Str} {f : Str → Option V} {v : V}
    (hf : F p f) (hv : f p = some v) (hc : w.store.counter + 1 = 999) {slot : Nat} (hfree : w.store.Free slot)
    {slots : List (Nat × Option Nat)} {hd : Handle}
    (he : RegexStore.insertNew32 (fun _ => false) { w.store with counter := w.store.counter + 1 } p w.regs.length slot =
      (⟨[(p, hd.key)], slots, w.store.counter + 1⟩, hd, true))
    (hs : slotGet slots hd.key = some hd.reg) :
    Reach32 zero F { w with store := ⟨[(p, hd.key)], slots, 0⟩, regs := w.regs ++ [(p, v)], threads := w.threads ++ [.done, .done],
                            log := .kept p :: .collect :: .insert :: .added p :: .insert :: w.log } := by
  have dead : ∀ pc ∈ ([.start p f, .factory p f, .waiting p v, .finish p v] : List (Pc V)), ∀ p h, pc ≠ Pc.holds p h := by
    intro pc hpc
    simp at hpc
    rcases hpc with rfl | rfl | rfl | rfl <;> intro p h e <;> cases e
  have two : ∀ a b : Pc V, a ∈ ([.start p f, .factory p f, .waiting p v, .finish p v] : List (Pc V)) →
      b ∈ ([.start p f, .factory p f, .waiting p v, .finish p v] : List (Pc V)) → ∀ w' : World V,
      w'.threads = w.threads ++ [a, b] → Idle w' := by
    intro a b ha hb w' e
    refine idle_append hi ?_ e
    intro pc hpc
    simp at hpc
    rcases hpc with rfl | rfl
    · exact dead _ ha
    · exact dead _ hb
  have s0 : Reach32 zero F (w.with [.start p f]) := h.same (.spawn w p f hf) rfl rfl rfl
  have s1 : Reach32 zero F (w.with [.start p f, .start p f]) := by
    have := s0.same (.spawn _ p f hf) rfl rfl rfl
    simpa only [List.append_assoc, List.singleton_append] using this
  have s2 : Reach32 zero F (w.with [.factory p f, .start p f]) := by
    have := s1.same (.missing _ w.threads.length p f (get_pair0 _ _ _) hl
      (get_dead (alive_false (two _ _ (by simp) (by simp) _ rfl)) _ _)) rfl rfl rfl
    simpa only [set_pair0] using this
  have s3 : Reach32 zero F (w.with [.factory p f, .factory p f]) := by
    have := s2.same (.missing _ (w.threads.length + 1) p f (get_pair1 _ _ _) hl
      (get_dead (alive_false (two _ _ (by simp) (by simp) _ rfl)) _ _)) rfl rfl rfl
    simpa only [set_pair1] using this
  have s4 : Reach32 zero F (w.with [.waiting p v, .factory p f]) := by
    have := s3.same (.built _ w.threads.length p f v (get_pair0 _ _ _) hv) rfl rfl rfl
    simpa only [set_pair0] using this
  have s5 : Reach32 zero F (w.with [.waiting p v, .waiting p v]) := by
    have := s4.same (.built _ (w.threads.length + 1) p f v (get_pair1 _ _ _) hv) rfl rfl rfl
    simpa only [set_pair1] using this
  have s6 : Reach32 zero F { w.with [.finish p v, .waiting p v] with
      store := { w.store with counter := w.store.counter + 1 }, lock := some w.threads.length, log := .insert :: w.log } := by
    have := s5.same (.lock _ w.threads.length p v (get_pair0 _ _ _) hl (by rw [hc]; decide)) rfl rfl rfl
    simpa only [set_pair0] using this
  have s7 := Reach32.step s6 (.store _ w.threads.length p v hd _ slot (get_pair0 _ _ _) hfree
    (by rw [show World.alive _ = (fun _ => false) from funext (alive_false (two _ _ (by simp) (by simp) _ rfl))]; exact he))
  simp only [set_pair0] at s7
  have s8 := s7.same (.lockCollect _ (w.threads.length + 1) p v [p] (get_pair1 _ _ _) rfl (by show 1000 ≤ w.store.counter + 1 + 1; omega) (.refl _))
    rfl rfl rfl
  simp only [set_pair1] at s8
  have hget : ∀ (alive : Nat → Bool), alive hd.reg = true → ∀ n, (⟨[(p, hd.key)], slots, n⟩ : RegexStore).get alive p = some hd := by
    intro alive ha n
    simp [RegexStore.get, hs, ha]
  have s9 := s8.same (.visit _ (w.threads.length + 1) p v p [] ⟨[(p, hd.key)], slots, 0⟩ (get_pair1 _ _ _) (by
    have ha := alive_pair (w := { w with
        store := ⟨[(p, hd.key)], slots, 0⟩, regs := w.regs ++ [(p, v)],
        threads := w.threads ++ [.holds p hd, .collect p v [p]], lock := some (w.threads.length + 1),
        log := .collect :: .insert :: .added p :: .insert :: w.log }) rfl
    simp only [RegexStore.gcEntry, List.lookup_cons, beq_self_eq_true, hs, ha, if_true])) rfl rfl rfl
  rw [if_pos (by rw [hget _ (alive_pair rfl)]; rfl)] at s9
  simp only [set_pair1] at s9
  have s10 := s9.same (.collected _ (w.threads.length + 1) p v (get_pair1 _ _ _)) rfl rfl rfl
  simp only [set_pair1] at s10
  have s11 := s10.same (.reuse _ (w.threads.length + 1) p v hd ⟨[(p, hd.key)], slots, 0⟩ (get_pair1 _ _ _) (by
    unfold RegexStore.insertNew
    rw [hget _ (alive_pair rfl)])) rfl rfl rfl
  simp only [set_pair1] at s11
  have s12 := s11.same (.drop _ w.threads.length p hd (get_pair0 _ _ _)) rfl rfl rfl
  simp only [set_pair0] at s12
  have s13 := s12.same (.drop _ (w.threads.length + 1) p hd (get_pair1 _ _ _)) rfl rfl rfl
  simp only [set_pair1] at s13
  rw [hl]
  exact s13

/-- What does not change from one regex to the next. -/
structure Resting (q : Str) (c : List Caches) (w : World V) : Prop where
  idle : Idle w
  lock : w.lock = none
  caches : w.caches = c
  calm : w.crashed = false
  counter : w.store.counter ≤ 998
  first : ∃ v, w.regs[0]? = some (q, v)

/-- The regex for `q`, which nobody uses any more, is stored again in another slot and dropped. -/
theorem move {q : Str} {f : Str → Option V} {v : V} {c : List Caches} {w : World V} (h : Reach32 zero F w) (hr : Resting q c w)
    (hf : F q f) (hv : f q = some v) {k : Key} {slots slots' : List (Nat × Option Nat)} {slot ver : Nat}
    (hix : w.store.index = [(q, k)]) (hsl : w.store.slots = slots) (hfree : w.store.Free slot)
    (hins : slotInsert slots slot w.regs.length = (slots', (slot, ver)))
    (hget : slotGet (slotRemove32 slots' k) (slot, ver) = some w.regs.length) :
    ∃ w', Reach32 zero F w' ∧ Resting q c w' ∧ w'.store.index = [(q, (slot, ver))] ∧
      w'.store.slots = slotRemove32 slots' k ∧ ∃ r, w'.regs.length = r + 1 := by
  have he : RegexStore.insertNew32 (fun _ => false) { w.store with counter := w.store.counter + 1 } q w.regs.length slot =
      (⟨[(q, (slot, ver))], slotRemove32 slots' k, w.store.counter + 1⟩, ⟨w.regs.length, (slot, ver)⟩, true) := by
    unfold RegexStore.insertNew32
    rw [get_dead (fun _ => rfl)]
    simp [hix, hsl, hins]
  obtain ⟨v0, h0⟩ := hr.first
  have h0' : (w.regs ++ [(q, v)])[0]? = some (q, v0) := by
    rw [List.getElem?_append_left (List.getElem?_eq_some_iff.mp h0).1]
    exact h0
  by_cases hc : w.store.counter = 998
  · have := createTwo h hr.idle hr.lock hf hv (by omega) hfree (hd := ⟨w.regs.length, (slot, ver)⟩) he hget
    refine ⟨_, this, ⟨idle_append hr.idle ?_ rfl, hr.lock, hr.caches, hr.calm, Nat.zero_le _, v0, h0'⟩, rfl, rfl, w.regs.length, ?_⟩
    · intro pc hpc
      simp at hpc
      subst hpc
      intro p h e
      cases e
    · simp
  · have := dropLast (create h hr.idle hr.lock hf hv (by have := hr.counter; omega) hfree he) rfl
    refine ⟨_, this, ⟨idle_append hr.idle ?_ rfl, hr.lock, hr.caches, hr.calm, ?_, v0, h0'⟩, rfl, rfl, w.regs.length, ?_⟩
    · intro pc hpc
      simp at hpc
      subst hpc
      intro p h e
      cases e
    · have := hr.counter
      show w.store.counter + 1 ≤ 998
      omega
    · simp

/-- Slot 0 has been vacated `n` times, the regex for `q` is in slot 1. -/
def Vacated (q : Str) (c : List Caches) (n : Nat) (w : World V) : Prop :=
  Resting q c w ∧ ∃ u r, w.store.index = [(q, (1, u))] ∧ w.store.slots = [(n % slotVersions, none), (u, some r)]

/-- The regex moves to slot 0 and back. -/
theorem round {q : Str} {f : Str → Option V} {v : V} {c : List Caches} {w : World V} (h : Reach32 zero F w) {n : Nat}
    (hw : Vacated q c n w) (hf : F q f) (hv : f q = some v) : ∃ w', Reach32 zero F w' ∧ Vacated q c (n + 1) w' := by
  obtain ⟨hr, u, r, hix, hsl⟩ := hw
  obtain ⟨w1, h1, hr1, hix1, hsl1, r1, hr1'⟩ := move h hr hf hv (slot := 0) (ver := n % slotVersions) hix hsl
    (.inl ⟨n % slotVersions, by rw [hsl]; rfl⟩) (slots' := [(n % slotVersions, some w.regs.length), (u, some r)]) rfl
    (by simp [slotRemove32, slotGet])
  have hsl1' : w1.store.slots = [(n % slotVersions, some w.regs.length), ((u + 1) % slotVersions, none)] := by
    rw [hsl1]; simp [slotRemove32, slotGet]
  obtain ⟨w2, h2, hr2, hix2, hsl2, r2, hr2'⟩ := move h1 hr1 hf hv (slot := 1) (ver := (u + 1) % slotVersions) hix1 hsl1'
    (.inl ⟨(u + 1) % slotVersions, by rw [hsl1']; rfl⟩)
    (slots' := [(n % slotVersions, some w.regs.length), ((u + 1) % slotVersions, some w1.regs.length)]) rfl
    (by simp [slotRemove32, slotGet])
  refine ⟨w2, h2, hr2, _, w1.regs.length, hix2, ?_⟩
  rw [hsl2]
  simp [slotRemove32, slotGet]

/-- A process in which slot 0 has been vacated `n` times, while a cache still has the first regex of the slot. -/
theorem vacated {q : Str} {f : Str → Option V} {v : V} (hf : F q f) (hv : f q = some v) :
    ∀ n, ∃ w : World V, Reach32 zero F w ∧ Vacated q [[(0, 0, 0)]] (n + 1) w
  | 0 => by
    have s1 := create (zero := zero) (F := F) .init (by intro pc hpc; cases hpc) rfl hf hv (by show 0 + 1 < 1000; decide)
      (slot := 0) (.inr rfl) (hd := ⟨0, (0, 0)⟩) (st := ⟨[(q, (0, 0))], [(0, some 0)], 1⟩) rfl
    have s2 := Reach32.step s1 (.newCaches _)
    have s3 := Reach32.step s2 (.search _ 0 q ⟨0, (0, 0)⟩ 0 [] [(0, 0, 0)] 0 rfl rfl (by
      simp [Caches.get32]))
    have s4 := dropLast s3 (l := []) rfl
    obtain ⟨w, hw, hr, hix, hsl, _⟩ := move s4 (q := q) (c := [[(0, 0, 0)]])
      ⟨(by intro pc hpc; simp at hpc; subst hpc; intro p h e; cases e), rfl, rfl, rfl, (by show 1 ≤ 998; decide), v, rfl⟩ hf hv
      (slot := 1) (ver := 0) (k := (0, 0)) rfl rfl (.inr rfl) (slots' := [(0, some 0), (0, some 1)]) rfl rfl
    exact ⟨w, hw, hr, 0, 1, hix, hsl⟩
  | n + 1 => by
    obtain ⟨w, h, hw⟩ := vacated hf hv n
    exact round h hw hf hv

/-- Then another pattern is stored in slot 0. -/
theorem reused {p q : Str} {f g : Str → Option V} {v x : V} (hf : F q f) (hv : f q = some v) (hg : F p g) (hx : g p = some x)
    (hne : p ≠ q) (n : Nat) : ∃ (w : World V) (i : Nat) (r : Nat), Reach32 zero F w ∧ w.crashed = false ∧
      w.threads[i]? = some (.holds p ⟨r, (0, (n + 1) % slotVersions)⟩) ∧ [(0, 0, 0)] ∈ w.caches ∧
      w.regs[r]? = some (p, x) ∧ (∃ y, w.regs[0]? = some (q, y)) ∧ r ≠ 0 := by
  obtain ⟨w, h, hr, u, r, hix, hsl⟩ := vacated (zero := zero) hf hv n
  have hlook : List.lookup p [(q, ((1, u) : Key))] = none := by
    have : (p == q) = false := by simpa using hne
    rw [List.lookup_cons, this]
    rfl
  have he : RegexStore.insertNew32 (fun _ => false) { w.store with counter := w.store.counter + 1 } p w.regs.length 0 =
      (⟨(p, (0, (n + 1) % slotVersions)) :: [(q, (1, u))].filter (fun e => e.1 != p),
        [((n + 1) % slotVersions, some w.regs.length), (u, some r)], w.store.counter + 1⟩,
        ⟨w.regs.length, (0, (n + 1) % slotVersions)⟩, true) := by
    unfold RegexStore.insertNew32
    rw [get_dead (fun _ => rfl)]
    simp only [hix, hsl, hlook, slotInsert, List.getElem?_cons_zero, List.set_cons_zero]
  obtain ⟨y, hy⟩ := hr.first
  have hlen := (List.getElem?_eq_some_iff.mp hy).1
  have := create h hr.idle hr.lock hg hx (by have := hr.counter; omega) (.inl ⟨_, by rw [hsl]; rfl⟩) he
  refine ⟨_, w.threads.length, w.regs.length, this, hr.calm, get_last _ _, ?_, get_last _ _, ⟨y, ?_⟩, by omega⟩
  · show _ ∈ w.caches
    rw [hr.caches]
    exact List.mem_singleton.mpr rfl
  · show (w.regs ++ _)[0]? = _
    rw [List.getElem?_append_left hlen]
    exact hy

end Sds
