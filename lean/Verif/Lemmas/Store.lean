import Verif.Model.Store

/-! # Invariants of the regex store -/

namespace Sds

/-! ## Lists -/

theorem getElem?_set_cases {α : Type} {l : List α} {i j : Nat} {a b : α} (h : (l.set i a)[j]? = some b) :
    (j = i ∧ b = a) ∨ (j ≠ i ∧ l[j]? = some b) := by
  rw [List.getElem?_set] at h
  split at h
  · rename_i e
    split at h
    · exact .inl ⟨e.symm, (Option.some.inj h).symm⟩
    · cases h
  · rename_i e
    exact .inr ⟨fun x => e x.symm, h⟩

theorem getElem?_append_one {α : Type} {l : List α} {i : Nat} {a b : α} (h : (l ++ [a])[i]? = some b) :
    l[i]? = some b ∨ (i = l.length ∧ b = a) := by
  rw [List.getElem?_append] at h
  split at h
  · exact .inl h
  · rename_i hi
    have : i - l.length = 0 := by
      rcases Nat.eq_zero_or_pos (i - l.length) with e | e
      · exact e
      · rw [List.getElem?_eq_none (by simp; omega)] at h; cases h
    rw [this] at h
    exact .inr ⟨by omega, (Option.some.inj h).symm⟩

theorem mem_of_lookup {α β : Type} [BEq α] [LawfulBEq α] {a : α} {b : β} :
    ∀ {l : List (α × β)}, l.lookup a = some b → (a, b) ∈ l
  | [], h => by cases h
  | (x, y) :: l, h => by
    rw [List.lookup_cons] at h
    cases hx : (a == x) with
    | true =>
      rw [hx] at h
      rw [eq_of_beq hx, (Option.some.inj h)]
      exact List.mem_cons_self
    | false =>
      rw [hx] at h
      exact List.mem_cons_of_mem _ (mem_of_lookup h)

theorem lookup_of_mem {α β : Type} [BEq α] [LawfulBEq α] {a : α} {b : β} :
    ∀ {l : List (α × β)}, (l.map (·.1)).Nodup → (a, b) ∈ l → l.lookup a = some b
  | [], _, h => by cases h
  | (x, y) :: l, hn, h => by
    rw [List.map_cons, List.nodup_cons] at hn
    rw [List.lookup_cons]
    rcases List.mem_cons.mp h with e | e
    · obtain ⟨rfl, rfl⟩ := Prod.mk.inj e
      simp
    · have : (a == x) = false := by
        cases hx : (a == x) with
        | false => rfl
        | true =>
          exact absurd (List.mem_map_of_mem (f := (·.1)) e) (by rw [show (a, b).1 = x from eq_of_beq hx]; exact hn.1)
      rw [this]
      exact lookup_of_mem hn.2 e

theorem lookup_filter_ne {α β : Type} [BEq α] [LawfulBEq α] {a b : α} (hne : a ≠ b) : ∀ {l : List (α × β)},
    (l.filter (fun e => e.1 != b)).lookup a = l.lookup a
  | [] => rfl
  | (x, y) :: l => by
    rw [List.filter_cons, List.lookup_cons]
    cases hb : (x != b) with
    | true =>
      rw [if_pos rfl, List.lookup_cons, lookup_filter_ne hne]
    | false =>
      rw [if_neg Bool.false_ne_true, lookup_filter_ne hne]
      have hx : x = b := by simpa using hb
      have : (a == x) = false := by
        cases h : (a == x) with
        | false => rfl
        | true => exact absurd ((eq_of_beq h).trans hx) hne
      rw [this]

theorem mem_unique {α β : Type} [BEq α] [LawfulBEq α] {a : α} {b b' : β} {l : List (α × β)} (hn : (l.map (·.1)).Nodup)
    (h : (a, b) ∈ l) (h' : (a, b') ∈ l) : b = b' :=
  Option.some.inj ((lookup_of_mem hn h).symm.trans (lookup_of_mem hn h'))

theorem mem_unique_left {α β : Type} {a a' : α} {b : β} : ∀ {l : List (α × β)}, (l.map (·.2)).Nodup →
    (a, b) ∈ l → (a', b) ∈ l → a = a'
  | [], _, h, _ => by cases h
  | (x, y) :: l, hn, h, h' => by
    rw [List.map_cons, List.nodup_cons] at hn
    rcases List.mem_cons.mp h with e | e <;> rcases List.mem_cons.mp h' with e' | e'
    · rw [(Prod.mk.inj e).1, (Prod.mk.inj e').1]
    · have := List.mem_map_of_mem (f := (·.2)) e'
      rw [← show b = y from (Prod.mk.inj e).2] at hn
      exact absurd this hn.1
    · have := List.mem_map_of_mem (f := (·.2)) e
      rw [← show b = y from (Prod.mk.inj e').2] at hn
      exact absurd this hn.1
    · exact mem_unique_left hn.2 e e'

theorem nodup_map_filter {α β : Type} {f : α → β} {q : α → Bool} {l : List α} (h : (l.map f).Nodup) :
    ((l.filter q).map f).Nodup :=
  List.Nodup.sublist (List.Sublist.map f List.filter_sublist) h

theorem length_le_of_nodup_subset {α : Type} [DecidableEq α] : ∀ {l m : List α}, l.Nodup → (∀ a ∈ l, a ∈ m) →
    l.length ≤ m.length
  | [], _, _, _ => Nat.zero_le _
  | a :: l, m, hn, hs => by
    rw [List.nodup_cons] at hn
    have ha : a ∈ m := hs a List.mem_cons_self
    have := length_le_of_nodup_subset (l := l) (m := m.erase a) hn.2
      (fun b hb => (List.mem_erase_of_ne (fun e : b = a => hn.1 (e ▸ hb))).mpr (hs b (List.mem_cons_of_mem _ hb)))
    rw [List.length_erase_of_mem ha] at this
    have hpos : 0 < m.length := List.length_pos_of_mem ha
    rw [List.length_cons]
    omega

/-! ## The slot map -/

theorem slotGet_iff {slots : List (Nat × Option Nat)} {k : Key} {r : Nat} :
    slotGet slots k = some r ↔ slots[k.1]? = some (k.2, some r) := by
  unfold slotGet
  constructor
  · intro h
    split at h
    · rename_i v r' e
      split at h
      · rename_i hv
        rw [e, ← hv, Option.some.inj h]
      · cases h
    · cases h
  · intro h
    rw [h]
    simp

theorem slotRemove_some {slots : List (Nat × Option Nat)} {k : Key} {r : Nat} (h : slots[k.1]? = some (k.2, some r)) :
    slotRemove slots k = slots.set k.1 (k.2 + 1, none) := by
  unfold slotRemove
  rw [slotGet_iff.mpr h]

/-! ## Owners -/

variable {V : Type}

theorem alive_of_holds {w : World V} {i : Nat} {p : Str} {h : Handle} (hi : w.threads[i]? = some (.holds p h)) :
    w.alive h.reg = true := by
  unfold World.alive World.strong
  refine decide_eq_true (List.countP_pos_iff.mpr ⟨_, List.mem_of_getElem? hi, ?_⟩)
  simp [Pc.owns]

theorem holds_of_alive {w : World V} {r : Nat} (h : w.alive r = true) :
    ∃ (i : Nat) (p : Str) (hd : Handle), w.threads[i]? = some (Pc.holds p hd) ∧ hd.reg = r := by
  unfold World.alive World.strong at h
  obtain ⟨pc, hm, ho⟩ := List.countP_pos_iff.mp (of_decide_eq_true h)
  obtain ⟨i, hi⟩ := List.getElem?_of_mem hm
  cases pc with
  | holds p hd => exact ⟨i, p, hd, hi, by simpa [Pc.owns] using ho⟩
  | _ => simp [Pc.owns] at ho

/-! ## The store -/

/-- Index and slot map agree, and every regex is one that was compiled for its pattern. -/
structure StoreWf (index : List (Str × Key)) (slots : List (Nat × Option Nat)) (regs : List (Str × V)) : Prop where
  patterns : (index.map (·.1)).Nodup
  keys : (index.map (·.2)).Nodup
  slot : ∀ p k, (p, k) ∈ index → ∃ r v, slots[k.1]? = some (k.2, some r) ∧ regs[r]? = some (p, v)
  back : ∀ s v r, slots[s]? = some (v, some r) → ∃ p, (p, (s, v)) ∈ index

/-- A handle is registered under its pattern. -/
def Registered (index : List (Str × Key)) (slots : List (Nat × Option Nat)) (p : Str) (h : Handle) : Prop :=
  (p, h.key) ∈ index ∧ slots[h.key.1]? = some (h.key.2, some h.reg)

/-- A cache belongs to the regex that is in the slot, or to a version that is gone. -/
def CachesOk (slots : List (Nat × Option Nat)) (c : Caches) : Prop :=
  ∀ s v r, c.lookup s = some (v, r) → ∃ cur occ, slots[s]? = some (cur, occ) ∧ (v < cur ∨ (v = cur ∧ occ = some r))

structure StoreInv (w : World V) : Prop where
  wf : StoreWf w.store.index w.store.slots w.regs
  held : ∀ (i : Nat) (p : Str) (h : Handle), w.threads[i]? = some (Pc.holds p h) → Registered w.store.index w.store.slots p h
  caches : ∀ c ∈ w.caches, CachesOk w.store.slots c
  calm : w.crashed = false
  search : ∀ a b, StoreEv.search a b ∈ w.log → a = b

theorem get_some {w : World V} (hi : StoreInv w) {alive : Nat → Bool} {p : Str} {h : Handle}
    (hg : w.store.get alive p = some h) : Registered w.store.index w.store.slots p h ∧ alive h.reg = true := by
  unfold RegexStore.get at hg
  split at hg
  · cases hg
  · rename_i k hk
    split at hg
    · cases hg
    · rename_i r hr
      split at hg
      · rename_i ha
        cases hg
        exact ⟨⟨mem_of_lookup hk, slotGet_iff.mp hr⟩, ha⟩
      · cases hg

theorem get_of_registered {st : RegexStore} {regs : List (Str × V)} (hw : StoreWf st.index st.slots regs)
    {alive : Nat → Bool} {p : Str} {h : Handle} (hr : Registered st.index st.slots p h) (ha : alive h.reg = true) :
    st.get alive p = some h := by
  unfold RegexStore.get
  rw [lookup_of_mem hw.patterns hr.1]
  dsimp only
  rw [slotGet_iff.mpr hr.2]
  dsimp only
  rw [if_pos ha]

theorem get_of_holds {w : World V} (hi : StoreInv w) {i : Nat} {p : Str} {h : Handle}
    (ht : w.threads[i]? = some (.holds p h)) : w.store.get w.alive p = some h :=
  get_of_registered hi.wf (hi.held i p h ht) (alive_of_holds ht)

theorem slot_of_mem {index : List (Str × Key)} {slots : List (Nat × Option Nat)} {regs : List (Str × V)}
    (hw : StoreWf index slots regs) {p p' : Str} {k k' : Key} (h : (p, k) ∈ index) (h' : (p', k') ∈ index)
    (hs : k.1 = k'.1) : k = k' ∧ p = p' := by
  obtain ⟨r, v, e, _⟩ := hw.slot p k h
  obtain ⟨r', v', e', _⟩ := hw.slot p' k' h'
  rw [hs, e'] at e
  have hk : k = k' := Prod.ext hs (Prod.mk.inj (Option.some.inj e)).1.symm
  subst hk
  exact ⟨rfl, mem_unique_left hw.keys h h'⟩

/-- Removing an entry keeps the store in order. -/
theorem StoreWf.remove {index : List (Str × Key)} {slots : List (Nat × Option Nat)} {regs : List (Str × V)}
    (hw : StoreWf index slots regs) {p : Str} {k : Key} {ver : Nat} (h : (p, k) ∈ index) :
    StoreWf (index.filter (fun e => e.1 != p)) (slots.set k.1 (ver, none)) regs := by
  refine ⟨nodup_map_filter hw.patterns, nodup_map_filter hw.keys, ?_, ?_⟩
  · intro q k' hq
    obtain ⟨hq, hne⟩ := List.mem_filter.mp hq
    have hne : q ≠ p := by simpa using hne
    obtain ⟨r, v, e, hr⟩ := hw.slot q k' hq
    refine ⟨r, v, ?_, hr⟩
    rw [List.getElem?_set_ne (fun hs => hne (slot_of_mem hw h hq hs).2.symm)]
    exact e
  · intro s v r hs
    rcases getElem?_set_cases hs with ⟨_, e⟩ | ⟨hne, hs⟩
    · cases e
    · obtain ⟨q, hq⟩ := hw.back s v r hs
      refine ⟨q, List.mem_filter.mpr ⟨hq, ?_⟩⟩
      have : q ≠ p := by
        intro e
        subst e
        exact hne (by rw [mem_unique hw.patterns h hq])
      simpa using this

theorem Registered.remove {index : List (Str × Key)} {slots : List (Nat × Option Nat)} {regs : List (Str × V)}
    (hw : StoreWf index slots regs) {p q : Str} {k : Key} {ver : Nat} {hd : Handle} (h : (p, k) ∈ index)
    (hr : Registered index slots q hd) (hne : q ≠ p) :
    Registered (index.filter (fun e => e.1 != p)) (slots.set k.1 (ver, none)) q hd := by
  refine ⟨List.mem_filter.mpr ⟨hr.1, by simpa using hne⟩, ?_⟩
  rw [List.getElem?_set_ne (fun hs => hne (slot_of_mem hw h hr.1 hs).2.symm)]
  exact hr.2

theorem CachesOk.remove {slots : List (Nat × Option Nat)} {c : Caches} (hc : CachesOk slots c) {k : Key} {r : Nat}
    (h : slots[k.1]? = some (k.2, some r)) : CachesOk (slots.set k.1 (k.2 + 1, none)) c := by
  intro s v r' hl
  obtain ⟨cur, occ, e, hv⟩ := hc s v r' hl
  by_cases hs : k.1 = s
  · subst hs
    rw [h] at e
    obtain ⟨rfl, rfl⟩ := Prod.mk.inj (Option.some.inj e)
    refine ⟨k.2 + 1, none, ?_, .inl (by omega)⟩
    rw [List.getElem?_set_self (List.getElem?_eq_some_iff.mp h).1]
  · exact ⟨cur, occ, by rw [List.getElem?_set_ne hs]; exact e, hv⟩

/-- A new regex in a free slot. -/
theorem slotInsert_spec {st : RegexStore} {slot r : Nat} (hf : st.Free slot) :
    ∃ v, slotInsert st.slots slot r = ((slotInsert st.slots slot r).1, (slot, v)) ∧
      (slotInsert st.slots slot r).1[slot]? = some (v, some r) ∧
      (∀ s, s ≠ slot → (slotInsert st.slots slot r).1[s]? = st.slots[s]?) ∧
      (st.slots[slot]? = some (v, none) ∨ st.slots[slot]? = none) := by
  rcases hf with ⟨v, hv⟩ | rfl
  · refine ⟨v, ?_⟩
    have e : slotInsert st.slots slot r = (st.slots.set slot (v, some r), (slot, v)) := by
      unfold slotInsert; rw [hv]
    rw [e]
    refine ⟨rfl, ?_, ?_, .inl hv⟩
    · exact List.getElem?_set_self (List.getElem?_eq_some_iff.mp hv).1
    · intro s hs
      exact List.getElem?_set_ne (fun x => hs x.symm)
  · refine ⟨0, ?_⟩
    have hn : st.slots[st.slots.length]? = none := List.getElem?_eq_none (Nat.le_refl _)
    have e : slotInsert st.slots st.slots.length r = (st.slots ++ [(0, some r)], (st.slots.length, 0)) := by
      unfold slotInsert; rw [hn]
    rw [e]
    refine ⟨rfl, by simp, ?_, .inr hn⟩
    intro s hs
    by_cases hlt : s < st.slots.length
    · exact List.getElem?_append_left hlt
    · have : (st.slots ++ [(0, some r)])[s]? = none := List.getElem?_eq_none (by
        rw [List.length_append]
        show _ + 1 ≤ s
        omega)
      exact this.trans (List.getElem?_eq_none (by omega)).symm

/-- Adding an entry for a pattern that has none. -/
theorem StoreWf.add {index : List (Str × Key)} {slots slots' : List (Nat × Option Nat)} {regs : List (Str × V)}
    (hw : StoreWf index slots regs) {p : Str} {slot v : Nat} {val : V} (hp : p ∉ index.map (·.1))
    (hvac : slots[slot]? = some (v, none) ∨ slots[slot]? = none)
    (hnew : slots'[slot]? = some (v, some regs.length)) (hold : ∀ s, s ≠ slot → slots'[s]? = slots[s]?) :
    StoreWf ((p, (slot, v)) :: index) slots' (regs ++ [(p, val)]) := by
  have hfree : ∀ q k, (q, k) ∈ index → k.1 ≠ slot := by
    intro q k hq e
    obtain ⟨r, x, hs, _⟩ := hw.slot q k hq
    rw [e] at hs
    rcases hvac with hv | hv <;> rw [hv] at hs <;> cases hs
  refine ⟨List.nodup_cons.mpr ⟨hp, hw.patterns⟩, List.nodup_cons.mpr ⟨?_, hw.keys⟩, ?_, ?_⟩
  · intro hm
    obtain ⟨⟨q, k⟩, hq, e⟩ := List.mem_map.mp hm
    exact hfree q k hq (by rw [show k = (slot, v) from e])
  · intro q k hq
    rcases List.mem_cons.mp hq with e | hq
    · obtain ⟨rfl, rfl⟩ := Prod.mk.inj e
      exact ⟨regs.length, val, hnew, by simp⟩
    · obtain ⟨r, x, hs, hr⟩ := hw.slot q k hq
      refine ⟨r, x, by rw [hold _ (hfree q k hq)]; exact hs, ?_⟩
      rw [List.getElem?_append_left (List.getElem?_eq_some_iff.mp hr).1]
      exact hr
  · intro s x r hs
    by_cases e : s = slot
    · subst e
      rw [hnew] at hs
      obtain ⟨rfl, _⟩ := Prod.mk.inj (Option.some.inj hs)
      exact ⟨p, List.mem_cons_self⟩
    · rw [hold s e] at hs
      obtain ⟨q, hq⟩ := hw.back s x r hs
      exact ⟨q, List.mem_cons_of_mem _ hq⟩

theorem Registered.add {index : List (Str × Key)} {slots slots' : List (Nat × Option Nat)} {p q : Str} {slot v : Nat}
    {hd : Handle} (h : Registered index slots q hd)
    (hvac : slots[slot]? = some (v, none) ∨ slots[slot]? = none) (hold : ∀ s, s ≠ slot → slots'[s]? = slots[s]?) :
    Registered ((p, (slot, v)) :: index) slots' q hd := by
  refine ⟨List.mem_cons_of_mem _ h.1, ?_⟩
  rw [hold _ (fun e => ?_)]
  · exact h.2
  · have := h.2
    rw [e] at this
    rcases hvac with hv | hv <;> rw [hv] at this <;> cases this

theorem CachesOk.add {slots slots' : List (Nat × Option Nat)} {slot v r : Nat} {c : Caches} (h : CachesOk slots c)
    (hvac : slots[slot]? = some (v, none) ∨ slots[slot]? = none) (hnew : slots'[slot]? = some (v, some r))
    (hold : ∀ s, s ≠ slot → slots'[s]? = slots[s]?) : CachesOk slots' c := by
  intro s x r' hl
  obtain ⟨cur, occ, e, hv⟩ := h s x r' hl
  by_cases hs : s = slot
  · subst hs
    rcases hvac with hv' | hv' <;> rw [hv'] at e
    · obtain ⟨rfl, rfl⟩ := Prod.mk.inj (Option.some.inj e)
      refine ⟨v, some r, hnew, .inl ?_⟩
      rcases hv with hv | ⟨_, hv⟩
      · exact hv
      · cases hv
    · cases e
  · exact ⟨cur, occ, by rw [hold s hs]; exact e, hv⟩

/-- What `insertNew` does when it stores the new regex. -/
theorem insertNew_spec {st st' : RegexStore} {regs : List (Str × V)} (hw : StoreWf st.index st.slots regs)
    {alive : Nat → Bool} {p : Str} {slot : Nat} {h : Handle} (hf : st.Free slot)
    (he : st.insertNew alive p regs.length slot = (st', h, true)) (val : V) :
    StoreWf st'.index st'.slots (regs ++ [(p, val)]) ∧ Registered st'.index st'.slots p h ∧ h.reg = regs.length ∧
    st'.counter = st.counter ∧ st'.index.map (·.1) = p :: (st.index.filter (fun e => e.1 != p)).map (·.1) ∧
    st.get alive p = none ∧
    (∀ q hd, q ≠ p → Registered st.index st.slots q hd → Registered st'.index st'.slots q hd) ∧
    (∀ c, CachesOk st.slots c → CachesOk st'.slots c) := by
  obtain ⟨v, hk, hnew, hold, hvac⟩ := slotInsert_spec (r := regs.length) hf
  unfold RegexStore.insertNew at he
  split at he
  · cases he
  rename_i hg
  rw [hk] at he
  dsimp only at he
  have h1 := (Prod.mk.inj he).1
  have h2 := (Prod.mk.inj (Prod.mk.inj he).2).1
  subst h1 h2
  clear he
  dsimp only
  cases hl : st.index.lookup p with
  | none =>
    dsimp only
    have hp : p ∉ st.index.map (·.1) := by
      intro hm
      obtain ⟨⟨q, k⟩, hq, e⟩ := List.mem_map.mp hm
      have := lookup_of_mem hw.patterns hq
      rw [show q = p from e] at this
      rw [this] at hl
      cases hl
    have hfilter : st.index.filter (fun e => e.1 != p) = st.index := by
      rw [List.filter_eq_self]
      intro e he
      simpa using fun x : e.1 = p => hp (x ▸ List.mem_map_of_mem he)
    rw [hfilter]
    exact ⟨hw.add hp hvac hnew hold, ⟨List.mem_cons_self, hnew⟩, rfl, rfl, rfl, hg,
      fun q hd _ hr => hr.add hvac hold, fun c hc => hc.add hvac hnew hold⟩
  | some old =>
    dsimp only
    have hm := mem_of_lookup hl
    obtain ⟨r, x, hs, _⟩ := hw.slot p old hm
    have hne : old.1 ≠ slot := by
      intro e
      rw [e] at hs
      rcases hvac with hv | hv <;> rw [hv] at hs <;> cases hs
    rw [slotRemove_some (r := r) (by rw [hold _ hne]; exact hs)]
    have hp : p ∉ (st.index.filter (fun e => e.1 != p)).map (·.1) := by
      intro hx
      obtain ⟨e, he, rfl⟩ := List.mem_map.mp hx
      simpa using (List.mem_filter.mp he).2
    have hvac' : (st.slots.set old.1 (old.2 + 1, none))[slot]? = some (v, none) ∨
        (st.slots.set old.1 (old.2 + 1, none))[slot]? = none := by
      rw [List.getElem?_set_ne hne]; exact hvac
    have hnew' : ((slotInsert st.slots slot regs.length).1.set old.1 (old.2 + 1, none))[slot]? =
        some (v, some regs.length) := by
      rw [List.getElem?_set_ne hne]; exact hnew
    have hold' : ∀ s, s ≠ slot → ((slotInsert st.slots slot regs.length).1.set old.1 (old.2 + 1, none))[s]? =
        (st.slots.set old.1 (old.2 + 1, none))[s]? := by
      intro s hss
      by_cases e : old.1 = s
      · subst e
        rw [List.getElem?_set_self (List.getElem?_eq_some_iff.mp hs).1,
          List.getElem?_set_self (List.getElem?_eq_some_iff.mp ((hold _ hne).trans hs)).1]
      · rw [List.getElem?_set_ne e, List.getElem?_set_ne e]
        exact hold s hss
    exact ⟨(hw.remove hm).add hp hvac' hnew' hold', ⟨List.mem_cons_self, hnew'⟩, rfl, rfl, rfl, hg,
      fun q hd hq hr => (Registered.remove hw hm hr hq).add hvac' hold',
      fun c hc => (hc.remove hs).add hvac' hnew' hold'⟩

theorem insertNew_reuse {st st' : RegexStore} {alive : Nat → Bool} {p : Str} {r slot : Nat} {h : Handle}
    (he : st.insertNew alive p r slot = (st', h, false)) : st' = st ∧ st.get alive p = some h := by
  unfold RegexStore.insertNew at he
  split at he
  · rename_i h' hg
    exact ⟨(Prod.mk.inj he).1.symm, by rw [hg, (Prod.mk.inj (Prod.mk.inj he).2).1]⟩
  · cases (Prod.mk.inj (Prod.mk.inj he).2).2

/-- What a round of the collection does. -/
theorem gcEntry_spec {st : RegexStore} {regs : List (Str × V)} (hw : StoreWf st.index st.slots regs)
    (alive : Nat → Bool) (q : Str) :
    ∃ st', st.gcEntry alive q = .ok st' ∧
      ((st' = st ∧ (q ∈ st.index.map (·.1) → (st.get alive q).isSome)) ∨
       (∃ k r, (q, k) ∈ st.index ∧ st.slots[k.1]? = some (k.2, some r) ∧ alive r = false ∧ st.get alive q = none ∧
        st' = { st with index := st.index.filter (fun e => e.1 != q), slots := st.slots.set k.1 (k.2 + 1, none) })) := by
  unfold RegexStore.gcEntry RegexStore.get
  cases hl : st.index.lookup q with
  | none =>
    refine ⟨st, rfl, .inl ⟨rfl, fun hm => ?_⟩⟩
    obtain ⟨⟨q', k⟩, hq, rfl⟩ := List.mem_map.mp hm
    rw [lookup_of_mem hw.patterns hq] at hl
    cases hl
  | some k =>
    have hm := mem_of_lookup hl
    obtain ⟨r, x, hs, _⟩ := hw.slot q k hm
    dsimp only
    rw [slotGet_iff.mpr hs]
    dsimp only
    cases ha : alive r with
    | true => exact ⟨st, by simp, .inl ⟨rfl, by simp⟩⟩
    | false =>
      refine ⟨_, by simp; rfl, .inr ⟨k, r, hm, hs, ha, by simp, ?_⟩⟩
      rw [slotRemove_some hs]

/-- `Caches::get` with a registered handle. -/
theorem cachesGet_spec {slots : List (Nat × Option Nat)} {c : Caches} {h : Handle} (hc : CachesOk slots c)
    (hs : slots[h.key.1]? = some (h.key.2, some h.reg)) :
    ∃ c', Caches.get c h = .ok (c', h.reg) ∧ CachesOk slots c' := by
  have hset : ∀ c0 : Caches, CachesOk slots c0 → CachesOk slots ((h.key.1, h.key.2, h.reg) :: c0) := by
    intro c0 h0 s v r hl
    rw [List.lookup_cons] at hl
    cases hx : (s == h.key.1) with
    | true =>
      rw [hx] at hl
      cases hl
      rw [eq_of_beq hx]
      exact ⟨_, _, hs, .inr ⟨rfl, rfl⟩⟩
    | false =>
      rw [hx] at hl
      exact h0 s v r hl
  unfold Caches.get
  cases hl : List.lookup h.key.1 c with
  | none => exact ⟨_, rfl, hset c hc⟩
  | some vr =>
    obtain ⟨v, r⟩ := vr
    obtain ⟨cur, occ, e, hv⟩ := hc _ v r hl
    rw [hs] at e
    obtain ⟨rfl, rfl⟩ := Prod.mk.inj (Option.some.inj e)
    dsimp only
    rw [if_neg (by omega)]
    split
    · rename_i hv'
      rcases hv with hv | ⟨_, hv⟩
      · omega
      · rw [← Option.some.inj hv]
        exact ⟨c, rfl, hc⟩
    · refine ⟨_, rfl, ?_⟩
      intro s v' r' hl'
      rw [List.lookup_cons] at hl'
      cases hx : (s == h.key.1) with
      | true =>
        rw [hx] at hl'
        cases hl'
        rw [eq_of_beq hx]
        exact ⟨_, _, hs, .inr ⟨rfl, rfl⟩⟩
      | false =>
        rw [hx] at hl'
        refine hc s v' r' ?_
        rw [← hl']
        exact (lookup_filter_ne (by simpa using hx)).symm

end Sds
