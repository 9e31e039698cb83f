import Verif.Spec.Gauges
import Verif.Lemmas.Store

/-! # Counting and summing over the slots of the regex store -/

namespace Sds
open Sds.Spec

variable {V : Type} {F : Str → (Str → Option V) → Prop} {size : Nat → Nat}

/-- The size of what is in a slot. -/
def slotSize (size : Nat → Nat) (s : Nat × Option Nat) : Nat := s.2.elim 0 size

/-- The sum over all slots. -/
def slotSum (size : Nat → Nat) (slots : List (Nat × Option Nat)) : Nat := (slots.map (slotSize size)).sum

theorem slotSum_set {slots : List (Nat × Option Nat)} {i : Nat} {a b : Nat × Option Nat} (h : slots[i]? = some a) :
    slotSum size (slots.set i b) + slotSize size a = slotSum size slots + slotSize size b := by
  unfold slotSum
  induction slots generalizing i with
  | nil => cases h
  | cons x l ih =>
    cases i with
    | zero =>
      simp only [List.getElem?_cons_zero, Option.some.injEq] at h
      subst h
      simp only [List.set_cons_zero, List.map_cons, List.sum_cons]
      omega
    | succ i =>
      simp only [List.getElem?_cons_succ] at h
      have := ih h
      simp only [List.set_cons_succ, List.map_cons, List.sum_cons]
      omega

theorem slotSum_insert {st : RegexStore} {slot r : Nat} (hf : st.Free slot) :
    slotSum size (slotInsert st.slots slot r).1 = slotSum size st.slots + size r := by
  unfold slotInsert
  rcases hf with ⟨v, hv⟩ | rfl
  · rw [hv]
    have := slotSum_set (size := size) (b := (v, some r)) hv
    simp only [slotSize, Option.elim] at this
    exact this
  · rw [List.getElem?_eq_none (Nat.le_refl _)]
    simp [slotSum, slotSize]

theorem slotSum_remove {slots : List (Nat × Option Nat)} {k : Key} :
    slotSum size (slotRemove slots k) + removedSize size slots k = slotSum size slots := by
  unfold slotRemove removedSize
  cases h : slotGet slots k with
  | none => rfl
  | some r =>
    have := slotSum_set (size := size) (b := (k.2 + 1, none)) (slotGet_iff.1 h)
    simpa [slotSize] using this

theorem gcFreed_spec {alive : Nat → Bool} {st st' : RegexStore} {q : Str} (h : st.gcEntry alive q = .ok st') :
    slotSum size st'.slots + st.gcFreed size alive q = slotSum size st.slots := by
  unfold RegexStore.gcEntry at h
  unfold RegexStore.gcFreed
  split at h
  · rename_i hk
    cases h
    rw [hk]
    rfl
  · rename_i k hk
    rw [hk]
    split at h
    · cases h
    · rename_i r hr
      split at h
      · rename_i ha
        cases h
        simp [hr, ha]
      · rename_i ha
        cases h
        simp only [hr, if_neg ha]
        exact slotSum_remove

theorem insertFreed_spec {alive : Nat → Bool} {st st' : RegexStore} {p : Str} {r slot : Nat} {h : Handle} (hf : st.Free slot)
    (he : st.insertNew alive p r slot = (st', h, true)) :
    slotSum size st'.slots + st.insertFreed size p r slot = slotSum size st.slots + size r := by
  have hsum := slotSum_insert (size := size) (r := r) hf
  unfold RegexStore.insertNew at he
  unfold RegexStore.insertFreed
  split at he
  · cases he
  · have h1 := (Prod.mk.inj he).1
    subst h1
    dsimp only
    cases st.index.lookup p with
    | none => exact hsum
    | some old => exact slotSum_remove.trans hsum

/-- The keys of the index are the occupied slots. -/
theorem index_perm {index : List (Str × Key)} {slots : List (Nat × Option Nat)} {regs : List (Str × V)}
    (hw : StoreWf index slots regs) :
    (index.map (·.2.1)).Perm ((List.range slots.length).filter fun s => ((slots[s]?).bind (·.2)).isSome) := by
  have hn : (index.map (·.2.1)).Nodup := by
    have h1 := hw.keys
    rw [show index.map (·.2.1) = (index.map (·.2)).map (·.1) by simp]
    rw [List.nodup_iff_pairwise_ne, List.pairwise_map]
    rw [List.nodup_iff_pairwise_ne] at h1
    refine List.Pairwise.imp_of_mem ?_ h1
    intro a b ha hb hab e
    obtain ⟨⟨p, k⟩, hp, rfl⟩ := List.mem_map.1 ha
    obtain ⟨⟨q, k'⟩, hq, rfl⟩ := List.mem_map.1 hb
    obtain ⟨_, _, hs, _⟩ := hw.slot _ _ hp
    obtain ⟨_, _, hs', _⟩ := hw.slot _ _ hq
    simp only at e hab
    rw [e, hs'] at hs
    simp only [Option.some.injEq, Prod.mk.injEq] at hs
    exact hab (Prod.ext e hs.1.symm)
  refine (List.perm_ext_iff_of_nodup hn (List.Nodup.sublist List.filter_sublist List.nodup_range)).2 ?_
  intro s
  simp only [List.mem_map, List.mem_filter, List.mem_range]
  constructor
  · rintro ⟨⟨p, k⟩, hp, rfl⟩
    obtain ⟨r, _, hs, _⟩ := hw.slot _ _ hp
    exact ⟨(List.getElem?_eq_some_iff.1 hs).1, by simp [hs]⟩
  · rintro ⟨h1, h2⟩
    cases hs : slots[s]? with
    | none => simp [hs] at h2
    | some x =>
      obtain ⟨v, o⟩ := x
      cases o with
      | none => simp [hs] at h2
      | some r =>
        obtain ⟨p, hp⟩ := hw.back s v r hs
        exact ⟨(p, (s, v)), hp, rfl⟩

private theorem range_map_get {α β : Type} (f : Option α → β) (l : List α) :
    (List.range l.length).map (fun i => f l[i]?) = l.map (fun a => f (some a)) := by
  apply List.ext_getElem (by simp)
  intro i h1 h2
  simp at h1 h2
  simp [List.getElem?_eq_getElem h1]

theorem slotLen_eq {index : List (Str × Key)} {slots : List (Nat × Option Nat)} {regs : List (Str × V)}
    (hw : StoreWf index slots regs) : slotLen slots = index.length := by
  have h := (index_perm hw).length_eq
  rw [List.length_map] at h
  rw [h, ← List.countP_eq_length_filter, slotLen]
  have := congrArg (List.countP (fun b : Bool => b)) (range_map_get (fun o : Option (Nat × Option Nat) => (o.bind (·.2)).isSome) slots)
  rw [List.countP_map, List.countP_map] at this
  exact this.symm

private theorem sum_filter {l : List Nat} {q : Nat → Bool} {f : Nat → Nat} (h : ∀ x ∈ l, q x = false → f x = 0) :
    ((l.filter q).map f).sum = (l.map f).sum := by
  induction l with
  | nil => rfl
  | cons x l ih =>
    have ih := ih fun y hy => h y (List.mem_cons_of_mem _ hy)
    rw [List.filter_cons]
    cases hq : q x with
    | true => simp [ih]
    | false => simp [ih, h x List.mem_cons_self hq]

theorem cacheSizes_sum {st : RegexStore} {regs : List (Str × V)} (hw : StoreWf st.index st.slots regs) :
    (cacheSizes size st).sum = slotSum size st.slots := by
  have h := ((index_perm hw).map fun s => ((st.slots[s]?).bind (·.2)).elim 0 size).sum_nat
  rw [sum_filter (by intro x _ hx; cases hb : (st.slots[x]?).bind (·.2) with
    | none => rfl
    | some r => simp [hb] at hx)] at h
  rw [range_map_get (fun o : Option (Nat × Option Nat) => (o.bind (·.2)).elim 0 size) st.slots] at h
  unfold cacheSizes slotSum
  rw [List.map_map] at h
  exact h

end Sds
