import Verif.Model.Ffi

/-! # Heaps, reference counts -/

namespace Sds
variable {C S D E : Type}

theorem get_del (h : Heap C S D) (a x : Addr) : (h.del a).get x = if x = a then none else h.get x := by
  induction h with
  | nil => simp [Heap.del, Heap.get]
  | cons e h ih =>
    obtain ⟨b, o⟩ := e
    unfold Heap.del at ih ⊢
    by_cases hb : b = a
    · subst hb
      simp only [List.filter_cons, bne_self_eq_false, Bool.false_eq_true, if_false, ih, Heap.get]
      split
      · rfl
      · next hx => rw [if_neg (fun h => hx h.symm)]
    · have : (b != a) = true := by simp [hb]
      simp only [List.filter_cons, this, if_true, Heap.get, ih]
      by_cases hx : b = x
      · subst hx; simp [hb]
      · simp [hx]

theorem get_put (h : Heap C S D) (a x : Addr) (o : Obj C S D) :
    (h.put a o).get x = if x = a then some o else h.get x := by
  unfold Heap.put
  simp only [Heap.get, get_del]
  by_cases hx : x = a
  · simp [hx]
  · rw [if_neg (fun h => hx h.symm)]; simp [hx]

/-- The references to configurations held by an object. -/
def Obj.items : Obj C S D → List Addr
  | .rule _ i => [i]
  | .list _ _ items => items
  | _ => []

/-- The number of references to a configuration held by an object. -/
def Obj.refs (i : Addr) (o : Obj C S D) : Nat := o.items.count i

def refs (h : Heap C S D) (i : Addr) : Nat := (h.map (fun e => e.2.refs i)).sum

/-- Every address occurs once. -/
def Distinct (h : Heap C S D) : Prop := (h.map (·.1)).Nodup

theorem get_mem {h : Heap C S D} {a : Addr} {o : Obj C S D} (hg : h.get a = some o) : (a, o) ∈ h := by
  induction h with
  | nil => cases hg
  | cons e h ih =>
    obtain ⟨b, p⟩ := e
    simp only [Heap.get] at hg
    split at hg
    · next hb => cases hg; subst hb; exact List.mem_cons_self
    · exact List.mem_cons_of_mem _ (ih hg)

theorem mem_get {h : Heap C S D} (hd : Distinct h) {a : Addr} {o : Obj C S D} (hm : (a, o) ∈ h) : h.get a = some o := by
  induction h with
  | nil => cases hm
  | cons e h ih =>
    obtain ⟨b, p⟩ := e
    simp only [Distinct, List.map_cons, List.nodup_cons] at hd
    rcases List.mem_cons.1 hm with heq | hm
    · cases heq; simp [Heap.get]
    · have : b ≠ a := by
        rintro rfl
        exact hd.1 (List.mem_map.2 ⟨_, hm, rfl⟩)
      simp only [Heap.get, if_neg this]
      exact ih hd.2 hm

theorem del_of_none {h : Heap C S D} {a : Addr} (hg : h.get a = none) : h.del a = h := by
  unfold Heap.del
  rw [List.filter_eq_self]
  rintro ⟨b, o⟩ hm
  simp only [bne_iff_ne, ne_eq]
  rintro rfl
  induction h with
  | nil => cases hm
  | cons e h ih =>
    obtain ⟨c, p⟩ := e
    simp only [Heap.get] at hg
    split at hg
    · cases hg
    · next hc =>
      rcases List.mem_cons.1 hm with heq | hm
      · cases heq; exact hc rfl
      · exact ih hm hg

theorem distinct_del {h : Heap C S D} (hd : Distinct h) (a : Addr) : Distinct (h.del a) :=
  hd.sublist (List.Sublist.map _ List.filter_sublist)

theorem distinct_put {h : Heap C S D} (hd : Distinct h) (a : Addr) (o : Obj C S D) : Distinct (h.put a o) := by
  unfold Distinct Heap.put
  rw [List.map_cons, List.nodup_cons]
  refine ⟨?_, distinct_del hd a⟩
  intro hm
  obtain ⟨⟨b, p⟩, hm, rfl⟩ := List.mem_map.1 hm
  simp [Heap.del] at hm

theorem refs_del {h : Heap C S D} (hd : Distinct h) {a : Addr} {o : Obj C S D} (hg : h.get a = some o) (i : Addr) :
    refs h i = o.refs i + refs (h.del a) i := by
  induction h with
  | nil => cases hg
  | cons e h ih =>
    obtain ⟨b, p⟩ := e
    simp only [Distinct, List.map_cons, List.nodup_cons] at hd
    simp only [Heap.get] at hg
    split at hg
    · next hb =>
      cases hg
      subst hb
      have hn : Heap.get h b = none := by
        cases hx : Heap.get h b with
        | none => rfl
        | some q => exact absurd (List.mem_map.2 ⟨_, get_mem hx, rfl⟩) hd.1
      have : Heap.del ((b, o) :: h) b = h := by
        have := del_of_none hn
        unfold Heap.del at this ⊢
        simpa using this
      rw [this]
      simp [refs]
    · next hb =>
      have : Heap.del ((b, p) :: h) a = (b, p) :: Heap.del h a := by simp [Heap.del, hb]
      rw [this]
      have := ih hd.2 hg
      simp only [refs, List.map_cons, List.sum_cons] at this ⊢
      omega

theorem refs_put (h : Heap C S D) (a : Addr) (o : Obj C S D) (i : Addr) :
    refs (h.put a o) i = o.refs i + refs (h.del a) i := by
  simp [refs, Heap.put]

theorem refs_put_new {h : Heap C S D} {a : Addr} (hg : h.get a = none) (o : Obj C S D) (i : Addr) :
    refs (h.put a o) i = o.refs i + refs h i := by
  rw [refs_put, del_of_none hg]

theorem refs_put_old {h : Heap C S D} (hd : Distinct h) {a : Addr} {p : Obj C S D} (hg : h.get a = some p)
    (o : Obj C S D) (i : Addr) : refs (h.put a o) i + p.refs i = o.refs i + refs h i := by
  rw [refs_put, refs_del hd hg]
  omega

theorem refs_le {h : Heap C S D} (hd : Distinct h) {a : Addr} {o : Obj C S D} (hg : h.get a = some o) (i : Addr) :
    o.refs i ≤ refs h i := by
  rw [refs_del hd hg]
  omega

theorem del_put (h : Heap C S D) (a : Addr) (o : Obj C S D) : (h.del a).put a o = h.put a o := by
  simp [Heap.put, Heap.del, List.filter_filter]

end Sds
