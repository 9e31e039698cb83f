import Verif.Lemmas.Ffi

/-! # C65-C67: memory safety of the native interface

The specification is a machine of values: a handle stands for a rule, a list of rules, a scanner, a response or a
message.  There are no references between them and no counts. -/

namespace Sds

namespace Spec
variable {C S D E : Type}

/-- What a handle given to the caller stands for. -/
inductive Owned (C S D : Type) where
  | rule (c : C)
  | list (poisoned : Bool) (cs : List C)
  | scanner (s : S)
  | vec (d : D)
  | cstring

/-- The handles which the caller owns: those handed out and not yet given back. -/
abbrev Handles (C S D : Type) := Addr → Option (Owned C S D)

def Handles.set (A : Handles C S D) (a : Addr) (w : Option (Owned C S D)) : Handles C S D :=
  fun x => if x = a then w else A x

/-- What a call does to the values.  `none`: the caller does not own a handle of the right kind. -/
def valueStep (lib : Lib C S D E) (A : Handles C S D) : Call C E → Option (Handles C S D × Out)
  | .createRule none _ _ => some (A, ⟨-5, none, none⟩)
  | .createRule (some c) _ b => some (A.set b (some (.rule c)), ⟨b, none, none⟩)
  | .freeRule p =>
    match A p with
    | some (.rule _) => some (A.set p none, ⟨0, none, none⟩)
    | _ => none
  | .createList a => some (A.set a (some (.list false [])), ⟨a, none, none⟩)
  | .append r l =>
    match A r, A l with
    | some (.rule c), some (.list p cs) =>
      some (A.set l (some (.list p (if p then cs else cs ++ [c]))), ⟨0, none, none⟩)
    | _, _ => none
  | .freeList p =>
    match A p with
    | some (.list _ _) => some (A.set p none, ⟨0, none, none⟩)
    | _ => none
  | .createScanner l a =>
    match A l with
    | some (.list true _) => some (A.set a (some .cstring), ⟨-5, some a, none⟩)
    | some (.list false cs) =>
      match lib.build cs with
      | .ok s => some (A.set a (some (.scanner s)), ⟨a, none, none⟩)
      | .error code => some (A, ⟨code, none, none⟩)
      | .panic => some ((A.set l (some (.list true cs))).set a (some .cstring), ⟨-5, some a, none⟩)
    | _ => none
  | .scan s e a =>
    match A s with
    | some (.scanner sc) =>
      match lib.scan sc e with
      | .nothing => some (A, ⟨0, none, none⟩)
      | .data d => some (A.set a (some (.vec d)), ⟨0, none, some a⟩)
      | .panic => some (A.set a (some .cstring), ⟨0, some a, none⟩)
    | _ => none
  | .deleteScanner p =>
    match A p with
    | some (.scanner _) => some (A.set p none, ⟨0, none, none⟩)
    | _ => none
  | .freeVec p =>
    match A p with
    | some (.vec _) => some (A.set p none, ⟨0, none, none⟩)
    | _ => none
  | .freeString p =>
    match A p with
    | some .cstring => some (A.set p none, ⟨0, none, none⟩)
    | _ => none

/-- An address that the allocator may give out. -/
def Free (h : Heap C S D) (a : Addr) : Prop := a ≠ 0 ∧ h.get a = none

/-- The allocator gives out free addresses. -/
def AllocOk (h : Heap C S D) : Call C E → Prop
  | .createRule _ a b => Free h a ∧ Free h b ∧ a ≠ b
  | .createList a => Free h a
  | .createScanner _ a => Free h a
  | .scan _ _ a => Free h a
  | _ => True

/-- The heap and the handles after any sequence of calls in which the caller only uses handles that it owns. -/
inductive History (lib : Lib C S D E) : Heap C S D → Handles C S D → Prop where
  | start : History lib [] (fun _ => none)
  | call {h h' : Heap C S D} {A A' : Handles C S D} {c : Call C E} {o o' : Out} : History lib h A → AllocOk h c →
      valueStep lib A c = some (A', o) → ffiStep lib h c = some (h', o') → History lib h' A'

end Spec

namespace Props
open Sds Spec
variable {C S D E : Type}

/-- An object stands for what the caller owns. -/
private def Owns (h : Heap C S D) (w : Option (Owned C S D)) : Obj C S D → Prop
  | .config _ _ => w = none
  | .rule n i => n = 1 ∧ ∃ c, w = some (.rule c) ∧ cfgAt h i = some c
  | .list n p items => n = 1 ∧ ∃ cs, w = some (.list p cs) ∧ items.map (cfgAt h) = cs.map some
  | .scanner n s => n = 1 ∧ w = some (.scanner s)
  | .vec d => w = some (.vec d)
  | .cstring => w = some .cstring

/-- The invariant, with references `P` that are held by nobody (in the middle of a call). -/
private structure Rel (h : Heap C S D) (A : Handles C S D) (P : List Addr) : Prop where
  distinct : Distinct h
  null : h.get 0 = none
  owns : ∀ a o, h.get a = some o → Owns h (A a) o
  count : ∀ i k c, h.get i = some (.config k c) → k = refs h i + P.count i ∧ 0 < k
  held : ∀ i ∈ P, cfgAt h i ≠ none
  back : ∀ a w, A a = some w → h.get a ≠ none

private theorem owns_congr {h h' : Heap C S D} {w : Option (Owned C S D)} {o : Obj C S D}
    (hc : ∀ i ∈ o.items, cfgAt h' i = cfgAt h i) (ho : Owns h w o) : Owns h' w o := by
  cases o with
  | config k c => exact ho
  | rule n i =>
    obtain ⟨h1, c, h2, h3⟩ := ho
    exact ⟨h1, c, h2, by rw [hc i (by simp [Obj.items])]; exact h3⟩
  | list n p items =>
    obtain ⟨h1, cs, h2, h3⟩ := ho
    refine ⟨h1, cs, h2, ?_⟩
    rw [← h3]
    exact List.map_congr_left hc
  | scanner n s => exact ho
  | vec d => exact ho
  | cstring => exact ho

private theorem owns_items {h : Heap C S D} {w : Option (Owned C S D)} {o : Obj C S D} (ho : Owns h w o) :
    ∀ i ∈ o.items, cfgAt h i ≠ none := by
  cases o with
  | rule n i =>
    obtain ⟨h1, c, h2, h3⟩ := ho
    intro j hj
    simp only [Obj.items, List.mem_singleton] at hj
    subst hj; rw [h3]; simp
  | list n p items =>
    obtain ⟨h1, cs, h2, h3⟩ := ho
    intro j hj hn
    have : none ∈ items.map (cfgAt h) := List.mem_map.2 ⟨j, hj, hn⟩
    rw [h3] at this
    simp at this
  | _ => intro j hj; cases hj

private theorem cfgAt_some {h : Heap C S D} {i : Addr} {c : C} : cfgAt h i = some c ↔ ∃ k, h.get i = some (.config k c) := by
  unfold cfgAt
  split
  · next k d hg => rw [hg]; simp
  · next hn =>
    constructor
    · intro h; cases h
    · rintro ⟨k, hk⟩; exact absurd hk (hn k c)

private def IsConfig : Obj C S D → Prop
  | .config _ _ => True
  | _ => False

private theorem cfgAt_del_other {h : Heap C S D} {a : Addr} {o : Obj C S D} (hg : h.get a = some o) (ho : ¬ IsConfig o)
    (i : Addr) : cfgAt (h.del a) i = cfgAt h i := by
  unfold cfgAt
  rw [get_del]
  by_cases hi : i = a
  · subst hi
    rw [if_pos rfl, hg]
    cases o <;> first | rfl | exact absurd trivial ho
  · rw [if_neg hi]

private theorem cfgAt_put_other {h : Heap C S D} {a : Addr} {o : Obj C S D} (hg : h.get a = none) (ho : ¬ IsConfig o)
    (i : Addr) : cfgAt (h.put a o) i = cfgAt h i := by
  unfold cfgAt
  rw [get_put]
  by_cases hi : i = a
  · subst hi
    rw [if_pos rfl, hg]
    cases o <;> first | rfl | exact absurd trivial ho
  · rw [if_neg hi]

private theorem rel_perm {h : Heap C S D} {A : Handles C S D} {P Q : List Addr} (hp : P.Perm Q) (r : Rel h A P) : Rel h A Q :=
  ⟨r.distinct, r.null, r.owns, fun i k c hi => by rw [← hp.count_eq]; exact r.count i k c hi,
    fun i hi => r.held i (hp.mem_iff.2 hi), r.back⟩

private theorem not_owned {h : Heap C S D} {A : Handles C S D} {P : List Addr} (r : Rel h A P) {a : Addr}
    (hg : h.get a = none) : A a = none := by
  cases hA : A a with
  | none => rfl
  | some w => exact absurd hg (r.back a w hA)

private theorem not_held {h : Heap C S D} {A : Handles C S D} {P : List Addr} (r : Rel h A P) {a : Addr}
    (hg : h.get a = none) : refs h a = 0 ∧ P.count a = 0 := by
  have hc : cfgAt h a = none := by simp [cfgAt, hg]
  constructor
  · by_cases h0 : refs h a = 0
    · exact h0
    · exfalso
      have : ∃ e ∈ h, 0 < e.2.refs a := by
        apply Classical.byContradiction
        intro hne
        apply h0
        unfold refs
        have : ∀ x ∈ h.map (fun e => e.2.refs a), x = 0 := by
          intro x hx
          obtain ⟨e, he, rfl⟩ := List.mem_map.1 hx
          exact Nat.eq_zero_of_not_pos (fun hp => hne ⟨e, he, hp⟩)
        exact List.sum_eq_zero_iff_forall_eq_nat.2 this
      obtain ⟨⟨b, o⟩, hm, hp⟩ := this
      exact owns_items (r.owns b o (mem_get r.distinct hm)) a (List.count_pos_iff.1 hp) hc
  · rw [List.count_eq_zero]
    intro hm
    exact r.held a hm hc

/-- Removing an object: its references are held by nobody. -/
private theorem rel_del {h : Heap C S D} {A : Handles C S D} {P : List Addr} (r : Rel h A P) {a : Addr} {o : Obj C S D}
    (hg : h.get a = some o) (ho : ¬ IsConfig o) : Rel (h.del a) (A.set a none) (o.items ++ P) := by
  have hc := cfgAt_del_other hg ho
  refine ⟨distinct_del r.distinct a, by rw [get_del, r.null]; simp, ?_, ?_, ?_, ?_⟩
  · intro b p hb
    rw [get_del] at hb
    split at hb
    · cases hb
    · next hne =>
      simp only [Handles.set, if_neg hne]
      exact owns_congr (fun i _ => hc i) (r.owns b p hb)
  · intro i k c hi
    rw [get_del] at hi
    split at hi
    · cases hi
    · have := r.count i k c hi
      rw [refs_del r.distinct hg] at this
      rw [List.count_append]
      simp only [Obj.refs] at this
      omega
  · intro i hi
    rw [hc]
    rcases List.mem_append.1 hi with hi | hi
    · exact owns_items (r.owns a o hg) i hi
    · exact r.held i hi
  · intro b w hb
    simp only [Handles.set] at hb
    split at hb
    · cases hb
    · next hne => rw [get_del, if_neg hne]; exact r.back b w hb

/-- Adding an object which takes references that were held by nobody. -/
private theorem rel_put {h : Heap C S D} {A : Handles C S D} {P : List Addr} {a : Addr} {o : Obj C S D}
    (r : Rel h A (o.items ++ P)) (hf : Free h a) (ho : ¬ IsConfig o) {w : Owned C S D} (hw : Owns h (some w) o) :
    Rel (h.put a o) (A.set a (some w)) P := by
  have hc := cfgAt_put_other hf.2 ho
  refine ⟨distinct_put r.distinct a o, ?_, ?_, ?_, ?_, ?_⟩
  · rw [get_put, if_neg (fun h => hf.1 h.symm), r.null]
  · intro b p hb
    rw [get_put] at hb
    split at hb
    · next heq =>
      cases hb
      simp only [Handles.set, if_pos heq]
      exact owns_congr (fun i _ => hc i) hw
    · next hne =>
      simp only [Handles.set, if_neg hne]
      exact owns_congr (fun i _ => hc i) (r.owns b p hb)
  · intro i k c hi
    rw [get_put] at hi
    split at hi
    · cases hi
      exact absurd trivial ho
    · have := r.count i k c hi
      rw [List.count_append] at this
      rw [refs_put_new hf.2]
      simp only [Obj.refs]
      omega
  · intro i hi
    rw [hc]
    exact r.held i (List.mem_append.2 (.inr hi))
  · intro b w hb
    simp only [Handles.set] at hb
    rw [get_put]
    split at hb
    · next heq => simp [heq]
    · next hne => rw [if_neg hne]; exact r.back b w hb

/-- A new configuration with one reference. -/
private theorem rel_config {h : Heap C S D} {A : Handles C S D} {P : List Addr} (r : Rel h A P) {a : Addr}
    (hf : Free h a) (c : C) : Rel (h.put a (.config 1 c)) A (a :: P) := by
  have h0 := not_held r hf.2
  have hc : ∀ i, i ≠ a → cfgAt (h.put a (.config 1 c)) i = cfgAt h i := by
    intro i hi
    simp [cfgAt, get_put, hi]
  have hit : ∀ i, cfgAt h i ≠ none → i ≠ a := by
    rintro i hi rfl
    exact hi (by simp [cfgAt, hf.2])
  refine ⟨distinct_put r.distinct a _, ?_, ?_, ?_, ?_, ?_⟩
  · rw [get_put, if_neg (fun h => hf.1 h.symm), r.null]
  · intro b p hb
    rw [get_put] at hb
    split at hb
    · next heq =>
      cases hb
      subst heq
      exact not_owned r hf.2
    · have := r.owns b p hb
      exact owns_congr (fun i hi => hc i (hit i (owns_items this i hi))) this
  · intro i k d hi
    rw [get_put] at hi
    rw [refs_put_new hf.2]
    split at hi
    · next heq =>
      cases hi
      subst heq
      simp [h0.1, h0.2, Obj.refs, Obj.items]
    · next hne =>
      have := r.count i k d hi
      rw [List.count_cons_of_ne (fun h => hne h.symm)]
      simp only [Obj.refs, Obj.items, List.count_nil]
      omega
  · intro i hi
    rcases List.mem_cons.1 hi with rfl | hi
    · simp [cfgAt, get_put]
    · rw [hc i (hit i (r.held i hi))]
      exact r.held i hi
  · intro b w hb
    rw [get_put]
    split
    · simp
    · exact r.back b w hb

/-- One more reference to a configuration. -/
private theorem rel_clone {h : Heap C S D} {A : Handles C S D} {P : List Addr} (r : Rel h A P) {i : Addr} {k : Nat} {c : C}
    (hg : h.get i = some (.config k c)) : Rel (h.put i (.config (k + 1) c)) A (i :: P) := by
  have hc : ∀ j, cfgAt (h.put i (.config (k + 1) c)) j = cfgAt h j := by
    intro j
    by_cases hj : j = i
    · subst hj; simp [cfgAt, get_put, hg]
    · simp [cfgAt, get_put, hj]
  have h0 : ∀ j, refs (h.put i (.config (k + 1) c)) j = refs h j := by
    intro j
    have := refs_put_old r.distinct hg (.config (k + 1) c) j
    simpa [Obj.refs, Obj.items] using this
  refine ⟨distinct_put r.distinct i _, ?_, ?_, ?_, ?_, ?_⟩
  · have : (0 : Nat) ≠ i := by rintro rfl; rw [r.null] at hg; cases hg
    rw [get_put, if_neg this, r.null]
  · intro b p hb
    rw [get_put] at hb
    split at hb
    · next heq =>
      cases hb
      subst heq
      exact r.owns b _ hg
    · exact owns_congr (fun j _ => hc j) (r.owns b p hb)
  · intro j k' d hj
    rw [get_put] at hj
    rw [h0]
    split at hj
    · next heq =>
      cases hj
      subst heq
      have := r.count j k c hg
      rw [List.count_cons_self]
      omega
    · next hne =>
      have := r.count j k' d hj
      rw [List.count_cons_of_ne (fun h => hne h.symm)]
      exact this
  · intro j hj
    rw [hc]
    rcases List.mem_cons.1 hj with rfl | hj
    · simp [cfgAt, hg]
    · exact r.held j hj
  · intro b w hb
    rw [get_put]
    split
    · simp
    · exact r.back b w hb

/-- Dropping a reference. -/
private theorem rel_drop {h : Heap C S D} {A : Handles C S D} {i : Addr} {P : List Addr} (r : Rel h A (i :: P)) :
    ∃ h', dropConfig h i = some h' ∧ Rel h' A P := by
  cases hci : cfgAt h i with
  | none => exact absurd hci (r.held i List.mem_cons_self)
  | some c =>
  obtain ⟨k, hg⟩ := cfgAt_some.1 hci
  have hk := r.count i k c hg
  rw [List.count_cons_self] at hk
  obtain ⟨n, rfl⟩ : ∃ n, k = n + 1 := ⟨k - 1, by omega⟩
  unfold dropConfig
  rw [hg]
  simp only
  by_cases hn : n = 0
  · subst hn
    rw [if_pos rfl]
    refine ⟨_, rfl, distinct_del r.distinct i, by rw [get_del, r.null]; simp, ?_, ?_, ?_, ?_⟩
    · intro b p hb
      rw [get_del] at hb
      split at hb
      · cases hb
      · refine owns_congr ?_ (r.owns b p hb)
        intro j hj
        have hji : j ≠ i := by
          rintro rfl
          have h1 := refs_le r.distinct hb j
          have h2 := List.count_pos_iff.2 hj
          simp only [Obj.refs] at h1
          omega
        simp [cfgAt, get_del, hji]
    · intro j k' d hj
      rw [get_del] at hj
      split at hj
      · cases hj
      · next hne =>
        have h1 := r.count j k' d hj
        rw [List.count_cons_of_ne (fun h => hne h.symm), refs_del r.distinct hg] at h1
        simpa [Obj.refs, Obj.items] using h1
    · intro j hj
      have hji : j ≠ i := by
        rintro rfl
        have := List.count_pos_iff.2 hj
        omega
      have := r.held j (List.mem_cons_of_mem _ hj)
      simpa [cfgAt, get_del, hji] using this
    · intro b w hb
      rw [get_del]
      split
      · next heq =>
        subst heq
        have := r.owns b _ hg
        rw [hb] at this
        cases this
      · exact r.back b w hb
  · rw [if_neg hn]
    have hc : ∀ j, cfgAt (h.put i (.config n c)) j = cfgAt h j := by
      intro j
      by_cases hj : j = i
      · subst hj; simp [cfgAt, get_put, hg]
      · simp [cfgAt, get_put, hj]
    have h0 : ∀ j, refs (h.put i (.config n c)) j = refs h j := by
      intro j
      have := refs_put_old r.distinct hg (.config n c) j
      simpa [Obj.refs, Obj.items] using this
    refine ⟨_, rfl, distinct_put r.distinct i _, ?_, ?_, ?_, ?_, ?_⟩
    · have : (0 : Nat) ≠ i := by rintro rfl; rw [r.null] at hg; cases hg
      rw [get_put, if_neg this, r.null]
    · intro b p hb
      rw [get_put] at hb
      split at hb
      · next heq =>
        cases hb
        subst heq
        exact r.owns b _ hg
      · exact owns_congr (fun j _ => hc j) (r.owns b p hb)
    · intro j k' d hj
      rw [get_put] at hj
      rw [h0]
      split at hj
      · next heq =>
        cases hj
        subst heq
        omega
      · next hne =>
        have := r.count j k' d hj
        rw [List.count_cons_of_ne (fun h => hne h.symm)] at this
        exact this
    · intro j hj
      rw [hc]
      exact r.held j (List.mem_cons_of_mem _ hj)
    · intro b w hb
      rw [get_put]
      split
      · simp
      · exact r.back b w hb

private theorem rel_drops {A : Handles C S D} {P : List Addr} : ∀ (is : List Addr) {h : Heap C S D}, Rel h A (is ++ P) →
    ∃ h', dropConfigs h is = some h' ∧ Rel h' A P
  | [], h, r => ⟨h, rfl, r⟩
  | i :: is, h, r => by
    obtain ⟨h1, e1, r1⟩ := rel_drop r
    obtain ⟨h2, e2, r2⟩ := rel_drops is r1
    exact ⟨h2, by simp [dropConfigs, e1, e2], r2⟩

section
variable {h : Heap C S D} {A : Handles C S D} {P : List Addr}

private theorem own_obj (r : Rel h A P) {a : Addr} {w : Owned C S D} (hA : A a = some w) :
    ∃ o, h.get a = some o ∧ Owns h (some w) o := by
  cases hg : h.get a with
  | none => exact absurd hg (r.back a w hA)
  | some o => exact ⟨o, rfl, by rw [← hA]; exact r.owns a o hg⟩

private theorem own_rule (r : Rel h A P) {a : Addr} {c : C} (hA : A a = some (.rule c)) :
    ∃ i k, h.get a = some (.rule 1 i) ∧ h.get i = some (.config k c) := by
  obtain ⟨o, h1, h2⟩ := own_obj r hA
  cases o with
  | rule n i =>
    obtain ⟨rfl, c', e, hc⟩ := h2
    cases e
    obtain ⟨k, hk⟩ := cfgAt_some.1 hc
    exact ⟨i, k, h1, hk⟩
  | list n p items => obtain ⟨_, _, e, _⟩ := h2; cases e
  | scanner n s => obtain ⟨_, e⟩ := h2; cases e
  | _ => cases h2

private theorem own_list (r : Rel h A P) {a : Addr} {p : Bool} {cs : List C} (hA : A a = some (.list p cs)) :
    ∃ items, h.get a = some (.list 1 p items) ∧ items.map (cfgAt h) = cs.map some := by
  obtain ⟨o, h1, h2⟩ := own_obj r hA
  cases o with
  | rule n i => obtain ⟨_, _, e, _⟩ := h2; cases e
  | list n p items =>
    obtain ⟨rfl, cs', e, hc⟩ := h2
    cases e
    exact ⟨items, h1, hc⟩
  | scanner n s => obtain ⟨_, e⟩ := h2; cases e
  | _ => cases h2

private theorem own_scanner (r : Rel h A P) {a : Addr} {s : S} (hA : A a = some (.scanner s)) :
    h.get a = some (.scanner 1 s) := by
  obtain ⟨o, h1, h2⟩ := own_obj r hA
  cases o with
  | rule n i => obtain ⟨_, _, e, _⟩ := h2; cases e
  | list n p items => obtain ⟨_, _, e, _⟩ := h2; cases e
  | scanner n s => obtain ⟨rfl, e⟩ := h2; cases e; exact h1
  | _ => cases h2

private theorem own_vec (r : Rel h A P) {a : Addr} {d : D} (hA : A a = some (.vec d)) : h.get a = some (.vec d) := by
  obtain ⟨o, h1, h2⟩ := own_obj r hA
  cases o with
  | rule n i => obtain ⟨_, _, e, _⟩ := h2; cases e
  | list n p items => obtain ⟨_, _, e, _⟩ := h2; cases e
  | scanner n s => obtain ⟨_, e⟩ := h2; cases e
  | vec d => cases h2; exact h1
  | _ => cases h2

private theorem own_cstring (r : Rel h A P) {a : Addr} (hA : A a = some .cstring) : h.get a = some .cstring := by
  obtain ⟨o, h1, h2⟩ := own_obj r hA
  cases o with
  | rule n i => obtain ⟨_, _, e, _⟩ := h2; cases e
  | list n p items => obtain ⟨_, _, e, _⟩ := h2; cases e
  | scanner n s => obtain ⟨_, e⟩ := h2; cases e
  | cstring => exact h1
  | _ => cases h2

private theorem mapM_cfg {f : Addr → Option C} {items : List Addr} {cs : List C} (hm : items.map f = cs.map some) :
    items.mapM f = some cs := by
  induction items generalizing cs with
  | nil => cases cs with
    | nil => rfl
    | cons _ _ => cases hm
  | cons i items ih =>
    cases cs with
    | nil => cases hm
    | cons c cs =>
      simp only [List.map_cons, List.cons.injEq] at hm
      simp [List.mapM_cons, hm.1, ih hm.2]

end

private theorem set_set (A : Handles C S D) (a : Addr) (v w : Option (Owned C S D)) : (A.set a v).set a w = A.set a w := by
  funext x
  simp only [Handles.set]
  split <;> rfl

private theorem set_same {A : Handles C S D} {a : Addr} {w : Option (Owned C S D)} (h : A a = w) : A.set a w = A := by
  funext x
  simp only [Handles.set]
  split
  · next e => rw [e, h]
  · rfl

private theorem set_unset {A : Handles C S D} {a b : Addr} (hab : a ≠ b) (hb : A b = none) (v w : Option (Owned C S D)) :
    ((A.set b v).set a w).set b none = A.set a w := by
  funext x
  simp only [Handles.set]
  by_cases hx : x = b
  · subst hx; simp [hb, hab.symm]
  · simp [hx]

/-- The calls are simulated. -/
private theorem sim (lib : Lib C S D E) {h : Heap C S D} {A A' : Handles C S D} (r : Rel h A []) {c : Call C E} {o : Out}
    (ha : AllocOk h c) (hv : valueStep lib A c = some (A', o)) : ∃ h', ffiStep lib h c = some (h', o) ∧ Rel h' A' [] := by
  have put : ∀ {a : Addr} {o : Obj C S D} {w : Owned C S D}, Free h a → o.items = [] → ¬ IsConfig o → Owns h (some w) o →
      Rel (h.put a o) (A.set a (some w)) [] := by
    intro a o w hf hi ho hw
    exact rel_put (by rw [hi]; exact r) hf ho hw
  have del : ∀ {a : Addr} {o : Obj C S D}, h.get a = some o → o.items = [] → ¬ IsConfig o →
      Rel (h.del a) (A.set a none) [] := by
    intro a o hg hi ho
    have := rel_del r hg ho
    rw [hi] at this
    exact this
  cases c with
  | createRule json a b =>
    obtain ⟨hfa, hfb, hab⟩ := ha
    cases json with
    | none =>
      simp only [valueStep, Option.some.injEq, Prod.mk.injEq] at hv
      obtain ⟨rfl, rfl⟩ := hv
      exact ⟨h, rfl, r⟩
    | some c =>
      simp only [valueStep, Option.some.injEq, Prod.mk.injEq] at hv
      obtain ⟨rfl, rfl⟩ := hv
      refine ⟨_, rfl, ?_⟩
      have r1 := rel_config r hfa c
      refine rel_put (o := .rule 1 a) r1 ⟨hfb.1, ?_⟩ (by simp [IsConfig]) ⟨rfl, c, rfl, ?_⟩
      · rw [get_put, if_neg (fun h => hab h.symm)]; exact hfb.2
      · exact cfgAt_some.2 ⟨1, by rw [get_put, if_pos rfl]⟩
  | freeRule p =>
    simp only [valueStep] at hv
    split at hv
    · next c hA =>
      simp only [Option.some.injEq, Prod.mk.injEq] at hv
      obtain ⟨rfl, rfl⟩ := hv
      obtain ⟨i, k, h1, h2⟩ := own_rule r hA
      obtain ⟨h', e, r'⟩ := rel_drop (rel_del r h1 (by simp [IsConfig]))
      exact ⟨h', by simp only [ffiStep, h1, if_true, e, Option.map_some], r'⟩
    · cases hv
  | createList a =>
    simp only [valueStep, Option.some.injEq, Prod.mk.injEq] at hv
    obtain ⟨rfl, rfl⟩ := hv
    exact ⟨_, rfl, put ha rfl (by simp [IsConfig]) ⟨rfl, [], rfl, rfl⟩⟩
  | append rr l =>
    simp only [valueStep] at hv
    split at hv
    · next c p cs hAr hAl =>
      simp only [Option.some.injEq, Prod.mk.injEq] at hv
      obtain ⟨rfl, rfl⟩ := hv
      obtain ⟨i, k, h1, h2⟩ := own_rule r hAr
      obtain ⟨items, h3, h4⟩ := own_list r hAl
      simp only [ffiStep, h3, h1, h2]
      cases p with
      | true =>
        refine ⟨h, by simp, ?_⟩
        simp only [if_true]
        rw [set_same hAl]
        exact r
      | false =>
        refine ⟨_, rfl, ?_⟩
        have hl : l ≠ 0 := by rintro rfl; rw [r.null] at h3; cases h3
        have hli : l ≠ i := by rintro rfl; rw [h2] at h3; cases h3
        have r1 := rel_clone r h2
        have hg1 : (h.put i (.config (k + 1) c)).get l = some (.list 1 false items) := by
          rw [get_put, if_neg hli, h3]
        have r2 := rel_del r1 hg1 (by simp [IsConfig])
        have hc : ∀ j, cfgAt (Heap.del (h.put i (.config (k + 1) c)) l) j = cfgAt h j := by
          intro j
          rw [cfgAt_del_other hg1 (by simp [IsConfig])]
          by_cases hj : j = i
          · subst hj; simp [cfgAt, get_put, h2]
          · simp [cfgAt, get_put, hj]
        have r3 := rel_put (a := l) (o := .list 1 false (items ++ [i])) (P := []) (w := .list false (cs ++ [c]))
          (by simpa [Obj.items] using r2)
          ⟨hl, by rw [get_del, if_pos rfl]⟩ (by simp [IsConfig])
          ⟨rfl, _, rfl, by
            rw [show cfgAt (Heap.del (h.put i (.config (k + 1) c)) l) = cfgAt h from funext hc, List.map_append,
              List.map_append, h4]
            simp [cfgAt, h2]⟩
        rw [del_put, set_set] at r3
        exact r3
    · cases hv
  | freeList p =>
    simp only [valueStep] at hv
    split at hv
    · next q cs hA =>
      simp only [Option.some.injEq, Prod.mk.injEq] at hv
      obtain ⟨rfl, rfl⟩ := hv
      obtain ⟨items, h1, h2⟩ := own_list r hA
      obtain ⟨h', e, r'⟩ := rel_drops items (rel_del r h1 (by simp [IsConfig]))
      exact ⟨h', by simp only [ffiStep, h1, if_true, e, Option.map_some], r'⟩
    · cases hv
  | createScanner l a =>
    simp only [valueStep] at hv
    have hm : ∀ {items : List Addr} {cs : List C}, items.map (cfgAt h) = cs.map some →
        items.mapM (cfgAt h) = some cs := fun hx => mapM_cfg hx
    split at hv
    · next cs hA =>
      simp only [Option.some.injEq, Prod.mk.injEq] at hv
      obtain ⟨rfl, rfl⟩ := hv
      obtain ⟨items, h1, h2⟩ := own_list r hA
      refine ⟨h.put a .cstring, by simp only [ffiStep, h1, hm h2, if_true]; rfl, ?_⟩
      exact put ha rfl (by simp [IsConfig]) rfl
    · next cs hA =>
      obtain ⟨items, h1, h2⟩ := own_list r hA
      simp only [ffiStep, h1, hm h2, Bool.false_eq_true, if_false]
      cases hb : lib.build cs with
      | ok s =>
        simp only [hb, Option.some.injEq, Prod.mk.injEq] at hv
        obtain ⟨rfl, rfl⟩ := hv
        exact ⟨_, rfl, put ha rfl (by simp [IsConfig]) ⟨rfl, rfl⟩⟩
      | error code =>
        simp only [hb, Option.some.injEq, Prod.mk.injEq] at hv
        obtain ⟨rfl, rfl⟩ := hv
        exact ⟨h, rfl, r⟩
      | panic =>
        simp only [hb, Option.some.injEq, Prod.mk.injEq] at hv
        obtain ⟨rfl, rfl⟩ := hv
        refine ⟨_, rfl, ?_⟩
        have r1 := rel_del r h1 (by simp [IsConfig])
        have hl : l ≠ 0 := by rintro rfl; rw [r.null] at h1; cases h1
        have r2 := rel_put (a := l) (o := .list 1 true items) (P := []) (w := .list true cs) r1
          ⟨hl, by rw [get_del, if_pos rfl]⟩ (by simp [IsConfig])
          ⟨rfl, cs, rfl, by rw [← h2]; exact List.map_congr_left (fun j _ => cfgAt_del_other h1 (by simp [IsConfig]) j)⟩
        rw [del_put, set_set] at r2
        have hal : a ≠ l := by rintro rfl; have := ha.2; rw [h1] at this; cases this
        exact rel_put (o := .cstring) (P := []) r2 ⟨ha.1, by rw [get_put, if_neg hal]; exact ha.2⟩ (by simp [IsConfig]) rfl
    · cases hv
  | scan s e a =>
    simp only [valueStep] at hv
    split at hv
    · next sc hA =>
      have h1 := own_scanner r hA
      simp only [ffiStep, h1]
      cases hs : lib.scan sc e with
      | nothing =>
        simp only [hs, Option.some.injEq, Prod.mk.injEq] at hv
        obtain ⟨rfl, rfl⟩ := hv
        exact ⟨h, rfl, r⟩
      | data d =>
        simp only [hs, Option.some.injEq, Prod.mk.injEq] at hv
        obtain ⟨rfl, rfl⟩ := hv
        exact ⟨_, rfl, put ha rfl (by simp [IsConfig]) rfl⟩
      | panic =>
        simp only [hs, Option.some.injEq, Prod.mk.injEq] at hv
        obtain ⟨rfl, rfl⟩ := hv
        exact ⟨_, rfl, put ha rfl (by simp [IsConfig]) rfl⟩
    · cases hv
  | deleteScanner p =>
    simp only [valueStep] at hv
    split at hv
    · next s hA =>
      simp only [Option.some.injEq, Prod.mk.injEq] at hv
      obtain ⟨rfl, rfl⟩ := hv
      have h1 := own_scanner r hA
      exact ⟨_, by simp only [ffiStep, h1, if_true], del h1 rfl (by simp [IsConfig])⟩
    · cases hv
  | freeVec p =>
    simp only [valueStep] at hv
    split at hv
    · next d hA =>
      simp only [Option.some.injEq, Prod.mk.injEq] at hv
      obtain ⟨rfl, rfl⟩ := hv
      have h1 := own_vec r hA
      exact ⟨_, by simp only [ffiStep, h1], del h1 rfl (by simp [IsConfig])⟩
    · cases hv
  | freeString p =>
    simp only [valueStep] at hv
    split at hv
    · next hA =>
      simp only [Option.some.injEq, Prod.mk.injEq] at hv
      obtain ⟨rfl, rfl⟩ := hv
      have h1 := own_cstring r hA
      exact ⟨_, by simp only [ffiStep, h1], del h1 rfl (by simp [IsConfig])⟩
    · cases hv

private theorem rel_start : Rel ([] : Heap C S D) (fun _ => none) [] :=
  ⟨List.nodup_nil, rfl, (fun _ _ h => by cases h), (fun _ _ _ h => by cases h), (fun _ h => by cases h),
    (fun _ _ h => by cases h)⟩

private theorem history_rel {lib : Lib C S D E} {h : Heap C S D} {A : Handles C S D} (hh : History lib h A) : Rel h A [] := by
  induction hh with
  | start => exact rel_start
  | call _ ha hv hf ih =>
    obtain ⟨h', e, r⟩ := sim lib ih ha hv
    rw [hf] at e
    cases e
    exact r

/-- C65: in every history, a call with handles that the caller owns is defined: it touches no freed memory and no
object of another kind, and it hands back what the values prescribe.  In particular rules and lists can be freed
while they are used elsewhere. -/
theorem C65_no_use_after_free {lib : Lib C S D E} {h : Heap C S D} {A A' : Handles C S D} (hh : History lib h A)
    {c : Call C E} {o : Out} (ha : AllocOk h c) (hv : valueStep lib A c = some (A', o)) :
    ∃ h', ffiStep lib h c = some (h', o) ∧ History lib h' A' := by
  obtain ⟨h', e, _⟩ := sim lib (history_rel hh) ha hv
  exact ⟨h', e, .call hh ha hv e⟩

/-- C65: when the caller has given back all handles, nothing is left on the heap. -/
theorem C65_no_leak {lib : Lib C S D E} {h : Heap C S D} {A : Handles C S D} (hh : History lib h A)
    (hA : ∀ a, A a = none) : h = [] := by
  have r := history_rel hh
  have hcfg : ∀ a o, h.get a = some o → IsConfig o := by
    intro a o hg
    have := r.owns a o hg
    rw [hA] at this
    cases o with
    | config k c => trivial
    | rule n i => obtain ⟨_, _, e, _⟩ := this; cases e
    | list n p items => obtain ⟨_, _, e, _⟩ := this; cases e
    | scanner n s => obtain ⟨_, e⟩ := this; cases e
    | vec d => cases this
    | cstring => cases this
  cases h with
  | nil => rfl
  | cons e h =>
    exfalso
    obtain ⟨a, o⟩ := e
    have hg : Heap.get ((a, o) :: h) a = some o := by simp [Heap.get]
    cases o with
    | config k c =>
      have h1 := (r.count a k c hg)
      have h2 : refs ((a, Obj.config k c) :: h) a = 0 := by
        unfold refs
        apply List.sum_eq_zero_iff_forall_eq_nat.2
        intro x hx
        obtain ⟨⟨b, p⟩, hm, rfl⟩ := List.mem_map.1 hx
        have := hcfg b p (mem_get r.distinct hm)
        cases p <;> first | rfl | exact this.elim
      rw [h2] at h1
      simp at h1
      omega
    | _ => exact hcfg a _ hg

/-- C65: the objects on the heap besides the configurations are exactly the handles that the caller owns, and every
configuration is used by one of them. -/
theorem C65_heap_is_owned {lib : Lib C S D E} {h : Heap C S D} {A : Handles C S D} (hh : History lib h A) (a : Addr)
    (o : Obj C S D) (hg : h.get a = some o) :
    (A a).isSome ∨ ∃ b p, (A b).isSome ∧ h.get b = some p ∧ a ∈ p.items := by
  have r := history_rel hh
  have hsome : ∀ b p, h.get b = some p → p.items ≠ [] → (A b).isSome := by
    intro b p hb hp
    have := r.owns b p hb
    cases p with
    | rule n i => obtain ⟨_, _, e, _⟩ := this; rw [e]; rfl
    | list n p items => obtain ⟨_, _, e, _⟩ := this; rw [e]; rfl
    | _ => exact absurd rfl hp
  cases o with
  | config k c =>
    right
    have h1 := (r.count a k c hg)
    have : ∃ e ∈ h, 0 < e.2.refs a := by
      apply Classical.byContradiction
      intro hne
      have : refs h a = 0 := by
        unfold refs
        apply List.sum_eq_zero_iff_forall_eq_nat.2
        intro x hx
        obtain ⟨e, he, rfl⟩ := List.mem_map.1 hx
        exact Nat.eq_zero_of_not_pos (fun hp => hne ⟨e, he, hp⟩)
      rw [this] at h1
      simp at h1
      omega
    obtain ⟨⟨b, p⟩, hm, hp⟩ := this
    have hi := List.count_pos_iff.1 hp
    exact ⟨b, p, hsome b p (mem_get r.distinct hm) (by intro h; rw [h] at hi; cases hi), mem_get r.distinct hm, hi⟩
  | rule n i => left; exact hsome a _ hg (by simp [Obj.items])
  | list n p items => left; obtain ⟨_, _, e, _⟩ := r.owns a _ hg; rw [e]; rfl
  | scanner n s => left; obtain ⟨_, e⟩ := r.owns a _ hg; rw [e]; rfl
  | vec d => left; have e : A a = _ := r.owns a _ hg; rw [e]; rfl
  | cstring => left; have e : A a = _ := r.owns a _ hg; rw [e]; rfl

/-! ## C66 -/

/-- A history with a record of the configurations appended to each list since it was created. -/
inductive _root_.Sds.Spec.Recorded (lib : Lib C S D E) : Heap C S D → Handles C S D → (Addr → List C) → Prop where
  | start (L : Addr → List C) : Recorded lib [] (fun _ => none) L
  | created {h h' : Heap C S D} {A A' : Handles C S D} {L : Addr → List C} {a : Addr} {o o' : Out} : Recorded lib h A L →
      AllocOk h (.createList a : Call C E) → valueStep lib A (.createList a) = some (A', o) →
      ffiStep lib h (.createList a) = some (h', o') → Recorded lib h' A' (fun x => if x = a then [] else L x)
  | appended {h h' : Heap C S D} {A A' : Handles C S D} {L : Addr → List C} {r l : Addr} {c : C} {o o' : Out} :
      Recorded lib h A L → A r = some (.rule c) → valueStep lib A (.append r l) = some (A', o) →
      ffiStep lib h (.append r l) = some (h', o') → Recorded lib h' A' (fun x => if x = l then L l ++ [c] else L x)
  | other {h h' : Heap C S D} {A A' : Handles C S D} {L : Addr → List C} {c : Call C E} {o o' : Out} : Recorded lib h A L →
      (∀ a, c ≠ .createList a) → (∀ r l, c ≠ .append r l) → AllocOk h c → valueStep lib A c = some (A', o) →
      ffiStep lib h c = some (h', o') → Recorded lib h' A' L

private theorem recorded_history {lib : Lib C S D E} {h : Heap C S D} {A : Handles C S D} {L : Addr → List C}
    (hr : Recorded lib h A L) : History lib h A := by
  induction hr with
  | start => exact .start
  | created _ ha hv hf ih => exact .call ih ha hv hf
  | @appended _ _ _ _ _ r l _ _ _ _ _ hv hf ih => exact .call (c := .append r l) ih trivial hv hf
  | other _ _ _ ha hv hf ih => exact .call ih ha hv hf

private theorem recorded_lists {lib : Lib C S D E} (hp : ∀ cs, lib.build cs ≠ .panic) {h : Heap C S D} {A : Handles C S D}
    {L : Addr → List C} (hr : Recorded lib h A L) : ∀ l p cs, A l = some (.list p cs) → p = false ∧ cs = L l := by
  induction hr with
  | start => intro l p cs h; cases h
  | created _ ha hv hf ih =>
    simp only [valueStep, Option.some.injEq, Prod.mk.injEq] at hv
    obtain ⟨rfl, rfl⟩ := hv
    intro l p cs h
    simp only [Handles.set] at h
    split at h
    · next e => cases h; simp [e]
    · next e => simp only [if_neg e]; exact ih l p cs h
  | @appended h h' A A' L r l c o o' _ hA hv hf ih =>
    simp only [valueStep, hA] at hv
    split at hv
    · next c' p' cs' e hAl =>
      cases e
      simp only [Option.some.injEq, Prod.mk.injEq] at hv
      obtain ⟨rfl, rfl⟩ := hv
      obtain ⟨rfl, e2⟩ := ih l _ _ hAl
      intro l' p cs h
      simp only [Handles.set] at h
      split at h
      · next e => cases h; simp [e, e2]
      · next e => simp only [if_neg e]; exact ih l' p cs h
    · cases hv
  | @other h h' A A' L c o o' _ hn1 hn2 ha hv hf ih =>
    have keep : ∀ (a : Addr) (w : Option (Owned C S D)), (∀ p cs, w ≠ some (.list p cs)) → ∀ l p cs,
        (A.set a w) l = some (.list p cs) → p = false ∧ cs = L l := by
      intro a w hw l p cs h
      simp only [Handles.set] at h
      split at h
      · exact absurd h (hw p cs)
      · exact ih l p cs h
    cases c with
    | createList a => exact absurd rfl (hn1 a)
    | append r l => exact absurd rfl (hn2 r l)
    | createRule json a b =>
      cases json with
      | none =>
        simp only [valueStep, Option.some.injEq, Prod.mk.injEq] at hv
        obtain ⟨rfl, _⟩ := hv
        exact ih
      | some c =>
        simp only [valueStep, Option.some.injEq, Prod.mk.injEq] at hv
        obtain ⟨rfl, _⟩ := hv
        exact keep _ _ (by simp)
    | createScanner l a =>
      simp only [valueStep] at hv
      split at hv
      · simp only [Option.some.injEq, Prod.mk.injEq] at hv
        obtain ⟨rfl, _⟩ := hv
        exact keep _ _ (by simp)
      · next cs hA =>
        cases hb : lib.build cs with
        | ok s =>
          simp only [hb, Option.some.injEq, Prod.mk.injEq] at hv
          obtain ⟨rfl, _⟩ := hv
          exact keep _ _ (by simp)
        | error code =>
          simp only [hb, Option.some.injEq, Prod.mk.injEq] at hv
          obtain ⟨rfl, _⟩ := hv
          exact ih
        | panic => exact absurd hb (hp cs)
      · cases hv
    | scan s e a =>
      simp only [valueStep] at hv
      split at hv
      · next sc hA =>
        cases hs : lib.scan sc e with
        | nothing =>
          simp only [hs, Option.some.injEq, Prod.mk.injEq] at hv
          obtain ⟨rfl, _⟩ := hv
          exact ih
        | data d =>
          simp only [hs, Option.some.injEq, Prod.mk.injEq] at hv
          obtain ⟨rfl, _⟩ := hv
          exact keep _ _ (by simp)
        | panic =>
          simp only [hs, Option.some.injEq, Prod.mk.injEq] at hv
          obtain ⟨rfl, _⟩ := hv
          exact keep _ _ (by simp)
      · cases hv
    | _ =>
      simp only [valueStep] at hv
      split at hv
      · simp only [Option.some.injEq, Prod.mk.injEq] at hv
        obtain ⟨rfl, _⟩ := hv
        exact keep _ _ (by simp)
      · cases hv

/-- C66: a scanner is built from exactly the rules that were appended to the list, in order, also if the rules have
been freed in the meantime.  Missing: this needs that building never panicked with the list (`C66_append_lost`). -/
theorem C66_built_from_appended_partial {lib : Lib C S D E} (hp : ∀ cs, lib.build cs ≠ .panic) {h : Heap C S D}
    {A : Handles C S D} {L : Addr → List C} (hr : Recorded lib h A L) {l : Addr} {p : Bool} {cs : List C}
    (hA : A l = some (.list p cs)) (a : Addr) :
    (∀ s, lib.build (L l) = .ok s → ffiStep lib h (.createScanner l a) = some (h.put a (.scanner 1 s), ⟨a, none, none⟩)) ∧
    (∀ code, lib.build (L l) = .error code → ffiStep lib h (.createScanner l a) = some (h, ⟨code, none, none⟩)) := by
  obtain ⟨rfl, rfl⟩ := recorded_lists hp hr l p cs hA
  obtain ⟨items, h1, h2⟩ := own_list (history_rel (recorded_history hr)) hA
  constructor
  · intro s hb
    simp [ffiStep, h1, mapM_cfg h2, hb]
  · intro code hb
    simp [ffiStep, h1, mapM_cfg h2, hb]

/-! ## C67 -/

private theorem call_ok {lib : Lib C S D E} {h : Heap C S D} {A : Handles C S D} (hh : History lib h A)
    (c : Call C E) {A' : Handles C S D} {o : Out} (ha : AllocOk h c) (hv : valueStep lib A c = some (A', o)) :
    ∃ h', ffiStep lib h c = some (h', o) ∧ History lib h' A' := C65_no_use_after_free hh ha hv

private theorem neg_nat (n : Nat) : ¬ ((n : Int) < 0) := by omega

private theorem add_rules {lib : Lib C S D E} {alloc : Heap C S D → Addr} (hal : ∀ h, Free h (alloc h)) {l : Addr} :
    ∀ (jsons : List (Option C)) {h : Heap C S D} {A : Handles C S D} {cs0 : List C}, History lib h A →
      A l = some (.list false cs0) →
      ∃ h' ok, goAddRules lib alloc l h jsons = some (h', ok) ∧
        (ok = true → ∃ cs, jsons = cs.map some ∧ History lib h' (A.set l (some (.list false (cs0 ++ cs))))) ∧
        (ok = false → none ∈ jsons ∧ ∃ cs, History lib h' (A.set l (some (.list false cs)))) := by
  intro jsons
  induction jsons with
  | nil =>
    intro h A cs0 hh hA
    refine ⟨h, true, rfl, fun _ => ⟨[], rfl, ?_⟩, by simp⟩
    rw [List.append_nil, set_same hA]
    exact hh
  | cons json rest ih =>
    intro h A cs0 hh hA
    have ha := hal h
    have hb := hal (h.put (alloc h) .cstring)
    simp only [goAddRules]
    generalize alloc h = a at ha hb ⊢
    generalize alloc (h.put a .cstring) = b at hb ⊢
    obtain ⟨hb0, hb1⟩ := hb
    rw [get_put] at hb1
    by_cases hba : b = a
    · simp [hba] at hb1
    rw [if_neg hba] at hb1
    cases json with
    | none =>
      refine ⟨h, false, by simp [ffiStep, ffiPanic], by simp, fun _ => ⟨by simp, cs0, ?_⟩⟩
      rw [set_same hA]
      exact hh
    | some c =>
      have hAb : A b = none := not_owned (history_rel hh) hb1
      have hlb : l ≠ b := by rintro rfl; rw [hA] at hAb; cases hAb
      obtain ⟨h1, e1, hh1⟩ := call_ok hh (.createRule (some c) a b) ⟨ha, ⟨hb0, hb1⟩, fun h => hba h.symm⟩ rfl
      obtain ⟨h2, e2, hh2⟩ := call_ok hh1 (.append b l) trivial
        (A' := (A.set b (some (.rule c))).set l (some (.list false (cs0 ++ [c])))) (o := ⟨0, none, none⟩)
        (by simp [valueStep, Handles.set, hlb, hA])
      obtain ⟨h3, e3, hh3⟩ := call_ok hh2 (.freeRule b) trivial
        (A' := A.set l (some (.list false (cs0 ++ [c])))) (o := ⟨0, none, none⟩) (by
          rw [← set_unset hlb hAb (some (.rule c))]
          simp [valueStep, Handles.set, hlb.symm])
      obtain ⟨h4, ok, e4, e5, e6⟩ := ih (cs0 := cs0 ++ [c]) hh3 (by simp [Handles.set])
      refine ⟨h4, ok, ?_, ?_, ?_⟩
      · simp only [e1, Option.bind_some, if_neg (neg_nat b), Int.toNat_natCast, e2, e3, e4]
      · intro hok
        obtain ⟨cs, e7, e8⟩ := e5 hok
        refine ⟨c :: cs, by simp [e7], ?_⟩
        rw [set_set] at e8
        simpa using e8
      · intro hok
        obtain ⟨e7, cs, e8⟩ := e6 hok
        rw [set_set] at e8
        exact ⟨List.mem_cons_of_mem _ e7, cs, e8⟩

/-- C67: creating a scanner in Go never goes wrong, and leaves behind nothing but the scanner: on success the caller
owns the scanner, built from all rules, in addition to what it owned; on an error, what it owned before. -/
theorem C67_create_scanner {lib : Lib C S D E} {alloc : Heap C S D → Addr} (hal : ∀ h, Free h (alloc h))
    (hcodes : ∀ cs code, lib.build cs = .error code → code < 0) {h : Heap C S D} {A : Handles C S D}
    (hh : History lib h A) (jsons : List (Option C)) :
    ∃ h' res, goCreateScanner lib alloc h jsons = some (h', res) ∧
      match res with
      | .ok id => A id = none ∧ ∃ cs s, jsons = cs.map some ∧ lib.build cs = .ok s ∧
          History lib h' (A.set id (some (.scanner s)))
      | .error none => none ∈ jsons ∧ History lib h' A
      | .error (some code) => (∃ cs, jsons = cs.map some ∧
          (lib.build cs = .error code ∨ (lib.build cs = .panic ∧ code = -5))) ∧ History lib h' A := by
  have hl := hal h
  unfold goCreateScanner
  generalize alloc h = l at hl ⊢
  have hAl : A l = none := not_owned (history_rel hh) hl.2
  obtain ⟨h1, e1, hh1⟩ := call_ok hh (.createList l) hl rfl
  obtain ⟨h2, ok, e2, e3, e4⟩ := add_rules hal jsons (l := l) (cs0 := []) hh1 (by simp [Handles.set])
  simp only [e1, Option.bind_some, Int.toNat_natCast, e2]
  have hfree : ∀ {A : Handles C S D} {q cs}, A l = some (.list q cs) →
      valueStep lib A (.freeList l) = some (A.set l none, ⟨0, none, none⟩) := by
    intro A q cs h
    simp [valueStep, h]
  cases ok with
  | false =>
    obtain ⟨e5, cs, hh2⟩ := e4 rfl
    obtain ⟨h3, e6, hh3⟩ := call_ok hh2 (.freeList l) trivial (hfree (by simp [Handles.set]; exact ⟨rfl, rfl⟩))
    rw [set_set, set_set, set_same hAl] at hh3
    exact ⟨h3, .error none, by simp [e6], e5, hh3⟩
  | true =>
    obtain ⟨cs, e5, hh2⟩ := e3 rfl
    rw [set_set, List.nil_append] at hh2
    have ha := hal h2
    simp only [if_true]
    generalize alloc h2 = a at ha ⊢
    have hAa : (A.set l (some (.list false cs))) a = none := not_owned (history_rel hh2) ha.2
    have hal' : a ≠ l := by rintro rfl; simp [Handles.set] at hAa
    have hla : l ≠ a := fun h => hal' h.symm
    have hAa' : A a = none := by simpa [Handles.set, hal'] using hAa
    cases hb : lib.build cs with
    | ok s =>
      obtain ⟨h3, e6, hh3⟩ := call_ok hh2 (.createScanner l a) ha
        (A' := (A.set l (some (.list false cs))).set a (some (.scanner s))) (o := ⟨a, none, none⟩)
        (by simp [valueStep, Handles.set, hb])
      obtain ⟨h4, e7, hh4⟩ := call_ok hh3 (.freeList l) trivial (hfree (by simp [Handles.set, hla]; exact ⟨rfl, rfl⟩))
      refine ⟨h4, .ok a, by simp only [e6, Option.bind_some, if_neg (neg_nat a), e7, Int.toNat_natCast], hAa', cs, s, e5, hb, ?_⟩
      rw [← set_unset hal' hAl]
      exact hh4
    | error code =>
      have hneg := hcodes cs code hb
      obtain ⟨h3, e6, hh3⟩ := call_ok hh2 (.createScanner l a) ha
        (A' := A.set l (some (.list false cs))) (o := ⟨code, none, none⟩) (by simp [valueStep, Handles.set, hb])
      obtain ⟨h4, e7, hh4⟩ := call_ok hh3 (.freeList l) trivial (hfree (by simp [Handles.set]; exact ⟨rfl, rfl⟩))
      rw [set_set, set_same hAl] at hh4
      refine ⟨h4, .error (some code), by simp only [e6, Option.bind_some, if_pos hneg, e7], ⟨cs, e5, .inl hb⟩, hh4⟩
    | panic =>
      obtain ⟨h3, e6, hh3⟩ := call_ok hh2 (.createScanner l a) ha
        (A' := ((A.set l (some (.list false cs))).set l (some (.list true cs))).set a (some .cstring))
        (o := ⟨-5, some a, none⟩) (by simp [valueStep, Handles.set, hb])
      obtain ⟨h4, e7, hh4⟩ := call_ok hh3 (.freeString a) trivial
        (A' := A.set l (some (.list true cs))) (o := ⟨0, none, none⟩) (by
          have e : (((A.set l (some (.list false cs))).set l (some (.list true cs))).set a (some .cstring)).set a none =
              A.set l (some (.list true cs)) := by
            rw [set_set, set_set]
            exact set_same (by simp [Handles.set, hal', hAa'])
          rw [← e]
          simp [valueStep, Handles.set])
      obtain ⟨h5, e8, hh5⟩ := call_ok hh4 (.freeList l) trivial (hfree (by simp [Handles.set]; exact ⟨rfl, rfl⟩))
      rw [set_set, set_same hAl] at hh5
      refine ⟨h5, .error (some (-5)), ?_, ⟨cs, e5, .inr ⟨hb, rfl⟩⟩, hh5⟩
      simp only [e6, Option.bind_some, e7, e8]
      rfl

/-- C67: a scan from Go with a live scanner returns what the library returned, and leaves nothing behind. -/
theorem C67_scan {lib : Lib C S D E} {alloc : Heap C S D → Addr} (hal : ∀ h, Free h (alloc h)) {h : Heap C S D}
    {A : Handles C S D} (hh : History lib h A) {s : Addr} {sc : S} (hA : A s = some (.scanner sc)) (e : E) :
    ∃ h', goLowLevelScan lib alloc h s e = some (h', match lib.scan sc e with
      | .nothing => .nothing
      | .data d => .data d
      | .panic => .failed) ∧ History lib h' A := by
  have ha := hal h
  unfold goLowLevelScan
  generalize alloc h = a at ha ⊢
  have hAa : A a = none := not_owned (history_rel hh) ha.2
  cases hs : lib.scan sc e with
  | nothing =>
    obtain ⟨h1, e1, hh1⟩ := call_ok hh (.scan s e a) ha (A' := A) (o := ⟨0, none, none⟩) (by simp [valueStep, hA, hs])
    exact ⟨h1, by simp only [e1, Option.bind_some], hh1⟩
  | data d =>
    obtain ⟨h1, e1, hh1⟩ := call_ok hh (.scan s e a) ha (A' := A.set a (some (.vec d))) (o := ⟨0, none, some a⟩)
      (by simp [valueStep, hA, hs])
    obtain ⟨h2, e2, hh2⟩ := call_ok hh1 (.freeVec a) trivial (A' := (A.set a (some (.vec d))).set a none)
      (o := ⟨0, none, none⟩) (by simp [valueStep, Handles.set])
    rw [set_set, set_same hAa] at hh2
    have hg := own_vec (history_rel hh1) (a := a) (d := d) (by simp [Handles.set])
    exact ⟨h2, by simp only [e1, Option.bind_some, hg, e2], hh2⟩
  | panic =>
    obtain ⟨h1, e1, hh1⟩ := call_ok hh (.scan s e a) ha (A' := A.set a (some .cstring)) (o := ⟨0, some a, none⟩)
      (by simp [valueStep, hA, hs])
    obtain ⟨h2, e2, hh2⟩ := call_ok hh1 (.freeString a) trivial (A' := (A.set a (some .cstring)).set a none)
      (o := ⟨0, none, none⟩) (by simp [valueStep, Handles.set])
    rw [set_set, set_same hAa] at hh2
    exact ⟨h2, by simp only [e1, Option.bind_some, e2], hh2⟩

/-- C67: deleting a scanner in Go gives it back. -/
theorem C67_delete {lib : Lib C S D E} {h : Heap C S D} {A : Handles C S D} (hh : History lib h A) {s : Addr} {sc : S}
    (hA : A s = some (.scanner sc)) : ∃ h', goDeleteScanner lib h s = some (h', 0) ∧ History lib h' (A.set s none) := by
  obtain ⟨h1, e1, hh1⟩ := call_ok hh (.deleteScanner s) trivial (A' := A.set s none) (o := ⟨0, none, none⟩)
    (by simp [valueStep, hA])
  exact ⟨h1, by simp [goDeleteScanner, e1], hh1⟩

/-- C67, finding: `Delete` leaves 0 in the scanner object.  Deleting it again, or scanning with it, is undefined
behaviour (a null pointer is used) instead of an error. -/
theorem C67_used_after_delete {lib : Lib C S D E} {alloc : Heap C S D → Addr} {h : Heap C S D} {A : Handles C S D}
    (hh : History lib h A) (e : E) : goDeleteScanner lib h 0 = none ∧ goLowLevelScan lib alloc h 0 e = none := by
  have := (history_rel hh).null
  constructor
  · simp [goDeleteScanner, ffiStep, this]
  · simp [goLowLevelScan, ffiStep, this]

/-! ## What lies at an address -/

theorem history_scanner {lib : Lib C S D E} {h : Heap C S D} {A : Handles C S D} (hh : History lib h A) {a : Addr} {s : S}
    (hA : A a = some (.scanner s)) : h.get a = some (.scanner 1 s) := own_scanner (history_rel hh) hA

theorem history_vec {lib : Lib C S D E} {h : Heap C S D} {A : Handles C S D} (hh : History lib h A) {a : Addr} {d : D}
    (hA : A a = some (.vec d)) : h.get a = some (.vec d) := own_vec (history_rel hh) hA

theorem history_free {lib : Lib C S D E} {h : Heap C S D} {A : Handles C S D} (hh : History lib h A) {a : Addr}
    (ha : h.get a = none) : A a = none := not_owned (history_rel hh) ha

theorem history_null {lib : Lib C S D E} {h : Heap C S D} {A : Handles C S D} (hh : History lib h A) : A 0 = none :=
  history_free hh (history_rel hh).null

/-! ## Witness and examples -/

/-- A library whose configurations are numbers: 0 makes the builder panic, 1 is invalid, scanning "0" panics. -/
private def exLib : Lib Nat (List Nat) Nat Nat where
  build cs := if 0 ∈ cs then .panic else if 1 ∈ cs then .error (-2) else .ok cs
  scan s e := if e = 0 then .panic else if e ∈ s then .data e else .nothing

private def run (h : Heap Nat (List Nat) Nat) : List (Call Nat Nat) → Option (Heap Nat (List Nat) Nat × List Out)
  | [] => some (h, [])
  | c :: cs => (ffiStep exLib h c).bind fun (h1, o) => (run h1 cs).map fun (h2, os) => (h2, o :: os)

/-- The first call that panics, then a rule which is appended without an error. -/
private def poisoning : List (Call Nat Nat) :=
  [.createList 1, .createRule (some 0) 2 3, .append 3 1, .createScanner 1 4, .createRule (some 7) 5 6, .append 6 1,
   .freeRule 6]

/-- C66, finding: after building panicked once, the mutex of the list is poisoned.  Appending is then ignored without
an error, and no scanner can be created from the list any more. -/
theorem C66_append_lost :
    (run [] poisoning).map (fun r => r.1.get 1) = some (some (.list 1 true [2])) ∧
    (run [] (poisoning ++ [.createScanner 1 5])).map (fun r => r.2.getLast?.map (·.ret)) = some (some (-5)) := by
  decide +kernel

/-- A rule is freed while it is in a list, the list while a scanner made from it is live; the scanner is used and all
is given back.  Freeing the rule a second time is undefined. -/
example :
    run [] [.createRule (some 7) 2 3, .createList 1, .append 3 1, .freeRule 3, .createScanner 1 3, .freeList 1,
      .scan 3 7 1, .freeVec 1, .scan 3 0 2, .freeString 2, .scan 3 5 1, .deleteScanner 3] =
      some ([], [⟨3, none, none⟩, ⟨1, none, none⟩, ⟨0, none, none⟩, ⟨0, none, none⟩, ⟨3, none, none⟩, ⟨0, none, none⟩,
        ⟨0, none, some 1⟩, ⟨0, none, none⟩, ⟨0, some 2, none⟩, ⟨0, none, none⟩, ⟨0, none, none⟩, ⟨0, none, none⟩]) ∧
    run [] [.createRule (some 7) 2 3, .freeRule 3, .freeRule 3] = none ∧
    run [] [.createRule (some 7) 2 3, .createList 1, .append 1 3] = none := by
  decide +kernel

/-- An allocator: the next address after all that are in use. -/
private def exAlloc {C S D : Type} : Heap C S D → Addr
  | [] => 1
  | (b, _) :: h => max (b + 1) (exAlloc h)

private theorem exAlloc_lt {C S D : Type} (h : Heap C S D) : ∀ a o, h.get a = some o → a < exAlloc h := by
  induction h with
  | nil => intro a o h; cases h
  | cons e h ih =>
    obtain ⟨b, p⟩ := e
    intro a o hg
    simp only [Heap.get] at hg
    simp only [exAlloc]
    split at hg
    · next hb =>
      rw [← hb]
      exact Nat.lt_of_lt_of_le (Nat.lt_succ_self b) (Nat.le_max_left _ _)
    · exact Nat.lt_of_lt_of_le (ih a o hg) (Nat.le_max_right _ _)

private theorem exAlloc_free {C S D : Type} (h : Heap C S D) : Free h (exAlloc h) := by
  constructor
  · cases h with
    | nil => exact Nat.one_ne_zero
    | cons e h => exact Nat.ne_of_gt (Nat.lt_of_lt_of_le (Nat.succ_pos e.1) (Nat.le_max_left _ _))
  · cases hg : h.get (exAlloc h) with
    | none => rfl
    | some o => exact absurd (exAlloc_lt h _ o hg) (Nat.lt_irrefl _)

/-- The hypotheses of C67 are met; all three outcomes occur. -/
example : (∀ h : Heap Nat (List Nat) Nat, Free h (exAlloc h)) ∧
    (∀ cs code, exLib.build cs = .error code → code < 0) ∧
    (goCreateScanner exLib exAlloc [] [some 7, some 8]).map (·.1) = some [(4, .scanner 1 [7, 8])] ∧
    (goCreateScanner exLib exAlloc [] [some 7, some 1]).map (·.1) = some [] ∧
    (goCreateScanner exLib exAlloc [] [some 7, some 0]).map (·.1) = some [] ∧
    (goCreateScanner exLib exAlloc [] [some 7, none, some 8]).map (·.1) = some [] := by
  refine ⟨exAlloc_free, ?_, by rfl, by rfl, by rfl, by rfl⟩
  intro cs code h
  simp only [exLib] at h
  split at h
  · cases h
  · split at h
    · cases h; decide
    · cases h

/-- The hypotheses of C66 are met: the builder need not panic. -/
example : ∃ (lib : Lib Nat (List Nat) Nat Nat) (h : Heap Nat (List Nat) Nat) (A : Handles Nat (List Nat) Nat)
    (L : Addr → List Nat), (∀ cs, lib.build cs ≠ .panic) ∧ Recorded lib h A L ∧ A 1 = some (.list false [7]) ∧ L 1 = [7] := by
  let lib : Lib Nat (List Nat) Nat Nat := ⟨fun cs => .ok cs, fun _ _ => .nothing⟩
  have h1 : Recorded lib [] (fun _ => none) (fun _ => []) := .start _
  have h2 := Recorded.other (c := .createRule (some 7) 2 3) h1 (by simp) (by simp) ⟨⟨by decide, rfl⟩, ⟨by decide, rfl⟩, by decide⟩ rfl rfl
  have h3 := Recorded.created (a := 1) h2 ⟨by decide, rfl⟩ rfl rfl
  have h4 := Recorded.appended (r := 3) (l := 1) h3 rfl rfl rfl
  exact ⟨lib, _, _, _, (by intro cs h; cases h), h4, rfl, rfl⟩

end Props
end Sds
