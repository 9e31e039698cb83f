import Verif.Spec.GoHeap
import Verif.Lemmas.CodecScan

/-! Lemmas about events with shared parts. -/

namespace Sds
open Spec

/-! ## Writing a text at a place -/

/-- Write a text at a place. -/
def GoHeap.write (h : GoHeap) : Place → Bytes → GoHeap
  | .entry a k, b => h.putField a k (.str b)
  | .cell a i, b => h.putItem a i (.str b)

theorem setKey_keys {k : Bytes} {v : GoRef} : ∀ {fs : List (Bytes × GoRef)}, k ∈ fs.map (·.1) →
    (setKey fs k v).map (·.1) = fs.map (·.1)
  | [], h => by cases h
  | (k', w) :: rest, h => by
    rw [setKey]
    split
    · rfl
    · next hne =>
      simp only [List.map_cons, List.mem_cons] at h
      rw [List.map_cons, setKey_keys (h.resolve_left (fun e => hne e.symm))]
      rfl

theorem mem_setKey {k k' : Bytes} {v w : GoRef} : ∀ {fs : List (Bytes × GoRef)}, (fs.map (·.1)).Nodup →
    k ∈ fs.map (·.1) → ((k', w) ∈ setKey fs k v ↔ if k' = k then w = v else (k', w) ∈ fs)
  | [], _, h => by cases h
  | (q, u) :: rest, hn, h => by
    simp only [List.map_cons, List.nodup_cons] at hn
    rw [setKey]
    by_cases hq : q = k
    · subst hq
      rw [if_pos rfl]
      by_cases hk : k' = q
      · subst hk
        rw [if_pos rfl, List.mem_cons]
        constructor
        · rintro (he | hm)
          · injection he
          · exact absurd (List.mem_map_of_mem (f := (·.1)) hm) hn.1
        · rintro rfl; exact .inl rfl
      · rw [if_neg hk, List.mem_cons, List.mem_cons]
        constructor
        · rintro (he | hm)
          · injection he with h1; exact absurd h1 hk
          · exact .inr hm
        · rintro (he | hm)
          · injection he with h1; exact absurd h1 hk
          · exact .inr hm
    · rw [if_neg hq]
      simp only [List.map_cons, List.mem_cons] at h
      have hr := h.resolve_left (fun e => hq e.symm)
      rw [List.mem_cons, mem_setKey hn.2 hr]
      by_cases hk : k' = k
      · subst hk
        rw [if_pos rfl, if_pos rfl]
        constructor
        · rintro (he | hm)
          · injection he with h1; exact absurd h1.symm hq
          · exact hm
        · exact .inr
      · rw [if_neg hk, if_neg hk, List.mem_cons]

theorem holds_entry_key {h : GoHeap} {a : Nat} {k : Bytes} {v : GoRef} {fs : List (Bytes × GoRef)}
    (hh : Holds h (.entry a k) v) (ha : h[a]? = some (.map fs)) : (k, v) ∈ fs := by
  obtain ⟨fs', h1, h2⟩ := hh
  rw [ha] at h1
  injection h1 with h1
  injection h1 with h1
  rw [h1]; exact h2

theorem holds_unique {h : GoHeap} (hk : HeapKeyed h) {c : Place} {v w : GoRef} (h1 : Holds h c v) (h2 : Holds h c w) :
    v = w := by
  cases c with
  | entry a k =>
    obtain ⟨fs, ha, hm⟩ := h1
    have hm' := holds_entry_key h2 ha
    have hn := hk a fs ha
    clear ha h2
    induction fs with
    | nil => cases hm
    | cons x rest ih =>
      simp only [List.map_cons, List.nodup_cons] at hn
      rcases List.mem_cons.1 hm with rfl | hm
      · rcases List.mem_cons.1 hm' with he | hm'
        · injection he with _ he; exact he.symm
        · exact absurd (List.mem_map_of_mem (f := (·.1)) hm') hn.1
      · rcases List.mem_cons.1 hm' with rfl | hm'
        · next hm0 => exact absurd (List.mem_map_of_mem (f := (·.1)) hm0) hn.1
        · exact ih (by assumption) hm' hn.2
  | cell a i =>
    obtain ⟨xs, ha, hm⟩ := h1
    obtain ⟨ys, hb, hm'⟩ := h2
    rw [ha] at hb
    injection hb with hb
    injection hb with hb
    subst hb
    rw [hm] at hm'
    injection hm'

theorem getElem?_set_eq {α : Type} {l : List α} {a : Nat} {x y : α} (h : l[a]? = some x) : (l.set a y)[a]? = some y := by
  have := (List.getElem?_eq_some_iff.1 h).1
  rw [List.getElem?_set_self this]

theorem write_keyed {h : GoHeap} (hk : HeapKeyed h) {c : Place} {v : GoRef} (hh : Holds h c v) (b : Bytes) :
    HeapKeyed (h.write c b) := by
  intro a' fs' ha'
  cases c with
  | entry a k =>
    obtain ⟨fs, ha, hm⟩ := hh
    simp only [GoHeap.write, GoHeap.putField, ha] at ha'
    by_cases e : a' = a
    · subst e
      rw [getElem?_set_eq ha] at ha'
      injection ha' with ha'
      injection ha' with ha'
      rw [← ha', setKey_keys (List.mem_map_of_mem (f := (·.1)) hm)]
      exact hk _ _ ha
    · rw [List.getElem?_set_ne (fun h => e h.symm)] at ha'
      exact hk _ _ ha'
  | cell a i =>
    obtain ⟨xs, ha, hm⟩ := hh
    simp only [GoHeap.write, GoHeap.putItem, ha] at ha'
    by_cases e : a' = a
    · subst e
      rw [getElem?_set_eq ha] at ha'
      injection ha' with ha'
      cases ha'
    · rw [List.getElem?_set_ne (fun h => e h.symm)] at ha'
      exact hk _ _ ha'

theorem write_length {h : GoHeap} (c : Place) (b : Bytes) : (h.write c b).length = h.length := by
  cases c with
  | entry a k => simp only [GoHeap.write, GoHeap.putField]; split <;> simp
  | cell a i => simp only [GoHeap.write, GoHeap.putItem]; split <;> simp

/-- Exactly the place written to is changed. -/
theorem holds_write {h : GoHeap} (hk : HeapKeyed h) {c : Place} {v : GoRef} (hh : Holds h c v) (b : Bytes) (c' : Place)
    (w : GoRef) : Holds (h.write c b) c' w ↔ if c' = c then w = .str b else Holds h c' w := by
  cases c with
  | entry a k =>
    obtain ⟨fs, ha, hm⟩ := hh
    have hw : h.write (.entry a k) b = h.set a (.map (setKey fs k (.str b))) := by
      simp only [GoHeap.write, GoHeap.putField, ha]
    rw [hw]
    have hmem := fun k' => mem_setKey (k' := k') (v := GoRef.str b) (w := w) (hk _ _ ha) (List.mem_map_of_mem (f := (·.1)) hm)
    cases c' with
    | entry a' k' =>
      by_cases e : a' = a
      · subst e
        have h1 : Holds (h.set a' (.map (setKey fs k (.str b)))) (.entry a' k') w ↔ (k', w) ∈ setKey fs k (.str b) :=
          ⟨fun hx => holds_entry_key hx (getElem?_set_eq ha), fun hx => ⟨_, getElem?_set_eq ha, hx⟩⟩
        have h2 : Holds h (.entry a' k') w ↔ (k', w) ∈ fs := ⟨fun hx => holds_entry_key hx ha, fun hx => ⟨_, ha, hx⟩⟩
        rw [h1, hmem, h2]
        simp only [Place.entry.injEq, true_and]
      · rw [if_neg (by simp [e])]
        simp only [Holds]
        rw [List.getElem?_set_ne (fun h => e h.symm)]
    | cell a' i =>
      rw [if_neg (by simp)]
      simp only [Holds]
      by_cases e : a' = a
      · subst e
        rw [getElem?_set_eq ha, ha]
        simp
      · rw [List.getElem?_set_ne (fun h => e h.symm)]
  | cell a i =>
    obtain ⟨xs, ha, hm⟩ := hh
    have hw : h.write (.cell a i) b = h.set a (.array (xs.set i (.str b))) := by
      simp only [GoHeap.write, GoHeap.putItem, ha]
    rw [hw]
    cases c' with
    | entry a' k' =>
      rw [if_neg (by simp)]
      simp only [Holds]
      by_cases e : a' = a
      · subst e
        rw [getElem?_set_eq ha, ha]
        simp
      · rw [List.getElem?_set_ne (fun h => e h.symm)]
    | cell a' i' =>
      simp only [Holds]
      by_cases e : a' = a
      · subst e
        rw [getElem?_set_eq ha, ha]
        simp only [Option.some.injEq, GoObj.array.injEq, Place.cell.injEq, true_and]
        constructor
        · rintro ⟨_, rfl, h2⟩
          split
          · next e => subst e; rw [getElem?_set_eq hm] at h2; injection h2 with h2; exact h2.symm
          · next e => rw [List.getElem?_set_ne (fun h => e h.symm)] at h2; exact ⟨_, rfl, h2⟩
        · intro h2
          refine ⟨_, rfl, ?_⟩
          split at h2
          · next e => subst e; rw [getElem?_set_eq hm, h2]
          · next e =>
            obtain ⟨_, rfl, h2⟩ := h2
            rw [List.getElem?_set_ne (fun h => e h.symm)]; exact h2
      · rw [if_neg (by simp [e]), List.getElem?_set_ne (fun h => e h.symm)]

/-! ## Paths -/

theorem not_placeAt_str {h : GoHeap} {b : Bytes} {p : List GoSeg} {c : Place} : ¬ PlaceAt h (.str b) p c := by
  intro hp; cases hp

theorem placeAt_mono {h h' : GoHeap} (hh : ∀ c v, (∀ b, v ≠ .str b) → Holds h c v → Holds h' c v) {v : GoRef}
    {p : List GoSeg} {c : Place} (hp : PlaceAt h v p c) : PlaceAt h' v p c := by
  induction hp with
  | entry a k => exact .entry a k
  | cell hl => exact .cell hl
  | field h1 h2 ih =>
    refine .field (hh _ _ (fun b e => ?_) h1) ih
    subst e
    exact not_placeAt_str h2
  | item hl h1 h2 ih =>
    refine .item hl (hh _ _ (fun b e => ?_) h1) ih
    subst e
    exact not_placeAt_str h2

theorem sameShape_write {h : GoHeap} (hk : HeapKeyed h) {c : Place} {old : Bytes} (hh : Holds h c (.str old)) (b : Bytes) :
    SameShape h (h.write c b) := by
  have hw := holds_write hk hh b
  refine ⟨write_length c b, fun c' v hv => ?_, fun c' => ?_⟩
  · rw [hw]
    by_cases e : c' = c
    · subst e
      rw [if_pos rfl]
      exact ⟨fun h1 => absurd (holds_unique hk h1 hh) (hv old), fun h1 => absurd h1 (hv b)⟩
    · rw [if_neg e]
  · by_cases e : c' = c
    · subst e
      exact ⟨fun _ => ⟨b, (hw _ _).2 (by rw [if_pos rfl])⟩, fun _ => ⟨_, hh⟩⟩
    · refine ⟨fun ⟨x, hx⟩ => ⟨x, (hw _ _).2 (by rw [if_neg e]; exact hx)⟩, fun ⟨x, hx⟩ => ⟨x, ?_⟩⟩
      have := (hw _ _).1 hx
      rwa [if_neg e] at this

theorem Spec.SameShape.refl (h : GoHeap) : SameShape h h := ⟨rfl, fun _ _ _ => Iff.rfl, fun _ => Iff.rfl⟩

theorem Spec.SameShape.trans {h h' h'' : GoHeap} (a : SameShape h h') (b : SameShape h' h'') : SameShape h h'' :=
  ⟨b.1.trans a.1, fun c v hv => (a.2.1 c v hv).trans (b.2.1 c v hv), fun c => (a.2.2 c).trans (b.2.2 c)⟩

theorem Spec.SameShape.placeAt {h h' : GoHeap} (hs : SameShape h h') {v : GoRef} {p : List GoSeg} {c : Place} :
    PlaceAt h' v p c ↔ PlaceAt h v p c :=
  ⟨placeAt_mono fun c v hv => (hs.2.1 c v hv).2, placeAt_mono fun c v hv => (hs.2.1 c v hv).1⟩

theorem placeAt_unique {h : GoHeap} (hk : HeapKeyed h) {v : GoRef} {p : List GoSeg} {c c' : Place} (h1 : PlaceAt h v p c)
    (h2 : PlaceAt h v p c') : c = c' := by
  induction h1 with
  | entry a k =>
    cases h2 with
    | entry => rfl
    | field _ h => cases h
  | cell hl =>
    cases h2 with
    | cell => rfl
    | item _ _ h => cases h
  | field h3 h4 ih =>
    cases h2 with
    | entry => cases h4
    | field h5 h6 =>
      rw [holds_unique hk h3 h5] at ih
      exact ih h6
  | item hl h3 h4 ih =>
    cases h2 with
    | cell => cases h4
    | item _ h5 h6 =>
      rw [holds_unique hk h3 h5] at ih
      exact ih h6

theorem refAt_place {h : GoHeap} {v w : GoRef} {p : List GoSeg} (hr : RefAt h v p w) (hp : p ≠ []) :
    ∃ c, PlaceAt h v p c ∧ Holds h c w := by
  induction hr with
  | here => exact absurd rfl hp
  | @field a k v w p h1 h2 ih =>
    cases p with
    | nil => cases h2; exact ⟨_, .entry _ _, h1⟩
    | cons s p =>
      obtain ⟨c, h3, h4⟩ := ih (by simp)
      exact ⟨c, .field h1 h3, h4⟩
  | @item a off len i v w p hl h1 h2 ih =>
    cases p with
    | nil => cases h2; exact ⟨_, .cell hl, h1⟩
    | cons s p =>
      obtain ⟨c, h3, h4⟩ := ih (by simp)
      exact ⟨c, .item hl h1 h3, h4⟩

theorem place_refAt {h : GoHeap} {v w : GoRef} {p : List GoSeg} {c : Place} (hp : PlaceAt h v p c) (hc : Holds h c w) :
    RefAt h v p w := by
  induction hp with
  | entry a k => exact .field hc (.here _)
  | cell hl => exact .item hl hc (.here _)
  | field h1 _ ih => exact .field h1 (ih hc)
  | item hl h1 _ ih => exact .item hl h1 (ih hc)

/-! ## Unfolding -/

theorem getElem?_slice {α : Type} {xs : List α} {off len i : Nat} (hl : i < len) :
    ((xs.drop off).take len)[i]? = xs[off + i]? := by
  rw [List.getElem?_take_of_lt hl, List.getElem?_drop]

theorem unfolds_field {h : GoHeap} : ∀ {fs : List (Bytes × GoRef)} {m : GoFields}, UnfoldsFields h fs m → ∀ {k : Bytes} {t : GoVal},
    GoFieldOf m k t → ∃ v, (k, v) ∈ fs ∧ Unfolds h v t
  | _, _, .nil, _, _, hf => hf.elim
  | _, _, .cons h1 h2, k, t, hf => by
    rcases hf with ⟨rfl, rfl⟩ | hf
    · exact ⟨_, List.mem_cons_self, h1⟩
    · obtain ⟨v, hv, hu⟩ := unfolds_field h2 hf
      exact ⟨v, List.mem_cons_of_mem _ hv, hu⟩

theorem field_unfolds {h : GoHeap} : ∀ {fs : List (Bytes × GoRef)} {m : GoFields}, UnfoldsFields h fs m → ∀ {k : Bytes} {v : GoRef},
    (k, v) ∈ fs → ∃ t, GoFieldOf m k t ∧ Unfolds h v t
  | _, _, .nil, _, _, hf => by cases hf
  | _, _, .cons h1 h2, k, v, hf => by
    rcases List.mem_cons.1 hf with he | hf
    · injection he with e1 e2
      subst e1; subst e2
      exact ⟨_, .inl ⟨rfl, rfl⟩, h1⟩
    · obtain ⟨t, ht, hu⟩ := field_unfolds h2 hf
      exact ⟨t, .inr ht, hu⟩

theorem unfolds_item {h : GoHeap} : ∀ {xs : List GoRef} {l : GoItems}, UnfoldsItems h xs l → ∀ {i : Nat} {t : GoVal},
    GoItemOf l i t → ∃ v, xs[i]? = some v ∧ Unfolds h v t
  | _, _, .nil, _, _, hf => hf.elim
  | _, _, .cons h1 h2, 0, t, hf => by
    obtain rfl : t = _ := hf
    exact ⟨_, rfl, h1⟩
  | _, _, .cons h1 h2, i + 1, t, hf => by
    obtain ⟨v, hv, hu⟩ := unfolds_item h2 (i := i) hf
    exact ⟨v, by simpa using hv, hu⟩

theorem item_unfolds {h : GoHeap} : ∀ {xs : List GoRef} {l : GoItems}, UnfoldsItems h xs l → ∀ {i : Nat} {v : GoRef},
    xs[i]? = some v → ∃ t, GoItemOf l i t ∧ Unfolds h v t
  | _, _, .nil, _, _, hf => by simp at hf
  | _, _, .cons h1 h2, 0, v, hf => by
    simp only [List.getElem?_cons_zero, Option.some.injEq] at hf
    subst hf
    exact ⟨_, rfl, h1⟩
  | _, _, .cons h1 h2, i + 1, v, hf => by
    obtain ⟨t, ht, hu⟩ := item_unfolds h2 (i := i) (by simpa using hf)
    exact ⟨t, ht, hu⟩

/-- What is found in the tree is found in the memory. -/
theorem goAt_refAt {h : GoHeap} {t u : GoVal} {p : List GoSeg} (hp : GoAt t p u) : ∀ {v : GoRef}, Unfolds h v t →
    ∃ w, RefAt h v p w ∧ Unfolds h w u := by
  induction hp with
  | here t => exact fun hu => ⟨_, .here _, hu⟩
  | field hf _ ih =>
    intro v hu
    cases hu with
    | map ha hperm hm =>
      obtain ⟨w, hw, hu⟩ := unfolds_field hm hf
      obtain ⟨x, hx, hux⟩ := ih hu
      exact ⟨x, .field ⟨_, ha, hperm.subset hw⟩ hx, hux⟩
  | @item l i t w p hf _ ih =>
    intro v hu
    cases hu with
    | @slice a off len xs _ ha hlen hm =>
      obtain ⟨w, hw, hu⟩ := unfolds_item hm hf
      obtain ⟨x, hx, hux⟩ := ih hu
      have hi : i < len := by
        have := (List.getElem?_eq_some_iff.1 hw).1
        simp only [List.length_take, List.length_drop] at this
        omega
      rw [getElem?_slice hi] at hw
      exact ⟨x, .item hi ⟨_, ha, hw⟩ hx, hux⟩

/-- What is found in the memory is found in the tree. -/
theorem refAt_goAt {h : GoHeap} {v w : GoRef} {p : List GoSeg} (hp : RefAt h v p w) : ∀ {t : GoVal}, Unfolds h v t →
    ∃ u, GoAt t p u ∧ Unfolds h w u := by
  induction hp with
  | here t => exact fun hu => ⟨_, .here _, hu⟩
  | field hh _ ih =>
    intro t hu
    cases hu with
    | map ha hperm hm =>
      obtain ⟨t, ht, hu⟩ := field_unfolds hm (hperm.symm.subset (holds_entry_key hh ha))
      obtain ⟨x, hx, hux⟩ := ih hu
      exact ⟨x, .field ht hx, hux⟩
  | item hl hh _ ih =>
    intro t hu
    cases hu with
    | slice ha hlen hm =>
      obtain ⟨ys, hb, hw⟩ := hh
      rw [ha] at hb
      injection hb with hb
      injection hb with hb
      subst hb
      rw [← getElem?_slice hl] at hw
      obtain ⟨t, ht, hu⟩ := item_unfolds hm hw
      obtain ⟨x, hx, hux⟩ := ih hu
      exact ⟨x, .item ht hx, hux⟩

theorem unfolds_keys {h : GoHeap} : ∀ {fs : List (Bytes × GoRef)} {m : GoFields}, UnfoldsFields h fs m → goKeys m = fs.map (·.1)
  | _, _, .nil => rfl
  | _, _, .cons _ h2 => by rw [goKeys, unfolds_keys h2]; rfl

mutual
theorem unfolds_keyed {h : GoHeap} (hk : HeapKeyed h) : ∀ {v : GoRef} {t : GoVal}, Unfolds h v t → GoKeyed t
  | _, _, .str _ => by simp [GoKeyed]
  | _, _, .other => by simp [GoKeyed]
  | _, _, .map ha hp hm => by
    rw [GoKeyed]
    exact unfoldsFields_keyed hk hm ((hp.map _).nodup_iff.2 (hk _ _ ha))
  | _, _, .slice _ _ hm => by
    rw [GoKeyed]
    exact unfoldsItems_keyed hk hm
theorem unfoldsFields_keyed {h : GoHeap} (hk : HeapKeyed h) : ∀ {fs : List (Bytes × GoRef)} {m : GoFields}, UnfoldsFields h fs m →
    (fs.map (·.1)).Nodup → GoKeyedFields m
  | _, _, .nil, _ => by simp [GoKeyedFields]
  | _, _, .cons h1 h2, hn => by
    simp only [List.map_cons, List.nodup_cons] at hn
    rw [GoKeyedFields, unfolds_keys h2]
    exact ⟨hn.1, unfolds_keyed hk h1, unfoldsFields_keyed hk h2 hn.2⟩
theorem unfoldsItems_keyed {h : GoHeap} (hk : HeapKeyed h) : ∀ {xs : List GoRef} {l : GoItems}, UnfoldsItems h xs l → GoKeyedItems l
  | _, _, .nil => by simp [GoKeyedItems]
  | _, _, .cons h1 h2 => by
    rw [GoKeyedItems]
    exact ⟨unfolds_keyed hk h1, unfoldsItems_keyed hk h2⟩
end

/-- A string of the tree is in the memory, at the place where its path ends. -/
theorem goAt_place {h : GoHeap} {root : Nat} {t : GoVal} (hu : Unfolds h (.map root) t) {p : List GoSeg} {b : Bytes}
    (hp : GoAt t p (.str b)) : ∃ c, PlaceAt h (.map root) p c ∧ Holds h c (.str b) := by
  obtain ⟨w, hw, hwu⟩ := goAt_refAt hp hu
  cases hwu
  refine refAt_place hw (fun e => ?_)
  subst e
  cases hw

/-! ## Applying mutations -/

theorem field_of_holds {h : GoHeap} (hk : HeapKeyed h) {a : Nat} {k : Bytes} {v : GoRef} (hh : Holds h (.entry a k) v) :
    h.field a k = some v := by
  obtain ⟨fs, ha, hm⟩ := hh
  have hn := hk _ _ ha
  simp only [GoHeap.field, ha]
  clear ha
  induction fs with
  | nil => cases hm
  | cons x rest ih =>
    obtain ⟨k', w⟩ := x
    simp only [List.map_cons, List.nodup_cons] at hn
    rw [List.lookup_cons]
    rcases List.mem_cons.1 hm with he | hm'
    · injection he with e1 e2
      subst e1; subst e2
      simp
    · have : (k == k') = false := by
        simp only [beq_eq_false_iff_ne, ne_eq]
        rintro rfl
        exact hn.1 (List.mem_map_of_mem (f := (·.1)) hm')
      rw [this]
      exact ih hm' hn.2

theorem item_of_holds {h : GoHeap} {a i : Nat} {v : GoRef} (hh : Holds h (.cell a i) v) : h.item a i = some v := by
  obtain ⟨xs, ha, hm⟩ := hh
  simp only [GoHeap.item, ha, hm]

theorem encodePath_pos {p : Path} (h : p ≠ []) : 0 < (encodePath p).length := by
  cases p with
  | nil => exact absurd rfl h
  | cons x p => cases x <;> simp [encodePath]

/-- A mutation is written at the place where its path ends. -/
theorem sharedMutate_path {h : GoHeap} (hk : HeapKeyed h) {s : Str} (hs : (utf8 s).length < 4294967296) : ∀ (p : Path)
    (v : GoRef) (c : Place) (f : Nat), PlaceAt h v (goPath p) c → MutationFits (p, s) → (encodePath p).length ≤ f →
    ∃ tag rest, encodePath p = tag :: rest ∧ tag ≠ 3 ∧ ∀ tail,
      v.mutate h f tag (rest ++ 3 :: (encodeBytes (utf8 s) ++ tail)) = Res.ok (some (h.write c (utf8 s), utf8 s, tail))
  | [], _, _, _, h, _, _ => by cases h
  | .field n :: p, v, c, f, hat, hf, hlen => by
    have hfl : (utf8 n).length < 4294967296 := hf.2 (.field n) List.mem_cons_self
    refine ⟨0, encodeBytes (utf8 n) ++ encodePath p, rfl, by decide, fun tail => ?_⟩
    cases f with
    | zero => simp [encodePath] at hlen
    | succ f =>
      have hat' : PlaceAt h v (.field (utf8 n) :: goPath p) c := hat
      have key : ∀ a, GoRef.mutate h (f + 1) (.map a) 0
          (encodeBytes (utf8 n) ++ encodePath p ++ 3 :: (encodeBytes (utf8 s) ++ tail)) =
          match (Res.ok (utf8 n, encodePath p ++ 3 :: (encodeBytes (utf8 s) ++ tail)) : Res (Bytes × Bytes)) with
          | .ok (name, t :: b') =>
            if t = 3 then
              match goString b' with
              | .ok (s, b'') => Res.ok (some (h.putField a name (.str s), s, b''))
              | .panic => Res.panic
              | .hang => Res.hang
            else
              match h.field a name with
              | some v => v.mutate h f t b'
              | none => Res.panic
          | .ok (_, []) => Res.ok none
          | .panic => Res.panic
          | .hang => Res.hang := by
        intro a
        rw [GoRef.mutate, if_pos rfl, List.append_assoc, goString_encodeBytes hfl]
        rfl
      cases p with
      | nil =>
        cases hat' with
        | entry a =>
          rw [key]
          simp only [encodePath, List.nil_append, if_true, goString_encodeBytes hs]
          rfl
        | field _ h2 => cases h2
      | cons x p =>
        cases hat' with
        | @field a _ w _ _ h1 h2 =>
          obtain ⟨tag, rest, h3, h4, h5⟩ := sharedMutate_path hk hs (x :: p) w c f h2
            ⟨hf.1, fun y hy => hf.2 y (List.mem_cons_of_mem _ hy)⟩ (by
              rw [encodePath, List.length_cons, List.length_append] at hlen; omega)
          rw [key, h3]
          simp only [List.cons_append, if_neg h4]
          rw [field_of_holds hk h1]
          exact h5 tail
  | .index i :: p, v, c, f, hat, hf, hlen => by
    have hfl : i < 4294967296 := hf.2 (.index i) List.mem_cons_self
    refine ⟨1, be32 i ++ encodePath p, rfl, by decide, fun tail => ?_⟩
    cases f with
    | zero => simp [encodePath] at hlen
    | succ f =>
      have hat' : PlaceAt h v (.index i :: goPath p) c := hat
      have key : ∀ a off len, GoRef.mutate h (f + 1) (.slice a off len) 1
          (be32 i ++ encodePath p ++ 3 :: (encodeBytes (utf8 s) ++ tail)) =
          match (Res.ok (i, encodePath p ++ 3 :: (encodeBytes (utf8 s) ++ tail)) : Res (Nat × Bytes)) with
          | .ok (i, t :: b') =>
            if t = 3 then
              match goString b' with
              | .ok (s, b'') =>
                if i < len then Res.ok (some (h.putItem a (off + i) (.str s), s, b'')) else Res.panic
              | .panic => Res.panic
              | .hang => Res.hang
            else if i < len then
              match h.item a (off + i) with
              | some v => v.mutate h f t b'
              | none => Res.panic
            else Res.panic
          | .ok (_, []) => Res.ok none
          | .panic => Res.panic
          | .hang => Res.hang := by
        intro a off len
        rw [GoRef.mutate, if_pos rfl, List.append_assoc, goU32_be32 hfl]
        rfl
      cases p with
      | nil =>
        cases hat' with
        | cell hl =>
          rw [key]
          simp only [encodePath, List.nil_append, if_true, goString_encodeBytes hs, if_pos hl]
          rfl
        | item _ _ h2 => cases h2
      | cons x p =>
        cases hat' with
        | @item a off len _ w _ _ hl h1 h2 =>
          obtain ⟨tag, rest, h3, h4, h5⟩ := sharedMutate_path hk hs (x :: p) w c f h2
            ⟨hf.1, fun y hy => hf.2 y (List.mem_cons_of_mem _ hy)⟩ (by
              rw [encodePath, List.length_cons, List.length_append] at hlen; omega)
          rw [key, h3]
          simp only [List.cons_append, if_neg h4, if_pos hl]
          rw [item_of_holds h1]
          exact h5 tail

theorem decodeSharedF_match (root f : Nat) (b : Bytes) (h : GoHeap) (r : GoResult) : decodeSharedF root (f + 1) (5 :: b) h r =
    (match decodeMatch b with
      | .ok (m, b') => decodeSharedF root f b' h { r with matches_ := r.matches_ ++ [m] }
      | .panic => Res.panic
      | .hang => Res.hang) := by
  cases b <;> rfl

theorem decodeShared_matches (root : Nat) (h : GoHeap) : ∀ (ms : List RuleMatch) (f : Nat) (r : GoResult),
    (encodeMatches ms).length ≤ f → (∀ m ∈ ms, Fits m) →
    decodeSharedF root f (encodeMatches ms) h r = Res.ok (some (h, { r with matches_ := r.matches_ ++ ms.map goMatch }))
  | [], f, r, _, _ => by
    rw [encodeMatches]
    cases f <;> simp [decodeSharedF]
  | m :: ms, f, r, hf, hfit => by
    obtain ⟨h1, h2⟩ := decodeMatch_encode (hfit m List.mem_cons_self) (encodeMatches ms)
    simp only [encodeMatches, List.length_append] at hf
    have := encodeMatch_pos m
    cases f with
    | zero => omega
    | succ f =>
      rw [encodeMatches, h1, decodeSharedF_match, h2]
      dsimp only
      rw [decodeShared_matches root h ms f _ (by omega) (fun x hx => hfit x (List.mem_cons_of_mem _ hx))]
      simp

/-- The texts of a memory after mutations: at the place where one or more of them end, the text of the last of these; the
same as before at all other places. -/
def LastWins (h : GoHeap) (root : GoRef) (ms : List (Path × Str)) (h' : GoHeap) : Prop :=
  ∀ c, ((∀ x ∈ ms, ¬ PlaceAt h root (goPath x.1) c) → ∀ w, Holds h' c w ↔ Holds h c w) ∧
    ∀ pre x post, ms = pre ++ x :: post → PlaceAt h root (goPath x.1) c →
      (∀ y ∈ post, ¬ PlaceAt h root (goPath y.1) c) → ∀ w, Holds h' c w ↔ w = .str (utf8 x.2)

theorem decodeShared_response (root : Nat) (ms : List RuleMatch) (hfit : ∀ m ∈ ms, Fits m) : ∀ (st : Storage) (f : Nat)
    (h : GoHeap) (r : GoResult), (encodeStorage st ++ encodeMatches ms).length ≤ f → HeapKeyed h →
    (∀ x ∈ mutations st, MutationFits x ∧ ∃ c b, PlaceAt h (.map root) (goPath x.1) c ∧ Holds h c (.str b)) →
    ∃ h', decodeSharedF root f (encodeStorage st ++ encodeMatches ms) h r =
        Res.ok (some (h', ⟨r.mutated || !(mutations st).isEmpty, lastText (mutations st) r.event,
          r.matches_ ++ ms.map goMatch⟩)) ∧
      HeapKeyed h' ∧ SameShape h h' ∧ LastWins h (.map root) (mutations st) h'
  | [], f, h, r, hf, hk, _ => by
    simp only [encodeStorage, List.nil_append] at hf ⊢
    refine ⟨h, ?_, hk, .refl h, fun c => ⟨fun _ _ => Iff.rfl, fun pre x post e => ?_⟩⟩
    · rw [decodeShared_matches root h ms f r hf hfit]
      simp [mutations, lastText]
    · simp [mutations] at e
  | (p, (fl, s)) :: st, f, h, r, hf, hk, hm => by
    rw [mutations_cons] at hm ⊢
    cases fl with
    | false =>
      simp only [encodeStorage, Bool.false_eq_true, if_false, List.nil_append] at hf hm ⊢
      exact decodeShared_response root ms hfit st f h r hf hk hm
    | true =>
      simp only [encodeStorage, if_true, List.append_assoc, List.cons_append, List.nil_append] at hf hm ⊢
      obtain ⟨hfits, c, old, hat, hold⟩ := hm (p, s) List.mem_cons_self
      obtain ⟨tag, rest, h1, h2, -⟩ := sharedMutate_path hk hfits.1 p _ c _ hat hfits (Nat.le_refl _)
      have hl : encodeMutation p s ++ (encodeStorage st ++ encodeMatches ms) =
          4 :: tag :: (rest ++ 3 :: (encodeBytes (utf8 s) ++ (encodeStorage st ++ encodeMatches ms))) := by
        simp [encodeMutation, h1]
      rw [hl] at hf ⊢
      cases f with
      | zero => simp at hf
      | succ f =>
        simp only [List.length_cons, List.length_append] at hf
        obtain ⟨tag', rest', h1', -, h3⟩ := sharedMutate_path hk hfits.1 p _ c
          ((rest ++ 3 :: (encodeBytes (utf8 s) ++ (encodeStorage st ++ encodeMatches ms))).length + 1) hat hfits (by
            rw [h1]; simp)
        rw [h1] at h1'
        injection h1' with e1 e2
        subst e1; subst e2
        rw [decodeSharedF, if_pos rfl]
        simp only [h3]
        have hsh := sameShape_write hk hold (utf8 s)
        have hk' := write_keyed hk hold (utf8 s)
        obtain ⟨h', d1, d2, d3, d4⟩ := decodeShared_response root ms hfit st f (h.write c (utf8 s))
          { r with mutated := true, event := utf8 s } (by simp only [List.length_append]; omega) hk'
          (fun x hx => by
            obtain ⟨hx1, c', b, hx2, hx3⟩ := hm x (List.mem_cons_of_mem _ hx)
            obtain ⟨b', hb'⟩ := (hsh.2.2 c').1 ⟨b, hx3⟩
            exact ⟨hx1, c', b', hsh.placeAt.2 hx2, hb'⟩)
        refine ⟨h', ?_, d2, hsh.trans d3, fun c' => ⟨fun hn w => ?_, fun pre x post e hx hy w => ?_⟩⟩
        · rw [d1]; simp [lastText]
        · rw [(d4 c').1 (fun x hx hp => hn x (List.mem_cons_of_mem _ hx) (hsh.placeAt.1 hp)) w, holds_write hk hold]
          rw [if_neg]
          rintro rfl
          exact hn _ List.mem_cons_self hat
        · cases pre with
          | nil =>
            rw [List.nil_append] at e
            injection e with e1 e2
            subst e1; subst e2
            obtain rfl := placeAt_unique hk hx hat
            rw [(d4 c').1 (fun x hx hp => hy x hx (hsh.placeAt.1 hp)) w, holds_write hk hold, if_pos rfl]
          | cons z pre =>
            rw [List.cons_append] at e
            injection e with _ e2
            exact (d4 c').2 pre x post e2 (hsh.placeAt.2 hx) (fun y hy' hp => hy y hy' (hsh.placeAt.1 hp)) w

end Sds
