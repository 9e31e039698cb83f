import Verif.Spec.Codec
import Verif.Lemmas.Utf8
import Verif.Lemmas.Scan

/-! Lemmas about the byte encoding. -/

namespace Sds
open Spec

/-! ## Numbers and byte strings -/

theorem be32_length (n : Nat) : (be32 n).length = 4 := rfl

theorem readU32_be32 {n : Nat} (h : n < 4294967296) (r : Bytes) : readU32 (be32 n ++ r) = some (n, r) := by
  simp only [be32, List.cons_append, List.nil_append, readU32, Option.some.injEq, Prod.mk.injEq, and_true]
  omega

theorem readU32_length {b r : Bytes} {n : Nat} (h : readU32 b = some (n, r)) : r.length + 4 = b.length := by
  unfold readU32 at h
  split at h
  · simp only [Option.some.injEq, Prod.mk.injEq] at h
    rw [← h.2]
    simp
  · cases h

theorem readBytes_encodeBytes {b : Bytes} (h : b.length < 4294967296) (r : Bytes) :
    readBytes (encodeBytes b ++ r) = some (b, r) := by
  unfold readBytes encodeBytes
  rw [List.append_assoc, readU32_be32 h]
  simp

theorem readBytes_length {b s r : Bytes} (h : readBytes b = some (s, r)) : r.length + 4 ≤ b.length := by
  unfold readBytes at h
  cases hu : readU32 b with
  | none => rw [hu] at h; cases h
  | some x =>
    obtain ⟨n, r'⟩ := x
    have := readU32_length hu
    rw [hu] at h
    dsimp only at h
    split at h
    · simp only [Option.some.injEq, Prod.mk.injEq] at h
      rw [← h.2]
      simp
      omega
    · cases h

theorem goU32_be32 {n : Nat} (h : n < 4294967296) (r : Bytes) : goU32 (be32 n ++ r) = Res.ok (n, r) := by
  rw [goU32, readU32_be32 h]; rfl

theorem goString_encodeBytes {b : Bytes} (h : b.length < 4294967296) (r : Bytes) :
    goString (encodeBytes b ++ r) = Res.ok (b, r) := by
  unfold goString encodeBytes
  rw [List.append_assoc, readU32_be32 h]
  simp

theorem toI32_toU32 {i : Int} (h1 : -2147483648 ≤ i) (h2 : i < 2147483648) : toI32 (toU32 i) = i := by
  unfold toI32 toU32
  split <;> omega

theorem goBytes_small {b : Bytes} (h : b.length < 2147483648) : goBytes b = Res.ok b := by
  have h1 : b.length % 4294967296 = b.length := Nat.mod_eq_of_lt (by omega)
  have h2 : toI32 b.length = (b.length : Int) := by unfold toI32; rw [if_pos h]
  unfold goBytes
  rw [h1, h2, if_neg (by omega), Int.toNat_natCast, List.take_length]

theorem toU32_lt (i : Int) : toU32 i < 4294967296 := by
  unfold toU32; omega

/-! ## Reading an event -/

theorem binaryOps_fuel : ∀ (f g : Nat) (b : Bytes), b.length ≤ f → b.length ≤ g → binaryOpsF f b = binaryOpsF g b := by
  intro f
  induction f with
  | zero =>
    intro g b hf hg
    cases b with
    | nil => cases g <;> rfl
    | cons x r => simp at hf
  | succ f ih =>
    intro g b hf hg
    cases b with
    | nil => cases g <;> rfl
    | cons tag r =>
      cases g with
      | zero => simp at hg
      | succ g =>
        simp only [List.length_cons] at hf hg
        have key : ∀ r', r'.length ≤ r.length → binaryOpsF f r' = binaryOpsF g r' :=
          fun r' h => ih g r' (by omega) (by omega)
        unfold binaryOpsF
        cases hb : readBytes r with
        | none =>
          cases hu : readU32 r with
          | none => simp only [key r (Nat.le_refl _)]
          | some y =>
            obtain ⟨n, r''⟩ := y
            have := readU32_length hu
            simp only [key r (Nat.le_refl _), key r'' (by omega)]
        | some x =>
          obtain ⟨s, r'⟩ := x
          have h1 := readBytes_length hb
          cases hu : readU32 r with
          | none => simp only [key r (Nat.le_refl _), key r' (by omega)]
          | some y =>
            obtain ⟨n, r''⟩ := y
            have := readU32_length hu
            simp only [key r (Nat.le_refl _), key r' (by omega), key r'' (by omega)]

/-- The loop ends. -/
theorem binaryOps_returns : ∀ (f : Nat) (b : Bytes), b.length ≤ f → binaryOpsF f b ≠ Res.hang := by
  have hmap : ∀ {α β : Type} (g : α → β) (r : Res α), r ≠ Res.hang → r.map g ≠ Res.hang := by
    intro α β g r h; cases r <;> simp_all [Res.map]
  intro f
  induction f with
  | zero =>
    intro b hb
    cases b with
    | nil => simp [binaryOpsF]
    | cons x r => simp at hb
  | succ f ih =>
    intro b hb
    cases b with
    | nil => simp [binaryOpsF]
    | cons tag r =>
      simp only [List.length_cons] at hb
      unfold binaryOpsF
      split
      · split
        · rename_i h; exact hmap _ _ (ih _ (by have := readBytes_length h; omega))
        · simp
      · split
        · split
          · rename_i h; exact hmap _ _ (ih _ (by have := readU32_length h; omega))
          · simp
        · split
          · exact hmap _ _ (ih _ (by omega))
          · split
            · split
              · rename_i h; exact hmap _ _ (ih _ (by have := readBytes_length h; omega))
              · simp
            · simp

theorem binaryOps_nil : binaryOps [] = Res.ok [] := rfl

theorem binaryOps_field {k : Bytes} (h : k.length < 4294967296) (r : Bytes) :
    binaryOps (0 :: (encodeBytes k ++ r)) = (binaryOps r).map (Op.push (.field (lossy k)) :: ·) := by
  unfold binaryOps
  rw [List.length_cons, binaryOpsF, if_pos rfl, readBytes_encodeBytes h]
  dsimp only
  rw [binaryOps_fuel _ r.length r (by simp) (Nat.le_refl _)]

theorem binaryOps_index {n : Nat} (h : n < 4294967296) (r : Bytes) :
    binaryOps (1 :: (be32 n ++ r)) = (binaryOps r).map (Op.push (.index n) :: ·) := by
  unfold binaryOps
  rw [List.length_cons, binaryOpsF, if_neg (by decide), if_pos rfl, readU32_be32 h]
  dsimp only
  rw [binaryOps_fuel _ r.length r (by simp) (Nat.le_refl _)]

theorem binaryOps_pop (r : Bytes) : binaryOps (2 :: r) = (binaryOps r).map (Op.pop :: ·) := by
  unfold binaryOps
  rw [List.length_cons, binaryOpsF, if_neg (by decide), if_neg (by decide), if_pos rfl]

theorem binaryOps_string {b : Bytes} (h : b.length < 4294967296) (r : Bytes) :
    binaryOps (goEncodeString b ++ r) = (binaryOps r).map (Op.visit (lossy b) :: ·) := by
  unfold binaryOps goEncodeString
  rw [List.cons_append, List.length_cons, binaryOpsF, if_neg (by decide), if_neg (by decide), if_neg (by decide),
    if_pos rfl, readBytes_encodeBytes h]
  dsimp only
  rw [binaryOps_fuel _ r.length r (by simp) (Nat.le_refl _)]

mutual
/-- The event the library sees. -/
def GoVal.toEv : GoVal → Ev
  | .str b => .str (lossy b)
  | .map m => .map m.toEv
  | .list l => .list l.toEv
  | .other => .null
def GoItems.toEv : GoItems → Items
  | .nil => .nil
  | .cons v rest => .cons v.toEv rest.toEv
def GoFields.toEv : GoFields → Fields
  | .nil => .nil
  | .cons k v rest => .cons (lossy k) v.toEv rest.toEv
end

theorem Res.map_map {α β γ : Type} (f : α → β) (g : β → γ) (r : Res α) : (r.map f).map g = r.map (fun x => g (f x)) := by
  cases r <;> rfl

mutual
/-- Reading what Go wrote: the calls of a JSON value with the same contents. -/
theorem GoVal.read : ∀ (v : GoVal), GoSized v → ∃ b, v.encode = some b ∧ ∀ r,
    binaryOps (b ++ r) = (binaryOps r).map (v.toEv.jsonOps ++ ·)
  | .str b, h => by
    refine ⟨_, rfl, fun r => ?_⟩
    rw [binaryOps_string (by simpa [GoSized] using h)]
    rfl
  | .map m, h => by
    obtain ⟨b, h1, h2⟩ := m.read (by simpa [GoSized] using h)
    exact ⟨b, by simpa [GoVal.encode] using h1, by simpa [GoVal.toEv, Ev.jsonOps] using h2⟩
  | .list l, h => by
    simp only [GoSized] at h
    obtain ⟨b, h1, h2⟩ := l.read 0 (by omega) h.2
    exact ⟨b, by simpa [GoVal.encode] using h1, by simpa [GoVal.toEv, Ev.jsonOps] using h2⟩
  | .other, h => by simp [GoSized] at h
theorem GoItems.read : ∀ (l : GoItems) (i : Nat), i + goLength l ≤ 4294967296 → GoSizedItems l →
    ∃ b, l.encode i = some b ∧ ∀ r, binaryOps (b ++ r) = (binaryOps r).map (l.toEv.jsonOps i ++ ·)
  | .nil, i, _, _ => ⟨[], rfl, fun r => by
      simp only [List.nil_append, GoItems.toEv, Items.jsonOps]
      cases binaryOps r <;> rfl⟩
  | .cons v rest, i, hi, h => by
    simp only [GoSizedItems] at h
    simp only [goLength] at hi
    obtain ⟨a, h1, h2⟩ := v.read h.1
    obtain ⟨b, h3, h4⟩ := rest.read (i + 1) (by omega) h.2
    refine ⟨1 :: (be32 i ++ (a ++ 2 :: b)), by simp [GoItems.encode, h1, h3], fun r => ?_⟩
    have : (1 :: (be32 i ++ (a ++ 2 :: b))) ++ r = 1 :: (be32 i ++ (a ++ 2 :: (b ++ r))) := by simp
    rw [this, binaryOps_index (by omega), h2, binaryOps_pop, h4]
    simp only [Res.map_map, GoItems.toEv, Items.jsonOps, List.cons_append, List.append_assoc]
theorem GoFields.read : ∀ (m : GoFields), GoSizedFields m →
    ∃ b, m.encode = some b ∧ ∀ r, binaryOps (b ++ r) = (binaryOps r).map (m.toEv.jsonOps ++ ·)
  | .nil, _ => ⟨[], rfl, fun r => by
      simp only [List.nil_append, GoFields.toEv, Fields.jsonOps]
      cases binaryOps r <;> rfl⟩
  | .cons k v rest, h => by
    simp only [GoSizedFields] at h
    obtain ⟨a, h1, h2⟩ := v.read h.2.1
    obtain ⟨b, h3, h4⟩ := rest.read h.2.2
    refine ⟨0 :: (encodeBytes k ++ (a ++ 2 :: b)), by simp [GoFields.encode, h1, h3], fun r => ?_⟩
    have : (0 :: (encodeBytes k ++ (a ++ 2 :: b))) ++ r = 0 :: (encodeBytes k ++ (a ++ 2 :: (b ++ r))) := by simp
    rw [this, binaryOps_field h.1, h2, binaryOps_pop, h4]
    simp only [Res.map_map, GoFields.toEv, Fields.jsonOps, List.cons_append, List.append_assoc]
end

theorem GoVal.read_ops (v : GoVal) (h : GoSized v) :
    ∃ b, v.encode = some b ∧ binaryOps b = Res.ok v.toEv.jsonOps := by
  obtain ⟨b, h1, h2⟩ := v.read h
  have := h2 []
  rw [List.append_nil, binaryOps_nil] at this
  exact ⟨b, h1, by simpa [Res.map] using this⟩

/-! ## Encoding fails exactly on unsupported values -/

theorem GoAt.nil_iff {v w : GoVal} : GoAt v [] w ↔ v = w :=
  ⟨fun h => by cases h; rfl, fun h => h ▸ GoAt.here v⟩

mutual
theorem GoVal.encode_none : ∀ v : GoVal, v.encode = none ↔ ∃ p, GoAt v p .other
  | .str b => by
    refine ⟨fun h => by simp [GoVal.encode] at h, ?_⟩
    rintro ⟨p, h⟩
    cases h
  | .map m => by
    rw [GoVal.encode, m.encode_none]
    constructor
    · rintro ⟨k, v, hk, p, hp⟩; exact ⟨_, .field hk hp⟩
    · rintro ⟨p, h⟩
      cases h with
      | field hk hp => exact ⟨_, _, hk, _, hp⟩
  | .list l => by
    rw [GoVal.encode, l.encode_none]
    constructor
    · rintro ⟨k, v, hk, p, hp⟩; exact ⟨_, .item hk hp⟩
    · rintro ⟨p, h⟩
      cases h with
      | item hk hp => exact ⟨_, _, hk, _, hp⟩
  | .other => ⟨fun _ => ⟨[], .here _⟩, fun _ => rfl⟩
theorem GoItems.encode_none : ∀ (l : GoItems) (i : Nat), l.encode i = none ↔ ∃ k v, GoItemOf l k v ∧ ∃ p, GoAt v p .other
  | .nil, i => by simp [GoItems.encode, GoItemOf]
  | .cons v rest, i => by
    have h1 := v.encode_none
    have h2 := rest.encode_none (i + 1)
    have hsplit : (∃ k w, GoItemOf (.cons v rest) k w ∧ ∃ p, GoAt w p .other) ↔
        (∃ p, GoAt v p .other) ∨ ∃ k w, GoItemOf rest k w ∧ ∃ p, GoAt w p .other := by
      constructor
      · rintro ⟨k, w, hk, hp⟩
        cases k with
        | zero => simp only [GoItemOf] at hk; subst hk; exact Or.inl hp
        | succ k => exact Or.inr ⟨k, w, hk, hp⟩
      · rintro (hp | ⟨k, w, hk, hp⟩)
        · exact ⟨0, v, rfl, hp⟩
        · exact ⟨k + 1, w, hk, hp⟩
    rw [hsplit, ← h1, ← h2, GoItems.encode]
    cases v.encode with
    | none => simp
    | some a => cases rest.encode (i + 1) <;> simp
theorem GoFields.encode_none : ∀ m : GoFields, m.encode = none ↔ ∃ k v, GoFieldOf m k v ∧ ∃ p, GoAt v p .other
  | .nil => by simp [GoFields.encode, GoFieldOf]
  | .cons key v rest => by
    have h1 := v.encode_none
    have h2 := rest.encode_none
    have hsplit : (∃ k w, GoFieldOf (.cons key v rest) k w ∧ ∃ p, GoAt w p .other) ↔
        (∃ p, GoAt v p .other) ∨ ∃ k w, GoFieldOf rest k w ∧ ∃ p, GoAt w p .other := by
      constructor
      · rintro ⟨k, w, hk | hk, hp⟩
        · rw [hk.2] at hp; exact Or.inl hp
        · exact Or.inr ⟨k, w, hk, hp⟩
      · rintro (hp | ⟨k, w, hk, hp⟩)
        · exact ⟨key, v, Or.inl ⟨rfl, rfl⟩, hp⟩
        · exact ⟨k, w, Or.inr hk, hp⟩
    rw [hsplit, ← h1, ← h2, GoFields.encode]
    cases v.encode with
    | none => simp
    | some a => cases rest.encode <;> simp
end

/-! ## Paths and values of the event the library sees -/

theorem lossy_of_utf8 {b : Bytes} (h : IsUtf8 b) : utf8 (lossy b) = b := by
  obtain ⟨s, rfl⟩ := h; rw [lossy_utf8]

theorem lossy_inj {a b : Bytes} (ha : IsUtf8 a) (hb : IsUtf8 b) (h : lossy a = lossy b) : a = b := by
  rw [← lossy_of_utf8 ha, h, lossy_of_utf8 hb]

theorem fieldOf_toEv {k : Str} {w : Ev} : ∀ {m : GoFields}, (∀ k v, GoFieldOf m k v → IsUtf8 k) →
    (FieldOf m.toEv k w ↔ ∃ w', GoFieldOf m (utf8 k) w' ∧ w'.toEv = w)
  | .nil, _ => by simp [GoFields.toEv, FieldOf, GoFieldOf]
  | .cons k' v rest, h => by
    have hk' := h k' v (Or.inl ⟨rfl, rfl⟩)
    have ih := fieldOf_toEv (k := k) (w := w) (m := rest) (fun k v hv => h k v (Or.inr hv))
    simp only [GoFields.toEv, FieldOf, GoFieldOf, ih]
    constructor
    · rintro (⟨rfl, rfl⟩ | ⟨w', hw, rfl⟩)
      · exact ⟨v, Or.inl ⟨lossy_of_utf8 hk', rfl⟩, rfl⟩
      · exact ⟨w', Or.inr hw, rfl⟩
    · rintro ⟨w', ⟨h1, rfl⟩ | hw, rfl⟩
      · exact Or.inl ⟨by rw [← h1, lossy_utf8], rfl⟩
      · exact Or.inr ⟨w', hw, rfl⟩

theorem itemOf_toEv {w : Ev} : ∀ {l : GoItems} {i : Nat},
    ItemOf l.toEv i w ↔ ∃ w', GoItemOf l i w' ∧ w'.toEv = w
  | .nil, i => by simp [GoItems.toEv, ItemOf, GoItemOf]
  | .cons v rest, 0 => by simp [GoItems.toEv, ItemOf, GoItemOf, eq_comm]
  | .cons v rest, i + 1 => by
    simp only [GoItems.toEv, ItemOf, GoItemOf]
    exact itemOf_toEv

theorem Spec.KeysUtf8.keys {m : GoFields} (h : KeysUtf8 (.map m)) : ∀ k v, GoFieldOf m k v → IsUtf8 k :=
  fun k v hk => h [] m k v (.here _) hk

theorem Spec.KeysUtf8.field {m : GoFields} {k : Bytes} {v : GoVal} (h : KeysUtf8 (.map m)) (hk : GoFieldOf m k v) :
    KeysUtf8 v := fun p m' k' w hp hw => h (.field k :: p) m' k' w (.field hk hp) hw

theorem Spec.KeysUtf8.item {l : GoItems} {i : Nat} {v : GoVal} (h : KeysUtf8 (.list l)) (hk : GoItemOf l i v) :
    KeysUtf8 v := fun p m' k' w hp hw => h (.index i :: p) m' k' w (.item hk hp) hw

theorem at_toEv : ∀ {p : Path} {v : GoVal} {w : Ev}, KeysUtf8 v →
    (At v.toEv p w ↔ ∃ w', GoAt v (goPath p) w' ∧ w'.toEv = w)
  | [], v, w, _ => by
    constructor
    · intro h
      refine ⟨v, .here v, ?_⟩
      generalize v.toEv = e at h
      cases h
      rfl
    · rintro ⟨w', h, rfl⟩; cases h; exact .here _
  | .field k :: p, v, w, hu => by
    constructor
    · intro h
      cases v with
      | str b => rw [GoVal.toEv] at h; cases h
      | list l => rw [GoVal.toEv] at h; cases h
      | other => rw [GoVal.toEv] at h; cases h
      | map m =>
        rw [GoVal.toEv] at h
        cases h with
        | field hk hp =>
          obtain ⟨w1, h1, rfl⟩ := (fieldOf_toEv hu.keys).1 hk
          obtain ⟨w', h2, rfl⟩ := (at_toEv (hu.field h1)).1 hp
          exact ⟨w', .field h1 h2, rfl⟩
    · rintro ⟨w', h, rfl⟩
      cases h with
      | field hk hp =>
        rw [GoVal.toEv]
        exact .field ((fieldOf_toEv hu.keys).2 ⟨_, hk, rfl⟩) ((at_toEv (hu.field hk)).2 ⟨_, hp, rfl⟩)
  | .index i :: p, v, w, hu => by
    constructor
    · intro h
      cases v with
      | str b => rw [GoVal.toEv] at h; cases h
      | map l => rw [GoVal.toEv] at h; cases h
      | other => rw [GoVal.toEv] at h; cases h
      | list m =>
        rw [GoVal.toEv] at h
        cases h with
        | item hk hp =>
          obtain ⟨w1, h1, rfl⟩ := itemOf_toEv.1 hk
          obtain ⟨w', h2, rfl⟩ := (at_toEv (hu.item h1)).1 hp
          exact ⟨w', .item h1 h2, rfl⟩
    · rintro ⟨w', h, rfl⟩
      cases h with
      | item hk hp =>
        rw [GoVal.toEv]
        exact .item (itemOf_toEv.2 ⟨_, hk, rfl⟩) ((at_toEv (hu.item hk)).2 ⟨_, hp, rfl⟩)

theorem goFieldOf_key {k : Bytes} : ∀ {m : GoFields}, k ∈ goKeys m ↔ ∃ v, GoFieldOf m k v
  | .nil => by simp [goKeys, GoFieldOf]
  | .cons k' v rest => by
    simp only [goKeys, List.mem_cons, GoFieldOf, goFieldOf_key (m := rest)]
    constructor
    · rintro (rfl | ⟨w, hw⟩)
      · exact ⟨v, Or.inl ⟨rfl, rfl⟩⟩
      · exact ⟨w, Or.inr hw⟩
    · rintro ⟨w, ⟨rfl, _⟩ | hw⟩
      · exact Or.inl rfl
      · exact Or.inr ⟨w, hw⟩

theorem keys_toEv : ∀ m : GoFields, keys m.toEv = (goKeys m).map lossy
  | .nil => rfl
  | .cons k v rest => by simp [GoFields.toEv, keys, goKeys, keys_toEv rest]

mutual
theorem GoVal.wellKeyed : ∀ v : GoVal, GoKeyed v → KeysUtf8 v → WellKeyed v.toEv
  | .str _, _, _ => by simp [GoVal.toEv, WellKeyed]
  | .other, _, _ => by simp [GoVal.toEv, WellKeyed]
  | .map m, h, hu => by
    rw [GoVal.toEv, WellKeyed]
    exact m.wellKeyed (by simpa [GoKeyed] using h) hu.keys (fun k v hk => hu.field hk)
  | .list l, h, hu => by
    rw [GoVal.toEv, WellKeyed]
    exact l.wellKeyed (by simpa [GoKeyed] using h) (fun k v hk => hu.item hk)
theorem GoItems.wellKeyed : ∀ l : GoItems, GoKeyedItems l → (∀ i v, GoItemOf l i v → KeysUtf8 v) →
    WellKeyedItems l.toEv
  | .nil, _, _ => by simp [GoItems.toEv, WellKeyedItems]
  | .cons v rest, h, hu => by
    simp only [GoKeyedItems] at h
    rw [GoItems.toEv, WellKeyedItems]
    exact ⟨v.wellKeyed h.1 (hu 0 v rfl), rest.wellKeyed h.2 (fun i w hw => hu (i + 1) w hw)⟩
theorem GoFields.wellKeyed : ∀ m : GoFields, GoKeyedFields m → (∀ k v, GoFieldOf m k v → IsUtf8 k) →
    (∀ k v, GoFieldOf m k v → KeysUtf8 v) → WellKeyedFields m.toEv
  | .nil, _, _, _ => by simp [GoFields.toEv, WellKeyedFields]
  | .cons k v rest, h, hk, hu => by
    simp only [GoKeyedFields] at h
    rw [GoFields.toEv, WellKeyedFields]
    refine ⟨?_, v.wellKeyed h.2.1 (hu k v (Or.inl ⟨rfl, rfl⟩)), rest.wellKeyed h.2.2 (fun a b c => hk a b (Or.inr c))
      (fun a b c => hu a b (Or.inr c))⟩
    rw [keys_toEv]
    intro hmem
    obtain ⟨k', hk', he⟩ := List.mem_map.1 hmem
    obtain ⟨w, hw⟩ := goFieldOf_key.1 hk'
    have := lossy_inj (hk k' w (Or.inr hw)) (hk k v (Or.inl ⟨rfl, rfl⟩)) he
    exact h.1 (this ▸ hk')
end

end Sds
