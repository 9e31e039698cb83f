import Verif.Lemmas.Codec

/-! Lemmas about responses: decoding, and applying mutations to a Go event. -/

namespace Sds
open Spec

/-! ## Rewriting Go events -/

def goOnly (q : List GoSeg) (s : Bytes) : List GoSeg → Bytes → Bytes := fun p b => if p = q then s else b

theorem goOnly_cons (s : GoSeg) (q : List GoSeg) (t : Bytes) : (fun p => goOnly (s :: q) t (s :: p)) = goOnly q t := by
  funext p b; simp [goOnly]

theorem goOnly_cons_ne {s s' : GoSeg} (h : s' ≠ s) (q p : List GoSeg) (t b : Bytes) :
    goOnly (s :: q) t (s' :: p) b = b := by
  simp [goOnly, h]

mutual
theorem GoVal.rew_rew : ∀ (v : GoVal) (g h : List GoSeg → Bytes → Bytes),
    goRewrite g (goRewrite h v) = goRewrite (fun p b => g p (h p b)) v
  | .str _, _, _ => rfl
  | .other, _, _ => rfl
  | .map m, g, h => by simp only [goRewrite]; rw [m.rew_rew]
  | .list l, g, h => by simp only [goRewrite]; rw [l.rew_rew]
theorem GoItems.rew_rew : ∀ (l : GoItems) (g h : List GoSeg → Bytes → Bytes) (i : Nat),
    goRewriteItems g i (goRewriteItems h i l) = goRewriteItems (fun p b => g p (h p b)) i l
  | .nil, _, _, _ => rfl
  | .cons v rest, g, h, i => by simp only [goRewriteItems]; rw [v.rew_rew, rest.rew_rew]
theorem GoFields.rew_rew : ∀ (m : GoFields) (g h : List GoSeg → Bytes → Bytes),
    goRewriteFields g (goRewriteFields h m) = goRewriteFields (fun p b => g p (h p b)) m
  | .nil, _, _ => rfl
  | .cons k v rest, g, h => by simp only [goRewriteFields]; rw [v.rew_rew, rest.rew_rew]
end

mutual
theorem GoVal.rew_congr : ∀ (v : GoVal) (g h : List GoSeg → Bytes → Bytes),
    (∀ p b, GoAt v p (.str b) → g p b = h p b) → goRewrite g v = goRewrite h v
  | .str b, g, h, e => by simp only [goRewrite]; rw [e [] b (.here _)]
  | .other, _, _, _ => rfl
  | .map m, g, h, e => by
    simp only [goRewrite]
    rw [m.rew_congr g h (fun k v hk p b hp => e _ b (.field hk hp))]
  | .list l, g, h, e => by
    simp only [goRewrite]
    rw [l.rew_congr g h 0 (fun k v hk p b hp => by rw [Nat.zero_add]; exact e _ b (.item hk hp))]
theorem GoItems.rew_congr : ∀ (l : GoItems) (g h : List GoSeg → Bytes → Bytes) (i : Nat),
    (∀ j v, GoItemOf l j v → ∀ p b, GoAt v p (.str b) → g (.index (i + j) :: p) b = h (.index (i + j) :: p) b) →
    goRewriteItems g i l = goRewriteItems h i l
  | .nil, _, _, _, _ => rfl
  | .cons v rest, g, h, i, e => by
    have h0 := e 0 v rfl
    simp only [Nat.add_zero] at h0
    simp only [goRewriteItems]
    rw [v.rew_congr _ _ h0, rest.rew_congr g h (i + 1) (fun j w hw p b hp => by
      have := e (j + 1) w hw p b hp
      rw [show i + 1 + j = i + (j + 1) from by omega]
      exact this)]
theorem GoFields.rew_congr : ∀ (m : GoFields) (g h : List GoSeg → Bytes → Bytes),
    (∀ k v, GoFieldOf m k v → ∀ p b, GoAt v p (.str b) → g (.field k :: p) b = h (.field k :: p) b) →
    goRewriteFields g m = goRewriteFields h m
  | .nil, _, _, _ => rfl
  | .cons k v rest, g, h, e => by
    simp only [goRewriteFields]
    rw [v.rew_congr _ _ (fun p b hp => e k v (Or.inl ⟨rfl, rfl⟩) p b hp),
      rest.rew_congr g h (fun k' w hw p b hp => e k' w (Or.inr hw) p b hp)]
end

mutual
theorem GoVal.rew_id : ∀ v : GoVal, goRewrite (fun _ b => b) v = v
  | .str _ => rfl
  | .other => rfl
  | .map m => by rw [goRewrite, m.rew_id]
  | .list l => by rw [goRewrite, l.rew_id]
theorem GoItems.rew_id : ∀ (l : GoItems) (i : Nat), goRewriteItems (fun _ b => b) i l = l
  | .nil, _ => rfl
  | .cons v rest, i => by rw [goRewriteItems, v.rew_id, rest.rew_id]
theorem GoFields.rew_id : ∀ m : GoFields, goRewriteFields (fun _ b => b) m = m
  | .nil => rfl
  | .cons k v rest => by rw [goRewriteFields, v.rew_id, rest.rew_id]
end

theorem goKeys_rew (g : List GoSeg → Bytes → Bytes) : ∀ m : GoFields, goKeys (goRewriteFields g m) = goKeys m
  | .nil => rfl
  | .cons k v rest => by rw [goRewriteFields, goKeys, goKeys, goKeys_rew g rest]

mutual
theorem GoVal.keyed_rew : ∀ (v : GoVal) (g : List GoSeg → Bytes → Bytes), GoKeyed v → GoKeyed (goRewrite g v)
  | .str _, _, _ => by simp [goRewrite, GoKeyed]
  | .other, _, _ => by simp [goRewrite, GoKeyed]
  | .map m, g, h => by
    rw [goRewrite, GoKeyed]
    exact m.keyed_rew g (by simpa [GoKeyed] using h)
  | .list l, g, h => by
    rw [goRewrite, GoKeyed]
    exact l.keyed_rew g 0 (by simpa [GoKeyed] using h)
theorem GoItems.keyed_rew : ∀ (l : GoItems) (g : List GoSeg → Bytes → Bytes) (i : Nat), GoKeyedItems l →
    GoKeyedItems (goRewriteItems g i l)
  | .nil, _, _, _ => by simp [goRewriteItems, GoKeyedItems]
  | .cons v rest, g, i, h => by
    simp only [GoKeyedItems] at h
    rw [goRewriteItems, GoKeyedItems]
    exact ⟨v.keyed_rew _ h.1, rest.keyed_rew g _ h.2⟩
theorem GoFields.keyed_rew : ∀ (m : GoFields) (g : List GoSeg → Bytes → Bytes), GoKeyedFields m →
    GoKeyedFields (goRewriteFields g m)
  | .nil, _, _ => by simp [goRewriteFields, GoKeyedFields]
  | .cons k v rest, g, h => by
    simp only [GoKeyedFields] at h
    rw [goRewriteFields, GoKeyedFields]
    exact ⟨by rw [goKeys_rew]; exact h.1, v.keyed_rew _ h.2.1, rest.keyed_rew g h.2.2⟩
end

theorem goFieldOf_rew {g : List GoSeg → Bytes → Bytes} {k : Bytes} {v : GoVal} : ∀ {m : GoFields}, GoFieldOf m k v →
    GoFieldOf (goRewriteFields g m) k (goRewrite (fun p => g (.field k :: p)) v)
  | .nil, h => h.elim
  | .cons k' w rest, h => by
    rw [goRewriteFields]
    rcases h with ⟨rfl, rfl⟩ | h
    · exact Or.inl ⟨rfl, rfl⟩
    · exact Or.inr (goFieldOf_rew h)

theorem goItemOf_rew {g : List GoSeg → Bytes → Bytes} {v : GoVal} : ∀ {l : GoItems} {i j : Nat}, GoItemOf l j v →
    GoItemOf (goRewriteItems g i l) j (goRewrite (fun p => g (.index (i + j) :: p)) v)
  | .nil, _, _, h => h.elim
  | .cons w rest, i, 0, h => by
    simp only [GoItemOf] at h
    subst h
    rw [goRewriteItems]
    rfl
  | .cons w rest, i, j + 1, h => by
    rw [goRewriteItems]
    have := goItemOf_rew (g := g) (i := i + 1) (l := rest) h
    rw [show i + 1 + j = i + (j + 1) from by omega] at this
    exact this

theorem goAt_rew {b : Bytes} : ∀ {p : List GoSeg} {v : GoVal} {g : List GoSeg → Bytes → Bytes}, GoAt v p (.str b) →
    GoAt (goRewrite g v) p (.str (g p b))
  | [], v, g, h => by cases h; rw [goRewrite]; exact .here _
  | _ :: p, v, g, h => by
    cases h with
    | field hk hp => rw [goRewrite]; exact .field (goFieldOf_rew hk) (goAt_rew (g := fun q => g (_ :: q)) hp)
    | item hk hp =>
      rw [goRewrite]
      have := goItemOf_rew (g := g) (i := 0) hk
      rw [Nat.zero_add] at this
      exact .item this (goAt_rew (g := fun q => g (_ :: q)) hp)

/-! ## One string -/

theorem goRewriteFields_only {k : Bytes} {q : List GoSeg} {s : Bytes} : ∀ m : GoFields, k ∉ goKeys m →
    goRewriteFields (goOnly (.field k :: q) s) m = m
  | .nil, _ => rfl
  | .cons k' v rest, h => by
    simp only [goKeys, List.mem_cons, not_or] at h
    rw [goRewriteFields, goRewriteFields_only rest h.2]
    congr 1
    have : (fun p => goOnly (.field k :: q) s (.field k' :: p)) = fun _ b => b := by
      funext p b
      exact goOnly_cons_ne (fun e => h.1 (by injection e with e; exact e.symm)) _ _ _ _
    rw [this, v.rew_id]

theorem goRewriteFields_set {k : Bytes} {q : List GoSeg} {s : Bytes} {v : GoVal} : ∀ m : GoFields, GoKeyedFields m →
    GoFieldOf m k v → goRewriteFields (goOnly (.field k :: q) s) m = m.set k (goRewrite (goOnly q s) v)
  | .nil, _, h => h.elim
  | .cons k' w rest, hk, h => by
    simp only [GoKeyedFields] at hk
    rw [goRewriteFields, GoFields.set]
    by_cases e : k' = k
    · subst e
      rcases h with ⟨_, rfl⟩ | h
      · rw [if_pos rfl, goOnly_cons, goRewriteFields_only rest hk.1]
      · exact absurd (goFieldOf_key.2 ⟨_, h⟩) hk.1
    · rcases h with ⟨rfl, _⟩ | h
      · exact absurd rfl e
      · rw [if_neg e, goRewriteFields_set rest hk.2.2 h]
        congr 1
        have : (fun p => goOnly (.field k :: q) s (.field k' :: p)) = fun _ b => b := by
          funext p b
          exact goOnly_cons_ne (fun e' => e (by injection e')) _ _ _ _
        rw [this, w.rew_id]

theorem goRewriteItems_only {n : Nat} {q : List GoSeg} {s : Bytes} : ∀ (l : GoItems) (i : Nat), n < i →
    goRewriteItems (goOnly (.index n :: q) s) i l = l
  | .nil, _, _ => rfl
  | .cons v rest, i, h => by
    rw [goRewriteItems, goRewriteItems_only rest (i + 1) (by omega)]
    congr 1
    have : (fun p => goOnly (.index n :: q) s (.index i :: p)) = fun _ b => b := by
      funext p b
      exact goOnly_cons_ne (fun e => by injection e with e; omega) _ _ _ _
    rw [this, v.rew_id]

theorem goRewriteItems_set {q : List GoSeg} {s : Bytes} {v : GoVal} : ∀ (l : GoItems) (i j : Nat),
    GoItemOf l j v →
    l.set j (goRewrite (goOnly q s) v) = Res.ok (goRewriteItems (goOnly (.index (i + j) :: q) s) i l)
  | .nil, _, _, h => h.elim
  | .cons w rest, i, 0, h => by
    simp only [GoItemOf] at h
    subst h
    rw [goRewriteItems, GoItems.set, Nat.add_zero, goOnly_cons, goRewriteItems_only rest (i + 1) (by omega)]
  | .cons w rest, i, j + 1, h => by
    have ih := goRewriteItems_set (q := q) (s := s) rest (i + 1) j h
    rw [show i + 1 + j = i + (j + 1) from by omega] at ih
    rw [GoItems.set, ih, goRewriteItems]
    have : (fun p => goOnly (.index (i + (j + 1)) :: q) s (.index i :: p)) = fun _ b => b := by
      funext p b
      exact goOnly_cons_ne (fun e => by injection e with e; omega) _ _ _ _
    rw [this, w.rew_id]
    rfl

theorem Mutated.wrap_wrap {α β γ : Type} (f : α → β) (g : β → γ) (r : Mutated α) :
    (r.wrap f).wrap g = r.wrap (fun x => g (f x)) := by
  cases r with
  | ok x => cases x with
    | none => rfl
    | some y => rfl
  | panic => rfl
  | hang => rfl

theorem mutateAt_field {k : Bytes} {v : GoVal} {tag : Nat} {b : Bytes} : ∀ m : GoFields, GoKeyedFields m →
    GoFieldOf m k v → m.mutateAt k tag b = (v.mutate tag b).wrap (fun v' => m.set k v')
  | .nil, _, h => h.elim
  | .cons k' w rest, hk, h => by
    simp only [GoKeyedFields] at hk
    rw [GoFields.mutateAt]
    by_cases e : k' = k
    · subst e
      rcases h with ⟨_, rfl⟩ | h
      · simp [GoFields.set]
      · exact absurd (goFieldOf_key.2 ⟨_, h⟩) hk.1
    · rcases h with ⟨rfl, _⟩ | h
      · exact absurd rfl e
      · rw [if_neg e, mutateAt_field rest hk.2.2 h, Mutated.wrap_wrap]
        simp [GoFields.set, e]

/-- `event[i] = v` when `i` is in range. -/
def GoItems.put : GoItems → Nat → GoVal → GoItems
  | .nil, _, _ => .nil
  | .cons _ rest, 0, v => .cons v rest
  | .cons w rest, i + 1, v => .cons w (rest.put i v)

theorem set_put {v w : GoVal} : ∀ {l : GoItems} {i : Nat}, GoItemOf l i w → l.set i v = Res.ok (l.put i v)
  | .nil, _, h => h.elim
  | .cons _ _, 0, _ => rfl
  | .cons u rest, i + 1, h => by
    rw [GoItems.set, set_put (l := rest) h]
    rfl

theorem mutateAt_item {v : GoVal} {tag : Nat} {b : Bytes} : ∀ (l : GoItems) (i : Nat), GoItemOf l i v →
    l.mutateAt i tag b = (v.mutate tag b).wrap (fun v' => l.put i v')
  | .nil, _, h => h.elim
  | .cons w rest, 0, h => by
    simp only [GoItemOf] at h
    subst h
    rfl
  | .cons w rest, i + 1, h => by
    rw [GoItems.mutateAt, mutateAt_item rest i h, Mutated.wrap_wrap]
    rfl

theorem goKeyed_field {k : Bytes} {v : GoVal} : ∀ {m : GoFields}, GoKeyedFields m → GoFieldOf m k v → GoKeyed v
  | .nil, _, h => h.elim
  | .cons k' w rest, hk, h => by
    simp only [GoKeyedFields] at hk
    rcases h with ⟨_, rfl⟩ | h
    · exact hk.2.1
    · exact goKeyed_field hk.2.2 h

theorem goKeyed_item {v : GoVal} : ∀ {l : GoItems} {i : Nat}, GoKeyedItems l → GoItemOf l i v → GoKeyed v
  | .nil, _, _, h => h.elim
  | .cons w rest, 0, hk, h => by
    simp only [GoItemOf] at h
    subst h
    simp only [GoKeyedItems] at hk
    exact hk.1
  | .cons w rest, i + 1, hk, h => by
    simp only [GoKeyedItems] at hk
    exact goKeyed_item (l := rest) hk.2 h

/-- Applying one mutation. -/
theorem mutate_path {s : Str} (hs : (utf8 s).length < 4294967296) : ∀ (p : Path) (v : GoVal) (old : Bytes), GoKeyed v →
    GoAt v (goPath p) (.str old) → p ≠ [] → MutationFits (p, s) →
    ∃ tag rest, encodePath p = tag :: rest ∧ tag ≠ 3 ∧ ∀ tail,
      v.mutate tag (rest ++ 3 :: (encodeBytes (utf8 s) ++ tail)) =
        Res.ok (some (goRewrite (goOnly (goPath p) (utf8 s)) v, utf8 s, tail))
  | [], _, _, _, _, h, _ => absurd rfl h
  | .field f :: p, v, old, hk, hat, _, hf => by
    have hfl : (utf8 f).length < 4294967296 := hf.2 (.field f) List.mem_cons_self
    refine ⟨0, encodeBytes (utf8 f) ++ encodePath p, rfl, by decide, fun tail => ?_⟩
    cases hat with
    | @field m _ w _ _ hm hp =>
      have hkm : GoKeyedFields m := by simpa [GoKeyed] using hk
      have hset := goRewriteFields_set (q := goPath p) (s := utf8 s) m hkm hm
      have hgoal : goRewrite (goOnly (goPath (.field f :: p)) (utf8 s)) (.map m) =
          .map (m.set (utf8 f) (goRewrite (goOnly (goPath p) (utf8 s)) w)) := by
        rw [goRewrite]
        exact congrArg GoVal.map hset
      rw [hgoal, GoVal.mutate, if_pos rfl, List.append_assoc, goString_encodeBytes hfl]
      cases p with
      | nil =>
        cases hp
        simp only [encodePath, List.nil_append, if_true, goString_encodeBytes hs]
        rfl
      | cons x p =>
        obtain ⟨tag, rest, h1, h2, h3⟩ := mutate_path hs (x :: p) w old (goKeyed_field hkm hm) hp (by simp)
          ⟨hf.1, fun y hy => hf.2 y (List.mem_cons_of_mem _ hy)⟩
        rw [h1]
        simp only [List.cons_append, if_neg h2]
        rw [mutateAt_field m hkm hm, h3 tail]
        rfl
  | .index i :: p, v, old, hk, hat, _, hf => by
    have hfl : i < 4294967296 := hf.2 (.index i) List.mem_cons_self
    refine ⟨1, be32 i ++ encodePath p, rfl, by decide, fun tail => ?_⟩
    cases hat with
    | @item l _ w _ _ hm hp =>
      have hkm : GoKeyedItems l := by simpa [GoKeyed] using hk
      have hset := goRewriteItems_set (q := goPath p) (s := utf8 s) l 0 i hm
      rw [Nat.zero_add, set_put hm] at hset
      have hgoal : goRewrite (goOnly (goPath (.index i :: p)) (utf8 s)) (.list l) =
          .list (l.put i (goRewrite (goOnly (goPath p) (utf8 s)) w)) := by
        rw [goRewrite]
        exact congrArg GoVal.list (Res.ok.inj hset).symm
      rw [hgoal, GoVal.mutate, if_pos rfl, List.append_assoc, goU32_be32 hfl]
      cases p with
      | nil =>
        cases hp
        simp only [encodePath, List.nil_append, if_true, goString_encodeBytes hs, set_put hm]
        rfl
      | cons x p =>
        obtain ⟨tag, rest, h1, h2, h3⟩ := mutate_path hs (x :: p) w old (goKeyed_item hkm hm) hp (by simp)
          ⟨hf.1, fun y hy => hf.2 y (List.mem_cons_of_mem _ hy)⟩
        rw [h1]
        simp only [List.cons_append, if_neg h2]
        rw [mutateAt_item l i hm, h3 tail]
        rfl

/-! ## Matches -/

theorem parse_text (t : ReplacementType) : parseReplacementType (utf8 t.text) = t := by
  cases t <;> decide +kernel

theorem text_length (t : ReplacementType) : (utf8 t.text).length < 4294967296 := by
  cases t <;> decide +kernel

theorem decodeMatch_encode {m : RuleMatch} (h : Fits m) (r : Bytes) :
    encodeMatch m ++ r = 5 :: ((encodeMatch m).tail ++ r) ∧
    decodeMatch ((encodeMatch m).tail ++ r) = Res.ok (goMatch m, r) := by
  refine ⟨rfl, ?_⟩
  obtain ⟨h1, h2, h3, h4, h5, h6⟩ := h
  simp only [encodeMatch, List.tail_cons, List.append_assoc, decodeMatch]
  rw [goU32_be32 h1, Res.bind_ok]
  simp only
  rw [goString_encodeBytes h2, Res.bind_ok]
  simp only
  rw [goString_encodeBytes (text_length _), Res.bind_ok]
  simp only
  rw [goU32_be32 h3, Res.bind_ok]
  simp only
  rw [goU32_be32 h4, Res.bind_ok]
  simp only
  rw [goU32_be32 (toU32_lt _), Res.bind_ok]
  simp only [parse_text, toI32_toU32 h5 h6, Res.pure_eq]
  rfl

theorem encodeMatch_pos (m : RuleMatch) : 0 < (encodeMatch m).length := by simp [encodeMatch]

theorem decodeMapF_match (f : Nat) (b : Bytes) (v : GoVal) (r : GoResult) : decodeMapF (f + 1) (5 :: b) v r =
    match decodeMatch b with
    | .ok (m, b') => decodeMapF f b' v { r with matches_ := r.matches_ ++ [m] }
    | .panic => Res.panic
    | .hang => Res.hang := by
  cases b <;> rfl

theorem decodeMap_matches (v : GoVal) : ∀ (ms : List RuleMatch) (f : Nat) (r : GoResult),
    (encodeMatches ms).length ≤ f → (∀ m ∈ ms, Fits m) →
    decodeMapF f (encodeMatches ms) v r = Res.ok (some (v, { r with matches_ := r.matches_ ++ ms.map goMatch }))
  | [], f, r, _, _ => by cases f <;> simp [encodeMatches, decodeMapF]
  | m :: ms, f, r, hf, hfit => by
    obtain ⟨h1, h2⟩ := decodeMatch_encode (hfit m List.mem_cons_self) (encodeMatches ms)
    simp only [encodeMatches, List.length_append] at hf
    have := encodeMatch_pos m
    cases f with
    | zero => omega
    | succ f =>
      rw [encodeMatches, h1, decodeMapF_match, h2]
      dsimp only
      rw [decodeMap_matches v ms f _ (by omega) (fun x hx => hfit x (List.mem_cons_of_mem _ hx))]
      simp

theorem decodeResponse_matches : ∀ (ms : List RuleMatch) (f : Nat) (r : GoResult),
    (encodeMatches ms).length ≤ f → (∀ m ∈ ms, Fits m) →
    decodeResponseF f (encodeMatches ms) r = Res.ok (some { r with matches_ := r.matches_ ++ ms.map goMatch })
  | [], f, r, _, _ => by cases f <;> simp [encodeMatches, decodeResponseF]
  | m :: ms, f, r, hf, hfit => by
    obtain ⟨h1, h2⟩ := decodeMatch_encode (hfit m List.mem_cons_self) (encodeMatches ms)
    simp only [encodeMatches, List.length_append] at hf
    have := encodeMatch_pos m
    cases f with
    | zero => omega
    | succ f =>
      rw [encodeMatches, h1, decodeResponseF, if_neg (by decide), if_pos rfl, h2]
      dsimp only
      rw [decodeResponse_matches ms f _ (by omega) (fun x hx => hfit x (List.mem_cons_of_mem _ hx))]
      simp

/-! ## All mutations -/

/-- The content of the last mutation. -/
def lastText (ms : List (Path × Str)) (b : Bytes) : Bytes :=
  match ms with
  | [] => b
  | x :: rest => lastText rest (utf8 x.2)

/-- The mutations one after the other. -/
def applyMutations : List (Path × Str) → GoVal → GoVal
  | [], v => v
  | (p, s) :: rest, v => applyMutations rest (goRewrite (goOnly (goPath p) (utf8 s)) v)

theorem mutations_cons (p : Path) (c : Bool × Str) (st : Storage) :
    mutations ((p, c) :: st) = (if c.1 then [(p, c.2)] else []) ++ mutations st := by
  unfold mutations
  rw [List.filterMap_cons]
  cases h : c.1 <;> simp

theorem decodeMap_response (ms : List RuleMatch) (hfit : ∀ m ∈ ms, Fits m) : ∀ (st : Storage) (f : Nat) (v : GoVal)
    (r : GoResult), (encodeStorage st ++ encodeMatches ms).length ≤ f → GoKeyed v → (∀ b, v ≠ .str b) →
    (∀ x ∈ mutations st, MutationFits x ∧ ∃ b, GoAt v (goPath x.1) (.str b)) →
    decodeMapF f (encodeStorage st ++ encodeMatches ms) v r =
      Res.ok (some (applyMutations (mutations st) v,
        ⟨r.mutated || !(mutations st).isEmpty, lastText (mutations st) r.event, r.matches_ ++ ms.map goMatch⟩))
  | [], f, v, r, hf, _, _, _ => by
    simp only [encodeStorage, List.nil_append] at hf ⊢
    rw [decodeMap_matches v ms f r hf hfit]
    simp [mutations, applyMutations, lastText]
  | (p, (fl, s)) :: st, f, v, r, hf, hk, hv, hm => by
    rw [mutations_cons] at hm ⊢
    cases fl with
    | false =>
      simp only [encodeStorage, Bool.false_eq_true, if_false, List.nil_append] at hf hm ⊢
      exact decodeMap_response ms hfit st f v r hf hk hv hm
    | true =>
      simp only [encodeStorage, if_true, List.append_assoc, List.cons_append, List.nil_append] at hf hm ⊢
      obtain ⟨hfits, old, hat⟩ := hm (p, s) List.mem_cons_self
      have hp : p ≠ [] := by
        rintro rfl
        cases hat
        exact hv old rfl
      obtain ⟨tag, rest, h1, h2, h3⟩ := mutate_path hfits.1 p v old hk hat hp hfits
      have hl : encodeMutation p s ++ (encodeStorage st ++ encodeMatches ms) =
          4 :: tag :: (rest ++ 3 :: (encodeBytes (utf8 s) ++ (encodeStorage st ++ encodeMatches ms))) := by
        simp [encodeMutation, h1]
      rw [hl] at hf ⊢
      cases f with
      | zero => simp at hf
      | succ f =>
        simp only [List.length_cons, List.length_append] at hf
        rw [decodeMapF, if_pos rfl]
        simp only [h3]
        rw [decodeMap_response ms hfit st f _ _ (by simp only [List.length_append]; omega) (v.keyed_rew _ hk)
          (by
            intro b
            cases v with
            | str b => exact absurd rfl (hv b)
            | map m => simp [goRewrite]
            | list l => simp [goRewrite]
            | other => simp [goRewrite])
          (fun x hx => by
            obtain ⟨hx1, b, hx2⟩ := hm x (List.mem_cons_of_mem _ hx)
            exact ⟨hx1, _, goAt_rew hx2⟩)]
        simp [applyMutations, lastText]

theorem decodeMutation_path {s : Str} (hs : (utf8 s).length < 4294967296) (tail : Bytes) : ∀ (p : Path) (f : Nat),
    MutationFits (p, s) → (encodePath p ++ 3 :: (encodeBytes (utf8 s) ++ tail)).length ≤ f →
    decodeMutationF f (encodePath p ++ 3 :: (encodeBytes (utf8 s) ++ tail)) = Res.ok (some (utf8 s, tail))
  | [], f, _, hf => by
    cases f with
    | zero => simp at hf
    | succ f =>
      simp only [encodePath, List.nil_append, decodeMutationF]
      rw [if_neg (by decide), if_neg (by decide), if_pos trivial, goString_encodeBytes hs]
  | .field k :: p, f, hfit, hf => by
    have hfl : (utf8 k).length < 4294967296 := hfit.2 (.field k) List.mem_cons_self
    cases f with
    | zero => simp [encodePath] at hf
    | succ f =>
      simp only [encodePath, List.cons_append, List.append_assoc, List.length_cons] at hf ⊢
      rw [decodeMutationF, if_pos rfl, goString_encodeBytes hfl]
      exact decodeMutation_path hs tail p f ⟨hfit.1, fun y hy => hfit.2 y (List.mem_cons_of_mem _ hy)⟩
        (by simp only [List.length_append, List.length_cons] at hf ⊢; omega)
  | .index i :: p, f, hfit, hf => by
    have hfl : i < 4294967296 := hfit.2 (.index i) List.mem_cons_self
    cases f with
    | zero => simp [encodePath] at hf
    | succ f =>
      simp only [encodePath, List.cons_append, List.append_assoc, List.length_cons] at hf ⊢
      rw [decodeMutationF, if_neg (by decide), if_pos rfl, goU32_be32 hfl]
      exact decodeMutation_path hs tail p f ⟨hfit.1, fun y hy => hfit.2 y (List.mem_cons_of_mem _ hy)⟩
        (by simp only [List.length_append, List.length_cons] at hf ⊢; omega)

theorem decodeResponse_response (ms : List RuleMatch) (hfit : ∀ m ∈ ms, Fits m) : ∀ (st : Storage) (f : Nat)
    (r : GoResult), (encodeStorage st ++ encodeMatches ms).length ≤ f → (∀ x ∈ mutations st, MutationFits x) →
    decodeResponseF f (encodeStorage st ++ encodeMatches ms) r =
      Res.ok (some
        ⟨r.mutated || !(mutations st).isEmpty, lastText (mutations st) r.event, r.matches_ ++ ms.map goMatch⟩)
  | [], f, r, hf, _ => by
    simp only [encodeStorage, List.nil_append] at hf ⊢
    rw [decodeResponse_matches ms f r hf hfit]
    simp [mutations, lastText]
  | (p, (fl, s)) :: st, f, r, hf, hm => by
    rw [mutations_cons] at hm ⊢
    cases fl with
    | false =>
      simp only [encodeStorage, Bool.false_eq_true, if_false, List.nil_append] at hf hm ⊢
      exact decodeResponse_response ms hfit st f r hf hm
    | true =>
      simp only [encodeStorage, if_true, List.append_assoc, List.cons_append, List.nil_append] at hf hm ⊢
      have hfits := hm (p, s) List.mem_cons_self
      have hl : encodeMutation p s ++ (encodeStorage st ++ encodeMatches ms) =
          4 :: (encodePath p ++ 3 :: (encodeBytes (utf8 s) ++ (encodeStorage st ++ encodeMatches ms))) := by
        simp [encodeMutation]
      rw [hl] at hf ⊢
      cases f with
      | zero => simp at hf
      | succ f =>
        simp only [List.length_cons, List.length_append] at hf
        rw [decodeResponseF, if_pos rfl, decodeMutation_path hfits.1 _ p _ hfits (Nat.le_refl _)]
        dsimp only
        rw [decodeResponse_response ms hfit st f _ (by simp only [List.length_append]; omega)
          (fun x hx => hm x (List.mem_cons_of_mem _ hx))]
        simp [lastText]

theorem goPath_inj {p q : Path} (h : goPath p = goPath q) : p = q := by
  induction p generalizing q with
  | nil => cases q with
    | nil => rfl
    | cons y q => simp [goPath] at h
  | cons x p ih =>
    cases q with
    | nil => simp [goPath] at h
    | cons y q =>
      simp only [goPath, List.map_cons, List.cons.injEq] at h
      have hxy : x = y := by
        cases x <;> cases y <;> simp only [goSeg, GoSeg.field.injEq, GoSeg.index.injEq, reduceCtorEq] at h
        · rw [utf8_inj h.1]
        · exact h.1.elim
        · exact h.1.elim
        · rw [h.1]
      rw [hxy, ih (q := q) h.2]

/-- All mutations at once. -/
theorem applyMutations_eq : ∀ (ms : List (Path × Str)) (v : GoVal), (ms.map (·.1)).Nodup →
    applyMutations ms v = goRewrite (mutatedText ms) v
  | [], v, _ => by
    have : mutatedText [] = fun _ b => b := by funext p b; rfl
    rw [this, v.rew_id]
    rfl
  | (p, s) :: ms, v, h => by
    simp only [List.map_cons, List.nodup_cons] at h
    rw [applyMutations, applyMutations_eq ms _ h.2, v.rew_rew]
    congr 1
    funext q b
    unfold goOnly mutatedText
    rw [List.find?_cons]
    by_cases e : q = goPath p
    · subst e
      have hn : ms.find? (fun x => decide (goPath x.1 = goPath p)) = none := by
        rw [List.find?_eq_none]
        intro x hx he
        have := goPath_inj (of_decide_eq_true he)
        exact h.1 (this ▸ List.mem_map_of_mem hx)
      simp [hn]
    · have e' : ¬ goPath p = q := fun he => e he.symm
      simp [e, e']

end Sds
