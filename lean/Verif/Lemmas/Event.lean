import Verif.Spec.Event
import Verif.Lemmas.Apply

/-! Lemmas about events. -/

namespace Sds
open Spec

/-- The leaf one level up. -/
def Spec.Leaf.under (s : Seg) (l : Leaf) : Leaf := { l with path := s :: l.path }

mutual
/-- The texts in the order of the traversal: `simple` for `SimpleEvent`, otherwise JSON. -/
def Ev.leaves (simple : Bool) : Ev → List Leaf
  | .null => []
  | .scalar t => if simple then [] else [⟨[], t, true⟩]
  | .str s => [⟨[], s, false⟩]
  | .list l => l.leaves simple 0
  | .map m =>
    if simple then m.leaves simple (· == firstKey) ++ m.leaves simple (· != firstKey)
    else m.leaves simple (fun _ => true)
def Items.leaves (simple : Bool) : Items → Nat → List Leaf
  | .nil, _ => []
  | .cons v rest, i => (v.leaves simple).map (Leaf.under (.index i)) ++ rest.leaves simple (i + 1)
/-- The fields with a selected key only. -/
def Fields.leaves (simple : Bool) : Fields → (Str → Bool) → List Leaf
  | .nil, _ => []
  | .cons k v rest, sel =>
    (if sel k then (v.leaves simple).map (Leaf.under (.field k)) else []) ++ rest.leaves simple sel
end

/-! ## Visits -/

/-- `ops` visits the texts `l` (with paths relative to the current one) and returns to where it started. -/
def Runs (ops : List Op) (l : List (Path × Str)) : Prop :=
  ∀ p rest r, located p rest = some r → located p (ops ++ rest) = some (l.map (fun x => (p ++ x.1, x.2)) ++ r)

theorem Runs.nil : Runs [] [] := by
  intro p rest r h; simpa using h

theorem Runs.append {o1 o2 : List Op} {l1 l2 : List (Path × Str)} (h1 : Runs o1 l1) (h2 : Runs o2 l2) :
    Runs (o1 ++ o2) (l1 ++ l2) := by
  intro p rest r h
  rw [List.append_assoc, h1 p _ _ (h2 p rest r h)]
  simp

theorem Runs.single (s : Str) : Runs [.visit s] [([], s)] := by
  intro p rest r h
  simp [located, h]

theorem Runs.under {ops : List Op} {l : List (Path × Str)} (s : Seg) (h : Runs ops l) :
    Runs (.push s :: (ops ++ [.pop])) (l.map fun x => (s :: x.1, x.2)) := by
  intro p rest r hr
  have hpop : located (p ++ [s]) (Op.pop :: rest) = some r := by
    simp [located, hr]
  have := h (p ++ [s]) (Op.pop :: rest) r hpop
  simp only [List.cons_append, List.append_assoc, located, List.nil_append]
  rw [this]
  simp [Function.comp_def]

theorem Runs.located {ops : List Op} {l : List (Path × Str)} (h : Runs ops l) : Spec.located [] ops = some l := by
  have := h [] [] [] rfl
  simpa using this

def pt (l : Leaf) : Path × Str := (l.path, l.text)

theorem pt_under (s : Seg) (ls : List Leaf) :
    (ls.map (Leaf.under s)).map pt = (ls.map pt).map fun x => (s :: x.1, x.2) := by
  simp [List.map_map, Function.comp_def, pt, Leaf.under]

mutual
theorem Ev.simple_runs : ∀ e : Ev, Runs e.simpleOps ((e.leaves true).map pt)
  | .null => by simpa [Ev.simpleOps, Ev.leaves] using Runs.nil
  | .scalar t => by simpa [Ev.simpleOps, Ev.leaves] using Runs.nil
  | .str s => by simpa [Ev.simpleOps, Ev.leaves, pt] using Runs.single s
  | .list l => by
    have := Items.simple_runs l 0
    simpa [Ev.simpleOps, Ev.leaves] using this
  | .map m => by
    have h1 := Fields.simple_runs m true
    have h2 := Fields.simple_runs m false
    have e1 : (fun k : Str => (k == firstKey) == true) = (· == firstKey) := by funext k; simp
    have e2 : (fun k : Str => (k == firstKey) == false) = (· != firstKey) := by
      funext k; simp [bne]
    rw [e1] at h1
    rw [e2] at h2
    have := h1.append h2
    simpa [Ev.simpleOps, Ev.leaves] using this
theorem Items.simple_runs : ∀ (l : Items) (i : Nat), Runs (l.simpleOps i) ((l.leaves true i).map pt)
  | .nil, _ => by simpa [Items.simpleOps, Items.leaves] using Runs.nil
  | .cons v rest, i => by
    have h1 := (Ev.simple_runs v).under (.index i)
    have h2 := Items.simple_runs rest (i + 1)
    have := h1.append h2
    rw [← pt_under] at this
    simpa [Items.simpleOps, Items.leaves] using this
theorem Fields.simple_runs : ∀ (m : Fields) (b : Bool),
    Runs (m.simpleOps b) ((m.leaves true (fun k => (k == firstKey) == b)).map pt)
  | .nil, _ => by simpa [Fields.simpleOps, Fields.leaves] using Runs.nil
  | .cons k v rest, b => by
    have h1 := (Ev.simple_runs v).under (.field k)
    have h2 := Fields.simple_runs rest b
    have h3 := h1.append h2
    rw [← pt_under] at h3
    unfold Fields.simpleOps Fields.leaves
    by_cases hk : (k == firstKey) = b
    · rw [if_pos hk, if_pos (by simp [hk])]
      simpa using h3
    · rw [if_neg hk, if_neg (by simpa using hk)]
      simpa using h2
end

mutual
theorem Ev.json_runs : ∀ e : Ev, Runs e.jsonOps ((e.leaves false).map pt)
  | .null => by simpa [Ev.jsonOps, Ev.leaves] using Runs.nil
  | .scalar t => by simpa [Ev.jsonOps, Ev.leaves, pt] using Runs.single t
  | .str s => by simpa [Ev.jsonOps, Ev.leaves, pt] using Runs.single s
  | .list l => by
    have := Items.json_runs l 0
    simpa [Ev.jsonOps, Ev.leaves] using this
  | .map m => by
    have := Fields.json_runs m
    simpa [Ev.jsonOps, Ev.leaves] using this
theorem Items.json_runs : ∀ (l : Items) (i : Nat), Runs (l.jsonOps i) ((l.leaves false i).map pt)
  | .nil, _ => by simpa [Items.jsonOps, Items.leaves] using Runs.nil
  | .cons v rest, i => by
    have h1 := (Ev.json_runs v).under (.index i)
    have h2 := Items.json_runs rest (i + 1)
    have := h1.append h2
    rw [← pt_under] at this
    simpa [Items.jsonOps, Items.leaves] using this
theorem Fields.json_runs : ∀ (m : Fields), Runs m.jsonOps ((m.leaves false (fun _ => true)).map pt)
  | .nil => by simpa [Fields.jsonOps, Fields.leaves] using Runs.nil
  | .cons k v rest => by
    have h1 := (Ev.json_runs v).under (.field k)
    have h2 := Fields.json_runs rest
    have := h1.append h2
    rw [← pt_under] at this
    simpa [Fields.jsonOps, Fields.leaves] using this
end

/-! ## Paths are distinct -/

theorem Fields.leaf_key {simple : Bool} : ∀ (m : Fields) (sel : Str → Bool), ∀ l ∈ m.leaves simple sel,
    ∃ k p, l.path = .field k :: p ∧ k ∈ keys m ∧ sel k = true
  | .nil, sel, l, h => by simp [Fields.leaves] at h
  | .cons k v rest, sel, l, h => by
    unfold Fields.leaves at h
    rcases List.mem_append.1 h with h | h
    · split at h
      · next hs =>
        obtain ⟨l', _, rfl⟩ := List.mem_map.1 h
        exact ⟨k, l'.path, rfl, by simp [keys], hs⟩
      · cases h
    · obtain ⟨k', p, h1, h2, h3⟩ := Fields.leaf_key rest sel l h
      exact ⟨k', p, h1, by simp [keys, h2], h3⟩

theorem Items.leaf_index {simple : Bool} : ∀ (its : Items) (i : Nat), ∀ l ∈ its.leaves simple i,
    ∃ j p, l.path = .index j :: p ∧ i ≤ j
  | .nil, i, l, h => by simp [Items.leaves] at h
  | .cons v rest, i, l, h => by
    unfold Items.leaves at h
    rcases List.mem_append.1 h with h | h
    · obtain ⟨l', _, rfl⟩ := List.mem_map.1 h
      exact ⟨i, l'.path, rfl, Nat.le_refl _⟩
    · obtain ⟨j, p, h1, h2⟩ := Items.leaf_index rest (i + 1) l h
      exact ⟨j, p, h1, by omega⟩

theorem paths_under_nodup {ls : List Leaf} (s : Seg) (h : (ls.map (·.path)).Nodup) :
    ((ls.map (Leaf.under s)).map (·.path)).Nodup := by
  have : (ls.map (Leaf.under s)).map (·.path) = (ls.map (·.path)).map (s :: ·) := by
    simp [List.map_map, Function.comp_def, Leaf.under]
  rw [this]
  unfold List.Nodup at *
  rw [List.pairwise_map]
  exact h.imp (fun hab hc => hab (List.cons.inj hc).2)

mutual
theorem Ev.leaves_nodup (simple : Bool) : ∀ e : Ev, WellKeyed e → ((e.leaves simple).map (·.path)).Nodup
  | .null, _ => by simp [Ev.leaves]
  | .scalar t, _ => by cases simple <;> simp [Ev.leaves]
  | .str s, _ => by simp [Ev.leaves]
  | .list l, h => by
    have := Items.leaves_nodup simple l 0 (by simpa [WellKeyed] using h)
    simpa [Ev.leaves] using this
  | .map m, h => by
    have hm : WellKeyedFields m := by simpa [WellKeyed] using h
    unfold Ev.leaves
    split
    · rw [List.map_append, List.nodup_append]
      refine ⟨Fields.leaves_nodup simple m _ hm, Fields.leaves_nodup simple m _ hm, ?_⟩
      intro a ha b hb
      obtain ⟨la, hla, rfl⟩ := List.mem_map.1 ha
      obtain ⟨lb, hlb, rfl⟩ := List.mem_map.1 hb
      obtain ⟨k1, p1, h1, _, h2⟩ := Fields.leaf_key m _ la hla
      obtain ⟨k2, p2, h3, _, h4⟩ := Fields.leaf_key m _ lb hlb
      rw [h1, h3]
      intro hc
      simp only [List.cons.injEq, Seg.field.injEq] at hc
      rw [hc.1] at h2
      simp at h2 h4
      exact h4 h2
    · exact Fields.leaves_nodup simple m _ hm
theorem Items.leaves_nodup (simple : Bool) : ∀ (its : Items) (i : Nat), WellKeyedItems its →
    ((its.leaves simple i).map (·.path)).Nodup
  | .nil, _, _ => by simp [Items.leaves]
  | .cons v rest, i, h => by
    have hv : WellKeyed v ∧ WellKeyedItems rest := by simpa [WellKeyedItems] using h
    unfold Items.leaves
    rw [List.map_append, List.nodup_append]
    refine ⟨paths_under_nodup _ (Ev.leaves_nodup simple v hv.1), Items.leaves_nodup simple rest (i + 1) hv.2, ?_⟩
    intro a ha b hb
    obtain ⟨la, hla, rfl⟩ := List.mem_map.1 ha
    obtain ⟨lb, hlb, rfl⟩ := List.mem_map.1 hb
    obtain ⟨l', _, rfl⟩ := List.mem_map.1 hla
    obtain ⟨j, p, h1, h2⟩ := Items.leaf_index rest (i + 1) lb hlb
    rw [h1]
    intro hc
    simp only [Leaf.under, List.cons.injEq, Seg.index.injEq] at hc
    omega
theorem Fields.leaves_nodup (simple : Bool) : ∀ (m : Fields) (sel : Str → Bool), WellKeyedFields m →
    ((m.leaves simple sel).map (·.path)).Nodup
  | .nil, _, _ => by simp [Fields.leaves]
  | .cons k v rest, sel, h => by
    have hv : k ∉ keys rest ∧ WellKeyed v ∧ WellKeyedFields rest := by simpa [WellKeyedFields] using h
    unfold Fields.leaves
    rw [List.map_append, List.nodup_append]
    refine ⟨?_, Fields.leaves_nodup simple rest sel hv.2.2, ?_⟩
    · split
      · exact paths_under_nodup _ (Ev.leaves_nodup simple v hv.2.1)
      · simp
    · intro a ha b hb
      obtain ⟨la, hla, rfl⟩ := List.mem_map.1 ha
      obtain ⟨lb, hlb, rfl⟩ := List.mem_map.1 hb
      split at hla
      · obtain ⟨l', _, rfl⟩ := List.mem_map.1 hla
        obtain ⟨k', p, h1, h2, _⟩ := Fields.leaf_key rest sel lb hlb
        rw [h1]
        intro hc
        simp only [Leaf.under, List.cons.injEq, Seg.field.injEq] at hc
        rw [← hc.1] at h2
        exact hv.1 h2
      · cases hla
end

/-! ## Rewriting -/

/-- The effect of rewriting on a leaf. -/
def Spec.Leaf.rew (g : Path → Str → Str) (l : Leaf) : Leaf :=
  if l.fixed then l else { l with text := g l.path l.text }

theorem leaf_rew_under (g : Path → Str → Str) (s : Seg) (l : Leaf) :
    (l.under s).rew g = (l.rew fun p => g (s :: p)).under s := by
  obtain ⟨p, t, b⟩ := l
  cases b <;> simp [Leaf.rew, Leaf.under]

mutual
theorem Ev.leaves_rew (simple : Bool) : ∀ (e : Ev) (g : Path → Str → Str),
    (rewrite g e).leaves simple = (e.leaves simple).map (Leaf.rew g)
  | .null, g => by simp [Ev.leaves, rewrite]
  | .scalar t, g => by cases simple <;> simp [Ev.leaves, rewrite, Leaf.rew]
  | .str s, g => by simp [Ev.leaves, rewrite, Leaf.rew]
  | .list l, g => by simp [Ev.leaves, rewrite, Items.leaves_rew simple l g 0]
  | .map m, g => by
    simp only [Ev.leaves, rewrite, Fields.leaves_rew simple m g]
    split <;> simp
theorem Items.leaves_rew (simple : Bool) : ∀ (its : Items) (g : Path → Str → Str) (i : Nat),
    (rewriteItems g i its).leaves simple i = (its.leaves simple i).map (Leaf.rew g)
  | .nil, g, i => by simp [Items.leaves, rewriteItems]
  | .cons v rest, g, i => by
    simp only [Items.leaves, rewriteItems, Items.leaves_rew simple rest g (i + 1), Ev.leaves_rew simple v,
      List.map_append, List.map_map]
    congr 1
    apply List.map_congr_left
    intro l _
    simp [leaf_rew_under]
theorem Fields.leaves_rew (simple : Bool) : ∀ (m : Fields) (g : Path → Str → Str) (sel : Str → Bool),
    (rewriteFields g m).leaves simple sel = (m.leaves simple sel).map (Leaf.rew g)
  | .nil, g, sel => by simp [Fields.leaves, rewriteFields]
  | .cons k v rest, g, sel => by
    simp only [Fields.leaves, rewriteFields, Fields.leaves_rew simple rest g sel, Ev.leaves_rew simple v,
      List.map_append]
    congr 1
    split
    · simp only [List.map_map]
      apply List.map_congr_left
      intro l _
      simp [leaf_rew_under]
    · rfl
end

mutual
theorem Ev.rew_rew : ∀ (e : Ev) (g h : Path → Str → Str),
    rewrite g (rewrite h e) = rewrite (fun p c => g p (h p c)) e
  | .null, g, h => by simp [rewrite]
  | .scalar t, g, h => by simp [rewrite]
  | .str s, g, h => by simp [rewrite]
  | .list l, g, h => by simp [rewrite, Items.rew_rew l g h 0]
  | .map m, g, h => by simp [rewrite, Fields.rew_rew m g h]
theorem Items.rew_rew : ∀ (its : Items) (g h : Path → Str → Str) (i : Nat),
    rewriteItems g i (rewriteItems h i its) = rewriteItems (fun p c => g p (h p c)) i its
  | .nil, g, h, i => by simp [rewriteItems]
  | .cons v rest, g, h, i => by simp [rewriteItems, Ev.rew_rew v, Items.rew_rew rest g h (i + 1)]
theorem Fields.rew_rew : ∀ (m : Fields) (g h : Path → Str → Str),
    rewriteFields g (rewriteFields h m) = rewriteFields (fun p c => g p (h p c)) m
  | .nil, g, h => by simp [rewriteFields]
  | .cons k v rest, g, h => by simp [rewriteFields, Ev.rew_rew v, Fields.rew_rew rest g h]
end


theorem Fields.mem_sel {simple : Bool} (sel : Str → Bool) : ∀ (m : Fields) (l : Leaf),
    l ∈ m.leaves simple (fun _ => true) ↔ l ∈ m.leaves simple sel ∨ l ∈ m.leaves simple (fun k => !sel k)
  | .nil, l => by simp [Fields.leaves]
  | .cons k v rest, l => by
    unfold Fields.leaves
    have ih := Fields.mem_sel (simple := simple) sel rest l
    cases hs : sel k <;> simp [hs, ih]
    · exact or_left_comm
    · exact or_assoc.symm

theorem Ev.mem_map_leaves {simple : Bool} (m : Fields) (l : Leaf) :
    l ∈ (Ev.map m).leaves simple ↔ l ∈ m.leaves simple (fun _ => true) := by
  unfold Ev.leaves
  cases simple with
  | false => simp
  | true =>
    rw [if_pos rfl, List.mem_append, Fields.mem_sel (· == firstKey) m l]
    rfl

mutual
theorem Ev.rew_congr (simple : Bool) : ∀ (e : Ev) (g h : Path → Str → Str),
    (∀ l ∈ e.leaves simple, l.fixed = false → g l.path l.text = h l.path l.text) → rewrite g e = rewrite h e
  | .null, g, h, _ => by simp [rewrite]
  | .scalar t, g, h, _ => by simp [rewrite]
  | .str s, g, h, hl => by
    have := hl ⟨[], s, false⟩ (by simp [Ev.leaves]) rfl
    simpa [rewrite] using this
  | .list l, g, h, hl => by
    have := Items.rew_congr simple l g h 0 (fun x hx => hl x (by simpa [Ev.leaves] using hx))
    simp [rewrite, this]
  | .map m, g, h, hl => by
    have := Fields.rew_congr simple m g h (fun x hx => hl x ((Ev.mem_map_leaves m x).2 hx))
    simp [rewrite, this]
theorem Items.rew_congr (simple : Bool) : ∀ (its : Items) (g h : Path → Str → Str) (i : Nat),
    (∀ l ∈ its.leaves simple i, l.fixed = false → g l.path l.text = h l.path l.text) →
    rewriteItems g i its = rewriteItems h i its
  | .nil, g, h, i, _ => by simp [rewriteItems]
  | .cons v rest, g, h, i, hl => by
    have h1 := Ev.rew_congr simple v (fun p => g (.index i :: p)) (fun p => h (.index i :: p)) (fun x hx hf =>
      hl (x.under (.index i)) (by unfold Items.leaves; exact List.mem_append_left _ (List.mem_map_of_mem hx)) hf)
    have h2 := Items.rew_congr simple rest g h (i + 1) (fun x hx => hl x (by
      unfold Items.leaves; exact List.mem_append_right _ hx))
    simp [rewriteItems, h1, h2]
theorem Fields.rew_congr (simple : Bool) : ∀ (m : Fields) (g h : Path → Str → Str),
    (∀ l ∈ m.leaves simple (fun _ => true), l.fixed = false → g l.path l.text = h l.path l.text) →
    rewriteFields g m = rewriteFields h m
  | .nil, g, h, _ => by simp [rewriteFields]
  | .cons k v rest, g, h, hl => by
    have h1 := Ev.rew_congr simple v (fun p => g (.field k :: p)) (fun p => h (.field k :: p)) (fun x hx hf =>
      hl (x.under (.field k)) (by
        unfold Fields.leaves; exact List.mem_append_left _ (by simpa using ⟨x, hx, rfl⟩)) hf)
    have h2 := Fields.rew_congr simple rest g h (fun x hx => hl x (by
      unfold Fields.leaves; exact List.mem_append_right _ hx))
    simp [rewriteFields, h1, h2]
end

mutual
theorem Ev.rew_id : ∀ e : Ev, rewrite (fun _ c => c) e = e
  | .null => by simp [rewrite]
  | .scalar t => by simp [rewrite]
  | .str s => by simp [rewrite]
  | .list l => by simp [rewrite, Items.rew_id l 0]
  | .map m => by simp [rewrite, Fields.rew_id m]
theorem Items.rew_id : ∀ (its : Items) (i : Nat), rewriteItems (fun _ c => c) i its = its
  | .nil, i => by simp [rewriteItems]
  | .cons v rest, i => by simp [rewriteItems, Ev.rew_id v, Items.rew_id rest (i + 1)]
theorem Fields.rew_id : ∀ m : Fields, rewriteFields (fun _ c => c) m = m
  | .nil => by simp [rewriteFields]
  | .cons k v rest => by simp [rewriteFields, Ev.rew_id v, Fields.rew_id rest]
end

theorem keys_rew (g : Path → Str → Str) : ∀ m : Fields, keys (rewriteFields g m) = keys m
  | .nil => by simp [rewriteFields, keys]
  | .cons k v rest => by simp [rewriteFields, keys, keys_rew g rest]

mutual
theorem Ev.wf_rew : ∀ (e : Ev) (g : Path → Str → Str), WellKeyed e → WellKeyed (rewrite g e)
  | .null, g, h => by simp [rewrite, WellKeyed]
  | .scalar t, g, h => by simp [rewrite, WellKeyed]
  | .str s, g, h => by simp [rewrite, WellKeyed]
  | .list l, g, h => by
    unfold WellKeyed at h
    simp only [rewrite, WellKeyed]
    exact Items.wf_rew l g 0 h
  | .map m, g, h => by
    unfold WellKeyed at h
    simp only [rewrite, WellKeyed]
    exact Fields.wf_rew m g h
theorem Items.wf_rew : ∀ (its : Items) (g : Path → Str → Str) (i : Nat), WellKeyedItems its →
    WellKeyedItems (rewriteItems g i its)
  | .nil, g, i, h => by simp [rewriteItems, WellKeyedItems]
  | .cons v rest, g, i, h => by
    unfold WellKeyedItems at h
    simp only [rewriteItems, WellKeyedItems]
    exact ⟨Ev.wf_rew v _ h.1, Items.wf_rew rest g (i + 1) h.2⟩
theorem Fields.wf_rew : ∀ (m : Fields) (g : Path → Str → Str), WellKeyedFields m →
    WellKeyedFields (rewriteFields g m)
  | .nil, g, h => by simp [rewriteFields, WellKeyedFields]
  | .cons k v rest, g, h => by
    unfold WellKeyedFields at h
    simp only [rewriteFields, WellKeyedFields]
    exact ⟨by rw [keys_rew]; exact h.1, Ev.wf_rew v _ h.2.1, Fields.wf_rew rest g h.2.2⟩
end


/-! ## Editing one leaf -/

theorem Res.mapFst_mapFst {α β γ δ : Type} (f : α → β) (g : β → γ) (r : Res (α × δ)) :
    (r.mapFst f).mapFst g = r.mapFst fun x => g (f x) := by
  cases r <;> rfl

theorem rewriteFields_other (g : Path → Str → Str) : ∀ m : Fields,
    (∀ k ∈ keys m, ∀ p c, g (.field k :: p) c = c) → rewriteFields g m = m
  | .nil, _ => by simp [rewriteFields]
  | .cons k v rest, h => by
    have h1 : (fun p => g (.field k :: p)) = fun _ c => c := by
      funext p c; exact h k (by simp [keys]) p c
    have h2 := rewriteFields_other g rest (fun k' hk => h k' (by simp [keys, hk]))
    simp [rewriteFields, h1, h2, Ev.rew_id]

theorem rewriteItems_other (g : Path → Str → Str) : ∀ (its : Items) (i : Nat),
    (∀ j, i ≤ j → ∀ p c, g (.index j :: p) c = c) → rewriteItems g i its = its
  | .nil, _, _ => by simp [rewriteItems]
  | .cons v rest, i, h => by
    have h1 : (fun p => g (.index i :: p)) = fun _ c => c := by
      funext p c; exact h i (Nat.le_refl _) p c
    have h2 := rewriteItems_other g rest (i + 1) (fun j hj => h j (by omega))
    simp [rewriteItems, h1, h2, Ev.rew_id]

theorem only_cons (s : Seg) (p : Path) (t : Str) : (fun q => only (s :: p) t (s :: q)) = only p t := by
  funext q c; simp [only]

theorem only_cons_ne {s s' : Seg} (h : s' ≠ s) (p q : Path) (t c : Str) : only (s :: p) t (s' :: q) c = c := by
  simp [only, h]

mutual
theorem Ev.edit (simple : Bool) (f : Edit) : ∀ (e : Ev), WellKeyed e → ∀ l ∈ e.leaves simple, l.fixed = false →
    e.mutAt f l.path = (f l.text).mapFst fun t => rewrite (only l.path t) e
  | .null, _, l, hl, _ => by simp [Ev.leaves] at hl
  | .scalar t, _, l, hl, hf => by
    cases simple
    · simp [Ev.leaves] at hl; subst hl; simp at hf
    · simp [Ev.leaves] at hl
  | .str s, _, l, hl, _ => by
    simp only [Ev.leaves, List.mem_singleton] at hl
    subst hl
    simp [Ev.mutAt, rewrite, only]
  | .list its, h, l, hl, hf => by
    have hl' : l ∈ its.leaves simple 0 := by simpa [Ev.leaves] using hl
    obtain ⟨j, p, hp, he⟩ := Items.edit simple f its 0 (by simpa [WellKeyed] using h) l hl' hf
    rw [hp]
    have : Ev.mutAt f (.list its) (.index (0 + j) :: p) = (its.mutAt f j p).mapFst Ev.list := by
      simp [Ev.mutAt]
    rw [this, he, Res.mapFst_mapFst]
    simp [rewrite]
  | .map m, h, l, hl, hf => by
    have hl' := (Ev.mem_map_leaves m l).1 hl
    obtain ⟨k, p, hp, he⟩ := Fields.edit simple f m _ (by simpa [WellKeyed] using h) l hl' hf
    rw [hp]
    have : Ev.mutAt f (.map m) (.field k :: p) = (m.mutAt f k p).mapFst Ev.map := by
      simp [Ev.mutAt]
    rw [this, he, Res.mapFst_mapFst]
    simp [rewrite]
theorem Items.edit (simple : Bool) (f : Edit) : ∀ (its : Items) (i : Nat), WellKeyedItems its →
    ∀ l ∈ its.leaves simple i, l.fixed = false →
    ∃ j p, l.path = .index (i + j) :: p ∧
      its.mutAt f j p = (f l.text).mapFst fun t => rewriteItems (only (.index (i + j) :: p) t) i its
  | .nil, i, _, l, hl, _ => by simp [Items.leaves] at hl
  | .cons v rest, i, h, l, hl, hf => by
    have hv : WellKeyed v ∧ WellKeyedItems rest := by simpa [WellKeyedItems] using h
    unfold Items.leaves at hl
    rcases List.mem_append.1 hl with hl | hl
    · obtain ⟨l', hl', rfl⟩ := List.mem_map.1 hl
      refine ⟨0, l'.path, rfl, ?_⟩
      have he := Ev.edit simple f v hv.1 l' hl' hf
      simp only [Items.mutAt, he, Res.mapFst_mapFst, Nat.add_zero]
      show (f l'.text).mapFst _ = (f l'.text).mapFst _
      congr 1
      funext t
      have hr : rewriteItems (only (.index i :: l'.path) t) (i + 1) rest = rest :=
        rewriteItems_other _ _ _ (fun j hj p c => only_cons_ne (by simp; omega) _ _ _ _)
      simp [rewriteItems, only_cons, hr]
    · obtain ⟨j, p, hp, he⟩ := Items.edit simple f rest (i + 1) hv.2 l hl hf
      refine ⟨j + 1, p, by rw [hp]; congr 2; omega, ?_⟩
      simp only [Items.mutAt, he, Res.mapFst_mapFst]
      congr 1
      funext t
      have e1 : i + (j + 1) = i + 1 + j := by omega
      have hr : (fun q => only (.index (i + 1 + j) :: p) t (.index i :: q)) = fun _ c => c := by
        funext q c; exact only_cons_ne (by simp; omega) _ _ _ _
      simp only [rewriteItems, e1, hr, Ev.rew_id]
theorem Fields.edit (simple : Bool) (f : Edit) : ∀ (m : Fields) (sel : Str → Bool), WellKeyedFields m →
    ∀ l ∈ m.leaves simple sel, l.fixed = false →
    ∃ k p, l.path = .field k :: p ∧
      m.mutAt f k p = (f l.text).mapFst fun t => rewriteFields (only (.field k :: p) t) m
  | .nil, _, _, l, hl, _ => by simp [Fields.leaves] at hl
  | .cons k v rest, sel, h, l, hl, hf => by
    have hv : k ∉ keys rest ∧ WellKeyed v ∧ WellKeyedFields rest := by simpa [WellKeyedFields] using h
    unfold Fields.leaves at hl
    rcases List.mem_append.1 hl with hl | hl
    · split at hl
      · obtain ⟨l', hl', rfl⟩ := List.mem_map.1 hl
        refine ⟨k, l'.path, rfl, ?_⟩
        have he := Ev.edit simple f v hv.2.1 l' hl' hf
        simp only [Fields.mutAt, if_true, he, Res.mapFst_mapFst]
        show (f l'.text).mapFst _ = (f l'.text).mapFst _
        congr 1
        funext t
        have hr : rewriteFields (only (.field k :: l'.path) t) rest = rest :=
          rewriteFields_other _ _ (fun k' hk p c => only_cons_ne (by
            simp only [ne_eq, Seg.field.injEq]; rintro rfl; exact hv.1 hk) _ _ _ _)
        simp [rewriteFields, only_cons, hr]
      · cases hl
    · obtain ⟨k', p, hp, he⟩ := Fields.edit simple f rest sel hv.2.2 l hl hf
      obtain ⟨k'', p'', hp'', hk'', _⟩ := Fields.leaf_key rest sel l hl
      rw [hp] at hp''
      simp only [List.cons.injEq, Seg.field.injEq] at hp''
      rw [← hp''.1] at hk''
      have hne : k ≠ k' := by rintro rfl; exact hv.1 hk''
      refine ⟨k', p, hp, ?_⟩
      simp only [Fields.mutAt, if_neg hne, he, Res.mapFst_mapFst]
      congr 1
      funext t
      have hr : (fun q => only (.field k' :: p) t (.field k :: q)) = fun _ c => c := by
        funext q c; exact only_cons_ne (by simpa using hne) _ _ _ _
      simp only [rewriteFields, hr, Ev.rew_id]
end

mutual
theorem Ev.edit_fixed (simple : Bool) (f : Edit) : ∀ (e : Ev), WellKeyed e → ∀ l ∈ e.leaves simple, l.fixed = true →
    e.mutAt f l.path = Res.panic
  | .null, _, l, hl, _ => by simp [Ev.leaves] at hl
  | .scalar t, _, l, hl, _ => by
    cases simple
    · simp [Ev.leaves] at hl; subst hl; simp [Ev.mutAt]
    · simp [Ev.leaves] at hl
  | .str s, _, l, hl, hf => by
    simp only [Ev.leaves, List.mem_singleton] at hl
    subst hl
    simp at hf
  | .list its, h, l, hl, hf => by
    have hl' : l ∈ its.leaves simple 0 := by simpa [Ev.leaves] using hl
    obtain ⟨j, p, hp, he⟩ := Items.edit_fixed simple f its 0 (by simpa [WellKeyed] using h) l hl' hf
    rw [hp]
    have : Ev.mutAt f (.list its) (.index (0 + j) :: p) = (its.mutAt f j p).mapFst Ev.list := by
      simp [Ev.mutAt]
    rw [this, he]
    rfl
  | .map m, h, l, hl, hf => by
    have hl' := (Ev.mem_map_leaves m l).1 hl
    obtain ⟨k, p, hp, he⟩ := Fields.edit_fixed simple f m _ (by simpa [WellKeyed] using h) l hl' hf
    rw [hp]
    have : Ev.mutAt f (.map m) (.field k :: p) = (m.mutAt f k p).mapFst Ev.map := by
      simp [Ev.mutAt]
    rw [this, he]
    rfl
theorem Items.edit_fixed (simple : Bool) (f : Edit) : ∀ (its : Items) (i : Nat), WellKeyedItems its →
    ∀ l ∈ its.leaves simple i, l.fixed = true → ∃ j p, l.path = .index (i + j) :: p ∧ its.mutAt f j p = Res.panic
  | .nil, i, _, l, hl, _ => by simp [Items.leaves] at hl
  | .cons v rest, i, h, l, hl, hf => by
    have hv : WellKeyed v ∧ WellKeyedItems rest := by simpa [WellKeyedItems] using h
    unfold Items.leaves at hl
    rcases List.mem_append.1 hl with hl | hl
    · obtain ⟨l', hl', rfl⟩ := List.mem_map.1 hl
      refine ⟨0, l'.path, rfl, ?_⟩
      have he := Ev.edit_fixed simple f v hv.1 l' hl' hf
      simp [Items.mutAt, he, Res.mapFst]
    · obtain ⟨j, p, hp, he⟩ := Items.edit_fixed simple f rest (i + 1) hv.2 l hl hf
      refine ⟨j + 1, p, by rw [hp]; congr 2; omega, ?_⟩
      simp [Items.mutAt, he, Res.mapFst]
theorem Fields.edit_fixed (simple : Bool) (f : Edit) : ∀ (m : Fields) (sel : Str → Bool), WellKeyedFields m →
    ∀ l ∈ m.leaves simple sel, l.fixed = true → ∃ k p, l.path = .field k :: p ∧ m.mutAt f k p = Res.panic
  | .nil, _, _, l, hl, _ => by simp [Fields.leaves] at hl
  | .cons k v rest, sel, h, l, hl, hf => by
    have hv : k ∉ keys rest ∧ WellKeyed v ∧ WellKeyedFields rest := by simpa [WellKeyedFields] using h
    unfold Fields.leaves at hl
    rcases List.mem_append.1 hl with hl | hl
    · split at hl
      · obtain ⟨l', hl', rfl⟩ := List.mem_map.1 hl
        refine ⟨k, l'.path, rfl, ?_⟩
        have he := Ev.edit_fixed simple f v hv.2.1 l' hl' hf
        simp [Fields.mutAt, he, Res.mapFst]
      · cases hl
    · obtain ⟨k', p, hp, he⟩ := Fields.edit_fixed simple f rest sel hv.2.2 l hl hf
      obtain ⟨k'', p'', hp'', hk'', _⟩ := Fields.leaf_key rest sel l hl
      rw [hp] at hp''
      simp only [List.cons.injEq, Seg.field.injEq] at hp''
      rw [← hp''.1] at hk''
      have hne : k ≠ k' := by rintro rfl; exact hv.1 hk''
      refine ⟨k', p, hp, ?_⟩
      simp [Fields.mutAt, if_neg hne, he, Res.mapFst]
end

/-! ## The events of the repository -/

theorem simpleEvent_lawful : LawfulEvent simpleEvent WellKeyed (Ev.leaves true) rewrite where
  enc := lawful_utf8
  visits e _ := (Ev.simple_runs e).located
  nodup e h := Ev.leaves_nodup true e h
  edit e h l hl hf f := Ev.edit true f e h l hl hf
  edit_fixed e h l hl hf f := Ev.edit_fixed true f e h l hl hf
  leaves_rew g e := Ev.leaves_rew true e g
  rew_rew g h e := Ev.rew_rew e g h
  rew_congr g h e _ hl := Ev.rew_congr true e g h hl
  rew_id := Ev.rew_id
  wf_rew g e h := Ev.wf_rew e g h

theorem jsonEvent_lawful : LawfulEvent jsonEvent WellKeyed (Ev.leaves false) rewrite where
  enc := lawful_utf8
  visits e _ := (Ev.json_runs e).located
  nodup e h := Ev.leaves_nodup false e h
  edit e h l hl hf f := Ev.edit false f e h l hl hf
  edit_fixed e h l hl hf f := Ev.edit_fixed false f e h l hl hf
  leaves_rew g e := Ev.leaves_rew false e g
  rew_rew g h e := Ev.rew_rew e g h
  rew_congr g h e _ hl := Ev.rew_congr false e g h hl
  rew_id := Ev.rew_id
  wf_rew g e h := Ev.wf_rew e g h

theorem hashMapEvent_lawful :
    LawfulEvent hashMapEvent WellKeyedFields (fun m => m.leaves false (fun _ => true)) rewriteFields where
  enc := lawful_utf8
  visits m _ := (Fields.json_runs m).located
  nodup m h := Fields.leaves_nodup false m _ h
  edit m h l hl hf f := by
    obtain ⟨k, p, hp, he⟩ := Fields.edit false f m _ h l hl hf
    rw [hp]
    exact he
  edit_fixed m h l hl hf f := by
    obtain ⟨k, p, hp, he⟩ := Fields.edit_fixed false f m _ h l hl hf
    rw [hp]
    exact he
  leaves_rew g m := Fields.leaves_rew false m g _
  rew_rew g h m := Fields.rew_rew m g h
  rew_congr g h m _ hl := Fields.rew_congr false m g h hl
  rew_id := Fields.rew_id
  wf_rew g m h := Fields.wf_rew m g h

theorem stringEvent_lawful :
    LawfulEvent stringEvent (fun _ => True) (fun s => [⟨[], s, false⟩]) (fun g s => g [] s) where
  enc := lawful_utf8
  visits s _ := (Runs.single s).located
  nodup s _ := by simp
  edit s _ l hl _ f := by
    simp only [List.mem_singleton] at hl
    subst hl
    simp only [stringEvent, only, if_true]
    cases f s <;> rfl
  edit_fixed s _ l hl hf f := by
    simp only [List.mem_singleton] at hl
    subst hl
    cases hf
  leaves_rew g s := by simp
  rew_rew g h s := rfl
  rew_congr g h s _ hl := hl ⟨[], s, false⟩ (by simp) rfl
  rew_id _ := rfl
  wf_rew _ _ _ := trivial


/-! ## Leaves and paths -/

/-- What a leaf stands for. -/
def Spec.Leaf.value (l : Leaf) : Ev := if l.fixed then .scalar l.text else .str l.text

/-- The visited kinds of values. -/
def Visited (simple : Bool) : Ev → Prop
  | .str _ => True
  | .scalar _ => simple = false
  | _ => False

mutual
theorem Ev.mem_leaves (simple : Bool) : ∀ (e : Ev) (l : Leaf),
    l ∈ e.leaves simple ↔ At e l.path l.value ∧ Visited simple l.value
  | .null, l => by
    simp only [Ev.leaves, List.not_mem_nil, false_iff, not_and]
    intro h
    generalize l.path = p at h
    generalize hv : l.value = v at h
    cases h
    simp [Visited]
  | .scalar t, l => by
    obtain ⟨p, s, b⟩ := l
    constructor
    · intro h
      cases simple
      · simp only [Ev.leaves, Bool.false_eq_true, if_false, List.mem_singleton, Leaf.mk.injEq] at h
        obtain ⟨rfl, rfl, rfl⟩ := h
        exact ⟨At.here _, rfl⟩
      · simp [Ev.leaves] at h
    · rintro ⟨h, hv⟩
      simp only at h
      generalize hw : Leaf.value ⟨p, s, b⟩ = w at h hv
      cases h
      simp only [Visited] at hv
      subst hv
      unfold Leaf.value at hw
      cases b <;> simp at hw
      subst hw
      simp [Ev.leaves]
  | .str t, l => by
    obtain ⟨p, s, b⟩ := l
    constructor
    · intro h
      simp only [Ev.leaves, List.mem_singleton, Leaf.mk.injEq] at h
      obtain ⟨rfl, rfl, rfl⟩ := h
      exact ⟨At.here _, trivial⟩
    · rintro ⟨h, hv⟩
      simp only at h
      generalize hw : Leaf.value ⟨p, s, b⟩ = w at h hv
      cases h
      unfold Leaf.value at hw
      cases b <;> simp at hw
      subst hw
      simp [Ev.leaves]
  | .list its, l => by
    have h := Items.mem_leaves simple its 0 l
    have e0 : (Ev.list its).leaves simple = its.leaves simple 0 := by simp [Ev.leaves]
    rw [e0, h]
    constructor
    · rintro ⟨j, p, v, hp, hi, ha, hv⟩
      rw [hp, Nat.zero_add]
      exact ⟨At.item hi ha, hv⟩
    · rintro ⟨ha, hv⟩
      generalize hp : l.path = p at ha
      generalize hw : l.value = w at ha hv
      cases ha with
      | here => simp [Visited] at hv
      | item hi ha => exact ⟨_, _, _, by simp, hi, ha, hv⟩
  | .map m, l => by
    have h := Fields.mem_leaves simple m (fun _ => true) l
    rw [Ev.mem_map_leaves, h]
    constructor
    · rintro ⟨k, p, v, hp, _, hi, ha, hv⟩
      rw [hp]
      exact ⟨At.field hi ha, hv⟩
    · rintro ⟨ha, hv⟩
      generalize hp : l.path = p at ha
      generalize hw : l.value = w at ha hv
      cases ha with
      | here => simp [Visited] at hv
      | field hi ha => exact ⟨_, _, _, rfl, rfl, hi, ha, hv⟩
theorem Items.mem_leaves (simple : Bool) : ∀ (its : Items) (i : Nat) (l : Leaf),
    l ∈ its.leaves simple i ↔ ∃ j p v, l.path = .index (i + j) :: p ∧ ItemOf its j v ∧ At v p l.value ∧
      Visited simple l.value
  | .nil, i, l => by simp [Items.leaves, ItemOf]
  | .cons v rest, i, l => by
    unfold Items.leaves
    rw [List.mem_append, Items.mem_leaves simple rest (i + 1) l]
    constructor
    · rintro (h | ⟨j, p, w, hp, hi, h⟩)
      · obtain ⟨l', hl', rfl⟩ := List.mem_map.1 h
        exact ⟨0, l'.path, v, rfl, rfl, (Ev.mem_leaves simple v l').1 hl'⟩
      · exact ⟨j + 1, p, w, by rw [hp]; congr 2; omega, hi, h⟩
    · rintro ⟨j, p, w, hp, hi, h⟩
      cases j with
      | zero =>
        left
        have : w = v := hi
        subst this
        refine List.mem_map.2 ⟨⟨p, l.text, l.fixed⟩, (Ev.mem_leaves simple _ _).2 h, ?_⟩
        obtain ⟨q, s, b⟩ := l
        simp only at hp
        simp [Leaf.under, hp]
      | succ j => exact Or.inr ⟨j, p, w, by rw [hp]; congr 2; omega, hi, h⟩
theorem Fields.mem_leaves (simple : Bool) : ∀ (m : Fields) (sel : Str → Bool) (l : Leaf),
    l ∈ m.leaves simple sel ↔ ∃ k p v, l.path = .field k :: p ∧ sel k = true ∧ FieldOf m k v ∧ At v p l.value ∧
      Visited simple l.value
  | .nil, sel, l => by simp [Fields.leaves, FieldOf]
  | .cons k v rest, sel, l => by
    unfold Fields.leaves
    rw [List.mem_append, Fields.mem_leaves simple rest sel l]
    constructor
    · rintro (h | ⟨k', p, w, hp, hs, hi, h⟩)
      · split at h
        · next hs =>
          obtain ⟨l', hl', rfl⟩ := List.mem_map.1 h
          exact ⟨k, l'.path, v, rfl, hs, Or.inl ⟨rfl, rfl⟩, (Ev.mem_leaves simple v l').1 hl'⟩
        · cases h
      · exact ⟨k', p, w, hp, hs, Or.inr hi, h⟩
    · rintro ⟨k', p, w, hp, hs, hi, h⟩
      rcases hi with ⟨rfl, rfl⟩ | hi
      · left
        rw [if_pos hs]
        refine List.mem_map.2 ⟨⟨p, l.text, l.fixed⟩, (Ev.mem_leaves simple _ _).2 h, ?_⟩
        obtain ⟨q, s, b⟩ := l
        simp only at hp
        simp [Leaf.under, hp]
      · exact Or.inr ⟨k', p, w, hp, hs, hi, h⟩
end

theorem Ev.mem_str (simple : Bool) (e : Ev) (p : Path) (s : Str) :
    (⟨p, s, false⟩ : Leaf) ∈ e.leaves simple ↔ At e p (.str s) := by
  rw [Ev.mem_leaves]
  simp [Leaf.value, Visited]

theorem Ev.mem_scalar (e : Ev) (p : Path) (s : Str) :
    (⟨p, s, true⟩ : Leaf) ∈ e.leaves false ↔ At e p (.scalar s) := by
  rw [Ev.mem_leaves]
  simp [Leaf.value, Visited]

theorem Ev.simple_fixed (e : Ev) : ∀ l ∈ e.leaves true, l.fixed = false := by
  intro l hl
  rw [Ev.mem_leaves] at hl
  obtain ⟨p, s, b⟩ := l
  cases b
  · rfl
  · exact absurd hl.2 (by simp [Leaf.value, Visited])

/-! ## The first key -/

theorem not_wrongOrder_cons {s : Seg} {x y : Path} (h : ¬ WrongOrder x y) : ¬ WrongOrder (s :: x) (s :: y) := by
  rintro ⟨pre, k, a, b, hk, hx, hy⟩
  cases pre with
  | nil =>
    simp only [List.nil_append, List.cons.injEq] at hx hy
    rw [hx.1] at hy
    exact hk (Seg.field.inj hy.1)
  | cons t pre =>
    simp only [List.cons_append, List.cons.injEq] at hx hy
    exact h ⟨pre, k, a, b, hk, hx.2, hy.2⟩

theorem not_wrongOrder_ne {s t : Seg} {x y : Path} (h : s ≠ t) (hs : t ≠ .field firstKey) :
    ¬ WrongOrder (s :: x) (t :: y) := by
  rintro ⟨pre, k, a, b, hk, hx, hy⟩
  cases pre with
  | nil =>
    simp only [List.nil_append, List.cons.injEq] at hx hy
    exact hs hy.1
  | cons u pre =>
    simp only [List.cons_append, List.cons.injEq] at hx hy
    exact h (hx.1.trans hy.1.symm)

theorem not_wrongOrder_first {s t : Seg} {x y : Path} (h : s ≠ t) (hs : s = .field firstKey ∨ ∀ k, s ≠ .field k) :
    ¬ WrongOrder (s :: x) (t :: y) := by
  rintro ⟨pre, k, a, b, hk, hx, hy⟩
  cases pre with
  | nil =>
    simp only [List.nil_append, List.cons.injEq] at hx hy
    rcases hs with hs | hs
    · rw [hs] at hx; exact hk (Seg.field.inj hx.1).symm
    · exact hs k hx.1
  | cons u pre =>
    simp only [List.cons_append, List.cons.injEq] at hx hy
    exact h (hx.1.trans hy.1.symm)

theorem pairwise_under {ls : List Leaf} (s : Seg) (h : ls.Pairwise (fun x y => ¬ WrongOrder x.path y.path)) :
    (ls.map (Leaf.under s)).Pairwise (fun x y => ¬ WrongOrder x.path y.path) := by
  rw [List.pairwise_map]
  exact h.imp not_wrongOrder_cons

mutual
theorem Ev.first_first : ∀ e : Ev, WellKeyed e →
    (e.leaves true).Pairwise (fun x y => ¬ WrongOrder x.path y.path)
  | .null, _ => by simp [Ev.leaves]
  | .scalar t, _ => by simp [Ev.leaves]
  | .str s, _ => by simp [Ev.leaves]
  | .list its, h => by
    have := Items.first_first its 0 (by simpa [WellKeyed] using h)
    simpa [Ev.leaves] using this
  | .map m, h => by
    have hm : WellKeyedFields m := by simpa [WellKeyed] using h
    unfold Ev.leaves
    rw [if_pos rfl, List.pairwise_append]
    refine ⟨Fields.first_first m _ (Or.inl fun k hk => by simpa using hk) hm,
      Fields.first_first m _ (Or.inr (by simp)) hm, ?_⟩
    intro x hx y hy
    obtain ⟨k, p, hp, _, hs⟩ := Fields.leaf_key m _ x hx
    obtain ⟨k', p', hp', _, hs'⟩ := Fields.leaf_key m _ y hy
    rw [hp, hp']
    simp only [beq_iff_eq, bne_iff_ne, ne_eq] at hs hs'
    exact not_wrongOrder_first (by rw [hs]; simpa using fun h => hs' h.symm) (Or.inl (by rw [hs]))
theorem Items.first_first : ∀ (its : Items) (i : Nat), WellKeyedItems its →
    (its.leaves true i).Pairwise (fun x y => ¬ WrongOrder x.path y.path)
  | .nil, _, _ => by simp [Items.leaves]
  | .cons v rest, i, h => by
    have hv : WellKeyed v ∧ WellKeyedItems rest := by simpa [WellKeyedItems] using h
    unfold Items.leaves
    rw [List.pairwise_append]
    refine ⟨pairwise_under _ (Ev.first_first v hv.1), Items.first_first rest (i + 1) hv.2, ?_⟩
    intro x hx y hy
    obtain ⟨x', _, rfl⟩ := List.mem_map.1 hx
    obtain ⟨j, p, hp, hj⟩ := Items.leaf_index rest (i + 1) y hy
    rw [hp]
    exact not_wrongOrder_ne (by simp; omega) (by simp)
theorem Fields.first_first : ∀ (m : Fields) (sel : Str → Bool),
    (∀ k, sel k = true → k = firstKey) ∨ sel firstKey = false → WellKeyedFields m →
    (m.leaves true sel).Pairwise (fun x y => ¬ WrongOrder x.path y.path)
  | .nil, _, _, _ => by simp [Fields.leaves]
  | .cons k v rest, sel, hsel, h => by
    have hv : k ∉ keys rest ∧ WellKeyed v ∧ WellKeyedFields rest := by simpa [WellKeyedFields] using h
    unfold Fields.leaves
    rw [List.pairwise_append]
    refine ⟨?_, Fields.first_first rest sel hsel hv.2.2, ?_⟩
    · split
      · exact pairwise_under _ (Ev.first_first v hv.2.1)
      · simp
    · intro x hx y hy
      split at hx
      · next hs =>
        obtain ⟨x', _, rfl⟩ := List.mem_map.1 hx
        obtain ⟨k', p, hp, hk', hs'⟩ := Fields.leaf_key rest sel y hy
        have hne : k ≠ k' := by rintro rfl; exact hv.1 hk'
        rw [hp]
        rcases hsel with hsel | hsel
        · exact absurd ((hsel k hs).trans (hsel k' hs').symm) hne
        · refine not_wrongOrder_ne (by simpa using hne) ?_
          intro hc
          rw [Seg.field.injEq] at hc
          rw [hc, hsel] at hs'
          cases hs'
      · cases hx
end

/-! ## The stack is balanced -/

/-- `ops` returns to where it started. -/
def Returning (ops : List Op) : Prop := ∀ p rest, endsAt p (ops ++ rest) = endsAt p rest

theorem Returning.append {a b : List Op} (ha : Returning a) (hb : Returning b) : Returning (a ++ b) := by
  intro p rest; rw [List.append_assoc, ha, hb]

theorem Returning.under {ops : List Op} (s : Seg) (h : Returning ops) : Returning (.push s :: (ops ++ [.pop])) := by
  intro p rest
  rw [List.cons_append, List.append_assoc, endsAt, h]
  simp [endsAt]

mutual
theorem Ev.json_returning : ∀ e : Ev, Returning e.jsonOps
  | .null => fun _ _ => rfl
  | .scalar _ => fun _ _ => rfl
  | .str _ => fun _ _ => rfl
  | .list l => by rw [Ev.jsonOps]; exact l.json_returning 0
  | .map m => by rw [Ev.jsonOps]; exact m.json_returning
theorem Items.json_returning : ∀ (l : Items) (i : Nat), Returning (l.jsonOps i)
  | .nil, _ => fun _ _ => rfl
  | .cons v rest, i => by
    have := (v.json_returning.under (.index i)).append (rest.json_returning (i + 1))
    simpa [Items.jsonOps] using this
theorem Fields.json_returning : ∀ m : Fields, Returning m.jsonOps
  | .nil => fun _ _ => rfl
  | .cons k v rest => by
    have := (v.json_returning.under (.field k)).append rest.json_returning
    simpa [Fields.jsonOps] using this
end

mutual
theorem Ev.simple_returning : ∀ e : Ev, Returning e.simpleOps
  | .null => fun _ _ => rfl
  | .scalar _ => fun _ _ => rfl
  | .str _ => fun _ _ => rfl
  | .list l => by rw [Ev.simpleOps]; exact l.simple_returning 0
  | .map m => by rw [Ev.simpleOps]; exact (m.simple_returning true).append (m.simple_returning false)
theorem Items.simple_returning : ∀ (l : Items) (i : Nat), Returning (l.simpleOps i)
  | .nil, _ => fun _ _ => rfl
  | .cons v rest, i => by
    have := (v.simple_returning.under (.index i)).append (rest.simple_returning (i + 1))
    simpa [Items.simpleOps] using this
theorem Fields.simple_returning : ∀ (m : Fields) (b : Bool), Returning (m.simpleOps b)
  | .nil, _ => fun _ _ => rfl
  | .cons k v rest, b => by
    unfold Fields.simpleOps
    split
    · have := (v.simple_returning.under (.field k)).append (rest.simple_returning b)
      simpa using this
    · exact rest.simple_returning b
end

end Sds
