import Verif.Spec.Scope

/-! Lemmas for scopes. -/

namespace Sds
open Spec

/-! ## Tree lookups -/

theorem Forest.get_set (f : Forest) (x y : Seg) (v : Tree) :
    (f.set x v).get y = if x = y then some v else f.get y := by
  match f with
  | .nil =>
    simp only [Forest.set, Forest.get]
  | .cons s t rest =>
    have ih := Forest.get_set rest x y v
    simp only [Forest.set]
    by_cases hs : s = x
    · subst hs
      simp only [if_true, Forest.get]
      by_cases hy : s = y <;> simp [hy]
    · simp only [if_neg hs, Forest.get, ih]
      by_cases hy : s = y
      · subst hy
        have : ¬ x = s := fun h => hs h.symm
        simp [this]
      · simp [hy]

theorem Forest.get_recursivelyRemove (c : Change) (f : Forest) (y : Seg) :
    (f.recursivelyRemove c).get y = (f.get y).map (Tree.recursivelyRemove c) := by
  match f with
  | .nil => simp [Forest.recursivelyRemove, Forest.get]
  | .cons s t rest =>
    have ih := Forest.get_recursivelyRemove c rest y
    simp only [Forest.recursivelyRemove, Forest.get]
    split
    · rfl
    · exact ih

@[simp] theorem Tree.changes_recursivelyRemove (c : Change) (t : Tree) :
    (t.recursivelyRemove c).changes = t.changes.filter (fun x => x != c) := by
  cases t; simp [Tree.recursivelyRemove, Tree.changes]

@[simp] theorem Tree.children_recursivelyRemove (c : Change) (t : Tree) :
    (t.recursivelyRemove c).children = t.children.recursivelyRemove c := by
  cases t; simp [Tree.recursivelyRemove, Tree.children]

@[simp] theorem Tree.changes_node (cs : List Change) (f : Forest) : (Tree.node cs f).changes = cs := rfl
@[simp] theorem Tree.children_node (cs : List Change) (f : Forest) : (Tree.node cs f).children = f := rfl
@[simp] theorem Tree.changes_empty : Tree.empty.changes = [] := rfl
@[simp] theorem Tree.get_empty (s : Seg) : Tree.empty.children.get s = none := rfl

/-! ## The change `ch` is active for the path `p` in tree `t` -/

/-- `Hits wc w t p ch`: starting in tree `t` (entered by a wildcard iff `w`), traversing `p` meets the
change `ch`. -/
def Hits (wc : Bool) : Bool → Tree → Path → Change → Prop
  | _, t, [], ch => ch ∈ t.changes
  | w, t, s :: p, ch =>
    ch ∈ t.changes ∨
    ((!w || !s.isIndex) = true ∧ ∃ c, t.children.get s = some c ∧ Hits wc false c p ch) ∨
    (wc = true ∧ s.isIndex = true ∧ Hits wc true t p ch)

/-- Recursive form of `Selects`. -/
def Sel (wc : Bool) : Bool → Path → Path → Prop
  | _, [], _ => True
  | _, _ :: _, [] => False
  | w, x :: q, s :: p =>
    ((!w || !s.isIndex) = true ∧ x = s ∧ Sel wc false q p) ∨
    (wc = true ∧ s.isIndex = true ∧ Sel wc true (x :: q) p)

theorem Hits.here {wc w : Bool} {t : Tree} {p : Path} {ch : Change} (h : ch ∈ t.changes) :
    Hits wc w t p ch := by
  cases p with
  | nil => exact h
  | cons s p => exact Or.inl h

theorem not_hits_empty (wc : Bool) (w : Bool) (p : Path) (ch : Change) : ¬ Hits wc w Tree.empty p ch := by
  induction p generalizing w with
  | nil => simp [Hits]
  | cons s p ih => simp [Hits, ih]

theorem hits_recursivelyRemove (wc : Bool) (c : Change) (p : Path) : ∀ (w : Bool) (t : Tree) (ch : Change),
    Hits wc w (t.recursivelyRemove c) p ch ↔ ch ≠ c ∧ Hits wc w t p ch := by
  induction p with
  | nil => intro w t ch; simp [Hits, and_comm]
  | cons s p ih =>
    intro w t ch
    simp only [Hits, Tree.changes_recursivelyRemove, List.mem_filter, bne_iff_ne, ne_eq,
      Tree.children_recursivelyRemove, Forest.get_recursivelyRemove, Option.map_eq_some_iff, ih]
    constructor
    · rintro (⟨h1, h2⟩ | ⟨h1, c', ⟨d, hd, rfl⟩, h2⟩ | ⟨h1, h2, h3, h4⟩)
      · exact ⟨h2, Or.inl h1⟩
      · rw [ih] at h2
        exact ⟨h2.1, Or.inr (Or.inl ⟨h1, d, hd, h2.2⟩)⟩
      · exact ⟨h3, Or.inr (Or.inr ⟨h1, h2, h4⟩)⟩
    · rintro ⟨h0, h | ⟨h1, c', hc, h2⟩ | ⟨h1, h2, h3⟩⟩
      · exact Or.inl ⟨h, h0⟩
      · exact Or.inr (Or.inl ⟨h1, _, ⟨c', hc, rfl⟩, (ih _ _ _).2 ⟨h0, h2⟩⟩)
      · exact Or.inr (Or.inr ⟨h1, h2, h0, h3⟩)

theorem Tree.insert_contains {t : Tree} {q : Path} {c : Change} (h : c ∈ t.changes) : t.insert q c = t := by
  cases q <;> simp [Tree.insert, h]

theorem Tree.insert_nil {t : Tree} {c : Change} (h : c ∉ t.changes) :
    t.insert [] c = .node ((t.recursivelyRemove c).changes ++ [c]) (t.recursivelyRemove c).children := by
  simp [Tree.insert, h]

theorem Tree.insert_cons {t : Tree} {s : Seg} {q : Path} {c : Change} (h : c ∉ t.changes) :
    t.insert (s :: q) c =
      .node t.changes (t.children.set s (((t.children.get s).getD Tree.empty).insert q c)) := by
  simp [Tree.insert, h]

theorem hits_insert (wc : Bool) (c : Change) (p : Path) : ∀ (q : Path) (w : Bool) (t : Tree) (ch : Change),
    Hits wc w (t.insert q c) p ch ↔ Hits wc w t p ch ∨ (ch = c ∧ Sel wc w q p) := by
  induction p with
  | nil =>
    intro q w t ch
    by_cases hc : c ∈ t.changes
    · rw [Tree.insert_contains hc]
      constructor
      · exact Or.inl
      · rintro (h | ⟨rfl, _⟩)
        · exact h
        · exact Hits.here hc
    · cases q with
      | nil =>
        rw [Tree.insert_nil hc]
        simp only [Hits, Tree.changes_node, Tree.changes_recursivelyRemove, List.mem_append,
          List.mem_filter, List.mem_singleton, Sel, and_true, bne_iff_ne, ne_eq]
        constructor
        · rintro (h | h)
          · exact Or.inl h.1
          · exact Or.inr h
        · rintro (h | h)
          · by_cases h' : ch = c
            · exact Or.inr h'
            · exact Or.inl ⟨h, h'⟩
          · exact Or.inr h
      | cons x q =>
        rw [Tree.insert_cons hc]
        simp [Hits, Sel]
  | cons s p ih =>
    intro q w t ch
    by_cases hc : c ∈ t.changes
    · rw [Tree.insert_contains hc]
      constructor
      · exact Or.inl
      · rintro (h | ⟨rfl, _⟩)
        · exact h
        · exact Hits.here hc
    · cases q with
      | nil =>
        have hr := hits_recursivelyRemove wc c (s :: p) w t ch
        by_cases hch : ch = c
        · subst hch
          constructor
          · intro _; exact Or.inr ⟨rfl, trivial⟩
          · intro _
            rw [Tree.insert_nil hc]
            exact Hits.here (by simp)
        · have h1 : Hits wc w (t.insert [] c) (s :: p) ch ↔ Hits wc w (t.recursivelyRemove c) (s :: p) ch := by
            have key := ih [] true t ch
            have key2 := hits_recursivelyRemove wc c p true t ch
            rw [Tree.insert_nil hc] at key ⊢
            simp only [Hits, Tree.changes_node, List.mem_append, List.mem_singleton, Tree.children_node]
            rw [key, key2]
            simp [hch]
          rw [h1, hr]
          simp [hch]
      | cons x q =>
        have key := ih (x :: q) true t ch
        rw [Tree.insert_cons hc] at key ⊢
        simp only [Hits, Sel, Tree.changes_node, Tree.children_node, Forest.get_set]
        rw [key]
        have hchild : (∃ c', (if x = s then
              some (((t.children.get x).getD Tree.empty).insert q c) else t.children.get s) = some c' ∧
              Hits wc false c' p ch) ↔
            (∃ c', t.children.get s = some c' ∧ Hits wc false c' p ch) ∨
              (ch = c ∧ x = s ∧ Sel wc false q p) := by
          by_cases hxs : x = s
          · subst hxs
            simp only [if_true, Option.some.injEq, exists_eq_left', true_and]
            rw [ih q false _ ch]
            cases hg : t.children.get x with
            | none => simp [not_hits_empty]
            | some d => simp
          · simp [hxs]
        rw [hchild]
        constructor
        · rintro (h | ⟨h1, h2 | ⟨h2, h3, h4⟩⟩ | ⟨h1, h2, h3 | ⟨h3, h4⟩⟩)
          · exact Or.inl (Or.inl h)
          · exact Or.inl (Or.inr (Or.inl ⟨h1, h2⟩))
          · exact Or.inr ⟨h2, Or.inl ⟨h1, h3, h4⟩⟩
          · exact Or.inl (Or.inr (Or.inr ⟨h1, h2, h3⟩))
          · exact Or.inr ⟨h3, Or.inr ⟨h1, h2, h4⟩⟩
        · rintro ((h | ⟨h1, h2⟩ | ⟨h1, h2, h3⟩) | ⟨h0, ⟨h1, h2, h3⟩ | ⟨h1, h2, h3⟩⟩)
          · exact Or.inl h
          · exact Or.inr (Or.inl ⟨h1, Or.inl h2⟩)
          · exact Or.inr (Or.inr ⟨h1, h2, Or.inl h3⟩)
          · exact Or.inr (Or.inl ⟨h1, Or.inr ⟨h0, h2, h3⟩⟩)
          · exact Or.inr (Or.inr ⟨h1, h2, Or.inr ⟨h0, h3⟩⟩)

theorem hits_foldl_insert (wc w : Bool) (c : Change) (qs : List Path) (p : Path) (ch : Change) :
    ∀ t : Tree, Hits wc w (qs.foldl (fun t q => t.insert q c) t) p ch ↔
      Hits wc w t p ch ∨ (ch = c ∧ ∃ q ∈ qs, Sel wc w q p) := by
  induction qs with
  | nil => intro t; simp
  | cons q qs ih =>
    intro t
    rw [List.foldl_cons, ih, hits_insert]
    simp only [List.mem_cons, exists_eq_or_imp]
    constructor
    · rintro ((h | ⟨h1, h2⟩) | ⟨h1, h2⟩)
      · exact Or.inl h
      · exact Or.inr ⟨h1, Or.inl h2⟩
      · exact Or.inr ⟨h1, Or.inr h2⟩
    · rintro (h | ⟨h1, h2 | h2⟩)
      · exact Or.inl (Or.inl h)
      · exact Or.inl (Or.inr ⟨h1, h2⟩)
      · exact Or.inr ⟨h1, h2⟩

/-- The changes a scope contributes for a path. -/
def ScopeHits (wc : Bool) (p : Path) (rule : Nat) (ch : Change) : Scope → Prop
  | .incl inc exc => (ch = .remove rule ∧ ∃ q ∈ exc, Sel wc false q p) ∨
      (ch = .add rule ∧ ∃ q ∈ inc, Sel wc false q p)
  | .excl ps => ch = .add rule ∨ (ch = .remove rule ∧ ∃ q ∈ ps, Sel wc false q p)

theorem hits_insertScope (wc : Bool) (t : Tree) (rule : Nat) (sc : Scope) (p : Path) (ch : Change) :
    Hits wc false (insertScope t rule sc) p ch ↔ Hits wc false t p ch ∨ ScopeHits wc p rule ch sc := by
  cases sc with
  | incl inc exc =>
    simp only [insertScope, hits_foldl_insert, ScopeHits, or_assoc]
  | excl ps =>
    simp only [insertScope, hits_foldl_insert, ScopeHits, hits_insert, Sel, and_true, or_assoc]

theorem hits_insertScopes (wc : Bool) (p : Path) (ch : Change) (ss : List Scope) : ∀ (t : Tree) (i : Nat),
    Hits wc false (insertScopes t i ss) p ch ↔
      Hits wc false t p ch ∨ ∃ k sc, ss[k]? = some sc ∧ ScopeHits wc p (i + k) ch sc := by
  induction ss with
  | nil => intro t i; simp [insertScopes]
  | cons s ss ih =>
    intro t i
    simp only [insertScopes, ih, hits_insertScope]
    constructor
    · rintro ((h | h) | ⟨k, sc, h1, h2⟩)
      · exact Or.inl h
      · exact Or.inr ⟨0, s, by simp, by simpa using h⟩
      · exact Or.inr ⟨k + 1, sc, by simpa using h1, by
          have : i + (k + 1) = i + 1 + k := by omega
          rw [this]; exact h2⟩
    · rintro (h | ⟨k, sc, h1, h2⟩)
      · exact Or.inl (Or.inl h)
      · cases k with
        | zero =>
          simp only [List.getElem?_cons_zero, Option.some.injEq] at h1
          subst h1
          exact Or.inl (Or.inr (by simpa using h2))
        | succ k =>
          simp only [List.getElem?_cons_succ] at h1
          exact Or.inr ⟨k, sc, h1, by
            have : i + 1 + k = i + (k + 1) := by omega
            rw [this]; exact h2⟩

/-! ## `Sel` is `Selects` -/

theorem sel_false_iff (w : Bool) (hw : w = false) (q p : Path) : Sel false w q p ↔ ∃ rest, p = q ++ rest := by
  induction q generalizing p w with
  | nil => simp [Sel]
  | cons x q ih =>
    cases p with
    | nil => simp [Sel]
    | cons s p =>
      simp only [Sel, hw, Bool.not_false, Bool.true_or, true_and, Bool.false_eq_true, false_and, or_false,
        ih false rfl, List.cons_append, List.cons.injEq]
      constructor
      · rintro ⟨rfl, r, rfl⟩; exact ⟨r, rfl, rfl⟩
      · rintro ⟨r, rfl, rfl⟩; exact ⟨rfl, r, rfl⟩

theorem sel_true_iff (w : Bool) (q p : Path) :
    Sel true w q p ↔ ∃ pre rest, p = pre ++ rest ∧ Deletes w pre q := by
  induction p generalizing q w with
  | nil =>
    cases q with
    | nil => simp only [Sel, true_iff]; exact ⟨[], [], rfl, .nil w⟩
    | cons x q =>
      simp only [Sel, false_iff, not_exists, not_and]
      intro pre rest h hd
      have : pre = [] := (List.append_eq_nil_iff.1 h.symm).1
      subst this
      cases hd
  | cons s p ih =>
    cases q with
    | nil => simp only [Sel, true_iff]; exact ⟨[], s :: p, rfl, .nil w⟩
    | cons x q =>
      simp only [Sel, ih]
      constructor
      · rintro (⟨h1, rfl, pre, rest, rfl, hd⟩ | ⟨_, h2, pre, rest, rfl, hd⟩)
        · refine ⟨x :: pre, rest, rfl, .keep ?_ hd⟩
          rintro rfl i rfl
          simp [Seg.isIndex] at h1
        · cases s with
          | field n => simp [Seg.isIndex] at h2
          | index i => exact ⟨.index i :: pre, rest, rfl, .delete hd⟩
      · rintro ⟨pre, rest, h, hd⟩
        cases hd with
        | keep hk hd =>
          simp only [List.cons_append, List.cons.injEq] at h
          obtain ⟨rfl, rfl⟩ := h
          refine Or.inl ⟨?_, rfl, _, rest, rfl, hd⟩
          cases w with
          | false => rfl
          | true =>
            cases s with
            | field n => rfl
            | index i => exact absurd rfl (hk rfl i)
        | delete hd =>
          simp only [List.cons_append, List.cons.injEq] at h
          obtain ⟨rfl, rfl⟩ := h
          exact Or.inr ⟨trivial, rfl, _, rest, rfl, hd⟩

theorem sel_iff_selects (wc : Bool) (q p : Path) : Sel wc false q p ↔ Selects wc q p := by
  unfold Selects
  cases wc with
  | false =>
    rw [sel_false_iff false rfl]
    constructor
    · rintro ⟨r, rfl⟩; exact ⟨q, r, rfl, by simp⟩
    · rintro ⟨pre, r, rfl, h⟩; simp at h; exact ⟨r, by rw [h]⟩
  | true => rw [sel_true_iff]; simp

/-! ## The walk -/

/-- The trees active after traversing `p` from the active trees `A`. -/
def level (wc : Bool) (A : List Active) : Path → List Active
  | [] => A
  | s :: p => level wc (A.flatMap (pushFor wc s)) p

/-- All trees on the stack after traversing `p`. -/
def reach (wc : Bool) (A : List Active) : Path → List Active
  | [] => A
  | s :: p => A ++ reach wc (A.flatMap (pushFor wc s)) p

/-- The counters on the stack, last one first. -/
def cnts (wc : Bool) (A : List Active) : Path → List Nat → List Nat
  | [], acc => A.length :: acc
  | s :: p, acc => cnts wc (A.flatMap (pushFor wc s)) p (A.length :: acc)

theorem level_snoc (wc : Bool) (A : List Active) (p : Path) (s : Seg) :
    level wc A (p ++ [s]) = (level wc A p).flatMap (pushFor wc s) := by
  induction p generalizing A with
  | nil => rfl
  | cons x p ih => exact ih _

theorem reach_snoc (wc : Bool) (A : List Active) (p : Path) (s : Seg) :
    reach wc A (p ++ [s]) = reach wc A p ++ (level wc A p).flatMap (pushFor wc s) := by
  induction p generalizing A with
  | nil => rfl
  | cons x p ih => simp only [List.cons_append, reach, level, ih, List.append_assoc]

theorem cnts_snoc (wc : Bool) (A : List Active) (p : Path) (s : Seg) (acc : List Nat) :
    cnts wc A (p ++ [s]) acc = ((level wc A p).flatMap (pushFor wc s)).length :: cnts wc A p acc := by
  induction p generalizing A acc with
  | nil => rfl
  | cons x p ih => exact ih _ _

theorem reach_suffix (wc : Bool) (A : List Active) (p : Path) :
    ∃ pre, reach wc A p = pre ++ level wc A p := by
  induction p generalizing A with
  | nil => exact ⟨[], rfl⟩
  | cons s p ih =>
    obtain ⟨pre, h⟩ := ih (A.flatMap (pushFor wc s))
    exact ⟨A ++ pre, by simp [reach, level, h]⟩

theorem cnts_head (wc : Bool) (A : List Active) (p : Path) (acc : List Nat) :
    ∃ rest, cnts wc A p acc = (level wc A p).length :: rest := by
  induction p generalizing A acc with
  | nil => exact ⟨acc, rfl⟩
  | cons s p ih => exact ih _ _

/-- The visitor state for a path, whatever was visited before. -/
def walkAt (rs : RuleSet) (p : Path) : Walk :=
  { nodes := reach rs.wildcards [⟨rs.tree, false⟩] p
    counts := cnts rs.wildcards [⟨rs.tree, false⟩] p []
    path := p
    boolSet := if rs.wildcards then some (List.replicate rs.numRules false) else none }

theorem walkAt_nil (rs : RuleSet) : walkAt rs [] = Walk.init rs := rfl

theorem push_walkAt (rs : RuleSet) (p : Path) (s : Seg) :
    (walkAt rs p).push rs s = Res.ok (walkAt rs (p ++ [s])) := by
  obtain ⟨rest, hr⟩ := cnts_head rs.wildcards [⟨rs.tree, false⟩] p []
  obtain ⟨pre, hp⟩ := reach_suffix rs.wildcards [⟨rs.tree, false⟩] p
  unfold Walk.push
  simp only [walkAt, hr, reach_snoc, cnts_snoc]
  have hlen : (level rs.wildcards [⟨rs.tree, false⟩] p).length ≤
      (reach rs.wildcards [⟨rs.tree, false⟩] p).length := by rw [hp]; simp
  rw [if_pos hlen]
  have hd : (reach rs.wildcards [⟨rs.tree, false⟩] p).drop
      ((reach rs.wildcards [⟨rs.tree, false⟩] p).length -
        (level rs.wildcards [⟨rs.tree, false⟩] p).length) = level rs.wildcards [⟨rs.tree, false⟩] p := by
    rw [hp]; simp
  rw [hd]

theorem pop_walkAt (rs : RuleSet) (p : Path) (s : Seg) :
    (walkAt rs (p ++ [s])).pop = Res.ok (walkAt rs p) := by
  unfold Walk.pop
  simp only [walkAt, cnts_snoc, reach_snoc]
  simp

/-! ## Visiting -/

theorem dedupe_spec (rs : List Nat) : ∀ (set : List Bool), (∀ r ∈ rs, r < set.length) →
    ∃ l set', dedupe set rs = Res.ok (l, set') ∧ set'.length = set.length ∧ l.Nodup ∧
      ∀ r, r ∈ l ↔ r ∈ rs ∧ set[r]? = some false := by
  induction rs with
  | nil => intro set _; exact ⟨[], set, rfl, rfl, List.nodup_nil, by simp⟩
  | cons r rs ih =>
    intro set h
    have hr : r < set.length := h r List.mem_cons_self
    obtain ⟨l, set', h1, h2, h3, h4⟩ := ih (set.set r true)
      (fun x hx => by simpa using h x (List.mem_cons_of_mem _ hx))
    simp only [dedupe, getAndSet, List.getElem?_eq_getElem hr, h1]
    refine ⟨_, set', rfl, by simpa using h2, ?_, ?_⟩
    · cases hb : set[r] with
      | true => exact h3
      | false =>
        simp only [Bool.false_eq_true, if_false, List.nodup_cons]
        refine ⟨?_, h3⟩
        rw [h4]
        rintro ⟨_, hx⟩
        simp [hr] at hx
    · intro x
      by_cases hx : x = r
      · subst hx
        cases hb : set[x] with
        | true =>
          simp only [if_true, h4]
          constructor
          · rintro ⟨_, hx⟩; simp [hr] at hx
          · rintro ⟨_, hx⟩; rw [List.getElem?_eq_getElem hr, hb] at hx; simp at hx
        | false => simp [List.getElem?_eq_getElem hr, hb]
      · have hs : (set.set r true)[x]? = set[x]? := by
          rw [List.getElem?_set_ne (Ne.symm hx)]
        cases hb : set[r] with
        | true => simp [h4, hs, hx]
        | false => simp [h4, hs, hx]

theorem mem_addsOf {nodes : List Active} {r : Nat} :
    r ∈ addsOf nodes ↔ ∃ a ∈ nodes, a.wild = false ∧ Change.add r ∈ a.tree.changes := by
  simp only [addsOf, List.mem_flatMap]
  constructor
  · rintro ⟨a, ha, h⟩
    cases hw : a.wild with
    | true => simp [hw] at h
    | false =>
      simp only [hw, Bool.false_eq_true, if_false, List.mem_filterMap] at h
      obtain ⟨c, hc, he⟩ := h
      cases c with
      | add k => simp at he; subst he; exact ⟨a, ha, hw, hc⟩
      | remove k => simp at he
  · rintro ⟨a, ha, hw, hc⟩
    refine ⟨a, ha, ?_⟩
    simp only [hw, Bool.false_eq_true, if_false, List.mem_filterMap]
    exact ⟨_, hc, rfl⟩

theorem mem_removedOf {nodes : List Active} {r : Nat} :
    r ∈ removedOf nodes ↔ ∃ a ∈ nodes, Change.remove r ∈ a.tree.changes := by
  simp only [removedOf, List.mem_flatMap, List.mem_filterMap]
  constructor
  · rintro ⟨a, ha, c, hc, he⟩
    cases c with
    | add k => simp at he
    | remove k => simp at he; subst he; exact ⟨a, ha, hc⟩
  · rintro ⟨a, ha, hc⟩; exact ⟨a, ha, _, hc, rfl⟩

theorem mem_reach_changes (wc : Bool) (p : Path) (ch : Change) : ∀ A : List Active,
    (∃ a ∈ reach wc A p, ch ∈ a.tree.changes) ↔ ∃ a ∈ A, Hits wc a.wild a.tree p ch := by
  induction p with
  | nil => intro A; simp [reach, Hits]
  | cons s p ih =>
    intro A
    have hstep : (∃ a ∈ A.flatMap (pushFor wc s), Hits wc a.wild a.tree p ch) ↔
        ∃ a ∈ A, ((!a.wild || !s.isIndex) = true ∧
            ∃ c, a.tree.children.get s = some c ∧ Hits wc false c p ch) ∨
          (wc = true ∧ s.isIndex = true ∧ Hits wc true a.tree p ch) := by
      simp only [List.mem_flatMap, pushFor, List.mem_append]
      constructor
      · rintro ⟨b, ⟨a, ha, hb | hb⟩, hh⟩
        · refine ⟨a, ha, Or.inl ?_⟩
          split at hb
          · next hw =>
            refine ⟨hw, ?_⟩
            split at hb
            · next c hc => simp only [List.mem_singleton] at hb; subst hb; exact ⟨c, hc, hh⟩
            · cases hb
          · cases hb
        · refine ⟨a, ha, Or.inr ?_⟩
          split at hb
          · next hw =>
            simp only [Bool.and_eq_true] at hw
            simp only [List.mem_singleton] at hb; subst hb; exact ⟨hw.1, hw.2, hh⟩
          · cases hb
      · rintro ⟨a, ha, ⟨hw, c, hc, hh⟩ | ⟨h1, h2, hh⟩⟩
        · exact ⟨⟨c, false⟩, ⟨a, ha, Or.inl (by simp [hw, hc])⟩, hh⟩
        · exact ⟨⟨a.tree, true⟩, ⟨a, ha, Or.inr (by simp [h1, h2])⟩, hh⟩
    simp only [reach, List.mem_append]
    have ih' := ih (A.flatMap (pushFor wc s))
    constructor
    · rintro ⟨a, ha | ha, hc⟩
      · exact ⟨a, ha, Hits.here hc⟩
      · obtain ⟨a, ha, h⟩ := hstep.1 (ih'.1 ⟨a, ha, hc⟩)
        exact ⟨a, ha, Or.inr h⟩
    · rintro ⟨a, ha, h | h⟩
      · exact ⟨a, Or.inl ha, h⟩
      · obtain ⟨b, hb, hc⟩ := ih'.2 (hstep.2 ⟨a, ha, h⟩)
        exact ⟨b, Or.inr hb, hc⟩

/-- Wildcard copies only duplicate trees that are on the stack anyway. -/
theorem reach_wild_dup (wc : Bool) (p : Path) : ∀ (B A : List Active),
    (∀ a ∈ A, ∃ b ∈ B ++ A, b.wild = false ∧ b.tree = a.tree) →
    ∀ a ∈ reach wc A p, ∃ b ∈ B ++ reach wc A p, b.wild = false ∧ b.tree = a.tree := by
  induction p with
  | nil => intro B A h a ha; exact h a ha
  | cons s p ih =>
    intro B A h a ha
    simp only [reach, List.mem_append] at ha
    rcases ha with ha | ha
    · obtain ⟨b, hb, h1⟩ := h a ha
      refine ⟨b, ?_, h1⟩
      simp only [reach, List.mem_append] at hb ⊢
      rcases hb with hb | hb
      · exact Or.inl hb
      · exact Or.inr (Or.inl hb)
    · obtain ⟨b, hb, h1⟩ := ih (B ++ A) (A.flatMap (pushFor wc s)) (by
        intro x hx
        simp only [List.mem_flatMap, pushFor, List.mem_append] at hx
        obtain ⟨y, hy, hx | hx⟩ := hx
        · split at hx
          · split at hx
            · next c hc =>
              simp only [List.mem_singleton] at hx; subst hx
              refine ⟨⟨c, false⟩, ?_, rfl, rfl⟩
              simp only [List.mem_append, List.mem_flatMap]
              right
              refine ⟨y, hy, ?_⟩
              simp only [pushFor, List.mem_append]
              left
              simp_all
            · cases hx
          · cases hx
        · split at hx
          · simp only [List.mem_singleton] at hx; subst hx
            obtain ⟨b, hb, h1⟩ := h y hy
            exact ⟨b, List.mem_append_left _ hb, h1⟩
          · cases hx) a ha
      refine ⟨b, ?_, h1⟩
      simp only [reach, List.mem_append] at hb ⊢
      rcases hb with (hb | hb) | hb
      · exact Or.inl hb
      · exact Or.inr (Or.inl hb)
      · exact Or.inr (Or.inr hb)

theorem mem_addsOf_reach (wc : Bool) (t : Tree) (p : Path) (r : Nat) :
    r ∈ addsOf (reach wc [⟨t, false⟩] p) ↔ Hits wc false t p (.add r) := by
  have h := mem_reach_changes wc p (.add r) [⟨t, false⟩]
  simp only [List.mem_singleton, exists_eq_left] at h
  rw [mem_addsOf, ← h]
  constructor
  · rintro ⟨a, ha, _, hc⟩; exact ⟨a, ha, hc⟩
  · rintro ⟨a, ha, hc⟩
    obtain ⟨b, hb, h1, h2⟩ := reach_wild_dup wc p [] [⟨t, false⟩] (by simp) a ha
    exact ⟨b, by simpa using hb, h1, by rw [h2]; exact hc⟩

theorem mem_removedOf_reach (wc : Bool) (t : Tree) (p : Path) (r : Nat) :
    r ∈ removedOf (reach wc [⟨t, false⟩] p) ↔ Hits wc false t p (.remove r) := by
  have h := mem_reach_changes wc p (.remove r) [⟨t, false⟩]
  simp only [List.mem_singleton, exists_eq_left] at h
  rw [mem_removedOf, ← h]

/-! ## No duplicates in the tree -/

/-- The changes met along a path, without wildcards. -/
def along (t : Tree) : Path → List Change
  | [] => t.changes
  | s :: p => t.changes ++
    match t.children.get s with
    | some c => along c p
    | none => []

theorem mem_along (p : Path) : ∀ (t : Tree) (ch : Change), ch ∈ along t p ↔ Hits false false t p ch := by
  induction p with
  | nil => intro t ch; rfl
  | cons s p ih =>
    intro t ch
    simp only [along, Hits, List.mem_append, Bool.not_false, Bool.true_or, true_and, Bool.false_eq_true,
      false_and, or_false]
    cases t.children.get s with
    | none => simp
    | some c => simp [ih]

theorem along_recursivelyRemove (c : Change) (p : Path) : ∀ t : Tree,
    along (t.recursivelyRemove c) p = (along t p).filter (fun x => x != c) := by
  induction p with
  | nil => intro t; simp [along]
  | cons s p ih =>
    intro t
    simp only [along, Tree.changes_recursivelyRemove, Tree.children_recursivelyRemove,
      Forest.get_recursivelyRemove, List.filter_append]
    cases t.children.get s with
    | none => rfl
    | some d => simp [ih]

theorem along_insert_nodup (c : Change) (p : Path) : ∀ (q : Path) (t : Tree),
    (∀ p, (along t p).Nodup) → (along (t.insert q c) p).Nodup := by
  induction p with
  | nil =>
    intro q t h
    by_cases hc : c ∈ t.changes
    · rw [Tree.insert_contains hc]; exact h []
    · cases q with
      | nil =>
        rw [Tree.insert_nil hc]
        have := h []
        simp only [along, Tree.changes_node, Tree.changes_recursivelyRemove] at this ⊢
        rw [List.nodup_append]
        refine ⟨this.filter _, by simp, ?_⟩
        intro a ha b hb
        simp only [List.mem_filter, bne_iff_ne, ne_eq, List.mem_singleton] at ha hb
        subst hb; exact ha.2
      | cons x q =>
        rw [Tree.insert_cons hc]; exact h []
  | cons s p ih =>
    intro q t h
    by_cases hc : c ∈ t.changes
    · rw [Tree.insert_contains hc]; exact h _
    · cases q with
      | nil =>
        rw [Tree.insert_nil hc]
        have h1 : (along (t.recursivelyRemove c) (s :: p)).Nodup := by
          rw [along_recursivelyRemove]; exact (h _).filter _
        have h2 : c ∉ along (t.recursivelyRemove c) (s :: p) := by
          rw [along_recursivelyRemove]; simp
        simp only [along, Tree.changes_node, Tree.children_node] at h1 h2 ⊢
        rw [List.append_assoc, List.singleton_append]
        exact List.perm_middle.nodup_iff.2 (List.nodup_cons.2 ⟨h2, h1⟩)
      | cons x q =>
        have hd : ∀ d, t.children.get s = some d → ∀ p, (along d p).Nodup := by
          intro d hd p
          have := h (s :: p)
          simp only [along, hd] at this
          exact (List.nodup_append.1 this).2.1
        rw [Tree.insert_cons hc]
        simp only [along, Tree.changes_node, Tree.children_node, Forest.get_set]
        by_cases hxs : x = s
        · subst hxs
          simp only [if_true]
          rw [List.nodup_append]
          refine ⟨h [], ih q _ ?_, ?_⟩
          · intro p'
            cases hg : t.children.get x with
            | none => cases p' <;> simp [along]
            | some d => exact hd d hg p'
          · intro a ha b hb heq
            subst heq
            rw [mem_along, hits_insert, ← mem_along] at hb
            rcases hb with hb | ⟨rfl, _⟩
            · have := h (x :: p)
              simp only [along] at this
              cases hg : t.children.get x with
              | none => rw [hg] at hb; cases p <;> simp [along] at hb
              | some d =>
                rw [hg] at hb this
                exact (List.nodup_append.1 this).2.2 a ha a hb rfl
            · exact hc ha
        · simp only [if_neg hxs]
          exact h (s :: p)

theorem along_insertScopes_nodup (ss : List Scope) : ∀ (i : Nat) (t : Tree),
    (∀ p, (along t p).Nodup) → ∀ p, (along (insertScopes t i ss) p).Nodup := by
  have fold : ∀ (c : Change) (qs : List Path) (t : Tree), (∀ p, (along t p).Nodup) →
      ∀ p, (along (qs.foldl (fun t q => t.insert q c) t) p).Nodup := by
    intro c qs
    induction qs with
    | nil => intro t h; exact h
    | cons q qs ih => intro t h; exact ih _ (fun p => along_insert_nodup c p q t h)
  induction ss with
  | nil => intro i t h; exact h
  | cons s ss ih =>
    intro i t h
    refine ih (i + 1) _ ?_
    cases s with
    | incl inc exc => exact fold _ _ _ (fold _ _ _ h)
    | excl ps => exact fold _ _ _ (fun p => along_insert_nodup _ p _ t h)

theorem reach_false_nil (p : Path) : reach false [] p = [] := by
  induction p with
  | nil => rfl
  | cons s p ih => simp [reach, ih]

theorem addsOf_reach_false (p : Path) : ∀ t : Tree,
    addsOf (reach false [⟨t, false⟩] p) = (along t p).filterMap (fun
        | .add r => some r
        | .remove _ => none) := by
  induction p with
  | nil => intro t; simp [reach, addsOf, along]; rfl
  | cons s p ih =>
    intro t
    have hsplit : ∀ a b, addsOf (a ++ b) = addsOf a ++ addsOf b := by
      intro a b; simp [addsOf]
    simp only [reach, along, hsplit, List.filterMap_append]
    congr 1
    · simp [addsOf]; rfl
    · simp only [List.flatMap_cons, List.flatMap_nil, List.append_nil, pushFor, Bool.not_false,
        Bool.true_or, if_true, Bool.false_and, Bool.false_eq_true, if_false]
      cases t.children.get s with
      | none => simp [reach_false_nil, addsOf]
      | some c => exact ih c

theorem addsOf_false_nodup {t : Tree} (h : ∀ p, (along t p).Nodup) (p : Path) :
    (addsOf (reach false [⟨t, false⟩] p)).Nodup := by
  rw [addsOf_reach_false]
  refine List.Pairwise.filterMap _ (fun a a' hne b hb b' hb' heq => ?_) (h p)
  subst heq
  cases a <;> cases a' <;> simp at hb hb' hne
  subst hb
  exact hne hb'.symm

/-! ## Rule sets built from scopes -/

theorem hits_new_add (scopes : List Scope) (wc : Bool) (p : Path) (r : Nat) :
    Hits wc false (insertScopes Tree.empty 0 scopes) p (.add r) ↔
      ∃ sc, scopes[r]? = some sc ∧ Scans wc p sc := by
  rw [hits_insertScopes]
  simp only [not_hits_empty, false_or, Nat.zero_add]
  constructor
  · rintro ⟨k, sc, h1, h2⟩
    cases sc with
    | incl inc exc =>
      simp only [ScopeHits, reduceCtorEq, false_and, false_or, Change.add.injEq] at h2
      obtain ⟨rfl, q, hq, hs⟩ := h2
      exact ⟨_, h1, q, hq, (sel_iff_selects _ _ _).1 hs⟩
    | excl ps =>
      simp only [ScopeHits, reduceCtorEq, false_and, or_false, Change.add.injEq] at h2
      subst h2
      exact ⟨_, h1, trivial⟩
  · rintro ⟨sc, h1, h2⟩
    refine ⟨r, sc, h1, ?_⟩
    cases sc with
    | incl inc exc =>
      obtain ⟨q, hq, hs⟩ := h2
      exact Or.inr ⟨rfl, q, hq, (sel_iff_selects _ _ _).2 hs⟩
    | excl ps => exact Or.inl rfl

theorem hits_new_remove (scopes : List Scope) (wc : Bool) (p : Path) (r : Nat) :
    Hits wc false (insertScopes Tree.empty 0 scopes) p (.remove r) ↔
      ∃ sc, scopes[r]? = some sc ∧ Excludes wc p sc := by
  rw [hits_insertScopes]
  simp only [not_hits_empty, false_or, Nat.zero_add]
  constructor
  · rintro ⟨k, sc, h1, h2⟩
    cases sc with
    | incl inc exc =>
      simp only [ScopeHits, reduceCtorEq, false_and, or_false, Change.remove.injEq] at h2
      obtain ⟨rfl, q, hq, hs⟩ := h2
      exact ⟨_, h1, q, hq, (sel_iff_selects _ _ _).1 hs⟩
    | excl ps =>
      simp only [ScopeHits, reduceCtorEq, false_or, Change.remove.injEq] at h2
      obtain ⟨rfl, q, hq, hs⟩ := h2
      exact ⟨_, h1, q, hq, (sel_iff_selects _ _ _).1 hs⟩
  · rintro ⟨sc, h1, h2⟩
    refine ⟨r, sc, h1, ?_⟩
    cases sc with
    | incl inc exc =>
      obtain ⟨q, hq, hs⟩ := h2
      exact Or.inl ⟨rfl, q, hq, (sel_iff_selects _ _ _).2 hs⟩
    | excl ps =>
      obtain ⟨q, hq, hs⟩ := h2
      exact Or.inr ⟨rfl, q, hq, (sel_iff_selects _ _ _).2 hs⟩

theorem visit_walkAt (scopes : List Scope) (wc : Bool) (p : Path) :
    ∃ rules excluded : List Nat, rules.Nodup ∧
      (∀ r, r ∈ rules ↔ ∃ sc, scopes[r]? = some sc ∧ Scans wc p sc) ∧
      (∀ r, r ∈ excluded ↔ ∃ sc, scopes[r]? = some sc ∧ Excludes wc p sc) ∧
      ∀ c, (walkAt (RuleSet.new scopes wc) p).visit c =
        Res.ok (⟨p, c, rules, excluded⟩, walkAt (RuleSet.new scopes wc) p) := by
  have hadd := fun r => (mem_addsOf_reach wc (insertScopes Tree.empty 0 scopes) p r).trans
    (hits_new_add scopes wc p r)
  have hrem := fun r => (mem_removedOf_reach wc (insertScopes Tree.empty 0 scopes) p r).trans
    (hits_new_remove scopes wc p r)
  cases wc with
  | false =>
    refine ⟨_, _, ?_, hadd, hrem, fun c => ?_⟩
    · exact addsOf_false_nodup (along_insertScopes_nodup scopes 0 _
        (fun p => by cases p <;> simp [along])) p
    · simp [Walk.visit, visitRuleIndices, walkAt, RuleSet.new]
  | true =>
    obtain ⟨l, set', h1, h2, h3, h4⟩ := dedupe_spec
      (addsOf (reach true [⟨insertScopes Tree.empty 0 scopes, false⟩] p))
      (List.replicate scopes.length false) (by
        intro r hr
        obtain ⟨sc, h, _⟩ := (hadd r).1 hr
        simpa using (List.getElem?_eq_some_iff.1 h).1)
    refine ⟨l, _, h3, ?_, hrem, fun c => ?_⟩
    · intro r
      rw [h4, hadd]
      constructor
      · exact fun h => h.1
      · intro h
        refine ⟨h, ?_⟩
        obtain ⟨sc, h, _⟩ := h
        rw [List.getElem?_replicate, if_pos (List.getElem?_eq_some_iff.1 h).1]
    · have hreset : resetSet set' = List.replicate scopes.length false := by
        rw [resetSet, List.map_const', h2]; simp
      simp [Walk.visit, visitRuleIndices, walkAt, RuleSet.new, h1, hreset]

theorem runOps_walkAt (rs : RuleSet) (f : Path → Str → Visit)
    (hf : ∀ p c, (walkAt rs p).visit c = Res.ok (f p c, walkAt rs p)) (ops : List Op) :
    ∀ (p : Path) (l : List (Path × Str)), located p ops = some l →
      ∃ p', runOps rs (walkAt rs p) ops = Res.ok (l.map (fun x => f x.1 x.2), walkAt rs p') := by
  induction ops with
  | nil =>
    intro p l h
    simp only [located, Option.some.injEq] at h
    subst h; exact ⟨p, rfl⟩
  | cons op ops ih =>
    intro p l h
    cases op with
    | push s =>
      simp only [located] at h
      simp only [runOps, push_walkAt]
      exact ih _ l h
    | pop =>
      simp only [located] at h
      split at h
      · cases h
      · next hne =>
        obtain ⟨p0, s, rfl⟩ : ∃ p0 s, p = p0 ++ [s] :=
          ⟨p.dropLast, p.getLast hne, (List.dropLast_concat_getLast hne).symm⟩
        simp only [runOps, pop_walkAt]
        simp only [List.dropLast_concat] at h
        exact ih _ l h
    | visit c =>
      simp only [located] at h
      split at h
      · next l' h' =>
        simp only [Option.some.injEq] at h
        subst h
        obtain ⟨p', hp'⟩ := ih p l' h'
        exact ⟨p', by simp [runOps, hf, hp']⟩
      · cases h

end Sds
