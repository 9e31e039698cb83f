import Verif.Lemmas.Scope

/-! # C11-C16: which rules run on which strings -/

namespace Sds.Props
open Sds Spec

private def fld (s : String) : Seg := .field s.toList

/-- A nested list inside a map: `{a: {b: "x"}, c: [["y"]]}`. -/
private def ops : List Op :=
  [.push (fld "a"), .push (fld "b"), .visit "x".toList, .pop, .pop,
   .push (fld "c"), .push (.index 0), .push (.index 1), .visit "y".toList, .pop, .pop, .pop]

private def scopes : List Scope :=
  [.incl [[fld "a"], [fld "a", fld "b"], [fld "c"]] [[fld "c", .index 0]],
   .excl [[fld "a", fld "b"], [fld "c"]],
   .incl [[fld "c", .index 1]] []]

private def strs : List (Path × Str) :=
  [([fld "a", fld "b"], "x".toList), ([fld "c", .index 0, .index 1], "y".toList)]

/-- Summary used below: whatever sequence of calls an event makes (as long as it does not leave its root),
the traversal does not panic, and the rules and exclusions of every string are those prescribed by the
scopes for its path. -/
theorem visits_spec (scopes : List Scope) (wc : Bool) :
    ∃ rules excluded : Path → List Nat,
      (∀ p, (rules p).Nodup ∧
        (∀ r, r ∈ rules p ↔ ∃ sc, scopes[r]? = some sc ∧ Scans wc p sc) ∧
        (∀ r, r ∈ excluded p ↔ ∃ sc, scopes[r]? = some sc ∧ Excludes wc p sc)) ∧
      ∀ ops l, located [] ops = some l →
        visitCombinations (RuleSet.new scopes wc) ops =
          Res.ok (l.map fun x => ⟨x.1, x.2, rules x.1, excluded x.1⟩) := by
  refine ⟨fun p => (visit_walkAt scopes wc p).choose, fun p => (visit_walkAt scopes wc p).choose_spec.choose,
    fun p => ?_, fun ops l h => ?_⟩
  · have hp := (visit_walkAt scopes wc p).choose_spec.choose_spec
    exact ⟨hp.1, hp.2.1, hp.2.2.1⟩
  · obtain ⟨p', h'⟩ := runOps_walkAt (RuleSet.new scopes wc)
      (fun p c => ⟨p, c, (visit_walkAt scopes wc p).choose, (visit_walkAt scopes wc p).choose_spec.choose⟩)
      (fun p c => (visit_walkAt scopes wc p).choose_spec.choose_spec.2.2.2 c) ops [] l h
    rw [walkAt_nil] at h'
    simp [visitCombinations, h']

/-- The visits of a traversal, with the rule set of every one determined by the scopes. -/
theorem visits_of_scopes (scopes : List Scope) (wc : Bool) {ops : List Op} {l : List (Path × Str)}
    (h : located [] ops = some l) :
    ∃ vs, visitCombinations (RuleSet.new scopes wc) ops = Res.ok vs ∧
      vs.map (fun v => (v.path, v.content)) = l ∧
      ∀ v ∈ vs, v.rules.Nodup ∧
        (∀ r, r ∈ v.rules ↔ ∃ sc, scopes[r]? = some sc ∧ Scans wc v.path sc) ∧
        (∀ r, r ∈ v.excluded ↔ ∃ sc, scopes[r]? = some sc ∧ Excludes wc v.path sc) := by
  obtain ⟨rules, excluded, hp, hv⟩ := visits_spec scopes wc
  refine ⟨_, hv ops l h, ?_, ?_⟩
  · simp [List.map_map, Function.comp_def]
  · intro v hv
    obtain ⟨x, _, rfl⟩ := List.mem_map.1 hv
    exact hp x.1

private theorem selects_prefix (q p : Path) : Selects false q p ↔ q <+: p := by
  unfold Selects
  constructor
  · rintro ⟨pre, rest, rfl, h⟩
    simp at h; subst h; exact ⟨rest, rfl⟩
  · rintro ⟨rest, rfl⟩
    exact ⟨q, rest, rfl, by simp⟩

/-- C11: the traversal completes, visits exactly the strings of the event, and runs rule `r` on the string
at path `p` iff the scope of `r` is an exclude scope or one of its include paths is a prefix of `p`. -/
theorem C11_includes_select_subtrees (scopes : List Scope) {ops : List Op} {l : List (Path × Str)}
    (h : located [] ops = some l) :
    ∃ vs, visitCombinations (RuleSet.new scopes false) ops = Res.ok vs ∧
      vs.map (fun v => (v.path, v.content)) = l ∧
      ∀ v ∈ vs, ∀ r, r ∈ v.rules ↔
        (∃ inc exc, scopes[r]? = some (.incl inc exc) ∧ ∃ q ∈ inc, q <+: v.path) ∨
        (∃ exc, scopes[r]? = some (.excl exc)) := by
  obtain ⟨vs, h1, h2, h3⟩ := visits_of_scopes scopes false h
  refine ⟨vs, h1, h2, fun v hv r => ?_⟩
  rw [(h3 v hv).2.1 r]
  constructor
  · rintro ⟨sc, hs, hh⟩
    cases sc with
    | incl inc exc =>
      obtain ⟨q, hq, hsel⟩ := hh
      exact Or.inl ⟨inc, exc, hs, q, hq, (selects_prefix _ _).1 hsel⟩
    | excl exc => exact Or.inr ⟨exc, hs⟩
  · rintro (⟨inc, exc, hs, q, hq, hsel⟩ | ⟨exc, hs⟩)
    · exact ⟨_, hs, q, hq, (selects_prefix _ _).2 hsel⟩
    · exact ⟨_, hs, trivial⟩

example : located [] ops = some strs ∧
    (visitCombinations (RuleSet.new scopes false) ops).map (fun vs => vs.map (·.rules)) =
      Res.ok [[1, 0], [1, 0]] := by decide

/-- C12: a string is excluded for rule `r` iff one of the exclude paths of `r` is a prefix of its path,
however includes and excludes overlap. -/
theorem C12_excludes_cover_subtrees (scopes : List Scope) {ops : List Op} {l : List (Path × Str)}
    (h : located [] ops = some l) :
    ∃ vs, visitCombinations (RuleSet.new scopes false) ops = Res.ok vs ∧
      vs.map (fun v => (v.path, v.content)) = l ∧
      ∀ v ∈ vs, ∀ r, r ∈ v.excluded ↔
        ∃ exc, ((∃ inc, scopes[r]? = some (.incl inc exc)) ∨ scopes[r]? = some (.excl exc)) ∧
          ∃ q ∈ exc, q <+: v.path := by
  obtain ⟨vs, h1, h2, h3⟩ := visits_of_scopes scopes false h
  refine ⟨vs, h1, h2, fun v hv r => ?_⟩
  rw [(h3 v hv).2.2 r]
  constructor
  · rintro ⟨sc, hs, hh⟩
    cases sc with
    | incl inc exc =>
      obtain ⟨q, hq, hsel⟩ := hh
      exact ⟨exc, Or.inl ⟨inc, hs⟩, q, hq, (selects_prefix _ _).1 hsel⟩
    | excl exc =>
      obtain ⟨q, hq, hsel⟩ := hh
      exact ⟨exc, Or.inr hs, q, hq, (selects_prefix _ _).1 hsel⟩
  · rintro ⟨exc, ⟨inc, hs⟩ | hs, q, hq, hsel⟩
    · exact ⟨_, hs, q, hq, (selects_prefix _ _).2 hsel⟩
    · exact ⟨_, hs, q, hq, (selects_prefix _ _).2 hsel⟩

example : located [] ops = some strs ∧
    (visitCombinations (RuleSet.new scopes false) ops).map (fun vs => vs.map (·.excluded)) =
      Res.ok [[1], [1, 0]] := by decide

/-- C13: no rule is run twice on the same string, with or without implicit index wildcards. -/
theorem C13_rule_runs_once (scopes : List Scope) (wc : Bool) {ops : List Op} {l : List (Path × Str)}
    (h : located [] ops = some l) :
    ∃ vs, visitCombinations (RuleSet.new scopes wc) ops = Res.ok vs ∧ ∀ v ∈ vs, v.rules.Nodup := by
  obtain ⟨vs, h1, _, h3⟩ := visits_of_scopes scopes wc h
  exact ⟨vs, h1, fun v hv => (h3 v hv).1⟩

/-- Both `c` and `c[1]` select `c[0][1]` with wildcards. -/
example : located [] ops = some strs ∧
    (visitCombinations
      (RuleSet.new [.incl [[fld "c", .index 1], [fld "c", .index 0], [fld "c", .index 1]] []] true) ops).map
      (fun vs => vs.map (·.rules)) = Res.ok [[], [0]] := by decide

/-- C14: the rules run on a string and its exclusions are functions of its path alone: neither the other
strings of the event nor the order of the traversal have an influence. -/
theorem C14_selection_depends_on_path (scopes : List Scope) (wc : Bool) :
    ∃ rules excluded : Path → List Nat, ∀ ops l, located [] ops = some l →
      visitCombinations (RuleSet.new scopes wc) ops =
        Res.ok (l.map fun x => ⟨x.1, x.2, rules x.1, excluded x.1⟩) := by
  obtain ⟨rules, excluded, _, hv⟩ := visits_spec scopes wc
  exact ⟨rules, excluded, hv⟩

example : located [] (ops ++ ops) = some (strs ++ strs) ∧
    (visitCombinations (RuleSet.new scopes true) (ops ++ ops)).map
      (fun vs => (vs.map (·.rules), vs.map fun v => decide (0 ∈ v.excluded))) =
      Res.ok ([[1, 0], [1, 0], [1, 0], [1, 0]], [false, true, false, true]) := by
  decide

/-- C15: with implicit index wildcards the paths of a scope select a string iff deleting some list indices
from a prefix of its path gives the scope path, where an index after a deleted index is deleted too;
without the option they have to be an exact prefix. -/
theorem C15_index_wildcards (scopes : List Scope) (wc : Bool) {ops : List Op} {l : List (Path × Str)}
    (h : located [] ops = some l) :
    ∃ vs, visitCombinations (RuleSet.new scopes wc) ops = Res.ok vs ∧
      vs.map (fun v => (v.path, v.content)) = l ∧
      ∀ v ∈ vs,
        (∀ r, r ∈ v.rules ↔ ∃ sc, scopes[r]? = some sc ∧ Scans wc v.path sc) ∧
        (∀ r, r ∈ v.excluded ↔ ∃ sc, scopes[r]? = some sc ∧ Excludes wc v.path sc) := by
  obtain ⟨vs, h1, h2, h3⟩ := visits_of_scopes scopes wc h
  exact ⟨vs, h1, h2, fun v hv => (h3 v hv).2⟩

/-- The path `c[0].d[1]` is selected by `c.d`, by `c[0].d` and by `c.d[1]`. -/
example : Selects true [fld "c", fld "d"] [fld "c", .index 0, fld "d", .index 1] ∧
    Selects true [fld "c", .index 0, fld "d"] [fld "c", .index 0, fld "d", .index 1] ∧
    Selects true [fld "c", fld "d", .index 1] [fld "c", .index 0, fld "d", .index 1] := by
  refine ⟨⟨[fld "c", .index 0, fld "d"], [.index 1], rfl, ?_⟩, ⟨[fld "c", .index 0, fld "d"], [.index 1], rfl, ?_⟩,
    ⟨[fld "c", .index 0, fld "d", .index 1], [], rfl, ?_⟩⟩
  · exact .keep (by simp) (.delete (.keep (by simp [fld]) (.nil _)))
  · exact .keep (by simp) (.keep (by simp) (.keep (by simp) (.nil _)))
  · exact .keep (by simp) (.delete (.keep (by simp [fld]) (.keep (by simp) (.nil _))))

/-- Two scopes with the same paths up to order and repetition. -/
def SameScope : Scope → Scope → Prop
  | .incl i e, .incl i' e' => (∀ q, q ∈ i ↔ q ∈ i') ∧ (∀ q, q ∈ e ↔ q ∈ e')
  | .excl e, .excl e' => ∀ q, q ∈ e ↔ q ∈ e'
  | _, _ => False

/-- C16: reordering or repeating the paths of the scopes changes neither the set of rules run on a string
nor its set of exclusions. -/
theorem C16_scope_paths_are_sets (scopes scopes' : List Scope) (wc : Bool)
    (hlen : scopes.length = scopes'.length)
    (hsame : ∀ (i : Nat) (a b : Scope), scopes[i]? = some a → scopes'[i]? = some b → SameScope a b)
    {ops : List Op} {l : List (Path × Str)} (h : located [] ops = some l) :
    ∃ vs vs', visitCombinations (RuleSet.new scopes wc) ops = Res.ok vs ∧
      visitCombinations (RuleSet.new scopes' wc) ops = Res.ok vs' ∧
      vs.length = vs'.length ∧
      ∀ (i : Nat) (v v' : Visit), vs[i]? = some v → vs'[i]? = some v' →
        v.path = v'.path ∧ v.content = v'.content ∧ v.rules.Perm v'.rules ∧
          ∀ r, r ∈ v.excluded ↔ r ∈ v'.excluded := by
  obtain ⟨rules, excluded, hp, hv⟩ := visits_spec scopes wc
  obtain ⟨rules', excluded', hp', hv'⟩ := visits_spec scopes' wc
  have key : ∀ (P : Scope → Prop), (∀ a b, SameScope a b → (P a ↔ P b)) → ∀ r : Nat,
      (∃ sc, scopes[r]? = some sc ∧ P sc) ↔ ∃ sc, scopes'[r]? = some sc ∧ P sc := by
    intro P hP r
    by_cases hr : r < scopes.length
    · have h1 : scopes[r]? = some scopes[r] := List.getElem?_eq_getElem hr
      have h2 : scopes'[r]? = some (scopes'[r]'(hlen ▸ hr)) := List.getElem?_eq_getElem (hlen ▸ hr)
      have := hP _ _ (hsame r _ _ h1 h2)
      simp only [h1, h2, Option.some.injEq, exists_eq_left', this]
    · rw [List.getElem?_eq_none (by omega), List.getElem?_eq_none (by omega)]
  have hscan : ∀ p a b, SameScope a b → (Scans wc p a ↔ Scans wc p b) := by
    intro p a b hab
    cases a <;> cases b <;> simp only [SameScope] at hab
    · simp only [Scans, hab.1]
    · simp [Scans]
  have hexc : ∀ p a b, SameScope a b → (Excludes wc p a ↔ Excludes wc p b) := by
    intro p a b hab
    cases a <;> cases b <;> simp only [SameScope] at hab
    · simp only [Excludes, hab.2]
    · simp only [Excludes, hab]
  refine ⟨_, _, hv ops l h, hv' ops l h, by simp, ?_⟩
  intro i v v' h1 h2
  simp only [List.getElem?_map, Option.map_eq_some_iff] at h1 h2
  obtain ⟨x, hx, rfl⟩ := h1
  obtain ⟨x', hx', rfl⟩ := h2
  rw [hx] at hx'
  obtain rfl := Option.some.inj hx'
  refine ⟨rfl, rfl, ?_, fun r => ?_⟩
  · refine (List.perm_ext_iff_of_nodup (hp x.1).1 (hp' x.1).1).2 fun r => ?_
    rw [(hp x.1).2.1, (hp' x.1).2.1]
    exact key _ (hscan x.1) r
  · rw [(hp x.1).2.2, (hp' x.1).2.2]
    exact key _ (hexc x.1) r

example : SameScope (.incl [[fld "a"], [], [fld "a"]] [[fld "b"]]) (.incl [[], [fld "a"]] [[fld "b"], [fld "b"]]) := by
  constructor <;> intro q <;> simp
  grind

end Sds.Props
