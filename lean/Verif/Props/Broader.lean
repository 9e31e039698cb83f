import Verif.Spec.Broader
import Verif.Props.Scope

/-! # C122: scopes that reach further -/

namespace Sds.Props
open Sds Spec

private theorem deletes_self : ∀ p : Path, Deletes false p p
  | [] => .nil _
  | _ :: p => .keep (by simp) (deletes_self p)

/-- What is deleted down to `q ++ t` is, up to some place, deleted down to `q`. -/
private theorem deletes_prefix {prev : Bool} {p r : Path} (h : Deletes prev p r) :
    ∀ q t : Path, r = q ++ t → ∃ p1 p2, p = p1 ++ p2 ∧ Deletes prev p1 q := by
  induction h with
  | nil prev =>
    intro q t e
    obtain rfl : q = [] := by cases q with | nil => rfl | cons _ _ => cases e
    exact ⟨[], [], rfl, .nil _⟩
  | @keep prev s p r hs _ ih =>
    intro q t e
    cases q with
    | nil => exact ⟨[], s :: p, rfl, .nil _⟩
    | cons s' q =>
      obtain ⟨rfl, e'⟩ := List.cons.inj e
      obtain ⟨p1, p2, rfl, h⟩ := ih q t e'
      exact ⟨s :: p1, p2, rfl, .keep hs h⟩
  | @delete prev i p r _ ih =>
    intro q t e
    obtain ⟨p1, p2, rfl, h⟩ := ih q t e
    exact ⟨.index i :: p1, p2, rfl, .delete h⟩

private theorem selects_broader {wc wc' : Bool} (hwc : wc = true → wc' = true) {q q' p : Path} (hq : q' <+: q)
    (h : Selects wc q p) : Selects wc' q' p := by
  obtain ⟨t, rfl⟩ := hq
  obtain ⟨pre, rest, rfl, h⟩ := h
  have hd : (wc = false ∧ pre = q' ++ t) ∨ (wc' = true ∧ Deletes false pre (q' ++ t)) := by
    cases wc with
    | false => exact .inl ⟨rfl, by simpa using h⟩
    | true => exact .inr ⟨hwc rfl, by simpa using h⟩
  rcases hd with ⟨-, rfl⟩ | ⟨e, hd⟩
  · refine ⟨q', t ++ rest, by simp, ?_⟩
    split
    · exact deletes_self _
    · rfl
  · obtain ⟨p1, p2, rfl, hd'⟩ := deletes_prefix hd q' t rfl
    exact ⟨p1, p2 ++ rest, by simp, by rw [if_pos e]; exact hd'⟩

private theorem under_selects {wc wc' : Bool} (hwc : wc = true → wc' = true) {qs qs' : List Path} (hu : Under qs qs') {p : Path}
    (h : ∃ q ∈ qs, Selects wc q p) : ∃ q ∈ qs', Selects wc' q p := by
  obtain ⟨q, hq, h⟩ := h
  obtain ⟨q', hq', hp⟩ := hu q hq
  exact ⟨q', hq', selects_broader hwc hp h⟩

private theorem broader_scans {wc wc' : Bool} (hwc : wc = true → wc' = true) {a b : Scope} (hb : Broader a b) {p : Path}
    (h : Scans wc p a) : Scans wc' p b := by
  cases a <;> cases b
  · exact under_selects hwc hb.1 h
  · trivial
  · exact hb.elim
  · trivial

private theorem broader_excludes {wc wc' : Bool} (hwc : wc = true → wc' = true) {a b : Scope} (hb : Broader a b) {p : Path}
    (h : Excludes wc p a) : Excludes wc' p b := by
  cases a <;> cases b
  · exact under_selects hwc hb.2 h
  · exact under_selects hwc hb h
  · exact hb.elim
  · exact under_selects hwc hb h

private theorem lift {scopes scopes' : List Scope} (hb : AllBroader scopes scopes') {P Q : Scope → Prop}
    (hPQ : ∀ a b, Broader a b → P a → Q b) {r : Nat} (h : ∃ sc, scopes[r]? = some sc ∧ P sc) :
    ∃ sc, scopes'[r]? = some sc ∧ Q sc := by
  obtain ⟨a, ha, hP⟩ := h
  obtain ⟨hr, -⟩ := List.getElem?_eq_some_iff.1 ha
  have hr' : r < scopes'.length := by have := hb.1; omega
  have h' : scopes'[r]? = some scopes'[r] := List.getElem?_eq_getElem hr'
  exact ⟨_, h', hPQ _ _ (hb.2 r _ _ ha h') hP⟩

/-- C122: with scopes that reach further, and with implicit index wildcards switched on, every rule still runs on every string
on which it ran, and every string that was excluded for it still is. -/
theorem C122_reaches {scopes scopes' : List Scope} {wc wc' : Bool} (hb : AllBroader scopes scopes') (hwc : wc = true → wc' = true)
    {ops : List Op} {l : List (Path × Str)} (h : located [] ops = some l) :
    ∃ vs vs', visitCombinations (RuleSet.new scopes wc) ops = Res.ok vs ∧
      visitCombinations (RuleSet.new scopes' wc') ops = Res.ok vs' ∧ vs.length = vs'.length ∧
      ∀ (i : Nat) (v v' : Visit), vs[i]? = some v → vs'[i]? = some v' →
        v.path = v'.path ∧ v.content = v'.content ∧ (∀ r ∈ v.rules, r ∈ v'.rules) ∧ ∀ r ∈ v.excluded, r ∈ v'.excluded := by
  obtain ⟨rules, excluded, hp, hv⟩ := visits_spec scopes wc
  obtain ⟨rules', excluded', hp', hv'⟩ := visits_spec scopes' wc'
  refine ⟨_, _, hv ops l h, hv' ops l h, by simp, ?_⟩
  intro i v v' h1 h2
  simp only [List.getElem?_map, Option.map_eq_some_iff] at h1 h2
  obtain ⟨x, hx, rfl⟩ := h1
  obtain ⟨x', hx', rfl⟩ := h2
  rw [hx] at hx'
  obtain rfl := Option.some.inj hx'
  refine ⟨rfl, rfl, fun r hr => ?_, fun r hr => ?_⟩
  · rw [(hp x.1).2.1] at hr
    rw [(hp' x.1).2.1]
    exact lift hb (fun a b hab ha => broader_scans hwc hab ha) hr
  · rw [(hp x.1).2.2] at hr
    rw [(hp' x.1).2.2]
    exact lift hb (fun a b hab ha => broader_excludes hwc hab ha) hr

/-- C122: a path of a scope that lies below another one of the same list is superfluous, with and without wildcards. -/
theorem C122_superfluous {scopes scopes' : List Scope} (wc : Bool) (hb : AllBroader scopes scopes') (hb' : AllBroader scopes' scopes)
    {ops : List Op} {l : List (Path × Str)} (h : located [] ops = some l) :
    ∃ vs vs', visitCombinations (RuleSet.new scopes wc) ops = Res.ok vs ∧
      visitCombinations (RuleSet.new scopes' wc) ops = Res.ok vs' ∧ vs.length = vs'.length ∧
      ∀ (i : Nat) (v v' : Visit), vs[i]? = some v → vs'[i]? = some v' →
        v.path = v'.path ∧ v.content = v'.content ∧ v.rules.Perm v'.rules ∧ ∀ r, r ∈ v.excluded ↔ r ∈ v'.excluded := by
  obtain ⟨vs, vs', h1, h2, h3, h4⟩ := C122_reaches (wc := wc) (wc' := wc) hb id h
  obtain ⟨ws', ws, g2, g1, -, g4⟩ := C122_reaches (wc := wc) (wc' := wc) hb' id h
  rw [h1] at g1
  rw [h2] at g2
  cases g1
  cases g2
  obtain ⟨us, k1, k2⟩ := C13_rule_runs_once scopes wc h
  obtain ⟨us', k1', k2'⟩ := C13_rule_runs_once scopes' wc h
  rw [h1] at k1
  rw [h2] at k1'
  cases k1
  cases k1'
  refine ⟨vs, vs', h1, h2, h3, fun i v v' hv hv' => ?_⟩
  obtain ⟨a1, a2, a3, a4⟩ := h4 i v v' hv hv'
  obtain ⟨-, -, b3, b4⟩ := g4 i v' v hv' hv
  exact ⟨a1, a2, (List.perm_ext_iff_of_nodup (k2 v (List.mem_of_getElem? hv)) (k2' v' (List.mem_of_getElem? hv'))).2
    fun r => ⟨a3 r, b3 r⟩, fun r => ⟨a4 r, b4 r⟩⟩

private theorem deletes_fields {prev : Bool} {p q : Path} (h : Deletes prev p q) (hp : ∀ i, Seg.index i ∉ p) : p = q := by
  induction h with
  | nil _ => rfl
  | keep _ _ ih => rw [ih fun i hi => hp i (List.mem_cons_of_mem _ hi)]
  | delete _ _ => exact absurd (List.mem_cons_self ..) (hp _)

private theorem selects_fields {q p : Path} (hp : ∀ i, Seg.index i ∉ p) (h : Selects true q p) : Selects false q p := by
  obtain ⟨pre, rest, rfl, h⟩ := h
  refine ⟨pre, rest, rfl, ?_⟩
  simp only [if_true] at h
  simpa using deletes_fields h fun i hi => hp i (List.mem_append_left _ hi)

/-- C122: for a string that is in no list, wildcards make no difference. -/
theorem C122_no_lists (scopes : List Scope) {ops : List Op} {l : List (Path × Str)} (h : located [] ops = some l) :
    ∃ vs vs', visitCombinations (RuleSet.new scopes false) ops = Res.ok vs ∧
      visitCombinations (RuleSet.new scopes true) ops = Res.ok vs' ∧ vs.length = vs'.length ∧
      ∀ (i : Nat) (v v' : Visit), vs[i]? = some v → vs'[i]? = some v' → (∀ j, Seg.index j ∉ v.path) →
        v.path = v'.path ∧ v.content = v'.content ∧ v.rules.Perm v'.rules ∧ ∀ r, r ∈ v.excluded ↔ r ∈ v'.excluded := by
  obtain ⟨rules, excluded, hp, hv⟩ := visits_spec scopes false
  obtain ⟨rules', excluded', hp', hv'⟩ := visits_spec scopes true
  refine ⟨_, _, hv ops l h, hv' ops l h, by simp, ?_⟩
  intro i v v' h1 h2 hn
  simp only [List.getElem?_map, Option.map_eq_some_iff] at h1 h2
  obtain ⟨x, hx, rfl⟩ := h1
  obtain ⟨x', hx', rfl⟩ := h2
  rw [hx] at hx'
  obtain rfl := Option.some.inj hx'
  have hs : ∀ q, Selects false q x.1 ↔ Selects true q x.1 := fun q =>
    ⟨selects_broader (by simp) (List.prefix_refl q), selects_fields hn⟩
  have hsc : ∀ sc, Scans false x.1 sc ↔ Scans true x.1 sc := by
    intro sc
    cases sc <;> simp only [Scans, hs]
  have hex : ∀ sc, Excludes false x.1 sc ↔ Excludes true x.1 sc := by
    intro sc
    cases sc <;> simp only [Excludes, hs]
  refine ⟨rfl, rfl, ?_, fun r => ?_⟩
  · refine (List.perm_ext_iff_of_nodup (hp x.1).1 (hp' x.1).1).2 fun r => ?_
    rw [(hp x.1).2.1, (hp' x.1).2.1]
    simp only [hsc]
  · rw [(hp x.1).2.2, (hp' x.1).2.2]
    simp only [hex]

namespace BroaderExample

private def fld (s : String) : Seg := .field s.toList

/-- `{a: {b: "x"}, c: [{d: "y"}]}` -/
private def ops : List Op :=
  [.push (fld "a"), .push (fld "b"), .visit "x".toList, .pop, .pop,
   .push (fld "c"), .push (.index 0), .push (fld "d"), .visit "y".toList, .pop, .pop, .pop]

private def runs (scopes : List Scope) (wc : Bool) : Res (List (Path × List Nat × Bool)) :=
  (visitCombinations (RuleSet.new scopes wc) ops).map fun vs => vs.map fun v => (v.path, v.rules, decide (0 ∈ v.excluded))

/-- The hypotheses of `C122_reaches` are met, and both changes make a difference: `c.d` reaches the second string with wildcards
only, the first string is included by `a` instead of `a.c`, and it is excluded by `a.b`. -/
example : AllBroader [.incl [[fld "a", fld "c"], [fld "c", fld "d"]] []]
      [.incl [[fld "a"], [fld "c", fld "d"]] [[fld "a", fld "b"]]] ∧
    runs [.incl [[fld "a", fld "c"], [fld "c", fld "d"]] []] false =
      .ok [([fld "a", fld "b"], [], false), ([fld "c", .index 0, fld "d"], [], false)] ∧
    runs [.incl [[fld "a"], [fld "c", fld "d"]] [[fld "a", fld "b"]]] true =
      .ok [([fld "a", fld "b"], [0], true), ([fld "c", .index 0, fld "d"], [0], false)] := by
  refine ⟨⟨rfl, fun i a b ha hb => ?_⟩, by decide, by decide⟩
  match i with
  | 0 =>
    cases ha
    cases hb
    refine ⟨fun q hq => ?_, fun q hq => by cases hq⟩
    rcases List.mem_cons.1 hq with rfl | hq
    · exact ⟨[fld "a"], by simp, [fld "c"], rfl⟩
    · rcases List.mem_cons.1 hq with rfl | hq
      · exact ⟨_, by simp, List.prefix_refl _⟩
      · cases hq
  | _ + 1 => cases ha

/-- The hypotheses of `C122_superfluous` are met: `c[0]` lies below `c`. -/
example : AllBroader [.excl [[fld "c"], [fld "c", .index 0]]] [.excl [[fld "c"]]] ∧
    AllBroader [.excl [[fld "c"]]] [.excl [[fld "c"], [fld "c", .index 0]]] ∧ (located [] ops).isSome := by
  refine ⟨⟨rfl, fun i a b ha hb => ?_⟩, ⟨rfl, fun i a b ha hb => ?_⟩, by decide⟩
  · match i with
    | 0 =>
      cases ha
      cases hb
      intro q hq
      rcases List.mem_cons.1 hq with rfl | hq
      · exact ⟨_, by simp, List.prefix_refl _⟩
      · rcases List.mem_cons.1 hq with rfl | hq
        · exact ⟨[fld "c"], by simp, [.index 0], rfl⟩
        · cases hq
    | _ + 1 => cases ha
  · match i with
    | 0 =>
      cases ha
      cases hb
      intro q hq
      rcases List.mem_cons.1 hq with rfl | hq
      · exact ⟨_, by simp, List.prefix_refl _⟩
      · cases hq
    | _ + 1 => cases ha

/-- `C122_no_lists` applies to the first string, not to the second. -/
example : (∀ j, Seg.index j ∉ [fld "a", fld "b"]) ∧
    runs [.incl [[fld "c", fld "d"], [fld "a"]] []] false ≠ runs [.incl [[fld "c", fld "d"], [fld "a"]] []] true :=
  ⟨by simp [fld], by decide⟩

end BroaderExample
end Sds.Props
