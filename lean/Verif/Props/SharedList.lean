import Verif.Lemmas.SharedList

/-! # C112: rules appended by several threads all arrive -/

namespace Sds.Props
open Sds Spec
variable {R : Type}

/-- C112: the calls on a rule list take effect one after another, in an order in which calls that do not overlap stay as they
are. -/
theorem C112_linearisable {c : ListConf R} (h : ListReach c) : ∃ calls, LinearisedAs c.trace c.rules c.poisoned calls := by
  obtain ⟨calls, h⟩ := listInv_reach h
  exact ⟨calls, h.lin⟩

/-! ## All rules arrive -/

private def begun (tr : List (ListEvent R)) : List (Nat × ListCall R) :=
  tr.filterMap fun
    | .begins i x => some (i, x)
    | .ends _ _ => none

private theorem mem_begun {tr : List (ListEvent R)} {y : Nat × ListCall R} : y ∈ begun tr ↔ .begins y.1 y.2 ∈ tr := by
  unfold begun
  rw [List.mem_filterMap]
  constructor
  · rintro ⟨ev, h1, h2⟩
    cases ev with
    | begins i x => cases h2; exact h1
    | ends i res => cases h2
  · exact fun h => ⟨_, h, rfl⟩

private def ruleOf : ListCall R → Option R
  | .append r => some r
  | .create => none

private theorem appendedRules_eq (tr : List (ListEvent R)) : appendedRules tr = (begun tr).filterMap fun y => ruleOf y.2 := by
  unfold appendedRules begun
  rw [List.filterMap_filterMap]
  congr 1
  funext ev
  rcases ev with ⟨i, r | _⟩ | ⟨i, res⟩ <;> rfl

private theorem begun_ids {c : ListConf R} (h : ListReach c) : (begun c.trace).map (·.1) = List.range c.threads.length := by
  have happ : ∀ (tr : List (ListEvent R)) ev, begun (tr ++ [ev]) = begun tr ++ begun [ev] := fun tr ev => List.filterMap_append ..
  have hret : ∀ (tr : List (ListEvent R)) i res, begun (tr ++ [.ends i res]) = begun tr := by
    intro tr i res
    rw [happ]
    simp [begun]
  induction h with
  | init => rfl
  | @call c x _ ih =>
    show (begun (c.trace ++ [.begins c.threads.length x])).map (·.1) = List.range (c.threads ++ [_]).length
    rw [happ, List.map_append, ih, List.length_append, List.length_singleton, List.range_succ]
    rfl
  | @step c c' i _ hs ih =>
    cases hs <;> simpa [ListConf.goOn, ListConf.return_, hret] using ih

private theorem oneByOne_rules {l l' : List R} {p p' : Bool} {calls : List (Nat × ListCall R × ListRes R)}
    (h : OneByOne l p calls l' p') (hp : p = false) (hno : ∀ x ∈ calls, x.2.2 ≠ .failed) :
    l' = l ++ calls.filterMap fun y => ruleOf y.2.1 := by
  induction h with
  | nil => simp
  | append _ ih =>
    rw [ih rfl fun x hx => hno x (List.mem_cons_of_mem _ hx)]
    simp [ruleOf]
  | build _ ih =>
    rw [ih rfl fun x hx => hno x (List.mem_cons_of_mem _ hx)]
    simp [ruleOf]
  | panic _ _ => exact absurd rfl (hno _ List.mem_cons_self)
  | lost _ _ => cases hp
  | refused _ _ => cases hp

/-- C112: if all calls have returned and none has panicked, the list has exactly the rules that were appended, each as often as it
was. -/
theorem C112_all_arrive {c : ListConf R} (h : ListReach c) (hall : AllEnded c.trace) (hno : ∀ i, .ends i .failed ∉ c.trace) :
    c.rules.Perm (appendedRules c.trace) := by
  obtain ⟨calls, hinv⟩ := listInv_reach h
  have hends : ∀ x ∈ calls, .ends x.1 x.2.2 ∈ c.trace := by
    rintro ⟨i, x, res⟩ hx
    obtain ⟨res', hr⟩ := hall i x (hinv.lin.began _ hx)
    obtain ⟨x', hx'⟩ := hinv.lin.ended i res' hr
    have : (x', res') = (x, res) := by
      have hnd := hinv.lin.once
      have inj : ∀ {l : List (Nat × ListCall R × ListRes R)} {a b}, (l.map (·.1)).Nodup → a ∈ l → b ∈ l → a.1 = b.1 → a = b := by
        intro l a b
        induction l with
        | nil => intro _ ha; cases ha
        | cons y l ih =>
          intro hnd ha hb hab
          rw [List.map_cons, List.nodup_cons] at hnd
          rcases List.mem_cons.1 ha with rfl | ha'
          · rcases List.mem_cons.1 hb with rfl | hb
            · rfl
            · exact absurd (List.mem_map.2 ⟨b, hb, hab.symm⟩) hnd.1
          · rcases List.mem_cons.1 hb with rfl | hb
            · exact absurd (List.mem_map.2 ⟨a, ha', hab⟩ : b.1 ∈ List.map (fun x => x.1) l) hnd.1
            · exact ih hnd.2 ha' hb hab
      have := inj hnd hx' hx rfl
      exact (Prod.mk.inj this).2
    cases this
    exact hr
  have hrules : c.rules = calls.filterMap fun y => ruleOf y.2.1 := by
    have := oneByOne_rules hinv.lin.effect rfl fun x hx he => hno x.1 (he ▸ hends x hx)
    simpa using this
  have hperm : (calls.map fun y => (y.1, y.2.1)).Perm (begun c.trace) := by
    have hnd1 : (calls.map fun y => (y.1, y.2.1)).Nodup := by
      have := hinv.lin.once
      refine List.Pairwise.of_map (S := fun m n : Nat => m ≠ n) (fun y : Nat × ListCall R => y.1) (fun a b hab e => hab (by rw [e])) ?_
      rw [List.map_map]
      exact this
    have hnd2 : (begun c.trace).Nodup := by
      refine List.Pairwise.of_map (S := fun m n : Nat => m ≠ n) (fun y : Nat × ListCall R => y.1) (fun a b hab e => hab (by rw [e])) ?_
      rw [begun_ids h]
      exact List.nodup_range
    refine (List.perm_ext_iff_of_nodup hnd1 hnd2).2 fun y => ?_
    rw [List.mem_map, mem_begun]
    constructor
    · rintro ⟨z, hz, rfl⟩
      exact hinv.lin.began z hz
    · intro hy
      obtain ⟨res, hr⟩ := hall _ _ hy
      obtain ⟨x, hx⟩ := hinv.lin.ended _ _ hr
      refine ⟨_, hx, ?_⟩
      obtain ⟨t, h1, h2⟩ := (hinv.began _ _).1 hy
      obtain ⟨t', h1', h2'⟩ := (hinv.began _ _).1 (hinv.lin.began _ hx)
      rw [h1] at h1'
      cases h1'
      rw [← h2', h2]
  rw [hrules, appendedRules_eq]
  have := hperm.filterMap fun y : Nat × ListCall R => ruleOf y.2
  rw [List.filterMap_map] at this
  exact this

/-! ## What a scanner is made of -/

private theorem oneByOne_split {b : List (Nat × ListCall R × ListRes R)} {l'' : List R} {p'' : Bool} :
    ∀ (a : List (Nat × ListCall R × ListRes R)) {l : List R} {p : Bool}, OneByOne l p (a ++ b) l'' p'' →
      ∃ l' p', OneByOne l p a l' p' ∧ OneByOne l' p' b l'' p''
  | [], l, p, h => ⟨l, p, .nil, h⟩
  | y :: a, l, p, h => by
    rw [List.cons_append] at h
    cases h with
    | append h => obtain ⟨l', p', h1, h2⟩ := oneByOne_split a h; exact ⟨l', p', .append h1, h2⟩
    | build h => obtain ⟨l', p', h1, h2⟩ := oneByOne_split a h; exact ⟨l', p', .build h1, h2⟩
    | panic h => obtain ⟨l', p', h1, h2⟩ := oneByOne_split a h; exact ⟨l', p', .panic h1, h2⟩
    | lost h => obtain ⟨l', p', h1, h2⟩ := oneByOne_split a h; exact ⟨l', p', .lost h1, h2⟩
    | refused h => obtain ⟨l', p', h1, h2⟩ := oneByOne_split a h; exact ⟨l', p', .refused h1, h2⟩

private theorem oneByOne_built {l l' m : List R} {p p' : Bool} {calls : List (Nat × ListCall R × ListRes R)} {i : Nat}
    {x : ListCall R} (h : OneByOne l p calls l' p') (hi : (i, x, .built m) ∈ calls) : p = false ∧ ∀ r ∈ l, r ∈ m := by
  induction h with
  | nil => cases hi
  | append _ ih =>
    rcases List.mem_cons.1 hi with hi | hi
    · cases hi
    · exact ⟨rfl, fun r hr => (ih hi).2 r (List.mem_append_left _ hr)⟩
  | build _ ih =>
    rcases List.mem_cons.1 hi with hi | hi
    · cases hi
      exact ⟨rfl, fun r hr => hr⟩
    · exact ih hi
  | panic _ ih =>
    rcases List.mem_cons.1 hi with hi | hi
    · cases hi
    · exact ⟨rfl, (ih hi).2⟩
  | lost _ ih =>
    rcases List.mem_cons.1 hi with hi | hi
    · cases hi
    · exact ih hi
  | refused _ ih =>
    rcases List.mem_cons.1 hi with hi | hi
    · cases hi
    · exact ih hi

private theorem oneByOne_kept {l l' : List R} {p p' : Bool} {calls : List (Nat × ListCall R × ListRes R)}
    (h : OneByOne l p calls l' p') (hp : p' = false) :
    p = false ∧ (∀ r ∈ l, r ∈ l') ∧ ∀ i r res, (i, .append r, res) ∈ calls → r ∈ l' := by
  induction h with
  | nil => exact ⟨hp, fun r hr => hr, fun i r res h => by cases h⟩
  | append _ ih =>
    obtain ⟨_, h2, h3⟩ := ih hp
    refine ⟨rfl, fun r hr => h2 r (List.mem_append_left _ hr), fun i r res hi => ?_⟩
    rcases List.mem_cons.1 hi with hi | hi
    · cases hi
      exact h2 _ (by simp)
    · exact h3 i r res hi
  | build _ ih =>
    obtain ⟨_, h2, h3⟩ := ih hp
    refine ⟨rfl, h2, fun i r res hi => ?_⟩
    rcases List.mem_cons.1 hi with hi | hi
    · cases hi
    · exact h3 i r res hi
  | panic _ ih => exact absurd (ih hp).1 (by simp)
  | lost _ ih => exact absurd (ih hp).1 (by simp)
  | refused _ ih => exact absurd (ih hp).1 (by simp)

/-- C112: a scanner is made of all rules whose appending had ended before its creation began. -/
theorem C112_built_with {c : ListConf R} (h : ListReach c) {i j : Nat} {r : R} {l : List R}
    (hj : .begins j (.append r) ∈ c.trace) (hij : EndsBefore c.trace j i) (hi : .ends i (.built l) ∈ c.trace) : r ∈ l := by
  obtain ⟨calls, hinv⟩ := listInv_reach h
  obtain ⟨x, hx⟩ := hinv.lin.ended i _ hi
  obtain ⟨a, b, hab, ha, hb⟩ := hinv.lin.order j i hij (List.mem_map.2 ⟨_, hx, rfl⟩)
  have heff := hinv.lin.effect
  have honce := hinv.lin.once
  rw [hab] at heff honce hx
  obtain ⟨l', p', h1, h2⟩ := oneByOne_split a heff
  have hxb : (i, x, .built l) ∈ b := by
    rcases List.mem_append.1 hx with hx | hx
    · rw [List.map_append, List.nodup_append] at honce
      exact absurd rfl (honce.2.2 i (List.mem_map.2 ⟨_, hx, rfl⟩) i hb)
    · exact hx
  obtain ⟨hp, hsub⟩ := oneByOne_built h2 hxb
  obtain ⟨_, _, h3⟩ := oneByOne_kept h1 hp
  obtain ⟨⟨j', y, res⟩, hy, he⟩ := List.mem_map.1 ha
  dsimp only at he
  subst he
  have hb' := hinv.lin.began _ (by rw [hab]; exact List.mem_append_left _ hy)
  obtain ⟨t, t1, t2⟩ := (hinv.began _ _).1 hb'
  obtain ⟨t', t1', t2'⟩ := (hinv.began _ _).1 hj
  rw [t1] at t1'
  cases t1'
  have : y = .append r := t2.symm.trans t2'
  subst this
  exact hsub r (h3 _ _ _ hy)

/-! ## Examples -/

private def c1 : ListConf Nat := (ListConf.init.begin_ (.append 7)).begin_ (.append 8)

private def c2 : ListConf Nat :=
  ⟨[8, 7], false, [⟨.append 7, .returned .appended⟩, ⟨.append 8, .returned .appended⟩, ⟨.create, .returned (.built [8, 7])⟩],
    [.begins 0 (.append 7), .begins 1 (.append 8), .ends 1 .appended, .ends 0 .appended, .begins 2 .create, .ends 2 (.built [8, 7])]⟩

private theorem c1_reach : ListReach c1 := .call _ (.call _ .init)

private theorem free_of {c : ListConf Nat} (h : (c.threads.all fun t => !t.holds) = true) : c.Free := by
  intro t ht
  have := List.all_eq_true.1 h t ht
  simpa using this

/-- The hypotheses are met: two rules are appended by two threads at once, and a scanner is made of them. -/
private theorem c2_reach : ListReach c2 := by
  have h0 := c1_reach
  have h1 := ListReach.step h0 (.lock (i := 1) (t := ⟨.append 8, .begun⟩) rfl rfl (free_of rfl) rfl)
  have h2 := ListReach.step h1 (.load (i := 1) (t := ⟨.append 8, .locked⟩) rfl rfl)
  have h3 := ListReach.step h2 (.store (i := 1) (t := ⟨.append 8, .loaded []⟩) rfl rfl rfl)
  have h4 := ListReach.step h3 (.unlock (i := 1) (t := ⟨.append 8, .stored⟩) rfl rfl)
  have h5 := ListReach.step h4 (.lock (i := 0) (t := ⟨.append 7, .begun⟩) rfl rfl (free_of rfl) rfl)
  have h6 := ListReach.step h5 (.load (i := 0) (t := ⟨.append 7, .locked⟩) rfl rfl)
  have h7 := ListReach.step h6 (.store (i := 0) (t := ⟨.append 7, .loaded [8]⟩) rfl rfl rfl)
  have h8 := ListReach.step h7 (.unlock (i := 0) (t := ⟨.append 7, .stored⟩) rfl rfl)
  have h9 := ListReach.call .create h8
  have h10 := ListReach.step h9 (.lock (i := 2) (t := ⟨.create, .begun⟩) rfl rfl (free_of rfl) rfl)
  have h11 := ListReach.step h10 (.load (i := 2) (t := ⟨.create, .locked⟩) rfl rfl)
  exact ListReach.step h11 (.made (i := 2) (t := ⟨.create, .loaded [8, 7]⟩) rfl rfl rfl)

example : ListReach c2 ∧ AllEnded c2.trace ∧ (∀ i, .ends i .failed ∉ c2.trace) ∧ appendedRules c2.trace = [7, 8] ∧
    .begins 0 (.append 7) ∈ c2.trace ∧ EndsBefore c2.trace 0 2 ∧ .ends 2 (.built [8, 7]) ∈ c2.trace := by
  refine ⟨c2_reach, ?_, ?_, rfl, by decide, ?_, by decide⟩
  · intro i x h
    simp only [c2, List.mem_cons, ListEvent.begins.injEq, reduceCtorEq, List.not_mem_nil, or_false, false_or] at h
    rcases h with ⟨rfl, rfl⟩ | ⟨rfl, rfl⟩ | ⟨rfl, rfl⟩
    · exact ⟨.appended, by decide⟩
    · exact ⟨.appended, by decide⟩
    · exact ⟨.built [8, 7], by decide⟩
  · intro i h
    simp [c2] at h
  · exact ⟨[.begins 0 (.append 7), .begins 1 (.append 8), .ends 1 .appended, .ends 0 .appended],
      [.begins 2 .create, .ends 2 (.built [8, 7])], .appended, .create, rfl, by decide, by decide⟩

/-- Finding (C112): after a panic in `create_scanner`, appending a rule does nothing, and the caller is not told: the function
returns nothing in either case. -/
theorem C112_append_lost : ∃ c : ListConf Nat, ListReach c ∧
    c.trace = [.begins 0 .create, .ends 0 .failed, .begins 1 (.append 7), .ends 1 .dropped] ∧ c.rules = [] := by
  have h0 : ListReach (ListConf.init (R := Nat)) := .init
  have h1 := ListReach.call .create h0
  have h2 := ListReach.step h1 (.lock (i := 0) (t := ⟨.create, .begun⟩) rfl rfl (free_of rfl) rfl)
  have h3 := ListReach.step h2 (.load (i := 0) (t := ⟨.create, .locked⟩) rfl rfl)
  have h4 := ListReach.step h3 (.panic (i := 0) (t := ⟨.create, .loaded []⟩) rfl rfl rfl)
  have h5 := ListReach.call (.append 7) h4
  have h6 := ListReach.step h5 (.refuse (i := 1) (t := ⟨.append 7, .begun⟩) rfl rfl (free_of rfl) rfl)
  exact ⟨_, h6, rfl, rfl⟩

end Sds.Props
