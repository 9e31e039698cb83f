import Verif.Spec.SharedList

/-! # Calls on a shared list: the invariant -/

namespace Sds
open Spec
variable {R : Type}

theorem oneByOne_append {l l' l'' : List R} {p p' p'' : Bool} {calls calls' : List (Nat × ListCall R × ListRes R)}
    (h : OneByOne l p calls l' p') (h' : OneByOne l' p' calls' l'' p'') : OneByOne l p (calls ++ calls') l'' p'' := by
  induction h with
  | nil => exact h'
  | append _ ih => exact .append (ih h')
  | build _ ih => exact .build (ih h')
  | panic _ ih => exact .panic (ih h')
  | lost _ ih => exact .lost (ih h')
  | refused _ ih => exact .refused (ih h')

private theorem ids_snoc {calls : List (Nat × ListCall R × ListRes R)} {i j : Nat} {x : ListCall R} {res : ListRes R} :
    j ∈ (calls ++ [(i, x, res)]).map (·.1) ↔ j ∈ calls.map (·.1) ∨ j = i := by
  rw [List.map_append, List.mem_append]
  simp

private theorem Spec.ComesFirst.snoc {calls calls' : List (Nat × ListCall R × ListRes R)} {i j : Nat} (h : ComesFirst calls i j) :
    ComesFirst (calls ++ calls') i j := by
  obtain ⟨a, b, rfl, h1, h2⟩ := h
  exact ⟨a, b ++ calls', by simp, h1, by rw [List.map_append]; exact List.mem_append_left _ h2⟩

private theorem Spec.EndsBefore.ended {tr : List (ListEvent R)} {i j : Nat} (h : EndsBefore tr i j) : ∃ res, .ends i res ∈ tr := by
  obtain ⟨a, b, res, x, rfl, h1, _⟩ := h
  exact ⟨res, List.mem_append_left _ h1⟩

private theorem endsBefore_snoc {tr : List (ListEvent R)} {ev : ListEvent R} {i j : Nat} (h : EndsBefore (tr ++ [ev]) i j) :
    EndsBefore tr i j ∨ ∃ x, ev = .begins j x := by
  obtain ⟨a, b, res, x, h1, h2, h3⟩ := h
  rcases List.eq_nil_or_concat b with rfl | ⟨b, y, rfl⟩
  · cases h3
  · rw [List.concat_eq_append, ← List.append_assoc] at h1
    obtain ⟨h4, h5⟩ := List.append_inj' h1 rfl
    simp only [List.cons.injEq, and_true] at h5
    rw [List.concat_eq_append, List.mem_append, List.mem_singleton] at h3
    rcases h3 with h3 | h3
    · exact .inl ⟨a, b, res, x, h4, h2, h3⟩
    · exact .inr ⟨x, by rw [h5, h3]⟩

/-- A call takes effect after the others. -/
private theorem lin_snoc {tr : List (ListEvent R)} {l l' : List R} {p p' : Bool} {calls : List (Nat × ListCall R × ListRes R)}
    (h : LinearisedAs tr l p calls) {i : Nat} {x : ListCall R} {res : ListRes R} (hb : .begins i x ∈ tr)
    (hi : i ∉ calls.map (·.1)) (he : OneByOne l p [(i, x, res)] l' p') : LinearisedAs tr l' p' (calls ++ [(i, x, res)]) where
  began := by
    intro y hy
    rcases List.mem_append.1 hy with hy | hy
    · exact h.began y hy
    · rw [List.mem_singleton.1 hy]; exact hb
  ended := by
    intro j r hj
    obtain ⟨y, hy⟩ := h.ended j r hj
    exact ⟨y, List.mem_append_left _ hy⟩
  once := by
    rw [List.map_append, List.nodup_append]
    refine ⟨h.once, by simp, ?_⟩
    intro a ha b hb' hab
    simp only [List.map_cons, List.map_nil, List.mem_singleton] at hb'
    subst hab hb'
    exact hi ha
  order := by
    intro a b hab hb'
    rcases ids_snoc.1 hb' with hb' | rfl
    · exact (h.order a b hab hb').snoc
    · obtain ⟨r, hr⟩ := hab.ended
      obtain ⟨y, hy⟩ := h.ended a r hr
      exact ⟨calls, _, rfl, List.mem_map.2 ⟨_, hy, rfl⟩, by simp⟩
  effect := oneByOne_append h.effect he

private theorem lin_ends {tr : List (ListEvent R)} {l : List R} {p : Bool} {calls : List (Nat × ListCall R × ListRes R)}
    (h : LinearisedAs tr l p calls) {i : Nat} {x : ListCall R} {res : ListRes R} (hi : (i, x, res) ∈ calls) :
    LinearisedAs (tr ++ [.ends i res]) l p calls where
  began y hy := List.mem_append_left _ (h.began y hy)
  ended := by
    intro j r hj
    rcases List.mem_append.1 hj with hj | hj
    · exact h.ended j r hj
    · cases List.mem_singleton.1 hj
      exact ⟨x, hi⟩
  once := h.once
  order := by
    intro a b hab hb
    rcases endsBefore_snoc hab with hab | ⟨y, hy⟩
    · exact h.order a b hab hb
    · cases hy
  effect := h.effect

private theorem lin_begins {tr : List (ListEvent R)} {l : List R} {p : Bool} {calls : List (Nat × ListCall R × ListRes R)}
    (h : LinearisedAs tr l p calls) {n : Nat} {x : ListCall R} (hn : n ∉ calls.map (·.1)) :
    LinearisedAs (tr ++ [.begins n x]) l p calls where
  began y hy := List.mem_append_left _ (h.began y hy)
  ended := by
    intro j r hj
    rcases List.mem_append.1 hj with hj | hj
    · exact h.ended j r hj
    · cases List.mem_singleton.1 hj
  once := h.once
  order := by
    intro a b hab hb
    rcases endsBefore_snoc hab with hab | ⟨y, hy⟩
    · exact h.order a b hab hb
    · cases hy
      exact absurd hb hn
  effect := h.effect

/-- The invariant; `calls` are the calls that have taken effect. -/
structure ListInv (c : ListConf R) (calls : List (Nat × ListCall R × ListRes R)) : Prop where
  lin : LinearisedAs c.trace c.rules c.poisoned calls
  began : ∀ i x, .begins i x ∈ c.trace ↔ ∃ t, c.threads[i]? = some t ∧ t.call = x
  ended : ∀ i res, .ends i res ∈ c.trace ↔ ∃ t, c.threads[i]? = some t ∧ t.pc = .returned res
  effect : ∀ (i : Nat) (t : ListThread R), c.threads[i]? = some t → (i ∈ calls.map (·.1) ↔ t.pc = .stored ∨ ∃ res, t.pc = .returned res)
  stored : ∀ (i : Nat) (t : ListThread R), c.threads[i]? = some t → t.pc = .stored → (i, t.call, .appended) ∈ calls
  loaded : ∀ (i : Nat) (t : ListThread R) l, c.threads[i]? = some t → t.pc = .loaded l → l = c.rules
  one : ∀ (i j : Nat) (t t' : ListThread R), c.threads[i]? = some t → c.threads[j]? = some t' → t.holds = true → t'.holds = true → i = j
  clean : ∀ (i : Nat) (t : ListThread R), c.threads[i]? = some t → t.holds = true → c.poisoned = false

private theorem get_set {l : List (ListThread R)} {i j : Nat} {t t' : ListThread R} (hi : l[i]? = some t) :
    (l.set i t')[j]? = if i = j then some t' else l[j]? := by
  have : i < l.length := by
    rcases Nat.lt_or_ge i l.length with h | h
    · exact h
    · rw [List.getElem?_eq_none h] at hi; cases hi
  rw [List.getElem?_set]
  simp [this]

/-- A call that goes on with the guard. -/
private theorem inv_goOn {c : ListConf R} {calls : List (Nat × ListCall R × ListRes R)} (h : ListInv c calls) {i : Nat}
    {t : ListThread R} (hi : c.threads[i]? = some t) {pc : ListPc R} (hpc : pc = .locked ∨ pc = .loaded c.rules)
    (h0 : t.pc ≠ .stored) (h0' : ∀ res, t.pc ≠ .returned res)
    (hone : ∀ j t', c.threads[j]? = some t' → t'.holds = true → j = i) (hp : c.poisoned = false) :
    ListInv (c.goOn i t pc) calls := by
  have hget : ∀ j, (c.goOn i t pc).threads[j]? = if i = j then some { t with pc := pc } else c.threads[j]? := fun j => get_set hi
  have hns : pc ≠ .stored ∧ (∀ res, pc ≠ .returned res) := by rcases hpc with rfl | rfl <;> simp
  refine ⟨h.lin, fun j x => ?_, fun j res => ?_, fun j t' hj => ?_, fun j t' hj hs => ?_, fun j t' l hj hl => ?_,
    fun j k t₁ t₂ hj hk h₁ h₂ => ?_, fun j t' hj hh => hp⟩
  · rw [hget]
    refine (h.began j x).trans ?_
    by_cases hij : i = j
    · subst hij
      simp [hi]
    · simp [hij]
  · rw [hget]
    refine (h.ended j res).trans ?_
    by_cases hij : i = j
    · subst hij
      simp [hi, h0', hns.2]
    · simp [hij]
  · rw [hget] at hj
    by_cases hij : i = j
    · subst hij
      simp only [if_true, Option.some.injEq] at hj
      subst hj
      rw [h.effect i t hi]
      simp [h0, h0', hns.1, hns.2]
    · rw [if_neg hij] at hj
      exact h.effect j t' hj
  · rw [hget] at hj
    by_cases hij : i = j
    · subst hij
      simp only [if_true, Option.some.injEq] at hj
      subst hj
      exact absurd hs hns.1
    · rw [if_neg hij] at hj
      exact h.stored j t' hj hs
  · rw [hget] at hj
    by_cases hij : i = j
    · subst hij
      simp only [if_true, Option.some.injEq] at hj
      subst hj
      rcases hpc with rfl | rfl
      · cases hl
      · cases hl; rfl
    · rw [if_neg hij] at hj
      exact h.loaded j t' l hj hl
  · have key : ∀ k t', (c.goOn i t pc).threads[k]? = some t' → t'.holds = true → k = i := by
      intro k t' hk hh
      rw [hget] at hk
      by_cases hik : i = k
      · exact hik.symm
      · rw [if_neg hik] at hk
        exact hone k t' hk hh
    rw [key j t₁ hj h₁, key k t₂ hk h₂]

/-- A call that returns and so far had, or has now, its effect. -/
private theorem inv_return {c : ListConf R} {calls calls' : List (Nat × ListCall R × ListRes R)} (h : ListInv c calls) {i : Nat}
    {t : ListThread R} (hi : c.threads[i]? = some t) {res : ListRes R} {p : Bool} (h0 : ∀ res, t.pc ≠ .returned res)
    (hlin : LinearisedAs c.trace c.rules p calls') (hin : (i, t.call, res) ∈ calls')
    (hids : ∀ j, j ≠ i → (j ∈ calls'.map (·.1) ↔ j ∈ calls.map (·.1))) (hsub : ∀ x ∈ calls, x ∈ calls')
    (hp : p = c.poisoned ∨ ∀ j t', c.threads[j]? = some t' → t'.holds = true → j = i) :
    ListInv { c.return_ i t res with poisoned := p } calls' := by
  have hget : ∀ j, ({ c.return_ i t res with poisoned := p } : ListConf R).threads[j]? =
      if i = j then some { t with pc := .returned res } else c.threads[j]? := fun j => get_set hi
  have hmem : ∀ ev : ListEvent R, ev ∈ ({ c.return_ i t res with poisoned := p } : ListConf R).trace ↔
      ev ∈ c.trace ∨ ev = .ends i res := by
    intro ev
    show ev ∈ c.trace ++ [.ends i res] ↔ _
    simp
  refine ⟨lin_ends hlin hin, fun j x => ?_, fun j r => ?_, fun j t' hj => ?_, fun j t' hj hs => ?_, fun j t' l hj hl => ?_,
    fun j k t₁ t₂ hj hk h₁ h₂ => ?_, fun j t' hj hh => ?_⟩
  · rw [hget, hmem]
    have e : (ListEvent.begins j x ∈ c.trace ∨ ListEvent.begins j x = .ends i res) ↔ .begins j x ∈ c.trace := by simp
    rw [e, h.began j x]
    by_cases hij : i = j
    · subst hij
      simp [hi]
    · simp [hij]
  · rw [hget, hmem, h.ended j r]
    by_cases hij : i = j
    · subst hij
      simp [hi, h0, eq_comm]
    · have : ¬ j = i := fun e => hij e.symm
      simp [hij, this]
  · rw [hget] at hj
    by_cases hij : i = j
    · subst hij
      simp only [if_true, Option.some.injEq] at hj
      subst hj
      exact ⟨fun _ => .inr ⟨res, rfl⟩, fun _ => List.mem_map.2 ⟨_, hin, rfl⟩⟩
    · rw [if_neg hij] at hj
      rw [hids j (fun e => hij e.symm)]
      exact h.effect j t' hj
  · rw [hget] at hj
    by_cases hij : i = j
    · subst hij
      simp only [if_true, Option.some.injEq] at hj
      subst hj
      cases hs
    · rw [if_neg hij] at hj
      exact hsub _ (h.stored j t' hj hs)
  · rw [hget] at hj
    by_cases hij : i = j
    · subst hij
      simp only [if_true, Option.some.injEq] at hj
      subst hj
      cases hl
    · rw [if_neg hij] at hj
      exact h.loaded j t' l hj hl
  · rw [hget] at hj hk
    by_cases hij : i = j
    · subst hij
      simp only [if_true, Option.some.injEq] at hj
      subst hj
      cases h₁
    · by_cases hik : i = k
      · subst hik
        simp only [if_true, Option.some.injEq] at hk
        subst hk
        cases h₂
      · rw [if_neg hij] at hj
        rw [if_neg hik] at hk
        exact h.one j k t₁ t₂ hj hk h₁ h₂
  · rw [hget] at hj
    by_cases hij : i = j
    · subst hij
      simp only [if_true, Option.some.injEq] at hj
      subst hj
      cases hh
    · rw [if_neg hij] at hj
      rcases hp with rfl | hp
      · exact h.clean j t' hj hh
      · exact absurd (hp j t' hj hh).symm hij

private theorem ids_of_snoc {calls : List (Nat × ListCall R × ListRes R)} {i : Nat} {x : ListCall R} {res : ListRes R} :
    ∀ j, j ≠ i → (j ∈ (calls ++ [(i, x, res)]).map (·.1) ↔ j ∈ calls.map (·.1)) := by
  intro j hj
  rw [ids_snoc]
  exact ⟨fun h => h.resolve_right hj, .inl⟩

theorem listInv_step {c c' : ListConf R} {calls : List (Nat × ListCall R × ListRes R)} {i : Nat} (h : ListInv c calls)
    (hs : ListStep i c c') : ∃ calls', ListInv c' calls' := by
  have hnone : c.Free → ∀ j (t' : ListThread R), c.threads[j]? = some t' → t'.holds = true → j = i := by
    intro hf j t' hj hh
    rw [hf t' (List.mem_of_getElem? hj)] at hh
    cases hh
  have hfresh : ∀ t, c.threads[i]? = some t → t.pc ≠ .stored → (∀ res, t.pc ≠ .returned res) → i ∉ calls.map (·.1) := by
    intro t hi h1 h2 h3
    rcases (h.effect i t hi).1 h3 with h4 | ⟨res, h4⟩
    · exact h1 h4
    · exact h2 res h4
  have hbeg : ∀ t, c.threads[i]? = some t → .begins i t.call ∈ c.trace := fun t hi => (h.began i t.call).2 ⟨t, hi, rfl⟩
  cases hs with
  | @lock t hi hpc hf hp =>
    exact ⟨calls, inv_goOn h hi (.inl rfl) (by rw [hpc]; simp) (by intro r; rw [hpc]; simp) (hnone hf) hp⟩
  | @refuse t hi hpc hf hp =>
    have h1 : t.pc ≠ .stored := by rw [hpc]; simp
    have h2 : ∀ res, t.pc ≠ .returned res := by intro r; rw [hpc]; simp
    refine ⟨calls ++ [(i, t.call, t.call.refused)], ?_⟩
    refine inv_return (p := c.poisoned) h hi h2 (lin_snoc h.lin (hbeg t hi) (hfresh t hi h1 h2) ?_) (by simp) ids_of_snoc
      (fun x hx => List.mem_append_left _ hx) (.inl rfl)
    rw [hp]
    cases t.call with
    | append r => exact .lost .nil
    | create => exact .refused .nil
  | @load t hi hpc =>
    have hh : t.holds = true := by unfold ListThread.holds; rw [hpc]
    exact ⟨calls, inv_goOn h hi (.inr rfl) (by rw [hpc]; simp) (by intro r; rw [hpc]; simp)
      (fun j t' hj hh' => h.one j i t' t hj hi hh' hh) (h.clean i t hi hh)⟩
  | @store t r l hi hcall hpc =>
    have hh : t.holds = true := by unfold ListThread.holds; rw [hpc]
    have hp := h.clean i t hi hh
    have hl := h.loaded i t l hi hpc
    subst hl
    have h1 : t.pc ≠ .stored := by rw [hpc]; simp
    have h2 : ∀ res, t.pc ≠ .returned res := by intro r; rw [hpc]; simp
    have hget : ∀ j, ({ c.goOn i t .stored with rules := c.rules ++ [r] } : ListConf R).threads[j]? =
      if i = j then some { t with pc := .stored } else c.threads[j]? := fun j => get_set hi
    have hlin : LinearisedAs c.trace (c.rules ++ [r]) c.poisoned (calls ++ [(i, t.call, .appended)]) := by
      refine lin_snoc h.lin (hbeg t hi) (hfresh t hi h1 h2) ?_
      rw [hcall, hp]
      exact .append .nil
    refine ⟨calls ++ [(i, t.call, ListRes.appended)], hlin, fun j x => ?_, fun j res => ?_, fun j t' hj => ?_, fun j t' hj hs => ?_,
      fun j t' l hj hl => ?_, fun j k t₁ t₂ hj hk h₁ h₂ => ?_, fun j t' hj hh => hp⟩
    · rw [hget]
      refine (h.began j x).trans ?_
      by_cases hij : i = j
      · subst hij
        simp [hi]
      · simp [hij]
    · rw [hget]
      refine (h.ended j res).trans ?_
      by_cases hij : i = j
      · subst hij
        simp [hi, hpc]
      · simp [hij]
    · rw [hget] at hj
      by_cases hij : i = j
      · subst hij
        simp only [if_true, Option.some.injEq] at hj
        subst hj
        simp
      · rw [if_neg hij] at hj
        rw [ids_of_snoc j (fun e => hij e.symm)]
        exact h.effect j t' hj
    · rw [hget] at hj
      by_cases hij : i = j
      · subst hij
        simp only [if_true, Option.some.injEq] at hj
        subst hj
        simp
      · rw [if_neg hij] at hj
        exact List.mem_append_left _ (h.stored j t' hj hs)
    · rw [hget] at hj
      by_cases hij : i = j
      · subst hij
        simp only [if_true, Option.some.injEq] at hj
        subst hj
        cases hl
      · rw [if_neg hij] at hj
        have hh' : t'.holds = true := by unfold ListThread.holds; rw [hl]
        exact absurd (h.one i j t t' hi hj hh hh') hij
    · have key : ∀ k t', ({ c.goOn i t .stored with rules := c.rules ++ [r] } : ListConf R).threads[k]? = some t' →
          t'.holds = true → k = i := by
        intro k t' hk hh'
        rw [hget] at hk
        by_cases hik : i = k
        · exact hik.symm
        · rw [if_neg hik] at hk
          exact h.one k i t' t hk hi hh' hh
      rw [key j t₁ hj h₁, key k t₂ hk h₂]
  | @unlock t hi hpc =>
    have h2 : ∀ res, t.pc ≠ .returned res := by intro r; rw [hpc]; simp
    exact ⟨calls, inv_return (p := c.poisoned) h hi h2 h.lin (h.stored i t hi hpc) (fun _ _ => Iff.rfl) (fun _ hx => hx)
      (.inl rfl)⟩
  | @made t l hi hcall hpc =>
    have hh : t.holds = true := by unfold ListThread.holds; rw [hpc]
    have hp := h.clean i t hi hh
    have hl := h.loaded i t l hi hpc
    subst hl
    have h1 : t.pc ≠ .stored := by rw [hpc]; simp
    have h2 : ∀ res, t.pc ≠ .returned res := by intro r; rw [hpc]; simp
    refine ⟨calls ++ [(i, t.call, .built c.rules)], ?_⟩
    refine inv_return (p := c.poisoned) h hi h2 (lin_snoc h.lin (hbeg t hi) (hfresh t hi h1 h2) ?_) (by simp) ids_of_snoc
      (fun x hx => List.mem_append_left _ hx) (.inl rfl)
    rw [hcall, hp]
    exact .build .nil
  | @panic t l hi hcall hpc =>
    have hh : t.holds = true := by unfold ListThread.holds; rw [hpc]
    have hp := h.clean i t hi hh
    have h1 : t.pc ≠ .stored := by rw [hpc]; simp
    have h2 : ∀ res, t.pc ≠ .returned res := by intro r; rw [hpc]; simp
    refine ⟨calls ++ [(i, t.call, .failed)], ?_⟩
    refine inv_return h hi h2 (lin_snoc h.lin (hbeg t hi) (hfresh t hi h1 h2) ?_) (by simp) ids_of_snoc
      (fun x hx => List.mem_append_left _ hx) (.inr fun j t' hj hh' => h.one j i t' t hj hi hh' hh)
    rw [hcall, hp]
    exact .panic .nil

theorem listInv_call {c : ListConf R} {calls : List (Nat × ListCall R × ListRes R)} (h : ListInv c calls) (x : ListCall R) :
    ListInv (c.begin_ x) calls := by
  have hget : ∀ j t, (c.begin_ x).threads[j]? = some t ↔ c.threads[j]? = some t ∨ (j = c.threads.length ∧ t = ⟨x, .begun⟩) := by
    intro j t
    show (c.threads ++ [⟨x, .begun⟩])[j]? = some t ↔ _
    rcases Nat.lt_trichotomy j c.threads.length with hj | hj | hj
    · rw [List.getElem?_append_left hj]
      exact ⟨.inl, fun h => h.resolve_right fun h => by omega⟩
    · subst hj
      rw [List.getElem?_append_right (Nat.le_refl _)]
      simp [eq_comm]
    · rw [List.getElem?_eq_none (by simp; omega), List.getElem?_eq_none (by omega)]
      constructor
      · intro h; cases h
      · rintro (h | h)
        · cases h
        · omega
  have hlt : ∀ {j t}, c.threads[j]? = some t → j < c.threads.length := by
    intro j t hj
    rcases Nat.lt_or_ge j c.threads.length with h | h
    · exact h
    · rw [List.getElem?_eq_none h] at hj; cases hj
  have hn : c.threads.length ∉ calls.map (·.1) := by
    intro hin
    obtain ⟨y, hy, he⟩ := List.mem_map.1 hin
    obtain ⟨t, ht, _⟩ := (h.began _ _).1 (h.lin.began y hy)
    have := hlt ht
    omega
  have hmem : ∀ ev : ListEvent R, ev ∈ (c.begin_ x).trace ↔ ev ∈ c.trace ∨ ev = .begins c.threads.length x := by
    intro ev
    show ev ∈ c.trace ++ [_] ↔ _
    simp
  refine ⟨lin_begins h.lin hn, fun j y => ?_, fun j res => ?_, fun j t hj => ?_, fun j t hj hs => ?_, fun j t l hj hl => ?_,
    fun j k t₁ t₂ hj hk h₁ h₂ => ?_, fun j t hj hh => ?_⟩
  · rw [hmem, h.began]
    simp only [hget]
    constructor
    · rintro (⟨t, ht, he⟩ | he)
      · exact ⟨t, .inl ht, he⟩
      · cases he
        exact ⟨⟨x, .begun⟩, .inr ⟨rfl, rfl⟩, rfl⟩
    · rintro ⟨t, ht | ⟨rfl, rfl⟩, he⟩
      · exact .inl ⟨t, ht, he⟩
      · exact .inr (by rw [← he])
  · rw [hmem, h.ended]
    simp only [hget]
    constructor
    · rintro (⟨t, ht, he⟩ | he)
      · exact ⟨t, .inl ht, he⟩
      · cases he
    · rintro ⟨t, ht | ⟨rfl, rfl⟩, he⟩
      · exact .inl ⟨t, ht, he⟩
      · cases he
  · rcases (hget j t).1 hj with hj | ⟨rfl, rfl⟩
    · exact h.effect j t hj
    · simp only [reduceCtorEq, exists_false, or_false, iff_false]
      exact hn
  · rcases (hget j t).1 hj with hj | ⟨rfl, rfl⟩
    · exact h.stored j t hj hs
    · cases hs
  · rcases (hget j t).1 hj with hj | ⟨rfl, rfl⟩
    · exact h.loaded j t l hj hl
    · cases hl
  · rcases (hget j t₁).1 hj with hj | ⟨rfl, rfl⟩
    · rcases (hget k t₂).1 hk with hk | ⟨rfl, rfl⟩
      · exact h.one j k t₁ t₂ hj hk h₁ h₂
      · cases h₂
    · cases h₁
  · rcases (hget j t).1 hj with hj | ⟨rfl, rfl⟩
    · exact h.clean j t hj hh
    · cases hh

theorem listInv_reach {c : ListConf R} (h : ListReach c) : ∃ calls, ListInv c calls := by
  induction h with
  | init =>
    refine ⟨[], ⟨?_, ?_, .nil, ?_, .nil⟩, ?_, ?_, ?_, ?_, ?_, ?_, ?_⟩
    · intro x hx; cases hx
    · intro i res h; cases h
    · intro i j _ h; cases h
    all_goals simp [ListConf.init]
  | call x _ ih =>
    obtain ⟨calls, ih⟩ := ih
    exact ⟨calls, listInv_call ih x⟩
  | step _ hs ih =>
    obtain ⟨calls, ih⟩ := ih
    exact listInv_step ih hs

end Sds
