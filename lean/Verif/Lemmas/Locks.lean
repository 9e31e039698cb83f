import Verif.Spec.Locks

/-! # Invariants of the locks -/

namespace Sds
open Sds.Spec
variable {H α : Type} {fac : AskKind → Str → FacRes}

/-- Locks are taken in this order. -/
def Mtx.rank : Mtx → Nat
  | .list _ => 0
  | .store => 1

theorem Mtx.rank_le (m : Mtx) : m.rank ≤ 1 := by
  cases m
  · exact Nat.le_refl 1
  · exact Nat.zero_le 1

/-- With these guards, the rest of a call takes locks in order, drops the guards it has, and neither compiles nor panics with
the store locked. -/
def Ord : List Mtx → LockProg H → Prop
  | held, .done _ => held = []
  | held, .lock m p => (∀ x ∈ held, x.rank < m.rank) ∧ Ord (m :: held) p
  | held, .unlock m p => m ∈ held ∧ Ord (held.erase m) p
  | held, .compile p => Mtx.store ∉ held ∧ Ord held p
  | held, .either p q => Ord held p ∧ Ord held q
  | held, .pick k => ∀ h, Ord held (k h)
  | held, .panic => Mtx.store ∉ held

/-- There is a panic in the rest of a call, or it has panicked. -/
def Panics : LockProg H → Prop
  | .done b => b = true
  | .lock _ p => Panics p
  | .unlock _ p => Panics p
  | .compile p => Panics p
  | .either p q => Panics p ∨ Panics q
  | .pick k => ∃ h, Panics (k h)
  | .panic => True

/-- The rest of a call takes a lock. -/
def Takes (x : Mtx) : LockProg H → Prop
  | .done _ => False
  | .lock m p => x = m ∨ Takes x p
  | .unlock _ p => Takes x p
  | .compile p => Takes x p
  | .either p q => Takes x p ∨ Takes x q
  | .pick k => ∃ h, Takes x (k h)
  | .panic => False

/-! ## The programs of the calls -/

theorem ord_leave (m : Option Mtx) : Ord m.toList (LockProg.leave (H := H) m) := by
  cases m with
  | none => rfl
  | some m => exact ⟨List.mem_singleton_self m, by simp [Ord]⟩

theorem ord_memo {held : List Mtx} (hs : ∀ x ∈ held, ∃ l, x = .list l) {f : FacRes} {no : LockProg H} {yes : H → LockProg H}
    (hn : Ord held no) (hy : ∀ h, Ord held (yes h)) : Ord held (memoLocks f no yes) := by
  have hns : Mtx.store ∉ held := fun h => by obtain ⟨l, e⟩ := hs _ h; cases e
  have hr : ∀ x ∈ held, x.rank < Mtx.store.rank := fun x hx => by
    obtain ⟨l, rfl⟩ := hs x hx
    exact Nat.zero_lt_one
  have hu : ∀ p : LockProg H, Ord held p → Ord (.store :: held) (.unlock .store p) := fun p hp =>
    ⟨List.mem_cons_self, by rwa [List.erase_cons_head]⟩
  refine ⟨hr, fun h => hu _ (hy h), List.mem_cons_self, ?_⟩
  rw [List.erase_cons_head]
  refine ⟨hns, ?_⟩
  cases f with
  | built => exact ⟨hr, fun h => hu _ (hy h)⟩
  | rejected => exact hn
  | panics => exact hns

theorem ord_build {m : Option Mtx} (hs : ∀ x ∈ m.toList, ∃ l, x = .list l) :
    ∀ b : Prog H α, Ord m.toList (buildLocks fac m b)
  | .done _ => ord_leave m
  | .panic => fun h => by obtain ⟨l, e⟩ := hs _ h; cases e
  | .ask kind p k => by
    refine ord_memo hs ?_ fun h => ord_build hs (k h)
    cases kind with
    | rule => exact ord_leave m
    | keyword => exact fun h => by obtain ⟨l, e⟩ := hs _ h; cases e

theorem ord_call (x : LockCall H α) : Ord [] (x.locks fac) := by
  cases x with
  | append l => exact ⟨(fun _ h => nomatch h), List.mem_singleton_self _, List.erase_cons_head _ _⟩
  | createScanner l b =>
    exact ⟨(fun _ h => nomatch h), ord_build (m := some (.list l)) (fun x hx => ⟨l, List.mem_singleton.mp hx⟩) b⟩
  | build b => exact ord_build (m := none) (fun x hx => nomatch hx) b
  | other => rfl

theorem panics_leave {m : Option Mtx} : ¬ Panics (LockProg.leave (H := H) m) := by
  cases m <;> exact Bool.false_ne_true

theorem panics_build {m : Option Mtx} : ∀ b : Prog H α, Panics (buildLocks fac m b) → MayPanic fac b
  | .done _, h => absurd h panics_leave
  | .panic, _ => .panic
  | .ask kind p k, h => by
    rcases h with ⟨a, h⟩ | h
    · exact .later (panics_build (k a) h)
    · dsimp only [Panics] at h
      cases hf : fac kind p with
      | panics => exact .factory hf
      | built =>
        rw [hf] at h
        obtain ⟨a, h⟩ := h
        exact .later (panics_build (k a) h)
      | rejected =>
        rw [hf] at h
        cases kind with
        | rule => exact absurd h panics_leave
        | keyword => exact .keywords hf

/-- The program a call runs may panic. -/
def LockCall.MayPanic (fac : AskKind → Str → FacRes) : LockCall H α → Prop
  | .createScanner _ b => Spec.MayPanic fac b
  | .build b => Spec.MayPanic fac b
  | _ => False

theorem panics_call (x : LockCall H α) (h : Panics (x.locks fac)) : x.MayPanic fac := by
  cases x with
  | append l => exact nomatch h
  | createScanner l b => exact panics_build b h
  | build b => exact panics_build b h
  | other => exact nomatch h

theorem takes_leave {m : Option Mtx} {x : Mtx} : ¬ Takes x (LockProg.leave (H := H) m) := by
  cases m <;> exact id

theorem takes_build {m : Option Mtx} {x : Mtx} : ∀ b : Prog H α, Takes x (buildLocks fac m b) → x = .store
  | .done _, h => absurd h takes_leave
  | .panic, h => nomatch h
  | .ask kind p k, h => by
    rcases h with h | ⟨a, h⟩ | h
    · exact h
    · exact takes_build (k a) h
    · dsimp only [Takes] at h
      cases hf : fac kind p with
      | panics => rw [hf] at h; exact nomatch h
      | built =>
        rw [hf] at h
        rcases h with h | ⟨a, h⟩
        · exact h
        · exact takes_build (k a) h
      | rejected =>
        rw [hf] at h
        cases kind with
        | rule => exact absurd h takes_leave
        | keyword => exact nomatch h

/-- The list a call is about. -/
def LockCall.listOf : LockCall H α → Option Nat
  | .append l => some l
  | .createScanner l _ => some l
  | _ => none

theorem takes_call (x : LockCall H α) {l : Nat} (h : Takes (.list l) (x.locks fac)) : x.listOf = some l := by
  cases x with
  | append l' =>
    rcases h with h | h
    · cases h; rfl
    · exact nomatch h
  | createScanner l' b =>
    rcases h with h | h
    · cases h; rfl
    · cases takes_build b h
  | build b => cases takes_build b h
  | other => exact nomatch h

/-! ## Steps -/

/-- What a step that does not panic does to a call. -/
structure Plain (c : LockConf H α) (t : LockThread H α) (p : LockProg H) (held : List Mtx) : Prop where
  ord : Ord t.held t.prog → Ord held p
  got : ∀ m ∈ held, m ∈ t.held ∨ (c.Free m ∧ Takes m t.prog)
  takes : ∀ m, Takes m p → Takes m t.prog
  panics : Panics p → Panics t.prog

/-- How a step can change the state. -/
theorem step_cases {i : Nat} {c c' : LockConf H α} (h : LockStep i c c') :
    ∃ t p held, c.threads[i]? = some t ∧ c'.threads = c.threads.set i { t with prog := p, held := held } ∧
      ((c'.poisoned = c.poisoned ∧ Plain c t p held) ∨
        (c'.poisoned = t.held ++ c.poisoned ∧ t.prog = .panic ∧ p = .done true ∧ held = []) ∨
        (c'.poisoned = t.held ++ c.poisoned ∧ (∃ m q, t.prog = .lock m q ∧ m ∈ c.poisoned) ∧ p = .done true ∧ held = [])) := by
  cases h with
  | @lock t m p ht hp hf hm =>
    refine ⟨t, p, m :: t.held, ht, rfl, .inl ⟨rfl, ?_, ?_, ?_, ?_⟩⟩
    · rw [hp]; exact fun h => h.2
    · intro x hx
      rcases List.mem_cons.mp hx with rfl | hx
      · exact .inr ⟨hf, by rw [hp]; exact .inl rfl⟩
      · exact .inl hx
    · rw [hp]; exact fun x h => .inr h
    · rw [hp]; exact id
  | @poisoned t m p ht hp hf hm => exact ⟨t, .done true, [], ht, rfl, .inr (.inr ⟨rfl, ⟨m, p, hp, hm⟩, rfl, rfl⟩)⟩
  | @unlock t m p ht hp =>
    refine ⟨t, p, t.held.erase m, ht, rfl, .inl ⟨rfl, ?_, fun x hx => .inl (List.mem_of_mem_erase hx), ?_, ?_⟩⟩
    · rw [hp]; exact fun h => h.2
    · rw [hp]; exact fun x h => h
    · rw [hp]; exact id
  | @compile t p ht hp =>
    refine ⟨t, p, t.held, ht, rfl, .inl ⟨rfl, ?_, fun x hx => .inl hx, ?_, ?_⟩⟩
    · rw [hp]; exact fun h => h.2
    · rw [hp]; exact fun x h => h
    · rw [hp]; exact id
  | @left t p q ht hp =>
    refine ⟨t, p, t.held, ht, rfl, .inl ⟨rfl, ?_, fun x hx => .inl hx, ?_, ?_⟩⟩
    · rw [hp]; exact fun h => h.1
    · rw [hp]; exact fun x h => .inl h
    · rw [hp]; exact .inl
  | @right t p q ht hp =>
    refine ⟨t, q, t.held, ht, rfl, .inl ⟨rfl, ?_, fun x hx => .inl hx, ?_, ?_⟩⟩
    · rw [hp]; exact fun h => h.2
    · rw [hp]; exact fun x h => .inr h
    · rw [hp]; exact .inr
  | @pick t k a ht hp =>
    refine ⟨t, k a, t.held, ht, rfl, .inl ⟨rfl, ?_, fun x hx => .inl hx, ?_, ?_⟩⟩
    · rw [hp]; exact fun h => h a
    · rw [hp]; exact fun x h => ⟨a, h⟩
    · rw [hp]; exact fun h => ⟨a, h⟩
  | @panic t ht hp => exact ⟨t, .done true, [], ht, rfl, .inr (.inl ⟨rfl, hp, rfl, rfl⟩)⟩

theorem LockStep.busy {i : Nat} {c c' : LockConf H α} (h : LockStep i c c') {t : LockThread H α}
    (ht : c.threads[i]? = some t) (b : Bool) : t.prog ≠ .done b := by
  cases h with
  | lock ht' hp _ _ => rw [ht] at ht'; cases ht'; rw [hp]; exact nofun
  | poisoned ht' hp _ _ => rw [ht] at ht'; cases ht'; rw [hp]; exact nofun
  | unlock ht' hp => rw [ht] at ht'; cases ht'; rw [hp]; exact nofun
  | compile ht' hp => rw [ht] at ht'; cases ht'; rw [hp]; exact nofun
  | left ht' hp => rw [ht] at ht'; cases ht'; rw [hp]; exact nofun
  | right ht' hp => rw [ht] at ht'; cases ht'; rw [hp]; exact nofun
  | pick ht' hp => rw [ht] at ht'; cases ht'; rw [hp]; exact nofun
  | panic ht' hp => rw [ht] at ht'; cases ht'; rw [hp]; exact nofun

/-! ## The invariant -/

structure LockInv (fac : AskKind → Str → FacRes) (c : LockConf H α) : Prop where
  ord : ∀ (i : Nat) t, c.threads[i]? = some t → Ord t.held t.prog
  excl : ∀ (i j : Nat) t u m, c.threads[i]? = some t → c.threads[j]? = some u → m ∈ t.held → m ∈ u.held → i = j
  store : Mtx.store ∉ c.poisoned
  own : ∀ (i : Nat) t l, c.threads[i]? = some t → (.list l ∈ t.held ∨ Takes (.list l) t.prog) → t.call.listOf = some l
  culprit : ∀ l, .list l ∈ c.poisoned →
    ∃ (i : Nat) (t : LockThread H α) (b : Prog H α), c.threads[i]? = some t ∧ t.call = .createScanner l b ∧ t.prog = .done true ∧ MayPanic fac b
  panics : ∀ (i : Nat) t, c.threads[i]? = some t → t.prog ≠ .done true → Panics t.prog → t.call.MayPanic fac
  ended : ∀ (i : Nat) t, c.threads[i]? = some t → t.prog = .done true →
    t.call.MayPanic fac ∨ ∃ l, t.call.listOf = some l ∧ .list l ∈ c.poisoned

theorem lock_set_or {β : Type} {l : List β} {i j : Nat} {x y : β} (h : (l.set i x)[j]? = some y) :
    (j = i ∧ y = x) ∨ (j ≠ i ∧ l[j]? = some y) := by
  by_cases e : i = j
  · subst e
    by_cases hl : i < l.length
    · rw [List.getElem?_set_self hl] at h
      exact .inl ⟨rfl, (Option.some.inj h).symm⟩
    · rw [List.getElem?_eq_none (by simpa using hl)] at h
      cases h
  · rw [List.getElem?_set_ne e] at h
    exact .inr ⟨fun e' => e e'.symm, h⟩

theorem lock_set_at {β : Type} {l : List β} {i : Nat} {x t : β} (h : l[i]? = some t) : (l.set i x)[i]? = some x :=
  List.getElem?_set_self (List.getElem?_eq_some_iff.mp h).1

theorem lock_append_one {β : Type} {l : List β} {j : Nat} {x y : β} (h : (l ++ [x])[j]? = some y) :
    l[j]? = some y ∨ y = x := by
  by_cases hl : j < l.length
  · rw [List.getElem?_append_left hl] at h
    exact .inl h
  · rw [List.getElem?_append_right (by omega)] at h
    by_cases e : j - l.length = 0
    · rw [e] at h; cases h; exact .inr rfl
    · rw [List.getElem?_eq_none (by simp; omega)] at h; cases h

theorem no_done_call (x : LockCall H α) : x.locks fac ≠ .done true := by
  cases x with
  | append l => exact nofun
  | createScanner l b => exact nofun
  | build b => cases b <;> exact nofun
  | other => exact nofun

theorem lockInv {c : LockConf H α} (hr : LockReach fac c) : LockInv fac c := by
  induction hr with
  | init =>
    exact ⟨(fun _ _ h => nomatch h), (fun _ _ _ _ _ h => nomatch h), (fun h => nomatch h), (fun _ _ _ h => nomatch h),
      (fun _ h => nomatch h), (fun _ _ h => nomatch h), (fun _ _ h => nomatch h)⟩
  | @call c hr x ih =>
    refine ⟨?_, ?_, ih.store, ?_, ?_, ?_, ?_⟩
    · intro i t ht
      rcases lock_append_one ht with ht | rfl
      · exact ih.ord i t ht
      · exact ord_call x
    · intro i j t u m ht hu hm hm'
      rcases lock_append_one ht with ht | rfl
      · rcases lock_append_one hu with hu | rfl
        · exact ih.excl i j t u m ht hu hm hm'
        · exact nomatch hm'
      · exact nomatch hm
    · intro i t l ht h
      rcases lock_append_one ht with ht | rfl
      · exact ih.own i t l ht h
      · rcases h with h | h
        · exact nomatch h
        · exact takes_call x h
    · intro l hl
      obtain ⟨i, t, b, ht, h⟩ := ih.culprit l hl
      exact ⟨i, t, b, by rw [List.getElem?_append_left (List.getElem?_eq_some_iff.mp ht).1]; exact ht, h⟩
    · intro i t ht hd h
      rcases lock_append_one ht with ht | rfl
      · exact ih.panics i t ht hd h
      · exact panics_call x h
    · intro i t ht h
      rcases lock_append_one ht with ht | rfl
      · exact ih.ended i t ht h
      · exact absurd h (no_done_call x)
  | @step c c' i hr hs ih =>
    obtain ⟨t, p, held, ht, hth, hk⟩ := step_cases hs
    have hbusy := hs.busy ht
    have ho := ih.ord i t ht
    /- what a call that unwinds holds -/
    have hheld : ∀ m ∈ t.held, (t.prog = .panic ∨ ∃ m q, t.prog = .lock m q ∧ m ∈ c.poisoned) →
        ∃ l b, m = .list l ∧ t.call = .createScanner l b ∧ MayPanic fac b := by
      intro m hm hc
      rcases hc with hp | ⟨x, q, hp, hx⟩
      · rw [hp] at ho
        cases m with
        | store => exact absurd hm ho
        | list l =>
          have hl := ih.own i t l ht (.inl hm)
          have hc := ih.panics i t ht (hbusy true) (by rw [hp]; trivial)
          cases hcall : t.call with
          | createScanner l' b =>
            rw [hcall] at hl hc
            cases hl
            exact ⟨l, b, rfl, rfl, hc⟩
          | append l' => rw [hcall] at hc; exact nomatch hc
          | build b => rw [hcall] at hl; exact nomatch hl
          | other => rw [hcall] at hl; exact nomatch hl
      · rw [hp] at ho
        cases x with
        | store => exact absurd hx ih.store
        | list l' => exact absurd (ho.1 m hm) (Nat.not_lt_zero _)
    have hpo : (c'.poisoned = c.poisoned) ∨ (c'.poisoned = t.held ++ c.poisoned ∧ p = .done true ∧
        (t.prog = .panic ∨ ∃ m q, t.prog = .lock m q ∧ m ∈ c.poisoned)) := by
      rcases hk with ⟨e, _⟩ | ⟨e, h, h', _⟩ | ⟨e, h, h', _⟩
      · exact .inl e
      · exact .inr ⟨e, h', .inl h⟩
      · exact .inr ⟨e, h', .inr h⟩
    have hmono : ∀ m ∈ c.poisoned, m ∈ c'.poisoned := fun m hm => by
      rcases hpo with e | ⟨e, _⟩
      · rw [e]; exact hm
      · rw [e]; exact List.mem_append_right _ hm
    /- the guards of the call after the step -/
    have hgot : ∀ m ∈ held, m ∈ t.held ∨ (c.Free m ∧ Takes m t.prog) := by
      rcases hk with ⟨_, hpl⟩ | ⟨_, _, _, rfl⟩ | ⟨_, _, _, rfl⟩
      · exact hpl.got
      · exact fun _ h => nomatch h
      · exact fun _ h => nomatch h
    refine ⟨?_, ?_, ?_, ?_, ?_, ?_, ?_⟩
    · intro j u hu
      rw [hth] at hu
      rcases lock_set_or hu with ⟨_, rfl⟩ | ⟨_, hu⟩
      · rcases hk with ⟨_, hpl⟩ | ⟨_, _, rfl, rfl⟩ | ⟨_, _, rfl, rfl⟩
        · exact hpl.ord ho
        · rfl
        · rfl
      · exact ih.ord j u hu
    · intro j k u v m hu hv hm hm'
      rw [hth] at hu hv
      rcases lock_set_or hu with ⟨e, rfl⟩ | ⟨hne, hu⟩ <;> rcases lock_set_or hv with ⟨e', rfl⟩ | ⟨hne', hv⟩
      · rw [e, e']
      · rcases hgot m hm with h | ⟨hf, _⟩
        · exact e.trans (ih.excl i k t v m ht hv h hm')
        · exact absurd hm' (hf v (List.mem_of_getElem? hv))
      · rcases hgot m hm' with h | ⟨hf, _⟩
        · exact (ih.excl j i u t m hu ht hm h).trans e'.symm
        · exact absurd hm (hf u (List.mem_of_getElem? hu))
      · exact ih.excl j k u v m hu hv hm hm'
    · rcases hpo with e | ⟨e, _, hc⟩
      · rw [e]; exact ih.store
      · rw [e]
        intro h
        rcases List.mem_append.mp h with h | h
        · obtain ⟨l, b, e, _⟩ := hheld _ h hc
          cases e
        · exact ih.store h
    · intro j u l hu h
      rw [hth] at hu
      rcases lock_set_or hu with ⟨_, rfl⟩ | ⟨_, hu⟩
      · rcases h with h | h
        · rcases hgot _ h with h | ⟨_, h⟩
          · exact ih.own i t l ht (.inl h)
          · exact ih.own i t l ht (.inr h)
        · rcases hk with ⟨_, hpl⟩ | ⟨_, _, rfl, rfl⟩ | ⟨_, _, rfl, rfl⟩
          · exact ih.own i t l ht (.inr (hpl.takes _ h))
          · exact nomatch h
          · exact nomatch h
      · exact ih.own j u l hu h
    · intro l hl
      have hold : .list l ∈ c.poisoned → ∃ (j : Nat) (u : LockThread H α) (b : Prog H α),
          c'.threads[j]? = some u ∧ u.call = .createScanner l b ∧ u.prog = .done true ∧ MayPanic fac b := fun hl => by
        obtain ⟨j, u, b, hu, hcall, hpr, hb⟩ := ih.culprit l hl
        have hne : i ≠ j := fun e => by
          subst e
          rw [ht] at hu
          cases hu
          exact hbusy true hpr
        exact ⟨j, u, b, by rw [hth, List.getElem?_set_ne hne]; exact hu, hcall, hpr, hb⟩
      rcases hpo with e | ⟨e, hp, hc⟩
      · exact hold (e ▸ hl)
      · rw [e] at hl
        rcases List.mem_append.mp hl with hl | hl
        · obtain ⟨l', b, e', hcall, hb⟩ := hheld _ hl hc
          cases e'
          exact ⟨i, { t with prog := p, held := held }, b, by rw [hth]; exact lock_set_at ht, hcall, hp, hb⟩
        · exact hold hl
    · intro j u hu hd h
      rw [hth] at hu
      rcases lock_set_or hu with ⟨_, rfl⟩ | ⟨_, hu⟩
      · rcases hk with ⟨_, hpl⟩ | ⟨_, _, rfl, rfl⟩ | ⟨_, _, rfl, rfl⟩
        · exact ih.panics i t ht (hbusy true) (hpl.panics h)
        · exact absurd rfl hd
        · exact absurd rfl hd
      · exact ih.panics j u hu hd h
    · intro j u hu h
      rw [hth] at hu
      rcases lock_set_or hu with ⟨_, rfl⟩ | ⟨_, hu⟩
      · rcases hk with ⟨_, hpl⟩ | ⟨_, hpr, rfl, rfl⟩ | ⟨_, ⟨m, q, hpr, hm⟩, rfl, rfl⟩
        · refine .inl (ih.panics i t ht (hbusy true) (hpl.panics ?_))
          dsimp only at h
          rw [h]; rfl
        · exact .inl (ih.panics i t ht (hbusy true) (by rw [hpr]; trivial))
        · cases m with
          | store => exact absurd hm ih.store
          | list l => exact .inr ⟨l, ih.own i t l ht (.inr (by rw [hpr]; exact .inl rfl)), hmono _ hm⟩
      · rcases ih.ended j u hu h with h | ⟨l, h, h'⟩
        · exact .inl h
        · exact .inr ⟨l, h, hmono _ h'⟩

/-! ## Runs end -/

/-- What can be left of a call after its next step. -/
inductive Next : LockProg H → LockProg H → Prop where
  | lock {m p} : Next p (.lock m p)
  | poisoned {m p} : Next (.done true) (.lock m p)
  | unlock {m p} : Next p (.unlock m p)
  | compile {p} : Next p (.compile p)
  | left {p q} : Next p (.either p q)
  | right {p q} : Next q (.either p q)
  | pick {k h} : Next (k h) (.pick k)
  | panic : Next (.done true) .panic

theorem acc_done (b : Bool) : Acc Next (LockProg.done (H := H) b) := ⟨_, fun _ h => nomatch h⟩

theorem acc_next : ∀ p : LockProg H, Acc Next p
  | .done b => acc_done b
  | .lock m p => ⟨_, fun q h => by
      cases h with
      | lock => exact acc_next p
      | poisoned => exact acc_done true⟩
  | .unlock m p => ⟨_, fun q h => by cases h; exact acc_next p⟩
  | .compile p => ⟨_, fun q h => by cases h; exact acc_next p⟩
  | .either p q => ⟨_, fun r h => by
      cases h with
      | left => exact acc_next p
      | right => exact acc_next q⟩
  | .pick k => ⟨_, fun q h => by
      cases h with
      | @pick _ a => exact acc_next (k a)⟩
  | .panic => ⟨_, fun q h => by cases h; exact acc_done true⟩

/-- One of several goes on. -/
def NextOf (qs ps : List (LockProg H)) : Prop := ∃ (i : Nat) (p q : LockProg H), ps[i]? = some p ∧ Next q p ∧ qs = ps.set i q

theorem acc_nextOf : ∀ ps : List (LockProg H), Acc NextOf ps
  | [] => ⟨_, fun qs ⟨i, p, q, h, _⟩ => nomatch h⟩
  | p :: ps => by
    have h1 := acc_next p
    have h2 := acc_nextOf ps
    clear acc_nextOf
    induction h1 generalizing ps with
    | intro p _ ihp =>
      induction h2 with
      | intro ps hps ihs =>
        refine ⟨_, fun qs ⟨i, r, q, h, hn, e⟩ => ?_⟩
        subst e
        cases i with
        | zero =>
          cases h
          exact ihp q hn ps ⟨_, hps⟩
        | succ i => exact ihs (ps.set i q) ⟨i, r, q, h, hn, rfl⟩

theorem LockStep.next {i : Nat} {c c' : LockConf H α} (h : LockStep i c c') :
    NextOf (c'.threads.map (·.prog)) (c.threads.map (·.prog)) := by
  have key : ∀ {t : LockThread H α} {p held}, c.threads[i]? = some t → Next p t.prog →
      NextOf ((c.threads.set i { t with prog := p, held := held }).map (·.prog)) (c.threads.map (·.prog)) :=
    fun {t p held} ht hn => ⟨i, t.prog, p, by rw [List.getElem?_map, ht]; rfl, hn, by rw [List.map_set]⟩
  cases h with
  | lock ht hp _ _ => exact key ht (by rw [hp]; exact .lock)
  | poisoned ht hp _ _ => exact key ht (by rw [hp]; exact .poisoned)
  | unlock ht hp => exact key ht (by rw [hp]; exact .unlock)
  | compile ht hp => exact key ht (by rw [hp]; exact .compile)
  | left ht hp => exact key ht (by rw [hp]; exact .left)
  | right ht hp => exact key ht (by rw [hp]; exact .right)
  | pick ht hp => exact key ht (by rw [hp]; exact .pick)
  | panic ht hp => exact key ht (by rw [hp]; exact .panic)

theorem no_endless {β : Type} {r : β → β → Prop} {a : β} (h : Acc r a) : ¬ ∃ f : Nat → β, f 0 = a ∧ ∀ n, r (f (n + 1)) (f n) := by
  induction h with
  | intro a _ ih =>
    rintro ⟨f, rfl, hf⟩
    exact ih (f 1) (hf 0) ⟨fun n => f (n + 1), rfl, fun n => hf (n + 1)⟩

end Sds
