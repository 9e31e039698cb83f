import Verif.Lemmas.Locks
import Verif.Props.Building

/-! # C98: the locks of the library

`LockReach fac c`: `c` can be reached by any number of threads that append to rule lists and build scanners, with whatever rules,
through the Go binding or from Rust, whatever the factories do. -/

namespace Sds.Props
open Sds.Spec

variable {H α : Type} {fac : AskKind → Str → FacRes} {c : LockConf H α}

/-! ## Waiting -/

/-- There are no calls each of which waits for a lock that one of them holds. -/
theorem C98_no_deadlock (hr : LockReach fac c) (S : Nat → Prop) : ¬ Deadlock c S := by
  have hi := lockInv hr
  /- a call that holds a lock and waits for another waits for one of a higher rank -/
  have up : ∀ i m m', HasLock c i m → WaitsFor c i m' → m.rank < m'.rank := by
    rintro i m m' ⟨t, ht, hm⟩ ⟨u, p, hu, hp⟩
    rw [ht] at hu
    cases hu
    have ho := hi.ord i t ht
    rw [hp] at ho
    exact ho.1 m hm
  rintro ⟨⟨i, hS⟩, h⟩
  obtain ⟨m, j, _, hj, hjm⟩ := h i hS
  obtain ⟨m', k, hjw, hk, hkm⟩ := h j hj
  obtain ⟨m'', _, hkw, _, _⟩ := h k hk
  have h1 := up j m m' hjm hjw
  have h2 := up k m' m'' hkm hkw
  have h3 := m''.rank_le
  omega

/-- If a call has not returned, some call can go on. -/
theorem C98_progress [Nonempty H] (hr : LockReach fac c) {i : Nat} {t : LockThread H α} (ht : c.threads[i]? = some t)
    (hn : ¬ Returned c i) : ∃ j c', LockStep j c c' := by
  have hi := lockInv hr
  /- a call that has not returned either can go on or waits -/
  have go : ∀ (j : Nat) u, c.threads[j]? = some u → (∃ b, u.prog = .done b) ∨ (∃ m p, u.prog = .lock m p) ∨ ∃ c', LockStep j c c' := by
    intro j u hu
    cases hp : u.prog with
    | done b => exact .inl ⟨b, rfl⟩
    | lock m p => exact .inr (.inl ⟨m, p, rfl⟩)
    | unlock m p => exact .inr (.inr ⟨_, .unlock hu hp⟩)
    | compile p => exact .inr (.inr ⟨_, .compile hu hp⟩)
    | either p q => exact .inr (.inr ⟨_, .left hu hp⟩)
    | pick k => exact .inr (.inr ⟨_, .pick (h := Classical.choice inferInstance) hu hp⟩)
    | panic => exact .inr (.inr ⟨_, .panic hu hp⟩)
  have take : ∀ (j : Nat) u m p, c.threads[j]? = some u → u.prog = .lock m p → c.Free m → ∃ c', LockStep j c c' := by
    intro j u m p hu hp hf
    by_cases hm : m ∈ c.poisoned
    · exact ⟨_, .poisoned hu hp hf hm⟩
    · exact ⟨_, .lock hu hp hf hm⟩
  /- somebody waits for `m`: either it is free, or its owner can go on or waits for a lock of a higher rank -/
  have wait : ∀ (n : Nat) (j : Nat) u m p, c.threads[j]? = some u → u.prog = .lock m p → 2 ≤ m.rank + n → ∃ j c', LockStep j c c' := by
    intro n
    induction n with
    | zero =>
      intro j u m p _ _ h
      have := m.rank_le
      omega
    | succ n ih =>
      intro j u m p hu hp h
      by_cases hf : c.Free m
      · exact ⟨j, take j u m p hu hp hf⟩
      · simp only [LockConf.Free, Classical.not_forall, Classical.not_not] at hf
        obtain ⟨v, hv, hm⟩ := hf
        obtain ⟨k, hk⟩ := List.getElem?_of_mem hv
        have ho := hi.ord k v hk
        rcases go k v hk with ⟨b, hb⟩ | ⟨m', p', hp'⟩ | hgo
        · rw [hb] at ho
          rw [show v.held = [] from ho] at hm
          exact nomatch hm
        · rw [hp'] at ho
          have := ho.1 m hm
          exact ih k v m' p' hk hp' (by omega)
        · exact ⟨k, hgo⟩
  rcases go i t ht with ⟨b, hb⟩ | ⟨m, p, hp⟩ | h
  · exact absurd ⟨t, b, ht, hb⟩ hn
  · exact wait 2 i t m p ht hp (by omega)
  · exact ⟨i, h⟩

/-- However the calls in a state are scheduled, after finitely many steps no step is left, and then all of them have returned
and hold no lock. -/
theorem C98_calls_return [Nonempty H] (hr : LockReach fac c) :
    (¬ ∃ f : Nat → LockConf H α, f 0 = c ∧ ∀ n, ∃ i, LockStep i (f n) (f (n + 1))) ∧
    ((¬ ∃ i c', LockStep i c c') → ∀ i, i < c.threads.length → Returned c i ∧ ∀ m, ¬ HasLock c i m) := by
  constructor
  · rintro ⟨f, rfl, hf⟩
    refine no_endless (acc_nextOf ((f 0).threads.map (·.prog))) ⟨fun n => (f n).threads.map (·.prog), rfl, fun n => ?_⟩
    obtain ⟨i, h⟩ := hf n
    exact h.next
  · intro hstuck i hl
    have ht := List.getElem?_eq_getElem hl
    have hret : Returned c i := Classical.byContradiction fun hn => hstuck (C98_progress hr ht hn)
    refine ⟨hret, ?_⟩
    rintro m ⟨t, ht, hm⟩
    obtain ⟨u, b, hu, hb⟩ := hret
    rw [ht] at hu
    cases hu
    have ho := (lockInv hr).ord i t ht
    rw [hb] at ho
    rw [show t.held = [] from ho] at hm
    exact nomatch hm

/-- A lock is held by one call at most. -/
theorem C98_mutual_exclusion (hr : LockReach fac c) {i j : Nat} {m : Mtx} (hi : HasLock c i m) (hj : HasLock c j m) : i = j := by
  obtain ⟨t, ht, hm⟩ := hi
  obtain ⟨u, hu, hm'⟩ := hj
  exact (lockInv hr).excl i j t u m ht hu hm hm'

/-- Who holds the lock of the store does not wait for any lock, compiles no regex and does not panic. -/
theorem C98_store_held_briefly (hr : LockReach fac c) {i : Nat} {t : LockThread H α} (ht : c.threads[i]? = some t)
    (hm : Mtx.store ∈ t.held) : (∀ m p, t.prog ≠ .lock m p) ∧ (∀ p, t.prog ≠ .compile p) ∧ t.prog ≠ .panic ∧ ∀ b, t.prog ≠ .done b := by
  have ho := (lockInv hr).ord i t ht
  refine ⟨fun m p e => ?_, fun p e => ?_, fun e => ?_, fun b e => ?_⟩ <;> rw [e] at ho
  · exact absurd (ho.1 _ hm) (Nat.not_lt.mpr m.rank_le)
  · exact ho.1 hm
  · exact ho hm
  · rw [show t.held = [] from ho] at hm
    exact nomatch hm

/-! ## Poison -/

/-- The lock of the store is never poisoned, whatever panics. -/
theorem C98_store_not_poisoned (hr : LockReach fac c) : Mtx.store ∉ c.poisoned := (lockInv hr).store

/-- The lock of a list is poisoned only if building a scanner with this list has panicked by itself. -/
theorem C98_poisoned_by (hr : LockReach fac c) {l : Nat} (hl : Mtx.list l ∈ c.poisoned) :
    ∃ t ∈ c.threads, ∃ b, t.call = .createScanner l b ∧ t.prog = .done true ∧ MayPanic fac b := by
  obtain ⟨i, t, b, ht, h⟩ := (lockInv hr).culprit l hl
  exact ⟨t, List.mem_of_getElem? ht, b, h⟩

/-- A panic of one call has no effect on calls about other lists: a call panics only if it may panic by itself, or if building
with the same list has panicked before. -/
theorem C98_panic_contained (hr : LockReach fac c) {t : LockThread H α} (ht : t ∈ c.threads) (hp : t.prog = .done true) :
    match t.call with
    | .build b => MayPanic fac b
    | .createScanner l b => MayPanic fac b ∨
        ∃ u ∈ c.threads, ∃ b', u.call = .createScanner l b' ∧ u.prog = .done true ∧ MayPanic fac b'
    | .append l => ∃ u ∈ c.threads, ∃ b', u.call = .createScanner l b' ∧ u.prog = .done true ∧ MayPanic fac b'
    | .other => False := by
  obtain ⟨i, hi⟩ := List.getElem?_of_mem ht
  have h := (lockInv hr).ended i t hi hp
  cases hc : t.call with
  | build b =>
    rw [hc] at h
    rcases h with h | ⟨l, h, _⟩
    · exact h
    · exact nomatch h
  | createScanner l b =>
    rw [hc] at h
    rcases h with h | ⟨l', h, h'⟩
    · exact .inl h
    · cases h
      exact .inr (C98_poisoned_by hr h')
  | append l =>
    rw [hc] at h
    rcases h with h | ⟨l', h, h'⟩
    · exact nomatch h
    · cases h
      exact C98_poisoned_by hr h'
  | other =>
    rw [hc] at h
    rcases h with h | ⟨l', h, _⟩
    · exact nomatch h
    · exact nomatch h

/-- If no building may panic by itself, no call panics, and no lock is poisoned. -/
theorem C98_no_panic (hr : LockReach fac c)
    (hb : ∀ t ∈ c.threads, ∀ b, (t.call = .build b ∨ ∃ l, t.call = .createScanner l b) → ¬ MayPanic fac b) :
    c.poisoned = [] ∧ ∀ t ∈ c.threads, t.prog ≠ .done true := by
  constructor
  · cases hp : c.poisoned with
    | nil => rfl
    | cons m ms =>
      have hm : m ∈ c.poisoned := by rw [hp]; exact List.mem_cons_self
      cases m with
      | store => exact absurd hm (C98_store_not_poisoned hr)
      | list l =>
        obtain ⟨t, ht, b, hc, _, h⟩ := C98_poisoned_by hr hm
        exact absurd h (hb t ht b (.inr ⟨l, hc⟩))
  · intro t ht hp
    have h := C98_panic_contained hr ht hp
    cases hc : t.call with
    | build b => rw [hc] at h; exact hb t ht b (.inl hc) h
    | createScanner l b =>
      rw [hc] at h
      rcases h with h | ⟨u, hu, b', hc', _, h⟩
      · exact hb t ht b (.inr ⟨l, hc⟩) h
      · exact hb u hu b' (.inr ⟨l, hc'⟩) h
    | append l =>
      rw [hc] at h
      obtain ⟨u, hu, b', hc', _, h⟩ := h
      exact hb u hu b' (.inr ⟨l, hc'⟩) h
    | other => rw [hc] at h; exact h

/-- Building with regex rules, whatever they are, does not panic by itself, if the factories do not panic and the one for keywords
accepts the texts that the parser of the crate reads.  So no call ever panics, and no lock is poisoned. -/
theorem C98_regex_rules {c : LockConf H (StoredScanner H)} (hr : LockReach fac c)
    (hf : ∀ kind p, fac kind p ≠ .panics) (hk : ∀ p, (Re.readRust p).isSome = true → fac .keyword p = .built)
    (hb : ∀ t ∈ c.threads, ∀ b, (t.call = .build b ∨ ∃ l, t.call = .createScanner l b) → ∃ rules, b = buildProg rules) :
    c.poisoned = [] ∧ ∀ t ∈ c.threads, t.prog ≠ .done true := by
  refine C98_no_panic hr fun t ht b hc hm => ?_
  obtain ⟨rules, rfl⟩ := hb t ht b hc
  have ho := buildProg_only (H := H) rules
  generalize buildProg rules = b at ho hm
  induction hm with
  | panic => cases ho
  | factory h => exact hf _ _ h
  | keywords h =>
    cases ho with
    | ask _ _ _ hq _ =>
      obtain ⟨r, _, k, _, x, y, hxy, ht⟩ := hq
      have hread : ∀ {la : Nat} {removed : Char → Bool} {kws : List Str}, TextsOf la removed kws x y →
          (Re.readRust x).isSome = true ∧ (Re.readRust y).isSome = true := by
        intro la removed kws ht
        obtain ⟨res, he, _, _, h3⟩ := C92_texts_read la removed kws
        rw [TextsOf, he] at ht
        obtain ⟨_, _, _, _, _, h⟩ := h3 x y (by cases ht; rfl)
        exact h
      have hxy' := ht.elim hread hread
      rcases hxy with rfl | rfl
      · rw [hk _ hxy'.1] at h; cases h
      · rw [hk _ hxy'.2] at h; cases h
  | later _ ih =>
    cases ho with
    | ask _ _ _ _ hk' => exact ih (hk' _)

/-! ## A history for the examples

One call builds with list 0; its keywords are not accepted.  Another one appends to list 0 afterwards.  A third one is about
list 1, and holds the lock of the list and of the store. -/

private def fac0 : AskKind → Str → FacRes
  | .keyword, _ => .rejected
  | .rule, _ => .built
private def bad : Prog Nat Unit := .ask .keyword ['k'] fun _ => .done (.ok ())
private def good : Prog Nat Unit := .ask .rule ['r'] fun _ => .done (.ok ())

/-- Runs a call as far as it does not depend on others; each number picks one of several ways. -/
private def drive (c : LockConf Nat Unit) (i : Nat) : List Bool → Option (LockConf Nat Unit)
  | [] => some c
  | b :: bs =>
    match c.threads[i]? with
    | none => none
    | some t =>
      match t.prog with
      | .done _ => none
      | .lock m p =>
        if c.threads.any (fun t => decide (m ∈ t.held)) then none
        else if m ∈ c.poisoned then drive (c.unwind i t) i bs
        else drive (c.goOn i t p (m :: t.held)) i bs
      | .unlock m p => drive (c.goOn i t p (t.held.erase m)) i bs
      | .compile p => drive (c.goOn i t p t.held) i bs
      | .either p q => drive (c.goOn i t (if b then p else q) t.held) i bs
      | .pick k => drive (c.goOn i t (k 0) t.held) i bs
      | .panic => drive (c.unwind i t) i bs

private theorem drive_reach {i : Nat} : ∀ (bs : List Bool) {c c' : LockConf Nat Unit}, LockReach fac0 c → drive c i bs = some c' →
    LockReach fac0 c'
  | [], c, c', hr, h => by cases h; exact hr
  | b :: bs, c, c', hr, h => by
    rw [drive] at h
    split at h
    · cases h
    · rename_i t ht
      split at h
      · cases h
      · rename_i m p hp
        split at h
        · cases h
        · rename_i hf
          have hf : c.Free m := fun u hu hm => hf (List.any_eq_true.mpr ⟨u, hu, decide_eq_true hm⟩)
          split at h
          · rename_i hm
            exact drive_reach bs (.step hr (.poisoned ht hp hf hm)) h
          · rename_i hm
            exact drive_reach bs (.step hr (.lock ht hp hf hm)) h
      · rename_i hp
        exact drive_reach bs (.step hr (.unlock ht hp)) h
      · rename_i hp
        exact drive_reach bs (.step hr (.compile ht hp)) h
      · rename_i hp
        cases b
        · exact drive_reach bs (.step hr (.right ht hp)) h
        · exact drive_reach bs (.step hr (.left ht hp)) h
      · rename_i hp
        exact drive_reach bs (.step hr (.pick ht hp)) h
      · rename_i hp
        exact drive_reach bs (.step hr (.panic ht hp)) h

private def calls0 : LockConf Nat Unit :=
  ⟨[.createScanner 0 bad, .append 0, .createScanner 1 good].map fun x => ⟨x, x.locks fac0, []⟩, []⟩

private theorem reach_calls0 : LockReach fac0 calls0 :=
  .call (.call (.call .init (.createScanner 0 bad)) (.append 0)) (.createScanner 1 good)

/-- The first call: it locks the list, does not find the text, compiles and panics. -/
private def crashed0 : List Bool := [true, true, false, true, true, true]
/-- The third one: it locks the list and the store. -/
private def inside0 : List Bool := [true, true]

private def hist0 : Option (LockConf Nat Unit) :=
  (drive calls0 0 crashed0).bind fun c => (drive c 1 [true]).bind fun c => drive c 2 inside0

private theorem hist0_eq : ∃ c, hist0 = some c ∧ LockReach fac0 c ∧ c.poisoned = [.list 0] ∧
    c.threads.map (fun t => (t.held, match t.prog with | .done b => some b | _ => none)) =
      [([], some true), ([], some true), ([.store, .list 1], none)] := by
  cases h1 : drive calls0 0 crashed0 with
  | none => exact absurd h1 (by decide +kernel)
  | some c1 =>
    cases h2 : drive c1 1 [true] with
    | none =>
      exact absurd (show (drive calls0 0 crashed0).bind (fun c => drive c 1 [true]) = none by rw [h1]; exact h2) (by decide +kernel)
    | some c2 =>
      cases h3 : drive c2 2 inside0 with
      | none =>
        exact absurd (show hist0 = none by rw [hist0, h1, Option.bind_some, h2, Option.bind_some]; exact h3) (by decide +kernel)
      | some c3 =>
        have e : hist0 = some c3 := by rw [hist0, h1, Option.bind_some, h2, Option.bind_some]; exact h3
        refine ⟨c3, e, drive_reach _ (drive_reach _ (drive_reach _ reach_calls0 h1) h2) h3, ?_, ?_⟩
        · have : hist0.map (·.poisoned) = some [.list 0] := by decide +kernel
          rw [e] at this
          exact Option.some.inj this
        · have : hist0.map (fun c => c.threads.map (fun t => (t.held, match t.prog with | .done b => some b | _ => none))) =
            some [([], some true), ([], some true), ([.store, .list 1], none)] := by decide +kernel
          rw [e] at this
          exact Option.some.inj this

/-- Non-vacuity: the state after that is reachable; the append panicked too, and is lost; the third call goes on with both
locks. -/
example : ∃ c : LockConf Nat Unit, LockReach fac0 c ∧ c.poisoned = [.list 0] ∧
    c.threads.map (fun t => (t.held, match t.prog with | .done b => some b | _ => none)) =
      [([], some true), ([], some true), ([.store, .list 1], none)] := by
  obtain ⟨c, _, h⟩ := hist0_eq
  exact ⟨c, h⟩

example : MayPanic fac0 bad ∧ ¬ MayPanic fac0 good := by
  refine ⟨.keywords rfl, fun h => ?_⟩
  cases h with
  | factory h => cases h
  | later h => cases h

end Sds.Props
