import Verif.Spec.Builder
import Verif.Lemmas.ValidateGroups
import Verif.Lemmas.Store

namespace Sds

open Sds.Spec

/-! ## Statistics -/

theorem countP_set_add {α : Type} (p : α → Bool) : ∀ {l : List α} {i : Nat} {a : α} (b : α), l[i]? = some a →
    (l.set i b).countP p + (if p a then 1 else 0) = l.countP p + (if p b then 1 else 0)
  | [], i, a, b, h => by simp at h
  | x :: l, 0, a, b, h => by
    have : x = a := Option.some.inj h
    subst this
    rw [List.set_cons_zero, List.countP_cons, List.countP_cons]
    omega
  | x :: l, i + 1, a, b, h => by
    have := countP_set_add p (l := l) (i := i) b h
    rw [List.set_cons_succ, List.countP_cons, List.countP_cons]
    omega

/-- In the count: the scanners counted and not yet removed. -/
def StatPc.inCount : StatPc → Bool
  | .counted _ => true
  | .alive => true
  | _ => false

structure StatInv (w : StatWorld) : Prop where
  count : w.count = w.clients.countP StatPc.inCount
  diff : w.count = (w.creations : Int) - w.deletions

theorem statInv {w : StatWorld} (h : StatReach w) : StatInv w := by
  induction h with
  | init => exact ⟨rfl, rfl⟩
  | @step w0 _ hr hs ih =>
    obtain ⟨h1, h2⟩ := ih
    cases hs with
    | spawn =>
      refine ⟨?_, h2⟩
      rw [h1, List.countP_append]
      rfl
    | fail i hi =>
      have := countP_set_add StatPc.inCount .gone hi
      simp only [StatPc.inCount, Bool.false_eq_true, if_false] at this
      exact ⟨by rw [h1]; exact congrArg Int.ofNat (by dsimp only; omega), h2⟩
    | add i hi =>
      have := countP_set_add StatPc.inCount (.counted w0.count) hi
      simp only [StatPc.inCount, Bool.false_eq_true, if_false, if_true] at this
      refine ⟨?_, ?_⟩
      · show w0.count + 1 = ((List.countP StatPc.inCount (w0.clients.set i (StatPc.counted w0.count)) : Nat) : Int)
        omega
      · show w0.count + 1 = ((w0.creations + 1 : Nat) : Int) - w0.deletions
        omega
    | addSet i prev hi =>
      have := countP_set_add StatPc.inCount .alive hi
      simp only [StatPc.inCount, if_true] at this
      exact ⟨by rw [h1]; exact congrArg Int.ofNat (by dsimp only; omega), h2⟩
    | drop i hi =>
      have := countP_set_add StatPc.inCount (.uncounted w0.count) hi
      simp only [StatPc.inCount, Bool.false_eq_true, if_false, if_true] at this
      refine ⟨?_, ?_⟩
      · show w0.count - 1 = ((List.countP StatPc.inCount (w0.clients.set i (StatPc.uncounted w0.count)) : Nat) : Int)
        omega
      · show w0.count - 1 = w0.creations - ((w0.deletions + 1 : Nat) : Int)
        omega
    | dropSet i prev hi =>
      have := countP_set_add StatPc.inCount .gone hi
      simp only [StatPc.inCount, Bool.false_eq_true, if_false] at this
      exact ⟨by rw [h1]; exact congrArg Int.ofNat (by dsimp only; omega), h2⟩

theorem live_of_quiet {w : StatWorld} (hq : Quiet w) : w.clients.countP StatPc.inCount = liveScanners w := by
  unfold liveScanners List.count
  refine List.countP_congr ?_
  intro pc hm
  have := hq pc hm
  cases pc <;> simp_all [StatPc.inCount, Updating]

theorem Spec.SerialReach.reach {w : StatWorld} (h : SerialReach w) : StatReach w := by
  induction h with
  | init => exact .init
  | step _ hs _ ih => exact .step ih hs

/-- If at most one client is updating: the gauge is right, or that client is about to set it right. -/
structure SerialInv (w : StatWorld) : Prop where
  one : w.clients.countP Updating ≤ 1
  quiet : Quiet w → w.gauge = w.count
  counted : ∀ prev, StatPc.counted prev ∈ w.clients → prev + 1 = w.count
  uncounted : ∀ prev, StatPc.uncounted prev ∈ w.clients → prev - 1 = w.count

theorem quiet_iff {w : StatWorld} : Quiet w ↔ w.clients.countP Updating = 0 := by
  rw [List.countP_eq_zero]
  unfold Quiet
  constructor
  · intro h a ha
    rw [h a ha]
    exact Bool.false_ne_true
  · intro h a ha
    exact Bool.eq_false_iff.mpr (h a ha)

theorem serialInv {w : StatWorld} (h : SerialReach w) : SerialInv w := by
  induction h with
  | init => exact ⟨by decide, fun _ => rfl, (fun _ h => by cases h), (fun _ h => by cases h)⟩
  | @step w w' hr hs hone ih =>
    obtain ⟨h1, h2, h3, h4⟩ := ih
    have hbusy : ∀ {pc}, pc ∈ w.clients → Updating pc = true → ¬ Quiet w := by
      intro pc hm hu hq
      rw [hq pc hm] at hu
      cases hu
    cases hs with
    | spawn =>
      refine ⟨hone, ?_, ?_, ?_⟩
      · intro hq
        exact h2 (fun pc hm => hq pc (List.mem_append_left _ hm))
      · intro prev hm
        rcases List.mem_append.mp hm with hm | hm
        · exact h3 prev hm
        · cases List.mem_singleton.mp hm
      · intro prev hm
        rcases List.mem_append.mp hm with hm | hm
        · exact h4 prev hm
        · cases List.mem_singleton.mp hm
    | fail i hi =>
      have hc := countP_set_add Updating .gone hi
      simp only [Updating, Bool.false_eq_true, if_false] at hc
      refine ⟨hone, ?_, ?_, ?_⟩
      · intro hq
        refine h2 (quiet_iff.mpr ?_)
        have := quiet_iff.mp hq
        dsimp only at this
        omega
      · intro prev hm
        rcases List.mem_or_eq_of_mem_set hm with hm | hm
        · exact h3 prev hm
        · cases hm
      · intro prev hm
        rcases List.mem_or_eq_of_mem_set hm with hm | hm
        · exact h4 prev hm
        · cases hm
    | add i hi =>
      have hc := countP_set_add Updating (.counted w.count) hi
      simp only [Updating, Bool.false_eq_true, if_false, if_true] at hc
      dsimp only at hone
      have hq : Quiet w := quiet_iff.mpr (by omega)
      refine ⟨hone, ?_, ?_, ?_⟩
      · intro hq'
        have := quiet_iff.mp hq'
        dsimp only at this
        omega
      · intro prev hm
        rcases List.mem_or_eq_of_mem_set hm with hm | hm
        · exact absurd hq (hbusy hm rfl)
        · cases hm; rfl
      · intro prev hm
        rcases List.mem_or_eq_of_mem_set hm with hm | hm
        · exact absurd hq (hbusy hm rfl)
        · cases hm
    | addSet i prev hi =>
      have hc := countP_set_add Updating .alive hi
      simp only [Updating, Bool.false_eq_true, if_false, if_true] at hc
      have hprev := h3 prev (List.mem_of_getElem? hi)
      have hq : Quiet { w with gauge := prev + 1, clients := w.clients.set i .alive } := quiet_iff.mpr (by
        show (w.clients.set i .alive).countP Updating = 0
        omega)
      refine ⟨hone, fun _ => hprev, ?_, ?_⟩
      · intro prev' hm
        exact absurd (hq _ hm) (by simp [Updating])
      · intro prev' hm
        exact absurd (hq _ hm) (by simp [Updating])
    | drop i hi =>
      have hc := countP_set_add Updating (.uncounted w.count) hi
      simp only [Updating, Bool.false_eq_true, if_false, if_true] at hc
      dsimp only at hone
      have hq : Quiet w := quiet_iff.mpr (by omega)
      refine ⟨hone, ?_, ?_, ?_⟩
      · intro hq'
        have := quiet_iff.mp hq'
        dsimp only at this
        omega
      · intro prev hm
        rcases List.mem_or_eq_of_mem_set hm with hm | hm
        · exact absurd hq (hbusy hm rfl)
        · cases hm
      · intro prev hm
        rcases List.mem_or_eq_of_mem_set hm with hm | hm
        · exact absurd hq (hbusy hm rfl)
        · cases hm; rfl
    | dropSet i prev hi =>
      have hc := countP_set_add Updating .gone hi
      simp only [Updating, Bool.false_eq_true, if_false, if_true] at hc
      have hprev := h4 prev (List.mem_of_getElem? hi)
      have hq : Quiet { w with gauge := prev - 1, clients := w.clients.set i .gone } := quiet_iff.mpr (by
        show (w.clients.set i .gone).countP Updating = 0
        omega)
      refine ⟨hone, fun _ => hprev, ?_, ?_⟩
      · intro prev' hm
        exact absurd (hq _ hm) (by simp [Updating])
      · intro prev' hm
        exact absurd (hq _ hm) (by simp [Updating])

/-! ## The builder -/

theorem validate_iff (a : Action) : a.validate = false ↔ BadAction a := by
  unfold BadAction
  cases a <;> simp [Action.validate]

/-! ## Binary search -/

theorem within_ok {V : Type} {lib : RegexLib V} {p : Str} {l : Nat} (hs : ∀ l e, lib.build p l = .error e → e = .tooComplex) :
    (∃ v, lib.build p l = .ok v) ∧ lib.within p l = .ok true ∨
    lib.build p l = .error .tooComplex ∧ lib.within p l = .ok false := by
  unfold RegexLib.within
  cases hb : lib.build p l with
  | ok v => exact .inl ⟨⟨v, rfl⟩, rfl⟩
  | error e =>
    have := hs l e hb
    subst this
    exact .inr ⟨rfl, rfl⟩

theorem bisect_spec {V : Type} {lib : RegexLib V} {p : Str} (hs : ∀ l e, lib.build p l = .error e → e = .tooComplex)
    (hm : ∀ l l', l ≤ l' → (∃ v, lib.build p l = .ok v) → ∃ v, lib.build p l' = .ok v) :
    ∀ (n low high : Nat), high - low ≤ n → low ≤ high → ∃ r, lib.bisect p low high = .ok r ∧ low ≤ r ∧ r ≤ high ∧
      (∀ l, low ≤ l → l < r → lib.build p l = .error .tooComplex) ∧ (r < high → ∃ v, lib.build p r = .ok v) := by
  intro n
  induction n with
  | zero =>
    intro low high hn hle
    rw [RegexLib.bisect, dif_neg (by omega)]
    exact ⟨low, rfl, Nat.le_refl _, hle, fun l h1 h2 => by omega, fun h => by omega⟩
  | succ n ih =>
    intro low high hn hle
    rw [RegexLib.bisect]
    by_cases hlt : low < high
    · rw [dif_pos hlt]
      generalize hmid : low + (high - low) / 2 = mid
      have hmid1 : low ≤ mid := by omega
      have hmid2 : mid < high := by omega
      rcases within_ok (lib := lib) (p := p) (l := mid) hs with ⟨hok, hw⟩ | ⟨herr, hw⟩
      · rw [hw]
        obtain ⟨r, h1, h2, h3, h4, h5⟩ := ih low mid (by omega) hmid1
        refine ⟨r, h1, h2, by omega, h4, fun _ => ?_⟩
        by_cases hr : r < mid
        · exact h5 hr
        · have : r = mid := by omega
          rw [this]
          exact hok
      · rw [hw]
        obtain ⟨r, h1, h2, h3, h4, h5⟩ := ih (mid + 1) high (by omega) (by omega)
        refine ⟨r, h1, by omega, h3, fun l hl1 hl2 => ?_, h5⟩
        by_cases hl : mid + 1 ≤ l
        · exact h4 l hl hl2
        · cases hb : lib.build p l with
          | error e => rw [hs l e hb]
          | ok v =>
            obtain ⟨v', hv'⟩ := hm l mid (by omega) ⟨v, hb⟩
            rw [herr] at hv'
            cases hv'
    · rw [dif_neg hlt]
      exact ⟨low, rfl, Nat.le_refl _, hle, fun l h1 h2 => by omega, fun h => by omega⟩

end Sds
