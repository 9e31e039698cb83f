import Verif.Props.Ffi
import Verif.Spec.Goroutines

/-! # Goroutines: what each of them owns -/

namespace Sds.Threads
open Sds Spec
variable {C S D E : Type}

/-- What a goroutine is doing with a scanner. -/
inductive Mode (S : Type) where
  | free
  | creating (x : Nat) (stored : Option Addr)
  | scanning (x : Nat) (a : Addr) (s : S)
  | deleting (x : Nat) (a : Addr)
  | deleted (x : Nat)

/-- No handles. -/
def none0 : Handles C S D := fun _ => none

/-- The handles that a goroutine may use: its own, and the scanner it scans with. -/
def lend : Mode S → Handles C S D → Handles C S D
  | .scanning _ a s, L => L.set a (some (.scanner s))
  | _, L => L

/-- The addresses that a call may have from the allocator. -/
def newOf : Call C E → List Addr
  | .createRule _ _ b => [b]
  | .createList a => [a]
  | .createScanner _ a => [a]
  | .scan _ _ a => [a]
  | _ => []

/-- A call takes no other addresses from the allocator than these two. -/
def Takes (S D : Type) (c : Call C E) (a b : Addr) : Prop :=
  (∀ h : Heap C S D, Fresh2 h a b → AllocOk h c) ∧ ∀ p ∈ newOf c, p = a ∨ p = b

/-- A goroutine that owns `L` can go on. -/
def Ok (lib : Lib C S D E) : Mode S → Handles C S D → GoProg C D E → Prop
  | m, L, .done => m = .free ∧ L = none0
  | m, L, .event (.createBegins x) p => m = .free ∧ L = none0 ∧ Ok lib (.creating x none) none0 p
  | m, L, .event (.createEnds x jsons none) p => ∃ a s cs, m = .creating x (some a) ∧ jsons = cs.map some ∧
      lib.build cs = .ok s ∧ L = none0.set a (some (.scanner s)) ∧ Ok lib .free none0 p
  | m, L, .event (.createEnds x jsons (some err)) p => (∃ st, m = .creating x st) ∧ L = none0 ∧
      Right lib [] (.createEnds x jsons (some err)) ∧ Ok lib .free none0 p
  | m, L, .event (.scanBegins x _) p => m = .free ∧ L = none0 ∧ ∀ a s, Ok lib (.scanning x a s) none0 p
  | m, L, .event (.scanEnds x e r) p => (∃ a s, m = .scanning x a s ∧ r = reportOf (lib.scan s e)) ∧ L = none0 ∧
      Ok lib .free none0 p
  | m, L, .event (.deleteBegins x) p => m = .free ∧ L = none0 ∧
      ∀ a s, Ok lib (.deleting x a) (none0.set a (some (.scanner s))) p
  | m, L, .event (.deleteEnds x) p => m = .deleted x ∧ L = none0 ∧ Ok lib .free none0 p
  | m, L, .load x k => ∃ a, ((∃ s, m = .scanning x a s) ∨ m = .deleting x a) ∧ Ok lib m L (k a)
  | m, L, .store x a p => (m = .creating x none ∧ Ok lib (.creating x (some a)) L p) ∨
      ((∃ b, m = .deleting x b) ∧ Ok lib (.deleted x) L p)
  | m, L, .call f k => ∀ a b, a ≠ 0 → b ≠ 0 → a ≠ b → lend m L a = none → lend m L b = none →
      Takes S D (f a b) a b ∧ ∃ L' o, valueStep lib (lend m L) (f a b) = some (lend m L', o) ∧
        (∀ x p s, m = .scanning x p s → L' p = none) ∧ Ok lib m L' (k o)
  | m, L, .read s p => (∃ x sc, m = .scanning x s sc) ∧ Ok lib m L p
  | m, L, .copy b k => ∃ d, L b = some (.vec d) ∧ Ok lib m L (k d)

/-- A call does with all handles what it does with some. -/
theorem frame {lib : Lib C S D E} {V V' A : Handles C S D} (hVA : ∀ p w, V p = some w → A p = some w) {c : Call C E} {o : Out}
    (hv : valueStep lib V c = some (V', o)) : ∃ A', valueStep lib A c = some (A', o) ∧
      ∀ p, (V' p = V p ∧ A' p = A p) ∨ (A' p = V' p ∧ (V p ≠ none ∨ p ∈ newOf c)) := by
  have key : ∀ (q : Addr) (w : Option (Owned C S D)) (p : Addr), (V q ≠ none ∨ q ∈ newOf c) →
      (V.set q w p = V p ∧ A.set q w p = A p) ∨ (A.set q w p = V.set q w p ∧ (V p ≠ none ∨ p ∈ newOf c)) := by
    intro q w p hq
    unfold Handles.set
    by_cases hp : p = q
    · subst hp; right; simp only [if_true, true_and]; exact hq
    · left; simp [hp]
  cases c with
  | createRule json a b =>
    cases json with
    | none =>
      simp only [valueStep, Option.some.injEq, Prod.mk.injEq] at hv
      obtain ⟨rfl, rfl⟩ := hv
      exact ⟨A, rfl, fun p => .inl ⟨rfl, rfl⟩⟩
    | some c =>
      simp only [valueStep, Option.some.injEq, Prod.mk.injEq] at hv
      obtain ⟨rfl, rfl⟩ := hv
      exact ⟨_, rfl, fun p => key b _ p (.inr (by simp [newOf]))⟩
  | freeRule q =>
    simp only [valueStep] at hv
    split at hv
    · next c hc =>
      simp only [Option.some.injEq, Prod.mk.injEq] at hv
      obtain ⟨rfl, rfl⟩ := hv
      exact ⟨A.set q none, by simp [valueStep, hVA _ _ hc], fun p => key q _ p (.inl (by simp [hc]))⟩
    · cases hv
  | createList a =>
    simp only [valueStep, Option.some.injEq, Prod.mk.injEq] at hv
    obtain ⟨rfl, rfl⟩ := hv
    exact ⟨_, rfl, fun p => key a _ p (.inr (by simp [newOf]))⟩
  | append r l =>
    simp only [valueStep] at hv
    split at hv
    · next c q cs h1 h2 =>
      simp only [Option.some.injEq, Prod.mk.injEq] at hv
      obtain ⟨rfl, rfl⟩ := hv
      exact ⟨A.set l _, by simp only [valueStep, hVA _ _ h1, hVA _ _ h2], fun p => key l _ p (.inl (by simp [h2]))⟩
    · cases hv
  | freeList q =>
    simp only [valueStep] at hv
    split at hv
    · next c cs hc =>
      simp only [Option.some.injEq, Prod.mk.injEq] at hv
      obtain ⟨rfl, rfl⟩ := hv
      exact ⟨A.set q none, by simp [valueStep, hVA _ _ hc], fun p => key q _ p (.inl (by simp [hc]))⟩
    · cases hv
  | createScanner l a =>
    simp only [valueStep] at hv
    split at hv
    · next cs hc =>
      simp only [Option.some.injEq, Prod.mk.injEq] at hv
      obtain ⟨rfl, rfl⟩ := hv
      exact ⟨A.set a _, by simp only [valueStep, hVA _ _ hc], fun p => key a _ p (.inr (by simp [newOf]))⟩
    · next cs hc =>
      split at hv
      · next s hs =>
        simp only [Option.some.injEq, Prod.mk.injEq] at hv
        obtain ⟨rfl, rfl⟩ := hv
        exact ⟨A.set a _, by simp only [valueStep, hVA _ _ hc, hs], fun p => key a _ p (.inr (by simp [newOf]))⟩
      · next code hs =>
        simp only [Option.some.injEq, Prod.mk.injEq] at hv
        obtain ⟨rfl, rfl⟩ := hv
        exact ⟨A, by simp only [valueStep, hVA _ _ hc, hs], fun p => .inl ⟨rfl, rfl⟩⟩
      · next hs =>
        simp only [Option.some.injEq, Prod.mk.injEq] at hv
        obtain ⟨rfl, rfl⟩ := hv
        refine ⟨(A.set l _).set a _, by simp only [valueStep, hVA _ _ hc, hs]; rfl, fun p => ?_⟩
        unfold Handles.set
        by_cases hp : p = a
        · right; simp [hp, newOf]
        · by_cases hq : p = l
          · right; subst hq; simp [hp, hc]
          · left; simp [hp, hq]
    · cases hv
  | scan s e a =>
    simp only [valueStep] at hv
    split at hv
    · next sc hc =>
      split at hv
      · next hs =>
        simp only [Option.some.injEq, Prod.mk.injEq] at hv
        obtain ⟨rfl, rfl⟩ := hv
        exact ⟨A, by simp only [valueStep, hVA _ _ hc, hs], fun p => .inl ⟨rfl, rfl⟩⟩
      · next d hs =>
        simp only [Option.some.injEq, Prod.mk.injEq] at hv
        obtain ⟨rfl, rfl⟩ := hv
        exact ⟨A.set a _, by simp only [valueStep, hVA _ _ hc, hs], fun p => key a _ p (.inr (by simp [newOf]))⟩
      · next hs =>
        simp only [Option.some.injEq, Prod.mk.injEq] at hv
        obtain ⟨rfl, rfl⟩ := hv
        exact ⟨A.set a _, by simp only [valueStep, hVA _ _ hc, hs], fun p => key a _ p (.inr (by simp [newOf]))⟩
    · cases hv
  | deleteScanner q =>
    simp only [valueStep] at hv
    split at hv
    · next c hc =>
      simp only [Option.some.injEq, Prod.mk.injEq] at hv
      obtain ⟨rfl, rfl⟩ := hv
      exact ⟨A.set q none, by simp [valueStep, hVA _ _ hc], fun p => key q _ p (.inl (by simp [hc]))⟩
    · cases hv
  | freeVec q =>
    simp only [valueStep] at hv
    split at hv
    · next c hc =>
      simp only [Option.some.injEq, Prod.mk.injEq] at hv
      obtain ⟨rfl, rfl⟩ := hv
      exact ⟨A.set q none, by simp [valueStep, hVA _ _ hc], fun p => key q _ p (.inl (by simp [hc]))⟩
    · cases hv
  | freeString q =>
    simp only [valueStep] at hv
    split at hv
    · next hc =>
      simp only [Option.some.injEq, Prod.mk.injEq] at hv
      obtain ⟨rfl, rfl⟩ := hv
      exact ⟨A.set q none, by simp [valueStep, hVA _ _ hc], fun p => key q _ p (.inl (by simp [hc]))⟩
    · cases hv

/-! ## The programs -/

theorem set_set (L : Handles C S D) (a : Addr) (v w : Option (Owned C S D)) : (L.set a v).set a w = L.set a w := by
  funext x; unfold Handles.set; split <;> rfl

theorem set_none {L : Handles C S D} {a : Addr} (h : L a = none) : L.set a none = L := by
  funext x; unfold Handles.set; split
  · next e => rw [e, h]
  · rfl

theorem set_comm (L : Handles C S D) {a b : Addr} (hab : a ≠ b) (v w : Option (Owned C S D)) :
    (L.set a v).set b w = (L.set b w).set a v := by
  funext x; unfold Handles.set
  by_cases h1 : x = a
  · subst h1; simp [hab]
  · simp [h1]

theorem set_same (L : Handles C S D) (a : Addr) (v : Option (Owned C S D)) : L.set a v a = v := by
  simp [Handles.set]

theorem set_other (L : Handles C S D) {a b : Addr} (h : b ≠ a) (v : Option (Owned C S D)) : L.set a v b = L b := by
  simp [Handles.set, h]

macro "takes" : tactic => `(tactic|
  (intro a b
   refine ⟨fun h hf => ?_, by simp [newOf]⟩
   obtain ⟨_, _, _, _, _⟩ := hf
   simp_all [AllocOk, Free]))

/-- A goroutine that is not scanning and makes a call. -/
theorem ok_call {lib : Lib C S D E} {m : Mode S} {L : Handles C S D} (hm : lend m = (id : Handles C S D → Handles C S D))
    {f : Addr → Addr → Call C E} {k : Out → GoProg C D E}
    (h : ∀ a b, a ≠ 0 → b ≠ 0 → a ≠ b → L a = none → L b = none → ∃ L' o, valueStep lib L (f a b) = some (L', o) ∧ Ok lib m L' (k o))
    (hf : ∀ a b, Takes S D (f a b) a b := by takes) : Ok lib m L (.call f k) := by
  intro a b ha hb hab h1 h2
  rw [hm] at h1 h2
  obtain ⟨L', o, h3, h4⟩ := h a b ha hb hab h1 h2
  refine ⟨hf a b, L', o, by rw [hm]; exact h3, ?_, h4⟩
  rintro x p s rfl
  have := congrFun (congrFun hm (none0 : Handles C S D)) p
  simp [lend, none0, Handles.set] at this

theorem lend_creating (x : Nat) (st : Option Addr) : lend (.creating x st) = (id : Handles C S D → Handles C S D) := rfl
theorem lend_deleting (x : Nat) (a : Addr) : lend (.deleting x a) = (id : Handles C S D → Handles C S D) := rfl

theorem ok_addRules {lib : Lib C S D E} {m : Mode S} (hm : lend m = (id : Handles C S D → Handles C S D)) (l : Addr)
    (jsons : List (Option C)) (k : Bool → GoProg C D E) : ∀ (L : Handles C S D) (cs0 : List C),
    L l = some (.list false cs0) →
    (∀ cs, jsons = cs.map some → Ok lib m (L.set l (some (.list false (cs0 ++ cs)))) (k true)) →
    (∀ cs, none ∈ jsons → Ok lib m (L.set l (some (.list false cs))) (k false)) → Ok lib m L (progAddRules l jsons k) := by
  induction jsons with
  | nil =>
    intro L cs0 hL h1 _
    have := h1 [] rfl
    rw [List.append_nil] at this
    have e : L.set l (some (.list false cs0)) = L := by
      funext x; unfold Handles.set; split
      · next hx => rw [hx, hL]
      · rfl
    rw [e] at this
    exact this
  | cons json rest ih =>
    intro L cs0 hL h1 h2
    rw [progAddRules]
    refine ok_call hm fun a b ha hb hab hLa hLb => ?_
    cases json with
    | none =>
      refine ⟨L, _, rfl, ?_⟩
      rw [if_pos (by simp)]
      have := h2 cs0 (by simp)
      have e : L.set l (some (.list false cs0)) = L := by
        funext x; unfold Handles.set; split
        · next hx => rw [hx, hL]
        · rfl
      rw [e] at this
      exact this
    | some c =>
      refine ⟨_, _, rfl, ?_⟩
      have hlb : l ≠ b := by rintro rfl; rw [hL] at hLb; cases hLb
      have hret : ¬ ((b : Int) < 0) := by omega
      rw [if_neg hret]
      simp only [Int.toNat_natCast]
      refine ok_call hm fun _ _ _ _ _ _ _ => ?_
      refine ⟨(L.set b (some (.rule c))).set l (some (.list false (cs0 ++ [c]))), ⟨0, none, none⟩, ?_, ?_⟩
      · simp [valueStep, Handles.set, hlb, hL]
      refine ok_call hm fun _ _ _ _ _ _ _ => ?_
      refine ⟨L.set l (some (.list false (cs0 ++ [c]))), ⟨0, none, none⟩, ?_, ?_⟩
      · have : ((L.set b (some (.rule c))).set l (some (.list false (cs0 ++ [c])))).set b none =
            L.set l (some (.list false (cs0 ++ [c]))) := by
          rw [set_comm _ (fun h => hlb h), set_set, set_none hLb]
        simp only [valueStep]
        rw [set_other _ (fun h => hlb h.symm), set_same]
        simp only [this]
      refine ih _ (cs0 ++ [c]) (set_same _ _ _) ?_ ?_
      · intro cs hcs
        rw [set_set, List.append_assoc]
        exact h1 (c :: cs) (by rw [hcs]; rfl)
      · intro cs hcs
        rw [set_set]
        exact h2 cs (List.mem_cons_of_mem _ hcs)

theorem ok_freeList {lib : Lib C S D E} {m : Mode S} (hm : lend m = (id : Handles C S D → Handles C S D)) {L : Handles C S D} {l : Addr}
    {p : Bool} {cs : List C} (hL : L l = some (.list p cs)) {k : GoProg C D E} (hk : Ok lib m (L.set l none) k) :
    Ok lib m L (.call (fun _ _ => .freeList l) fun _ => k) := by
  refine ok_call hm fun _ _ _ _ _ _ _ => ?_
  exact ⟨L.set l none, ⟨0, none, none⟩, by simp [valueStep, hL], hk⟩

theorem ok_create {lib : Lib C S D E} (hcodes : ∀ cs code, lib.build cs = .error code → code < 0) {m : Mode S}
    (hm : lend m = (id : Handles C S D → Handles C S D)) (jsons : List (Option C)) (k : Except (Option Int) Addr → GoProg C D E)
    (h1 : ∀ cs s a, jsons = cs.map some → lib.build cs = .ok s → Ok lib m (none0.set a (some (.scanner s))) (k (.ok a)))
    (h2 : none ∈ jsons → Ok lib m none0 (k (.error none)))
    (h3 : ∀ cs code, jsons = cs.map some → (lib.build cs = .error code ∨ (lib.build cs = .panic ∧ code = -5)) →
      Ok lib m none0 (k (.error (some code)))) : Ok lib m (none0 : Handles C S D) (progCreate jsons k) := by
  unfold progCreate
  refine ok_call hm fun l _ hl _ _ _ _ => ?_
  refine ⟨_, _, rfl, ?_⟩
  simp only [Int.toNat_natCast]
  refine ok_addRules hm l jsons _ _ [] (set_same _ _ _) ?_ ?_
  · intro cs hcs
    rw [set_set, List.nil_append, if_pos rfl]
    refine ok_call hm fun a _ ha _ _ hLa _ => ?_
    have hal : a ≠ l := by rintro rfl; rw [set_same] at hLa; cases hLa
    cases hb : lib.build cs with
    | ok s =>
      refine ⟨_, _, by simp only [valueStep, set_same, hb]; rfl, ?_⟩
      have : ¬ ((a : Int) < 0) := by omega
      rw [if_neg this]
      simp only [Int.toNat_natCast]
      refine ok_freeList hm (by rw [set_other _ hal.symm]; exact set_same _ _ _) ?_
      rw [set_comm _ hal, set_set, set_none (by rfl)]
      exact h1 cs s a hcs hb
    | error code =>
      refine ⟨_, _, by simp only [valueStep, set_same, hb]; rfl, ?_⟩
      have := hcodes cs code hb
      rw [if_pos this]
      refine ok_freeList hm (set_same _ _ _) ?_
      rw [set_set, set_none (by rfl)]
      exact h3 cs code hcs (.inl hb)
    | panic =>
      refine ⟨_, _, by simp only [valueStep, set_same, hb]; rfl, ?_⟩
      rw [if_pos (by simp)]
      refine ok_call hm fun _ _ _ _ _ _ _ => ?_
      refine ⟨none0.set l (some (.list true cs)), ⟨0, none, none⟩, ?_, ?_⟩
      · simp only [valueStep, set_same]
        rw [set_set, set_set, set_none (by rw [set_other _ hal]; rfl)]
      refine ok_freeList hm (set_same _ _ _) ?_
      rw [set_set, set_none (by rfl)]
      exact h3 cs (-5) hcs (.inr ⟨hb, rfl⟩)
  · intro cs hn
    rw [set_set, if_neg (by simp)]
    refine ok_freeList hm (set_same _ _ _) ?_
    rw [set_set, set_none (by rfl)]
    exact h2 hn

theorem ok_reads {lib : Lib C S D E} {x : Nat} {a : Addr} {s : S} (n : Nat) {p : GoProg C D E}
    (hp : Ok lib (.scanning x a s) none0 p) : Ok lib (.scanning x a s) none0 (progReads a n p) := by
  induction n with
  | zero => exact hp
  | succ n ih => exact ⟨⟨x, s, rfl⟩, ih⟩

theorem ok_scan {lib : Lib C S D E} {x : Nat} {a : Addr} {s : S} (e : E) (n : Nat) {k : GoScanned D → GoProg C D E}
    (hk : Ok lib (.scanning x a s) none0 (k (reportOf (lib.scan s e)))) :
    Ok lib (.scanning x a s) none0 (progScan x e n k) := by
  refine ⟨a, .inl ⟨s, rfl⟩, ok_reads n ?_⟩
  intro b b' hb hb' hbb hLb _
  refine ⟨(by takes : ∀ b b', Takes S D (Call.scan (C := C) a e b) b b') b b', ?_⟩
  have hba : b ≠ a := by rintro rfl; simp [lend, set_same] at hLb
  have other : ∀ (w : Option (Owned C S D)) y p sc, Mode.scanning x a s = Mode.scanning y p sc →
      (none0 : Handles C S D).set b w p = none := by
    intro w y p sc h
    cases h
    rw [set_other _ hba.symm]; rfl
  have none_ : ∀ y p sc, Mode.scanning x a s = Mode.scanning y p sc → (none0 : Handles C S D) p = none := fun _ _ _ _ => rfl
  cases hs : lib.scan s e with
  | nothing =>
    rw [hs] at hk
    exact ⟨none0, ⟨0, none, none⟩, by simp only [valueStep, lend, set_same, hs], none_, hk⟩
  | data d =>
    rw [hs] at hk
    refine ⟨none0.set b (some (.vec d)), ⟨0, none, some b⟩, ?_, other _, ?_⟩
    · simp only [valueStep, lend, set_same, hs]
      rw [set_comm _ hba.symm]
    refine ⟨d, set_same _ _ _, ?_⟩
    intro c c' _ _ _ _ _
    refine ⟨(by takes : ∀ c c', Takes S D (Call.freeVec (C := C) (E := E) b) c c') c c', none0, ⟨0, none, none⟩, ?_, none_, hk⟩
    simp only [valueStep, lend]
    rw [set_other _ hba, set_same]
    simp only
    rw [set_comm _ hba.symm, set_set, set_none (by rfl)]
  | panic =>
    rw [hs] at hk
    refine ⟨none0.set b (some .cstring), ⟨0, some b, none⟩, ?_, other _, ?_⟩
    · simp only [valueStep, lend, set_same, hs]
      rw [set_comm _ hba.symm]
    intro c c' _ _ _ _ _
    refine ⟨(by takes : ∀ c c', Takes S D (Call.freeString (C := C) (E := E) b) c c') c c', none0, ⟨0, none, none⟩, ?_, none_, hk⟩
    simp only [valueStep, lend]
    rw [set_other _ hba, set_same]
    simp only
    rw [set_comm _ hba.symm, set_set, set_none (by rfl)]

/-- A goroutine can go on from its start. -/
theorem ok_goProg {lib : Lib C S D E} (hcodes : ∀ cs code, lib.build cs = .error code → code < 0) (ops : List (GoOp C E)) :
    Ok lib .free (none0 : Handles C S D) (goProg ops) := by
  induction ops with
  | nil => exact ⟨rfl, rfl⟩
  | cons op ops ih =>
    cases op with
    | create x jsons =>
      refine ⟨rfl, rfl, ok_create hcodes (lend_creating x none) jsons _ ?_ ?_ ?_⟩
      · intro cs s a h1 h2
        exact .inl ⟨rfl, a, s, cs, rfl, h1, h2, rfl, ih⟩
      · intro hn
        exact ⟨⟨none, rfl⟩, rfl, hn, ih⟩
      · intro cs code h1 h2
        exact ⟨⟨none, rfl⟩, rfl, ⟨cs, h1, h2⟩, ih⟩
    | scan x e n =>
      refine ⟨rfl, rfl, fun a s => ok_scan e n ?_⟩
      exact ⟨⟨a, s, rfl, rfl⟩, rfl, ih⟩
    | delete x =>
      refine ⟨rfl, rfl, fun a s => ⟨a, .inr rfl, ?_⟩⟩
      refine ok_call (lend_deleting x a) fun _ _ _ _ _ _ _ => ?_
      refine ⟨none0, ⟨0, none, none⟩, ?_, .inr ⟨⟨a, rfl⟩, rfl, rfl, ih⟩⟩
      simp only [valueStep, set_same, set_set]
      rw [set_none (by rfl)]

end Sds.Threads
