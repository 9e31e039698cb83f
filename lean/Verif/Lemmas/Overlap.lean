import Verif.Spec.Overlap

/-! Lemmas for conflict resolution. -/

namespace Sds
open Spec

theorem overlap_symm {a b : M} : Overlap a b → Overlap b a := fun h => ⟨h.2, h.1⟩

theorem prioLe_iff {mu : Nat → Bool} {a b : M} (ha : a.st ≤ a.en) (hb : b.st ≤ b.en) :
    prioLe mu a b = true ↔ (Higher mu a b ∨ a = b) := by
  obtain ⟨ar, as, ae⟩ := a
  obtain ⟨br, bs, be⟩ := b
  simp only [prioLe, Higher, M.len, M.mk.injEq] at *
  cases h1 : mu ar <;> cases h2 : mu br <;> simp <;>
    (try (intro h; subst h; simp_all)) <;> (try (split <;> (try split) <;> simp_all <;> omega))

theorem prioLe_trans (mu : Nat → Bool) (a b c : M) :
    prioLe mu a b = true → prioLe mu b c = true → prioLe mu a c = true := by
  unfold prioLe
  intro h1 h2
  cases hA : mu a.rule <;> cases hB : mu b.rule <;> cases hC : mu c.rule <;>
    simp only [hA, hB, hC, Bool.false_eq_true, if_false, bne,
      Bool.not_eq_true', Bool.true_beq, Bool.false_beq, if_true, Bool.not_true,
      Bool.not_false] at h1 h2 ⊢ <;>
    (repeat' split at h1) <;> (repeat' split at h2) <;> (repeat' split) <;>
    simp_all <;> omega

theorem prioLe_total (mu : Nat → Bool) (a b : M) : (prioLe mu a b || prioLe mu b a) = true := by
  unfold prioLe
  cases hA : mu a.rule <;> cases hB : mu b.rule <;> simp <;>
    rcases Nat.lt_trichotomy a.st b.st with h1 | h1 | h1 <;>
    rcases Nat.lt_trichotomy a.len b.len with h2 | h2 | h2 <;>
    simp [h1, h2, Nat.ne_of_lt, Nat.ne_of_gt] <;> omega

theorem insertBy_perm {α : Type} (le : α → α → Bool) (a : α) (l : List α) :
    (insertBy le a l).Perm (a :: l) := by
  induction l with
  | nil => exact List.Perm.refl _
  | cons b l ih =>
    simp only [insertBy]
    split
    · exact List.Perm.refl _
    · exact (ih.cons b).trans (List.Perm.swap a b l)

theorem sortBy_perm {α : Type} (le : α → α → Bool) (l : List α) : (sortBy le l).Perm l := by
  induction l with
  | nil => exact List.Perm.refl _
  | cons a l ih => exact (insertBy_perm le a _).trans (ih.cons a)

theorem insertBy_pairwise {α : Type} {le : α → α → Bool}
    (trans : ∀ a b c, le a b = true → le b c = true → le a c = true)
    (total : ∀ a b, (le a b || le b a) = true) (a : α) {l : List α}
    (h : l.Pairwise (fun a b => le a b = true)) :
    (insertBy le a l).Pairwise (fun a b => le a b = true) := by
  induction l with
  | nil => simp [insertBy]
  | cons b l ih =>
    obtain ⟨h1, h2⟩ := List.pairwise_cons.1 h
    simp only [insertBy]
    split
    · next hab =>
      refine List.pairwise_cons.2 ⟨fun x hx => ?_, h⟩
      rcases List.mem_cons.1 hx with rfl | hx
      · exact hab
      · exact trans _ _ _ hab (h1 x hx)
    · next hab =>
      refine List.pairwise_cons.2 ⟨fun x hx => ?_, ih h2⟩
      rcases List.mem_cons.1 ((insertBy_perm le a l).mem_iff.1 hx) with rfl | hx
      · have := total x b
        simp only [Bool.or_eq_true] at this
        exact this.resolve_left hab
      · exact h1 x hx

theorem sortBy_pairwise {α : Type} {le : α → α → Bool}
    (trans : ∀ a b c, le a b = true → le b c = true → le a c = true)
    (total : ∀ a b, (le a b || le b a) = true) (l : List α) :
    (sortBy le l).Pairwise (fun a b => le a b = true) := by
  induction l with
  | nil => exact List.Pairwise.nil
  | cons a l ih => exact insertBy_pairwise trans total a ih

theorem sortsBy_prio (mu : Nat → Bool) : SortsBy (prioLe mu) (sortBy (prioLe mu)) := fun l =>
  ⟨sortBy_perm _ l, sortBy_pairwise (prioLe_trans mu) (prioLe_total mu) l⟩

theorem sortsBy_start : SortsBy startLe (sortBy startLe) := fun l =>
  ⟨sortBy_perm _ l, sortBy_pairwise (fun a b c h1 h2 => by simp [startLe] at *; omega)
     (fun a b => by simp [startLe]; omega) l⟩

/-- The retain loop: what it keeps, for candidates sorted by priority. -/
structure LoopInv (mu : Nat → Bool) (acc : List M) : Prop where
  ok : ∀ m ∈ acc, m.st ≤ m.en
  disj : acc.Pairwise (fun a b => ¬ Overlap a b)
  chain : (∀ m ∈ acc, mu m.rule = true) → acc.Pairwise (fun later earlier => earlier.en ≤ later.st)

theorem LoopInv.nil (mu : Nat → Bool) : LoopInv mu [] :=
  ⟨by simp, List.Pairwise.nil, fun _ => List.Pairwise.nil⟩

theorem LoopInv.le_head {mu : Nat → Bool} {a : M} {acc : List M} (h : LoopInv mu (a :: acc))
    (hm : ∀ m ∈ a :: acc, mu m.rule = true) : ∀ r ∈ a :: acc, r.en ≤ a.en := by
  intro r hr
  rcases List.mem_cons.1 hr with rfl | hr
  · exact Nat.le_refl _
  · have := (List.pairwise_cons.1 (h.chain hm)).1 r hr
    have := h.ok a List.mem_cons_self
    omega

/-- A kept candidate overlaps nothing kept before. -/
theorem keepMatch_disjoint {mu : Nat → Bool} {acc : List M} {m : M} (h : LoopInv mu acc)
    (hm : mu m.rule = true → ∀ r ∈ acc, mu r.rule = true)
    (hk : keepMatch mu acc m = true) : ∀ r ∈ acc, ¬ Overlap m r := by
  intro r hr
  unfold keepMatch at hk
  split at hk
  · next hmu =>
    cases acc with
    | nil => cases hr
    | cons a acc =>
      simp only [Bool.not_eq_true', decide_eq_false_iff_not] at hk
      have := h.le_head (hm hmu) r hr
      unfold Overlap
      omega
  · simp only [List.all_eq_true, Bool.not_eq_true', Bool.and_eq_false_iff,
      decide_eq_false_iff_not] at hk
    have := hk r hr
    unfold Overlap
    omega

/-- A dropped non-empty candidate overlaps something kept before. -/
theorem keepMatch_drop {mu : Nat → Bool} {acc : List M} {m : M}
    (hne : m.st < m.en) (hs : ∀ r ∈ acc, mu m.rule = true → r.st ≤ m.st)
    (hk : ¬ keepMatch mu acc m = true) : ∃ r ∈ acc, Overlap r m := by
  unfold keepMatch at hk
  split at hk
  · next hmu =>
    cases acc with
    | nil => simp at hk
    | cons a acc =>
      simp only [Bool.not_eq_true', decide_eq_false_iff_not, Classical.not_not] at hk
      have := hs a List.mem_cons_self hmu
      exact ⟨a, List.mem_cons_self, by unfold Overlap; omega⟩
  · simp only [List.all_eq_true, Bool.not_eq_true', Bool.and_eq_false_iff,
      decide_eq_false_iff_not, Classical.not_forall] at hk
    obtain ⟨r, hr, h⟩ := hk
    exact ⟨r, hr, by unfold Overlap; omega⟩

theorem LoopInv.cons {mu : Nat → Bool} {acc : List M} {m : M} (h : LoopInv mu acc)
    (hmle : m.st ≤ m.en) (hm : mu m.rule = true → ∀ r ∈ acc, mu r.rule = true)
    (hk : keepMatch mu acc m = true) : LoopInv mu (m :: acc) := by
  refine ⟨?_, List.pairwise_cons.2 ⟨keepMatch_disjoint h hm hk, h.disj⟩, ?_⟩
  · intro x hx
    rcases List.mem_cons.1 hx with rfl | hx
    · exact hmle
    · exact h.ok x hx
  · intro hall
    have hacc : ∀ r ∈ acc, mu r.rule = true := fun r hr => hall r (List.mem_cons_of_mem _ hr)
    refine List.pairwise_cons.2 ⟨?_, h.chain hacc⟩
    intro r hr
    have hmu := hall m List.mem_cons_self
    unfold keepMatch at hk
    rw [if_pos hmu] at hk
    cases acc with
    | nil => cases hr
    | cons a acc =>
      simp only [Bool.not_eq_true', decide_eq_false_iff_not] at hk
      have := h.le_head hacc r hr
      omega

/-- Candidates sorted by priority: a redacting candidate comes after redacting ones only. -/
theorem prioLe_mut {mu : Nat → Bool} {a b : M} (h : prioLe mu a b = true) (hb : mu b.rule = true) :
    mu a.rule = true := by
  unfold prioLe at h
  split at h
  · exact h
  · next hne => simp only [bne_iff_ne, ne_eq, Classical.not_not] at hne; rw [hne]; exact hb

theorem prioLe_start {mu : Nat → Bool} {a b : M} (h : prioLe mu a b = true) (hb : mu b.rule = true) :
    a.st ≤ b.st := by
  have ha := prioLe_mut h hb
  unfold prioLe at h
  rw [ha, hb] at h
  by_cases he : a.st = b.st
  · omega
  · simp [he] at h; omega

theorem retainLoop_spec (mu : Nat → Bool) (l : List M) : ∀ (acc : List M),
    (∀ m ∈ l, m.st ≤ m.en) → l.Pairwise (fun a b => prioLe mu a b = true) →
    (∀ r ∈ acc, ∀ m ∈ l, prioLe mu r m = true) → LoopInv mu acc →
    LoopInv mu (retainLoop mu acc l) ∧
    (∀ x, x ∈ retainLoop mu acc l → x ∈ acc ∨ x ∈ l) ∧
    (∀ x ∈ acc, x ∈ retainLoop mu acc l) ∧
    (∀ m ∈ l, m.st < m.en → m ∈ retainLoop mu acc l ∨
      ∃ r ∈ retainLoop mu acc l, prioLe mu r m = true ∧ Overlap r m) := by
  induction l with
  | nil => intro acc _ _ _ h; exact ⟨h, fun x hx => Or.inl hx, fun x hx => hx, by simp⟩
  | cons m l ih =>
    intro acc hle hs hacc hinv
    obtain ⟨hs1, hs2⟩ := List.pairwise_cons.1 hs
    have hmu : mu m.rule = true → ∀ r ∈ acc, mu r.rule = true := fun h r hr =>
      prioLe_mut (hacc r hr m List.mem_cons_self) h
    simp only [retainLoop]
    split
    · next hk =>
      obtain ⟨i1, i2, i3, i4⟩ := ih (m :: acc) (fun x hx => hle x (List.mem_cons_of_mem _ hx)) hs2
        (by
          intro r hr x hx
          rcases List.mem_cons.1 hr with rfl | hr
          · exact hs1 x hx
          · exact hacc r hr x (List.mem_cons_of_mem _ hx))
        (hinv.cons (hle m List.mem_cons_self) hmu hk)
      refine ⟨i1, ?_, ?_, ?_⟩
      · intro x hx
        rcases i2 x hx with h | h
        · rcases List.mem_cons.1 h with rfl | h
          · exact Or.inr List.mem_cons_self
          · exact Or.inl h
        · exact Or.inr (List.mem_cons_of_mem _ h)
      · exact fun x hx => i3 x (List.mem_cons_of_mem _ hx)
      · intro x hx hne
        rcases List.mem_cons.1 hx with rfl | hx
        · exact Or.inl (i3 _ List.mem_cons_self)
        · exact i4 x hx hne
    · next hk =>
      obtain ⟨i1, i2, i3, i4⟩ := ih acc (fun x hx => hle x (List.mem_cons_of_mem _ hx)) hs2
        (fun r hr x hx => hacc r hr x (List.mem_cons_of_mem _ hx)) hinv
      refine ⟨i1, ?_, i3, ?_⟩
      · intro x hx
        rcases i2 x hx with h | h
        · exact Or.inl h
        · exact Or.inr (List.mem_cons_of_mem _ h)
      · intro x hx hne
        rcases List.mem_cons.1 hx with rfl | hx
        · obtain ⟨r, hr, ho⟩ := keepMatch_drop hne
            (fun r hr h => prioLe_start (hacc r hr x List.mem_cons_self) h) hk
          exact Or.inr ⟨r, i3 r hr, hacc r hr x List.mem_cons_self, ho⟩
        · exact i4 x hx hne

theorem pairwise_forall_ne {α : Type} {R : α → α → Prop} (hsym : ∀ {a b}, R a b → R b a)
    {l : List α} (h : l.Pairwise R) : ∀ a ∈ l, ∀ b ∈ l, a ≠ b → R a b := by
  induction l with
  | nil => simp
  | cons x l ih =>
    obtain ⟨h1, h2⟩ := List.pairwise_cons.1 h
    intro a ha b hb hab
    rcases List.mem_cons.1 ha with rfl | ha' <;> rcases List.mem_cons.1 hb with rfl | hb'
    · exact absurd rfl hab
    · exact h1 b hb'
    · exact hsym (h1 a ha')
    · exact ih h2 a ha' b hb' hab

/-- Full description of the output of conflict resolution, for any sorting algorithms. -/
theorem resolveWith_spec {mu : Nat → Bool} {s1 s2 : List M → List M} (h1 : SortsBy (prioLe mu) s1)
    (h2 : SortsBy startLe s2) (ms : List M) (hle : ∀ m ∈ ms, m.st ≤ m.en) :
    (∀ m ∈ resolveWith s1 s2 mu ms, m ∈ ms) ∧
    (resolveWith s1 s2 mu ms).Pairwise (fun a b => ¬ Overlap a b) ∧
    (resolveWith s1 s2 mu ms).Pairwise (fun a b => a.st ≤ b.st) ∧
    (∀ m ∈ ms, m.st < m.en → m ∈ resolveWith s1 s2 mu ms ∨
      ∃ r ∈ resolveWith s1 s2 mu ms, prioLe mu r m = true ∧ Overlap r m) := by
  have hp := (h1 ms).1
  obtain ⟨i1, i2, _, i4⟩ := retainLoop_spec mu (s1 ms) []
    (fun m hm => hle m (hp.mem_iff.1 hm)) (h1 ms).2 (by simp) (LoopInv.nil mu)
  have hq : (resolveWith s1 s2 mu ms).Perm (retainLoop mu [] (s1 ms)) :=
    (h2 _).1.trans (List.reverse_perm _)
  refine ⟨?_, ?_, ?_, ?_⟩
  · intro m hm
    rcases i2 m (hq.mem_iff.1 hm) with h | h
    · cases h
    · exact hp.mem_iff.1 h
  · exact (hq.pairwise_iff (fun h h' => h (overlap_symm h'))).2 i1.disj
  · exact (h2 _).2.imp (fun h => by simpa [startLe] using h)
  · intro m hm hne
    rcases i4 m (hp.mem_iff.2 hm) hne with h | ⟨r, hr, h⟩
    · exact Or.inl (hq.mem_iff.2 h)
    · exact Or.inr ⟨r, hq.mem_iff.2 hr, h⟩

theorem resolveWith_isResolution {mu : Nat → Bool} {s1 s2 : List M → List M}
    (h1 : SortsBy (prioLe mu) s1) (h2 : SortsBy startLe s2) (ms : List M)
    (hne : ∀ m ∈ ms, m.st < m.en) : IsResolution mu ms (resolveWith s1 s2 mu ms) := by
  have hle : ∀ m ∈ ms, m.st ≤ m.en := fun m hm => Nat.le_of_lt (hne m hm)
  obtain ⟨a1, a2, _, a4⟩ := resolveWith_spec h1 h2 ms hle
  refine ⟨a1, ?_⟩
  intro m hm
  constructor
  · rintro hmr ⟨r, hr, hhi, hov⟩
    by_cases heq : r = m
    · subst heq; unfold Higher at hhi; cases hb : mu r.rule <;> simp [hb] at hhi
    · exact pairwise_forall_ne (fun h h' => h (overlap_symm h')) a2 r hr m hmr heq hov
  · intro h
    rcases a4 m hm (hne m hm) with h' | ⟨r, hr, hp, ho⟩
    · exact h'
    · rcases (prioLe_iff (hle r (a1 r hr)) (hle m hm)).1 hp with hh | rfl
      · exact absurd ⟨r, hr, hh, ho⟩ h
      · exact hr

theorem higher_irrefl {mu : Nat → Bool} {a : M} : ¬ Higher mu a a := by
  unfold Higher; cases mu a.rule <;> simp

theorem higher_trans {mu : Nat → Bool} {a b c : M} (h1 : Higher mu a b) (h2 : Higher mu b c) :
    Higher mu a c := by
  unfold Higher at *
  cases hA : mu a.rule <;> cases hB : mu b.rule <;> cases hC : mu c.rule <;>
    simp_all <;> omega

theorem filter_length_le {α : Type} {p q : α → Bool} (hpq : ∀ x, p x = true → q x = true)
    (l : List α) : (l.filter p).length ≤ (l.filter q).length := by
  induction l with
  | nil => simp
  | cons y l ih =>
    simp only [List.filter_cons]
    by_cases h1 : p y = true
    · simp [h1, hpq y h1, ih]
    · by_cases h2 : q y = true <;> simp [h1, h2] <;> omega

theorem filter_length_lt {α : Type} {p q : α → Bool} (hpq : ∀ x, p x = true → q x = true)
    {l : List α} {r : α} (hr : r ∈ l) (hp : p r = false) (hq : q r = true) :
    (l.filter p).length < (l.filter q).length := by
  induction l with
  | nil => cases hr
  | cons y l ih =>
    simp only [List.filter_cons]
    rcases List.mem_cons.1 hr with rfl | hr
    · have := filter_length_le hpq l
      simp [hp, hq]; omega
    · have := ih hr
      by_cases h1 : p y = true
      · simp [h1, hpq y h1]; exact this
      · by_cases h2 : q y = true <;> simp [h1, h2] <;> omega

/-- The specification determines the reports. -/
theorem isResolution_unique {mu : Nat → Bool} {cand cand' res res' : List M}
    (hc : ∀ m, m ∈ cand ↔ m ∈ cand')
    (h : IsResolution mu cand res) (h' : IsResolution mu cand' res') : ∀ m, m ∈ res ↔ m ∈ res' := by
  -- induction on the number of candidates of higher priority
  suffices H : ∀ n m, m ∈ cand → (cand.filter (fun x => decide (Higher mu x m))).length = n →
      (m ∈ res ↔ m ∈ res') by
    intro m
    constructor
    · intro hm; exact (H _ m (h.1 m hm) rfl).1 hm
    · intro hm; exact (H _ m ((hc m).2 (h'.1 m hm)) rfl).2 hm
  intro n
  induction n using Nat.strongRecOn with
  | ind n ih =>
    intro m hm hn
    rw [h.2 m hm, h'.2 m ((hc m).1 hm)]
    have key : ∀ r, r ∈ cand → Higher mu r m → (r ∈ res ↔ r ∈ res') := by
      intro r hr hrm
      refine ih _ ?_ r hr rfl
      rw [← hn]
      exact filter_length_lt (fun x hx => by
          simp only [decide_eq_true_eq] at hx ⊢; exact higher_trans hx hrm) hr
        (by simp [higher_irrefl]) (by simp [hrm])
    apply not_congr
    constructor
    · rintro ⟨r, hr, h1, h2⟩; exact ⟨r, (key r (h.1 r hr) h1).1 hr, h1, h2⟩
    · rintro ⟨r, hr, h1, h2⟩; exact ⟨r, (key r ((hc r).2 (h'.1 r hr)) h1).2 hr, h1, h2⟩

/-- Disjoint non-empty ranges listed by start are strictly ordered. -/
theorem ordered_of_disjoint {l : List M} (hne : ∀ m ∈ l, m.st < m.en)
    (hd : l.Pairwise (fun a b => ¬ Overlap a b)) (hs : l.Pairwise (fun a b => a.st ≤ b.st)) :
    l.Pairwise (fun a b => a.en ≤ b.st) := by
  induction l with
  | nil => exact List.Pairwise.nil
  | cons x l ih =>
    obtain ⟨h1, h2⟩ := List.pairwise_cons.1 hd
    obtain ⟨h3, h4⟩ := List.pairwise_cons.1 hs
    refine List.pairwise_cons.2 ⟨?_, ih (fun m hm => hne m (List.mem_cons_of_mem _ hm)) h2 h4⟩
    intro b hb
    have a1 := h1 b hb
    have a2 := h3 b hb
    have a3 := hne b (List.mem_cons_of_mem _ hb)
    unfold Overlap at a1
    omega

/-- Lists of disjoint non-empty ranges in order are determined by their elements. -/
theorem ordered_ext {l l' : List M} (hne : ∀ m ∈ l, m.st < m.en) (hne' : ∀ m ∈ l', m.st < m.en)
    (h : l.Pairwise (fun a b => a.en ≤ b.st)) (h' : l'.Pairwise (fun a b => a.en ≤ b.st))
    (hm : ∀ m, m ∈ l ↔ m ∈ l') : l = l' := by
  have nd : ∀ {l : List M}, (∀ m ∈ l, m.st < m.en) → l.Pairwise (fun a b => a.en ≤ b.st) →
      l.Nodup := by
    intro l hne h
    refine List.Pairwise.imp_of_mem (fun {a b} ha hb hab heq => ?_) h
    subst heq; have := hne a ha; omega
  refine List.Perm.eq_of_pairwise (le := fun a b => a.en ≤ b.st) ?_ h h'
    ((List.perm_ext_iff_of_nodup (nd hne h) (nd hne' h')).2 hm)
  intro a b ha hb h1 h2
  have := hne a ha
  have := hne' b hb
  omega

end Sds
