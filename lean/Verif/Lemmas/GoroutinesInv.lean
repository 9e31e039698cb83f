import Verif.Lemmas.Goroutines

/-! # Goroutines: the invariant of disciplined runs -/

namespace Sds.Threads
open Sds Spec Props
variable {C S D E : Type}

/-- A function changed at one place. -/
def upd {β : Type} (f : Nat → β) (i : Nat) (v : β) : Nat → β := fun j => if j = i then v else f j

theorem upd_same {β : Type} (f : Nat → β) (i : Nat) (v : β) : upd f i v i = v := by simp [upd]
theorem upd_other {β : Type} (f : Nat → β) {i j : Nat} (h : j ≠ i) (v : β) : upd f i v j = f j := by simp [upd, h]
theorem upd_self {β : Type} (f : Nat → β) (i : Nat) : upd f i (f i) = f := by
  funext j; unfold upd; split
  · next h => rw [h]
  · rfl

/-- What the goroutines own and the shared scanners make up all handles. -/
structure Mem (lib : Lib C S D E) (h : Heap C S D) (A : Handles C S D) (L : Nat → Handles C S D)
    (sh : Nat → Option (Addr × S)) : Prop where
  hist : History lib h A
  own : ∀ i p w, L i p = some w → A p = some w
  shared : ∀ x p s, sh x = some (p, s) → A p = some (.scanner s)
  covered : ∀ p, A p ≠ none → (∃ i, L i p ≠ none) ∨ ∃ x s, sh x = some (p, s)
  apart : ∀ i j p, L i p ≠ none → L j p ≠ none → i = j
  apartShared : ∀ i p x s, L i p ≠ none → sh x ≠ some (p, s)
  sharedApart : ∀ x y p s t, sh x = some (p, s) → sh y = some (p, t) → x = y

/-- A goroutine has a scanner for itself. -/
def Holds : Mode S → Nat → Prop
  | .creating y _, x => y = x
  | .deleting y _, x => y = x
  | .deleted y, x => y = x
  | _, _ => False

/-- Creation of `x` has begun. -/
def CreateBegun (tr : List (Nat × GoEvent C D E)) (x : Nat) : Prop := ∃ j, (j, .createBegins x) ∈ tr

/-- What is known of the fields `Id` and of the history. -/
structure Ctl (lib : Lib C S D E) (ids : Nat → Addr) (m : Nat → Mode S) (sh : Nat → Option (Addr × S))
    (tr : List (Nat × GoEvent C D E)) : Prop where
  shared : ∀ x p s, sh x = some (p, s) → ids x = p
  creating : ∀ i x p, m i = .creating x (some p) → ids x = p
  deleting : ∀ i x p, m i = .deleting x p → ids x = p
  scanning : ∀ i x p s, m i = .scanning x p s → sh x = some (p, s) ∧ InScan tr i x
  notMade : ∀ i x st, m i = .creating x st → ¬ Made tr x
  holds : ∀ i x, Holds (m i) x → sh x = none ∧ CreateBegun tr x
  alone : ∀ i j x, Holds (m i) x → Holds (m j) x → i = j
  begun : ∀ x, Made tr x → CreateBegun tr x
  made : ∀ x, Made tr x → ¬ DeleteBegun tr x → sh x ≠ none
  built : ∀ x p s, sh x = some (p, s) → ¬ DeleteBegun tr x ∧
    ∃ i cs, (i, .createEnds x (cs.map some) none) ∈ tr ∧ lib.build cs = .ok s
  deleted : ∀ x, DeleteBegun tr x → Made tr x
  right : ∀ ev ∈ tr, Right lib tr ev.2

/-- The invariant. -/
def Inv (lib : Lib C S D E) (c : GoConf C S D E) (tr : List (Nat × GoEvent C D E)) : Prop :=
  ∃ A L m sh, Mem lib c.heap A L sh ∧ Ctl lib c.ids m sh tr ∧ ∀ i, Ok lib (m i) (L i) (c.threads i)

theorem inv_start {lib : Lib C S D E} (hcodes : ∀ cs code, lib.build cs = .error code → code < 0) (ops : Nat → List (GoOp C E)) :
    Inv lib (⟨[], fun _ => 0, fun i => goProg (ops i)⟩ : GoConf C S D E) [] := by
  refine ⟨none0, fun _ => none0, fun _ => .free, fun _ => none, ?_, ?_, fun i => ok_goProg hcodes (ops i)⟩
  · exact {
      hist := .start
      own := fun _ _ _ h => by cases h
      shared := fun _ _ _ h => by cases h
      covered := fun _ h => absurd rfl h
      apart := fun _ _ _ h => absurd rfl h
      apartShared := fun _ _ _ _ h => absurd rfl h
      sharedApart := fun _ _ _ _ _ h => by cases h }
  · exact {
      shared := fun _ _ _ h => by cases h
      creating := fun _ _ _ h => by cases h
      deleting := fun _ _ _ h => by cases h
      scanning := fun _ _ _ _ h => by cases h
      notMade := fun _ _ _ h => by cases h
      holds := fun _ _ h => h.elim
      alone := fun _ _ _ h => h.elim
      begun := fun _ ⟨_, _, h⟩ => by cases h
      made := fun _ ⟨_, _, h⟩ => by cases h
      built := fun _ _ _ h => by cases h
      deleted := fun _ ⟨_, h⟩ => by cases h
      right := fun _ h => by cases h }

/-! ## Histories that grow -/

section
variable {tr : List (Nat × GoEvent C D E)} {n : Nat × GoEvent C D E} {x i : Nat}

theorem made_mono (h : Made tr x) : Made (tr ++ [n]) x := by
  obtain ⟨j, js, h⟩ := h
  exact ⟨j, js, by simp [h]⟩

theorem deleteBegun_mono (h : DeleteBegun tr x) : DeleteBegun (tr ++ [n]) x := by
  obtain ⟨j, h⟩ := h
  exact ⟨j, by simp [h]⟩

theorem createBegun_mono (h : CreateBegun tr x) : CreateBegun (tr ++ [n]) x := by
  obtain ⟨j, h⟩ := h
  exact ⟨j, by simp [h]⟩

theorem inScan_mono (hn : n.1 ≠ i) (h : InScan tr i x) : InScan (tr ++ [n]) i x := by
  obtain ⟨t, e, u, h1, h2⟩ := h
  refine ⟨t, e, u ++ [n], by simp [h1], ?_⟩
  intro ev hev
  rcases List.mem_append.1 hev with h | h
  · exact h2 ev h
  · simp only [List.mem_singleton] at h; rw [h]; exact hn

theorem right_mono {lib : Lib C S D E} {ev : GoEvent C D E} (h : Right lib tr ev) : Right lib (tr ++ [n]) ev := by
  cases ev with
  | createEnds y js err =>
    rcases err with _ | _ | _
    · exact h
    · exact h
    · exact h
  | scanEnds y e r =>
    obtain ⟨i, cs, s, h1, h2⟩ := h
    exact ⟨i, cs, s, by simp [h1], h2⟩
  | _ => trivial

theorem made_snoc (hn : ∀ js, n.2 ≠ .createEnds x js none) (h : Made (tr ++ [n]) x) : Made tr x := by
  obtain ⟨j, js, h⟩ := h
  rcases List.mem_append.1 h with h | h
  · exact ⟨j, js, h⟩
  · simp only [List.mem_singleton] at h
    exact absurd (by rw [← h]) (hn js)

theorem deleteBegun_snoc (hn : n.2 ≠ .deleteBegins x) (h : DeleteBegun (tr ++ [n]) x) : DeleteBegun tr x := by
  obtain ⟨j, h⟩ := h
  rcases List.mem_append.1 h with h | h
  · exact ⟨j, h⟩
  · simp only [List.mem_singleton] at h
    exact absurd (by rw [← h]) hn

theorem right_snoc {lib : Lib C S D E} (h : ∀ ev ∈ tr, Right lib tr ev.2) (hn : Right lib (tr ++ [n]) n.2) :
    ∀ ev ∈ tr ++ [n], Right lib (tr ++ [n]) ev.2 := by
  intro ev hev
  rcases List.mem_append.1 hev with h' | h'
  · exact right_mono (h ev h')
  · simp only [List.mem_singleton] at h'; rw [h']; exact hn
end

/-- An event of goroutine `i` that neither makes nor deletes a scanner. -/
theorem ctl_event {lib : Lib C S D E} {ids : Nat → Addr} {m : Nat → Mode S} {sh : Nat → Option (Addr × S)}
    {tr : List (Nat × GoEvent C D E)} {i : Nat} {ev : GoEvent C D E} (h : Ctl lib ids m sh tr) (m' : Mode S)
    (h1 : ∀ x js, ev ≠ .createEnds x js none) (h2 : ∀ x, ev ≠ .deleteBegins x) (hr : Right lib (tr ++ [(i, ev)]) ev)
    (hc : ∀ x p, m' ≠ .creating x (some p)) (hd : ∀ x p, m' ≠ .deleting x p)
    (hs : ∀ x p s, m' = .scanning x p s → sh x = some (p, s) ∧ InScan (tr ++ [(i, ev)]) i x)
    (hm : ∀ x st, m' = .creating x st → ¬ Made tr x)
    (hh : ∀ x, Holds m' x → sh x = none ∧ CreateBegun (tr ++ [(i, ev)]) x)
    (ha : ∀ x j, Holds m' x → Holds (m j) x → j = i) : Ctl lib ids (upd m i m') sh (tr ++ [(i, ev)]) where
  shared := h.shared
  creating j x p hj := by
    unfold upd at hj; split at hj
    · exact absurd hj (hc x p)
    · exact h.creating j x p hj
  deleting j x p hj := by
    unfold upd at hj; split at hj
    · exact absurd hj (hd x p)
    · exact h.deleting j x p hj
  scanning j x p s hj := by
    unfold upd at hj; split at hj
    · next e => rw [e]; exact hs x p s hj
    · next e => exact ⟨(h.scanning j x p s hj).1, inScan_mono (fun e' => e e'.symm) (h.scanning j x p s hj).2⟩
  notMade j x st hj hx := by
    have hx := made_snoc (h1 x) hx
    unfold upd at hj; split at hj
    · exact hm x st hj hx
    · exact h.notMade j x st hj hx
  holds j x hj := by
    unfold upd at hj; split at hj
    · exact hh x hj
    · exact ⟨(h.holds j x hj).1, createBegun_mono (h.holds j x hj).2⟩
  alone j k x hj hk := by
    unfold upd at hj hk
    split at hj <;> split at hk
    · next e e' => rw [e, e']
    · next e _ => rw [e]; exact (ha x k hj hk).symm
    · next _ e => rw [e]; exact ha x j hk hj
    · exact h.alone j k x hj hk
  begun x hx := createBegun_mono (h.begun x (made_snoc (h1 x) hx))
  made x hx hd := h.made x (made_snoc (h1 x) hx) fun hb => hd (deleteBegun_mono hb)
  built x p s hx := by
    obtain ⟨h3, j, cs, h4, h5⟩ := h.built x p s hx
    exact ⟨fun hb => h3 (deleteBegun_snoc (h2 x) hb), j, cs, by simp [h4], h5⟩
  deleted x hx := made_mono (h.deleted x (deleteBegun_snoc (h2 x) hx))
  right := right_snoc h.right hr

theorem ok_upd {lib : Lib C S D E} {m : Nat → Mode S} {L : Nat → Handles C S D} {t : Nat → GoProg C D E}
    (h : ∀ i, Ok lib (m i) (L i) (t i)) {i : Nat} {m' : Mode S} {L' : Handles C S D} {p : GoProg C D E} (hp : Ok lib m' L' p) :
    ∀ j, Ok lib (upd m i m' j) (upd L i L' j) (if j = i then p else t j) := by
  intro j
  unfold upd
  split
  · exact hp
  · exact h j

theorem ok_upd_same {lib : Lib C S D E} {m : Nat → Mode S} {L : Nat → Handles C S D} {t : Nat → GoProg C D E}
    (h : ∀ i, Ok lib (m i) (L i) (t i)) {i : Nat} {m' : Mode S} {p : GoProg C D E} (hp : Ok lib m' (L i) p) :
    ∀ j, Ok lib (upd m i m' j) (L j) (if j = i then p else t j) := by
  have := ok_upd h (i := i) hp
  rwa [upd_self] at this

theorem ok_upd_prog {lib : Lib C S D E} {m : Nat → Mode S} {L : Nat → Handles C S D} {t : Nat → GoProg C D E}
    (h : ∀ i, Ok lib (m i) (L i) (t i)) {i : Nat} {p : GoProg C D E} (hp : Ok lib (m i) (L i) p) :
    ∀ j, Ok lib (m j) (L j) (if j = i then p else t j) := by
  have := ok_upd_same h (i := i) hp
  rwa [upd_self] at this

/-! ## Handing scanners over -/

/-- A goroutine shares the one thing it owns. -/
theorem mem_share {lib : Lib C S D E} {h : Heap C S D} {A : Handles C S D} {L : Nat → Handles C S D}
    {sh : Nat → Option (Addr × S)} (hm : Mem lib h A L sh) {i x : Nat} {a : Addr} {s : S}
    (hL : L i = none0.set a (some (.scanner s))) (hx : sh x = none) : Mem lib h A (upd L i none0) (upd sh x (some (a, s))) := by
  have hLa : L i a = some (.scanner s) := by rw [hL, set_same]
  have hA : A a = some (.scanner s) := hm.own i a _ hLa
  refine ⟨hm.hist, ?_, ?_, ?_, ?_, ?_, ?_⟩
  · intro j p w hj
    unfold upd at hj; split at hj
    · cases hj
    · exact hm.own j p w hj
  · intro y p t hy
    unfold upd at hy; split at hy
    · cases hy; exact hA
    · exact hm.shared y p t hy
  · intro p hp
    by_cases hpa : p = a
    · subst hpa; exact .inr ⟨x, s, upd_same _ _ _⟩
    · rcases hm.covered p hp with ⟨j, hj⟩ | ⟨y, t, hy⟩
      · left
        refine ⟨j, ?_⟩
        unfold upd; split
        · next e => rw [e, hL, set_other _ hpa] at hj; exact hj
        · exact hj
      · right
        refine ⟨y, t, ?_⟩
        unfold upd; split
        · next e => rw [e, hx] at hy; cases hy
        · exact hy
  · intro j k p hj hk
    unfold upd at hj hk
    split at hj
    · exact absurd rfl hj
    · split at hk
      · exact absurd rfl hk
      · exact hm.apart j k p hj hk
  · intro j p y t hj hy
    unfold upd at hj hy
    split at hj
    · exact hj rfl
    · next hji =>
      split at hy
      · cases hy
        exact hji (hm.apart j i _ hj (by rw [hLa]; simp))
      · exact hm.apartShared j p y t hj hy
  · intro y z p t u hy hz
    unfold upd at hy hz
    split at hy <;> split at hz
    · next e e' => rw [e, e']
    · cases hy
      exact absurd hz (hm.apartShared i _ z u (by rw [hLa]; simp))
    · cases hz
      exact absurd hy (hm.apartShared i _ y t (by rw [hLa]; simp))
    · exact hm.sharedApart y z p t u hy hz

/-- A goroutine that owns nothing takes a shared scanner. -/
theorem mem_take {lib : Lib C S D E} {h : Heap C S D} {A : Handles C S D} {L : Nat → Handles C S D}
    {sh : Nat → Option (Addr × S)} (hm : Mem lib h A L sh) {i x : Nat} {a : Addr} {s : S}
    (hL : L i = none0) (hx : sh x = some (a, s)) : Mem lib h A (upd L i (none0.set a (some (.scanner s)))) (upd sh x none) := by
  have hA := hm.shared x a s hx
  have hset : ∀ p, (none0 : Handles C S D).set a (some (.scanner s)) p ≠ none → p = a := by
    intro p hp
    by_cases h : p = a
    · exact h
    · rw [set_other _ h] at hp; exact absurd rfl hp
  refine ⟨hm.hist, ?_, ?_, ?_, ?_, ?_, ?_⟩
  · intro j p w hj
    unfold upd at hj; split at hj
    · have := hset p (by rw [hj]; simp)
      subst this
      rw [set_same] at hj
      rw [← hj]; exact hA
    · exact hm.own j p w hj
  · intro y p t hy
    unfold upd at hy; split at hy
    · cases hy
    · exact hm.shared y p t hy
  · intro p hp
    by_cases hpa : p = a
    · subst hpa
      exact .inl ⟨i, by rw [upd_same, set_same]; simp⟩
    · rcases hm.covered p hp with ⟨j, hj⟩ | ⟨y, t, hy⟩
      · left
        refine ⟨j, ?_⟩
        unfold upd; split
        · next e => rw [e, hL] at hj; exact absurd rfl hj
        · exact hj
      · right
        refine ⟨y, t, ?_⟩
        unfold upd; split
        · next e => rw [e, hx] at hy; cases hy; exact absurd rfl hpa
        · exact hy
  · intro j k p hj hk
    unfold upd at hj hk
    split at hj <;> split at hk
    · next e e' => rw [e, e']
    · rw [hset p hj] at hk; exact absurd hx (hm.apartShared k a x s hk)
    · rw [hset p hk] at hj; exact absurd hx (hm.apartShared j a x s hj)
    · exact hm.apart j k p hj hk
  · intro j p y t hj hy
    unfold upd at hj hy
    split at hy
    · cases hy
    · next hyx =>
      split at hj
      · rw [hset p hj] at hy; exact hyx (hm.sharedApart y x a t s hy hx)
      · exact hm.apartShared j p y t hj hy
  · intro y z p t u hy hz
    unfold upd at hy hz
    split at hy
    · cases hy
    · split at hz
      · cases hz
      · exact hm.sharedApart y z p t u hy hz

/-- A native call. -/
theorem mem_call {lib : Lib C S D E} {h : Heap C S D} {A : Handles C S D} {L : Nat → Handles C S D}
    {sh : Nat → Option (Addr × S)} (hm : Mem lib h A L sh) {i : Nat} {m : Mode S}
    (hb : ∀ x p s, m = .scanning x p s → sh x = some (p, s)) {a b : Addr} (hf : Fresh2 h a b)
    {f : Call C E} (ht : Takes S D f a b) {L' : Handles C S D} {o : Out}
    (hv : valueStep lib (lend m (L i)) f = some (lend m L', o)) (hn : ∀ x p s, m = .scanning x p s → L' p = none) :
    ∃ h' A', ffiStep lib h f = some (h', o) ∧ Mem lib h' A' (upd L i L') sh := by
  -- what is lent is among all handles
  have hVA : ∀ p w, lend m (L i) p = some w → A p = some w := by
    intro p w hp
    cases m with
    | scanning x q s =>
      by_cases hpq : p = q
      · subst hpq
        simp only [lend, set_same] at hp
        rw [← hp]; exact hm.shared x p s (hb x p s rfl)
      · simp only [lend, set_other _ hpq] at hp
        exact hm.own i p w hp
    | _ => exact hm.own i p w hp
  have hlendL : ∀ p, L i p ≠ none → lend m (L i) p = L i p := by
    intro p hp
    cases m with
    | scanning x q s =>
      by_cases hpq : p = q
      · subst hpq; exact absurd (hb x p s rfl) (hm.apartShared i p x s hp)
      · simp only [lend, set_other _ hpq]
    | _ => rfl
  obtain ⟨A', hA', hp⟩ := frame hVA hv
  obtain ⟨h', he, hh'⟩ := C65_no_use_after_free hm.hist (ht.1 h hf) hA'
  refine ⟨h', A', he, ?_⟩
  -- places that were touched
  have hfresh : ∀ p, p ∈ newOf f → A p = none := by
    intro p hpn
    rcases ht.2 p hpn with rfl | rfl
    · exact history_free hm.hist hf.2.2.2.1
    · exact history_free hm.hist hf.2.2.2.2
  -- a place of another goroutine is not touched
  have hother : ∀ j p, j ≠ i → L j p ≠ none → lend m L' p = lend m (L i) p ∧ A' p = A p := by
    intro j p hj hL
    have hAp : A p ≠ none := by
      cases h1 : L j p with
      | none => exact absurd h1 hL
      | some w => rw [hm.own j p w h1]; simp
    rcases hp p with h1 | ⟨_, h2 | h2⟩
    · exact h1
    · exfalso
      cases m with
      | scanning x q s =>
        by_cases hpq : p = q
        · subst hpq; exact hm.apartShared j p x s hL (hb x p s rfl)
        · simp only [lend, set_other _ hpq] at h2; exact hj (hm.apart j i p hL h2)
      | _ => exact hj (hm.apart j i p hL h2)
    · exact absurd (hfresh p h2) hAp
  -- nor is a shared scanner
  have hshared : ∀ x p s, sh x = some (p, s) → lend m L' p = lend m (L i) p ∧ A' p = A p := by
    intro x p s hx
    rcases hp p with h1 | ⟨h1, h2 | h2⟩
    · exact h1
    · cases m with
      | scanning y q t =>
        by_cases hpq : p = q
        · subst hpq
          have := hm.sharedApart x y p s t hx (hb y p t rfl)
          subst this
          have hst := (hb x p t rfl).symm.trans hx
          cases hst
          simp only [lend, set_same] at h1 ⊢
          exact ⟨trivial, by rw [h1, hm.shared x p s hx]⟩
        · simp only [lend, set_other _ hpq] at h2; exact absurd hx (hm.apartShared i p x s h2)
      | _ => exact absurd hx (hm.apartShared i p x s h2)
    · have := hm.shared x p s hx
      rw [hfresh p h2] at this; cases this
  have hL'lend : ∀ p, L' p ≠ none → lend m L' p = L' p := by
    intro p hne
    cases m with
    | scanning x q s =>
      by_cases hpq : p = q
      · subst hpq; exact absurd (hn x p s rfl) hne
      · simp only [lend, set_other _ hpq]
    | _ => rfl
  refine ⟨hh', ?_, ?_, ?_, ?_, ?_, ?_⟩
  · intro j p w hj
    unfold upd at hj; split at hj
    · have h1 := hL'lend p (by rw [hj]; simp)
      rcases hp p with ⟨h2, h3⟩ | ⟨h2, _⟩
      · rw [h3]; exact hVA p w (by rw [← h2, h1, hj])
      · rw [h2, h1, hj]
    · next hji => rw [(hother j p hji (by rw [hj]; simp)).2]; exact hm.own j p w hj
  · intro x p s hx
    rw [(hshared x p s hx).2]; exact hm.shared x p s hx
  · intro p hA
    by_cases hL' : L' p ≠ none
    · exact .inl ⟨i, by rw [upd_same]; exact hL'⟩
    · have hL' : L' p = none := Classical.not_not.1 hL'
      have hlend : lend m L' p ≠ none → ∃ x s, sh x = some (p, s) := by
        intro hne
        cases m with
        | scanning x q s =>
          by_cases hpq : p = q
          · subst hpq; exact ⟨x, s, hb x p s rfl⟩
          · simp only [lend, set_other _ hpq] at hne; exact absurd hL' hne
        | _ => exact absurd hL' hne
      rcases hp p with ⟨h2, h3⟩ | ⟨h2, _⟩
      · rw [h3] at hA
        rcases hm.covered p hA with ⟨j, hj⟩ | hsh
        · by_cases hji : j = i
          · subst hji
            right; apply hlend
            rw [h2, hlendL p hj]; exact hj
          · exact .inl ⟨j, by rw [upd_other _ hji]; exact hj⟩
        · exact .inr hsh
      · rw [h2] at hA; exact .inr (hlend hA)
  · -- an address of the new handles is an old one or a fresh one
    have hnew : ∀ j p, j ≠ i → L j p ≠ none → L' p = none := by
      intro j p hj hL
      apply Classical.byContradiction
      intro hne
      have h1 := hL'lend p hne
      have h2 := (hother j p hj hL).1
      cases m with
      | scanning x q s =>
        by_cases hpq : p = q
        · subst hpq; exact hm.apartShared j p x s hL (hb x p s rfl)
        · simp only [lend, set_other _ hpq] at h2; exact hj (hm.apart j i p hL (by rw [← h2]; exact hne))
      | _ => exact hj (hm.apart j i p hL (by rw [show L i p = L' p from h2.symm]; exact hne))
    intro j k p hj hk
    unfold upd at hj hk
    split at hj <;> split at hk
    · next e e' => rw [e, e']
    · next _ hki => exact absurd (hnew k p hki hk) hj
    · next hji _ => exact absurd (hnew j p hji hj) hk
    · exact hm.apart j k p hj hk
  · intro j p x s hj hx
    unfold upd at hj
    split at hj
    · have h1 := (hshared x p s hx).1
      cases m with
      | scanning y q t =>
        by_cases hpq : p = q
        · subst hpq; exact hj (hn y p t rfl)
        · simp only [lend, set_other _ hpq] at h1
          exact hm.apartShared i p x s (by rw [← h1]; exact hj) hx
      | _ => exact hm.apartShared i p x s (by rw [show L i p = L' p from h1.symm]; exact hj) hx
    · exact hm.apartShared j p x s hj hx
  · exact hm.sharedApart

end Sds.Threads
