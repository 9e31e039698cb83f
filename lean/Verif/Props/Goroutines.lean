import Verif.Lemmas.GoroutinesInv

/-! # C87: goroutines that share scanners -/

namespace Sds.Props
open Sds Spec Threads
variable {C S D E : Type}

private theorem disciplined_prefix {tr evs : List (Nat × GoEvent C D E)} (h : Disciplined (tr ++ evs)) : Disciplined tr :=
  fun t i ev u e => h t i ev (u ++ evs) (by rw [e]; simp)

private theorem mode_made {lib : Lib C S D E} {ids : Nat → Addr} {m : Nat → Mode S} {sh : Nat → Option (Addr × S)}
    {tr : List (Nat × GoEvent C D E)} (h : Ctl lib ids m sh tr) {x : Nat} (h1 : Made tr x) (h2 : ¬ DeleteBegun tr x) :
    ∃ a s, sh x = some (a, s) := by
  cases hx : sh x with
  | none => exact absurd hx (h.made x h1 h2)
  | some p => exact ⟨p.1, p.2, rfl⟩

private theorem inv_event {lib : Lib C S D E} {c : GoConf C S D E} {tr : List (Nat × GoEvent C D E)} (h : Inv lib c tr)
    {i : Nat} {ev : GoEvent C D E} {p : GoProg C D E} (ht : c.threads i = .event ev p) (ha : Allowed tr ev) :
    Inv lib (c.goOn i p) (tr ++ [(i, ev)]) := by
  obtain ⟨A, L, m, sh, hm, hc, hok⟩ := h
  have hoki := hok i
  rw [ht] at hoki
  cases ev with
  | createBegins x =>
    obtain ⟨e1, e2, hp⟩ := hoki
    have hnb : ¬ CreateBegun tr x := fun ⟨j, hj⟩ => ha j hj
    refine ⟨A, L, upd m i (.creating x none), sh, hm, ?_, ok_upd_same hok (by rw [e2]; exact hp)⟩
    refine ctl_event hc _ (by simp) (by simp) trivial (by simp) (by simp) (by simp) ?_ ?_ ?_
    · intro y st hy hM
      cases hy
      exact hnb (hc.begun x hM)
    · intro y hy
      cases hy
      refine ⟨?_, i, by simp⟩
      cases hs : sh x with
      | none => rfl
      | some q =>
        obtain ⟨_, j, cs, h1, _⟩ := hc.built x q.1 q.2 hs
        exact absurd (hc.begun x ⟨j, _, h1⟩) hnb
    · intro y j hy hj
      cases hy
      exact absurd (hc.holds j x hj).2 hnb
  | createEnds x js err =>
    cases err with
    | some err =>
      obtain ⟨⟨st, e1⟩, e2, hr, hp⟩ := hoki
      refine ⟨A, L, upd m i .free, sh, hm, ?_, ok_upd_same hok (by rw [e2]; exact hp)⟩
      refine ctl_event hc _ (by simp) (by simp) ?_ (by simp) (by simp) (by simp) (by simp) (fun _ h => h.elim) (fun _ _ h => h.elim)
      cases err with
      | none => exact hr
      | some code => exact hr
    | none =>
      obtain ⟨a, s, cs, e1, e2, e3, e4, hp⟩ := hoki
      have hhold : Holds (m i) x := by rw [e1]; rfl
      have hx := (hc.holds i x hhold).1
      have hnm := hc.notMade i x _ e1
      have hnd : ¬ DeleteBegun tr x := fun hd => hnm (hc.deleted x hd)
      refine ⟨A, upd L i none0, upd m i .free, upd sh x (some (a, s)), mem_share hm e4 hx, ?_, ok_upd hok hp⟩
      have hother : ∀ j y, j ≠ i → Holds (m j) y → y ≠ x := fun j y hj hh hyx => hj (hc.alone j i x (hyx ▸ hh) hhold)
      refine {
        shared := ?_, creating := ?_, deleting := ?_, scanning := ?_, notMade := ?_, holds := ?_, alone := ?_, begun := ?_
        made := ?_, built := ?_, deleted := ?_, right := right_snoc hc.right ⟨cs, s, e2, e3⟩ }
      · intro y q t hy
        unfold upd at hy; split at hy
        · next e => cases hy; rw [e]; exact hc.creating i x a e1
        · exact hc.shared y q t hy
      · intro j y q hj
        unfold upd at hj; split at hj
        · cases hj
        · exact hc.creating j y q hj
      · intro j y q hj
        unfold upd at hj; split at hj
        · cases hj
        · exact hc.deleting j y q hj
      · intro j y q t hj
        unfold upd at hj; split at hj
        · cases hj
        · next hji =>
          obtain ⟨h1, h2⟩ := hc.scanning j y q t hj
          refine ⟨?_, inScan_mono (fun e => hji e.symm) h2⟩
          rw [upd_other]
          · exact h1
          · rintro rfl; rw [hx] at h1; cases h1
      · intro j y st hj hM
        unfold upd at hj; split at hj
        · cases hj
        · next hji =>
          have hyx : y ≠ x := hother j y hji (by rw [hj]; rfl)
          exact hc.notMade j y st hj (made_snoc (by simp; intro h; exact absurd h.symm hyx) hM)
      · intro j y hj
        unfold upd at hj; split at hj
        · exact hj.elim
        · next hji =>
          rw [upd_other _ (hother j y hji hj)]
          exact ⟨(hc.holds j y hj).1, createBegun_mono (hc.holds j y hj).2⟩
      · intro j k y hj hk
        unfold upd at hj hk
        split at hj
        · exact hj.elim
        · split at hk
          · exact hk.elim
          · exact hc.alone j k y hj hk
      · intro y hM
        by_cases hyx : y = x
        · subst hyx; exact createBegun_mono (hc.holds i y hhold).2
        · exact createBegun_mono (hc.begun y (made_snoc (by simp; intro h; exact absurd h.symm hyx) hM))
      · intro y hM hD
        by_cases hyx : y = x
        · subst hyx; rw [upd_same]; simp
        · rw [upd_other _ hyx]
          exact hc.made y (made_snoc (by simp; intro h; exact absurd h.symm hyx) hM) fun h => hD (deleteBegun_mono h)
      · intro y q t hy
        unfold upd at hy; split at hy
        · next e =>
          cases hy
          rw [e]
          exact ⟨fun hd => hnd (deleteBegun_snoc (by simp) hd), i, cs, by rw [← e2]; simp, e3⟩
        · obtain ⟨h1, j, ds, h2, h3⟩ := hc.built y q t hy
          exact ⟨fun hd => h1 (deleteBegun_snoc (by simp) hd), j, ds, by simp [h2], h3⟩
      · intro y hd
        exact made_mono (hc.deleted y (deleteBegun_snoc (by simp) hd))
  | scanBegins x e =>
    obtain ⟨e1, e2, hp⟩ := hoki
    obtain ⟨a, s, hx⟩ := mode_made hc ha.1 ha.2
    refine ⟨A, L, upd m i (.scanning x a s), sh, hm, ?_, ok_upd_same hok (by rw [e2]; exact hp a s)⟩
    refine ctl_event hc _ (by simp) (by simp) trivial (by simp) (by simp) ?_ (by simp) (fun _ h => h.elim) (fun _ _ h => h.elim)
    intro y q t hy
    cases hy
    exact ⟨hx, tr, e, [], rfl, by simp⟩
  | scanEnds x e r =>
    obtain ⟨⟨a, s, e1, hr⟩, e2, hp⟩ := hoki
    refine ⟨A, L, upd m i .free, sh, hm, ?_, ok_upd_same hok (by rw [e2]; exact hp)⟩
    refine ctl_event hc _ (by simp) (by simp) ?_ (by simp) (by simp) (by simp) (by simp) (fun _ h => h.elim) (fun _ _ h => h.elim)
    obtain ⟨_, j, cs, h1, h2⟩ := hc.built x a s (hc.scanning i x a s e1).1
    exact ⟨j, cs, s, by simp [h1], h2, hr⟩
  | deleteBegins x =>
    obtain ⟨e1, e2, hp⟩ := hoki
    obtain ⟨a, s, hx⟩ := mode_made hc ha.1 ha.2.1
    have hnh : ∀ j, ¬ Holds (m j) x := fun j hj => by have := (hc.holds j x hj).1; rw [hx] at this; cases this
    refine ⟨A, upd L i (none0.set a (some (.scanner s))), upd m i (.deleting x a), upd sh x none, mem_take hm e2 hx, ?_,
      ok_upd hok (hp a s)⟩
    refine {
      shared := ?_, creating := ?_, deleting := ?_, scanning := ?_, notMade := ?_, holds := ?_, alone := ?_, begun := ?_
      made := ?_, built := ?_, deleted := ?_, right := right_snoc hc.right trivial }
    · intro y q t hy
      unfold upd at hy; split at hy
      · cases hy
      · exact hc.shared y q t hy
    · intro j y q hj
      unfold upd at hj; split at hj
      · cases hj
      · exact hc.creating j y q hj
    · intro j y q hj
      unfold upd at hj; split at hj
      · cases hj; exact hc.shared _ _ _ hx
      · exact hc.deleting j y q hj
    · intro j y q t hj
      unfold upd at hj; split at hj
      · cases hj
      · next hji =>
        obtain ⟨h1, h2⟩ := hc.scanning j y q t hj
        refine ⟨?_, inScan_mono (fun e => hji e.symm) h2⟩
        rw [upd_other]
        · exact h1
        · rintro rfl; exact ha.2.2 j h2
    · intro j y st hj hM
      unfold upd at hj; split at hj
      · cases hj
      · exact hc.notMade j y st hj (made_snoc (by simp) hM)
    · intro j y hj
      unfold upd at hj; split at hj
      · cases hj
        exact ⟨upd_same _ _ _, createBegun_mono (hc.begun _ ha.1)⟩
      · refine ⟨?_, createBegun_mono (hc.holds j y hj).2⟩
        rw [upd_other]
        · exact (hc.holds j y hj).1
        · rintro rfl; exact hnh j hj
    · intro j k y hj hk
      unfold upd at hj hk
      split at hj <;> split at hk
      · next h1 h2 => rw [h1, h2]
      · cases hj; exact absurd hk (hnh k)
      · cases hk; exact absurd hj (hnh j)
      · exact hc.alone j k y hj hk
    · intro y hM
      exact createBegun_mono (hc.begun y (made_snoc (by simp) hM))
    · intro y hM hD
      by_cases hyx : y = x
      · subst hyx; exact absurd ⟨i, by simp⟩ hD
      · rw [upd_other _ hyx]
        exact hc.made y (made_snoc (by simp) hM) fun h => hD (deleteBegun_mono h)
    · intro y q t hy
      unfold upd at hy; split at hy
      · cases hy
      · next hyx =>
        obtain ⟨h1, j, ds, h2, h3⟩ := hc.built y q t hy
        exact ⟨fun hd => h1 (deleteBegun_snoc (by simp; exact fun h => hyx h.symm) hd), j, ds, by simp [h2], h3⟩
    · intro y hd
      by_cases hyx : y = x
      · subst hyx; exact made_mono ha.1
      · exact made_mono (hc.deleted y (deleteBegun_snoc (by simp; exact fun h => hyx h.symm) hd))
  | deleteEnds x =>
    obtain ⟨e1, e2, hp⟩ := hoki
    refine ⟨A, L, upd m i .free, sh, hm, ?_, ok_upd_same hok (by rw [e2]; exact hp)⟩
    exact ctl_event hc _ (by simp) (by simp) trivial (by simp) (by simp) (by simp) (by simp) (fun _ h => h.elim) (fun _ _ h => h.elim)

/-- A change of mode, with a write to a field `Id`. -/
private theorem ctl_store {lib : Lib C S D E} {ids : Nat → Addr} {m : Nat → Mode S} {sh : Nat → Option (Addr × S)}
    {tr : List (Nat × GoEvent C D E)} (h : Ctl lib ids m sh tr) {i x : Nat} {a : Addr} {m' : Mode S}
    (hx : Holds (m i) x) (hx' : Holds m' x) (hc : ∀ y p, m' = .creating y (some p) → y = x ∧ p = a) (hd : ∀ y p, m' ≠ .deleting y p)
    (hn : ∀ y st, m' = .creating y st → ¬ Made tr y) :
    Ctl lib (fun y => if y = x then a else ids y) (upd m i m') sh tr := by
  have hsh := (h.holds i x hx).1
  have huniq : ∀ y, Holds m' y → y = x := by
    intro y hy
    cases m' with
    | creating z st => exact hy.symm.trans hx'
    | deleting z q => exact hy.symm.trans hx'
    | deleted z => exact hy.symm.trans hx'
    | free => exact hy.elim
    | scanning z q s => exact hy.elim
  have hother : ∀ j y, j ≠ i → Holds (m j) y → y ≠ x := fun j y hj hh hyx => hj (h.alone j i x (hyx ▸ hh) hx)
  refine {
    shared := ?_, creating := ?_, deleting := ?_, scanning := ?_, notMade := ?_, holds := ?_, alone := ?_, begun := h.begun
    made := h.made, built := h.built, deleted := h.deleted, right := h.right }
  · intro y q t hy
    rw [if_neg]
    · exact h.shared y q t hy
    · rintro rfl; rw [hsh] at hy; cases hy
  · intro j y q hj
    unfold upd at hj; split at hj
    · obtain ⟨rfl, rfl⟩ := hc y q hj; simp
    · next hji => rw [if_neg (hother j y hji (by rw [hj]; rfl))]; exact h.creating j y q hj
  · intro j y q hj
    unfold upd at hj; split at hj
    · exact absurd hj (hd y q)
    · next hji => rw [if_neg (hother j y hji (by rw [hj]; rfl))]; exact h.deleting j y q hj
  · intro j y q t hj
    unfold upd at hj; split at hj
    · rw [hj] at hx'; exact hx'.elim
    · exact h.scanning j y q t hj
  · intro j y st hj hM
    unfold upd at hj; split at hj
    · exact hn y st hj hM
    · exact h.notMade j y st hj hM
  · intro j y hj
    unfold upd at hj; split at hj
    · rw [huniq y hj]; exact h.holds i x hx
    · exact h.holds j y hj
  · intro j k y hj hk
    unfold upd at hj hk
    split at hj <;> split at hk
    · next h1 h2 => rw [h1, h2]
    · next h1 h2 => exact absurd (huniq y hj) (hother k y h2 hk)
    · next h1 h2 => exact absurd (huniq y hk) (hother j y h1 hj)
    · exact h.alone j k y hj hk

private theorem inv_step {lib : Lib C S D E} {c c' : GoConf C S D E} {tr evs : List (Nat × GoEvent C D E)} (h : Inv lib c tr)
    {i : Nat} (hs : GoStep lib i c evs c') (hd : Disciplined (tr ++ evs)) : Inv lib c' (tr ++ evs) := by
  cases hs with
  | @event ev p ht => exact inv_event h ht (hd tr i ev [] rfl)
  | @load x k ht =>
    rw [List.append_nil]
    obtain ⟨A, L, m, sh, hm, hc, hok⟩ := h
    have hoki := hok i
    rw [ht] at hoki
    obtain ⟨a, h1, hp⟩ := hoki
    refine ⟨A, L, m, sh, hm, hc, ok_upd_prog hok ?_⟩
    have : c.ids x = a := by
      rcases h1 with ⟨s, h1⟩ | h1
      · exact hc.shared x a s (hc.scanning i x a s h1).1
      · exact hc.deleting i x a h1
    rw [this]; exact hp
  | @store x a p ht =>
    rw [List.append_nil]
    obtain ⟨A, L, m, sh, hm, hc, hok⟩ := h
    have hoki := hok i
    rw [ht] at hoki
    rcases hoki with ⟨e1, hp⟩ | ⟨⟨b, e1⟩, hp⟩
    · refine ⟨A, L, upd m i (.creating x (some a)), sh, hm, ?_, ok_upd_same hok hp⟩
      refine ctl_store hc (by rw [e1]; rfl) rfl ?_ (by simp) ?_
      · intro y q hy; cases hy; exact ⟨rfl, rfl⟩
      · intro y st hy; cases hy; exact hc.notMade i x _ e1
    · refine ⟨A, L, upd m i (.deleted x), sh, hm, ?_, ok_upd_same hok hp⟩
      exact ctl_store hc (by rw [e1]; rfl) rfl (by simp) (by simp) (by simp)
  | @call f k a b h' o ht hf he =>
    rw [List.append_nil]
    obtain ⟨A, L, m, sh, hm, hc, hok⟩ := h
    have hoki := hok i
    rw [ht] at hoki
    have hb : ∀ x p s, m i = .scanning x p s → sh x = some (p, s) := fun x p s e => (hc.scanning i x p s e).1
    have hfree : ∀ q, c.heap.get q = none → lend (m i) (L i) q = none := by
      intro q hq
      have hA := history_free hm.hist hq
      have hL : L i q = none := by
        cases hL : L i q with
        | none => rfl
        | some w => rw [hm.own i q w hL] at hA; cases hA
      cases e : m i with
      | scanning x p s =>
        simp only [lend]
        rw [set_other _ _]
        · exact hL
        · rintro rfl; rw [hm.shared x q s (hb x q s e)] at hA; cases hA
      | _ => exact hL
    obtain ⟨hT, L', o', hv, hn, hp⟩ := hoki a b hf.1 hf.2.1 hf.2.2.1 (hfree a hf.2.2.2.1) (hfree b hf.2.2.2.2)
    obtain ⟨h'', A', he', hm'⟩ := mem_call hm hb hf hT hv hn
    rw [he] at he'
    cases he'
    refine ⟨A', upd L i L', m, sh, hm', hc, ?_⟩
    have := ok_upd hok (i := i) (L' := L') (m' := m i) hp
    rw [upd_self] at this
    exact this
  | @read s p n sc ht hg =>
    rw [List.append_nil]
    obtain ⟨A, L, m, sh, hm, hc, hok⟩ := h
    have hoki := hok i
    rw [ht] at hoki
    exact ⟨A, L, m, sh, hm, hc, ok_upd_prog hok hoki.2⟩
  | @copy b k d ht hg =>
    rw [List.append_nil]
    obtain ⟨A, L, m, sh, hm, hc, hok⟩ := h
    have hoki := hok i
    rw [ht] at hoki
    obtain ⟨d', h1, hp⟩ := hoki
    have := history_vec hm.hist (hm.own i b _ h1)
    rw [hg] at this
    cases this
    exact ⟨A, L, m, sh, hm, hc, ok_upd_prog hok hp⟩

private theorem inv_run {lib : Lib C S D E} (hcodes : ∀ cs code, lib.build cs = .error code → code < 0)
    {ops : Nat → List (GoOp C E)} {c : GoConf C S D E} {tr : List (Nat × GoEvent C D E)} (hr : GoRun lib ops c tr)
    (hd : Disciplined tr) : Inv lib c tr := by
  induction hr with
  | start => exact inv_start hcodes ops
  | step _ hs ih => exact inv_step (ih (disciplined_prefix hd)) hs hd

/-- Some two addresses are free. -/
private theorem fresh_exists (h : Heap C S D) : ∃ a b, Fresh2 h a b := by
  have bound : ∃ n : Nat, ∀ q : Nat, n ≤ q → h.get q = none := by
    induction h with
    | nil => exact ⟨0, fun _ _ => rfl⟩
    | cons e h ih =>
      obtain ⟨n, hn⟩ := ih
      refine ⟨n + e.1 + 1, fun q hq => ?_⟩
      obtain ⟨b, o⟩ := e
      simp only [Heap.get]
      rw [if_neg (by simp only at hq; intro hbq; rw [hbq] at hq; exact absurd hq (by omega))]
      exact hn q (by omega)
  obtain ⟨n, hn⟩ := bound
  refine ⟨n + 1, n + 2, Nat.succ_ne_zero n, Nat.succ_ne_zero (n + 1), ?_, hn _ (Nat.le_succ n), hn _ (Nat.le_add_right n 2)⟩
  exact Nat.ne_of_lt (Nat.lt_succ_self (n + 1))

private theorem defined {lib : Lib C S D E} {c : GoConf C S D E} {tr : List (Nat × GoEvent C D E)} (h : Inv lib c tr) (i : Nat) :
    (∀ f k a b, c.threads i = .call f k → Fresh2 c.heap a b → ∃ h' o, ffiStep lib c.heap (f a b) = some (h', o)) ∧
    (∀ s p, c.threads i = .read s p → ∃ sc, c.heap.get s = some (.scanner 1 sc)) ∧
    (∀ b k, c.threads i = .copy b k → ∃ d, c.heap.get b = some (.vec d)) := by
  obtain ⟨A, L, m, sh, hm, hc, hok⟩ := h
  have hoki := hok i
  refine ⟨?_, ?_, ?_⟩
  · intro f k a b ht hf
    rw [ht] at hoki
    have hb : ∀ x p s, m i = .scanning x p s → sh x = some (p, s) := fun x p s e => (hc.scanning i x p s e).1
    have hfree : ∀ q, c.heap.get q = none → lend (m i) (L i) q = none := by
      intro q hq
      have hA := history_free hm.hist hq
      have hL : L i q = none := by
        cases hL : L i q with
        | none => rfl
        | some w => rw [hm.own i q w hL] at hA; cases hA
      cases e : m i with
      | scanning x p s =>
        simp only [lend]
        rw [set_other _ _]
        · exact hL
        · rintro rfl; rw [hm.shared x q s (hb x q s e)] at hA; cases hA
      | _ => exact hL
    obtain ⟨hT, L', o', hv, hn, hp⟩ := hoki a b hf.1 hf.2.1 hf.2.2.1 (hfree a hf.2.2.2.1) (hfree b hf.2.2.2.2)
    obtain ⟨h'', A', he', _⟩ := mem_call hm hb hf hT hv hn
    exact ⟨h'', o', he'⟩
  · intro s p ht
    rw [ht] at hoki
    obtain ⟨⟨x, sc, e⟩, _⟩ := hoki
    exact ⟨sc, history_scanner hm.hist (hm.shared x s sc (hc.scanning i x s sc e).1)⟩
  · intro b k ht
    rw [ht] at hoki
    obtain ⟨d, h1, _⟩ := hoki
    exact ⟨d, history_vec hm.hist (hm.own i b _ h1)⟩

variable {lib : Lib C S D E} {ops : Nat → List (GoOp C E)} {c : GoConf C S D E} {tr : List (Nat × GoEvent C D E)}

/-- C87: if scanners are deleted once, after all scans with them have ended, nothing undefined happens, however the goroutines
are interleaved.  (Partial: `Delete` during a scan is undefined, `C87_deleted_during_scan`.) -/
theorem C87_no_undefined_behaviour_partial (hcodes : ∀ cs code, lib.build cs = .error code → code < 0) (hr : GoRun lib ops c tr)
    (hd : Disciplined tr) (i : Nat) : ¬ GoUndefined lib c i := by
  obtain ⟨h1, h2, h3⟩ := defined (inv_run hcodes hr hd) i
  unfold GoUndefined
  split
  · next f k ht =>
    rintro ⟨a, b, hf, he⟩
    obtain ⟨h', o, e⟩ := h1 f k a b ht hf
    rw [he] at e; cases e
  · next s p ht =>
    intro h
    obtain ⟨sc, e⟩ := h2 s p ht
    exact h 1 sc e
  · next b k ht =>
    intro h
    obtain ⟨d, e⟩ := h3 b k ht
    exact h d e
  · exact id

/-- C87: no goroutine is ever stuck. -/
theorem C87_never_stuck_partial (hcodes : ∀ cs code, lib.build cs = .error code → code < 0) (hr : GoRun lib ops c tr)
    (hd : Disciplined tr) (i : Nat) (hi : c.threads i ≠ .done) : ∃ evs c', GoStep lib i c evs c' := by
  obtain ⟨h1, h2, h3⟩ := defined (inv_run hcodes hr hd) i
  cases ht : c.threads i with
  | done => exact absurd ht hi
  | event ev p => exact ⟨_, _, .event ht⟩
  | load x k => exact ⟨_, _, .load ht⟩
  | store x a p => exact ⟨_, _, .store ht⟩
  | call f k =>
    obtain ⟨a, b, hf⟩ := fresh_exists c.heap
    obtain ⟨h', o, e⟩ := h1 f k a b ht hf
    exact ⟨_, _, .call ht hf e⟩
  | read s p =>
    obtain ⟨sc, e⟩ := h2 s p ht
    exact ⟨_, _, .read ht e⟩
  | copy b k =>
    obtain ⟨d, e⟩ := h3 b k ht
    exact ⟨_, _, .copy ht e⟩

/-- C87: what is reported does not depend on the other goroutines: a scanner is created iff the library builds one from the
rules, and a scan reports what this scanner finds in the event. -/
theorem C87_reports_partial (hcodes : ∀ cs code, lib.build cs = .error code → code < 0) (hr : GoRun lib ops c tr)
    (hd : Disciplined tr) : ∀ ev ∈ tr, Right lib tr ev.2 := by
  obtain ⟨A, L, m, sh, hm, hc, hok⟩ := inv_run hcodes hr hd
  exact hc.right

/-- C87: when all goroutines are done and every scanner was deleted, nothing is left in memory. -/
theorem C87_no_leak_partial (hcodes : ∀ cs code, lib.build cs = .error code → code < 0) (hr : GoRun lib ops c tr)
    (hd : Disciplined tr) (hdone : ∀ i, c.threads i = .done) (hdel : ∀ x, Made tr x → DeleteBegun tr x) : c.heap = [] := by
  obtain ⟨A, L, m, sh, hm, hc, hok⟩ := inv_run hcodes hr hd
  refine C65_no_leak hm.hist fun a => ?_
  apply Classical.byContradiction
  intro hA
  rcases hm.covered a hA with ⟨i, hi⟩ | ⟨x, s, hx⟩
  · have := hok i
    rw [hdone i] at this
    rw [this.2] at hi
    exact hi rfl
  · obtain ⟨h1, i, cs, h2, _⟩ := hc.built x a s hx
    exact h1 (hdel x ⟨i, _, h2⟩)

/-! ## Witness and examples -/

def goExec1 (lib : Lib C S D E) (c : GoConf C S D E) (i : Nat) (a b : Addr) :
    Option (GoConf C S D E × List (Nat × GoEvent C D E)) :=
  match c.threads i with
  | .done => none
  | .event ev p => some (c.goOn i p, [(i, ev)])
  | .load x k => some (c.goOn i (k (c.ids x)), [])
  | .store x q p => some ({ c.goOn i p with ids := fun y => if y = x then q else c.ids y }, [])
  | .call f k =>
    if a ≠ 0 ∧ b ≠ 0 ∧ a ≠ b ∧ (c.heap.get a).isNone ∧ (c.heap.get b).isNone then
      match ffiStep lib c.heap (f a b) with
      | some (h, o) => some ({ c.goOn i (k o) with heap := h }, [])
      | none => none
    else none
  | .read s p =>
    match c.heap.get s with
    | some (.scanner _ _) => some (c.goOn i p, [])
    | _ => none
  | .copy q k =>
    match c.heap.get q with
    | some (.vec d) => some (c.goOn i (k d), [])
    | _ => none

theorem goExec1_sound {lib : Lib C S D E} {c c' : GoConf C S D E} {i : Nat} {a b : Addr}
    {evs : List (Nat × GoEvent C D E)} (h : goExec1 lib c i a b = some (c', evs)) : GoStep lib i c evs c' := by
  unfold goExec1 at h
  split at h
  · cases h
  · next ev p ht => cases h; exact .event ht
  · next x k ht => cases h; exact .load ht
  · next x q p ht => cases h; exact .store ht
  · next f k ht =>
    split at h
    · next hf =>
      simp only [Option.isNone_iff_eq_none] at hf
      split at h
      · next h' o he => cases h; exact .call ht hf he
      · cases h
    · cases h
  · next s p ht =>
    split at h
    · next n sc hg => cases h; exact .read ht hg
    · cases h
  · next q k ht =>
    split at h
    · next d hg => cases h; exact .copy ht hg
    · cases h

/-- Goroutines take steps in the given order; calls are given the addresses. -/
def goExec (lib : Lib C S D E) : GoConf C S D E → List (Nat × GoEvent C D E) → List (Nat × Addr × Addr) →
    Option (GoConf C S D E × List (Nat × GoEvent C D E))
  | c, tr, [] => some (c, tr)
  | c, tr, (i, a, b) :: rest =>
    match goExec1 lib c i a b with
    | some (c', evs) => goExec lib c' (tr ++ evs) rest
    | none => none

theorem goExec_sound {lib : Lib C S D E} {ops : Nat → List (GoOp C E)} (l : List (Nat × Addr × Addr)) :
    ∀ {c c' : GoConf C S D E} {tr tr' : List (Nat × GoEvent C D E)}, GoRun lib ops c tr → goExec lib c tr l = some (c', tr') →
    GoRun lib ops c' tr' := by
  induction l with
  | nil => intro c c' tr tr' hr h; cases h; exact hr
  | cons x l ih =>
    obtain ⟨i, a, b⟩ := x
    intro c c' tr tr' hr h
    rw [goExec] at h
    split at h
    · next c1 evs h1 => exact ih (.step hr (goExec1_sound h1)) h
    · cases h

/-- A library whose scanners find their own number. -/
private def exLib : Lib Nat Nat Nat Nat := ⟨fun cs => .ok cs.length, fun s e => if s = e then .data e else .nothing⟩

private def exEvent : GoEvent Nat Nat Nat → List Nat
  | .createBegins x => [0, x]
  | .createEnds x _ err => [1, x, if err.isNone then 0 else 1]
  | .scanBegins x e => [2, x, e]
  | .scanEnds x e r => [3, x, e, match r with | .failed => 0 | .nothing => 1 | .data d => d + 2]
  | .deleteBegins x => [4, x]
  | .deleteEnds x => [5, x]

private def atRead (c : GoConf Nat Nat Nat Nat) (i : Nat) : Bool :=
  match c.threads i with
  | .read s _ => (c.heap.get s).isNone
  | _ => false

private theorem atRead_undefined {c : GoConf Nat Nat Nat Nat} {i : Nat} (h : atRead c i = true) : GoUndefined exLib c i := by
  unfold atRead at h
  unfold GoUndefined
  split at h
  · next s p ht =>
    rw [ht]
    intro n sc hg
    rw [hg] at h; cases h
  · cases h

/-- C87, finding: the scan does not keep its scanner alive.  One goroutine is in a scan when another calls `Delete`; the scan
then reads freed memory. -/
theorem C87_deleted_during_scan : ∃ (c : GoConf Nat Nat Nat Nat) (tr : List (Nat × GoEvent Nat Nat Nat)),
    GoRun exLib (fun i => if i = 0 then [.create 0 [some 7], .scan 0 1 1] else if i = 1 then [.delete 0] else []) c tr ∧
    tr.map (fun ev => (ev.1, exEvent ev.2)) = [(0, [0, 0]), (0, [1, 0, 0]), (0, [2, 0, 1]), (1, [4, 0])] ∧
    GoUndefined exLib c 0 := by
  let sched : List (Nat × Addr × Addr) :=
    [(0, 0, 0), (0, 1, 9), (0, 2, 3), (0, 9, 8), (0, 9, 8), (0, 4, 9), (0, 9, 8), (0, 0, 0), (0, 0, 0), (0, 0, 0), (0, 0, 0),
      (1, 0, 0), (1, 0, 0), (1, 9, 8)]
  let start : GoConf Nat Nat Nat Nat := ⟨[], fun _ => 0, fun i => goProg
    (if i = 0 then [.create 0 [some 7], .scan 0 1 1] else if i = 1 then [.delete 0] else [])⟩
  have key : (goExec exLib start [] sched).any (fun r => decide (r.2.map (fun ev => (ev.1, exEvent ev.2)) =
      [(0, [0, 0]), (0, [1, 0, 0]), (0, [2, 0, 1]), (1, [4, 0])]) && atRead r.1 0) = true := by decide +kernel
  cases h : goExec exLib start [] sched with
  | none => rw [h] at key; cases key
  | some r =>
    rw [h] at key
    simp only [Option.any_some, Bool.and_eq_true, decide_eq_true_eq] at key
    exact ⟨r.1, r.2, goExec_sound sched .start h, key.1, atRead_undefined key.2⟩

/-- A check of the discipline. -/
def allowedB (tr : List (Nat × GoEvent C D E)) : GoEvent C D E → Bool
  | .createBegins x => tr.all fun ev => match ev.2 with | .createBegins y => y != x | _ => true
  | .scanBegins x _ => (tr.any fun ev => match ev.2 with | .createEnds y _ none => y == x | _ => false) &&
      tr.all fun ev => match ev.2 with | .deleteBegins y => y != x | _ => true
  | .deleteBegins x => (tr.any fun ev => match ev.2 with | .createEnds y _ none => y == x | _ => false) &&
      (tr.all fun ev => match ev.2 with | .deleteBegins y => y != x | _ => true) &&
      (tr.all fun ev => match (tr.filter fun w => w.1 == ev.1).getLast? with | some (_, .scanBegins y _) => y != x | _ => true)
  | _ => true

theorem madeB {tr : List (Nat × GoEvent C D E)} {x : Nat}
    (h : (tr.any fun ev => match ev.2 with | .createEnds y _ none => y == x | _ => false) = true) : Made tr x := by
  obtain ⟨⟨i, ev⟩, h1, h2⟩ := List.any_eq_true.1 h
  cases ev with
  | createEnds y js err =>
    cases err with
    | none => simp only [beq_iff_eq] at h2; subst h2; exact ⟨i, js, h1⟩
    | some e => cases h2
  | _ => cases h2

theorem deleteB {tr : List (Nat × GoEvent C D E)} {x : Nat}
    (h : (tr.all fun ev => match ev.2 with | .deleteBegins y => y != x | _ => true) = true) : ¬ DeleteBegun tr x := by
  rintro ⟨i, hi⟩
  have := List.all_eq_true.1 h _ hi
  simp at this

theorem allowedB_sound {tr : List (Nat × GoEvent C D E)} {ev : GoEvent C D E} (h : allowedB tr ev = true) :
    Allowed tr ev := by
  cases ev with
  | createBegins x =>
    intro i hi
    have := List.all_eq_true.1 h _ hi
    simp at this
  | scanBegins x e =>
    simp only [allowedB, Bool.and_eq_true] at h
    exact ⟨madeB h.1, deleteB h.2⟩
  | deleteBegins x =>
    simp only [allowedB, Bool.and_eq_true] at h
    refine ⟨madeB h.1.1, deleteB h.1.2, ?_⟩
    rintro i ⟨t, e, u, h1, h2⟩
    have hmem : (i, GoEvent.scanBegins x e) ∈ tr := by rw [h1]; simp
    have := List.all_eq_true.1 h.2 _ hmem
    have hlast : (tr.filter fun w => w.1 == i).getLast? = some (i, .scanBegins x e) := by
      have hu : u.filter (fun w => w.1 == i) = [] := by
        rw [List.filter_eq_nil_iff]
        intro w hw; simp [h2 w hw]
      rw [h1, List.filter_append, List.filter_cons, if_pos (by simp), hu]
      simp
    rw [hlast] at this
    simp at this
  | createEnds x js err => trivial
  | scanEnds x e r => trivial
  | deleteEnds x => trivial

def disciplinedB : List (Nat × GoEvent C D E) → List (Nat × GoEvent C D E) → Bool
  | _, [] => true
  | t, ev :: u => allowedB t ev.2 && disciplinedB (t ++ [ev]) u

theorem disciplinedB_sound (u : List (Nat × GoEvent C D E)) : ∀ t, disciplinedB t u = true → Disciplined t →
    Disciplined (t ++ u) := by
  induction u with
  | nil => intro t _ h; rw [List.append_nil]; exact h
  | cons ev u ih =>
    intro t h ht
    simp only [disciplinedB, Bool.and_eq_true] at h
    have := ih (t ++ [ev]) h.2 ?_
    · rw [List.append_assoc] at this; exact this
    · intro a i w b e
      rcases List.eq_nil_or_concat b with rfl | ⟨b', z, rfl⟩
      · have := List.append_inj' e rfl
        obtain ⟨rfl, e2⟩ := this
        cases e2
        exact allowedB_sound h.1
      · rw [List.concat_eq_append, ← List.cons_append, ← List.append_assoc] at e
        have := List.append_inj' e rfl
        exact ht a i w b' this.1

/-- Goroutine 0 creates a scanner; goroutines 1 and 2 scan with it at the same time; then goroutine 0 deletes it.  All this is
disciplined, one of the scans has found something, and no memory is left. -/
example : ∃ (c : GoConf Nat Nat Nat Nat) (tr : List (Nat × GoEvent Nat Nat Nat)),
    GoRun exLib (fun i => if i = 0 then [.create 0 [some 7], .delete 0] else if i = 1 then [.scan 0 1 1]
      else if i = 2 then [.scan 0 5 1] else []) c tr ∧ Disciplined tr ∧ c.heap = [] ∧
    tr.map (fun ev => (ev.1, exEvent ev.2)) = [(0, [0, 0]), (0, [1, 0, 0]), (1, [2, 0, 1]), (2, [2, 0, 5]), (1, [3, 0, 1, 3]),
      (2, [3, 0, 5, 1]), (0, [4, 0]), (0, [5, 0])] := by
  let sched : List (Nat × Addr × Addr) :=
    [(0, 0, 0), (0, 1, 9), (0, 2, 3), (0, 9, 8), (0, 9, 8), (0, 4, 9), (0, 9, 8), (0, 0, 0), (0, 0, 0),
      (1, 0, 0), (2, 0, 0), (1, 0, 0), (2, 0, 0), (2, 0, 0), (1, 0, 0), (1, 5, 6), (2, 6, 7), (1, 0, 0), (1, 6, 7), (1, 0, 0),
      (2, 0, 0), (0, 0, 0), (0, 0, 0), (0, 8, 9), (0, 0, 0), (0, 0, 0)]
  let start : GoConf Nat Nat Nat Nat := ⟨[], fun _ => 0, fun i => goProg
    (if i = 0 then [.create 0 [some 7], .delete 0] else if i = 1 then [.scan 0 1 1] else if i = 2 then [.scan 0 5 1] else [])⟩
  have key : (goExec exLib start [] sched).any (fun r => disciplinedB [] r.2 && r.1.heap.isEmpty &&
      decide (r.2.map (fun ev => (ev.1, exEvent ev.2)) = [(0, [0, 0]), (0, [1, 0, 0]), (1, [2, 0, 1]), (2, [2, 0, 5]),
        (1, [3, 0, 1, 3]), (2, [3, 0, 5, 1]), (0, [4, 0]), (0, [5, 0])])) = true := by decide +kernel
  cases h : goExec exLib start [] sched with
  | none => rw [h] at key; cases key
  | some r =>
    rw [h] at key
    simp only [Option.any_some, Bool.and_eq_true, decide_eq_true_eq, List.isEmpty_iff] at key
    refine ⟨r.1, r.2, goExec_sound sched .start h, ?_, key.1.2, key.2⟩
    have := disciplinedB_sound r.2 [] key.1.1 (by intro t i ev u e; simp at e)
    exact this

end Sds.Props
