import Verif.Lemmas.Included
import Verif.Spec.Near

/-! Lemmas about rules with required keywords whose keywords do not overlap matches. -/

namespace Sds
open Spec

section
variable {kw win : Nat → Nat → Prop}

theorem near_skip_all {start : Nat} {L : List (Nat × Nat)}
    (h : ∀ m ∈ L, ∀ s e, kw s e → start ≤ s → ¬ win s m.1) {l out : List (Nat × Nat)} (hn : Near kw win start l out) :
    Near kw win start (L ++ l) out := by
  induction L with
  | nil => exact hn
  | cons m L ih => exact .skip (h m List.mem_cons_self) (ih fun x hx => h x (List.mem_cons_of_mem _ hx))

/-- Only keywords with a match in their window matter. -/
theorem near_congr {a b : Nat} {l out : List (Nat × Nat)} (hn : Near kw win a l out)
    (h : ∀ s e, kw s e → ∀ m ∈ l, win s m.1 → (a ≤ s ↔ b ≤ s)) : Near kw win b l out := by
  induction hn with
  | nil => exact .nil
  | skip h1 _ ih =>
    refine .skip (fun s e hk hs hw => ?_) (ih fun s e hk m hm hw => h s e hk m (List.mem_cons_of_mem _ hm) hw)
    exact h1 s e hk ((h s e hk _ List.mem_cons_self hw).2 hs) hw
  | @window start s e w z l out h1 h2 h3 h4 h5 h6 _ =>
    refine .window h1 ((h s e h1 z (by simp) (h4 z (by simp))).1 h2) (fun m hm s' e' hk hs hw => ?_) h4 h5 h6
    refine h3 m hm s' e' hk ((h s' e' hk m ?_ hw).2 hs) hw
    exact List.mem_append_left _ (List.mem_of_head? hm)

theorem near_sublist {a : Nat} {l out : List (Nat × Nat)} (hn : Near kw win a l out) : out.Sublist l := by
  induction hn with
  | nil => exact .slnil
  | skip _ _ ih => exact .cons _ ih
  | window _ _ _ _ _ _ ih => exact List.Sublist.append (List.Sublist.refl _) ih

theorem near_sound {a : Nat} {l out : List (Nat × Nat)} (hn : Near kw win a l out) :
    ∀ m ∈ out, ∃ s e, kw s e ∧ win s m.1 := by
  induction hn with
  | nil => intro m hm; cases hm
  | skip _ _ ih => exact ih
  | window h1 _ _ h4 _ _ ih =>
    intro m hm
    rcases List.mem_append.1 hm with hm | hm
    · exact ⟨_, _, h1, h4 m hm⟩
    · exact ih m hm

theorem near_complete {a : Nat} {l out : List (Nat × Nat)} (hn : Near kw win a l out)
    (hp : l.Pairwise fun x y => x.1 < y.1) : ∀ m ∈ l, ∀ s e, kw s e → a ≤ s → win s m.1 →
      m ∈ out ∨ ∃ m' ∈ out, s < m'.1 ∧ m'.1 < m.1 := by
  induction hn with
  | nil => intro m hm; cases hm
  | skip h1 _ ih =>
    intro m hm s e hk hs hw
    rcases List.mem_cons.1 hm with rfl | hm
    · exact absurd hw (h1 s e hk hs)
    · exact ih (List.pairwise_cons.1 hp).2 m hm s e hk hs hw
  | @window start s0 e0 w z l out h1 h2 h3 h4 h5 h6 ih =>
    intro m hm s e hk hs hw
    rcases List.mem_append.1 hm with hm | hm
    · exact Or.inl (List.mem_append_left _ hm)
    · by_cases hz : z.1 ≤ s
      · rcases ih (List.pairwise_append.1 hp).2.1 m hm s e hk hz hw with h | ⟨m', h', h''⟩
        · exact Or.inl (List.mem_append_right _ h)
        · exact Or.inr ⟨m', List.mem_append_right _ h', h''⟩
      · exact Or.inr ⟨z, by simp, by omega, (List.pairwise_append.1 hp).2.2 z (by simp) m hm⟩

theorem window_split {L1 L2 : List (Nat × Nat)} {P : Nat × Nat → Prop} : ∀ {w1 w2 : List (Nat × Nat)},
    w1 ++ L1 = w2 ++ L2 → (∀ m ∈ w1, P m) → (∀ m ∈ w2, P m) → (∀ m, L1.head? = some m → ¬ P m) →
    (∀ m, L2.head? = some m → ¬ P m) → w1 = w2 ∧ L1 = L2 := by
  intro w1
  induction w1 with
  | nil =>
    intro w2 h h1 h2 h3 h4
    cases w2 with
    | nil => exact ⟨rfl, h⟩
    | cons x w2 =>
      have h : L1 = x :: (w2 ++ L2) := h
      exact absurd (h2 x List.mem_cons_self) (h3 x (by rw [h]; rfl))
  | cons y w1 ih =>
    intro w2 h h1 h2 h3 h4
    cases w2 with
    | nil =>
      have h : y :: (w1 ++ L1) = L2 := h
      exact absurd (h1 y List.mem_cons_self) (h4 y (by rw [← h]; rfl))
    | cons x w2 =>
      injection h with h h'
      obtain ⟨h5, h6⟩ := ih h' (fun m hm => h1 m (List.mem_cons_of_mem _ hm)) (fun m hm => h2 m (List.mem_cons_of_mem _ hm)) h3 h4
      exact ⟨by rw [h, h5], h6⟩

/-- If no keyword lies inside another one, the result is determined. -/
theorem near_unique (hkw : ∀ s e s' e', kw s e → kw s' e' → e ≤ e' → s ≤ s') {a : Nat} {l out out' : List (Nat × Nat)}
    (hn : Near kw win a l out) (hn' : Near kw win a l out') : out = out' := by
  induction hn generalizing out' with
  | nil =>
    generalize hl : ([] : List (Nat × Nat)) = l' at hn'
    cases hn' with
    | nil => rfl
    | skip => cases hl
    | window => simp at hl
  | @skip start m l out h1 _ ih =>
    generalize hl : m :: l = l' at hn'
    cases hn' with
    | nil => cases hl
    | skip _ h2 => injection hl with _ hl; subst hl; exact ih h2
    | @window _ s e w z l2 out2 h2 h3 h4 h5 h6 h7 =>
      exfalso
      have : m ∈ w ++ [z] := by
        cases w with
        | nil => injection hl with hl _; rw [hl]; simp
        | cons x w => injection hl with hl _; rw [hl]; simp
      exact h1 s e h2 h3 (h5 m this)
  | @window start s e w z l out h1 h2 h3 h4 h5 h6 ih =>
    generalize hl : w ++ [z] ++ l = l' at hn'
    obtain ⟨m, hm⟩ : ∃ m, (w ++ [z]).head? = some m := by cases w <;> exact ⟨_, rfl⟩
    have hmem : m ∈ w ++ [z] := List.mem_of_head? hm
    cases hn' with
    | nil => simp at hl
    | @skip _ m2 l2 _ h7 h8 =>
      exfalso
      have : m = m2 := by
        have := congrArg List.head? hl
        rw [List.head?_append, hm] at this
        simpa using this
      subst this
      exact h7 s e h1 h2 (h4 m hmem)
    | @window _ s2 e2 w2 z2 l2 out2 h7 h8 h9 h10 h11 h12 =>
      have hm2 : (w2 ++ [z2]).head? = some m := by
        have := congrArg List.head? hl
        rw [List.head?_append, hm, List.head?_append] at this
        obtain ⟨m2, hm2⟩ : ∃ m, (w2 ++ [z2]).head? = some m := by cases w2 <;> exact ⟨_, rfl⟩
        rw [hm2] at this ⊢
        simpa using this.symm
      have hs : s = s2 := by
        have a1 : s ≤ s2 := by
          rcases h3 m hm s2 e2 h7 h8 (h10 m (List.mem_of_head? hm2)) with h | h
          · exact h
          · exact hkw _ _ _ _ h1 h7 h
        have a2 : s2 ≤ s := by
          rcases h9 m hm2 s e h1 h2 (h4 m hmem) with h | h
          · exact h
          · exact hkw _ _ _ _ h7 h1 h
        omega
      subst hs
      obtain ⟨hw, hl'⟩ := window_split (P := fun m => win s m.1) hl h4 h10 h5 h11
      subst hl'
      have hz : w = w2 ∧ z = z2 := by
        have := List.append_inj' hw rfl
        exact ⟨this.1, by simpa using this.2⟩
      obtain ⟨rfl, rfl⟩ := hz
      rw [ih h12]

end

/-! ## Splitting lists of matches -/

theorem leftmost_split {P : Nat → Nat → Prop} {st k : Nat} {L : List (Nat × Nat)}
    (h : Leftmost P st L) (hk : st ≤ k) (hout : ∀ p q, P p q → p < k → q ≤ k) :
    ∃ L1 L2, L = L1 ++ L2 ∧ (∀ m ∈ L1, m.1 < k) ∧ Leftmost P k L2 := by
  induction h with
  | nil h => exact ⟨[], [], rfl, by simp, .nil fun p e hp => h p e (by omega)⟩
  | @cons st s e l h1 h2 h3 h4 ih =>
    by_cases hs : s < k
    · obtain ⟨L1, L2, rfl, i1, i2⟩ := ih (hout s e h2 hs)
      refine ⟨(s, e) :: L1, L2, rfl, ?_, i2⟩
      intro m hm
      rcases List.mem_cons.1 hm with rfl | hm
      · exact hs
      · exact i1 m hm
    · exact ⟨[], (s, e) :: l, rfl, by simp, .cons (by omega) h2 (fun p q hp => h3 p q (by omega)) h4⟩

theorem leftmost_suffix {P : Nat → Nat → Prop} {w : List (Nat × Nat)} {z : Nat × Nat} {g : List (Nat × Nat)} :
    ∀ {st : Nat}, Leftmost P st (w ++ [z] ++ g) → Leftmost P z.2 g := by
  induction w with
  | nil => intro st h; cases h with | cons _ _ _ h => exact h
  | cons x w ih => intro st h; cases h with | cons _ _ _ h => exact ih h

theorem within_sub {c : Str} {s s' p p' n : Nat} (h : Within c s p n) (hs' : OnBoundary c s') (hp' : OnBoundary c p')
    (h1 : s ≤ s') (h2 : s' ≤ p') (h3 : p' ≤ p) : Within c s' p' n := by
  obtain ⟨t, ht, htl⟩ := h
  obtain ⟨b1, b2, _⟩ := textAt_boundaries ht
  obtain ⟨t1, ht1⟩ := textAt_of_boundaries b1 hs' h1
  obtain ⟨t2, ht2⟩ := textAt_of_boundaries hs' hp' h2
  obtain ⟨t3, ht3⟩ := textAt_of_boundaries hp' b2 h3
  have := textAt_unique ht (textAt_split ht1 (textAt_split ht2 ht3))
  rw [this] at htl
  simp at htl
  exact ⟨t2, ht2, by omega⟩

theorem within_le {c : Str} {s p n : Nat} (h : Within c s p n) : s ≤ p := by
  obtain ⟨t, ht, _⟩ := h
  exact (textAt_boundaries ht).2.2

/-! ## The outer loop -/

theorem outerLoop_near {r : RegexRule} (hl : LawfulRx r.rx) (hne : NonEmptyRx r.rx) {k : IncKw} (hla : 0 < k.lookAhead)
    {occ : Str → Nat → Nat → Prop} (hk : LawfulKw k occ) {c : Str} (hap : Apart r occ c) {fuelIn : Nat}
    (hfi : blen c < fuelIn) : ∀ (fuel kstart : Nat), kstart ≤ blen c → blen c < kstart + fuel →
    ∀ (st : Nat) (L : List (Nat × Nat)), Leftmost (Accepted r c) st L → (∀ s e, occ c s e → kstart ≤ s → st ≤ s) →
    ∃ out, outerLoop r k false c fuelIn fuel kstart = Res.ok ⟨out, []⟩ ∧
      Near (occ c) (fun s p => Within c s p k.lookAhead) kstart L out := by
  have hlt : ∀ s e, Accepted r c s e → s < e := fun s e h => hne c s e h.1
  have hle : ∀ s e, Accepted r c s e → s ≤ e := fun s e h => (hl c s e h.1).1
  have hfun : ∀ s e e', Accepted r c s e → Accepted r c s e' → e = e' := by
    intro s e e' h h'
    have := h.1.symm.trans h'.1
    exact Option.some.inj this
  intro fuel
  induction fuel with
  | zero => intro kstart hb hf; omega
  | succ fuel ih =>
    intro kstart hb hf st L hL hst
    unfold outerLoop
    rcases nextKeyword_spec hk hb with ⟨h1, h2⟩ | ⟨ks, ke, ks', h1, h2, h3, h4, h5, h6, h7⟩
    · rw [h1]
      refine ⟨[], rfl, ?_⟩
      have := near_skip_all (kw := occ c) (win := fun s p => Within c s p k.lookAhead) (start := kstart) (L := L)
        (fun m _ s e ho hs => absurd (h2 s e ho) (by omega)) .nil
      rwa [List.append_nil] at this
    · rw [h1]
      simp only
      have hr := hk.range c ks ke h2
      obtain ⟨hkse, hbks, _⟩ := hr
      obtain ⟨l, g, nxt, i1, i2, i3, i4⟩ := innerLoop_spec hl hne hla hfi hbks fuelIn ks' ks hbks (Nat.le_refl _) (by omega) h5
      rw [i1]
      obtain ⟨L1, L2, rfl, hL1, hL2⟩ := leftmost_split hL (hst ks ke h2 h3) (by
        intro p q hp hpk
        rcases hap ks ke p q h2 hp with h | h
        · omega
        · exact h)
      have hLL := leftmost_unique hfun i2 hL2
      subst hLL
      -- no keyword in front of the matches before `ks`
      have hskip : ∀ m ∈ L1, ∀ s e, occ c s e → kstart ≤ s → ¬ Within c s m.1 k.lookAhead := by
        intro m hm s e ho hs hw
        have h8 := hL1 m hm
        have h9 := leftmost_mem hL m (List.mem_append_left _ hm)
        have h10 := within_le hw
        have h11 := hlt _ _ h9
        rcases hap s e m.1 m.2 ho h9 with h | h
        · rcases h6 s e ho hs with h' | h' <;> omega
        · omega
      have hacc : ∀ m ∈ l ++ g, Accepted r c m.1 m.2 := leftmost_mem i2
      have hpw := leftmost_pairwise hle i2
      have hstart := leftmost_start hle i2
      rcases i4 with ⟨rfl, rfl⟩ | ⟨x, g', n, u, kk, rfl, j2, j3, rfl, j5, j6, j7, j8⟩
      · refine ⟨l, rfl, near_skip_all hskip ?_⟩
        rcases List.eq_nil_or_concat l with rfl | ⟨w, z, rfl⟩
        · exact .nil
        · have := Near.window (kw := occ c) (win := fun s p => Within c s p k.lookAhead) (start := kstart) (l := [])
            (out := []) (w := w) (z := z) h2 h3 (fun m _ s e ho hs _ => h6 s e ho hs) (by simpa using i3) (by simp) .nil
          simpa using this
      · have hxa := hacc x (by simp)
        have hxb := (hl c x.1 x.2 hxa.1).2.1
        have hksx : ks ≤ x.1 := hstart x (by simp)
        have hnx : n ≤ x.1 ∧ n ≤ blen c := by
          obtain ⟨n', u', h, h'⟩ := getPrefixStart_total (n := k.lookAhead) hla hxb
          rw [j3] at h
          simp only [Res.ok.injEq, Prod.mk.injEq] at h
          have := onBoundary_le hxb
          omega
        -- matches behind the window
        have hge : ∀ m ∈ x :: g', x.1 ≤ m.1 := by
          intro m hm
          rcases List.mem_cons.1 hm with rfl | hm
          · exact Nat.le_refl _
          · have := (List.pairwise_cons.1 (List.pairwise_append.1 hpw).2.1).1 m hm
            have := hlt _ _ hxa
            omega
        have hns : ∀ s e, occ c s e → ∀ m ∈ x :: g', Within c s m.1 k.lookAhead → n ≤ s := by
          intro s e ho m hm hw
          rcases Nat.lt_or_ge x.1 s with h | h
          · omega
          · obtain ⟨n', u', h1, h2⟩ := getPrefixStart_le hla hxb (hge m hm) hw h
            rw [j3] at h1
            simp only [Res.ok.injEq, Prod.mk.injEq] at h1
            omega
        rcases List.eq_nil_or_concat l with rfl | ⟨w, z, rfl⟩
        · have hkk : kk = ks' := by
            rcases j7 with h | ⟨y, hy, _⟩
            · exact h
            · cases hy
          obtain ⟨out, o1, o2⟩ := ih (max kk n) (by omega) (by omega) ks (x :: g') i2 (by intro s e _ hs; omega)
          simp only [o1]
          refine ⟨out, rfl, near_skip_all hskip (near_congr o2 ?_)⟩
          intro s e ho m hm hw
          refine ⟨fun h => by omega, fun h => ?_⟩
          have hb := (hk.range c s e ho).2.1
          have hkss : ks < s := by
            rcases Nat.lt_or_ge ks s with h | h
            · exact h
            · exact absurd (within_sub hw hbks hxb h hksx (hge m hm)) j2
          have := h7 s hkss hb
          have := hns s e ho m hm hw
          omega
        · have hl' : (w.concat z) = w ++ [z] := by simp
          rw [hl'] at i2 i3 i1 hacc hpw hstart j7 j8 ⊢
          have hza := hacc z (by simp)
          have hkk : kk = z.1 := by
            have a1 := j8 z (by simp)
            have hmz : ∀ y ∈ w ++ [z], y.1 ≤ z.1 := by
              intro y hy
              rcases List.mem_append.1 hy with hy | hy
              · have := (List.pairwise_append.1 (List.pairwise_append.1 hpw).1).2.2 y hy z (by simp)
                have := hlt _ _ (hacc y (by simp [hy]))
                omega
              · simp at hy; subst hy; exact Nat.le_refl _
            rcases j7 with h | ⟨y, hy, h⟩
            · have hz1 := hstart z (by simp)
              have : ks < z.1 := by
                rcases hap ks ke z.1 z.2 h2 hza with h | h
                · omega
                · have := hlt _ _ hza; omega
              have := h7 z.1 this (hl c z.1 z.2 hza.1).2.1
              omega
            · have := hmz y hy; omega
          obtain ⟨out, o1, o2⟩ := ih (max kk n) (by omega) (by omega) z.2 (x :: g') (leftmost_suffix i2) (by
            intro s e ho hs
            have := (hk.range c s e ho).1
            rcases hap s e z.1 z.2 ho hza with h | h
            · omega
            · exact h)
          simp only [o1]
          refine ⟨w ++ [z] ++ out, rfl, near_skip_all hskip ?_⟩
          refine .window h2 h3 (fun m _ s e ho hs _ => h6 s e ho hs) i3 (by intro m hm; cases hm; exact j2) (near_congr o2 ?_)
          intro s e ho m hm hw
          have := hns s e ho m hm hw
          omega

end Sds
