import Verif.Spec.MoreKeywords
import Verif.Props.Near

/-! # C120: more required keywords, or a longer window -/

namespace Sds.Props
open Sds Spec

section
variable {r : RegexRule} {k k' : IncKw} {occ occ' : Str → Nat → Nat → Prop} {kp : Bool} {c : Str} {path : Path} {fuel : Nat}
  {f f' : Found}

/-- C120 (partial: the match, or one between its keyword and it): what a rule finds with fewer keywords or a shorter window, it finds
with more keywords and a longer window - or it finds a match that begins between the keyword and this match.  Missing: then the match
itself may be lost (`C120_keyword_loses`, `C120_window_loses`). -/
theorem C120_adds_partial (hw : Wider k occ k' occ') (hi : r.included = some k) (hl : LawfulRx r.rx) (hne : NonEmptyRx r.rx)
    (hla : 0 < k.lookAhead) (hk : LawfulKw k occ) (hk' : LawfulKw k' occ') (hap : Apart r occ' c) (hf : blen c < fuel)
    (h : stringMatches r kp false c path fuel = .ok f)
    (h' : stringMatches { r with included := some k' } kp false c path fuel = .ok f') :
    ∀ m ∈ f.matches_, m ∈ f'.matches_ ∨
      ∃ m' ∈ f'.matches_, m'.1 < m.1 ∧ ∃ s e, occ c s e ∧ Within c s m.1 k.lookAhead ∧ s < m'.1 := by
  obtain ⟨l, out, a1, a2, a3, a4⟩ := C85_required_keywords hl hne hi hla hk kp
    (fun s e p q ho hp => hap s e p q (hw.occ _ _ _ ho) hp) path hf
  obtain ⟨l', out', b1, b2, b3, b4⟩ := C85_required_keywords (r := { r with included := some k' }) hl hne rfl
    (Nat.lt_of_lt_of_le hla hw.lookAhead) hk' kp hap path hf
  have hll : l = l' := by
    have e : stringMatches { r with included := none, excluded := none } kp false c path fuel = .ok ⟨l', []⟩ := b1
    rw [a1] at e
    simpa using e
  subst hll
  rw [a4] at h
  rw [b4] at h'
  cases h
  cases h'
  obtain ⟨c1, c2, -⟩ := C85_selected_partial hl hne a2 a3
  obtain ⟨-, -, c3⟩ := C85_selected_partial (r := { r with included := some k' }) hl hne b2 b3
  intro m hm
  rcases List.mem_append.1 hm with hm | hm
  · obtain ⟨s, e, ho, t, ht, hle⟩ := c2 m hm
    rcases c3 m (c1.subset hm) s e (hw.occ _ _ _ ho) ⟨t, ht, Nat.le_trans hle hw.lookAhead⟩ with hx | ⟨m', hm', h1, h2⟩
    · exact Or.inl (List.mem_append_left _ hx)
    · exact Or.inr ⟨m', List.mem_append_left _ hm', h2, s, e, ho, ⟨t, ht, hle⟩, h1⟩
  · refine Or.inl (List.mem_append_right _ ?_)
    split at hm
    · rename_i hx
      rw [if_pos ⟨hx.1, hw.inPath _ hx.2⟩]
      exact hm
    · cases hm

/-- C120: a string in which a rule finds something does not become a string in which it finds nothing. -/
theorem C120_still_found (hw : Wider k occ k' occ') (hi : r.included = some k) (hl : LawfulRx r.rx) (hne : NonEmptyRx r.rx)
    (hla : 0 < k.lookAhead) (hk : LawfulKw k occ) (hk' : LawfulKw k' occ') (hap : Apart r occ' c) (hf : blen c < fuel)
    (h : stringMatches r kp false c path fuel = .ok f)
    (h' : stringMatches { r with included := some k' } kp false c path fuel = .ok f') (hfound : f.matches_ ≠ []) :
    f'.matches_ ≠ [] := by
  obtain ⟨m, hm⟩ := List.exists_mem_of_ne_nil _ hfound
  rcases C120_adds_partial hw hi hl hne hla hk hk' hap hf h h' m hm with h | ⟨m', h, -⟩
  · exact List.ne_nil_of_mem h
  · exact List.ne_nil_of_mem h

end

private def same : Char → Char → Bool := fun a b => a == b

private def kwOf (n : Nat) (kws : List Str) : IncKw := ⟨n, leftmostKw same kws, fun _ => false⟩
private def occOf (kws : List Str) : Str → Nat → Nat → Prop := fun c s e => ∃ kw ∈ kws, kwMatchAt same kw c s = some e
private def numbers (k : IncKw) : RegexRule := ⟨digitsRx, none, some k, none⟩

private theorem wider {n n' : Nat} (hn : n ≤ n') {kws kws' : List Str} (h : ∀ kw ∈ kws, kw ∈ kws') :
    Wider (kwOf n kws) (occOf kws) (kwOf n' kws') (occOf kws') :=
  ⟨fun _ _ _ ⟨kw, hkw, hm⟩ => ⟨kw, h kw hkw, hm⟩, fun _ hx => (by cases hx), hn⟩

/-- Whether no keyword overlaps a number can be decided. -/
private theorem apart_of {k : IncKw} {kws : List Str} {c : Str} (h : ∀ kw ∈ kws, ∀ s, s ≤ blen c → ∀ p, p ≤ blen c →
    (match kwMatchAt same kw c s, digitsRx c p with
      | some e, some q => decide (e ≤ p ∨ q ≤ s)
      | _, _ => true) = true) (hkw : ∀ kw ∈ kws, kw ≠ []) : Apart (numbers k) (occOf kws) c := by
  intro s e p q ho hp
  have hp' : digitsRx c p = some q := hp.1
  have h1 := onBoundary_le (digitsRx_ok.1 _ _ _ hp').2.1
  have h2 := onBoundary_le ((leftmostKw_lawful same kws hkw 1 fun _ => false).range c s e ho).2.1
  obtain ⟨kw, hm, hs⟩ := ho
  have := h kw hm s h2 p h1
  rw [hs, hp'] at this
  exact of_decide_eq_true this

private theorem id_ne : ∀ kw ∈ ["id".toList], kw ≠ [] := by simp
private theorem idxx_ne : ∀ kw ∈ ["id".toList, "xx".toList], kw ≠ [] := by simp

/-- Finding (C120): with the keyword `id`, both numbers of `xx id 5 77` are found; with the keywords `id` and `xx` only the first one:
it is found for `xx`, and the search for keywords goes on behind `id`. -/
theorem C120_keyword_loses : ∃ (r : RegexRule) (k k' : IncKw) (occ occ' : Str → Nat → Nat → Prop) (c : Str), Wider k occ k' occ' ∧
    r.included = some k ∧ LawfulRx r.rx ∧ NonEmptyRx r.rx ∧ 0 < k.lookAhead ∧ LawfulKw k occ ∧ LawfulKw k' occ' ∧ Apart r occ' c ∧
    blen c < 40 ∧ k.lookAhead = k'.lookAhead ∧
    stringMatches r false false c [] 40 = .ok ⟨[(6, 7), (8, 10)], []⟩ ∧
    stringMatches { r with included := some k' } false false c [] 40 = .ok ⟨[(6, 7)], []⟩ :=
  ⟨numbers (kwOf 6 ["id".toList]), kwOf 6 ["id".toList], kwOf 6 ["id".toList, "xx".toList], occOf ["id".toList],
    occOf ["id".toList, "xx".toList], "xx id 5 77".toList, wider (Nat.le_refl _) (by simp), rfl, digitsRx_ok.1, digitsRx_ok.2,
    by decide, leftmostKw_lawful _ _ id_ne _ _, leftmostKw_lawful _ _ idxx_ne _ _, apart_of (by decide +kernel) idxx_ne, by decide,
    rfl, by decide +kernel, by decide +kernel⟩

/-- Finding (C120): with a window of five characters both numbers of `id id 5 77` are found, with six only the first one. -/
theorem C120_window_loses : ∃ (r : RegexRule) (k k' : IncKw) (occ : Str → Nat → Nat → Prop) (c : Str), Wider k occ k' occ ∧
    r.included = some k ∧ LawfulRx r.rx ∧ NonEmptyRx r.rx ∧ LawfulKw k occ ∧ LawfulKw k' occ ∧ Apart r occ c ∧ blen c < 40 ∧
    k.lookAhead = 5 ∧ k'.lookAhead = 6 ∧
    stringMatches r false false c [] 40 = .ok ⟨[(6, 7), (8, 10)], []⟩ ∧
    stringMatches { r with included := some k' } false false c [] 40 = .ok ⟨[(6, 7)], []⟩ :=
  ⟨numbers (kwOf 5 ["id".toList]), kwOf 5 ["id".toList], kwOf 6 ["id".toList], occOf ["id".toList], "id id 5 77".toList,
    wider (by decide) (fun _ h => h), rfl, digitsRx_ok.1, digitsRx_ok.2, leftmostKw_lawful _ _ id_ne _ _,
    leftmostKw_lawful _ _ id_ne _ _, apart_of (by decide +kernel) id_ne, by decide, rfl, rfl, by decide +kernel, by decide +kernel⟩

/-- The hypotheses of `C120_adds_partial` and `C120_still_found` are met (as in `C120_keyword_loses`), with one more number found. -/
example : Wider (kwOf 6 ["id".toList]) (occOf ["id".toList]) (kwOf 6 ["id".toList, "xx".toList]) (occOf ["id".toList, "xx".toList]) ∧
    LawfulRx digitsRx ∧ NonEmptyRx digitsRx ∧ LawfulKw (kwOf 6 ["id".toList]) (occOf ["id".toList]) ∧
    LawfulKw (kwOf 6 ["id".toList, "xx".toList]) (occOf ["id".toList, "xx".toList]) ∧
    Apart (numbers (kwOf 6 ["id".toList])) (occOf ["id".toList, "xx".toList]) "xx 1 ...... id 7".toList ∧
    stringMatches (numbers (kwOf 6 ["id".toList])) false false "xx 1 ...... id 7".toList [] 40 = .ok ⟨[(15, 16)], []⟩ ∧
    stringMatches (numbers (kwOf 6 ["id".toList, "xx".toList])) false false "xx 1 ...... id 7".toList [] 40 =
      .ok ⟨[(3, 4), (15, 16)], []⟩ :=
  ⟨wider (Nat.le_refl _) (by simp), digitsRx_ok.1, digitsRx_ok.2, leftmostKw_lawful _ _ id_ne _ _, leftmostKw_lawful _ _ idxx_ne _ _,
    apart_of (by decide +kernel) idxx_ne, by decide +kernel, by decide +kernel⟩

end Sds.Props
