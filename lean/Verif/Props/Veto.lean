import Verif.Spec.Search
import Verif.Props.Search

/-! # C121: more excluded keywords, or a longer window -/

namespace Sds.Props
open Sds Spec

private theorem sameText_ne {eqc : Char → Char → Bool} {kw m : Str} (h : SameText eqc kw m) (hk : kw ≠ []) : m ≠ [] := by
  rintro rfl
  cases kw with
  | nil => exact hk rfl
  | cons x kw => cases h

private theorem bounded_before {kw z a m b : Str} (ha : a ≠ []) (h : Bounded kw a m b) : Bounded kw (z ++ a) m b := by
  have hw : ∀ l r : Str, l ≠ [] → wordBoundary (z ++ l) r = wordBoundary l r := by
    intro l r hl
    unfold wordBoundary
    rw [List.getLast?_append, List.getLast?_eq_some_getLast hl]
    rfl
  refine ⟨fun k h1 h2 => ?_, fun k h1 h2 => ?_⟩
  · rw [hw a _ ha]
    exact h.1 k h1 h2
  · rw [List.append_assoc, hw (a ++ m) _ (by simp [ha])]
    exact h.2 k h1 h2

/-- What it means that a keyword is found. -/
private theorem found {eqc : Char → Char → Bool} {kws : List Str} (hk : ∀ kw ∈ kws, kw ≠ []) {S : Str} {u : Bool}
    (h : excludedInPrefix eqc kws S u = .ok true) :
    ∃ s d, S = s ++ [d] ∧ ∃ kw ∈ kws, ∃ a m b, S = a ++ m ++ b ∧ (u = true → a ≠ []) ∧ blen (a ++ m) ≤ blen s ∧
      SameText eqc kw m ∧ Bounded kw a m b := by
  by_cases hS : S = []
  · subst hS
    rw [excludedInPrefix_nil] at h
    have h := (anyKeywordIn_iff _ _ _ _ _).1 (Res.ok.inj h)
    obtain ⟨kw, hkw, a, m, b, h1, -, -, h4, -⟩ := h
    have := sameText_ne h4 (hk kw hkw)
    simp at h1
    exact absurd h1.2.1 this
  obtain ⟨s, d, rfl⟩ : ∃ s d, S = s ++ [d] := ⟨_, _, (List.dropLast_concat_getLast hS).symm⟩
  refine ⟨s, d, rfl, ?_⟩
  cases u with
  | false =>
    rw [excludedInPrefix_partial] at h
    obtain ⟨kw, hkw, a, m, b, h1, -, h3, h4, h5⟩ := (anyKeywordIn_iff _ _ _ _ _).1 (Res.ok.inj h)
    exact ⟨kw, hkw, a, m, b, h1, by simp, h3, h4, h5⟩
  | true =>
    cases s with
    | nil =>
      rw [List.nil_append, excludedInPrefix_single] at h
      split at h
      · obtain ⟨kw, hkw, a, m, b, h1, h2, h3, h4, -⟩ := (anyKeywordIn_iff _ _ _ _ _).1 (Res.ok.inj h)
        have := d.utf8Size_pos
        rw [blen_append] at h3
        omega
      · cases h
    | cons c s =>
      rw [excludedInPrefix_full] at h
      obtain ⟨kw, hkw, a, m, b, h1, h2, h3, h4, h5⟩ := (anyKeywordIn_iff _ _ _ _ _).1 (Res.ok.inj h)
      refine ⟨kw, hkw, a, m, b, h1, ?_, by simpa [blen] using h3, h4, h5⟩
      rintro - rfl
      have := c.utf8Size_pos
      simp [blen] at h2
      omega

/-- A keyword that is found is found with more text in front. -/
private theorem found_longer {eqc : Char → Char → Bool} {kws kws' : List Str} (hk : ∀ kw ∈ kws, kw ≠ []) (hsub : ∀ kw ∈ kws, kw ∈ kws')
    {S z : Str} {u u' : Bool} (hu : u' = true → u = true) (hz : u = false → z = []) (h : excludedInPrefix eqc kws S u = .ok true) :
    excludedInPrefix eqc kws' (z ++ S) u' = .ok true := by
  obtain ⟨s, d, e1, kw, hkw, a, m, b, e2, ha, hle, h4, h5⟩ := found hk h
  have hm := sameText_ne h4 (hk kw hkw)
  have hpos : 0 < blen m := blen_pos hm
  have hb : Bounded kw (z ++ a) m b := by
    by_cases ha' : a = []
    · cases hu1 : u with
      | true => exact absurd ha' (ha hu1)
      | false => rw [hz hu1]; exact h5
    · exact bounded_before ha' h5
  have hany : ∀ n, n ≤ blen (z ++ a) → anyKeywordIn eqc kws' (z ++ S) n (blen (z ++ s)) = true := fun n hn =>
    (anyKeywordIn_iff _ _ _ _ _).2 ⟨kw, hsub kw hkw, z ++ a, m, b, by rw [e2]; simp, hn, by simp at hle ⊢; omega, h4, hb⟩
  cases hu' : u' with
  | false =>
    have e : z ++ S = (z ++ s) ++ [d] := by rw [e1]; simp
    rw [e, excludedInPrefix_partial, ← e, hany 0 (Nat.zero_le _)]
  | true =>
    have ha := ha (hu hu')
    have hs : s ≠ [] := by
      rintro rfl
      simp at hle
      omega
    obtain ⟨c0, t, ht⟩ : ∃ c0 t, z ++ s = c0 :: t := by
      cases hx : z ++ s with
      | nil => simp [hs] at hx
      | cons c0 t => exact ⟨c0, t, rfl⟩
    have e : z ++ S = c0 :: t ++ [d] := by rw [e1, ← List.append_assoc, ht]
    have hc : c0.utf8Size ≤ blen (z ++ a) := by
      have hne : z ++ a ≠ [] := by simp [ha]
      cases hx : z ++ a with
      | nil => exact absurd hx hne
      | cons c1 t1 =>
        have : c1 = c0 := by
          have e3 : z ++ S = c1 :: t1 ++ (m ++ b) := by rw [e2, ← hx]; simp
          rw [e] at e3
          simp at e3
          exact e3.1.symm
        subst this
        simp [blen]
    have := hany c0.utf8Size hc
    rw [e, excludedInPrefix_full, ← e]
    rw [ht] at this
    simpa [blen] using this

/-- C121: what excluded keywords veto, more excluded keywords with a window that is at least as long veto, too. -/
theorem C121_vetoed (eqc : Char → Char → Bool) {kws kws' : List Str} {n n' : Nat} {c : Str} {p : Nat} (hp : OnBoundary c p)
    (hk : ∀ kw ∈ kws, kw ≠ []) (hsub : ∀ kw ∈ kws, kw ∈ kws') (hn : n ≤ n') (h : containsExcluded eqc kws n c p = .ok true) :
    containsExcluded eqc kws' n' c p = .ok true := by
  obtain ⟨pre, post, rfl, rfl⟩ := hp
  rw [containsExcluded_eq] at h ⊢
  have hsplit : pre.drop (pre.length - (n' + 1)) =
      (pre.drop (pre.length - (n' + 1))).take (pre.length - (n + 1) - (pre.length - (n' + 1))) ++ pre.drop (pre.length - (n + 1)) := by
    conv => lhs; rw [← List.take_append_drop (pre.length - (n + 1) - (pre.length - (n' + 1))) (pre.drop (pre.length - (n' + 1)))]
    congr 1
    rw [List.drop_drop]
    congr 1
    omega
  rw [hsplit, strip_append, List.append_assoc]
  refine found_longer hk hsub ?_ ?_ h
  · simp
    omega
  · intro hu
    have : ¬ n + 1 ≤ pre.length := of_decide_eq_false hu
    rw [show pre.length - (n + 1) - (pre.length - (n' + 1)) = 0 by omega]
    rfl

/-- C121: with more excluded keywords and a longer window, a rule finds only matches that begin inside matches that it found before;
those that begin at the same place are the same. -/
theorem C121_fewer {r : RegexRule} {x x' : ExcKw} (hx : r.excluded = some x) (hi : r.included = none) (hl : LawfulRx r.rx)
    (hne : NonEmptyRx r.rx) (he : x.eqc = x'.eqc) (hk : ∀ kw ∈ x.keywords, kw ≠ []) (hsub : ∀ kw ∈ x.keywords, kw ∈ x'.keywords)
    (hn : x.lookAhead ≤ x'.lookAhead) {kp kp' : Bool} {c : Str} (hs : ChecksSafely r c) {path path' : Path} {fuel fuel' : Nat}
    {f f' : Found} (h : stringMatches r kp false c path fuel = .ok f)
    (h' : stringMatches { r with excluded := some x' } kp' false c path' fuel' = .ok f') :
    ∀ m' ∈ f'.matches_, ∃ m ∈ f.matches_, m.1 ≤ m'.1 ∧ m'.1 < m.2 ∧ (m'.1 = m.1 → m' = m) := by
  intro m' hm'
  have hg := leftmost_mem ((C20_leftmost (r := { r with excluded := some x' }) hl hne hi h' f'.matches_).2 rfl) m' hm'
  have hb : OnBoundary c m'.1 := (hl c _ _ hg.1.1).2.1
  have hg' : Genuine r c m'.1 m'.2 := by
    refine ⟨hg.1, fun y hy => ?_⟩
    rw [hx] at hy
    cases hy
    obtain ⟨b, hbv⟩ := hs x hx m'.1 hb
    cases b with
    | false => exact hbv
    | true =>
      have h1 := C121_vetoed x.eqc hb hk hsub hn hbv
      have h2 := hg.2 x' rfl
      rw [he, h2] at h1
      cases h1
  obtain ⟨m, h1, h2, h3, h4⟩ := (C20_nothing_missed hl hne hi h).2 m'.1 m'.2 hg'
  exact ⟨m, h1, h2, h3, fun e => Prod.ext e (h4 e)⟩

private def same (k c : Char) : Bool := k == c
private def exc (n : Nat) (kws : List Str) : ExcKw := ⟨same, n, kws⟩
private def numbers (x : ExcKw) : RegexRule := ⟨digitsRx, none, none, some x⟩

/-- The hypotheses of `C121_vetoed` are met: `no` vetoes the number with a window of three characters, and with nine. -/
example : OnBoundary "ab no 7".toList 6 ∧ containsExcluded same ["no".toList] 3 "ab no 7".toList 6 = .ok true ∧
    containsExcluded same ["no".toList, "xx".toList] 9 "ab no 7".toList 6 = .ok true :=
  ⟨⟨"ab no ".toList, "7".toList, rfl, rfl⟩, by decide, by decide⟩

/-- The hypotheses of `C121_fewer` are met: both numbers are found with the keyword `no`; with `xx` as well and a longer window, only
the second one is. -/
example : ChecksSafely (numbers (exc 3 ["no".toList])) "xx 5 12".toList ∧
    stringMatches (numbers (exc 3 ["no".toList])) false false "xx 5 12".toList [] 30 = .ok ⟨[(3, 4), (5, 7)], []⟩ ∧
    stringMatches (numbers (exc 4 ["no".toList, "xx".toList])) false false "xx 5 12".toList [] 30 = .ok ⟨[(5, 7)], []⟩ := by
  refine ⟨?_, by decide, by decide⟩
  intro x hx p hp
  cases hx
  have hle : p ≤ 7 := onBoundary_le hp
  have : ∀ p ≤ 7, (match containsExcluded same ["no".toList] 3 "xx 5 12".toList p with
      | .ok _ => true
      | _ => false) = true := by decide
  have h := this p hle
  show ∃ b, containsExcluded same ["no".toList] 3 "xx 5 12".toList p = .ok b
  revert h
  cases containsExcluded same ["no".toList] 3 "xx 5 12".toList p with
  | ok b => exact fun _ => ⟨b, rfl⟩
  | panic => intro h; cases h
  | hang => intro h; cases h

end Sds.Props
