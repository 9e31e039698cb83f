import Verif.Lemmas.Partial
import Verif.Lemmas.Included
import Verif.Spec.Scan

/-! Regex rules meet the assumptions of the scanner about rules. -/

namespace Sds
open Spec

theorem texts_mem {c : Str} {l : List (Nat × Nat)} {ts : List Str} (h : Texts c l ts) :
    ∀ t, t ∈ ts ↔ ∃ m ∈ l, TextAt c m.1 m.2 t := by
  induction h with
  | nil => simp
  | @cons s e m l ts ht _ ih =>
    intro t
    rw [List.mem_cons, ih t]
    constructor
    · rintro (rfl | ⟨x, hx, h⟩)
      · exact ⟨_, List.mem_cons_self, ht⟩
      · exact ⟨x, List.mem_cons_of_mem _ hx, h⟩
    · rintro ⟨x, hx, h⟩
      rcases List.mem_cons.1 hx with rfl | hx
      · exact Or.inl (textAt_unique h ht)
      · exact Or.inr ⟨x, hx, h⟩

/-- What the result of a search looks like in scanned and in excluded fields. -/
def Sides (r : RegexRule) (c : Str) (ex : Bool) (f : Found) : Prop :=
  (ex = false → f.inserted = [] ∧ ∀ m ∈ f.matches_, Accepted r c m.1 m.2) ∧
  (ex = true → f.matches_ = [] ∧ ∀ t ∈ f.inserted, ∃ s e, Accepted r c s e ∧ TextAt c s e t)

theorem Sides.append {r : RegexRule} {c : Str} {ex : Bool} {f g : Found} (h1 : Sides r c ex f) (h2 : Sides r c ex g) :
    Sides r c ex ⟨f.matches_ ++ g.matches_, f.inserted ++ g.inserted⟩ := by
  constructor
  · intro he
    obtain ⟨a1, a2⟩ := h1.1 he
    obtain ⟨b1, b2⟩ := h2.1 he
    refine ⟨by simp [a1, b1], fun m hm => ?_⟩
    rcases List.mem_append.1 hm with hm | hm
    · exact a2 m hm
    · exact b2 m hm
  · intro he
    obtain ⟨a1, a2⟩ := h1.2 he
    obtain ⟨b1, b2⟩ := h2.2 he
    refine ⟨by simp [a1, b1], fun m hm => ?_⟩
    rcases List.mem_append.1 hm with hm | hm
    · exact a2 m hm
    · exact b2 m hm

theorem sides_nil (r : RegexRule) (c : Str) (ex : Bool) : Sides r c ex ⟨[], []⟩ :=
  ⟨fun _ => ⟨rfl, by simp⟩, fun _ => ⟨rfl, by simp⟩⟩

theorem collectTp_sides {r : RegexRule} (hl : LawfulRx r.rx) (hne : NonEmptyRx r.rx) {check ex : Bool} {c : Str}
    {fi fuel : Nat} {f : Found} (h : collectTp r check ex c fi fuel 0 = Res.ok f) : Sides r c ex f := by
  obtain ⟨l, h1, h2⟩ := collectTp_ok hl hne fuel 0 f (Nat.zero_le _) h
  rcases h2 with ⟨rfl, rfl, h4⟩ | ⟨rfl, h3, h4⟩
  · exact ⟨fun _ => ⟨h4, fun m hm => (leftmost_mem h1 m hm).1⟩, fun h => by cases h⟩
  · refine ⟨(fun h => by cases h), fun _ => ⟨h3, fun t ht => ?_⟩⟩
    obtain ⟨m, hm, ht⟩ := (texts_mem h4 t).1 ht
    exact ⟨m.1, m.2, (leftmost_mem h1 m hm).1, ht⟩

theorem outerLoop_sides {r : RegexRule} (hl : LawfulRx r.rx) (hne : NonEmptyRx r.rx) {k : IncKw} (hla : 0 < k.lookAhead)
    {occ : Str → Nat → Nat → Prop} (hk : LawfulKw k occ) (ex : Bool) {c : Str} {fuel : Nat} (hf : blen c < fuel) :
    ∃ f, outerLoop r k ex c fuel fuel 0 = Res.ok f ∧ Sides r c ex f := by
  cases ex with
  | false =>
    obtain ⟨l, h, h2, _⟩ := outerLoop_spec hl hne hla hk hf fuel 0 (Nat.zero_le _) (by omega)
    exact ⟨_, h, fun _ => ⟨rfl, fun m hm => (h2 m hm).1⟩, fun h => by cases h⟩
  | true =>
    obtain ⟨ts, h, h2⟩ := outerLoop_excluded hl hne hk hf (fuel := fuel) (by omega)
    refine ⟨_, h, ⟨(fun h => by cases h), fun _ => ⟨rfl, fun t ht => ?_⟩⟩⟩
    rcases h2 with ⟨rfl, _⟩ | ⟨s, e, l, _, _, h3, h4⟩
    · cases ht
    · obtain ⟨m, hm, ht⟩ := (texts_mem h4 t).1 ht
      exact ⟨m.1, m.2, leftmost_mem h3 m hm, ht⟩

theorem stringMatches_sides {r : RegexRule} (hl : LawfulRx r.rx) (hne : NonEmptyRx r.rx)
    (hk : ∀ k, r.included = some k → 0 < k.lookAhead ∧ ∃ occ, LawfulKw k occ)
    {kp ex : Bool} {c : Str} {path : Path} {fuel : Nat} (hf : blen c < fuel) {f : Found}
    (h : stringMatches r kp ex c path fuel = Res.ok f) : Sides r c ex f := by
  unfold stringMatches at h
  cases hi : r.included with
  | none =>
    rw [hi] at h
    exact collectTp_sides hl hne h
  | some k =>
    rw [hi] at h
    simp only at h
    obtain ⟨hla, occ, hkw⟩ := hk k hi
    obtain ⟨f1, h1, hs⟩ := outerLoop_sides hl hne hla hkw ex hf
    unfold withIncluded at h
    rw [h1] at h
    simp only at h
    split at h
    · split at h
      · next f2 h2 =>
        cases h
        refine hs.append ?_
        unfold pathPart at h2
        split at h2
        · cases h2
        · cases h2
        · cases h2; exact sides_nil _ _ _
        · split at h2
          · exact collectTp_sides hl hne h2
          · cases h2; exact sides_nil _ _ _
      · cases h
      · cases h
    · cases h; exact hs

/-- A search returns, unless the excluded keyword check panics (C27). -/
theorem stringMatches_returns {r : RegexRule} (hl : LawfulRx r.rx) (hne : NonEmptyRx r.rx)
    (hk : ∀ k, r.included = some k → 0 < k.lookAhead ∧ ∃ occ, LawfulKw k occ)
    (kp ex : Bool) {c : Str} (hs : r.included = none → ChecksSafely r c) (path : Path) {fuel : Nat} (hf : blen c < fuel) :
    ∃ f, stringMatches r kp ex c path fuel = Res.ok f := by
  have hcol : ∀ check, SafeIf r check c → ∃ f, collectTp r check ex c fuel fuel 0 = Res.ok f := by
    intro check hsafe
    cases ex with
    | false =>
      obtain ⟨l, h, _⟩ := collectTp_spec hl hne hsafe hf fuel 0 (onBoundary_zero c) (by omega)
      exact ⟨_, h⟩
    | true =>
      obtain ⟨ts, l, h, _⟩ := collectTp_excluded hl hne hsafe (fuelIn := fuel) (fuel := fuel) (onBoundary_zero c)
        (by omega) (by omega)
      exact ⟨_, h⟩
  unfold stringMatches
  cases hi : r.included with
  | none => exact hcol true (fun _ => hs hi)
  | some k =>
    obtain ⟨hla, occ, hkw⟩ := hk k hi
    obtain ⟨f1, h1, _⟩ := outerLoop_sides hl hne hla hkw ex hf
    simp only
    unfold withIncluded
    rw [h1]
    simp only
    split
    · have : ∃ f, pathPart r k ex c path fuel = Res.ok f := by
        unfold pathPart
        rcases searchFrom_spec hl (Nat.zero_le (blen c)) with ⟨h3, _⟩ | ⟨s, e, h3, _⟩
        · rw [h3]; exact ⟨_, rfl⟩
        · rw [h3]
          simp only
          split
          · exact hcol false (by simp [SafeIf])
          · exact ⟨_, rfl⟩
      obtain ⟨f2, h2⟩ := this
      rw [h2]
      exact ⟨_, rfl⟩
    · exact ⟨_, rfl⟩

theorem regexRule_ok {r : RegexRule} (hl : LawfulRx r.rx) (hne : NonEmptyRx r.rx)
    (hk : ∀ k, r.included = some k → 0 < k.lookAhead ∧ ∃ occ, LawfulKw k occ)
    {fuel : Str → Nat} (hf : ∀ c, blen c < fuel c) {info : RuleInfo}
    (ha : info.action ≠ .partialFirst 0 ∧ info.action ≠ .partialLast 0) (scope : Scope) (kwPaths : Bool) :
    RuleOk (r.toCRule info scope kwPaths fuel) where
  ranges c p ex f h := by
    have hs := stringMatches_sides hl hne hk (hf c) h
    intro m hm
    cases ex with
    | false =>
      have ha := (hs.1 rfl).2 m hm
      exact ⟨hne _ _ _ ha.1, (hl _ _ _ ha.1).2⟩
    | true =>
      rw [(hs.2 rfl).1] at hm
      cases hm
  excluded c p f h := ((stringMatches_sides hl hne hk (hf c) h).2 rfl).1
  scanned c p f h := ((stringMatches_sides hl hne hk (hf c) h).1 rfl).1
  action := ha

end Sds
