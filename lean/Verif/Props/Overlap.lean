import Verif.Lemmas.Overlap

/-! # C01-C03: conflict resolution between the matches of one string -/

namespace Sds.Props
open Sds Spec

/-- The rules used in the concrete cases: even rules redact, odd rules only detect. -/
private def evenRedacts : Nat → Bool := fun r => r % 2 == 0

/-- Overlapping candidates of four rules. -/
private def cands : List M := [⟨1, 0, 9⟩, ⟨0, 4, 6⟩, ⟨2, 5, 9⟩, ⟨3, 10, 12⟩, ⟨1, 11, 13⟩, ⟨0, 4, 6⟩]

/-- C01: whatever sorting algorithms are used, the reports for one string are pairwise disjoint and
listed in order: each one ends before the next one starts.  Non-empty candidates. -/
theorem C01_reports_disjoint {redacts : Nat → Bool} {s1 s2 : List M → List M}
    (h1 : SortsBy (prioLe redacts) s1) (h2 : SortsBy startLe s2) (ms : List M)
    (hne : ∀ m ∈ ms, m.st < m.en) :
    (resolveWith s1 s2 redacts ms).Pairwise (fun a b => a.en ≤ b.st) := by
  obtain ⟨a1, a2, a3, _⟩ :=
    resolveWith_spec h1 h2 ms (fun m hm => Nat.le_of_lt (hne m hm))
  exact ordered_of_disjoint (fun m hm => hne m (a1 m hm)) a2 a3

/-- C01, empty candidates included: no two reports share a byte, and starts are in order. -/
theorem C01_reports_disjoint_any {redacts : Nat → Bool} {s1 s2 : List M → List M}
    (h1 : SortsBy (prioLe redacts) s1) (h2 : SortsBy startLe s2) (ms : List M)
    (hle : ∀ m ∈ ms, m.st ≤ m.en) :
    (resolveWith s1 s2 redacts ms).Pairwise (fun a b => ¬ Overlap a b ∧ a.st ≤ b.st) := by
  obtain ⟨_, a2, a3, _⟩ := resolveWith_spec h1 h2 ms hle
  exact List.Pairwise.and a2 a3

example : (∀ m ∈ cands, m.st < m.en) ∧ SortsBy (prioLe evenRedacts) (sortBy (prioLe evenRedacts))
    ∧ SortsBy startLe (sortBy startLe) ∧
    resolve evenRedacts cands = [⟨0, 4, 6⟩, ⟨3, 10, 12⟩] :=
  ⟨by decide, sortsBy_prio _, sortsBy_start, by decide⟩

/-- C02: only candidates are reported, and every candidate is reported or overlaps a reported match of
higher priority. -/
theorem C02_candidates_covered {redacts : Nat → Bool} {s1 s2 : List M → List M}
    (h1 : SortsBy (prioLe redacts) s1) (h2 : SortsBy startLe s2) (ms : List M)
    (hne : ∀ m ∈ ms, m.st < m.en) :
    (∀ m ∈ resolveWith s1 s2 redacts ms, m ∈ ms) ∧
    ∀ m ∈ ms, m ∈ resolveWith s1 s2 redacts ms ∨
      ∃ r ∈ resolveWith s1 s2 redacts ms, Higher redacts r m ∧ Overlap r m := by
  have h := resolveWith_isResolution h1 h2 ms hne
  refine ⟨h.1, fun m hm => ?_⟩
  by_cases hin : m ∈ resolveWith s1 s2 redacts ms
  · exact Or.inl hin
  · right
    exact Classical.not_not.1 (fun hn => hin ((h.2 m hm).2 hn))

/-- C02, redacting rules: a candidate of a redacting rule is redacted itself or overlaps a redacted range
that starts no later. -/
theorem C02_redactions_covered {redacts : Nat → Bool} {s1 s2 : List M → List M}
    (h1 : SortsBy (prioLe redacts) s1) (h2 : SortsBy startLe s2) (ms : List M)
    (hne : ∀ m ∈ ms, m.st < m.en) (m : M) (hm : m ∈ ms) (hr : redacts m.rule = true) :
    ∃ r ∈ resolveWith s1 s2 redacts ms, redacts r.rule = true ∧ r.st ≤ m.st ∧ m.st < r.en := by
  rcases (C02_candidates_covered h1 h2 ms hne).2 m hm with h | ⟨r, hrr, hh, ho⟩
  · exact ⟨m, h, hr, Nat.le_refl _, hne m hm⟩
  · refine ⟨r, hrr, ?_, ?_, ho.2⟩
    · unfold Higher at hh
      cases hrr' : redacts r.rule
      · simp [hrr', hr] at hh
      · rfl
    · unfold Higher at hh
      cases hrr' : redacts r.rule
      · simp [hrr', hr] at hh
      · simp [hrr', hr] at hh; omega

example : (⟨2, 5, 9⟩ : M) ∈ cands ∧ evenRedacts 2 = true ∧
    (⟨2, 5, 9⟩ : M) ∉ resolve evenRedacts cands ∧ (⟨0, 4, 6⟩ : M) ∈ resolve evenRedacts cands := by
  decide

/-- C03: the reports are exactly the unique set determined by the candidates: the resolution of the
specification. -/
theorem C03_is_the_resolution {redacts : Nat → Bool} {s1 s2 : List M → List M}
    (h1 : SortsBy (prioLe redacts) s1) (h2 : SortsBy startLe s2) (ms : List M)
    (hne : ∀ m ∈ ms, m.st < m.en) (res : List M) (hres : IsResolution redacts ms res) :
    ∀ m, m ∈ resolveWith s1 s2 redacts ms ↔ m ∈ res :=
  isResolution_unique (fun _ => Iff.rfl) (resolveWith_isResolution h1 h2 ms hne) hres

/-- C03: the reports (as a list, in order) depend only on the set of candidates: not on the order in which
they were emitted, not on duplicates, not on the sorting algorithms. -/
theorem C03_order_independent {redacts : Nat → Bool} {s1 s2 s1' s2' : List M → List M}
    (h1 : SortsBy (prioLe redacts) s1) (h2 : SortsBy startLe s2)
    (h1' : SortsBy (prioLe redacts) s1') (h2' : SortsBy startLe s2') (ms ms' : List M)
    (hsame : ∀ m, m ∈ ms ↔ m ∈ ms') (hne : ∀ m ∈ ms, m.st < m.en) :
    resolveWith s1 s2 redacts ms = resolveWith s1' s2' redacts ms' := by
  have hne' : ∀ m ∈ ms', m.st < m.en := fun m hm => hne m ((hsame m).2 hm)
  have r := resolveWith_isResolution h1 h2 ms hne
  have r' := resolveWith_isResolution h1' h2' ms' hne'
  exact ordered_ext (fun m hm => hne m (r.1 m hm)) (fun m hm => hne' m (r'.1 m hm))
    (C01_reports_disjoint h1 h2 ms hne) (C01_reports_disjoint h1' h2' ms' hne')
    (isResolution_unique hsame r r')

example : (∀ m, m ∈ cands ↔ m ∈ (cands.reverse ++ cands)) ∧ (∀ m ∈ cands, m.st < m.en) :=
  ⟨by intro m; simp, by decide⟩

/-- C03: detect-only rules never change which redactions happen: the redactions are those obtained from the
redacting candidates alone. -/
theorem C03_redactions_ignore_detect_only {redacts : Nat → Bool} {s1 s2 : List M → List M}
    (h1 : SortsBy (prioLe redacts) s1) (h2 : SortsBy startLe s2) (ms : List M)
    (hne : ∀ m ∈ ms, m.st < m.en) :
    (resolveWith s1 s2 redacts ms).filter (fun m => redacts m.rule) =
      resolveWith s1 s2 redacts (ms.filter fun m => redacts m.rule) := by
  have hne' : ∀ m ∈ ms.filter (fun m => redacts m.rule), m.st < m.en :=
    fun m hm => hne m (List.mem_filter.1 hm).1
  have r := resolveWith_isResolution h1 h2 ms hne
  have r' := resolveWith_isResolution h1 h2 _ hne'
  have rf : IsResolution redacts (ms.filter fun m => redacts m.rule)
      ((resolveWith s1 s2 redacts ms).filter fun m => redacts m.rule) := by
    refine ⟨fun m hm => ?_, fun m hm => ?_⟩
    · obtain ⟨a, b⟩ := List.mem_filter.1 hm
      exact List.mem_filter.2 ⟨r.1 m a, b⟩
    · obtain ⟨a, b⟩ := List.mem_filter.1 hm
      rw [List.mem_filter, and_iff_left b, r.2 m a]
      apply not_congr
      constructor
      · rintro ⟨x, hx, hh, ho⟩
        refine ⟨x, List.mem_filter.2 ⟨hx, ?_⟩, hh, ho⟩
        unfold Higher at hh
        cases hx' : redacts x.rule
        · simp [hx', b] at hh
        · rfl
      · rintro ⟨x, hx, hh, ho⟩
        exact ⟨x, (List.mem_filter.1 hx).1, hh, ho⟩
  exact ordered_ext (fun m hm => hne m (r.1 m (List.mem_filter.1 hm).1))
    (fun m hm => hne' m (r'.1 m hm))
    (List.Pairwise.filter _ (C01_reports_disjoint h1 h2 ms hne))
    (C01_reports_disjoint h1 h2 _ hne')
    (isResolution_unique (fun _ => Iff.rfl) rf r')

example : cands.filter (fun m => evenRedacts m.rule) ≠ cands ∧
    cands.filter (fun m => evenRedacts m.rule) ≠ [] := by decide

/-- C03, the candidates have to be non-empty: an empty match reported twice is kept twice. -/
theorem C03_empty_match_repeated : resolve evenRedacts [⟨1, 3, 3⟩] = [⟨1, 3, 3⟩] ∧
    resolve evenRedacts [⟨1, 3, 3⟩, ⟨1, 3, 3⟩] = [⟨1, 3, 3⟩, ⟨1, 3, 3⟩] := by decide

end Sds.Props
