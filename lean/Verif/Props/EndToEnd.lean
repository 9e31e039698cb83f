import Verif.Props.Scan

/-! # C63: secrets are gone after the scan

Composition of the search (C19, C20), the scopes (C11, C12), multi-pass suppression (C17), conflict resolution
(C01-C03) and redaction (C04, C05), for events of every kind. -/

namespace Sds.Props
open Sds Spec

theorem range_effect {units : Str → Nat} {rules : Nat → RuleInfo} {f : Nat → Str → Str} {rm : Bool} {path : Path}
    {ps : List Piece} {m : M} : ∀ (inn out tail : Str), m ∈ ranges (blen inn) ps →
      ∃ a t b a' b', inn ++ input ps tail = a ++ t ++ b ∧ blen a = m.st ∧ blen a + blen t = m.en ∧
        out ++ output f ps tail = a' ++ f m.rule t ++ b' ∧
        ∃ o ∈ reports units rules f rm path inn out ps, o.rule = m.rule ∧ o.path = path ∧
          o.start = units a' ∧ o.stop = units (a' ++ f m.rule t) ∧ o.value = if rm then some t else none := by
  induction ps with
  | nil => intro _ _ _ h; cases h
  | cons q ps ih =>
    intro inn out tail h
    rcases List.mem_cons.1 h with rfl | h
    · exact ⟨inn ++ q.gap, q.text, input ps tail, out ++ q.gap, output f ps tail, by simp [input], by simp, by simp,
        by simp [output], _, List.mem_cons_self, rfl, rfl, rfl, by simp, rfl⟩
    · have hb : blen inn + blen q.gap + blen q.text = blen (inn ++ q.gap ++ q.text) := by simp; omega
      rw [hb] at h
      obtain ⟨a, t, b, a', b', h1, h2, h3, h4, o, ho, h5⟩ :=
        ih (inn ++ q.gap ++ q.text) (out ++ q.gap ++ f q.rule q.text) tail h
      exact ⟨a, t, b, a', b', by rw [← h1]; simp [input], h2, h3, by rw [← h4]; simp [output], o,
        List.mem_cons_of_mem _ ho, h5⟩

/-- A genuine match of the rule that no earlier genuine match reaches into is emitted. -/
private theorem genuine_emitted {r : RegexRule} (hl : LawfulRx r.rx) (hne : NonEmptyRx r.rx) (hi : r.included = none)
    {kp : Bool} {c : Str} {path : Path} {fuel : Nat} {f : Found} (h : stringMatches r kp false c path fuel = Res.ok f)
    {s q : Nat} (hg : Genuine r c s q) (hfirst : ∀ s' q', Genuine r c s' q' → s' < s → q' ≤ s) :
    (s, q) ∈ f.matches_ := by
  have hlm := (C20_leftmost hl hne hi h f.matches_).2 rfl
  obtain ⟨m, hm, h1, h2, h3⟩ := (C20_nothing_missed hl hne hi h).2 s q hg
  by_cases heq : s = m.1
  · have := h3 heq
    rw [heq, this]; exact hm
  · have := hfirst m.1 m.2 (leftmost_mem hlm m hm) (by omega)
    omega

variable {E : Type} {impl : EventImpl E} {wf : E → Prop} {leavesOf : E → List Leaf} {rew : (Path → Str → Str) → E → E}

/-- C63: rule number `i` is a regex rule without required keywords whose action redacts, which is not blocked, scans
the string `l` and does not exclude it.  Let `t`, at `s..q`, be a genuine match: the regex matches, the validator
accepts, no excluded keyword is found in front of it, and no earlier genuine match of the rule reaches into it.  If
`t` was not found in an excluded field, and no candidate of another match of a redacting rule overlaps `s..q`, then
in the new event the text of the string has the replacement in place of `t`, and the match is reported with the
position of the replacement.  Missing: overlapping redactions, for which the claim fails (`C63_overlap_leaks`). -/
theorem C63_secret_redacted_partial (hE : LawfulEvent impl wf leavesOf rew) {sc : Scanner} (hok : ScannerOk sc)
    (blocked : List Nat) (e : E) (h : Scannable wf leavesOf sc blocked e) :
    ∃ (G : Path → Str → Str) (os : List RuleMatch), scan impl sc e blocked = Res.ok (rew G e, os) ∧
      ∀ l ∈ leavesOf e, ∀ (i : Nat) (r : RegexRule) (info : RuleInfo) (scope : Scope) (kp : Bool) (fuel : Str → Nat),
        sc.rules[i]? = some (r.toCRule info scope kp fuel) → i ∉ blocked → info.action ≠ .none →
        Scans sc.wildcards l.path scope → ¬ Excludes sc.wildcards l.path scope →
        LawfulRx r.rx → NonEmptyRx r.rx → r.included = none →
        ∀ s q t, Genuine r l.text s q → TextAt l.text s q t →
          (∀ s' q', Genuine r l.text s' q' → s' < s → q' ≤ s) →
          ¬ FoundInExcluded sc blocked (leavesOf e) t →
          (∀ m, Candidate sc blocked l.path l.text m → redacting sc m.rule = true → m ≠ ⟨i, s, q⟩ → ¬ Overlap m ⟨i, s, q⟩) →
          ∃ a b a' b', l.text = a ++ t ++ b ∧ blen a = s ∧
            G l.path l.text = a' ++ redacted sc.fp info.action t ++ b' ∧
            ∃ o ∈ os, o.path = l.path ∧ o.rule = i ∧ o.start = impl.enc.units a' ∧
              o.stop = impl.enc.units (a' ++ redacted sc.fp info.action t) ∧
              o.value = if sc.returnMatches then some t else none := by
  obtain ⟨out, G, h1, h2⟩ := C10_scan_result hE hok blocked e h
  refine ⟨G, _, h1, ?_⟩
  intro l hl i r info scope kp fuel hr hb hact hs hx hrx hne hi s q t hg ht hfirst hnf halone
  obtain ⟨⟨ks, res, ps, tail, hk, hres, _, h3, h4, h5, h6⟩, h7⟩ := h2 l hl
  have hinfo : infoOf sc i = info := by simp [infoOf, hr, RegexRule.toCRule]
  obtain ⟨f, hf⟩ := h.returns _ (List.mem_of_getElem? hr) l hl false
  have hem := genuine_emitted hrx hne hi (show stringMatches r kp false l.text l.path (fuel l.text) = Res.ok f from hf)
    hg hfirst
  have hcand : Candidate sc blocked l.path l.text ⟨i, s, q⟩ :=
    ⟨_, f, ⟨hb, hr, hs, by simpa [RegexRule.toCRule] using hx⟩, hf, hem⟩
  have hkept : Kept sc blocked (leavesOf e) l.path l.text ⟨i, s, q⟩ := by
    refine ⟨hcand, ?_⟩
    rintro ⟨_, rule, t', _, _, ht', hf⟩
    rw [textAt_unique ht' ht] at hf
    exact hnf hf
  have hred : redacting sc i = true := by simp [redacting, hinfo, hact]
  have hm : (⟨i, s, q⟩ : M) ∈ res := by
    rw [hres.2 _ ((hk _).2 hkept)]
    rintro ⟨m, hm, hh, ho⟩
    by_cases hrm : m = ⟨i, s, q⟩
    · rw [hrm] at hh; exact higher_irrefl hh
    · refine halone m ((hk m).1 (hres.1 m hm)).1 ?_ hrm ho
      rcases hh with ⟨h, _⟩ | ⟨h, _⟩
      · exact h
      · rw [h]; exact hred
  rw [h4] at hm
  obtain ⟨a, t', b, a', b', e1, e2, e3, e4, o, ho, e5, e6, e7, e8, e9⟩ :=
    range_effect (units := impl.enc.units) (rules := infoOf sc)
      (f := fun r t => redacted sc.fp (infoOf sc r).action t) (rm := sc.returnMatches) (path := l.path) (m := ⟨i, s, q⟩)
      [] [] tail (by simpa using hm)
  have htt : t' = t := textAt_unique ⟨a, b, by rw [h3]; simpa using e1, e2, e3⟩ ht
  subst htt
  simp only [hinfo, List.nil_append] at e4 e7 e8
  refine ⟨a, b, a', b', by rw [h3]; simpa using e1, e2, by rw [h7, h6]; exact e4, o, ?_, e6, e5, e7, e8, e9⟩
  rw [← h5] at ho
  exact List.mem_flatMap.2 ⟨l, hl, ho⟩

/-- C63, covering: under no assumption about other matches, the match is still touched: some reported redaction of the
string overlaps it, and starts no later than it or is the match itself. -/
theorem C63_secret_overlapped (hE : LawfulEvent impl wf leavesOf rew) {sc : Scanner} (hok : ScannerOk sc)
    (blocked : List Nat) (e : E) (h : Scannable wf leavesOf sc blocked e) :
    ∃ (G : Path → Str → Str) (os : List RuleMatch), scan impl sc e blocked = Res.ok (rew G e, os) ∧
      ∀ l ∈ leavesOf e, ∀ (i : Nat) (r : RegexRule) (info : RuleInfo) (scope : Scope) (kp : Bool) (fuel : Str → Nat),
        sc.rules[i]? = some (r.toCRule info scope kp fuel) → i ∉ blocked → info.action ≠ .none →
        Scans sc.wildcards l.path scope → ¬ Excludes sc.wildcards l.path scope →
        LawfulRx r.rx → NonEmptyRx r.rx → r.included = none →
        ∀ s q t, Genuine r l.text s q → TextAt l.text s q t →
          (∀ s' q', Genuine r l.text s' q' → s' < s → q' ≤ s) →
          ¬ FoundInExcluded sc blocked (leavesOf e) t →
          ∃ a u b a' b' j, l.text = a ++ u ++ b ∧ blen a ≤ s ∧ s < blen a + blen u ∧ redacting sc j = true ∧
            G l.path l.text = a' ++ redacted sc.fp (infoOf sc j).action u ++ b' ∧
            ∃ o ∈ os, o.path = l.path ∧ o.rule = j ∧ o.start = impl.enc.units a' := by
  obtain ⟨out, G, h1, h2⟩ := C10_scan_result hE hok blocked e h
  refine ⟨G, _, h1, ?_⟩
  intro l hl i r info scope kp fuel hr hb hact hs hx hrx hne hi s q t hg ht hfirst hnf
  obtain ⟨⟨ks, res, ps, tail, hk, hres, _, h3, h4, h5, h6⟩, h7⟩ := h2 l hl
  have hinfo : infoOf sc i = info := by simp [infoOf, hr, RegexRule.toCRule]
  obtain ⟨f, hf⟩ := h.returns _ (List.mem_of_getElem? hr) l hl false
  have hem := genuine_emitted hrx hne hi (show stringMatches r kp false l.text l.path (fuel l.text) = Res.ok f from hf)
    hg hfirst
  have hcand : Candidate sc blocked l.path l.text ⟨i, s, q⟩ :=
    ⟨_, f, ⟨hb, hr, hs, by simpa [RegexRule.toCRule] using hx⟩, hf, hem⟩
  have hkept : Kept sc blocked (leavesOf e) l.path l.text ⟨i, s, q⟩ := by
    refine ⟨hcand, ?_⟩
    rintro ⟨_, rule, t', _, _, ht', hf⟩
    rw [textAt_unique ht' ht] at hf
    exact hnf hf
  have hred : redacting sc i = true := by simp [redacting, hinfo, hact]
  have hsq : s < q := hne _ _ _ hg.1.1
  have hex : ∃ m ∈ res, redacting sc m.rule = true ∧ m.st ≤ s ∧ s < m.en := by
    by_cases hm : (⟨i, s, q⟩ : M) ∈ res
    · exact ⟨_, hm, hred, Nat.le_refl _, hsq⟩
    · rw [hres.2 _ ((hk _).2 hkept)] at hm
      obtain ⟨m, hm, hh, ho⟩ := Classical.not_not.1 hm
      have ho1 : m.st < q ∧ s < m.en := ho
      rcases hh with ⟨hh, hh'⟩ | ⟨hh, hh'⟩
      · rw [hred] at hh'; cases hh'
      · refine ⟨m, hm, by rw [hh]; exact hred, ?_, ho1.2⟩
        simp only at hh'
        omega
  obtain ⟨m, hm, hmr, hm1, hm2⟩ := hex
  rw [h4] at hm
  obtain ⟨a, u, b, a', b', e1, e2, e3, e4, o, ho, e5, e6, e7, e8, e9⟩ :=
    range_effect (units := impl.enc.units) (rules := infoOf sc)
      (f := fun r t => redacted sc.fp (infoOf sc r).action t) (rm := sc.returnMatches) (path := l.path) (m := m)
      [] [] tail (by simpa using hm)
  refine ⟨a, u, b, a', b', m.rule, by rw [h3]; simpa using e1, by omega, by omega, hmr, by rw [h7, h6]; simpa using e4,
    o, ?_, e6, e5, e7⟩
  rw [← h5] at ho
  exact List.mem_flatMap.2 ⟨l, hl, ho⟩

/-! ## Witness and example -/

private def fld (s : String) : Seg := .field s.toList

private def fs : List (String × Ev) → Fields
  | [] => .nil
  | (k, v) :: r => .cons k.toList v (fs r)

private def fp : Fingerprint := ⟨fun s => s.length, fun s => s.length⟩

private def regexRule (rx : Rx) (a : Action) (s : Scope) : CRule :=
  RegexRule.toCRule ⟨rx, none, none, none⟩ ⟨a, false⟩ s false (fun c => blen c + 1)

/-- A regex matching exactly this text. -/
def textRx (t : Str) : Rx := fun c p =>
  match cut c p with
  | none => none
  | some (_, b) => if (b.take t.length) = t then some (p + blen t) else none

theorem textRx_ok (t : Str) (ht : t ≠ []) : LawfulRx (textRx t) ∧ NonEmptyRx (textRx t) := by
  have key : ∀ c p e, textRx t c p = some e → p < e ∧ OnBoundary c p ∧ OnBoundary c e := by
    intro c p e h
    unfold textRx at h
    split at h
    · cases h
    · next a b hc =>
      obtain ⟨rfl, rfl⟩ := cut_eq_some.1 hc
      split at h
      · next htk =>
        simp only [Option.some.injEq] at h
        subst h
        have := blen_pos ht
        refine ⟨by omega, ⟨a, b, rfl, rfl⟩, a ++ t, b.drop t.length, ?_, by simp⟩
        have hb : b = t ++ b.drop t.length := by
          conv => lhs; rw [← List.take_append_drop t.length b, htk]
        rw [List.append_assoc, ← hb]
      · cases h
  exact ⟨fun c p e h => by have := key c p e h; exact ⟨by omega, this.2⟩, fun c p e h => (key c p e h).1⟩

/-- C63, finding: two redacting rules, one for `a@b`, one for `b:c`.  In `{n: "a@b:c"}` both match; only the first
match is redacted and the part `:c` of the second secret stays in the event. -/
theorem C63_overlap_leaks :
    let sc : Scanner := ⟨[regexRule (textRx "a@b".toList) (.redact "#".toList) (.excl []),
      regexRule (textRx "b:c".toList) (.redact "#".toList) (.excl [])], false, false, true, fp⟩
    Genuine ⟨textRx "b:c".toList, none, none, none⟩ "a@b:c".toList 2 5 ∧
    (scan jsonEvent sc (.map (fs [("n", .str "a@b:c".toList)])) []).map
        (fun r => ((r.1.leaves false).map (·.text), r.2.map (·.rule))) =
      Res.ok (["#:c".toList], [0]) := by
  refine ⟨⟨⟨by decide, by intro v hv; cases hv⟩, by intro x hx; cases hx⟩, by decide +kernel⟩

private def exScanner : Scanner := ⟨[regexRule (textRx "a@b".toList) (.redact "#".toList) (.excl [[fld "id"]]),
  regexRule (textRx "@".toList) .none (.excl [])], false, false, true, fp⟩

private def exEv : Ev := .map (fs [("n", .str "x a@b".toList), ("id", .str "a@b".toList)])

private theorem exScanner_ok : ScannerOk exScanner := by
  intro rule h
  simp only [exScanner, List.mem_cons, List.not_mem_nil, or_false] at h
  rcases h with rfl | rfl
  · exact regexRule_ok (textRx_ok _ (by simp)).1 (textRx_ok _ (by simp)).2 (by intro k hk; cases hk)
      (by intro c; omega) (by simp) _ false
  · exact regexRule_ok (textRx_ok _ (by simp)).1 (textRx_ok _ (by simp)).2 (by intro k hk; cases hk)
      (by intro c; omega) (by simp) _ false

private theorem ex_scannable : Scannable WellKeyed (Ev.leaves false) exScanner [] exEv where
  wf := by simp [exEv, fs, WellKeyed, WellKeyedFields, keys]
  returns := by
    intro rule h l _ ex
    simp only [exScanner, List.mem_cons, List.not_mem_nil, or_false] at h
    rcases h with rfl | rfl
    · exact stringMatches_returns (r := ⟨textRx _, none, none, none⟩) (textRx_ok _ (by simp)).1 (textRx_ok _ (by simp)).2
        (by intro k hk; cases hk) false ex (by intro _ x hx; cases hx) l.path (Nat.lt_succ_self _)
    · exact stringMatches_returns (r := ⟨textRx _, none, none, none⟩) (textRx_ok _ (by simp)).1 (textRx_ok _ (by simp)).2
        (by intro k hk; cases hk) false ex (by intro _ x hx; cases hx) l.path (Nat.lt_succ_self _)
  strings := by
    intro l hl hf
    have hall : ∀ l ∈ Ev.leaves false exEv, l.fixed = false := by decide +kernel
    rw [hall l hl] at hf
    cases hf

/-- The hypotheses are met: the redacting rule scans `n` but not `id`, and the detect-only rule overlaps its match. -/
example : LawfulEvent jsonEvent WellKeyed (Ev.leaves false) rewrite ∧ ScannerOk exScanner ∧
    Scannable WellKeyed (Ev.leaves false) exScanner [] exEv ∧
    Genuine ⟨textRx "a@b".toList, none, none, none⟩ "x a@b".toList 2 5 ∧
    (scan jsonEvent exScanner exEv []).map (fun r => ((r.1.leaves false).map (·.text), r.2.map (fun o => (o.rule, o.start)))) =
      Res.ok (["x #".toList, "a@b".toList], [(0, 2), (1, 1)]) :=
  ⟨jsonEvent_lawful, exScanner_ok, ex_scannable, ⟨⟨by decide, by intro v hv; cases hv⟩, by intro x hx; cases hx⟩,
    by decide +kernel⟩

end Sds.Props
