import Verif.Lemmas.Str
import Verif.Lemmas.Overlap
import Verif.Spec.Apply

/-! Lemmas for the application of match actions. -/

namespace Sds
open Spec

theorem toUsize_ofNat (n : Nat) : toUsize (n : Int) = Res.ok n := by
  simp [toUsize]

theorem toUsize_eq {i : Int} {n : Nat} (h : i = n) : toUsize i = Res.ok n := by
  subst h; exact toUsize_ofNat n

/-- `get_replacement` of a validated, mutating action never panics and rewrites as specified. -/
theorem getReplacement_spec (fp : Fingerprint) (a : Action) (hv : a.validate = true)
    (hm : a.isMutating = true) (t : Str) :
    ∃ p b q r, t = p ++ b ++ q ∧ a.getReplacement fp t = Res.ok (some ⟨blen p, blen p + blen b, r⟩) ∧
      redacted fp a t = p ++ r ++ q := by
  cases a with
  | none => simp [Action.isMutating] at hm
  | redact r =>
    exact ⟨[], t, [], r, by simp, by simp [Action.getReplacement], by simp [redacted]⟩
  | hash =>
    exact ⟨[], t, [], _, by simp, by simp [Action.getReplacement]; rfl, by simp [redacted, hexLower]⟩
  | utf16Hash =>
    exact ⟨[], t, [], _, by simp, by simp [Action.getReplacement]; rfl, by simp [redacted, hexLower]⟩
  | partialFirst n =>
    by_cases h : t.length > n
    · refine ⟨[], t.take n, t.drop n, stars n, by simp, ?_, by simp [redacted, stars]⟩
      simp [Action.getReplacement, partialRedactionFirst, h, nthIdx_eq]
    · refine ⟨[], t, [], stars n, by simp, ?_, ?_⟩
      · simp [Action.getReplacement, partialRedactionFirst, h]
      · simp [redacted, stars, List.drop_eq_nil_of_le (Nat.le_of_not_lt h)]
  | partialLast n =>
    by_cases h : t.length > n
    · have hn : n ≠ 0 := by simpa [Action.validate] using hv
      have hb : blen (t.take (t.length - n)) + blen (t.drop (t.length - n)) = blen t := by
        rw [← blen_append, List.take_append_drop]
      refine ⟨t.take (t.length - n), t.drop (t.length - n), [], stars n, by simp, ?_,
        by simp [redacted, stars]⟩
      have h1 : n - 1 < t.length := by omega
      have h2 : t.length - 1 - (n - 1) = t.length - n := by omega
      simp [Action.getReplacement, partialRedactionLast, h, hn, nthBackIdx_eq, h1, h2, hb]
    · refine ⟨[], t, [], stars n, by simp, ?_, ?_⟩
      · simp [Action.getReplacement, partialRedactionLast, h]
      · have : t.length - n = 0 := by omega
        simp [redacted, stars, this]

/-- Validated rules list in which every piece's rule exists. -/
def RulesOk (rules : List RuleInfo) (f : Nat → RuleInfo) (ps : List Piece) : Prop :=
  ∀ p ∈ ps, rules[p.rule]? = some (f p.rule) ∧ (f p.rule).action.validate = true

theorem units_nil {enc : Enc} (h : LawfulEnc enc) : enc.units [] = 0 := by
  have := h.units_append [] []
  simp at this; omega

theorem lawful_utf8 : LawfulEnc Enc.utf8 := ⟨blen_append, fun _ _ => rfl⟩

theorem replacementType_eq (a : Action) : a.replacementType = kindOf a := by cases a <;> rfl

theorem applyOne_spec (fp : Fingerprint) {enc : Enc} (he : LawfulEnc enc) (rm : Bool)
    (rules : List RuleInfo) (f : Nat → RuleInfo) (path : Path) (inn out : Str) (p : Piece) (rest : Str)
    (hr : rules[p.rule]? = some (f p.rule)) (hv : (f p.rule).action.validate = true) :
    applyOne fp enc rm rules path (inn ++ (p.gap ++ p.text ++ rest))
      ⟨p.rule, blen inn + blen p.gap, blen inn + blen p.gap + blen p.text⟩
      ⟨out ++ (p.gap ++ p.text ++ rest), (blen out : Int) - blen inn,
        (enc.units out : Int) - enc.units inn⟩ =
    Res.ok (
      { rule := p.rule, path := path, rtype := kindOf (f p.rule).action,
        start := enc.units (out ++ p.gap),
        stop := enc.units (out ++ p.gap ++ redacted fp (f p.rule).action p.text),
        shift := (enc.units (out ++ p.gap ++ redacted fp (f p.rule).action p.text) : Int) -
          enc.units (inn ++ p.gap ++ p.text),
        value := if rm then some p.text else none,
        status := if (f p.rule).hasValidation then .notChecked else .notAvailable },
      ⟨out ++ p.gap ++ redacted fp (f p.rule).action p.text ++ rest,
        (blen (out ++ p.gap ++ redacted fp (f p.rule).action p.text) : Int) -
          blen (inn ++ p.gap ++ p.text),
        (enc.units (out ++ p.gap ++ redacted fp (f p.rule).action p.text) : Int) -
          enc.units (inn ++ p.gap ++ p.text)⟩) := by
  have i1 : enc.idx (inn ++ (p.gap ++ p.text ++ rest)) (blen inn + blen p.gap) =
      enc.units inn + enc.units p.gap := by
    have := he.idx_prefix (inn ++ p.gap) (p.text ++ rest)
    simpa [he.units_append] using this
  have i2 : enc.idx (inn ++ (p.gap ++ p.text ++ rest)) (blen inn + blen p.gap + blen p.text) =
      enc.units inn + enc.units p.gap + enc.units p.text := by
    have := he.idx_prefix (inn ++ p.gap ++ p.text) rest
    simpa [he.units_append, Nat.add_assoc] using this
  have u1 : toUsize (((enc.units inn + enc.units p.gap : Nat) : Int) +
      ((enc.units out : Int) - enc.units inn)) = Res.ok (enc.units out + enc.units p.gap) :=
    toUsize_eq (by omega)
  have u2 : toUsize (((blen inn + blen p.gap : Nat) : Int) + ((blen out : Int) - blen inn)) =
      Res.ok (blen (out ++ p.gap)) := toUsize_eq (by rw [blen_append]; omega)
  have u3 : toUsize (((blen inn + blen p.gap + blen p.text : Nat) : Int) +
      ((blen out : Int) - blen inn)) =
      Res.ok (blen (out ++ p.gap) + blen p.text) := toUsize_eq (by rw [blen_append]; omega)
  have s1 : slice (out ++ (p.gap ++ p.text ++ rest)) (blen (out ++ p.gap))
      (blen (out ++ p.gap) + blen p.text) = some p.text := by
    have := slice_append (out ++ p.gap) p.text rest
    simpa using this
  have v : matchValue rm ⟨p.rule, blen inn + blen p.gap, blen inn + blen p.gap + blen p.text⟩
      ⟨out ++ (p.gap ++ p.text ++ rest), (blen out : Int) - blen inn,
        (enc.units out : Int) - enc.units inn⟩ = Res.ok (if rm = true then some p.text else none) := by
    unfold matchValue
    cases rm
    · rfl
    · simp only [if_true, u2, u3, Res.bind_ok, s1, Res.ofOption_some, Res.pure_eq]
  have hmut : applyMutation fp enc (f p.rule).action
      ⟨p.rule, blen inn + blen p.gap, blen inn + blen p.gap + blen p.text⟩
      ⟨out ++ (p.gap ++ p.text ++ rest), (blen out : Int) - blen inn,
        (enc.units out : Int) - enc.units inn⟩ =
      Res.ok ⟨out ++ p.gap ++ redacted fp (f p.rule).action p.text ++ rest,
        (blen (out ++ p.gap ++ redacted fp (f p.rule).action p.text) : Int) -
          blen (inn ++ p.gap ++ p.text),
        (enc.units (out ++ p.gap ++ redacted fp (f p.rule).action p.text) : Int) -
          enc.units (inn ++ p.gap ++ p.text)⟩ := by
    unfold applyMutation
    by_cases hm : (f p.rule).action.isMutating = true
    · obtain ⟨a, b, c, r, ht, hg, hred⟩ := getReplacement_spec fp _ hv hm p.text
      rw [if_pos hm]
      simp only [u2, u3, Res.bind_ok, s1, Res.ofOption_some, hg]
      have s2 : slice p.text (blen a) (blen a + blen b) = some b := by
        rw [ht]; exact slice_append a b c
      have s3 : replaceRange (out ++ (p.gap ++ p.text ++ rest)) (blen (out ++ p.gap) + blen a)
          (blen (out ++ p.gap) + (blen a + blen b)) r =
          some (out ++ p.gap ++ (a ++ r ++ c) ++ rest) := by
        have := replaceRange_append (out ++ p.gap ++ a) b (c ++ rest) r
        rw [ht]
        simpa [Nat.add_assoc] using this
      simp only [s2, s3, Res.ofOption_some, Res.bind_ok, Res.pure_eq, hred, Res.ok.injEq,
        ApplyState.mk.injEq, true_and]
      rw [ht]
      simp only [blen_append, he.units_append]
      omega
    · have hnone : (f p.rule).action = .none := by
        cases h : (f p.rule).action <;> simp [h, Action.isMutating] at hm ⊢
      rw [if_neg hm, hnone]
      simp only [redacted, blen_append, he.units_append, Res.pure_eq, Res.ok.injEq,
        ApplyState.mk.injEq, List.append_assoc, true_and]
      omega
  unfold applyOne
  have u4 : toUsize (((enc.units inn + enc.units p.gap + enc.units p.text : Nat) : Int) +
      ((enc.units (out ++ p.gap ++ redacted fp (f p.rule).action p.text) : Int) -
          enc.units (inn ++ p.gap ++ p.text))) =
      Res.ok (enc.units (out ++ p.gap ++ redacted fp (f p.rule).action p.text)) :=
    toUsize_eq (by simp only [he.units_append]; omega)
  simp only [hr, Res.ofOption_some, Res.bind_ok, i1, u1, v, hmut, i2, u4, replacementType_eq]
  simp [he.units_append]

theorem applyLoop_spec (fp : Fingerprint) {enc : Enc} (he : LawfulEnc enc) (rm : Bool)
    (rules : List RuleInfo) (f : Nat → RuleInfo) (path : Path) (tail : Str) (ps : List Piece) :
    ∀ (inn out : Str), RulesOk rules f ps →
    applyLoop fp enc rm rules path (inn ++ input ps tail) (ranges (blen inn) ps)
      ⟨out ++ input ps tail, (blen out : Int) - blen inn, (enc.units out : Int) - enc.units inn⟩ =
    Res.ok (reports enc.units f (fun r t => redacted fp (f r).action t) rm path inn out ps,
      ⟨out ++ output (fun r t => redacted fp (f r).action t) ps tail,
       (blen (out ++ output (fun r t => redacted fp (f r).action t) ps []) : Int) -
          blen (inn ++ input ps []),
       (enc.units (out ++ output (fun r t => redacted fp (f r).action t) ps []) : Int) -
          enc.units (inn ++ input ps [])⟩) := by
  induction ps with
  | nil =>
    intro inn out _
    simp [applyLoop, ranges, input, output, reports]
  | cons p ps ih =>
    intro inn out hr
    have hp := hr p List.mem_cons_self
    have h1 := applyOne_spec fp he rm rules f path inn out p (input ps tail) hp.1 hp.2
    have h2 := ih (inn ++ p.gap ++ p.text) (out ++ p.gap ++ redacted fp (f p.rule).action p.text)
      (fun q hq => hr q (List.mem_cons_of_mem _ hq))
    simp only [input, ranges, applyLoop, h1, Res.bind_ok]
    have e : blen inn + blen p.gap + blen p.text = blen (inn ++ p.gap ++ p.text) := by
      simp only [blen_append]
    have e2 : inn ++ (p.gap ++ p.text ++ input ps tail) = inn ++ p.gap ++ p.text ++ input ps tail := by
      simp
    rw [e, e2, h2]
    simp [reports, output]

theorem applyMatchActions_spec (fp : Fingerprint) {enc : Enc} (he : LawfulEnc enc) (rm : Bool)
    (rules : List RuleInfo) (f : Nat → RuleInfo) (path : Path) (tail : Str) (ps : List Piece)
    (hr : RulesOk rules f ps) :
    applyMatchActions fp enc rm rules path (input ps tail) (ranges 0 ps) =
      Res.ok (reports enc.units f (fun r t => redacted fp (f r).action t) rm path [] [] ps, output (fun r t => redacted fp (f r).action t) ps tail) := by
  have := applyLoop_spec fp he rm rules f path tail ps [] [] hr
  simp only [blen_nil, List.nil_append, units_nil he, Int.sub_self] at this
  unfold applyMatchActions
  rw [this]
  rfl

theorem reports_ok (enc : Enc) (rm : Bool) (path : Path) (fp : Fingerprint) (f : Nat → RuleInfo)
    (tail : Str) (ps : List Piece) : ∀ (inn out : Str) (i : Nat) (m : M) (o : RuleMatch),
    (ranges (blen inn) ps)[i]? = some m →
    (reports enc.units f (fun r t => redacted fp (f r).action t) rm path inn out ps)[i]? = some o →
    ReportOk enc rm path fp (f m.rule) (inn ++ input ps tail)
      (out ++ output (fun r t => redacted fp (f r).action t) ps tail) m o := by
  induction ps with
  | nil => intro inn out i m o h; simp [ranges] at h
  | cons p ps ih =>
    intro inn out i m o hm ho
    cases i with
    | zero =>
      simp only [ranges, List.getElem?_cons_zero, Option.some.injEq] at hm
      simp only [reports, List.getElem?_cons_zero, Option.some.injEq] at ho
      subst hm ho
      refine ⟨inn ++ p.gap, p.text, input ps tail, out ++ p.gap,
        output (fun r t => redacted fp (f r).action t) ps tail, ?_, ?_, ?_, ?_, ?_⟩
      · simp [input]
      · simp
      · simp; omega
      · simp [output]
      · simp
    | succ i =>
      simp only [ranges, List.getElem?_cons_succ] at hm
      simp only [reports, List.getElem?_cons_succ] at ho
      have e : blen inn + blen p.gap + blen p.text = blen (inn ++ p.gap ++ p.text) := by
        simp only [blen_append]
      rw [e] at hm
      have := ih _ _ i m o hm ho
      simpa [input, output] using this

theorem reports_length (units : Str → Nat) (rm : Bool) (path : Path) (f : Nat → RuleInfo)
    (g : Nat → Str → Str) (ps : List Piece) (inn out : Str) (o : Nat) :
    (reports units f g rm path inn out ps).length = (ranges o ps).length := by
  induction ps generalizing inn out o with
  | nil => rfl
  | cons p ps ih => simp only [reports, ranges, List.length_cons]; rw [ih]

/-- A list of ranges on character boundaries, in order and disjoint, cuts the string into pieces. -/
theorem exists_pieces_from (ms : List M) : ∀ (o : Nat) (s : Str),
    (∀ m ∈ ms, o ≤ m.st ∧ m.st ≤ m.en ∧ isBoundary s (m.st - o) = true ∧
      isBoundary s (m.en - o) = true) →
    ms.Pairwise (fun a b => a.en ≤ b.st) →
    ∃ ps tail, s = input ps tail ∧ ms = ranges o ps := by
  induction ms with
  | nil => intro o s _ _; exact ⟨[], s, rfl, rfl⟩
  | cons m ms ih =>
    intro o s hb hp
    obtain ⟨hp1, hp2⟩ := List.pairwise_cons.1 hp
    obtain ⟨h1, h2, h3, h4⟩ := hb m List.mem_cons_self
    obtain ⟨a, b, rfl, ha⟩ := isBoundary_iff.1 h3
    obtain ⟨c, d, hcd, hc⟩ := isBoundary_iff.1 h4
    obtain ⟨t, rfl, rfl⟩ := prefix_split hcd (by omega)
    have hlen : blen a + blen t = m.en - o := by rw [← hc, blen_append]
    obtain ⟨ps, tail, rfl, rfl⟩ := ih m.en d (by
      intro x hx
      obtain ⟨g1, g2, g3, g4⟩ := hb x (List.mem_cons_of_mem _ hx)
      have hge := hp1 x hx
      have key : ∀ n, m.en ≤ n → isBoundary (a ++ (t ++ d)) (n - o) = true →
          isBoundary d (n - m.en) = true := by
        intro n hn hbn
        obtain ⟨u, v, huv, hu⟩ := isBoundary_iff.1 hbn
        rw [← List.append_assoc] at huv
        obtain ⟨w, hw, hd⟩ := prefix_split huv (by rw [blen_append]; omega)
        refine isBoundary_iff.2 ⟨w, v, hd, ?_⟩
        have : blen u = blen a + blen t + blen w := by rw [hw]; simp; omega
        omega
      exact ⟨hge, g2, key _ hge g3, key _ (by omega) g4⟩) hp2
    refine ⟨⟨a, t, m.rule⟩ :: ps, tail, by simp [input], ?_⟩
    have e1 : o + blen a = m.st := by omega
    have e2 : o + blen a + blen t = m.en := by omega
    simp [ranges, e1]
    have e3 : m.st + blen t = m.en := by omega
    rw [e3]
    exact ⟨rfl, rfl⟩

theorem exists_pieces {s : Str} {ms : List M} (h : ValidRanges s ms) :
    ∃ ps tail, s = input ps tail ∧ ms = ranges 0 ps := by
  refine exists_pieces_from ms 0 s (fun m hm => ?_) h.2
  obtain ⟨h1, h2, h3⟩ := h.1 m hm
  exact ⟨Nat.zero_le _, h1, isBoundary_iff.2 h2, isBoundary_iff.2 h3⟩

/-- The rule of an index, for indices known to exist. -/
def ruleAt (rules : List RuleInfo) (i : Nat) : RuleInfo := (rules[i]?).getD ⟨.none, false⟩

theorem ruleAt_eq {rules : List RuleInfo} {i : Nat} {r : RuleInfo} (h : rules[i]? = some r) :
    ruleAt rules i = r := by simp [ruleAt, h]

theorem validate_of_ne {a : Action} (h1 : a ≠ .partialFirst 0) (h2 : a ≠ .partialLast 0) :
    a.validate = true := by
  cases a <;> simp [Action.validate] at *
  · exact h1
  · exact h2

theorem mem_ranges {ps : List Piece} {p : Piece} (hp : p ∈ ps) (o : Nat) :
    ∃ m ∈ ranges o ps, m.rule = p.rule := by
  induction ps generalizing o with
  | nil => cases hp
  | cons q ps ih =>
    rcases List.mem_cons.1 hp with rfl | hp
    · exact ⟨_, List.mem_cons_self, rfl⟩
    · obtain ⟨m, hm, h⟩ := ih hp (o + blen q.gap + blen q.text)
      exact ⟨m, List.mem_cons_of_mem _ hm, h⟩

theorem rulesOk_of_valid {rules : List RuleInfo} {ps : List Piece}
    (h : ValidRules rules (ranges 0 ps)) : RulesOk rules (ruleAt rules) ps := by
  intro p hp
  obtain ⟨m, hm, he⟩ := mem_ranges hp 0
  obtain ⟨r, h1, h2, h3⟩ := h m hm
  rw [he] at h1
  rw [ruleAt_eq h1]
  exact ⟨h1, validate_of_ne h2 h3⟩

end Sds
