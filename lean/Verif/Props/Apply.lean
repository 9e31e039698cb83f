import Verif.Lemmas.Apply

/-! # C04-C08: what redaction does to one string -/

namespace Sds.Props
open Sds Spec

/-- Rules of the concrete cases: a placeholder, a partial redaction, a detect-only rule, a hash. -/
private def exRules : List RuleInfo :=
  [⟨.redact "[X]".toList, false⟩, ⟨.partialLast 2, true⟩, ⟨.none, false⟩, ⟨.hash, false⟩]
private def exText : Str := "id=é12 key=😊😊😊 mail=ab".toList
private def exMatches : List M := [⟨0, 3, 7⟩, ⟨1, 12, 24⟩, ⟨2, 25, 29⟩]
private def exFp : Fingerprint := ⟨fun s => s.length * 1000, fun s => s.length⟩

private theorem exValid : ValidRanges exText exMatches ∧ ValidRules exRules exMatches := by
  refine ⟨⟨?_, by decide⟩, ?_⟩
  · intro m hm
    have : ∀ m ∈ exMatches, m.st ≤ m.en ∧ isBoundary exText m.st = true ∧
      isBoundary exText m.en = true := by decide
    obtain ⟨a, b, c⟩ := this m hm
    exact ⟨a, isBoundary_iff.1 b, isBoundary_iff.1 c⟩
  · intro m hm
    simp only [exMatches, List.mem_cons, List.not_mem_nil, or_false] at hm
    rcases hm with rfl | rfl | rfl
    · exact ⟨⟨.redact "[X]".toList, false⟩, rfl, by decide, by decide⟩
    · exact ⟨⟨.partialLast 2, true⟩, rfl, by decide, by decide⟩
    · exact ⟨⟨.none, false⟩, rfl, by decide, by decide⟩

/-- C04: the string after the actions is the input string with the text of every match, and nothing else,
rewritten by the action of its rule.  Any encoding of indices, any number of matches. -/
theorem C04_redaction_exact (fp : Fingerprint) {enc : Enc} (he : LawfulEnc enc) (rm : Bool)
    (rules : List RuleInfo) (path : Path) (s : Str) (ms : List M)
    (hms : ValidRanges s ms) (hr : ValidRules rules ms) :
    ∃ ps tail os, s = input ps tail ∧ ms = ranges 0 ps ∧
      applyMatchActions fp enc rm rules path s ms =
        Res.ok (os, output (fun r t => redacted fp (ruleAt rules r).action t) ps tail) := by
  obtain ⟨ps, tail, rfl, rfl⟩ := exists_pieces hms
  exact ⟨ps, tail, _, rfl, rfl,
    applyMatchActions_spec fp he rm rules (ruleAt rules) path tail ps (rulesOk_of_valid hr)⟩

example : ValidRanges exText exMatches ∧ ValidRules exRules exMatches ∧
    (applyMatchActions exFp Enc.utf8 true exRules [] exText exMatches).map (fun r => r.2) =
      Res.ok ("id=[X] key=😊** mail=ab".toList) :=
  ⟨exValid.1, exValid.2, by decide⟩

/-- C05: every report points at the rewritten text of its match in the output string (in the code units of
the encoding), and `shift` is the distance between the end of the match in the input and in the output. -/
theorem C05_indices_point_to_replacement (fp : Fingerprint) {enc : Enc} (he : LawfulEnc enc) (rm : Bool)
    (rules : List RuleInfo) (path : Path) (s : Str) (ms : List M)
    (hms : ValidRanges s ms) (hr : ValidRules rules ms) (os : List RuleMatch) (out : Str)
    (h : applyMatchActions fp enc rm rules path s ms = Res.ok (os, out)) :
    os.length = ms.length ∧
    ∀ (i : Nat) (m : M) (o : RuleMatch), ms[i]? = some m → os[i]? = some o →
      ReportOk enc rm path fp (ruleAt rules m.rule) s out m o := by
  obtain ⟨ps, tail, rfl, rfl⟩ := exists_pieces hms
  rw [applyMatchActions_spec fp he rm rules (ruleAt rules) path tail ps (rulesOk_of_valid hr)] at h
  simp only [Res.ok.injEq, Prod.mk.injEq] at h
  obtain ⟨rfl, rfl⟩ := h
  refine ⟨reports_length _ _ _ _ _ _ _ _ _, fun i m o hm ho => ?_⟩
  have := reports_ok enc rm path fp (ruleAt rules) tail ps [] [] i m o (by simpa using hm) ho
  simpa using this

/-- C05 for byte indices: slicing the output at the reported range gives the rewritten match, and `shift`
is the difference of the byte offsets of the ends. -/
theorem C05_byte_indices (fp : Fingerprint) (rm : Bool) (rules : List RuleInfo) (path : Path) (s : Str)
    (ms : List M) (hms : ValidRanges s ms) (hr : ValidRules rules ms) (os : List RuleMatch) (out : Str)
    (h : applyMatchActions fp Enc.utf8 rm rules path s ms = Res.ok (os, out)) :
    ∀ (i : Nat) (m : M) (o : RuleMatch), ms[i]? = some m → os[i]? = some o →
      ∃ t, slice s m.st m.en = some t ∧
        slice out o.start o.stop = some (redacted fp (ruleAt rules m.rule).action t) ∧
        o.shift = (o.stop : Int) - m.en ∧ o.rule = m.rule ∧ o.path = path := by
  intro i m o hm ho
  obtain ⟨pi, t, qi, po, qo, h1, h2, h3, h4, h5⟩ :=
    (C05_indices_point_to_replacement fp lawful_utf8 rm rules path s ms hms hr os out h).2 i m o hm ho
  subst h1 h4 h5
  refine ⟨t, ?_, ?_, ?_, rfl, rfl⟩
  · rw [← h2, ← h3, blen_append]; exact slice_append pi t qi
  · simp only [Enc.utf8, blen_append]; exact slice_append po _ qo
  · simp only [Enc.utf8]; rw [h3]

example : (applyMatchActions exFp Enc.utf8 true exRules [] exText exMatches).map (fun r => r.1.map (fun o => (o.start, o.stop, o.shift))) =
      Res.ok ([(3, 6, -1), (11, 17, -7), (18, 22, -7)]) := by decide

/-- C06: conflict resolution followed by the actions never panics, whatever non-empty candidates on
character boundaries and whatever validated actions. -/
theorem C06_no_panic (fp : Fingerprint) {enc : Enc} (he : LawfulEnc enc) (rm : Bool)
    (rules : List RuleInfo) (redacts : Nat → Bool) (path : Path) (s : Str) (cands : List M)
    (hb : ∀ m ∈ cands, m.st < m.en ∧ OnBoundary s m.st ∧ OnBoundary s m.en)
    (hr : ValidRules rules cands) :
    ∃ os out, applyMatchActions fp enc rm rules path s (resolve redacts cands) = Res.ok (os, out) := by
  have hsub := (resolveWith_isResolution (sortsBy_prio redacts) sortsBy_start cands
    (fun m hm => (hb m hm).1)).1
  obtain ⟨_, d1, d2, _⟩ := resolveWith_spec (sortsBy_prio redacts) sortsBy_start cands
    (fun m hm => Nat.le_of_lt (hb m hm).1)
  have hv : ValidRanges s (resolve redacts cands) :=
    ⟨fun m hm => let h := hb m (hsub m hm); ⟨Nat.le_of_lt h.1, h.2⟩,
     ordered_of_disjoint (fun m hm => (hb m (hsub m hm)).1) d1 d2⟩
  obtain ⟨ps, tail, os, _, _, h⟩ := C04_redaction_exact fp he rm rules path s _ hv
    (fun m hm => hr m (hsub m hm))
  exact ⟨os, _, h⟩

example : ∃ cands : List M, cands.length = 4 ∧ ValidRules exRules cands ∧
    (∀ m ∈ cands, m.st < m.en ∧ OnBoundary exText m.st ∧ OnBoundary exText m.en) := by
  refine ⟨⟨0, 5, 7⟩ :: exMatches, rfl, ?_, ?_⟩
  · intro m hm
    rcases List.mem_cons.1 hm with rfl | hm
    · exact ⟨⟨.redact "[X]".toList, false⟩, rfl, by decide, by decide⟩
    · exact exValid.2 m hm
  · intro m hm
    have : ∀ m ∈ (⟨0, 5, 7⟩ : M) :: exMatches, m.st < m.en ∧ isBoundary exText m.st = true ∧
      isBoundary exText m.en = true := by decide
    obtain ⟨a, b, c⟩ := this m hm
    exact ⟨a, isBoundary_iff.1 b, isBoundary_iff.1 c⟩

/-- C06, the hypothesis on actions is needed: an unvalidated zero-character redaction panics. -/
theorem C06_unvalidated_zero_panics (fp : Fingerprint) :
    applyMatchActions fp Enc.utf8 false [⟨.partialLast 0, false⟩] [] "ab".toList [⟨0, 0, 2⟩] =
      Res.panic := rfl

/-- C06, the candidates have to be non-empty: a rule without redaction that reports an empty match (which only
a rule kind outside the repository can do; regex rules do not get this far, see C21) at the start of a redacted
match makes the copy of the matched text panic. -/
theorem C06_empty_match_panics (fp : Fingerprint) :
    applyMatchActions fp Enc.utf8 true [⟨.redact [], false⟩, ⟨.none, false⟩] [] "ab".toList
      (resolve (fun r => r == 0) [⟨0, 0, 2⟩, ⟨1, 0, 0⟩]) = Res.panic := rfl

/-- C07: when match values are returned, the value of each report is the text of the match in the original
string. -/
theorem C07_values_are_original (fp : Fingerprint) {enc : Enc} (he : LawfulEnc enc)
    (rules : List RuleInfo) (path : Path) (s : Str) (ms : List M)
    (hms : ValidRanges s ms) (hr : ValidRules rules ms) (os : List RuleMatch) (out : Str)
    (h : applyMatchActions fp enc true rules path s ms = Res.ok (os, out)) :
    os.map (·.value) = ms.map (fun m => slice s m.st m.en) := by
  obtain ⟨hl, hi⟩ := C05_indices_point_to_replacement fp he true rules path s ms hms hr os out h
  apply List.ext_getElem?
  intro i
  simp only [List.getElem?_map]
  cases hm : ms[i]? with
  | none =>
    have : os[i]? = none := by
      rw [List.getElem?_eq_none_iff] at hm ⊢; omega
    simp [this]
  | some m =>
    have hlt : i < os.length := by
      rw [hl]; exact (List.getElem?_eq_some_iff.1 hm).1
    obtain ⟨pi, t, qi, po, qo, h1, h2, h3, h4, h5⟩ := hi i m os[i] hm (List.getElem?_eq_getElem hlt)
    rw [List.getElem?_eq_getElem hlt, h5]
    have : slice s m.st m.en = some t := by
      rw [h1, ← h2, ← h3, blen_append]; exact slice_append pi t qi
    simp [this]

example : (applyMatchActions exFp Enc.utf8 true exRules [] exText exMatches).map (fun r => r.1.map (·.value)) =
      Res.ok ([some "é12".toList, some "😊😊😊".toList, some "mail".toList]) := by decide

/-- C08, first characters: for every text and `n ≥ 1` the replacement exists and turns `t` into `n` asterisks
followed by the characters of `t` after the first `n`. -/
theorem C08_partial_first (fp : Fingerprint) (n : Nat) (hn : 1 ≤ n) (t : Str) :
    ∃ r, (Action.partialFirst n).getReplacement fp t = Res.ok (some r) ∧
      Edits t r (List.replicate n '*' ++ t.drop n) := by
  obtain ⟨p, b, q, r, h1, h2, h3⟩ := getReplacement_spec fp (.partialFirst n)
    (by simp [Action.validate]; omega) rfl t
  exact ⟨_, h2, p, b, q, h1, rfl, rfl, h3⟩

/-- C08, last characters: the text becomes its characters before the last `n` followed by `n` asterisks. -/
theorem C08_partial_last (fp : Fingerprint) (n : Nat) (hn : 1 ≤ n) (t : Str) :
    ∃ r, (Action.partialLast n).getReplacement fp t = Res.ok (some r) ∧
      Edits t r (t.take (t.length - n) ++ List.replicate n '*') := by
  obtain ⟨p, b, q, r, h1, h2, h3⟩ := getReplacement_spec fp (.partialLast n)
    (by simp [Action.validate]; omega) rfl t
  exact ⟨_, h2, p, b, q, h1, rfl, rfl, h3⟩

/-- C08: the characters of the match that should be hidden do not survive: in a match longer than `n`, the
kept part is exactly the other characters, and in a shorter one nothing is kept. -/
theorem C08_nothing_kept_of_short (fp : Fingerprint) (n : Nat) (t : Str) (h : t.length ≤ n) :
    redacted fp (.partialFirst n) t = List.replicate n '*' ∧
    redacted fp (.partialLast n) t = List.replicate n '*' := by
  have : t.length - n = 0 := by omega
  simp [redacted, List.drop_eq_nil_of_le h, this]

example : (Action.partialLast 2).getReplacement exFp "a😊é".toList =
    Res.ok (some ⟨1, 7, "**".toList⟩) := by decide

end Sds.Props
