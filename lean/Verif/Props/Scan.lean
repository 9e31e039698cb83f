import Verif.Lemmas.Scan
import Verif.Lemmas.RegexRule
import Verif.Props.Search

/-! # C09, C10, C17, C18, C22, C56: scanning an event

`E` is any type of events with lawful traversal and editing; `Lemmas/Event.lean` shows this for strings, simple
events, JSON values and maps of JSON values. -/

namespace Sds.Props
open Sds Spec

/-! ## A concrete scanner and event -/

private def fld (s : String) : Seg := .field s.toList

private def fs : List (String × Ev) → Fields
  | [] => .nil
  | (k, v) :: r => .cons k.toList v (fs r)

private def fp : Fingerprint := ⟨fun s => s.length, fun s => s.length⟩

private def digits (a : Action) (s : Scope) : CRule :=
  RegexRule.toCRule ⟨digitsRx, none, none, none⟩ ⟨a, false⟩ s false (fun c => blen c + 1)

/-- A redacting rule with an excluded field and a detect-only rule. -/
private def exScanner : Scanner :=
  ⟨[digits (.redact "#".toList) (.excl [[fld "id"]]), digits .none (.incl [[fld "n"]] [])], true, true, true, fp⟩

/-- `{n: ["12 7", "x"], id: "7", z: true}` -/
private def exEv : Ev := .map (fs [("n", .list (.cons (.str "12 7".toList) (.cons (.str "x".toList) .nil))),
  ("id", .str "7".toList), ("z", .scalar "true".toList)])

private theorem digits_ok (a : Action) (ha : a ≠ .partialFirst 0 ∧ a ≠ .partialLast 0) (s : Scope) :
    RuleOk (digits a s) :=
  regexRule_ok digitsRx_ok.1 digitsRx_ok.2 (by intro k hk; cases hk) (by intro c; omega) ha s false

private theorem exScanner_ok : ScannerOk exScanner := by
  intro rule h
  simp only [exScanner, List.mem_cons, List.not_mem_nil, or_false] at h
  rcases h with rfl | rfl
  · exact digits_ok _ (by simp) _
  · exact digits_ok _ (by simp) _

private theorem ex_scannable : Scannable WellKeyed (Ev.leaves false) exScanner [] exEv where
  wf := by simp [exEv, fs, WellKeyed, WellKeyedFields, WellKeyedItems, keys]
  returns := by
    intro rule h l _ ex
    simp only [exScanner, List.mem_cons, List.not_mem_nil, or_false] at h
    rcases h with rfl | rfl
    · exact stringMatches_returns (r := ⟨digitsRx, none, none, none⟩) digitsRx_ok.1 digitsRx_ok.2
        (by intro k hk; cases hk) false ex (by intro _ x hx; cases hx) l.path (Nat.lt_succ_self _)
    · exact stringMatches_returns (r := ⟨digitsRx, none, none, none⟩) digitsRx_ok.1 digitsRx_ok.2
        (by intro k hk; cases hk) false ex (by intro _ x hx; cases hx) l.path (Nat.lt_succ_self _)
  strings := by
    intro l hl hf m hm
    have : l = ⟨[fld "z"], "true".toList, true⟩ := by
      have hall : ∀ l ∈ Ev.leaves false exEv, l.fixed = true → l = ⟨[fld "z"], "true".toList, true⟩ := by decide +kernel
      exact hall l hl hf
    subst this
    obtain ⟨rule, f, ha, hf, hmem⟩ := hm
    have h0 : stringMatches ⟨digitsRx, none, none, none⟩ false false "true".toList [fld "z"]
      (blen "true".toList + 1) = Res.ok ⟨[], []⟩ := by decide +kernel
    have hrun : rule.run "true".toList [fld "z"] false = Res.ok ⟨[], []⟩ := by
      have hr := List.mem_of_getElem? ha.2.1
      simp only [exScanner, List.mem_cons, List.not_mem_nil, or_false] at hr
      rcases hr with rfl | rfl <;> exact h0
    simp only at hf
    rw [hrun] at hf
    cases hf
    cases hmem

/-! ## C09, C10 -/

section
variable {E : Type} {impl : EventImpl E} {wf : E → Prop} {leavesOf : E → List Leaf} {rew : (Path → Str → Str) → E → E}

/-- C10: the result of a scan.  The event is the old one with some of its strings rewritten: the shape and the
other values are the same.  The new text of every string, and the reports for it, are those that its own
matches prescribe (`LeafResult`); the reports are listed in the order of the traversal. -/
theorem C10_scan_result (hE : LawfulEvent impl wf leavesOf rew) {sc : Scanner} (hok : ScannerOk sc) (blocked : List Nat)
    (e : E) (h : Scannable wf leavesOf sc blocked e) :
    ∃ (out : Leaf → List RuleMatch × Str) (G : Path → Str → Str),
      scan impl sc e blocked = Res.ok (rew G e, (leavesOf e).flatMap fun l => (out l).1) ∧
      ∀ l ∈ leavesOf e, LeafResult impl.enc sc blocked (leavesOf e) l (out l).1 (out l).2 ∧
        G l.path l.text = (out l).2 := by
  obtain ⟨out, G, h1, h2⟩ := scan_spec hE hok blocked e h.wf h.returns h.strings
  exact ⟨out, G, h2, h1⟩

private theorem output_same {f : Nat → Str → Str} {ps : List Piece} {tail : Str}
    (h : ∀ p ∈ ps, f p.rule p.text = p.text) : output f ps tail = input ps tail := by
  induction ps with
  | nil => rfl
  | cons p ps ih =>
    simp only [output, input]
    rw [h p List.mem_cons_self, ih (fun q hq => h q (List.mem_cons_of_mem _ hq))]

private theorem mem_reports {units : Str → Nat} {rules : Nat → RuleInfo} {f : Nat → Str → Str} {rm : Bool} {path : Path}
    {ps : List Piece} {p : Piece} (hp : p ∈ ps) : ∀ inn out, ∃ o ∈ reports units rules f rm path inn out ps,
      o.rule = p.rule ∧ o.path = path ∧ o.value = if rm then some p.text else none := by
  induction ps with
  | nil => cases hp
  | cons q ps ih =>
    intro inn out
    rcases List.mem_cons.1 hp with rfl | hp
    · exact ⟨_, List.mem_cons_self, rfl, rfl, rfl⟩
    · obtain ⟨o, ho, h⟩ := ih hp (inn ++ q.gap ++ q.text) (out ++ q.gap ++ f q.rule q.text)
      exact ⟨o, List.mem_cons_of_mem _ ho, h⟩

/-- C10: a string changes only if a match of a redacting rule is reported at exactly its path. -/
theorem C10_changed_only_where_redacted (hE : LawfulEvent impl wf leavesOf rew) {sc : Scanner} (hok : ScannerOk sc)
    (blocked : List Nat) (e : E) (h : Scannable wf leavesOf sc blocked e) :
    ∃ (G : Path → Str → Str) (os : List RuleMatch), scan impl sc e blocked = Res.ok (rew G e, os) ∧
      ∀ l ∈ leavesOf e, G l.path l.text ≠ l.text →
        ∃ o ∈ os, o.path = l.path ∧ redacting sc o.rule = true := by
  obtain ⟨out, G, h1, h2⟩ := C10_scan_result hE hok blocked e h
  refine ⟨G, _, h1, fun l hl hch => ?_⟩
  obtain ⟨⟨ks, res, ps, tail, _, _, _, h3, _, h4, h5⟩, h6⟩ := h2 l hl
  have hex : ∃ p ∈ ps, redacting sc p.rule = true := by
    refine Classical.byContradiction (fun hno => hch ?_)
    rw [h6, h5, h3]
    refine output_same (fun p hp => ?_)
    have : (infoOf sc p.rule).action = .none := by
      refine Classical.byContradiction (fun hn => hno ⟨p, hp, ?_⟩)
      simp [redacting, hn]
    simp [this, redacted]
  obtain ⟨p, hp, hr⟩ := hex
  obtain ⟨o, ho, h7, h8, _⟩ := mem_reports (units := impl.enc.units) (rules := infoOf sc)
    (f := fun r t => redacted sc.fp (infoOf sc r).action t) (rm := sc.returnMatches) (path := l.path) hp [] []
  rw [← h4] at ho
  exact ⟨o, List.mem_flatMap.2 ⟨l, hl, ho⟩, h8, by rw [h7]; exact hr⟩

private theorem reports_id {units : Str → Nat} {rules : Nat → RuleInfo} {rm : Bool} {path : Path} (tail : Str)
    {ps : List Piece} {o : RuleMatch} : ∀ inn, o ∈ reports units rules (fun _ t => t) rm path inn inn ps →
      o.shift = 0 ∧ o.path = path ∧ ∃ m ∈ ranges (blen inn) ps, o.rule = m.rule ∧ ∃ a t b,
        inn ++ input ps tail = a ++ t ++ b ∧ blen a = m.st ∧ blen (a ++ t) = m.en ∧
        o.start = units a ∧ o.stop = units (a ++ t) := by
  induction ps with
  | nil => intro inn h; cases h
  | cons q ps ih =>
    intro inn h
    rcases List.mem_cons.1 h with rfl | h
    · refine ⟨by simp, rfl, _, List.mem_cons_self, rfl, inn ++ q.gap, q.text, input ps tail, ?_, ?_, ?_, rfl, rfl⟩
      · simp [input]
      · simp
      · simp; omega
    · obtain ⟨h1, h2, m, hm, h3, a, t, b, h4, h5⟩ := ih _ h
      refine ⟨h1, h2, m, ?_, h3, a, t, b, ?_, h5⟩
      · simp only [blen_append] at hm
        exact List.mem_cons_of_mem _ hm
      · rw [← h4]; simp [input]

/-- C09: a scan with detect-only rules returns the event itself, and every report has shift 0 and the indices
of its match in the original string. -/
theorem C09_detect_only (hE : LawfulEvent impl wf leavesOf rew) {sc : Scanner} (hok : ScannerOk sc)
    (hnone : ∀ rule ∈ sc.rules, rule.info.action = .none) (blocked : List Nat)
    (e : E) (h : Scannable wf leavesOf sc blocked e) :
    ∃ os, scan impl sc e blocked = Res.ok (e, os) ∧ ∀ o ∈ os, o.shift = 0 ∧
      ∃ l ∈ leavesOf e, ∃ m, Candidate sc blocked l.path l.text m ∧ o.rule = m.rule ∧ o.path = l.path ∧ ∃ a t b,
        l.text = a ++ t ++ b ∧ blen a = m.st ∧ blen (a ++ t) = m.en ∧
        o.start = impl.enc.units a ∧ o.stop = impl.enc.units (a ++ t) := by
  obtain ⟨out, G, h1, h2⟩ := C10_scan_result hE hok blocked e h
  have hid : (fun r t => redacted sc.fp (infoOf sc r).action t) = fun _ t => t := by
    funext r t
    have : (infoOf sc r).action = .none := by
      unfold infoOf
      cases hr : sc.rules[r]? with
      | none => rfl
      | some rule => exact hnone rule (List.mem_of_getElem? hr)
    rw [this]
    rfl
  have hrew : rew G e = e := by
    have := hE.rew_congr G (fun _ c => c) e h.wf (fun l hl _ => by
      obtain ⟨⟨ks, res, ps, tail, _, _, _, h3, _, h4, h5⟩, h6⟩ := h2 l hl
      rw [h6, h5, hid, h3]
      exact output_same (fun _ _ => rfl))
    rw [this, hE.rew_id]
  rw [hrew] at h1
  refine ⟨_, h1, fun o ho => ?_⟩
  obtain ⟨l, hl, ho⟩ := List.mem_flatMap.1 ho
  obtain ⟨⟨ks, res, ps, tail, hk, hres, _, h3, h4, h5, _⟩, _⟩ := h2 l hl
  rw [hid] at h5
  rw [h5] at ho
  obtain ⟨h6, h7, m, hm, h8, a, t, b, h9, h10⟩ := reports_id tail [] ho
  have hm' : m ∈ res := by rw [h4]; simpa using hm
  exact ⟨h6, l, hl, m, ((hk m).1 (hres.1 m hm')).1, h8, h7, a, t, b, by rw [h3]; simpa using h9, h10⟩

/-! ## C17 -/

private theorem mem_pieces {ps : List Piece} {m : M} : ∀ (inn tail : Str), m ∈ ranges (blen inn) ps →
    ∃ p ∈ ps, m.rule = p.rule ∧ TextAt (inn ++ input ps tail) m.st m.en p.text := by
  induction ps with
  | nil => intro _ _ h; cases h
  | cons q ps ih =>
    intro inn tail h
    rcases List.mem_cons.1 h with rfl | h
    · exact ⟨q, List.mem_cons_self, rfl, inn ++ q.gap, input ps tail, by simp [input], by simp, by simp⟩
    · have hb : blen inn + blen q.gap + blen q.text = blen (inn ++ q.gap ++ q.text) := by simp; omega
      rw [hb] at h
      obtain ⟨p, hp, h1, h2⟩ := ih (inn ++ q.gap ++ q.text) tail h
      exact ⟨p, List.mem_cons_of_mem _ hp, h1, by simpa [input] using h2⟩

private theorem pieces_mem {ps : List Piece} {p : Piece} (hp : p ∈ ps) : ∀ (inn tail : Str),
    ∃ m ∈ ranges (blen inn) ps, m.rule = p.rule ∧ TextAt (inn ++ input ps tail) m.st m.en p.text := by
  induction ps with
  | nil => cases hp
  | cons q ps ih =>
    intro inn tail
    rcases List.mem_cons.1 hp with rfl | hp
    · exact ⟨_, List.mem_cons_self, rfl, inn ++ p.gap, input ps tail, by simp [input], by simp, by simp⟩
    · have hb : blen inn + blen q.gap + blen q.text = blen (inn ++ q.gap ++ q.text) := by simp; omega
      obtain ⟨m, hm, h1, h2⟩ := ih hp (inn ++ q.gap ++ q.text) tail
      rw [← hb] at hm
      exact ⟨m, List.mem_cons_of_mem _ hm, h1, by simpa [input] using h2⟩

private theorem piece_of_report {units : Str → Nat} {rules : Nat → RuleInfo} {f : Nat → Str → Str} {rm : Bool} {path : Path}
    {ps : List Piece} {o : RuleMatch} : ∀ inn out, o ∈ reports units rules f rm path inn out ps →
      ∃ p ∈ ps, o.rule = p.rule ∧ o.path = path ∧ o.value = (if rm then some p.text else none) := by
  induction ps with
  | nil => intro inn out h; cases h
  | cons q ps ih =>
    intro inn out h
    rcases List.mem_cons.1 h with rfl | h
    · exact ⟨q, List.mem_cons_self, rfl, rfl, rfl⟩
    · obtain ⟨p, hp, h⟩ := ih _ _ h
      exact ⟨p, List.mem_cons_of_mem _ hp, h⟩

/-- Every report comes from a kept candidate of the string at its path. -/
theorem report_is_kept (hE : LawfulEvent impl wf leavesOf rew) {sc : Scanner} (hok : ScannerOk sc)
    (blocked : List Nat) (e : E) (h : Scannable wf leavesOf sc blocked e) :
    ∃ e' os, scan impl sc e blocked = Res.ok (e', os) ∧ ∀ o ∈ os, ∃ l ∈ leavesOf e, ∃ m t,
      o.path = l.path ∧ o.rule = m.rule ∧ TextAt l.text m.st m.en t ∧ o.value = (if sc.returnMatches then some t else none) ∧
      Kept sc blocked (leavesOf e) l.path l.text m := by
  obtain ⟨out, G, h1, h2⟩ := C10_scan_result hE hok blocked e h
  refine ⟨_, _, h1, fun o ho => ?_⟩
  obtain ⟨l, hl, ho⟩ := List.mem_flatMap.1 ho
  obtain ⟨⟨ks, res, ps, tail, hk, hres, _, h3, h4, h5, _⟩, _⟩ := h2 l hl
  rw [h5] at ho
  obtain ⟨p, hp, h6, h7, h8⟩ := piece_of_report _ _ ho
  obtain ⟨m, hm, h9, h10⟩ := pieces_mem hp [] tail
  have hm' : m ∈ res := by rw [h4]; simpa using hm
  exact ⟨l, hl, m, p.text, h7, by rw [h6, h9], by rw [h3]; simpa using h10, h8, (hk m).1 (hres.1 m hm')⟩

/-- C17: with the heuristic on, no match is reported whose text was found in a field excluded for some rule -
wherever this field is in the event. -/
theorem C17_suppressed (hE : LawfulEvent impl wf leavesOf rew) {sc : Scanner} (hok : ScannerOk sc)
    (hon : sc.multipassEnabled = true) (hmp : ∀ rule ∈ sc.rules, rule.multipass = true) (hret : sc.returnMatches = true)
    (blocked : List Nat) (e : E) (h : Scannable wf leavesOf sc blocked e) :
    ∃ e' os, scan impl sc e blocked = Res.ok (e', os) ∧ ∀ o ∈ os, ∃ t, o.value = some t ∧
      ¬ FoundInExcluded sc blocked (leavesOf e) t := by
  obtain ⟨e', os, h1, h2⟩ := report_is_kept hE hok blocked e h
  refine ⟨e', os, h1, fun o ho => ?_⟩
  obtain ⟨l, hl, m, t, _, _, ht, hv, hk⟩ := h2 o ho
  refine ⟨t, by rw [hv, hret]; rfl, fun hf => hk.2 ?_⟩
  obtain ⟨rule, f, ha, _⟩ := hk.1
  exact ⟨hon, rule, t, ha.2.1, hmp rule (List.mem_of_getElem? ha.2.1), ht, hf⟩

/-- C17: nothing else is suppressed: a candidate whose text was not found in an excluded field and that does
not overlap another candidate of its string is reported. -/
theorem C17_nothing_else_suppressed (hE : LawfulEvent impl wf leavesOf rew) {sc : Scanner} (hok : ScannerOk sc)
    (blocked : List Nat) (e : E) (h : Scannable wf leavesOf sc blocked e) :
    ∃ e' os, scan impl sc e blocked = Res.ok (e', os) ∧ ∀ l ∈ leavesOf e, ∀ m t, Candidate sc blocked l.path l.text m →
      TextAt l.text m.st m.en t → ¬ FoundInExcluded sc blocked (leavesOf e) t →
      (∀ m', Candidate sc blocked l.path l.text m' → m' ≠ m → ¬ Overlap m' m) →
      ∃ o ∈ os, o.path = l.path ∧ o.rule = m.rule ∧ o.value = if sc.returnMatches then some t else none := by
  obtain ⟨out, G, h1, h2⟩ := C10_scan_result hE hok blocked e h
  refine ⟨_, _, h1, fun l hl m t hc ht hnf hno => ?_⟩
  obtain ⟨⟨ks, res, ps, tail, hk, hres, _, h3, h4, h5, _⟩, _⟩ := h2 l hl
  have hkept : Kept sc blocked (leavesOf e) l.path l.text m := by
    refine ⟨hc, ?_⟩
    rintro ⟨_, rule, t', _, _, ht', hf⟩
    rw [textAt_unique ht' ht] at hf
    exact hnf hf
  have hm : m ∈ res := by
    rw [hres.2 m ((hk m).2 hkept)]
    rintro ⟨r, hr, hh, ho⟩
    by_cases hrm : r = m
    · subst hrm; exact higher_irrefl hh
    · exact hno r ((hk r).1 (hres.1 r hr)).1 hrm ho
  rw [h4] at hm
  obtain ⟨p, hp, h6, h7⟩ := mem_pieces [] tail (by simpa using hm)
  have : p.text = t := textAt_unique (by rw [h3]; simpa using h7) ht
  obtain ⟨o, ho, h8, h9, h10⟩ := mem_reports (units := impl.enc.units) (rules := infoOf sc)
    (f := fun r t => redacted sc.fp (infoOf sc r).action t) (rm := sc.returnMatches) (path := l.path) hp [] []
  rw [← h5] at ho
  exact ⟨o, List.mem_flatMap.2 ⟨l, hl, ho⟩, h9, by rw [h8, h6], by rw [h10, this]⟩

private theorem found_perm {sc : Scanner} {blocked : List Nat} {l l' : List Leaf} (h : ∀ x, x ∈ l ↔ x ∈ l') (t : Str) :
    FoundInExcluded sc blocked l t ↔ FoundInExcluded sc blocked l' t := by
  unfold FoundInExcluded
  simp only [h]

/-- The reports at one path. -/
private theorem reports_at {out : Leaf → List RuleMatch × Str} {leaves : List Leaf} (hnd : (leaves.map (·.path)).Nodup)
    (hpath : ∀ l ∈ leaves, ∀ o ∈ (out l).1, o.path = l.path) {l : Leaf} (hl : l ∈ leaves) :
    (leaves.flatMap fun l => (out l).1).filter (fun o => decide (o.path = l.path)) = (out l).1 := by
  induction leaves with
  | nil => cases hl
  | cons x ls ih =>
    simp only [List.map_cons, List.nodup_cons] at hnd
    rw [List.flatMap_cons, List.filter_append]
    rcases List.mem_cons.1 hl with rfl | hl'
    · have h1 : (out l).1.filter (fun o => decide (o.path = l.path)) = (out l).1 := by
        rw [List.filter_eq_self]
        intro o ho
        simpa using hpath l List.mem_cons_self o ho
      have h2 : (ls.flatMap fun l => (out l).1).filter (fun o => decide (o.path = l.path)) = [] := by
        rw [List.filter_eq_nil_iff]
        intro o ho
        obtain ⟨y, hy, ho⟩ := List.mem_flatMap.1 ho
        have := hpath y (List.mem_cons_of_mem _ hy) o ho
        intro hc
        simp only [decide_eq_true_eq] at hc
        exact hnd.1 (by rw [← hc, this]; exact List.mem_map_of_mem hy)
      rw [h1, h2, List.append_nil]
    · have hne : x.path ≠ l.path := fun hc => hnd.1 (hc ▸ List.mem_map_of_mem hl')
      have h1 : (out x).1.filter (fun o => decide (o.path = l.path)) = [] := by
        rw [List.filter_eq_nil_iff]
        intro o ho hc
        simp only [decide_eq_true_eq] at hc
        exact hne ((hpath x List.mem_cons_self o ho).symm.trans hc)
      rw [h1, List.nil_append]
      exact ih hnd.2 (fun y hy => hpath y (List.mem_cons_of_mem _ hy)) hl'

private theorem out_path {enc : Enc} {sc : Scanner} {blocked : List Nat} {leaves : List Leaf} {l : Leaf} {os : List RuleMatch}
    {new : Str} (h : LeafResult enc sc blocked leaves l os new) : ∀ o ∈ os, o.path = l.path := by
  obtain ⟨ks, res, ps, tail, _, _, _, _, _, h5, _⟩ := h
  intro o ho
  rw [h5] at ho
  obtain ⟨_, _, _, h, _⟩ := piece_of_report _ _ ho
  exact h

/-- Two scans agree on a common string if the same texts were found in excluded fields. -/
private theorem scans_agree (hE : LawfulEvent impl wf leavesOf rew) {sc : Scanner} (hok : ScannerOk sc)
    (blocked : List Nat) (e e' : E) (h : Scannable wf leavesOf sc blocked e) (h' : Scannable wf leavesOf sc blocked e')
    (hfound : sc.multipassEnabled = true → ∀ t, FoundInExcluded sc blocked (leavesOf e) t ↔ FoundInExcluded sc blocked (leavesOf e') t) :
    ∃ (G G' : Path → Str → Str) (os os' : List RuleMatch), scan impl sc e blocked = Res.ok (rew G e, os) ∧
      scan impl sc e' blocked = Res.ok (rew G' e', os') ∧ ∀ l, l ∈ leavesOf e → l ∈ leavesOf e' →
        G l.path l.text = G' l.path l.text ∧
        os.filter (fun o => decide (o.path = l.path)) = os'.filter (fun o => decide (o.path = l.path)) := by
  obtain ⟨out, G, h1, h2⟩ := scan_leafOut hE hok blocked e h.wf h.returns h.strings
  obtain ⟨out', G', h1', h2'⟩ := scan_leafOut hE hok blocked e' h'.wf h'.returns h'.strings
  refine ⟨G, G', _, _, h2, h2', fun l hl hl' => ?_⟩
  have hu : (out l).1 = (out' l).1 ∧ (out l).2 = (out' l).2 := by
    obtain ⟨ks, a1, a2⟩ := (h1 l hl).1
    obtain ⟨ks', b1, b2⟩ := (h1' l hl').1
    have hk : ∀ m, Kept sc blocked (leavesOf e) l.path l.text m ↔ Kept sc blocked (leavesOf e') l.path l.text m := by
      intro m
      unfold Kept Suppressed
      cases hm : sc.multipassEnabled with
      | false => simp
      | true => simp only [hfound hm]
    exact leafOut_unique hok (leaves := leavesOf e) (leaves' := leavesOf e) (fun _ => Iff.rfl) (h1 l hl).1
      ⟨ks', fun m => by rw [b1, hk], b2⟩
  rw [reports_at (hE.nodup e h.wf) (fun l hl => out_path (leafOut_result hE.enc hok (h1 l hl).1)) hl,
    reports_at (hE.nodup e' h'.wf) (fun l hl => out_path (leafOut_result hE.enc hok (h1' l hl).1)) hl',
    (h1 l hl).2, (h1' l hl').2]
  exact ⟨hu.2, hu.1⟩

/-- C17: the order of the traversal is irrelevant.  If two events have the same strings at the same paths,
visited in whatever order, the scans report the same matches (in the same order) at every path and rewrite
every string alike. -/
theorem C17_order_independent (hE : LawfulEvent impl wf leavesOf rew) {sc : Scanner} (hok : ScannerOk sc)
    (blocked : List Nat) (e e' : E) (h : Scannable wf leavesOf sc blocked e) (h' : Scannable wf leavesOf sc blocked e')
    (hperm : (leavesOf e).Perm (leavesOf e')) :
    ∃ (G G' : Path → Str → Str) (os os' : List RuleMatch), scan impl sc e blocked = Res.ok (rew G e, os) ∧
      scan impl sc e' blocked = Res.ok (rew G' e', os') ∧ ∀ l ∈ leavesOf e,
        G l.path l.text = G' l.path l.text ∧
        os.filter (fun o => decide (o.path = l.path)) = os'.filter (fun o => decide (o.path = l.path)) := by
  obtain ⟨G, G', os, os', h1, h2, h3⟩ := scans_agree hE hok blocked e e' h h'
    (fun _ => found_perm (fun x => hperm.mem_iff))
  exact ⟨G, G', os, os', h1, h2, fun l hl => h3 l hl (hperm.mem_iff.1 hl)⟩

/-- C17: a regex rule without included keywords records in an excluded field exactly the texts of the matches
that it would emit if the field were not excluded.  Missing: with included keywords it records more
(`C17_records_out_of_window`). -/
theorem C17_records_true_positives_partial {r : RegexRule} (hl : LawfulRx r.rx) (hne : NonEmptyRx r.rx)
    (hi : r.included = none) {kp : Bool} {c : Str} {path : Path} {fuel : Nat} {f g : Found}
    (hf : stringMatches r kp false c path fuel = Res.ok f) (hg : stringMatches r kp true c path fuel = Res.ok g) (t : Str) :
    t ∈ g.inserted ↔ ∃ m ∈ f.matches_, TextAt c m.1 m.2 t := by
  unfold stringMatches at hf hg
  rw [hi] at hf hg
  obtain ⟨l, h1, h2⟩ := collectTp_ok hl hne _ _ _ (Nat.zero_le _) hf
  obtain ⟨l', h1', h2'⟩ := collectTp_ok hl hne _ _ _ (Nat.zero_le _) hg
  have hll : l = l' := leftmost_unique (fun s e e' h h' => by
    have := h.1.1.symm.trans h'.1.1
    exact Option.some.inj this) h1 h1'
  rcases h2 with ⟨_, rfl, _⟩ | ⟨h, _⟩
  · rcases h2' with ⟨h, _⟩ | ⟨_, _, h⟩
    · cases h
    · rw [hll]; exact texts_mem h t
  · cases h

example : stringMatches ⟨digitsRx, none, none, none⟩ false false "12 x 7".toList [] 9 = Res.ok ⟨[(0, 2), (5, 6)], []⟩ ∧
    stringMatches ⟨digitsRx, none, none, none⟩ false true "12 x 7".toList [] 9 = Res.ok ⟨[], ["12".toList, "7".toList]⟩ := by
  decide +kernel

/-- Digits within 5 characters after the keyword `id`. -/
private def nearId (a : Action) (s : Scope) : CRule :=
  RegexRule.toCRule ⟨digitsRx, none, some ⟨5, leftmostKw (fun a b => a == b) ["id".toList], fun _ => false⟩, none⟩
    ⟨a, false⟩ s false (fun c => blen c + 1)

/-- C17, finding: the 12 in the excluded field `x` is too far from the keyword to be a match of the rule - at
`y` with the same text nothing is reported - but the 12 at `n` is suppressed because of it. -/
theorem C17_records_out_of_window :
    let x := ("x", Ev.str "id ........ 12".toList)
    let n := ("n", Ev.str "id 12".toList)
    let y := ("y", Ev.str "id ........ 12".toList)
    let sc : Scanner := ⟨[nearId .none (.excl [[fld "x"]])], false, true, true, fp⟩
    (scan jsonEvent sc (.map (fs [y])) []).map (fun r => r.2.map (·.path)) = Res.ok [] ∧
    (scan jsonEvent sc (.map (fs [n])) []).map (fun r => r.2.map (·.path)) = Res.ok [[fld "n"]] ∧
    (scan jsonEvent sc (.map (fs [x, n])) []).map (fun r => r.2.map (·.path)) = Res.ok [] := by
  decide +kernel

/-! ## C18 -/

/-- C18: every report belongs to a rule that is enabled, in scope at the path of the report, and for which this
path is not excluded. -/
theorem C18_excluded_never_reported (hE : LawfulEvent impl wf leavesOf rew) {sc : Scanner} (hok : ScannerOk sc)
    (blocked : List Nat) (e : E) (h : Scannable wf leavesOf sc blocked e) :
    ∃ e' os, scan impl sc e blocked = Res.ok (e', os) ∧ ∀ o ∈ os, ∃ rule, sc.rules[o.rule]? = some rule ∧
      o.rule ∉ blocked ∧ Scans sc.wildcards o.path rule.scope ∧ ¬ Excludes sc.wildcards o.path rule.scope := by
  obtain ⟨e', os, h1, h2⟩ := report_is_kept hE hok blocked e h
  refine ⟨e', os, h1, fun o ho => ?_⟩
  obtain ⟨l, hl, m, t, hp, hr, _, _, hk⟩ := h2 o ho
  obtain ⟨rule, f, ⟨ha1, ha2, ha3, ha4⟩, _⟩ := hk.1
  rw [hr, hp]
  exact ⟨rule, ha2, ha1, ha3, fun hex => absurd (ha4.2 hex) (by simp)⟩

/-- C18: an excluded field is not rewritten: if the path of a string is out of scope or excluded for all
redacting rules, the string is the same after the scan. -/
theorem C18_excluded_not_rewritten (hE : LawfulEvent impl wf leavesOf rew) {sc : Scanner} (hok : ScannerOk sc)
    (blocked : List Nat) (e : E) (h : Scannable wf leavesOf sc blocked e) :
    ∃ G os, scan impl sc e blocked = Res.ok (rew G e, os) ∧ ∀ l ∈ leavesOf e,
      (∀ r rule, sc.rules[r]? = some rule → redacting sc r = true →
        r ∈ blocked ∨ ¬ Scans sc.wildcards l.path rule.scope ∨ Excludes sc.wildcards l.path rule.scope) →
      G l.path l.text = l.text := by
  obtain ⟨G, os, h1, h2⟩ := C10_changed_only_where_redacted hE hok blocked e h
  obtain ⟨e', os', h1', h2'⟩ := C18_excluded_never_reported hE hok blocked e h
  rw [h1] at h1'
  simp only [Res.ok.injEq, Prod.mk.injEq] at h1'
  obtain ⟨_, rfl⟩ := h1'
  refine ⟨G, os, h1, fun l hl hno => Classical.byContradiction fun hch => ?_⟩
  obtain ⟨o, ho, hp, hr⟩ := h2 l hl hch
  obtain ⟨rule, hrule, hb, hs, hx⟩ := h2' o ho
  rw [hp] at hs hx
  rcases hno o.rule rule hrule hr with hc | hc | hc
  · exact hb hc
  · exact hc hs
  · exact hx hc

/-- C18: with multi-pass off, the reports for a string and its new text depend on this string and its path
only: they are the same in any two events which contain it, whatever else (excluded fields included) they
contain. -/
theorem C18_no_influence (hE : LawfulEvent impl wf leavesOf rew) {sc : Scanner} (hok : ScannerOk sc)
    (hoff : sc.multipassEnabled = false) (blocked : List Nat) (e e' : E)
    (h : Scannable wf leavesOf sc blocked e) (h' : Scannable wf leavesOf sc blocked e') :
    ∃ (G G' : Path → Str → Str) (os os' : List RuleMatch), scan impl sc e blocked = Res.ok (rew G e, os) ∧
      scan impl sc e' blocked = Res.ok (rew G' e', os') ∧ ∀ l, l ∈ leavesOf e → l ∈ leavesOf e' →
        G l.path l.text = G' l.path l.text ∧
        os.filter (fun o => decide (o.path = l.path)) = os'.filter (fun o => decide (o.path = l.path)) :=
  scans_agree hE hok blocked e e' h h' (fun hon => by rw [hoff] at hon; cases hon)

/-! ## C22 -/

/-- C22: blocking rules is the same as a scanner where these rules never find anything - including panics and
endless loops. -/
theorem C22_blocked_rules_have_no_effect (hE : LawfulEvent impl wf leavesOf rew) (sc : Scanner) (blocked : List Nat)
    (e : E) (hwf : wf e) : scan impl sc e blocked = scan impl (silence sc blocked) e [] :=
  scan_silence hE sc blocked e hwf

/-! ## C56 -/

/-- C56, exactly when: on rules that return, a scan panics if some rule has a match in a number or boolean, and
otherwise it returns.  The full claim (never panics) is refuted by `C56_panics`. -/
theorem C56_panics_only_then_partial (hE : LawfulEvent impl wf leavesOf rew) {sc : Scanner} (hok : ScannerOk sc)
    (blocked : List Nat) (e : E) (hwf : wf e) (hret : Returns sc (leavesOf e)) :
    ((∃ l ∈ leavesOf e, l.fixed = true ∧ ∃ m, Candidate sc blocked l.path l.text m) →
      scan impl sc e blocked = Res.panic) ∧
    ((¬ ∃ l ∈ leavesOf e, l.fixed = true ∧ ∃ m, Candidate sc blocked l.path l.text m) →
      ∃ e' os, scan impl sc e blocked = Res.ok (e', os)) := by
  refine ⟨scan_fixed hE hok blocked e hwf hret, fun hno => ?_⟩
  obtain ⟨out, G, h, _⟩ := C10_scan_result hE hok blocked e
    ⟨hwf, hret, fun l hl hf m hm => hno ⟨l, hl, hf, m, hm⟩⟩
  exact ⟨_, _, h⟩

end

private theorem eq_panic {α β : Type} {f : α → β} {r : Res α} (h : r.map f = Res.panic) : r = Res.panic := by
  cases r <;> simp_all [Res.map]

/-- C56, finding: scanning `{n: 12}` with a rule for digits panics. -/
theorem C56_panics : scan jsonEvent ⟨[digits .none (.excl [])], false, false, false, fp⟩
    (.map (fs [("n", .scalar "12".toList)])) [] = Res.panic :=
  eq_panic (f := fun _ => 0) (by decide +kernel)

/-! ## The hypotheses are met -/

/-- The 7 in the list is suppressed because of the excluded field `id`, which comes later. -/
example : LawfulEvent jsonEvent WellKeyed (Ev.leaves false) rewrite ∧ ScannerOk exScanner ∧
    Scannable WellKeyed (Ev.leaves false) exScanner [] exEv ∧
    (scan jsonEvent exScanner exEv []).map (fun r => ((r.1.leaves false).map (·.text), r.2.map (fun o => (o.path, o.stop)))) =
      Res.ok (["# 7".toList, "x".toList, "7".toList, "true".toList], [([fld "n", .index 0], 1)]) :=
  ⟨jsonEvent_lawful, exScanner_ok, ex_scannable, by decide +kernel⟩

/-- The same without the heuristic, and with rule 0 blocked. -/
example : (scan jsonEvent { exScanner with multipassEnabled := false } exEv []).map (fun r => (r.1.leaves false).map (·.text)) =
      Res.ok ["# #".toList, "x".toList, "7".toList, "true".toList] ∧
    (scan jsonEvent exScanner exEv [0]).map (fun r => ((r.1.leaves false).map (·.text), r.2.map (fun o => (o.rule, o.shift)))) =
      Res.ok (["12 7".toList, "x".toList, "7".toList, "true".toList], [(1, 0), (1, 0)]) := by decide +kernel

end Sds.Props
