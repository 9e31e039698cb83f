import Verif.Model.Unwind
import Verif.Props.Scan

/-! # C107: what a scan that panics leaves behind -/

namespace Sds.Props
open Sds Sds.Spec

variable {E : Type} {impl : EventImpl E} {wf : E → Prop} {leavesOf : E → List Leaf} {rew : (Path → Str → Str) → E → E}

private theorem editAllLeft_ok {sc : Scanner} {excluded : List Str} (spoilt : E → Path → E) (rest : List PathMatches) :
    ∀ {l : List PathMatches} {e e' : E} {os : List RuleMatch}, editAll impl sc excluded l e = Res.ok (e', os) →
      editAllLeft impl sc excluded spoilt (l ++ rest) e = editAllLeft impl sc excluded spoilt rest e'
  | [], e, e', os, h => by
    simp only [editAll, Res.ok.injEq, Prod.mk.injEq] at h
    rw [← h.1]
    rfl
  | pm :: l, e, e', os, h => by
    simp only [editAll] at h
    simp only [List.cons_append, editAllLeft]
    split at h
    · cases h
    · cases h
    · rename_i e1 os1 h1
      rw [h1]
      dsimp only
      split at h
      · cases h
      · cases h
      · rename_i e2 os2 h2
        cases h
        exact editAllLeft_ok spoilt rest h2

/-- C107: if a scan returns, the event is left as it returns it. -/
theorem C107_returned (sc : Scanner) (spoilt : E → Path → E) (e : E) (blocked : List Nat) {e' : E} {os : List RuleMatch}
    (h : scan impl sc e blocked = Res.ok (e', os)) : scanLeft impl sc spoilt e blocked = e' := by
  unfold scan at h
  unfold scanLeft
  split at h
  · cases h
  · cases h
  · rename_i vs hv
    rw [hv]
    dsimp only
    split at h
    · cases h
    · cases h
    · rename_i l ex hr
      rw [hr]
      dsimp only
      have := editAllLeft_ok spoilt [] h
      rw [List.append_nil] at this
      exact this

private theorem runRules_all {sc : Scanner} {blocked : List Nat} {v : Visit} : ∀ {rs : List Nat} {ex : List Str} {x},
    runRules sc blocked v rs ex = Res.ok x → ∀ r ∈ rs, r ∉ blocked → ∀ rule, sc.rules[r]? = some rule →
      ∃ f, rule.run v.content v.path (v.excluded.contains r) = Res.ok f
  | [], _, _, _, _, hr, _, _, _ => by cases hr
  | r0 :: rs, ex, x, h, r, hr, hb, rule, hrule => by
    simp only [runRules] at h
    split at h
    · rename_i hc
      rcases List.mem_cons.1 hr with rfl | hr
      · exact absurd (List.contains_iff_mem.1 hc) hb
      · exact runRules_all h r hr hb rule hrule
    · split at h
      · cases h
      · rename_i rule0 h0
        split at h
        · cases h
        · cases h
        · rename_i f hf
          rcases List.mem_cons.1 hr with rfl | hr
          · rw [h0] at hrule
            cases hrule
            exact ⟨f, hf⟩
          · split at h
            · cases h
            · cases h
            · rename_i h2
              exact runRules_all h2 r hr hb rule hrule

private theorem runVisits_all {sc : Scanner} {blocked : List Nat} : ∀ {vs : List Visit} {ex : List Str} {x},
    runVisits sc blocked vs ex = Res.ok x → ∀ v ∈ vs, ∃ ex y, runRules sc blocked v v.rules ex = Res.ok y
  | [], _, _, _, v, hv => by cases hv
  | v0 :: vs, ex, x, h, v, hv => by
    simp only [runVisits] at h
    split at h
    · cases h
    · cases h
    · rename_i h1
      rcases List.mem_cons.1 hv with rfl | hv
      · exact ⟨_, _, h1⟩
      · split at h
        · cases h
        · cases h
        · rename_i h2
          exact runVisits_all h2 v hv

/-- C107: if some rule does not return on one of the strings (it panics, for example), the event is left as it was, and the
scan does not return. -/
theorem C107_rule_panics (hE : LawfulEvent impl wf leavesOf rew) (sc : Scanner) (spoilt : E → Path → E) (blocked : List Nat)
    (e : E) (hwf : wf e) {l : Leaf} (hl : l ∈ leavesOf e) {r : Nat} {rule : CRule} {ex : Bool}
    (ha : Applies sc blocked l.path ex r rule) (hr : ∀ f, rule.run l.text l.path ex ≠ Res.ok f) :
    scanLeft impl sc spoilt e blocked = e ∧ ∀ x, scan impl sc e blocked ≠ Res.ok x := by
  obtain ⟨rules, excl, hp, hv⟩ := visits_spec (sc.rules.map (·.scope)) sc.wildcards
  have hvis := hv _ _ (hE.visits e hwf)
  have hno : ∀ x, runVisits sc blocked (((leavesOf e).map fun l => (l.path, l.text)).map
      fun x => (⟨x.1, x.2, rules x.1, excl x.1⟩ : Visit)) [] ≠ Res.ok x := by
    intro x hx
    obtain ⟨h1, h2, h3, h4⟩ := ha
    obtain ⟨ex0, y, hy⟩ := runVisits_all hx ⟨l.path, l.text, rules l.path, excl l.path⟩
      (List.mem_map.2 ⟨(l.path, l.text), List.mem_map.2 ⟨l, hl, rfl⟩, rfl⟩)
    have hmem : r ∈ rules l.path := ((hp l.path).2.1 r).2 ⟨rule.scope, scope_at.2 ⟨rule, h2, rfl⟩, h3⟩
    obtain ⟨f, hf⟩ := runRules_all hy r hmem h1 rule h2
    dsimp only at hf
    have hex : (excl l.path).contains r = ex := by
      rw [Bool.eq_iff_iff, List.contains_iff_mem, (hp l.path).2.2 r, h4]
      constructor
      · rintro ⟨s, hs, h⟩
        obtain ⟨rule', hr', rfl⟩ := scope_at.1 hs
        rw [h2] at hr'
        cases hr'
        exact h
      · exact fun h => ⟨rule.scope, scope_at.2 ⟨rule, h2, rfl⟩, h⟩
    rw [hex] at hf
    exact hr f hf
  constructor
  · unfold scanLeft
    rw [hvis]
    dsimp only
    split
    · rename_i h
      exact absurd h (hno _)
    · rfl
  · intro x hx
    unfold scan at hx
    rw [hvis] at hx
    dsimp only at hx
    split at hx
    · cases hx
    · cases hx
    · rename_i h
      exact absurd h (hno _)

private theorem eq_of_path : ∀ {ls : List Leaf}, (ls.map (·.path)).Nodup → ∀ {x y : Leaf}, x ∈ ls → y ∈ ls → x.path = y.path →
    x = y
  | [], _, _, _, h, _, _ => by cases h
  | a :: ls, hnd, x, y, hx, hy, he => by
    simp only [List.map_cons, List.nodup_cons] at hnd
    rcases List.mem_cons.1 hx with ex | hx <;> rcases List.mem_cons.1 hy with ey | hy
    · rw [ex, ey]
    · exact absurd (List.mem_map.2 ⟨y, hy, by rw [← he, ex]⟩) hnd.1
    · exact absurd (List.mem_map.2 ⟨x, hx, by rw [he, ey]⟩) hnd.1
    · exact eq_of_path hnd.2 hx hy he

/-- C107: a scan that panics as a rule has a match in a number or boolean (C56).  No string is left half redacted: those that are
visited before the first such value are exactly what a complete scan makes of them, those after it are as they were. -/
theorem C107_left (hE : LawfulEvent impl wf leavesOf rew) {sc : Scanner} (hok : ScannerOk sc) (spoilt : E → Path → E)
    (blocked : List Nat) (e : E) (hwf : wf e) (hret : Returns sc (leavesOf e)) {before after : List Leaf} {l0 : Leaf}
    (hsplit : leavesOf e = before ++ l0 :: after) (hfix : l0.fixed = true) (hcand : ∃ m, Candidate sc blocked l0.path l0.text m)
    (hfirst : ∀ l ∈ before, l.fixed = true → ∀ m, ¬ Candidate sc blocked l.path l.text m) :
    scan impl sc e blocked = Res.panic ∧
    ∃ G, scanLeft impl sc spoilt e blocked = rew G e ∧
      (∀ l ∈ before, ∃ os, LeafResult impl.enc sc blocked (leavesOf e) l os (G l.path l.text)) ∧
      ∀ l ∈ l0 :: after, G l.path l.text = l.text := by
  have hl0 : l0 ∈ leavesOf e := by rw [hsplit]; simp
  refine ⟨scan_fixed hE hok blocked e hwf hret ⟨l0, hl0, hfix, hcand⟩, ?_⟩
  obtain ⟨rules, excl, hp, hv⟩ := visits_spec (sc.rules.map (·.scope)) sc.wildcards
  have hvis := hv _ _ (hE.visits e hwf)
  rw [List.map_map] at hvis
  obtain ⟨ms, ins, hms, hins, hrun⟩ := runVisits_spec hok blocked (leavesOf e) hret
    (fun l => ⟨l.path, l.text, rules l.path, excl l.path⟩)
    (fun l => ⟨rfl, rfl, (hp l.path).2.1, (hp l.path).2.2⟩)
  have hnd := hE.nodup e hwf
  rw [hsplit, List.map_append, List.nodup_append] at hnd
  have hbefore : ∀ l ∈ before, l ∈ leavesOf e := fun l hl => by rw [hsplit]; exact List.mem_append_left _ hl
  have hsub : (before.filter fun l => !(ms l).isEmpty).Sublist before := List.filter_sublist
  obtain ⟨out, G, h1, h2, h3⟩ := editAll_spec hE hok blocked e hwf hins ms hms (before.filter fun l => !(ms l).isEmpty)
    ((hsub.map _).nodup hnd.1) (fun l hl => by
      obtain ⟨hl1, hl2⟩ := List.mem_filter.1 hl
      refine ⟨hbefore l hl1, ?_⟩
      cases hf : l.fixed with
      | false => rfl
      | true =>
        exfalso
        cases hm : ms l with
        | nil => rw [hm] at hl2; cases hl2
        | cons m r => exact hfirst l hl1 hf m ((hms l (hbefore l hl1) m).1 (by rw [hm]; exact List.mem_cons_self)))
    (fun _ c => c) (fun _ _ => rfl)
  rw [hE.rew_id] at h1
  have hm0 : (!(ms l0).isEmpty) = true := by
    obtain ⟨m, hm⟩ := hcand
    have := (hms l0 hl0 m).2 hm
    cases h : ms l0 with
    | nil => rw [h] at this; cases this
    | cons _ _ => rfl
  have hafter : ∀ l ∈ l0 :: after, G l.path l.text = l.text := by
    intro l hl
    refine h3 _ (fun hmem => ?_) _
    obtain ⟨x, hx, he⟩ := List.mem_map.1 hmem
    exact hnd.2.2 x.path (List.mem_map.2 ⟨x, (List.mem_filter.1 hx).1, rfl⟩) l.path (List.mem_map_of_mem hl) he
  have hl0' : l0 ∈ leavesOf (rew G e) := by
    rw [hE.leaves_rew]
    exact List.mem_map.2 ⟨l0, hl0, by rw [hfix]; rfl⟩
  have hpanic := hE.edit_fixed (rew G e) (hE.wf_rew G e hwf) l0 hl0' hfix
  refine ⟨G, ?_, fun l hl => ?_, hafter⟩
  · unfold scanLeft
    rw [hvis]
    simp only [Function.comp_def]
    have hr := hrun []
    simp only [List.nil_append] at hr
    rw [hr]
    dsimp only
    rw [hsplit, List.filter_append, List.filter_cons_of_pos (p := fun l => !(ms l).isEmpty) hm0, List.map_append, editAllLeft_ok spoilt _ h1, List.map_cons,
      editAllLeft, hpanic]
    dsimp only
    rw [hpanic]
  · by_cases hm : (!(ms l).isEmpty) = true
    · obtain ⟨k1, k2⟩ := h2 l (List.mem_filter.2 ⟨hl, hm⟩)
      rw [k2]
      exact ⟨_, leafOut_result hE.enc hok k1⟩
    · have hG : G l.path l.text = l.text := by
        refine h3 _ (fun hmem => ?_) _
        obtain ⟨x, hx, he⟩ := List.mem_map.1 hmem
        have hnd' := hnd.1
        have : x = l := by
          obtain ⟨hx1, _⟩ := List.mem_filter.1 hx
          exact eq_of_path hnd' hx1 hl he
        subst this
        exact hm (List.mem_filter.1 hx).2
      rw [hG]
      refine ⟨[], leafOut_result hE.enc hok (leafOut_nil fun m hc => ?_)⟩
      have := (hms l (hbefore l hl) m).2 hc
      simp only [Bool.not_eq_true', Bool.not_eq_false] at hm
      rw [List.isEmpty_iff.1 hm] at this
      cases this

/-! ## An example -/

private def fp : Fingerprint := ⟨fun s => s.length, fun s => s.length⟩

private def digits : CRule :=
  RegexRule.toCRule ⟨digitsRx, none, none, none⟩ ⟨.redact "#".toList, false⟩ (.excl []) false (fun c => blen c + 1)

/-- A scanner that replaces numbers. -/
private def exScanner : Scanner := ⟨[digits], false, true, false, fp⟩

/-- `{a: "x 12", b: true, c: 34, d: "y 56"}` -/
private def exEv : Ev := .map (.cons "a".toList (.str "x 12".toList) (.cons "b".toList (.scalar "true".toList)
  (.cons "c".toList (.scalar "34".toList) (.cons "d".toList (.str "y 56".toList) .nil))))

private theorem exScanner_ok : ScannerOk exScanner := by
  intro rule h
  obtain rfl := List.mem_singleton.1 h
  exact regexRule_ok digitsRx_ok.1 digitsRx_ok.2 (by intro k hk; cases hk) (by intro c; omega) (by simp) _ false

private theorem ex_returns : Returns exScanner (Ev.leaves false exEv) := by
  intro rule h l _ ex
  obtain rfl := List.mem_singleton.1 h
  exact stringMatches_returns (r := ⟨digitsRx, none, none, none⟩) digitsRx_ok.1 digitsRx_ok.2
    (by intro k hk; cases hk) false ex (by intro _ x hx; cases hx) l.path (Nat.lt_succ_self _)

private def leafA : Leaf := ⟨[.field "a".toList], "x 12".toList, false⟩
private def leafB : Leaf := ⟨[.field "b".toList], "true".toList, true⟩
private def leafC : Leaf := ⟨[.field "c".toList], "34".toList, true⟩
private def leafD : Leaf := ⟨[.field "d".toList], "y 56".toList, false⟩

private theorem ex_candidate {l : Leaf} {m : M} (h : Candidate exScanner [] l.path l.text m) :
    ∃ f, digits.run l.text l.path false = Res.ok f ∧ (m.st, m.en) ∈ f.matches_ := by
  obtain ⟨rule, f, ha, hf, hm⟩ := h
  obtain rfl := List.mem_singleton.1 (List.mem_of_getElem? ha.2.1)
  exact ⟨f, hf, hm⟩

/-- The hypotheses of `C107_left` are met by this event, with a string in front of the number and one after it. -/
example : LawfulEvent jsonEvent WellKeyed (Ev.leaves false) rewrite ∧ ScannerOk exScanner ∧ WellKeyed exEv ∧
    Returns exScanner (Ev.leaves false exEv) ∧ Ev.leaves false exEv = [leafA, leafB] ++ leafC :: [leafD] ∧ leafC.fixed = true ∧
    (∃ m, Candidate exScanner [] leafC.path leafC.text m) ∧
    ∀ l ∈ [leafA, leafB], l.fixed = true → ∀ m, ¬ Candidate exScanner [] l.path l.text m := by
  refine ⟨jsonEvent_lawful, exScanner_ok, ?_, ex_returns, by decide +kernel, rfl, ⟨⟨0, 0, 2⟩, ?_⟩, ?_⟩
  · simp [exEv, WellKeyed, WellKeyedFields, keys]
  · refine ⟨digits, ⟨[(0, 2)], []⟩, ⟨by simp, rfl, ?_, ?_⟩, by decide +kernel, by simp⟩
    · simp [Scans, digits, RegexRule.toCRule]
    · simp [Excludes, digits, RegexRule.toCRule]
  · intro l hl hf m hm
    rcases List.mem_cons.1 hl with rfl | hl
    · cases hf
    · obtain rfl := List.mem_singleton.1 hl
      obtain ⟨f, h1, h2⟩ := ex_candidate hm
      have : digits.run leafB.text leafB.path false = Res.ok ⟨[], []⟩ := by decide +kernel
      rw [this] at h1
      cases h1
      cases h2

/-- A rule that panics on `boom`. -/
private def exPanics : CRule := ⟨⟨.redact "#".toList, false⟩, .excl [], false, fun c _ _ =>
  if c = "boom".toList then Res.panic else Res.ok ⟨[(0, blen c)], []⟩⟩

/-- The hypotheses of `C107_rule_panics`, with a string in front that has a match of the same rule. -/
example : LawfulEvent jsonEvent WellKeyed (Ev.leaves false) rewrite ∧
    ∃ sc e l r rule, WellKeyed e ∧ l ∈ Ev.leaves false e ∧ Applies sc [] l.path false r rule ∧
      (∀ f, rule.run l.text l.path false ≠ Res.ok f) ∧ ∃ l' ∈ Ev.leaves false e, ∃ m, Candidate sc [] l'.path l'.text m := by
  refine ⟨jsonEvent_lawful, ⟨[exPanics], false, true, false, fp⟩,
    .map (.cons "a".toList (.str "secret".toList) (.cons "b".toList (.str "boom".toList) .nil)),
    ⟨[.field "b".toList], "boom".toList, false⟩, 0, exPanics, ?_, by decide +kernel, ⟨by simp, rfl, ?_, ?_⟩, ?_,
    ⟨[.field "a".toList], "secret".toList, false⟩, by decide +kernel, ⟨0, 0, 6⟩, exPanics, ⟨[(0, 6)], []⟩, ⟨by simp, rfl, ?_, ?_⟩, ?_, ?_⟩
  · simp [WellKeyed, WellKeyedFields, keys]
  · simp [Scans, exPanics]
  · simp [Excludes, exPanics]
  · intro f
    simp [exPanics]
  · simp [Scans, exPanics]
  · simp [Excludes, exPanics]
  · rfl
  · simp

/-- C107, finding: a number with a match keeps the strings after it from being redacted.  The scan panics; the string in front
of the number is redacted, the one after it still has its secret. -/
theorem C107_later_strings_keep_secrets :
    scan jsonEvent exScanner exEv [] = Res.panic ∧
    ((scanLeft jsonEvent exScanner (fun _ _ => .scalar []) exEv []).leaves false).map (·.text) =
      ["x #".toList, "true".toList, "34".toList, "y 56".toList] := by
  constructor
  · have : (scan jsonEvent exScanner exEv []).map (fun _ => 0) = Res.panic := by decide +kernel
    revert this
    cases scan jsonEvent exScanner exEv [] <;> simp [Res.map]
  · decide +kernel

end Sds.Props
