import Verif.Spec.Again
import Verif.Props.RuleOrder

/-! # C109: a redacted event can be scanned again -/

namespace Sds.Props
open Sds Spec Sds.Re

/-! ## Texts -/

/-- A text without characters of the replacements that occurs in the new text lies between two of them. -/
private theorem between_replacements {f : Nat → Str → Str} {t : Str} (ht : t ≠ []) (tail : Str) : ∀ (ps : List Piece) (a b : Str),
    (∀ p ∈ ps, f p.rule p.text ≠ [] ∧ ∀ ch ∈ t, ch ∉ f p.rule p.text) → output f ps tail = a ++ t ++ b →
    ∃ a' b', input ps tail = a' ++ t ++ b' ∧ ∀ o, ∀ m ∈ ranges o ps, ¬ (m.st ≤ o + blen a' ∧ o + blen a' < m.en)
  | [], a, b, _, h => ⟨a, b, h, fun _ m hm => by cases hm⟩
  | p :: ps, a, b, hf, h => by
    obtain ⟨hu, hd⟩ := hf p List.mem_cons_self
    simp only [output] at h
    generalize hue : f p.rule p.text = u at h hu hd
    by_cases h1 : a.length + t.length ≤ p.gap.length
    · -- in the gap
      have hpre : a ++ t <+: p.gap := by
        refine List.prefix_of_prefix_length_le (l₃ := p.gap ++ (u ++ output f ps tail)) ⟨b, ?_⟩ ⟨_, rfl⟩ (by simpa using h1)
        rw [← h]; simp
      obtain ⟨x, hx⟩ := hpre
      refine ⟨a, x ++ p.text ++ input ps tail, by simp only [input]; rw [← hx]; simp, ?_⟩
      intro o m hm hc
      have hgap : blen a + blen t + blen x = blen p.gap := by rw [← hx]; simp only [blen_append]
      have hpos : 0 < blen t := blen_pos ht
      have hge : o + blen p.gap ≤ m.st := by
        rcases List.mem_cons.1 hm with rfl | hm
        · exact Nat.le_refl _
        · have := ranges_ge ps _ m hm; omega
      omega
    · by_cases h2 : p.gap.length + u.length ≤ a.length
      · have hpre : p.gap ++ u <+: a := by
          refine List.prefix_of_prefix_length_le (l₃ := a ++ (t ++ b)) ⟨output f ps tail, ?_⟩ ⟨_, rfl⟩ (by simpa using h2)
          rw [← List.append_assoc a, ← h]
        obtain ⟨a2, ha2⟩ := hpre
        have h' : output f ps tail = a2 ++ t ++ b := by
          rw [← ha2] at h
          simp only [List.append_assoc] at h ⊢
          exact List.append_cancel_left (List.append_cancel_left h)
        obtain ⟨a', b', e1, e2⟩ := between_replacements ht tail ps a2 b (fun q hq => hf q (List.mem_cons_of_mem _ hq)) h'
        refine ⟨p.gap ++ p.text ++ a', b', by simp only [input, e1]; simp, ?_⟩
        intro o m hm hc
        rcases List.mem_cons.1 hm with rfl | hm
        · simp only [blen_append] at hc
          omega
        · refine e2 _ m hm ?_
          simp only [blen_append] at hc
          omega
      · -- a common character
        exfalso
        have key : ∀ i, p.gap.length ≤ i → i < p.gap.length + u.length → a.length ≤ i → i < a.length + t.length → False := by
          intro i i1 i2 i3 i4
          have e1 : (p.gap ++ u ++ output f ps tail)[i]? = u[i - p.gap.length]? := by
            rw [List.append_assoc, List.getElem?_append_right i1, List.getElem?_append_left (by omega)]
          have e2 : (a ++ t ++ b)[i]? = t[i - a.length]? := by
            rw [List.append_assoc, List.getElem?_append_right i3, List.getElem?_append_left (by omega)]
          rw [h, e2] at e1
          have hlt : i - a.length < t.length := by omega
          rw [List.getElem?_eq_getElem hlt] at e1
          exact hd _ (List.getElem_mem hlt) (List.mem_of_getElem? e1.symm)
        have hul : 0 < u.length := List.length_pos_iff.2 hu
        have htl : 0 < t.length := List.length_pos_iff.2 ht
        by_cases h3 : p.gap.length ≤ a.length
        · exact key a.length h3 (by omega) (Nat.le_refl _) (by omega)
        · exact key p.gap.length (Nat.le_refl _) (by omega) (by omega) (by omega)

/-! ## Patterns without assertions -/

private theorem spans_anywhere {T : Tables} {n : Node} {p m q : Str} (h : Spans T n p m q) (hn : NoLook n) :
    ∀ p' q', Spans T n p' m q' := by
  induction h with
  | eps => intro _ _; exact .eps
  | set h => intro _ _; exact .set h
  | look h => cases hn
  | seqNil => intro _ _; exact .seqNil
  | seqCons _ _ ih ih' =>
    intro p' q'
    cases hn with
    | seq _ hn =>
      exact .seqCons (ih (hn _ List.mem_cons_self) _ _) (ih' (.seq _ fun n hm => hn n (List.mem_cons_of_mem _ hm)) _ _)
  | alt hm _ ih =>
    intro p' q'
    cases hn with
    | alt _ hn => exact .alt hm (ih (hn _ hm) _ _)
  | repZero => intro _ _; exact .repZero
  | repSucc hh _ _ ih ih' =>
    intro p' q'
    cases hn with
    | rep _ _ _ _ hn => exact .repSucc hh (ih hn _ _) (ih' (.rep _ _ _ _ hn) _ _)
  | capture _ ih =>
    intro p' q'
    cases hn with
    | capture _ _ hn => exact .capture (ih hn _ _)

/-- C109: a rule with a pattern that has no assertions, and without validator and keywords, does not look at what surrounds
a match. -/
theorem C109_patterns {T : Tables} {pick : Node → Rx} (hp : Chooses T pick) {n : Node} (hn : NoLook n) :
    Everywhere ⟨pick n, none, none, none⟩ := by
  intro c s e t ⟨⟨h, _⟩, _⟩ ht before after
  obtain ⟨a, mid, b, hc, h1, h2, h3⟩ := hp.sound n c s e h
  obtain ⟨a', b', hc', h1', h2'⟩ := ht
  obtain ⟨rfl, h5⟩ := append_inj_blen (by simpa [List.append_assoc] using hc.symm.trans hc') (by omega)
  obtain ⟨rfl, _⟩ := append_inj_blen h5 (by omega)
  have hne := hp.complete n (before ++ mid ++ after) (blen before) (blen before + blen mid)
    ⟨before, mid, after, rfl, rfl, rfl, spans_anywhere h3 hn _ _⟩
  obtain ⟨e', he'⟩ := Option.ne_none_iff_exists'.1 hne
  exact ⟨e', ⟨he', fun v hv => by cases hv⟩, fun x hx => by cases hx⟩

/-! ## The second scan -/

section
variable {E : Type} {impl : EventImpl E} {wf : E → Prop} {leavesOf : E → List Leaf} {rew : (Path → Str → Str) → E → E}
variable {sc : Scanner} {blocked : List Nat} {rs : List RegexRule}

private theorem redacting_action {i : Nat} {rule : CRule} (hi : sc.rules[i]? = some rule) (h : redacting sc i = true) :
    rule.info.action ≠ .none := by
  unfold redacting infoOf at h
  rw [hi] at h
  exact of_decide_eq_true h

/-- No rule with redaction matches in the new text of a string. -/
private theorem no_candidate (hcl : Cleaning sc blocked rs) {enc : Enc} {leaves : List Leaf} {l : Leaf}
    (hl : l ∈ leaves) {os : List RuleMatch} {new : Str} (hret : Returns sc leaves) (hap : RedactionsApart sc blocked leaves)
    (hmp : sc.multipassEnabled = true → ∀ t, ¬ FoundInExcluded sc blocked leaves t)
    (hr : LeafResult enc sc blocked leaves l os new) (m : M) (hc : Candidate sc blocked l.path new m) :
    redacting sc m.rule = false := by
  apply Classical.byContradiction
  intro hred
  have hred : redacting sc m.rule = true := by simpa using hred
  obtain ⟨rule, f, ⟨hb, hi, hsc, hex⟩, hrun, hm⟩ := hc
  have hact := redacting_action hi hred
  obtain ⟨r, hrs, scope, kp, fuel, hrule⟩ := hcl.rules _ _ hi hb hact
  obtain ⟨hlaw, hne, hinc, hev⟩ := hcl.lawful r hrs
  obtain ⟨ks, res, ps, tail, k1, k2, k3, k4, k5, _, k7⟩ := leaf_redacted hr
  -- the match in the new text is one of the regex
  have hrun' : stringMatches r kp false new l.path (fuel new) = Res.ok f := by rw [hrule] at hrun; exact hrun
  have hg : Genuine r new m.st m.en := leftmost_mem ((C20_leftmost hlaw hne hinc hrun' _).2 rfl) _ hm
  obtain ⟨hle, hb1, hb2⟩ := hlaw _ _ _ hg.1.1
  have hlt := hne _ _ _ hg.1.1
  obtain ⟨t, a, b, hnew, ha, hae⟩ := textAt_of_boundaries hb1 hb2 hle
  have ht : t ≠ [] := by
    rintro rfl
    rw [blen_nil] at hae
    omega
  -- the matches of the first scan
  have hkept : ∀ x ∈ ranges 0 ps, Kept sc blocked leaves l.path l.text x ∧ redacting sc x.rule = true := by
    intro x hx
    rw [← k5] at hx
    exact (k1 x).1 (k2.1 x hx)
  have hps : ∀ p ∈ ps, ∃ x ∈ ranges 0 ps, x.rule = p.rule := by
    have aux : ∀ (ps : List Piece) o, ∀ p ∈ ps, ∃ x ∈ ranges o ps, x.rule = p.rule := by
      intro ps
      induction ps with
      | nil => intro _ p hp; cases hp
      | cons q ps ih =>
        intro o p hp
        rcases List.mem_cons.1 hp with rfl | hp
        · exact ⟨_, List.mem_cons_self, rfl⟩
        · obtain ⟨x, hx, e⟩ := ih (o + blen q.gap + blen q.text) p hp
          exact ⟨x, by rw [ranges]; exact List.mem_cons_of_mem _ hx, e⟩
    exact aux ps 0
  obtain ⟨a', b', htext, hout⟩ := between_replacements ht tail ps a b (f := fun r t => redacted sc.fp (infoOf sc r).action t)
    (fun p hp => by
      obtain ⟨x, hx, he⟩ := hps p hp
      obtain ⟨⟨⟨rule', f', ⟨hb', hi', _⟩, _⟩, _⟩, hr'⟩ := hkept x hx
      rw [he] at hi' hb' hr'
      obtain ⟨h1, h2⟩ := hcl.foreign _ _ hi' hb' (redacting_action hi' hr') p.text
      have hinfo : infoOf sc p.rule = rule'.info := by unfold infoOf; rw [hi']
      simp only [hinfo]
      exact ⟨h1, h2 r hrs new m.st m.en t hg ⟨a, b, hnew, ha, hae⟩⟩) (k7.symm.trans hnew)
  rw [← k4] at htext
  obtain ⟨e', hg'⟩ := hev _ _ _ t hg ⟨a, b, hnew, ha, hae⟩ a' b'
  rw [← htext] at hg'
  obtain ⟨f0, hf0⟩ := hret rule (List.mem_of_getElem? hi) l hl false
  have hf0' : stringMatches r kp false l.text l.path (fuel l.text) = Res.ok f0 := by rw [hrule] at hf0; exact hf0
  obtain ⟨m0, hm0, h1, h2, _⟩ := (C20_nothing_missed hlaw hne hinc hf0').2 _ _ hg'
  have hk0 : Kept sc blocked leaves l.path l.text ⟨m.rule, m0.1, m0.2⟩ := by
    refine ⟨⟨rule, f0, ⟨hb, hi, hsc, hex⟩, hf0, hm0⟩, ?_⟩
    rintro ⟨hm, _, t, _, _, _, hfound⟩
    exact hmp hm t hfound
  have hin : (⟨m.rule, m0.1, m0.2⟩ : M) ∈ res := by
    refine (k2.2 _ ((k1 _).2 ⟨hk0, hred⟩)).2 ?_
    rintro ⟨x, hx, hh, ho⟩
    obtain ⟨q1, q2⟩ := (k1 x).1 (k2.1 x hx)
    refine hap l hl x _ q1 hk0 q2 hred ?_ ho
    rintro rfl
    unfold Higher at hh
    rcases hh with ⟨h3, h4⟩ | ⟨_, h3⟩
    · rw [h3] at h4; cases h4
    · omega
  rw [k5] at hin
  exact hout 0 _ hin (by simp only [Nat.zero_add]; exact ⟨h1, h2⟩)

/-- C109: if the rules with redaction do not look at what surrounds their matches, their replacements have no characters in
common with what they match, and their matches do not overlap, then a second scan does not change the event, and reports nothing
but matches of rules without redaction.  Missing: other replacements and overlapping matches, for which the claim is false
(`C109_joined`, `C109_displaced`), rules with keywords or assertions, and the multi-pass heuristic when it has found a text. -/
theorem C109_again_partial (hE : LawfulEvent impl wf leavesOf rew) (hok : ScannerOk sc) (hcl : Cleaning sc blocked rs)
    (hruns : ∀ rule ∈ sc.rules, ∀ c p ex, ∃ f, rule.run c p ex = Res.ok f) (e : E)
    (hs : Scannable wf leavesOf sc blocked e) (hap : RedactionsApart sc blocked (leavesOf e))
    (hmp : sc.multipassEnabled = true → ∀ t, ¬ FoundInExcluded sc blocked (leavesOf e) t) :
    ∃ after os os', scan impl sc e blocked = Res.ok (after, os) ∧ scan impl sc after blocked = Res.ok (after, os') ∧
      ∀ o ∈ os', redacting sc o.rule = false := by
  obtain ⟨out, G, h1, h2⟩ := C10_scan_result hE hok blocked e hs
  have hleaves := hE.leaves_rew G e
  have hs' : Scannable wf leavesOf sc blocked (rew G e) := by
    refine ⟨hE.wf_rew G e hs.wf, fun rule hr l _ ex => hruns rule hr _ _ ex, fun l hl hf m hc => ?_⟩
    rw [hleaves] at hl
    obtain ⟨l0, hl0, rfl⟩ := List.mem_map.1 hl
    split at hf
    · next hfix => rw [if_pos hfix] at hc; exact hs.strings l0 hl0 hfix m hc
    · next hfix => exact absurd hf hfix
  obtain ⟨out', G', h1', h2'⟩ := C10_scan_result hE hok blocked (rew G e) hs'
  -- in the new event, nothing is redacted
  have key : ∀ l ∈ leavesOf (rew G e), (out' l).2 = l.text ∧ ∀ o ∈ (out' l).1, redacting sc o.rule = false := by
    intro l hl
    have hnone : ∀ m, Candidate sc blocked l.path l.text m → redacting sc m.rule = false := by
      have hl := hl
      rw [hleaves] at hl
      obtain ⟨l0, hl0, rfl⟩ := List.mem_map.1 hl
      intro m hc
      split at hc
      · next hfix => exact absurd hc (hs.strings l0 hl0 hfix m)
      · obtain ⟨hr, hG⟩ := h2 l0 hl0
        rw [← hG] at hr
        exact no_candidate hcl hl0 hs.returns hap hmp hr m hc
    obtain ⟨ks, res, ps, tail, k1, k2, _, k4, k5, k6, k7⟩ := (h2' l hl).1
    have hps : ∀ m ∈ ranges 0 ps, redacting sc m.rule = false := by
      intro m hm
      rw [← k5] at hm
      exact hnone m ((k1 m).1 (k2.1 m hm)).1
    have aux : ∀ (ps : List Piece) o inn out, (∀ m ∈ ranges o ps, redacting sc m.rule = false) →
        output (fun r t => redacted sc.fp (infoOf sc r).action t) ps tail = input ps tail ∧
        ∀ x ∈ reports impl.enc.units (infoOf sc) (fun r t => redacted sc.fp (infoOf sc r).action t) sc.returnMatches l.path inn out ps,
          redacting sc x.rule = false := by
      intro ps
      induction ps with
      | nil => intro _ _ _ _; exact ⟨rfl, fun x hx => by cases hx⟩
      | cons q ps ih =>
        intro o inn out h
        have hq : redacting sc q.rule = false := h _ List.mem_cons_self
        obtain ⟨i1, i2⟩ := ih (o + blen q.gap + blen q.text) (inn ++ q.gap ++ q.text)
          (out ++ q.gap ++ redacted sc.fp (infoOf sc q.rule).action q.text)
          fun m hm => h m (by rw [ranges]; exact List.mem_cons_of_mem _ hm)
        refine ⟨by simp only [output, input, i1, redacted_none hq], fun x hx => ?_⟩
        simp only [reports] at hx
        rcases List.mem_cons.1 hx with rfl | hx
        · exact hq
        · exact i2 x hx
    obtain ⟨i1, i2⟩ := aux ps 0 [] [] hps
    exact ⟨by rw [k7, i1, k4], fun o ho => i2 o (k6 ▸ ho)⟩
  have hG' : rew G' (rew G e) = rew G e := by
    have := hE.rew_congr G' (fun _ c => c) (rew G e) (hE.wf_rew G e hs.wf) fun l hl _ => by rw [(h2' l hl).2, (key l hl).1]
    rw [this, hE.rew_id]
  rw [hG'] at h1'
  refine ⟨_, _, _, h1, h1', fun o ho => ?_⟩
  obtain ⟨l, hl, ho⟩ := List.mem_flatMap.1 ho
  exact (key l hl).2 o ho

private theorem pairwise_apart : ∀ {l : List (Nat × Nat)}, l.Pairwise (fun a b => a.1 < a.2 ∧ a.2 ≤ b.1) →
    ∀ x ∈ l, ∀ y ∈ l, x ≠ y → x.2 ≤ y.1 ∨ y.2 ≤ x.1
  | [], _, x, hx, _, _, _ => by cases hx
  | a :: l, hp, x, hx, y, hy, hne => by
    obtain ⟨h1, h2⟩ := List.pairwise_cons.1 hp
    rcases List.mem_cons.1 hx with e | k <;> rcases List.mem_cons.1 hy with e' | k'
    · exact absurd (e.trans e'.symm) hne
    · rw [e]; exact .inl (h1 y k').2
    · rw [e']; exact .inr (h1 x k).2
    · exact pairwise_apart h2 x k y k' hne

/-- C109: with a single rule with redaction there are no overlaps. -/
theorem C109_one_rule (hcl : Cleaning sc blocked rs)
    (hone : ∀ i j, redacting sc i = true → redacting sc j = true → i ∉ blocked → j ∉ blocked → i = j) (leaves : List Leaf) :
    RedactionsApart sc blocked leaves := by
  rintro l _ m m' ⟨⟨rule, f, ⟨hb, hi, _⟩, hrun, hm⟩, _⟩ ⟨⟨rule', f', ⟨hb', hi', _⟩, hrun', hm'⟩, _⟩ hr hr' hne ho
  have hij := hone _ _ hr hr' hb hb'
  rw [← hij, hi] at hi'
  cases hi'
  rw [hrun] at hrun'
  cases hrun'
  obtain ⟨r, hrs, scope, kp, fuel, hrule⟩ := hcl.rules _ _ hi hb (redacting_action hi hr)
  obtain ⟨hlaw, hnn, hinc, _⟩ := hcl.lawful r hrs
  rw [hrule] at hrun
  have := pairwise_apart (C20_nothing_missed hlaw hnn hinc hrun).1 _ hm _ hm' fun h => hne (by
    obtain ⟨h1, h2⟩ := Prod.mk.inj h
    obtain ⟨_, _, _⟩ := m
    obtain ⟨_, _, _⟩ := m'
    cases h1; cases h2; cases hij
    rfl)
  unfold Overlap at ho
  simp only at this
  omega

end

/-! ## Where a second scan finds something -/

private def fld (s : String) : Seg := .field s.toList

private def fs : List (String × Ev) → Fields
  | [] => .nil
  | (k, v) :: r => .cons k.toList v (fs r)

private def fp : Fingerprint := ⟨fun s => s.length, fun s => s.length⟩

private def rl (t : String) (a : Action) : CRule :=
  RegexRule.toCRule ⟨textRx t.toList, none, none, none⟩ ⟨a, false⟩ (.excl []) false (fun c => blen c + 1)

private def ev (s : String) : Ev := .map (fs [("n", .str s.toList)])

private def texts (r : Res (Ev × List RuleMatch)) : Res (List Str × List Nat) :=
  r.map fun x => ((x.1.leaves false).map (·.text), x.2.map (·.rule))

private def twice (sc : Scanner) (e : Ev) : Res (List Str × List Nat) :=
  match scan jsonEvent sc e [] with
  | .ok (e', _) => texts (scan jsonEvent sc e' [])
  | r => texts r

/-- C109, finding: with an empty replacement the texts around a match are joined, and can be what was to be redacted: the event
that is returned still contains the secret `ab`. -/
theorem C109_joined :
    let sc : Scanner := ⟨[rl "ab" (.redact [])], false, false, true, fp⟩
    texts (scan jsonEvent sc (ev "aabb") []) = Res.ok (["ab".toList], [0]) ∧ twice sc (ev "aabb") = Res.ok ([[]], [0]) := by
  decide +kernel

/-- C109, finding: the search for `aba` goes on after the end of the first match.  If this match is displaced by the one of another
rule, the second occurrence of `aba`, which overlaps it, stays in the event. -/
theorem C109_displaced :
    let sc : Scanner := ⟨[rl "xa" (.redact "#".toList), rl "aba" (.redact "#".toList)], false, false, true, fp⟩
    texts (scan jsonEvent sc (ev "xababa") []) = Res.ok (["#baba".toList], [0]) ∧ twice sc (ev "xababa") = Res.ok (["#b#".toList], [1]) := by
  decide +kernel

/-! ## Example -/

private def tr (t : String) : RegexRule := ⟨textRx t.toList, none, none, none⟩

private theorem textRx_text {t c u : Str} {s e : Nat} (h : textRx t c s = some e) (hu : TextAt c s e u) : u = t := by
  unfold textRx at h
  split at h
  · cases h
  · next a b hc =>
    obtain ⟨rfl, rfl⟩ := cut_eq_some.1 hc
    split at h
    · next hb =>
      obtain ⟨a', b', h1, h2, h3⟩ := hu
      rw [List.append_assoc] at h1
      obtain ⟨rfl, h4⟩ := append_inj_blen h1 h2.symm
      have h5 : b = t ++ b.drop t.length := by rw [← List.take_append_drop t.length b, hb]; simp
      rw [h5] at h4
      have h6 : blen a + blen t = blen a + blen u := by rw [h3]; exact Option.some.inj h
      exact (append_inj_blen h4 (by omega)).1.symm
    · cases h

private theorem tr_everywhere (t : String) : Everywhere (tr t) := by
  intro c s e u ⟨⟨h, _⟩, _⟩ hu before after
  cases textRx_text h hu
  refine ⟨blen before + blen t.toList, ⟨?_, fun v hv => by cases hv⟩, fun x hx => by cases hx⟩
  show textRx t.toList _ _ = _
  unfold textRx
  rw [cut_eq_some.2 ⟨List.append_assoc _ _ _, rfl⟩]
  simp

private def sc3 : Scanner := ⟨[rl "a@b" (.redact "#".toList), rl "c:d" (.redact "[?]".toList), rl "e" .none], false, false, true, fp⟩

private theorem rl_ok {t : String} (ht : t.toList ≠ []) {a : Action} (ha : a ≠ .partialFirst 0 ∧ a ≠ .partialLast 0) :
    RuleOk (rl t a) :=
  regexRule_ok (textRx_ok _ ht).1 (textRx_ok _ ht).2 (by intro k hk; cases hk) (by intro c; omega) ha _ false

private theorem rl_returns {t : String} (ht : t.toList ≠ []) (a : Action) (c : Str) (p : Path) (ex : Bool) :
    ∃ f, (rl t a).run c p ex = Res.ok f :=
  stringMatches_returns (r := ⟨textRx _, none, none, none⟩) (textRx_ok _ ht).1 (textRx_ok _ ht).2
    (by intro k hk; cases hk) false ex (by intro _ x hx; cases hx) p (Nat.lt_succ_self _)

private theorem sc3_ok : ScannerOk sc3 := by
  intro rule h
  simp only [sc3, List.mem_cons, List.not_mem_nil, or_false] at h
  rcases h with rfl | rfl | rfl
  · exact rl_ok (by simp) (by simp)
  · exact rl_ok (by simp) (by simp)
  · exact rl_ok (by simp) (by simp)

private theorem sc3_runs : ∀ rule ∈ sc3.rules, ∀ c p ex, ∃ f, rule.run c p ex = Res.ok f := by
  intro rule h c p ex
  simp only [sc3, List.mem_cons, List.not_mem_nil, or_false] at h
  rcases h with rfl | rfl | rfl
  · exact rl_returns (by simp) _ _ _ _
  · exact rl_returns (by simp) _ _ _ _
  · exact rl_returns (by simp) _ _ _ _

private theorem sc3_foreign {u : Str} (h1 : ∀ ch ∈ "a@b".toList, ch ∉ u) (h2 : ∀ ch ∈ "c:d".toList, ch ∉ u) :
    Foreign [tr "a@b", tr "c:d"] u := by
  intro r hr c s e t hg ht
  simp only [List.mem_cons, List.not_mem_nil, or_false] at hr
  rcases hr with rfl | rfl
  · cases textRx_text hg.1.1 ht; exact h1
  · cases textRx_text hg.1.1 ht; exact h2

private theorem sc3_cleaning : Cleaning sc3 [] [tr "a@b", tr "c:d"] where
  rules := by
    rintro (_ | _ | _ | i) rule h _ ha
    · cases h; exact ⟨_, List.mem_cons_self, _, _, _, rfl⟩
    · cases h; exact ⟨_, List.mem_cons_of_mem _ List.mem_cons_self, _, _, _, rfl⟩
    · cases h; exact absurd rfl ha
    · cases h
  lawful := by
    intro r hr
    simp only [List.mem_cons, List.not_mem_nil, or_false] at hr
    rcases hr with rfl | rfl
    · exact ⟨(textRx_ok _ (by simp)).1, (textRx_ok _ (by simp)).2, rfl, tr_everywhere _⟩
    · exact ⟨(textRx_ok _ (by simp)).1, (textRx_ok _ (by simp)).2, rfl, tr_everywhere _⟩
  foreign := by
    rintro (_ | _ | _ | i) rule h _ ha t
    · cases h; exact ⟨nofun, sc3_foreign (u := "#".toList) (by decide) (by decide)⟩
    · cases h; exact ⟨nofun, sc3_foreign (u := "[?]".toList) (by decide) (by decide)⟩
    · cases h; exact absurd rfl ha
    · cases h

private def exEv : Ev := ev "a@b e c:d a@bc:d"

private theorem sc3_scannable : Scannable WellKeyed (Ev.leaves false) sc3 [] exEv where
  wf := by simp [exEv, ev, fs, WellKeyed, WellKeyedFields, keys]
  returns := fun rule h _ _ ex => sc3_runs rule h _ _ ex
  strings := by
    intro l hl hf
    have hall : ∀ l ∈ Ev.leaves false exEv, l.fixed = false := by decide +kernel
    rw [hall l hl] at hf
    cases hf

private def matchesOf (r : Nat) (l : Leaf) : List (Nat × Nat) :=
  match sc3.rules[r]? with
  | none => []
  | some rule => match rule.run l.text l.path false with
    | .ok f => f.matches_
    | _ => []

private theorem sc3_apart : RedactionsApart sc3 [] (exEv.leaves false) := by
  have h : (exEv.leaves false).all (fun l => [0, 1].all fun r => [0, 1].all fun r' => (matchesOf r l).all fun x =>
      (matchesOf r' l).all fun y => (r == r' && x == y) || !(decide (Overlap ⟨r, x.1, x.2⟩ ⟨r', y.1, y.2⟩))) = true := by
    decide +kernel
  have hmem : ∀ (l : Leaf) m, Kept sc3 [] (exEv.leaves false) l.path l.text m → redacting sc3 m.rule = true →
      m.rule ∈ [0, 1] ∧ (m.st, m.en) ∈ matchesOf m.rule l := by
    rintro l m ⟨⟨rule, f, ⟨_, h1, _⟩, h2, h3⟩, _⟩ hr
    constructor
    · have hlt : m.rule < 3 := (List.getElem?_eq_some_iff.1 h1).1
      have : ∀ i, i < 3 → redacting sc3 i = true → i ∈ [0, 1] := by decide +kernel
      exact this _ hlt hr
    · unfold matchesOf
      rw [h1]
      simp only [h2]
      exact h3
  intro l hl m m' hk hk' hr hr' hne ho
  obtain ⟨a1, a2⟩ := hmem l m hk hr
  obtain ⟨b1, b2⟩ := hmem l m' hk' hr'
  have := List.all_eq_true.1 (List.all_eq_true.1 (List.all_eq_true.1 (List.all_eq_true.1 (List.all_eq_true.1 h l hl) _ a1) _ b1) _ a2)
    _ b2
  simp only [Bool.or_eq_true, Bool.and_eq_true, beq_iff_eq, Bool.not_eq_true', decide_eq_false_iff_not, Prod.mk.injEq] at this
  rcases this with ⟨h1, h2, h3⟩ | h
  · exact hne (by cases m; cases m'; simp_all)
  · exact h ho

/-- The hypotheses of the theorem are met: two rules with redaction, whose matches are adjacent once, and one without. -/
example : LawfulEvent jsonEvent WellKeyed (Ev.leaves false) rewrite ∧ ScannerOk sc3 ∧ Cleaning sc3 [] [tr "a@b", tr "c:d"] ∧
    (∀ rule ∈ sc3.rules, ∀ c p ex, ∃ f, rule.run c p ex = Res.ok f) ∧ Scannable WellKeyed (Ev.leaves false) sc3 [] exEv ∧
    RedactionsApart sc3 [] (exEv.leaves false) ∧ sc3.multipassEnabled = false ∧
    texts (scan jsonEvent sc3 exEv []) = Res.ok (["# e [?] #[?]".toList], [0, 2, 1, 0, 1]) ∧
    twice sc3 exEv = Res.ok (["# e [?] #[?]".toList], [2]) :=
  ⟨jsonEvent_lawful, sc3_ok, sc3_cleaning, sc3_runs, sc3_scannable, sc3_apart, rfl, by decide +kernel, by decide +kernel⟩

/-- The expression `[0-9]{3}-?[0-9]+` has no assertions. -/
example : NoLook (.seq [.rep 3 (some 3) true (.set (between '0' '9')), .rep 0 (some 1) true (.set (· = '-')),
    .rep 1 none true (.set (between '0' '9'))]) := by
  refine .seq _ fun n hn => ?_
  simp only [List.mem_cons, List.not_mem_nil, or_false] at hn
  rcases hn with rfl | rfl | rfl <;> exact .rep _ _ _ _ (.set _)

end Sds.Props
