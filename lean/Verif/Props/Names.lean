import Verif.Spec.Names
import Verif.Props.Locality
import Verif.Props.Undo

/-! # C114: the path of a string matters only through scopes and keywords -/

namespace Sds.Props
open Sds Spec

private theorem alikeAt_symm {sc : Scanner} {p p' : Path} (h : AlikeAt sc p p') : AlikeAt sc p' p :=
  fun rule hr => ⟨(h rule hr).1.symm, (h rule hr).2.1.symm, fun c ex => ((h rule hr).2.2 c ex).symm⟩

private theorem applies_place {sc : Scanner} {blocked : List Nat} {p p' : Path} (h : AlikeAt sc p p') {ex : Bool} {r : Nat}
    {rule : CRule} (ha : Applies sc blocked p ex r rule) : Applies sc blocked p' ex r rule := by
  obtain ⟨h1, h2, h3, h4⟩ := ha
  obtain ⟨a, b, _⟩ := h rule (List.mem_of_getElem? h2)
  exact ⟨h1, h2, a.1 h3, h4.trans b⟩

private theorem candidate_place {sc : Scanner} {blocked : List Nat} {p p' : Path} (h : AlikeAt sc p p') {c : Str} {m : M}
    (hc : Candidate sc blocked p c m) : Candidate sc blocked p' c m := by
  obtain ⟨rule, f, h1, h2, h3⟩ := hc
  refine ⟨rule, f, applies_place h h1, ?_, h3⟩
  rw [← (h rule (List.mem_of_getElem? h1.2.1)).2.2]
  exact h2

private theorem found_place {sc : Scanner} {blocked : List Nat} {t : Str} : ∀ {ls ls' : List Leaf}, SameTexts sc ls ls' →
    FoundInExcluded sc blocked ls t → FoundInExcluded sc blocked ls' t
  | _, _, .nil, ⟨_, hl, _⟩ => by cases hl
  | _, _, .cons (l := l) (l' := l') ht hp h, ⟨a, ha, r, rule, f, h1, h2, h3⟩ => by
    rcases List.mem_cons.1 ha with rfl | ha
    · refine ⟨l', List.mem_cons_self, r, rule, f, applies_place hp h1, ?_, h3⟩
      rw [← (hp rule (List.mem_of_getElem? h1.2.1)).2.2, ← ht]
      exact h2
    · obtain ⟨b, hb, x⟩ := found_place h ⟨a, ha, r, rule, f, h1, h2, h3⟩
      exact ⟨b, List.mem_cons_of_mem _ hb, x⟩

private theorem sameTexts_symm {sc : Scanner} : ∀ {ls ls' : List Leaf}, SameTexts sc ls ls' → SameTexts sc ls' ls
  | _, _, .nil => .nil
  | _, _, .cons ht hp h => .cons ht.symm (alikeAt_symm hp) (sameTexts_symm h)

private theorem remembered_place {sc : Scanner} {blocked : List Nat} {ls ls' : List Leaf} (h : SameTexts sc ls ls') :
    Remembered sc blocked ls = Remembered sc blocked ls' := by
  funext t
  unfold Remembered
  exact propext (and_congr_right fun _ => ⟨found_place h, found_place (sameTexts_symm h)⟩)

private theorem reports_place {units : Str → Nat} {I : Nat → RuleInfo} {f : Nat → Str → Str} {rm : Bool} (p p' : Path) :
    ∀ (ps : List Piece) (inn out : Str),
      reports units I f rm p' inn out ps = (reports units I f rm p inn out ps).map (placedAt p')
  | [], _, _ => rfl
  | q :: ps, inn, out => by
    simp only [reports, List.map_cons, placedAt]
    rw [reports_place p p' ps]

private theorem resultOf_place {enc : Enc} {sc : Scanner} {blocked : List Nat} {S : Str → Prop} {p p' : Path} {c : Str}
    (hp : AlikeAt sc p p') {r : List RuleMatch × Str} (h : ResultOf enc sc blocked S p c r) :
    ResultOf enc sc blocked S p' c (r.1.map (placedAt p'), r.2) := by
  obtain ⟨ks, res, ps, tail, h1, h2, h3, h4, h5, h6, h7⟩ := h
  refine ⟨ks, res, ps, tail, fun m => ?_, h2, h3, h4, h5, ?_, h7⟩
  · rw [h1]
    exact and_congr_left fun _ => ⟨candidate_place hp, candidate_place (alikeAt_symm hp)⟩
  · show r.1.map (placedAt p') = _
    rw [h6, ← reports_place]

private theorem resultOf_same {enc : Enc} {sc : Scanner} {blocked : List Nat} {S : Str → Prop} {p : Path} {c : Str}
    {r : List RuleMatch × Str} (h : ResultOf enc sc blocked S p c r) (hno : ∀ m, ¬ Candidate sc blocked p c m) : r.2 = c := by
  obtain ⟨ks, res, ps, tail, h1, h2, h3, h4, h5, h6, h7⟩ := h
  have : ps = [] := by
    cases ps with
    | nil => rfl
    | cons q ps =>
      have hm : (⟨q.rule, 0 + blen q.gap, 0 + blen q.gap + blen q.text⟩ : M) ∈ res := by rw [h5]; exact List.mem_cons_self
      exact absurd ((h1 _).1 (h2.1 _ hm)).1 (hno _)
  subst this
  rw [h7, h4]
  rfl

section
variable {E E' : Type} {impl : EventImpl E} {wf : E → Prop} {leavesOf : E → List Leaf} {rew : (Path → Str → Str) → E → E}
  {impl' : EventImpl E'} {wf' : E' → Prop} {leavesOf' : E' → List Leaf} {rew' : (Path → Str → Str) → E' → E'}

/-- What the strings of an event become, one by one. -/
private theorem scan_each (hE : LawfulEvent impl wf leavesOf rew) {sc : Scanner} (hok : ScannerOk sc) (blocked : List Nat) (e : E)
    (hs : Scannable wf leavesOf sc blocked e) :
    ∃ (after : E) (out : Leaf → List RuleMatch × Str),
      scan impl sc e blocked = Res.ok (after, (leavesOf e).flatMap fun l => (out l).1) ∧
      (∀ l ∈ leavesOf e, ResultOf impl.enc sc blocked (Remembered sc blocked (leavesOf e)) l.path l.text (out l)) ∧
      (leavesOf after).map (·.text) = (leavesOf e).map fun l => (out l).2 := by
  obtain ⟨out, G, h1, h2⟩ := C10_scan_result hE hok blocked e hs
  refine ⟨_, out, h1, fun l hl => resultOf_leaf (h2 l hl).1, ?_⟩
  rw [hE.leaves_rew, List.map_map]
  refine List.map_congr_left fun l hl => ?_
  show (if l.fixed then l else { l with text := G l.path l.text }).text = _
  split
  · exact (resultOf_same (resultOf_leaf (h2 l hl).1) (hs.strings l hl (by assumption))).symm
  · exact (h2 l hl).2

private theorem pair_up {enc : Enc} {sc : Scanner} (hok : ScannerOk sc) {blocked : List Nat} {S : Str → Prop}
    {out out' : Leaf → List RuleMatch × Str} : ∀ {ls ls' : List Leaf}, SameTexts sc ls ls' →
    (∀ l ∈ ls, ResultOf enc sc blocked S l.path l.text (out l)) → (∀ l ∈ ls', ResultOf enc sc blocked S l.path l.text (out' l)) →
    ls.flatMap (fun l => (out l).1) = placed ls (ls.map out) ∧ ls'.flatMap (fun l => (out' l).1) = placed ls' (ls.map out) ∧
      ls'.map (fun l => (out' l).2) = ls.map fun l => (out l).2
  | _, _, .nil, _, _ => ⟨rfl, rfl, rfl⟩
  | _, _, .cons (l := l) (l' := l') (ls := ls) (ls' := ls') ht hp h, h1, h2 => by
    obtain ⟨a, b, c⟩ := pair_up hok h (fun x hx => h1 x (List.mem_cons_of_mem _ hx)) (fun x hx => h2 x (List.mem_cons_of_mem _ hx))
    have r1 := h1 l List.mem_cons_self
    have r2 := h2 l' List.mem_cons_self
    have e1 : out l = ((out l).1.map (placedAt l.path), (out l).2) :=
      resultOf_unique hok r1 (resultOf_place (fun rule _ => ⟨Iff.rfl, Iff.rfl, fun _ _ => rfl⟩) r1)
    have e2 : out' l' = ((out l).1.map (placedAt l'.path), (out l).2) :=
      resultOf_unique hok (ht ▸ r2) (resultOf_place hp r1)
    refine ⟨?_, ?_, ?_⟩
    · have : (out l).1 = (out l).1.map (placedAt l.path) := (Prod.ext_iff.1 e1).1
      rw [List.flatMap_cons, a, List.map_cons, placed, ← this]
    · have : (out' l').1 = (out l).1.map (placedAt l'.path) := (Prod.ext_iff.1 e2).1
      rw [List.flatMap_cons, b, List.map_cons, placed, ← this]
    · have : (out' l').2 = (out l).2 := (Prod.ext_iff.1 e2).2
      rw [List.map_cons, List.map_cons, c, this]

/-- C114: two events (which may be of different kinds) with the same texts, at places that are the same to the rules, get the same
new texts and the same reports, except for the paths: each text has the paths of its own event. -/
theorem C114_same_texts (hE : LawfulEvent impl wf leavesOf rew) (hE' : LawfulEvent impl' wf' leavesOf' rew')
    (henc : impl'.enc = impl.enc) {sc : Scanner} (hok : ScannerOk sc) (blocked : List Nat) (e : E) (e' : E')
    (hs : Scannable wf leavesOf sc blocked e) (hs' : Scannable wf' leavesOf' sc blocked e')
    (h : SameTexts sc (leavesOf e) (leavesOf' e')) :
    ∃ after after' rs, scan impl sc e blocked = Res.ok (after, placed (leavesOf e) rs) ∧
      scan impl' sc e' blocked = Res.ok (after', placed (leavesOf' e') rs) ∧
      (leavesOf after).map (·.text) = rs.map (·.2) ∧ (leavesOf' after').map (·.text) = rs.map (·.2) := by
  obtain ⟨after, out, h1, h2, h3⟩ := scan_each hE hok blocked e hs
  obtain ⟨after', out', h1', h2', h3'⟩ := scan_each hE' hok blocked e' hs'
  rw [henc, ← remembered_place h] at h2'
  obtain ⟨a, b, c⟩ := pair_up hok h h2 h2'
  refine ⟨after, after', (leavesOf e).map out, a ▸ h1, b ▸ h1', ?_, ?_⟩
  · rw [h3, List.map_map]; rfl
  · rw [h3', c, List.map_map]; rfl

private theorem blind_place {sc : Scanner} (h : PathBlind sc) (p p' : Path) : AlikeAt sc p p' := by
  intro rule hr
  obtain ⟨h1, h2⟩ := h rule hr
  refine ⟨?_, ?_, fun c ex => h2 c p p' ex⟩ <;> rw [h1] <;> simp [Scans, Excludes]

private theorem blind_texts {sc : Scanner} (h : PathBlind sc) : ∀ {ls ls' : List Leaf}, ls.map (·.text) = ls'.map (·.text) →
    SameTexts sc ls ls'
  | [], [], _ => .nil
  | [], _ :: _, h => by cases h
  | _ :: _, [], h => by cases h
  | l :: ls, l' :: ls', ht => by
    rw [List.map_cons, List.map_cons, List.cons.injEq] at ht
    exact .cons ht.1 (blind_place h _ _) (blind_texts h ht.2)

/-- C114: if no rule looks at paths, field names and nesting do not matter at all: events with the same texts in the same order get
the same new texts and the same reports, except for the paths. -/
theorem C114_path_blind (hE : LawfulEvent impl wf leavesOf rew) (hE' : LawfulEvent impl' wf' leavesOf' rew')
    (henc : impl'.enc = impl.enc) {sc : Scanner} (hok : ScannerOk sc) (hb : PathBlind sc) (blocked : List Nat) (e : E) (e' : E')
    (hs : Scannable wf leavesOf sc blocked e) (hs' : Scannable wf' leavesOf' sc blocked e')
    (h : (leavesOf e).map (·.text) = (leavesOf' e').map (·.text)) :
    ∃ after after' rs, scan impl sc e blocked = Res.ok (after, placed (leavesOf e) rs) ∧
      scan impl' sc e' blocked = Res.ok (after', placed (leavesOf' e') rs) ∧
      (leavesOf after).map (·.text) = rs.map (·.2) ∧ (leavesOf' after').map (·.text) = rs.map (·.2) :=
  C114_same_texts hE hE' henc hok blocked e e' hs hs' (blind_texts hb h)

private theorem blind_nothing {sc : Scanner} (h : PathBlind sc) (blocked : List Nat) (ls : List Leaf) :
    Remembered sc blocked ls = fun _ => False := by
  funext t
  refine propext ⟨?_, False.elim⟩
  rintro ⟨_, l, _, r, rule, f, h1, _⟩
  have := h1.2.2.2.1 rfl
  rw [(h rule (List.mem_of_getElem? h1.2.1)).1] at this
  obtain ⟨q, hq, _⟩ := this
  cases hq

private theorem placed_map (out : Leaf → List RuleMatch × Str) : ∀ ls : List Leaf, (∀ l ∈ ls, (out l).1.map (placedAt l.path) = (out l).1) →
    ls.flatMap (fun l => (out l).1) = placed ls (ls.map out)
  | [], _ => rfl
  | l :: ls, h => by
    rw [List.flatMap_cons, List.map_cons, placed, h l List.mem_cons_self, placed_map out ls fun x hx => h x (List.mem_cons_of_mem _ hx)]

/-- C114: if no rule looks at paths, scanning an event is scanning each of its strings alone. -/
theorem C114_each_alone (hE : LawfulEvent impl wf leavesOf rew) (henc : impl.enc = jsonEvent.enc) {sc : Scanner} (hok : ScannerOk sc)
    (hb : PathBlind sc) (blocked : List Nat) (e : E) (hs : Scannable wf leavesOf sc blocked e) :
    ∃ after rs, scan impl sc e blocked = Res.ok (after, placed (leavesOf e) rs) ∧
      (leavesOf after).map (·.text) = rs.map (·.2) ∧
      rs.map (fun r => Res.ok (Ev.str r.2, r.1.map (placedAt []))) =
        (leavesOf e).map fun l => scan jsonEvent sc (.str l.text) blocked := by
  obtain ⟨after, out, h1, h2, h3⟩ := scan_each hE hok blocked e hs
  have hown : ∀ l ∈ leavesOf e, (out l).1.map (placedAt l.path) = (out l).1 := by
    intro l hl
    obtain ⟨_, _, ps, _, _, _, _, _, _, h6, _⟩ := h2 l hl
    rw [h6, ← reports_place]
  refine ⟨after, (leavesOf e).map out, ?_, ?_, ?_⟩
  · rw [h1, placed_map out _ hown]
  · rw [h3, List.map_map]; rfl
  · rw [List.map_map]
    refine List.map_congr_left fun l hl => ?_
    have hleaf : Ev.leaves false (.str l.text) = [⟨[], l.text, false⟩] := rfl
    have hs' : Scannable WellKeyed (Ev.leaves false) sc blocked (.str l.text) := by
      refine ⟨by simp [WellKeyed], ?_, ?_⟩
      · intro rule hr x hx ex
        rw [hleaf, List.mem_singleton] at hx
        subst hx
        obtain ⟨f, hf⟩ := hs.returns rule hr l hl ex
        exact ⟨f, by rw [(hb rule hr).2 l.text [] l.path ex]; exact hf⟩
      · intro x hx hf
        rw [hleaf, List.mem_singleton] at hx
        subst hx
        cases hf
    obtain ⟨out', G, h1', h2'⟩ := C10_scan_result jsonEvent_lawful hok blocked (.str l.text) hs'
    have hx := h2' ⟨[], l.text, false⟩ (by rw [hleaf]; exact List.mem_singleton.2 rfl)
    have r2 := resultOf_leaf hx.1
    have r1 := h2 l hl
    rw [henc, blind_nothing hb] at r1
    rw [blind_nothing hb] at r2
    have e2 : out' ⟨[], l.text, false⟩ = ((out l).1.map (placedAt []), (out l).2) :=
      resultOf_unique hok r2 (resultOf_place (blind_place hb _ _) r1)
    rw [h1', hleaf]
    show Res.ok _ = Res.ok (Ev.str (G [] l.text), _)
    rw [hx.2, e2]
    simp [e2]

end

/-! ## Rules -/

/-- C114: what a rule finds depends on the path only if keywords may be in paths, and then only on whether one is. -/
theorem C114_rule (r : RegexRule) (info : RuleInfo) (scope : Scope) (kwPaths : Bool) (fuel : Str → Nat) (p p' : Path)
    (h : ∀ k, r.included = some k → kwPaths = true → k.inPath (sanitizePath p) = k.inPath (sanitizePath p')) (c : Str) (ex : Bool) :
    (r.toCRule info scope kwPaths fuel).run c p ex = (r.toCRule info scope kwPaths fuel).run c p' ex := by
  show stringMatches r kwPaths ex c p (fuel c) = stringMatches r kwPaths ex c p' (fuel c)
  unfold stringMatches
  cases hk : r.included with
  | none => rfl
  | some k =>
    simp only [withIncluded]
    cases kwPaths with
    | false => rfl
    | true => simp only [pathPart, h k hk rfl]

/-! ## Example -/

private def fld (s : String) : Seg := .field s.toList

private def fs : List (String × Ev) → Fields
  | [] => .nil
  | (k, v) :: r => .cons k.toList v (fs r)

private def fp : Fingerprint := ⟨fun s => s.length, fun s => s.length⟩

private def rl (t : String) (a : Action) (s : Scope) : CRule :=
  RegexRule.toCRule ⟨textRx t.toList, none, none, none⟩ ⟨a, false⟩ s false (fun c => blen c + 1)

private def sc (s : Scope) : Scanner := ⟨[rl "a@b" (.redact "#".toList) s, rl "@" .none s], false, true, true, fp⟩

private def one : Ev := .map (fs [("n", .str "x a@b".toList), ("m", .str "@".toList)])
private def other : Ev := .list (.cons (.map (fs [("id", .str "x a@b".toList)])) (.cons (.str "@".toList) .nil))

private def result (r : Res (Ev × List RuleMatch)) : Res (List Str × List (Path × Nat × Nat)) :=
  r.map fun x => ((x.1.leaves false).map (·.text), x.2.map fun o => (o.path, o.start, o.stop))

private theorem sc_ok (s : Scope) : ScannerOk (sc s) := by
  intro rule h
  simp only [sc, List.mem_cons, List.not_mem_nil, or_false] at h
  rcases h with rfl | rfl
  · exact regexRule_ok (textRx_ok _ (by simp)).1 (textRx_ok _ (by simp)).2 (by intro k hk; cases hk)
      (by intro c; omega) (by simp) _ false
  · exact regexRule_ok (textRx_ok _ (by simp)).1 (textRx_ok _ (by simp)).2 (by intro k hk; cases hk)
      (by intro c; omega) (by simp) _ false

private theorem returns (s : Scope) (leaves : List Leaf) : Returns (sc s) leaves := by
  intro rule h l _ ex
  simp only [sc, List.mem_cons, List.not_mem_nil, or_false] at h
  rcases h with rfl | rfl
  · exact stringMatches_returns (r := ⟨textRx _, none, none, none⟩) (textRx_ok _ (by simp)).1 (textRx_ok _ (by simp)).2
      (by intro k hk; cases hk) false ex (by intro _ x hx; cases hx) l.path (Nat.lt_succ_self _)
  · exact stringMatches_returns (r := ⟨textRx _, none, none, none⟩) (textRx_ok _ (by simp)).1 (textRx_ok _ (by simp)).2
      (by intro k hk; cases hk) false ex (by intro _ x hx; cases hx) l.path (Nat.lt_succ_self _)

private theorem no_fixed {leaves : List Leaf} (h : ∀ l ∈ leaves, l.fixed = false) {s : Scope} :
    ∀ l ∈ leaves, l.fixed = true → ∀ m, ¬ Candidate (sc s) [] l.path l.text m :=
  fun l hl hf => by rw [h l hl] at hf; cases hf

/-- The hypotheses are met: a map and a list with a map in it, with the same two texts. -/
example : ScannerOk (sc (.excl [])) ∧ PathBlind (sc (.excl [])) ∧
    Scannable WellKeyed (Ev.leaves false) (sc (.excl [])) [] one ∧ Scannable WellKeyed (Ev.leaves false) (sc (.excl [])) [] other ∧
    (one.leaves false).map (·.text) = (other.leaves false).map (·.text) ∧
    result (scan jsonEvent (sc (.excl [])) one []) =
      Res.ok (["x #".toList, "@".toList], [([fld "n"], 2, 3), ([fld "m"], 0, 1)]) ∧
    result (scan jsonEvent (sc (.excl [])) other []) =
      Res.ok (["x #".toList, "@".toList], [([.index 0, fld "id"], 2, 3), ([.index 1], 0, 1)]) := by
  refine ⟨sc_ok _, ?_, ⟨?_, returns _ _, no_fixed (by decide +kernel)⟩, ⟨?_, returns _ _, no_fixed (by decide +kernel)⟩,
    by decide +kernel, by decide +kernel, by decide +kernel⟩
  · intro rule h
    simp only [sc, List.mem_cons, List.not_mem_nil, or_false] at h
    rcases h with rfl | rfl
    · exact ⟨rfl, fun c p p' ex => C114_rule _ _ _ _ _ p p' (by intro k _ h; cases h) c ex⟩
    · exact ⟨rfl, fun c p p' ex => C114_rule _ _ _ _ _ p p' (by intro k _ h; cases h) c ex⟩
  · simp [one, fs, WellKeyed, WellKeyedFields, keys]
  · simp [other, fs, WellKeyed, WellKeyedFields, WellKeyedItems, keys]

/-- C114: with a scope the names do matter. -/
theorem C114_scopes_matter :
    result (scan jsonEvent (sc (.excl [[.index 0, fld "id"]])) one []) =
      Res.ok (["x #".toList, "@".toList], [([fld "n"], 2, 3), ([fld "m"], 0, 1)]) ∧
    result (scan jsonEvent (sc (.excl [[.index 0, fld "id"]])) other []) = Res.ok (["x a@b".toList, "@".toList], []) := by
  exact ⟨by decide +kernel, by decide +kernel⟩

end Sds.Props
