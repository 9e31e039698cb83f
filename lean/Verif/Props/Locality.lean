import Verif.Spec.Locality
import Verif.Props.EndToEnd

/-! # C105: the result of a string depends on its path, its text and the remembered texts only -/

namespace Sds.Props
open Sds Spec

private theorem pieces_inj : ∀ {ps ps' : List Piece} {tail tail' : Str} {o : Nat}, input ps tail = input ps' tail' →
    ranges o ps = ranges o ps' → ps = ps' ∧ tail = tail'
  | [], [], _, _, _, h, _ => ⟨rfl, h⟩
  | [], _ :: _, _, _, _, _, h => by cases h
  | _ :: _, [], _, _, _, _, h => by cases h
  | p :: ps, p' :: ps', tail, tail', o, h, hr => by
    simp only [ranges, List.cons.injEq, M.mk.injEq] at hr
    obtain ⟨⟨h1, h2, h3⟩, h4⟩ := hr
    simp only [input, List.append_assoc] at h
    obtain ⟨e1, h⟩ := append_inj_blen h (by omega)
    obtain ⟨e2, h⟩ := append_inj_blen h (by omega)
    rw [h3] at h4
    obtain ⟨rfl, rfl⟩ := pieces_inj h h4
    obtain ⟨_, _, _⟩ := p
    obtain ⟨_, _, _⟩ := p'
    simp only at h1 e1 e2
    subst h1 e1 e2
    exact ⟨rfl, rfl⟩

/-- A result of a string, for arbitrary remembered texts. -/
def ResultOf (enc : Enc) (sc : Scanner) (blocked : List Nat) (S : Str → Prop) (path : Path) (c : Str)
    (r : List RuleMatch × Str) : Prop :=
  ∃ (ks res : List M) (ps : List Piece) (tail : Str),
    (∀ m, m ∈ ks ↔ Candidate sc blocked path c m ∧ ¬ ∃ rule t, sc.rules[m.rule]? = some rule ∧ rule.multipass = true ∧
      TextAt c m.st m.en t ∧ S t) ∧
    IsResolution (redacting sc) ks res ∧ res.Pairwise (fun a b => a.en ≤ b.st) ∧ c = input ps tail ∧ res = ranges 0 ps ∧
    r.1 = reports enc.units (infoOf sc) (fun r t => redacted sc.fp (infoOf sc r).action t) sc.returnMatches path [] [] ps ∧
    r.2 = output (fun r t => redacted sc.fp (infoOf sc r).action t) ps tail

theorem resultOf_unique {enc : Enc} {sc : Scanner} (hok : ScannerOk sc) {blocked : List Nat} {S : Str → Prop} {path : Path}
    {c : Str} {r r' : List RuleMatch × Str} (h : ResultOf enc sc blocked S path c r) (h' : ResultOf enc sc blocked S path c r') :
    r = r' := by
  obtain ⟨ks, res, ps, tail, h1, h2, h3, h4, h5, h6, h7⟩ := h
  obtain ⟨ks', res', ps', tail', h1', h2', h3', h4', h5', h6', h7'⟩ := h'
  have hsame : ∀ m, m ∈ ks ↔ m ∈ ks' := fun m => by rw [h1, h1']
  have hlt : ∀ m ∈ ks, m.st < m.en := fun m hm => (((h1 m).1 hm).1.bounds hok).1
  have hr := ordered_ext (fun m hm => hlt m (h2.1 m hm)) (fun m hm => hlt m ((hsame m).2 (h2'.1 m hm))) h3 h3'
    (isResolution_unique hsame h2 h2')
  rw [h5, h5'] at hr
  obtain ⟨rfl, rfl⟩ := pieces_inj (h4.symm.trans h4') hr
  exact Prod.ext (h6.trans h6'.symm) (h7.trans h7'.symm)

theorem resultOf_leaf {enc : Enc} {sc : Scanner} {blocked : List Nat} {leaves : List Leaf} {l : Leaf}
    {r : List RuleMatch × Str} (h : LeafResult enc sc blocked leaves l r.1 r.2) :
    ResultOf enc sc blocked (Remembered sc blocked leaves) l.path l.text r := by
  obtain ⟨ks, res, ps, tail, h1, h⟩ := h
  refine ⟨ks, res, ps, tail, fun m => ?_, h⟩
  rw [h1]
  unfold Kept Suppressed Remembered
  refine and_congr_right fun _ => not_congr ⟨?_, ?_⟩
  · rintro ⟨a, rule, t, b, c, d, e⟩; exact ⟨rule, t, b, c, d, a, e⟩
  · rintro ⟨rule, t, b, c, d, a, e⟩; exact ⟨a, rule, t, b, c, d, e⟩

open Classical in
/-- The result, if there is one. -/
private noncomputable def theResult (enc : Enc) (sc : Scanner) (blocked : List Nat) (S : Str → Prop) (path : Path) (c : Str) :
    List RuleMatch × Str :=
  if h : ∃ r, ResultOf enc sc blocked S path c r then h.choose else ([], c)

private theorem flatMap_congr {α β : Type} {l : List α} {f g : α → List β} (h : ∀ a ∈ l, f a = g a) : l.flatMap f = l.flatMap g :=
  congrArg List.flatten (List.map_congr_left h)

private theorem sublist_flatMap {α β : Type} (f : α → List β) : ∀ {l l' : List α}, l.Sublist l' → (l.flatMap f).Sublist (l'.flatMap f)
  | _, _, .slnil => .slnil
  | _, _, .cons a h => by
    rw [List.flatMap_cons]
    exact (sublist_flatMap f h).trans (List.sublist_append_right _ _)
  | _, _, .cons_cons a h => by
    rw [List.flatMap_cons, List.flatMap_cons]
    exact (List.Sublist.refl _).append (sublist_flatMap f h)

/-- C105: for a scanner and blocked rules there is one function of a path, a text and the remembered texts, such that every scan of
every event of every kind gives each of its strings the result of this function. -/
theorem C105_one_function (enc : Enc) {sc : Scanner} (hok : ScannerOk sc) (blocked : List Nat) :
    ∃ F, ScansBy enc sc blocked F := by
  refine ⟨theResult enc sc blocked, fun E impl wf leavesOf rew hE henc e hs => ?_⟩
  subst henc
  obtain ⟨out, G, h1, h2⟩ := C10_scan_result hE hok blocked e hs
  have key : ∀ l ∈ leavesOf e, theResult impl.enc sc blocked (Remembered sc blocked (leavesOf e)) l.path l.text = out l := by
    intro l hl
    have hr := resultOf_leaf (h2 l hl).1
    have hex : ∃ r, ResultOf impl.enc sc blocked (Remembered sc blocked (leavesOf e)) l.path l.text r := ⟨_, hr⟩
    unfold theResult
    rw [dif_pos hex]
    exact resultOf_unique hok hex.choose_spec hr
  rw [h1]
  refine congrArg Res.ok (Prod.ext ?_ ?_)
  · refine hE.rew_congr _ _ e hs.wf fun l hl _ => ?_
    rw [(h2 l hl).2, key l hl]
  · exact flatMap_congr fun l hl => by rw [key l hl]

section
variable {E E' : Type} {impl : EventImpl E} {wf : E → Prop} {leavesOf : E → List Leaf} {rew : (Path → Str → Str) → E → E}
  {impl' : EventImpl E'} {wf' : E' → Prop} {leavesOf' : E' → List Leaf} {rew' : (Path → Str → Str) → E' → E'}

private theorem scans_by (hE : LawfulEvent impl wf leavesOf rew) (hE' : LawfulEvent impl' wf' leavesOf' rew')
    (henc : impl'.enc = impl.enc) {sc : Scanner} (hok : ScannerOk sc) (blocked : List Nat) (e : E) (e' : E')
    (hs : Scannable wf leavesOf sc blocked e) (hs' : Scannable wf' leavesOf' sc blocked e')
    (hm : sc.multipassEnabled = true → ∀ t, FoundInExcluded sc blocked (leavesOf e) t ↔ FoundInExcluded sc blocked (leavesOf' e') t) :
    ∃ out : Path → Str → List RuleMatch × Str,
      scan impl sc e blocked =
        Res.ok (rew (fun p c => (out p c).2) e, (leavesOf e).flatMap fun l => (out l.path l.text).1) ∧
      scan impl' sc e' blocked =
        Res.ok (rew' (fun p c => (out p c).2) e', (leavesOf' e').flatMap fun l => (out l.path l.text).1) := by
  obtain ⟨F, hF⟩ := C105_one_function impl.enc hok blocked
  have h1 := hF E impl wf leavesOf rew hE rfl e hs
  have h2 := hF E' impl' wf' leavesOf' rew' hE' henc e' hs'
  have hS : Remembered sc blocked (leavesOf' e') = Remembered sc blocked (leavesOf e) := by
    funext t
    unfold Remembered
    exact propext (and_congr_right fun h => (hm h t).symm)
  rw [hS] at h2
  exact ⟨_, h1, h2⟩

/-- C105: more strings change nothing for the others.  If an event has, in the same order, the strings of another one (which may be
of another kind) and more, and its scan remembers the same texts, then it has the same reports and the same new texts, and more. -/
theorem C105_more_strings (hE : LawfulEvent impl wf leavesOf rew) (hE' : LawfulEvent impl' wf' leavesOf' rew')
    (henc : impl'.enc = impl.enc) {sc : Scanner} (hok : ScannerOk sc) (blocked : List Nat) (e : E) (e' : E')
    (hs : Scannable wf leavesOf sc blocked e) (hs' : Scannable wf' leavesOf' sc blocked e')
    (hm : sc.multipassEnabled = true → ∀ t, FoundInExcluded sc blocked (leavesOf e) t ↔ FoundInExcluded sc blocked (leavesOf' e') t)
    (hsub : (leavesOf e).Sublist (leavesOf' e')) :
    ∃ after os after' os', scan impl sc e blocked = Res.ok (after, os) ∧ scan impl' sc e' blocked = Res.ok (after', os') ∧
      os.Sublist os' ∧ (leavesOf after).Sublist (leavesOf' after') := by
  obtain ⟨out, h1, h2⟩ := scans_by hE hE' henc hok blocked e e' hs hs' hm
  refine ⟨_, _, _, _, h1, h2, sublist_flatMap _ hsub, ?_⟩
  rw [hE.leaves_rew, hE'.leaves_rew]
  exact hsub.map _

/-- C105: the order of the strings only changes the order of the reports. -/
theorem C105_other_order (hE : LawfulEvent impl wf leavesOf rew) (hE' : LawfulEvent impl' wf' leavesOf' rew')
    (henc : impl'.enc = impl.enc) {sc : Scanner} (hok : ScannerOk sc) (blocked : List Nat) (e : E) (e' : E')
    (hs : Scannable wf leavesOf sc blocked e) (hs' : Scannable wf' leavesOf' sc blocked e')
    (hperm : (leavesOf e).Perm (leavesOf' e')) :
    ∃ after os after' os', scan impl sc e blocked = Res.ok (after, os) ∧ scan impl' sc e' blocked = Res.ok (after', os') ∧
      os.Perm os' ∧ (leavesOf after).Perm (leavesOf' after') := by
  obtain ⟨out, h1, h2⟩ := scans_by hE hE' henc hok blocked e e' hs hs' fun _ t => by
    unfold FoundInExcluded
    simp only [hperm.mem_iff]
  refine ⟨_, _, _, _, h1, h2, hperm.flatMap_right _, ?_⟩
  rw [hE.leaves_rew, hE'.leaves_rew]
  exact hperm.map _

end

/-! ## The remembered texts do matter; examples -/

private def fld (s : String) : Seg := .field s.toList

private def fs : List (String × Ev) → Fields
  | [] => .nil
  | (k, v) :: r => .cons k.toList v (fs r)

private def fp : Fingerprint := ⟨fun s => s.length, fun s => s.length⟩

private def rl (t : String) (a : Action) (s : Scope) : CRule :=
  RegexRule.toCRule ⟨textRx t.toList, none, none, none⟩ ⟨a, false⟩ s false (fun c => blen c + 1)

private def sc (multipass : Bool) : Scanner :=
  ⟨[rl "a@b" (.redact "#".toList) (.excl [[fld "id"]]), rl "@" .none (.excl [])], false, multipass, true, fp⟩

private def small : Fields := fs [("n", .str "x a@b".toList), ("m", .str "@".toList)]
private def large : Ev :=
  .map (fs [("n", .str "x a@b".toList), ("id", .str "a@b".toList), ("m", .str "@".toList), ("message", .str "a@b".toList)])

private def result {E : Type} (leaves : E → List Leaf) (r : Res (E × List RuleMatch)) : Res (List Str × List Path) :=
  r.map fun x => ((leaves x.1).map (·.text), x.2.map (·.path))

/-- C105: with the multi-pass heuristic, what is found in an excluded field is remembered, and changes the result of others. -/
theorem C105_remembered_matters :
    result (fun m => m.leaves false (fun _ => true)) (scan hashMapEvent (sc true) small []) =
      Res.ok (["x #".toList, "@".toList], [[fld "n"], [fld "m"]]) ∧
    result (Ev.leaves false) (scan jsonEvent (sc true) large []) =
      Res.ok (["x a@b".toList, "a@b".toList, "@".toList, "a@b".toList], [[fld "n"], [fld "id"], [fld "m"], [fld "message"]]) := by
  decide +kernel

private theorem sc_ok (b : Bool) : ScannerOk (sc b) := by
  intro rule h
  simp only [sc, List.mem_cons, List.not_mem_nil, or_false] at h
  rcases h with rfl | rfl
  · exact regexRule_ok (textRx_ok _ (by simp)).1 (textRx_ok _ (by simp)).2 (by intro k hk; cases hk)
      (by intro c; omega) (by simp) _ false
  · exact regexRule_ok (textRx_ok _ (by simp)).1 (textRx_ok _ (by simp)).2 (by intro k hk; cases hk)
      (by intro c; omega) (by simp) _ false

private theorem returns (b : Bool) (leaves : List Leaf) : Returns (sc b) leaves := by
  intro rule h l _ ex
  simp only [sc, List.mem_cons, List.not_mem_nil, or_false] at h
  rcases h with rfl | rfl
  · exact stringMatches_returns (r := ⟨textRx _, none, none, none⟩) (textRx_ok _ (by simp)).1 (textRx_ok _ (by simp)).2
      (by intro k hk; cases hk) false ex (by intro _ x hx; cases hx) l.path (Nat.lt_succ_self _)
  · exact stringMatches_returns (r := ⟨textRx _, none, none, none⟩) (textRx_ok _ (by simp)).1 (textRx_ok _ (by simp)).2
      (by intro k hk; cases hk) false ex (by intro _ x hx; cases hx) l.path (Nat.lt_succ_self _)

private theorem no_fixed {leaves : List Leaf} (h : ∀ l ∈ leaves, l.fixed = false) {b : Bool} :
    ∀ l ∈ leaves, l.fixed = true → ∀ m, ¬ Candidate (sc b) [] l.path l.text m :=
  fun l hl hf => by rw [h l hl] at hf; cases hf

/-- The hypotheses of `C105_more_strings` are met: a map and a JSON value with two more fields, without the heuristic. -/
example : ScannerOk (sc false) ∧ hashMapEvent.enc = jsonEvent.enc ∧
    Scannable WellKeyedFields (fun m => m.leaves false (fun _ => true)) (sc false) [] small ∧
    Scannable WellKeyed (Ev.leaves false) (sc false) [] large ∧
    (small.leaves false (fun _ => true)).Sublist (large.leaves false) ∧
    result (fun m => m.leaves false (fun _ => true)) (scan hashMapEvent (sc false) small []) =
      Res.ok (["x #".toList, "@".toList], [[fld "n"], [fld "m"]]) ∧
    result (Ev.leaves false) (scan jsonEvent (sc false) large []) =
      Res.ok (["x #".toList, "a@b".toList, "@".toList, "#".toList], [[fld "n"], [fld "id"], [fld "m"], [fld "message"]]) :=
  ⟨sc_ok _, rfl,
    ⟨by simp [small, fs, WellKeyed, WellKeyedFields, keys], returns _ _, no_fixed (by decide +kernel)⟩,
    ⟨by simp [large, fs, WellKeyed, WellKeyedFields, keys], returns _ _, no_fixed (by decide +kernel)⟩,
    by decide +kernel, by decide +kernel, by decide +kernel⟩

/-- The hypotheses of `C105_other_order` are met, with the heuristic: a simple event is visited in another order (`message` first)
than a JSON value with the same fields. -/
example : Scannable WellKeyed (Ev.leaves false) (sc true) [] large ∧ Scannable WellKeyed (Ev.leaves true) (sc true) [] large ∧
    (large.leaves false).Perm (large.leaves true) ∧ large.leaves false ≠ large.leaves true ∧
    result (Ev.leaves true) (scan simpleEvent (sc true) large []) =
      Res.ok (["a@b".toList, "x a@b".toList, "a@b".toList, "@".toList], [[fld "message"], [fld "n"], [fld "id"], [fld "m"]]) :=
  ⟨⟨by simp [large, fs, WellKeyed, WellKeyedFields, keys], returns _ _, no_fixed (by decide +kernel)⟩,
    ⟨by simp [large, fs, WellKeyed, WellKeyedFields, keys], returns _ _, no_fixed (by decide +kernel)⟩,
    by decide +kernel, by decide +kernel, by decide +kernel⟩

end Sds.Props
