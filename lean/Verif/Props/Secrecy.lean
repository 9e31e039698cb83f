import Verif.Spec.Secrecy
import Verif.Props.EndToEnd

/-! # C103: what leaves a scan does not depend on the texts it hides -/

namespace Sds.Props
open Sds Spec

private theorem digitChar_inj {a b : Nat} (ha : a < 16) (hb : b < 16) (h : a.digitChar = b.digitChar) : a = b := by
  have : ∀ a : Fin 16, ∀ b : Fin 16, a.val.digitChar = b.val.digitChar → a = b := by decide +kernel
  exact congrArg Fin.val (this ⟨a, ha⟩ ⟨b, hb⟩ h)

/-- Different numbers are written with different hexadecimal digits. -/
private theorem hex_inj (a : Nat) : ∀ b, Nat.toDigits 16 a = Nat.toDigits 16 b → a = b := by
  induction a using Nat.strongRecOn with
  | _ a ih =>
    intro b h
    have hpos : ∀ n, 0 < (Nat.toDigits 16 n).length := fun n => List.length_pos_iff.2 Nat.toDigits_ne_nil
    rcases Nat.lt_or_ge a 16 with ha | ha <;> rcases Nat.lt_or_ge b 16 with hb | hb
    · rw [Nat.toDigits_of_lt_base ha, Nat.toDigits_of_lt_base hb] at h
      exact digitChar_inj ha hb (List.cons.inj h).1
    · rw [Nat.toDigits_of_lt_base ha, Nat.toDigits_of_base_le (by decide) hb] at h
      have := congrArg List.length h
      have := hpos (b / 16)
      simp only [List.length_cons, List.length_nil, List.length_append] at *
      omega
    · rw [Nat.toDigits_of_lt_base hb, Nat.toDigits_of_base_le (by decide) ha] at h
      have := congrArg List.length h
      have := hpos (a / 16)
      simp only [List.length_cons, List.length_nil, List.length_append] at *
      omega
    · rw [Nat.toDigits_of_base_le (by decide) ha, Nat.toDigits_of_base_le (by decide) hb] at h
      obtain ⟨h1, h2⟩ := List.append_inj' h rfl
      have h3 := ih (a / 16) (by omega) _ h1
      have h4 := digitChar_inj (by omega) (by omega) (List.cons.inj h2).1
      omega

/-- C103: an action gives the same text for two matches exactly if they are alike.  So the relation is neither too weak
(nothing else is visible in the new text) nor too strong. -/
theorem C103_alike (fp : Fingerprint) (a : Action) (t t' : Str) : redacted fp a t = redacted fp a t' ↔ Alike fp a t t' := by
  cases a with
  | none => exact Iff.rfl
  | redact r => exact ⟨fun _ => trivial, fun _ => rfl⟩
  | hash => exact ⟨fun h => hex_inj _ _ h, fun h => congrArg (Nat.toDigits 16) h⟩
  | utf16Hash => exact ⟨fun h => hex_inj _ _ h, fun h => congrArg (Nat.toDigits 16) h⟩
  | partialFirst n =>
    constructor
    · intro h
      refine ⟨t.drop n, (List.take_append_drop n t).symm, ?_⟩
      rw [(List.append_inj h rfl).2]
      exact (List.take_append_drop n t').symm
    · rintro ⟨kept, h1, h2⟩
      have e1 : kept = t.drop n := List.append_cancel_left (h1.symm.trans (List.take_append_drop n t).symm)
      have e2 : kept = t'.drop n := List.append_cancel_left (h2.symm.trans (List.take_append_drop n t').symm)
      simp only [redacted, ← e1, ← e2]
  | partialLast n =>
    constructor
    · intro h
      have hk := (List.append_inj' h rfl).1
      refine ⟨t.take (t.length - n), t.drop (t.length - n), t'.drop (t'.length - n), (List.take_append_drop _ t).symm, ?_, ?_, ?_⟩
      · rw [hk]; exact (List.take_append_drop _ t').symm
      · intro hne
        have h1 := List.length_pos_iff.2 hne
        have h2 := hk ▸ h1
        simp only [List.length_take, List.length_drop] at *
        omega
      · intro hnil
        have h1 := congrArg List.length hnil
        have h2 := congrArg List.length (hk ▸ hnil)
        simp only [List.length_take, List.length_drop, List.length_nil] at *
        omega
    · rintro ⟨kept, u, u', rfl, rfl, h1, h2⟩
      have : ∀ w : Str, (kept ≠ [] → w.length = n) → (kept = [] → w.length ≤ n) →
          (kept ++ w).take ((kept ++ w).length - n) = kept := by
        intro w h1 h2
        by_cases hk : kept = []
        · subst hk
          have := h2 rfl
          simp only [List.nil_append]
          rw [show w.length - n = 0 by omega, List.take_zero]
        · have := h1 hk
          rw [List.length_append, show kept.length + w.length - n = kept.length by omega, List.take_left]
      simp only [redacted]
      rw [this u (fun h => (h1 h).1) (fun h => (h2 h).1), this u' (fun h => (h1 h).2) (fun h => (h2 h).2)]

example (fp : Fingerprint) : Alike fp (.partialLast 2) "abcd".toList "abxy".toList ∧ Alike fp (.partialLast 2) "a".toList "xy".toList ∧
    ¬ Alike fp (.partialLast 2) "abc".toList "xbc".toList ∧ Alike fp (.partialFirst 2) "abz".toList "xyz".toList := by
  refine ⟨⟨"ab".toList, "cd".toList, "xy".toList, by decide⟩, ⟨[], "a".toList, "xy".toList, by decide⟩, ?_,
    ⟨"z".toList, by decide⟩⟩
  rw [← C103_alike]
  simp only [redacted]
  decide

private theorem ranges_ge (ps : List Piece) : ∀ o, ∀ m ∈ ranges o ps, o ≤ m.st := by
  induction ps with
  | nil => intro o m h; cases h
  | cons p ps ih =>
    intro o m h
    rcases List.mem_cons.1 h with rfl | h
    · simp
    · have := ih _ m h; omega

private theorem ranges_ordered (ps : List Piece) : ∀ o, (ranges o ps).Pairwise (fun a b => a.en ≤ b.st) := by
  induction ps with
  | nil => intro o; exact .nil
  | cons p ps ih => intro o; exact .cons (fun m hm => ranges_ge ps _ m hm) (ih _)

private theorem pieces_inj : ∀ {ps ps' : List Piece} {tail tail' : Str} {o : Nat}, input ps tail = input ps' tail' →
    ranges o ps = ranges o ps' → ps = ps' ∧ tail = tail'
  | [], [], _, _, _, h, _ => ⟨rfl, h⟩
  | [], _ :: _, _, _, _, _, h => by cases h
  | _ :: _, [], _, _, _, _, h => by cases h
  | p :: ps, p' :: ps', tail, tail', o, h, hr => by
    simp only [ranges, List.cons.injEq, M.mk.injEq] at hr
    obtain ⟨⟨h1, h2, h3⟩, h4⟩ := hr
    simp only [input, List.append_assoc] at h
    obtain ⟨e1, h⟩ := append_inj_blen h (by omega)
    obtain ⟨e2, h⟩ := append_inj_blen h (by omega)
    rw [h3] at h4
    obtain ⟨rfl, rfl⟩ := pieces_inj h h4
    obtain ⟨_, _, _⟩ := p
    obtain ⟨_, _, _⟩ := p'
    simp only at h1 e1 e2
    subst h1 e1 e2
    exact ⟨rfl, rfl⟩

/-- The result of a string is that of the pieces it is cut into. -/
private theorem result_of_cut {enc : Enc} {sc : Scanner} (hok : ScannerOk sc) {blocked : List Nat} {leaves : List Leaf} {l : Leaf}
    {os : List RuleMatch} {new : Str} {ps : List Piece} {tail : Str} (h : LeafResult enc sc blocked leaves l os new)
    (hc : CutAt sc blocked leaves l ps tail) :
    os = reports enc.units (infoOf sc) (fun r t => redacted sc.fp (infoOf sc r).action t) sc.returnMatches l.path [] [] ps ∧
    new = output (fun r t => redacted sc.fp (infoOf sc r).action t) ps tail := by
  obtain ⟨ks, res, qs, tl, h1, h2, h3, h4, h5, h6, h7⟩ := h
  obtain ⟨c1, ks', c2, c3⟩ := hc
  have hsame : ∀ m, m ∈ ks ↔ m ∈ ks' := fun m => by rw [h1, c2]
  have hlt : ∀ m ∈ ks, m.st < m.en := fun m hm => (((h1 m).1 hm).1.bounds hok).1
  have hr : ranges 0 qs = ranges 0 ps := by
    rw [← h5]
    exact ordered_ext (fun m hm => hlt m (h2.1 m hm)) (fun m hm => hlt m ((hsame m).2 (c3.1 m hm))) h3
      (ranges_ordered ps 0) (isResolution_unique hsame h2 c3)
  obtain ⟨rfl, rfl⟩ := pieces_inj (h4.symm.trans c1) hr
  exact ⟨h6, h7⟩

private theorem output_alike {sc : Scanner} : ∀ {ps ps' : List Piece} (tail : Str), AlikePieces sc ps ps' →
    output (fun r t => redacted sc.fp (infoOf sc r).action t) ps tail =
      output (fun r t => redacted sc.fp (infoOf sc r).action t) ps' tail
  | [], [], _, _ => rfl
  | [], _ :: _, _, h => h.elim
  | _ :: _, [], _, h => h.elim
  | p :: ps, p' :: ps', tail, h => by
    obtain ⟨⟨h1, h2, h3⟩, h4⟩ := h
    simp only [output]
    rw [h1, (C103_alike _ _ _ _).2 h3, h2, output_alike tail h4]

private theorem reports_alike {sc : Scanner} {units : Str → Nat} {rm : Bool} {path : Path} :
    ∀ {ps ps' : List Piece} (inn inn' out : Str), AlikePieces sc ps ps' →
    (reports units (infoOf sc) (fun r t => redacted sc.fp (infoOf sc r).action t) rm path inn out ps).map shown =
      (reports units (infoOf sc) (fun r t => redacted sc.fp (infoOf sc r).action t) rm path inn' out ps').map shown
  | [], [], _, _, _, _ => rfl
  | [], _ :: _, _, _, _, h => h.elim
  | _ :: _, [], _, _, _, h => h.elim
  | p :: ps, p' :: ps', inn, inn', out, h => by
    obtain ⟨⟨h1, h2, h3⟩, h4⟩ := h
    have h5 := (C103_alike _ _ _ _).2 h3
    simp only [reports, List.map_cons, shown]
    rw [h1, h5, h2]
    exact congrArg (List.cons _) (reports_alike _ _ _ h4)

/-- The texts have the same number of code units, piece by piece. -/
private theorem reports_same {sc : Scanner} {enc : Enc} (he : LawfulEnc enc) {path : Path} :
    ∀ {ps ps' : List Piece} (inn inn' out : Str), enc.units inn = enc.units inn' → AlikePieces sc ps ps' →
    ps.map (fun p => enc.units p.text) = ps'.map (fun p => enc.units p.text) →
    reports enc.units (infoOf sc) (fun r t => redacted sc.fp (infoOf sc r).action t) false path inn out ps =
      reports enc.units (infoOf sc) (fun r t => redacted sc.fp (infoOf sc r).action t) false path inn' out ps'
  | [], [], _, _, _, _, _, _ => rfl
  | [], _ :: _, _, _, _, _, h, _ => h.elim
  | _ :: _, [], _, _, _, _, h, _ => h.elim
  | p :: ps, p' :: ps', inn, inn', out, hi, h, hu => by
    obtain ⟨⟨h1, h2, h3⟩, h4⟩ := h
    have h5 := (C103_alike _ _ _ _).2 h3
    simp only [List.map_cons, List.cons.injEq] at hu
    have hi' : enc.units (inn ++ p.gap ++ p.text) = enc.units (inn' ++ p'.gap ++ p'.text) := by
      simp only [he.units_append]
      rw [hi, h1, hu.1]
    simp only [reports]
    rw [hi', reports_same he _ _ _ hi' h4 hu.2, h1, h5, h2]
    rfl

variable {E : Type} {impl : EventImpl E} {wf : E → Prop} {leavesOf : E → List Leaf} {rew : (Path → Str → Str) → E → E}

private theorem noReports {enc : Enc} {sc : Scanner} {blocked : List Nat} {leaves : List Leaf} {l : Leaf}
    {os : List RuleMatch} {new : Str} (h : LeafResult enc sc blocked leaves l os new)
    (hn : ∀ m, ¬ Candidate sc blocked l.path l.text m) : os = [] := by
  obtain ⟨ks, res, qs, tl, h1, h2, h3, h4, h5, h6, h7⟩ := h
  have : qs = [] := by
    cases qs with
    | nil => rfl
    | cons q qs =>
      have hm : (⟨q.rule, 0 + blen q.gap, 0 + blen q.gap + blen q.text⟩ : M) ∈ res := by
        rw [h5]; exact List.mem_cons_self
      exact absurd ((h1 _).1 (h2.1 _ hm)).1 (hn _)
  rw [h6, this]
  rfl

private theorem both_scans (hE : LawfulEvent impl wf leavesOf rew) {sc : Scanner} (hok : ScannerOk sc) (blocked : List Nat)
    (e : E) (H : Path → Str → Str) (h : Scannable wf leavesOf sc blocked e) (h' : Scannable wf leavesOf sc blocked (rew H e))
    {P : List Piece → List Piece → Prop} (hd : DiffersInSecrets leavesOf rew sc blocked e H P)
    {α : Type} {f : RuleMatch → α}
    (hf : ∀ (path : Path) (ps ps' : List Piece), AlikePieces sc ps ps' → P ps ps' →
      (reports impl.enc.units (infoOf sc) (fun r t => redacted sc.fp (infoOf sc r).action t) sc.returnMatches path [] [] ps).map f =
      (reports impl.enc.units (infoOf sc) (fun r t => redacted sc.fp (infoOf sc r).action t) sc.returnMatches path [] [] ps').map f) :
    ∃ after os os', scan impl sc e blocked = Res.ok (after, os) ∧ scan impl sc (rew H e) blocked = Res.ok (after, os') ∧
      os.map f = os'.map f := by
  obtain ⟨out, G, h1, h2⟩ := C10_scan_result hE hok blocked e h
  obtain ⟨out', G', h1', h2'⟩ := C10_scan_result hE hok blocked (rew H e) h'
  have hmem : ∀ l ∈ leavesOf e, l.fixed = false → { l with text := H l.path l.text } ∈ leavesOf (rew H e) := by
    intro l hl hfx
    rw [hE.leaves_rew]
    exact List.mem_map.2 ⟨l, hl, by simp [hfx]⟩
  have hsame : rew G' (rew H e) = rew G e := by
    rw [hE.rew_rew]
    refine (hE.rew_congr _ _ e h.wf fun l hl hfx => ?_).symm
    obtain ⟨ps, ps', tail, c1, c2, c3, _⟩ := hd l hl hfx
    have r1 := result_of_cut hok (h2 l hl).1 c1
    have r2 := result_of_cut hok (h2' _ (hmem l hl hfx)).1 c2
    rw [(h2 l hl).2, r1.2, output_alike tail c3, ← r2.2]
    exact (h2' _ (hmem l hl hfx)).2.symm
  rw [hsame] at h1'
  refine ⟨rew G e, _, _, h1, h1', ?_⟩
  · rw [hE.leaves_rew, List.map_flatMap, List.map_flatMap, List.flatMap_map]
    refine congrArg List.flatten (List.map_congr_left fun l hl => ?_)
    by_cases hfx : l.fixed = true
    · rw [if_pos hfx]
      have hl' : l ∈ leavesOf (rew H e) := by
        rw [hE.leaves_rew]
        exact List.mem_map.2 ⟨l, hl, by simp [hfx]⟩
      rw [noReports (h2 l hl).1 (h.strings l hl hfx), noReports (h2' l hl').1 (h'.strings l hl' hfx)]
    · have hfx : l.fixed = false := by simpa using hfx
      obtain ⟨ps, ps', tail, c1, c2, c3, c4⟩ := hd l hl hfx
      rw [if_neg (by simp [hfx])]
      rw [(result_of_cut hok (h2 l hl).1 c1).1, (result_of_cut hok (h2' _ (hmem l hl hfx)).1 c2).1]
      exact hf _ _ _ c3 c4

/-- C103: two events that differ only in texts which the actions of the rules hide become equal, and the reports show the same
rules, paths, positions, kinds and statuses.  (The reports may differ in `shift_offset` and, if match values are asked for, in
these.) -/
theorem C103_hidden (hE : LawfulEvent impl wf leavesOf rew) {sc : Scanner} (hok : ScannerOk sc) (blocked : List Nat)
    (e : E) (H : Path → Str → Str) (h : Scannable wf leavesOf sc blocked e) (h' : Scannable wf leavesOf sc blocked (rew H e))
    (hd : DiffersInSecrets leavesOf rew sc blocked e H fun _ _ => True) :
    ∃ after os os', scan impl sc e blocked = Res.ok (after, os) ∧ scan impl sc (rew H e) blocked = Res.ok (after, os') ∧
      os.map shown = os'.map shown :=
  both_scans hE hok blocked e H h h' hd fun _ _ _ ha _ => reports_alike _ _ _ ha

/-- C103: if the hidden texts also have the same lengths (in the code units of the event) and match values are not returned, the
results of the two scans are equal. -/
theorem C103_hidden_same_length (hE : LawfulEvent impl wf leavesOf rew) {sc : Scanner} (hok : ScannerOk sc)
    (hrm : sc.returnMatches = false) (blocked : List Nat)
    (e : E) (H : Path → Str → Str) (h : Scannable wf leavesOf sc blocked e) (h' : Scannable wf leavesOf sc blocked (rew H e))
    (hd : DiffersInSecrets leavesOf rew sc blocked e H fun ps ps' =>
      ps.map (fun p => impl.enc.units p.text) = ps'.map (fun p => impl.enc.units p.text)) :
    ∃ r, scan impl sc e blocked = Res.ok r ∧ scan impl sc (rew H e) blocked = Res.ok r := by
  obtain ⟨after, os, os', h1, h2, h3⟩ := both_scans (f := id) hE hok blocked e H h h' hd fun path ps ps' ha hp => by
    rw [hrm, reports_same hE.enc [] [] [] rfl ha hp]
  simp only [List.map_id_fun, id_eq] at h3
  subst h3
  exact ⟨_, h1, h2⟩

/-! A scanner whose only rule replaces `a@b`, `c@dd` and `e@ff` by `#`, and events with one of these texts. -/

private def orRx (x y : Rx) : Rx := fun c p => match x c p with
  | some e => some e
  | none => y c p

private theorem orRx_ok {x y : Rx} (hx : LawfulRx x ∧ NonEmptyRx x) (hy : LawfulRx y ∧ NonEmptyRx y) :
    LawfulRx (orRx x y) ∧ NonEmptyRx (orRx x y) := by
  constructor
  · intro c p e h
    simp only [orRx] at h
    split at h
    · next h' => exact hx.1 c p e (h ▸ h')
    · exact hy.1 c p e h
  · intro c p e h
    simp only [orRx] at h
    split at h
    · next h' => exact hx.2 c p e (h ▸ h')
    · exact hy.2 c p e h

private def secretRx : Rx := orRx (textRx "a@b".toList) (orRx (textRx "c@dd".toList) (textRx "e@ff".toList))

private theorem secretRx_ok : LawfulRx secretRx ∧ NonEmptyRx secretRx :=
  orRx_ok (textRx_ok _ (by simp)) (orRx_ok (textRx_ok _ (by simp)) (textRx_ok _ (by simp)))

private def exFp : Fingerprint := ⟨fun t => t.length, fun t => t.length⟩

private def sc (rm : Bool) : Scanner :=
  ⟨[RegexRule.toCRule ⟨secretRx, none, none, none⟩ ⟨.redact "#".toList, false⟩ (.excl []) false (fun c => blen c + 1)],
    false, false, rm, exFp⟩

private def ev (t : String) : Ev := .map (.cons "n".toList (.str t.toList) .nil)

private def hide (t : String) : Path → Str → Str := fun _ _ => t.toList

private theorem sc_ok (rm : Bool) : ScannerOk (sc rm) := by
  intro rule h
  simp only [sc, List.mem_cons, List.not_mem_nil, or_false] at h
  subst h
  exact regexRule_ok secretRx_ok.1 secretRx_ok.2 (by intro k hk; cases hk) (by intro c; omega) (by simp) _ false

private theorem ev_scannable (rm : Bool) (t : String) : Scannable WellKeyed (Ev.leaves false) (sc rm) [] (ev t) where
  wf := by simp [ev, WellKeyed, WellKeyedFields, keys]
  returns := by
    intro rule h l _ ex
    simp only [sc, List.mem_cons, List.not_mem_nil, or_false] at h
    subst h
    exact stringMatches_returns (r := ⟨secretRx, none, none, none⟩) secretRx_ok.1 secretRx_ok.2
        (by intro k hk; cases hk) false ex (by intro _ x hx; cases hx) l.path (Nat.lt_succ_self _)
  strings := by
    intro l hl hf
    have hall : Ev.leaves false (ev t) = [⟨[.field "n".toList], t.toList, false⟩] := rfl
    rw [hall, List.mem_singleton] at hl
    rw [hl] at hf
    cases hf

private theorem cut_of (rm : Bool) {leaves : List Leaf} {l : Leaf} {q : Piece} (hq : q.rule = 0)
    (hr : (sc rm).rules.map (fun r => r.run l.text l.path false) = [Res.ok ⟨[(blen q.gap, blen q.gap + blen q.text)], []⟩])
    {tail : Str} (hl : l.text = input [q] tail) : CutAt (sc rm) [] leaves l [q] tail := by
  refine ⟨hl, ranges 0 [q], fun m => ?_, ?_⟩
  · have hrun : ∀ rule, (sc rm).rules[0]? = some rule →
        rule.run l.text l.path false = Res.ok ⟨[(blen q.gap, blen q.gap + blen q.text)], []⟩ := by
      intro rule h
      have := congrArg (fun x => x[0]?) hr
      simp only [List.getElem?_map, h, Option.map_some, List.getElem?_cons_zero, Option.some.injEq] at this
      exact this
    simp only [ranges, hq, Nat.zero_add, List.mem_singleton]
    constructor
    · rintro rfl
      refine ⟨⟨_, _, ⟨by simp, rfl, trivial, ?_⟩, hrun _ rfl, List.mem_singleton.2 rfl⟩, fun h => by cases h.1⟩
      exact ⟨fun h => (by cases h), fun h => by obtain ⟨x, hx, _⟩ := h; cases hx⟩
    · rintro ⟨⟨rule, f, ⟨_, h2, _⟩, h3, h4⟩, _⟩
      have h0 : m.rule = 0 := by
        have := (List.getElem?_eq_some_iff.1 h2).1
        simp only [sc, List.length_cons, List.length_nil] at this
        omega
      rw [h0] at h2
      rw [hrun rule h2] at h3
      obtain rfl := Res.ok.inj h3
      simp only [List.mem_singleton, Prod.mk.injEq] at h4
      obtain ⟨r, s, e⟩ := m
      simp only at h0 h4
      rw [h0, h4.1, h4.2]
  · refine ⟨fun m hm => hm, fun m hm => ⟨fun _ => ?_, fun _ => hm⟩⟩
    rintro ⟨r, hr', hh, _⟩
    simp only [ranges, List.mem_singleton] at hm hr'
    rw [hm, hr'] at hh
    simp only [Higher] at hh
    rcases hh with ⟨h1, h2⟩ | ⟨_, h⟩
    · rw [h1] at h2; cases h2
    · omega

/-- Two events with secrets of different lengths (match values returned): the hypotheses of `C103_hidden` are met. -/
example : LawfulEvent jsonEvent WellKeyed (Ev.leaves false) rewrite ∧ ScannerOk (sc true) ∧
    Scannable WellKeyed (Ev.leaves false) (sc true) [] (ev "x a@b y") ∧
    Scannable WellKeyed (Ev.leaves false) (sc true) [] (rewrite (hide "x c@dd y") (ev "x a@b y")) ∧
    DiffersInSecrets (Ev.leaves false) rewrite (sc true) [] (ev "x a@b y") (hide "x c@dd y") fun _ _ => True := by
  refine ⟨jsonEvent_lawful, sc_ok _, ev_scannable _ _, ev_scannable _ "x c@dd y", ?_⟩
  intro l hl _
  have hall : Ev.leaves false (ev "x a@b y") = [⟨[.field "n".toList], "x a@b y".toList, false⟩] := rfl
  rw [hall, List.mem_singleton] at hl
  subst hl
  refine ⟨[⟨"x ".toList, "a@b".toList, 0⟩], [⟨"x ".toList, "c@dd".toList, 0⟩], " y".toList, cut_of true rfl (by decide +kernel) (by decide),
    cut_of true rfl (by decide +kernel) (by decide), ⟨⟨rfl, rfl, trivial⟩, trivial⟩, trivial⟩

/-- Secrets of the same length: the hypotheses of `C103_hidden_same_length` are met. -/
example : (sc false).returnMatches = false ∧ Scannable WellKeyed (Ev.leaves false) (sc false) [] (ev "c@dd") ∧
    Scannable WellKeyed (Ev.leaves false) (sc false) [] (rewrite (hide "e@ff") (ev "c@dd")) ∧
    DiffersInSecrets (Ev.leaves false) rewrite (sc false) [] (ev "c@dd") (hide "e@ff") (fun ps ps' =>
      ps.map (fun p => jsonEvent.enc.units p.text) = ps'.map (fun p => jsonEvent.enc.units p.text)) := by
  refine ⟨rfl, ev_scannable _ _, ev_scannable _ "e@ff", ?_⟩
  intro l hl _
  have hall : Ev.leaves false (ev "c@dd") = [⟨[.field "n".toList], "c@dd".toList, false⟩] := rfl
  rw [hall, List.mem_singleton] at hl
  subst hl
  exact ⟨[⟨[], "c@dd".toList, 0⟩], [⟨[], "e@ff".toList, 0⟩], [], cut_of false rfl (by decide +kernel) (by decide),
    cut_of false rfl (by decide +kernel) (by decide), ⟨⟨rfl, rfl, trivial⟩, trivial⟩, rfl⟩

/-- C103: the length of a hidden text does leave the scan, as `shift_offset`, also if match values are not returned. -/
theorem C103_shift_tells_length :
    (scan jsonEvent (sc false) (ev "x a@b y") []).map (fun r => ((r.1.leaves false).map (·.text),
        r.2.map fun o => (o.start, o.stop, o.shift))) = Res.ok (["x # y".toList], [(2, 3, -2)]) ∧
    (scan jsonEvent (sc false) (ev "x c@dd y") []).map (fun r => ((r.1.leaves false).map (·.text),
        r.2.map fun o => (o.start, o.stop, o.shift))) = Res.ok (["x # y".toList], [(2, 3, -3)]) := by
  constructor <;> decide +kernel

end Sds.Props
