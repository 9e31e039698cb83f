import Verif.Spec.GoSecrecy
import Verif.Lemmas.GoRewrite
import Verif.Props.GoRun
import Verif.Props.Secrecy

/-! # C106: what a caller of the Go package gets does not depend on hidden texts -/

namespace Sds.Props
open Sds Sds.Spec Sds.Re

variable {T : Tables} {O : Outside} {D : Dates} {gs : List GoRule} {rs : List (RustRule × Ast)}

private theorem hidden_output : ∀ {ps ps' : List Piece} (tail : Str), HiddenPieces O rs ps ps' →
    rewritten O rs ps tail = rewritten O rs ps' tail
  | [], [], _, _ => rfl
  | [], _ :: _, _, h => h.elim
  | _ :: _, [], _, h => h.elim
  | p :: ps, p' :: ps', tail, h => by
    obtain ⟨⟨h1, h2, h3⟩, h4⟩ := h
    have := hidden_output tail h4
    unfold rewritten at this ⊢
    simp only [output]
    rw [h1, (C103_alike _ _ _ _).2 h3, h2, this]

private theorem hidden_symm : ∀ {ps ps' : List Piece}, HiddenPieces O rs ps ps' → HiddenPieces O rs ps' ps
  | [], [], _ => trivial
  | [], _ :: _, h => h.elim
  | _ :: _, [], h => h.elim
  | p :: ps, p' :: ps', h => by
    obtain ⟨⟨h1, h2, h3⟩, h4⟩ := h
    refine ⟨⟨h1.symm, h2.symm, ?_⟩, hidden_symm h4⟩
    rw [← C103_alike] at h3 ⊢
    rw [← h2, h3]

private theorem hidden_split : ∀ {ps ps' before after : List Piece} {q : Piece}, HiddenPieces O rs ps ps' →
    ps = before ++ q :: after → ∃ before' q' after', ps' = before' ++ q' :: after' ∧ HiddenPieces O rs before before' ∧
      HiddenPieces O rs (before ++ [q]) (before' ++ [q']) ∧ q.gap = q'.gap ∧ q.rule = q'.rule ∧
      before.length = before'.length
  | [], _, [], _, _, _, e => by cases e
  | [], _, _ :: _, _, _, _, e => by cases e
  | _ :: _, [], _, _, _, h, _ => h.elim
  | p :: ps, p' :: ps', [], after, q, h, e => by
    simp only [List.nil_append, List.cons.injEq] at e
    obtain ⟨rfl, rfl⟩ := e
    obtain ⟨h1, h2⟩ := h
    exact ⟨[], p', ps', rfl, trivial, ⟨h1, trivial⟩, h1.1, h1.2.1, rfl⟩
  | p :: ps, p' :: ps', b :: before, after, q, h, e => by
    simp only [List.cons_append, List.cons.injEq] at e
    obtain ⟨rfl, e⟩ := e
    obtain ⟨h1, h2⟩ := h
    obtain ⟨b', q', a', e', k1, k2, k3, k4, k5⟩ := hidden_split h2 e
    exact ⟨p' :: b', q', a', by rw [e']; rfl, ⟨h1, k1⟩, ⟨h1, k2⟩, k3, k4, by simp [k5]⟩

/-- A match that Go gets for one of the texts is shown like one that Go gets for the other. -/
private theorem hidden_reported {ps ps' : List Piece} (h : HiddenPieces O rs ps ps') {p : Path} {m : GoMatch}
    (hm : Reported O rs p ps m) : ∃ m', Reported O rs p ps' m' ∧ goShown m = goShown m' := by
  obtain ⟨before, q, after, e, m1, m2, m3, m4, m5, _⟩ := hm
  obtain ⟨before', q', after', e', h1, h2, h3, h4, _⟩ := hidden_split h e
  refine ⟨⟨q'.rule, utf8 (displayPath p), kindOf (actionAt rs q'.rule), blen (rewritten O rs before' q'.gap),
    blen (rewritten O rs (before' ++ [q']) []), _⟩, ⟨before', q', after', e', rfl, rfl, rfl, rfl, rfl, rfl⟩, ?_⟩
  unfold goShown
  dsimp only
  rw [m1, m2, m3, m4, m5, h4, hidden_output _ h1, hidden_output _ h2, h3]

private theorem never_empty (h : AskFor T gs rs) : ∀ x ∈ rs, NeverEmpty T (meaning T x.2 noFlags).1 := by
  intro x hx
  obtain ⟨i, hi, he⟩ := List.mem_iff_getElem.1 hx
  have hi' : i < gs.length := by rw [h.length]; exact hi
  exact (h.rule i _ x (List.getElem?_eq_getElem hi') (by rw [List.getElem?_eq_getElem hi, he])).2.2.neverEmpty

/-- What `C81_go_rules_partial` says about an event, with its only cut. -/
private theorem run_cut (hO : Faithful T O) (h : AskFor T gs rs) (hn : rs.length ≤ 4294967296)
    (hc : ∃ sc, goScanner O D gs = some sc) {ev : GoFields} (hev : GoRegular T O rs ev) :
    ∃ G res, goRun O D gs ev = Res.ok (some (goRewrite G (.map ev), res)) ∧
      (∀ p s, GoAt (.map ev) (goPath p) (.str (utf8 s)) → ∀ ps tail, Cut T O rs s ps tail →
        G (goPath p) (utf8 s) = utf8 (rewritten O rs ps tail)) ∧
      (res.mutated = true ↔ ∃ p s ps tail, GoAt (.map ev) (goPath p) (.str (utf8 s)) ∧ Cut T O rs s ps tail ∧
        ∃ q ∈ ps, actionAt rs q.rule ≠ .none) ∧
      ∀ m, m ∈ res.matches_ ↔ ∃ p s ps tail, GoAt (.map ev) (goPath p) (.str (utf8 s)) ∧ Cut T O rs s ps tail ∧
        Reported O rs p ps m := by
  obtain ⟨size, h1, h2⟩ := hev.fits
  obtain ⟨G, res, e, cutOf, c1, c2, c3⟩ := C81_go_rules_partial hO h hn hc ev hev.keyed hev.sized hev.keys hev.strings
    hev.regular size h1 h2
  have huniq : ∀ {p s}, GoAt (.map ev) (goPath p) (.str (utf8 s)) → ∀ {ps tail}, Cut T O rs s ps tail →
      ps = (cutOf p s).1 ∧ tail = (cutOf p s).2 :=
    fun hat _ _ hcut => C81_cut_unique (never_empty h) (hev.keywords _ _ hat) hcut (c1 _ _ hat).1
  refine ⟨G, res, e, fun p s hat ps tail hcut => ?_, ?_, fun m => ?_⟩
  · obtain ⟨rfl, rfl⟩ := huniq hat hcut
    exact (c1 p s hat).2
  · rw [c2]
    constructor
    · rintro ⟨p, s, hat, hq⟩
      exact ⟨p, s, _, _, hat, (c1 p s hat).1, hq⟩
    · rintro ⟨p, s, ps, tail, hat, hcut, hq⟩
      obtain ⟨rfl, rfl⟩ := huniq hat hcut
      exact ⟨p, s, hat, hq⟩
  · rw [c3]
    constructor
    · rintro ⟨p, s, hat, hq⟩
      exact ⟨p, s, _, _, hat, (c1 p s hat).1, hq⟩
    · rintro ⟨p, s, ps, tail, hat, hcut, hq⟩
      obtain ⟨rfl, rfl⟩ := huniq hat hcut
      exact ⟨p, s, hat, hq⟩

private theorem hidden_acts {ps ps' : List Piece} (h : HiddenPieces O rs ps ps') (hq : ∃ q ∈ ps, actionAt rs q.rule ≠ .none) :
    ∃ q ∈ ps', actionAt rs q.rule ≠ .none := by
  obtain ⟨q, hq, ha⟩ := hq
  obtain ⟨before, after, e⟩ := List.append_of_mem hq
  obtain ⟨b', q', a', e', _, _, _, h4, _⟩ := hidden_split h e
  exact ⟨q', by rw [e']; simp, by rw [← h4]; exact ha⟩

/-- The same number of bytes is hidden in each piece. -/
private theorem same_input : ∀ {ps ps' : List Piece}, HiddenPieces O rs ps ps' →
    ps.map (fun p => blen p.text) = ps'.map (fun p => blen p.text) → blen (input ps []) = blen (input ps' [])
  | [], [], _, _ => rfl
  | [], _ :: _, h, _ => h.elim
  | _ :: _, [], h, _ => h.elim
  | p :: ps, p' :: ps', h, e => by
    simp only [List.map_cons, List.cons.injEq] at e
    have := same_input h.2 e.2
    simp only [input, blen_append]
    rw [h.1.1, e.1, this]

private theorem hidden_reported_same {ps ps' : List Piece} (h : HiddenPieces O rs ps ps')
    (hl : ps.map (fun p => blen p.text) = ps'.map (fun p => blen p.text)) {p : Path} {m : GoMatch}
    (hm : Reported O rs p ps m) : Reported O rs p ps' m := by
  obtain ⟨before, q, after, e, m1, m2, m3, m4, m5, m6⟩ := hm
  obtain ⟨before', q', after', e', h1, h2, h3, h4, h5⟩ := hidden_split h e
  refine ⟨before', q', after', e', by rw [m1, h4], m2, by rw [m3, h4], ?_, ?_, ?_⟩
  · rw [m4, hidden_output _ h1, h3]
  · rw [m5, hidden_output _ h2]
  · rw [m6, hidden_output _ h2, same_input h2]
    rw [e, e'] at hl
    have e1 : ∀ (b : List Piece) (x : Piece) (a : List Piece), (b ++ x :: a).map (fun p => blen p.text) =
        (b ++ [x]).map (fun p => blen p.text) ++ a.map (fun p => blen p.text) := by simp
    rw [e1 before, e1 before'] at hl
    exact (List.append_inj hl (by simp [h5])).1

/-- The two runs, with the texts and cuts side by side. -/
private theorem side_by_side (hO : Faithful T O) (h : AskFor T gs rs) (hn : rs.length ≤ 4294967296)
    (hc : ∃ sc, goScanner O D gs = some sc) {ev ev' : GoFields} (hev : GoRegular T O rs ev) (hev' : GoRegular T O rs ev')
    (H : List GoSeg → Bytes → Bytes) (hH : GoVal.map ev' = goRewrite H (.map ev)) (P : List Piece → List Piece → Prop)
    (hdiff : ∀ p s, GoAt (.map ev) (goPath p) (.str (utf8 s)) → ∃ s', H (goPath p) (utf8 s) = utf8 s' ∧ HiddenText T O rs P s s') :
    ∃ out res res', goRun O D gs ev = Res.ok (some (out, res)) ∧ goRun O D gs ev' = Res.ok (some (out, res')) ∧
      res.mutated = res'.mutated ∧
      (∀ m ∈ res.matches_, ∃ p ps ps', HiddenPieces O rs ps ps' ∧ P ps ps' ∧ Reported O rs p ps m ∧
        ∀ m', Reported O rs p ps' m' → m' ∈ res'.matches_) ∧
      (∀ m' ∈ res'.matches_, ∃ p ps ps', HiddenPieces O rs ps ps' ∧ P ps ps' ∧ Reported O rs p ps' m' ∧
        ∀ m, Reported O rs p ps m → m ∈ res.matches_) := by
  obtain ⟨G, res, e, c1, c2, c3⟩ := run_cut hO h hn hc hev
  obtain ⟨G', res', e', c1', c2', c3'⟩ := run_cut hO h hn hc hev'
  have hgo : ∀ {p s}, GoAt (.map ev) (goPath p) (.str (utf8 s)) → ∀ {s'}, H (goPath p) (utf8 s) = utf8 s' →
      GoAt (.map ev') (goPath p) (.str (utf8 s')) := by
    intro p s hat s' hs
    rw [hH, ← hs]
    exact goAt_rew hat
  have hback : ∀ {p s'}, GoAt (.map ev') (goPath p) (.str (utf8 s')) → ∃ s ps ps' tail,
      GoAt (.map ev) (goPath p) (.str (utf8 s)) ∧ Cut T O rs s ps tail ∧ Cut T O rs s' ps' tail ∧ HiddenPieces O rs ps ps' ∧
        P ps ps' := by
    intro p s' hat
    rw [hH] at hat
    obtain ⟨b, h1, h2⟩ := goAt_of_rew hat
    obtain ⟨s, rfl⟩ := hev.strings _ _ h1
    obtain ⟨s'', h3, ps, ps', tail, k1, k2, k3, k4⟩ := hdiff p s h1
    rw [h3] at h2
    have : s' = s'' := utf8_inj h2
    subst this
    exact ⟨s, ps, ps', tail, h1, k1, k2, k3, k4⟩
  have hout : goRewrite G' (.map ev') = goRewrite G (.map ev) := by
    rw [hH, GoVal.rew_rew]
    refine GoVal.rew_congr _ _ _ (fun q b hat => ?_)
    obtain ⟨p, rfl⟩ := goAt_goPath hev.keys hat
    obtain ⟨s, rfl⟩ := hev.strings _ _ hat
    obtain ⟨s', h3, ps, ps', tail, k1, k2, k3, _⟩ := hdiff p s hat
    rw [h3, c1 p s hat ps tail k1, c1' p s' (hgo hat h3) ps' tail k2, hidden_output _ k3]
  refine ⟨_, res, res', e, hout ▸ e', ?_, fun m hm => ?_, fun m' hm' => ?_⟩
  · rw [Bool.eq_iff_iff, c2, c2']
    constructor
    · rintro ⟨p, s, ps0, tail0, hat, hcut, hq⟩
      obtain ⟨s', h3, ps, ps', tail, k1, k2, k3, _⟩ := hdiff p s hat
      obtain ⟨rfl, rfl⟩ := C81_cut_unique (never_empty h) (hev.keywords _ _ hat) hcut k1
      exact ⟨p, s', ps', _, hgo hat h3, k2, hidden_acts k3 hq⟩
    · rintro ⟨p, s', ps0, tail0, hat, hcut, hq⟩
      obtain ⟨s, ps, ps', tail, h1, k1, k2, k3, _⟩ := hback hat
      obtain ⟨rfl, rfl⟩ := C81_cut_unique (never_empty h) (hev'.keywords _ _ hat) hcut k2
      exact ⟨p, s, ps, _, h1, k1, hidden_acts (hidden_symm k3) hq⟩
  · obtain ⟨p, s, ps0, tail0, hat, hcut, hq⟩ := (c3 m).1 hm
    obtain ⟨s', h3, ps, ps', tail, k1, k2, k3, k4⟩ := hdiff p s hat
    obtain ⟨rfl, rfl⟩ := C81_cut_unique (never_empty h) (hev.keywords _ _ hat) hcut k1
    exact ⟨p, _, ps', k3, k4, hq, fun m' hm' => (c3' m').2 ⟨p, s', ps', _, hgo hat h3, k2, hm'⟩⟩
  · obtain ⟨p, s', ps0, tail0, hat, hcut, hq⟩ := (c3' m').1 hm'
    obtain ⟨s, ps, ps', tail, h1, k1, k2, k3, k4⟩ := hback hat
    obtain ⟨rfl, rfl⟩ := C81_cut_unique (never_empty h) (hev'.keywords _ _ hat) hcut k2
    exact ⟨p, ps, _, k3, k4, hq, fun m hm => (c3 m).2 ⟨p, s, ps, _, h1, k1, hm⟩⟩

/-- C106: two events of the Go package whose strings differ only in what the rules hide.  `ScanEventsMap` leaves the caller with
the same event, with the same answer to whether it was changed, and with matches that differ in the shift only.  Missing: the
irregular cases of C81, and the shift, which tells the length of the hidden text. -/
theorem C106_go_hidden_partial (hO : Faithful T O) (h : AskFor T gs rs) (hn : rs.length ≤ 4294967296)
    (hc : ∃ sc, goScanner O D gs = some sc) {ev ev' : GoFields} (hev : GoRegular T O rs ev) (hev' : GoRegular T O rs ev')
    (H : List GoSeg → Bytes → Bytes) (hH : GoVal.map ev' = goRewrite H (.map ev))
    (hdiff : ∀ p s, GoAt (.map ev) (goPath p) (.str (utf8 s)) →
      ∃ s', H (goPath p) (utf8 s) = utf8 s' ∧ HiddenText T O rs (fun _ _ => True) s s') :
    ∃ out res res', goRun O D gs ev = Res.ok (some (out, res)) ∧ goRun O D gs ev' = Res.ok (some (out, res')) ∧
      res.mutated = res'.mutated ∧ (∀ x, x ∈ res.matches_.map goShown ↔ x ∈ res'.matches_.map goShown) := by
  obtain ⟨out, res, res', e, e', h1, h2, h3⟩ := side_by_side hO h hn hc hev hev' H hH _ hdiff
  refine ⟨out, res, res', e, e', h1, fun x => ?_⟩
  constructor
  · intro hx
    obtain ⟨m, hm, rfl⟩ := List.mem_map.1 hx
    obtain ⟨p, ps, ps', k1, _, k2, k3⟩ := h2 m hm
    obtain ⟨m', k4, k5⟩ := hidden_reported k1 k2
    exact List.mem_map.2 ⟨m', k3 m' k4, k5.symm⟩
  · intro hx
    obtain ⟨m, hm, rfl⟩ := List.mem_map.1 hx
    obtain ⟨p, ps, ps', k1, _, k2, k3⟩ := h3 m hm
    obtain ⟨m', k4, k5⟩ := hidden_reported (hidden_symm k1) k2
    exact List.mem_map.2 ⟨m', k3 m' k4, k5.symm⟩

/-- C106: if the hidden texts have the same lengths as well, the matches are the same. -/
theorem C106_go_hidden_same_length_partial (hO : Faithful T O) (h : AskFor T gs rs) (hn : rs.length ≤ 4294967296)
    (hc : ∃ sc, goScanner O D gs = some sc) {ev ev' : GoFields} (hev : GoRegular T O rs ev) (hev' : GoRegular T O rs ev')
    (H : List GoSeg → Bytes → Bytes) (hH : GoVal.map ev' = goRewrite H (.map ev))
    (hdiff : ∀ p s, GoAt (.map ev) (goPath p) (.str (utf8 s)) → ∃ s', H (goPath p) (utf8 s) = utf8 s' ∧
      HiddenText T O rs (fun ps ps' => ps.map (fun p => blen p.text) = ps'.map (fun p => blen p.text)) s s') :
    ∃ out res res', goRun O D gs ev = Res.ok (some (out, res)) ∧ goRun O D gs ev' = Res.ok (some (out, res')) ∧
      res.mutated = res'.mutated ∧ (∀ m, m ∈ res.matches_ ↔ m ∈ res'.matches_) := by
  obtain ⟨out, res, res', e, e', h1, h2, h3⟩ := side_by_side hO h hn hc hev hev' H hH _ hdiff
  refine ⟨out, res, res', e, e', h1, fun m => ⟨fun hm => ?_, fun hm => ?_⟩⟩
  · obtain ⟨p, ps, ps', k1, kl, k2, k3⟩ := h2 m hm
    exact k3 m (hidden_reported_same k1 kl k2)
  · obtain ⟨p, ps, ps', k1, kl, k2, k3⟩ := h3 m hm
    exact k3 m (hidden_reported_same (hidden_symm k1) kl.symm k2)

/-! ## An example -/

/-- `x acb` or `x adb` -/
private def exText (d : Bool) : Str := if d then "x adb".toList else "x acb".toList
private def exEvent (d : Bool) : GoFields := .cons (utf8 "n".toList) (.str (utf8 (exText d))) .nil
private def exGo : GoRule := goRedactingRule (utf8 "id".toList) (utf8 "a[b-d]+".toList) (utf8 "#".toList) ⟨none, []⟩
private def exRule : RustRule := ⟨"a[b-d]+".toList, .redact "#".toList, none, none, .excl [], [], none⟩
private def exPiece (d : Bool) : Piece := ⟨"x ".toList, if d then "adb".toList else "acb".toList, 0⟩

private theorem ex_at {d : Bool} {p : List GoSeg} {w : GoVal} (h : GoAt (.map (exEvent d)) p w) :
    (p = [] ∧ w = .map (exEvent d)) ∨ (p = [.field (utf8 "n".toList)] ∧ w = .str (utf8 (exText d))) := by
  cases h with
  | here => exact .inl ⟨rfl, rfl⟩
  | field hk hp =>
    rcases hk with ⟨rfl, rfl⟩ | hk
    · cases hp
      exact .inr ⟨rfl, rfl⟩
    · cases hk

private theorem ex_str {d : Bool} {p : Path} {s : Str} (h : GoAt (.map (exEvent d)) (goPath p) (.str (utf8 s))) :
    p = [.field "n".toList] ∧ s = exText d := by
  rcases ex_at h with ⟨_, h⟩ | ⟨hp, h⟩
  · cases h
  · simp only [GoVal.str.injEq] at h
    exact ⟨goPath_inj (q := [.field "n".toList]) hp, utf8_inj h⟩

private theorem ex_set (T : Tables) (c : Char) :
    classSet T noFlags (.bracket false [.range 'b' 'd']) c ↔ between 'b' 'd' c := by
  simp [classSet, signed, itemSet, near, noFlags]

private theorem ex_preferred (T : Tables) (d : Bool) : Preferred T (meaning T rangePattern noFlags).1 (exText d) 2 5 := by
  cases d
  · exact rangePattern_preferred T
  · refine ⟨"x ".toList, "adb".toList, 3, rfl, rfl, ?_, rfl⟩
    rw [rangePattern_meaning]
    have hc : between 'b' 'd' 'd' := by unfold between; decide
    have hb : between 'b' 'd' 'b' := by unfold between; decide
    simp [tries, triesSeq, repTries, ex_set, hc, hb, near]

private theorem ex_only {d : Bool} {s e : Nat} (hm : Preferred T (meaning T rangePattern noFlags).1 (exText d) s e) :
    s = 2 ∧ e = 5 := by
  have hs : s = 2 := by
    obtain ⟨b, m, q, e1, e2, e3, hsp⟩ := (C79_preferred_match T _ _ _).1 _ hm
    have : ∃ m', m = 'a' :: m' := by
      rw [rangePattern_meaning] at hsp
      cases hsp with
      | seqCons h1 _ =>
        cases h1 with
        | set h => exact ⟨_, by simp [near] at h; rw [h]; rfl⟩
    obtain ⟨m', rfl⟩ := this
    have e1' : ['x', ' ', 'a', (if d then 'd' else 'c'), 'b'] = b ++ 'a' :: m' ++ q := by rw [← e1]; cases d <;> rfl
    match b, e1', e2 with
    | [], e, _ => simp at e
    | [_], e, _ => simp at e
    | [y, z], e, e2 =>
      simp only [List.cons_append, List.nil_append, List.cons.injEq] at e
      rw [← e2, ← e.1, ← e.2.1]
      decide
    | [_, _, _], e, _ => cases d <;> simp at e
    | [_, _, _, _], e, _ => simp at e
    | _ :: _ :: _ :: _ :: _ :: _, e, _ => simp at e
  subst hs
  exact ⟨rfl, (C79_preferred_match T _ _ _).2.1 _ _ hm (ex_preferred T d)⟩

private theorem ex_cut (T : Tables) (d : Bool) :
    Cut T (plainOutside T) [(exRule, rangePattern)] (exText d) [exPiece d] [] := by
  refine ⟨by cases d <;> rfl, fun _ => [(2, 5)], [⟨0, 2, 5⟩], ?_, ?_, ?_⟩
  · intro i x hx
    have hi : i = 0 := by
      have := (List.getElem?_eq_some_iff.1 hx).1
      simpa using this
    subst hi
    cases hx
    refine .inl ⟨(by rintro ⟨k, hk, _⟩; cases hk), ?_⟩
    refine .cons (by omega) ⟨ex_preferred T d, fun v hv => (by cases hv), fun k hk => (by cases hk)⟩ ?_ (.nil ?_)
    · intro p q _ hp h
      have := (ex_only h.1).1
      omega
    · intro p q hp h
      have := (ex_only h.1).1
      omega
  · intro m
    obtain ⟨r, s, e⟩ := m
    simp
  · have hr : ranges 0 [exPiece d] = [⟨0, 2, 5⟩] := by cases d <;> rfl
    rw [hr]
    refine ⟨fun m hm => hm, fun m hm => ⟨fun _ => ?_, fun _ => hm⟩⟩
    obtain rfl := List.mem_singleton.1 hm
    rintro ⟨r, hr, hh, _⟩
    obtain rfl : r = ⟨0, 2, 5⟩ := List.mem_singleton.1 hr
    revert hh
    simp [Higher]

private theorem ex_regular (T : Tables) (d : Bool) : GoRegular T (plainOutside T) [(exRule, rangePattern)] (exEvent d) where
  keyed := by
    simp only [exEvent, GoKeyed, GoKeyedFields, goKeys, and_true]
    decide
  sized := by
    simp only [exEvent, GoSized, GoSizedFields, and_true]
    cases d <;> decide +kernel
  keys := by
    intro p m k w hp hw
    rcases ex_at hp with ⟨_, h⟩ | ⟨_, h⟩
    · cases h
      rcases hw with ⟨rfl, _⟩ | hw
      · exact ⟨_, rfl⟩
      · cases hw
    · cases h
  strings := by
    intro p b hp
    rcases ex_at hp with ⟨_, h⟩ | ⟨_, h⟩
    · cases h
    · cases h
      exact ⟨_, rfl⟩
  regular := by
    intro p s _ x hx
    obtain rfl := List.mem_singleton.1 hx
    exact ⟨fun _ k hk => (by cases hk), fun k hk => (by cases hk)⟩
  keywords := by
    intro p s _ x hx k hk
    obtain rfl := List.mem_singleton.1 hx
    cases hk
  fits := by
    refine ⟨fun _ => 3, fun p s hat ps tail hcut => ?_, fun leaves h => ?_⟩
    · obtain ⟨_, rfl⟩ := ex_str hat
      obtain ⟨rfl, rfl⟩ := C81_cut_unique
        (fun x hx => by obtain rfl := List.mem_singleton.1 hx; exact rangePattern_neverEmpty T)
        (fun x hx k hk => by obtain rfl := List.mem_singleton.1 hx; cases hk) hcut (ex_cut T d)
      cases d <;> exact Nat.le_refl 3
    · have hall : ∀ l ∈ leaves, l = ⟨[.field "n".toList], exText d, false⟩ := by
        rintro ⟨p, t, f⟩ hl
        obtain ⟨hf, b, hb, ht⟩ := (h.2 _).1 hl
        dsimp only at hf hb ht
        rcases ex_at hb with ⟨_, hw⟩ | ⟨hp, hw⟩
        · cases hw
        · cases hw
          have hp' := goPath_inj (q := [.field "n".toList]) hp
          rw [hf, ht, hp', lossy_utf8]
      match leaves, h, hall with
      | [], _, _ => simp
      | [l], _, hall =>
        rw [hall l List.mem_cons_self]
        cases d <;> decide +kernel
      | l :: l' :: _, h, hall =>
        have := h.1
        rw [hall l List.mem_cons_self, hall l' (List.mem_cons_of_mem _ List.mem_cons_self)] at this
        simp at this

/-- The events `{"n": "x acb"}` and `{"n": "x adb"}` and a rule that replaces the matches of `a[b-d]+` by `#`: all hypotheses of
C106 are met. -/
example (T : Tables) : Faithful T (plainOutside T) ∧ AskFor T [exGo] [(exRule, rangePattern)] ∧
    (∃ sc, goScanner (plainOutside T) D [exGo] = some sc) ∧
    GoRegular T (plainOutside T) [(exRule, rangePattern)] (exEvent false) ∧
    GoRegular T (plainOutside T) [(exRule, rangePattern)] (exEvent true) ∧ exEvent false ≠ exEvent true ∧
    ∃ H, GoVal.map (exEvent true) = goRewrite H (.map (exEvent false)) ∧
      ∀ p s, GoAt (.map (exEvent false)) (goPath p) (.str (utf8 s)) → ∃ s', H (goPath p) (utf8 s) = utf8 s' ∧
        HiddenText T (plainOutside T) [(exRule, rangePattern)]
          (fun ps ps' => ps.map (fun p => blen p.text) = ps'.map (fun p => blen p.text)) s s' := by
  have hask : AskFor T [exGo] [(exRule, rangePattern)] := by
    refine ⟨rfl, fun i g' x hg' hx => ?_⟩
    have hi : i = 0 := by
      have := (List.getElem?_eq_some_iff.1 hx).1
      simpa using this
    subst hi
    cases hg'
    cases hx
    exact ⟨⟨by decide, by intro k hk; cases hk⟩, ⟨rfl, .redact _ rfl rfl, trivial, rfl, rfl, rfl, rfl⟩,
      rangePattern_denotes, rangePattern_convertible, rangePattern_neverEmpty T⟩
  refine ⟨plainOutside_faithful T, hask, ?_, ex_regular T false, ex_regular T true, ?_,
    fun _ _ => utf8 (exText true), rfl, fun p s hat => ⟨_, rfl, ?_⟩⟩
  · rw [C81_created_iff _ D hask]
    intro x hx
    obtain rfl := List.mem_singleton.1 hx
    exact ⟨⟨_, rangePattern_accepted (firstTry_chooses T)⟩, by simp [BadAction, exRule], by intro k hk; cases hk⟩
  · intro h
    simp only [exEvent, GoFields.cons.injEq, GoVal.str.injEq] at h
    exact absurd h.2.1 (by decide +kernel)
  · obtain ⟨_, rfl⟩ := ex_str hat
    exact ⟨[exPiece false], [exPiece true], [], ex_cut T false, ex_cut T true, ⟨⟨rfl, rfl, trivial⟩, trivial⟩, by decide +kernel⟩

end Sds.Props
