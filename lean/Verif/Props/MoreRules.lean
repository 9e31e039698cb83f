import Verif.Spec.MoreRules
import Verif.Props.RuleOrder

/-! # C108: one more rule changes the results only near its matches -/

namespace Sds.Props
open Sds Spec

/-! ## Resolutions -/

/-- A part of the candidates that no others overlap is resolved on its own. -/
private theorem resolution_part {mu : Nat → Bool} {ks res : List M} (P : M → Bool)
    (hP : ∀ a ∈ ks, ∀ b ∈ ks, Overlap a b → P b = true → P a = true) (h : IsResolution mu ks res) :
    IsResolution mu (ks.filter P) (res.filter P) := by
  constructor
  · intro m hm
    obtain ⟨h1, h2⟩ := List.mem_filter.1 hm
    exact List.mem_filter.2 ⟨h.1 m h1, h2⟩
  · intro m hm
    obtain ⟨h1, h2⟩ := List.mem_filter.1 hm
    rw [List.mem_filter, and_iff_left h2, h.2 m h1]
    refine not_congr ⟨?_, ?_⟩
    · rintro ⟨r, hr, hh, ho⟩
      exact ⟨r, List.mem_filter.2 ⟨hr, hP r (h.1 r hr) m h1 ho h2⟩, hh, ho⟩
    · rintro ⟨r, hr, hh, ho⟩
      exact ⟨r, (List.mem_filter.1 hr).1, hh, ho⟩

private theorem higher_congr {mu mu' : Nat → Bool} {a b : M} (ha : mu a.rule = mu' a.rule) (hb : mu b.rule = mu' b.rule) :
    Higher mu a b ↔ Higher mu' a b := by
  unfold Higher
  rw [ha, hb]

private theorem resolution_congr {mu mu' : Nat → Bool} {ks res : List M} (hmu : ∀ m ∈ ks, mu m.rule = mu' m.rule)
    (h : IsResolution mu ks res) : IsResolution mu' ks res := by
  refine ⟨h.1, fun m hm => ?_⟩
  rw [h.2 m hm]
  refine not_congr ⟨?_, ?_⟩
  · rintro ⟨r, hr, hh, ho⟩
    exact ⟨r, hr, (higher_congr (hmu r (h.1 r hr)) (hmu m hm)).1 hh, ho⟩
  · rintro ⟨r, hr, hh, ho⟩
    exact ⟨r, hr, (higher_congr (hmu r (h.1 r hr)) (hmu m hm)).2 hh, ho⟩

/-! ## The matches of the old rules -/

section
variable {sc : Scanner} {rule : CRule} {blocked blocked' : List Nat}

private theorem applies_old (hb : SameOldBlocked sc blocked blocked') {p : Path} {ex : Bool} {r : Nat} {x : CRule} :
    Applies sc blocked p ex r x ↔ Applies (withRule sc rule) blocked' p ex r x ∧ r < sc.rules.length := by
  constructor
  · rintro ⟨a, b, c, d⟩
    have hl := (List.getElem?_eq_some_iff.1 b).1
    exact ⟨⟨fun h => a ((hb r hl).1 h), withRule_lt b, c, d⟩, hl⟩
  · rintro ⟨⟨a, b, c, d⟩, hl⟩
    refine ⟨fun h => a ((hb r hl).2 h), ?_, c, d⟩
    rcases withRule_cases b with b | ⟨b, _⟩
    · exact b
    · exact absurd (List.getElem?_eq_none_iff.1 b) (by omega)

private theorem candidate_old (hb : SameOldBlocked sc blocked blocked') {p : Path} {c : Str} {m : M} :
    Candidate sc blocked p c m ↔ Candidate (withRule sc rule) blocked' p c m ∧ m.rule < sc.rules.length := by
  constructor
  · rintro ⟨x, f, h1, h2⟩
    exact ⟨⟨x, f, ((applies_old hb).1 h1).1, h2⟩, ((applies_old (rule := rule) hb).1 h1).2⟩
  · rintro ⟨⟨x, f, h1, h2⟩, h3⟩
    exact ⟨x, f, (applies_old hb).2 ⟨h1, h3⟩, h2⟩

private theorem found_old (hb : SameOldBlocked sc blocked blocked') {leaves : List Leaf}
    (hn : sc.rules.length ∈ blocked' ∨ RecordsNothing sc.wildcards rule leaves) (t : Str) :
    FoundInExcluded (withRule sc rule) blocked' leaves t ↔ FoundInExcluded sc blocked leaves t := by
  constructor
  · rintro ⟨l, hl, r, x, f, h1, h2, h3⟩
    by_cases hr : r < sc.rules.length
    · exact ⟨l, hl, r, x, f, (applies_old hb).2 ⟨h1, hr⟩, h2, h3⟩
    · obtain ⟨a, b, c, d⟩ := h1
      have hlen : r < (sc.rules ++ [rule]).length := (List.getElem?_eq_some_iff.1 b).1
      rw [List.length_append, List.length_singleton] at hlen
      rcases withRule_cases b with b' | ⟨_, rfl⟩
      · exact absurd (List.getElem?_eq_some_iff.1 b').1 hr
      · rcases hn with hn | hn
        · exact absurd ((show r = sc.rules.length by omega) ▸ hn) a
        · rw [hn l hl (d.1 rfl) f h2] at h3; cases h3
  · rintro ⟨l, hl, r, x, f, h1, h2, h3⟩
    exact ⟨l, hl, r, x, f, ((applies_old hb).1 h1).1, h2, h3⟩

private theorem kept_old (hb : SameOldBlocked sc blocked blocked') {leaves : List Leaf} (hn : AddsNoText sc rule blocked' leaves)
    {p : Path} {c : Str} {m : M} :
    Kept sc blocked leaves p c m ↔ Kept (withRule sc rule) blocked' leaves p c m ∧ m.rule < sc.rules.length := by
  unfold Kept
  rw [candidate_old (rule := rule) hb]
  have hs : m.rule < sc.rules.length →
      (Suppressed (withRule sc rule) blocked' leaves c m ↔ Suppressed sc blocked leaves c m) := by
    intro hl
    have hx : (withRule sc rule).rules[m.rule]? = sc.rules[m.rule]? := List.getElem?_append_left hl
    unfold Suppressed
    rw [hx]
    refine and_congr_right fun hm => ?_
    simp only [found_old hb (hn hm)]
  constructor
  · rintro ⟨⟨h1, h2⟩, h3⟩
    exact ⟨⟨h1, fun h => h3 ((hs h2).1 h)⟩, h2⟩
  · rintro ⟨⟨h1, h3⟩, h2⟩
    exact ⟨⟨h1, h2⟩, fun h => h3 ((hs h2).2 h)⟩

private theorem kept_range {leaves : List Leaf} {p : Path} {c : Str} {m : M}
    (h : Kept (withRule sc rule) blocked' leaves p c m) : m.rule < sc.rules.length ∨ m.rule = sc.rules.length := by
  obtain ⟨⟨x, f, ⟨_, b, _⟩, _⟩, _⟩ := h
  have hlen : m.rule < (sc.rules ++ [rule]).length := (List.getElem?_eq_some_iff.1 b).1
  rw [List.length_append, List.length_singleton] at hlen
  omega

private theorem info_old {r : Nat} (h : r < sc.rules.length) : infoOf (withRule sc rule) r = infoOf sc r := by
  unfold infoOf
  rw [show (withRule sc rule).rules[r]? = sc.rules[r]? from List.getElem?_append_left h]

private theorem redacting_old {r : Nat} (h : r < sc.rules.length) : redacting (withRule sc rule) r = redacting sc r := by
  unfold redacting
  rw [info_old h]

/-- The matches of a string that are reported with and without the new rule, in a part that no other matches overlap. -/
private theorem part_same {leaves : List Leaf} {l : Leaf} (hb : SameOldBlocked sc blocked blocked')
    (hn : AddsNoText sc rule blocked' leaves) {ks res ks' res' : List M}
    (h1 : ∀ m, m ∈ ks ↔ Kept sc blocked leaves l.path l.text m) (h2 : IsResolution (redacting sc) ks res)
    (h1' : ∀ m, m ∈ ks' ↔ Kept (withRule sc rule) blocked' leaves l.path l.text m)
    (h2' : IsResolution (redacting (withRule sc rule)) ks' res')
    (P : M → Bool) (hold : ∀ m, P m = true → m.rule ≠ sc.rules.length)
    (hP : ∀ a ∈ ks', ∀ b ∈ ks', Overlap a b → P b = true → P a = true) :
    ∀ m, m ∈ res.filter P ↔ m ∈ res'.filter P := by
  have hsub : ∀ m, m ∈ ks.filter P ↔ m ∈ ks'.filter P := by
    intro m
    simp only [List.mem_filter, h1, h1', kept_old hb hn]
    constructor
    · rintro ⟨⟨a, _⟩, b⟩; exact ⟨a, b⟩
    · rintro ⟨a, b⟩
      rcases kept_range a with h | h
      · exact ⟨⟨a, h⟩, b⟩
      · exact absurd h (hold m b)
  have hlt : ∀ m ∈ ks.filter P, redacting sc m.rule = redacting (withRule sc rule) m.rule := by
    intro m hm
    exact (redacting_old ((kept_old hb hn).1 ((h1 m).1 (List.mem_filter.1 hm).1)).2).symm
  refine isResolution_unique hsub (resolution_congr hlt (resolution_part P ?_ h2)) (resolution_part P hP h2')
  intro a ha b hb'
  exact hP a ((h1' a).2 ((kept_old hb hn).1 ((h1 a).1 ha)).1) b ((h1' b).2 ((kept_old hb hn).1 ((h1 b).1 hb')).1)

private theorem onlyAdded_of {enc : Enc} {leaves : List Leaf} {l : Leaf} {os os' : List RuleMatch} {new new' : Str}
    (hok : ScannerOk (withRule sc rule)) (hb : SameOldBlocked sc blocked blocked') (hn : AddsNoText sc rule blocked' leaves)
    (hap : StandsAlone sc rule blocked' leaves l)
    (hr : LeafResult enc sc blocked leaves l os new) (hr' : LeafResult enc (withRule sc rule) blocked' leaves l os' new') :
    OnlyAdded enc sc rule blocked' leaves l os os' new new' := by
  obtain ⟨ks, res, ps, tail, h1, h2, h3, h4, h5, h6, h7⟩ := hr
  obtain ⟨ks', res', ps', tail', h1', h2', h3', h4', h5', h6', h7'⟩ := hr'
  have hok0 : ScannerOk sc := fun x hx => hok x (List.mem_append_left _ hx)
  have hlt : ∀ m ∈ res, m.rule < sc.rules.length := fun m hm => ((kept_old hb hn).1 ((h1 m).1 (h2.1 m hm))).2
  have hsame := part_same hb hn h1 h2 h1' h2' (fun m => decide (m.rule ≠ sc.rules.length)) (fun m h => of_decide_eq_true h)
    fun a ha b hb' ho h => decide_eq_true fun he => hap a b ((h1' a).1 ha) ((h1' b).1 hb') he (of_decide_eq_true h) ho
  rw [List.filter_eq_self.2 fun m hm => decide_eq_true (by have := hlt m hm; omega)] at hsame
  have hres : res = res'.filter (fun m => decide (m.rule ≠ sc.rules.length)) :=
    ordered_ext (fun m hm => (((h1 m).1 (h2.1 m hm)).1.bounds hok0).1)
      (fun m hm => (((h1' m).1 (h2'.1 m (List.mem_filter.1 hm).1)).1.bounds hok).1) h3 (h3'.filter _) hsame
  let f := fun (r : Nat) (t : Str) => redacted sc.fp (infoOf (withRule sc rule) r).action t
  let f0 := fun (r : Nat) (t : Str) => if r = sc.rules.length then t else f r t
  obtain ⟨q1, q2, q3, q4⟩ := onlyRedacted_spec (fun r => decide (r ≠ sc.rules.length)) tail' f0
    (fun r t h => if_pos (by simpa using h)) enc.units (infoOf (withRule sc rule)) sc.returnMatches l.path ps' []
  have hq3 := q3 0
  rw [blen_nil, Nat.add_zero, ← h5', ← hres, h5] at hq3
  obtain ⟨hp, htail⟩ := samePieces (R := fun r r' => r = r' ∧ r < sc.rules.length) (mu := redacting sc) (mu' := redacting sc)
    (h4.symm.trans (h4'.trans q1.symm)) (by rw [hq3]) fun m hm m' hm' e1 e2 e3 => by
      rw [hq3, ← h5] at hm'
      rw [← h5] at hm
      exact ⟨congrArg M.rule (same_start h3 (fun m hm => (((h1 m).1 (h2.1 m hm)).1.bounds hok0).1) m hm m' hm' e1), hlt m hm⟩
  have hf : ∀ r r', (r = r' ∧ r < sc.rules.length) → (fun t => redacted sc.fp (infoOf sc r).action t) = f0 r' := by
    rintro r _ ⟨rfl, hl⟩
    funext t
    show _ = if r = sc.rules.length then t else redacted sc.fp (infoOf (withRule sc rule) r).action t
    rw [if_neg (by omega), info_old hl]
  refine ⟨ps', tail', h4', h7', h6', ?_, ?_, ?_, ?_⟩
  · rw [h7, htail]
    exact (output_same hf _ hp).trans q2
  · have := reports_same (units := enc.units) (rm := sc.returnMatches) (path := l.path) (g := id) (g' := id)
      (I := infoOf sc) (I' := infoOf (withRule sc rule))
      (fun r r' h => ⟨hf r r' h, by obtain ⟨rfl, hl⟩ := h; exact (info_old hl).symm⟩) (fun _ _ h _ => by rw [h.1]) [] [] hp
    rw [List.map_id, List.map_id] at this
    rw [h6]
    exact this.trans (q4 [] [])
  · intro m hm
    rw [← h5'] at hm
    exact (h1' m).1 (h2'.1 m hm)
  · intro m hk hm
    rw [← h5']
    by_cases hin : m ∈ res'
    · exact .inl hin
    · have hex : ∃ r ∈ res', Higher (redacting (withRule sc rule)) r m ∧ Overlap r m := by
        apply Classical.byContradiction
        intro hc
        exact hin ((h2'.2 m ((h1' m).2 hk)).2 hc)
      obtain ⟨r, hr, _, ho⟩ := hex
      refine .inr ⟨r, hr, ?_, ho⟩
      apply Classical.byContradiction
      intro hne
      exact hap m r hk ((h1' r).1 (h2'.1 r hr)) hm hne ⟨ho.2, ho.1⟩

variable {E : Type} {impl : EventImpl E} {wf : E → Prop} {leavesOf : E → List Leaf} {rew : (Path → Str → Str) → E → E}

private theorem scannable_old (hb : SameOldBlocked sc blocked blocked') {e : E}
    (hs : Scannable wf leavesOf (withRule sc rule) blocked' e) : Scannable wf leavesOf sc blocked e :=
  ⟨hs.wf, fun x hx => hs.returns x (List.mem_append_left _ hx), fun l hl hf m hc =>
    hs.strings l hl hf m ((candidate_old hb).1 hc).1⟩

/-- C108: in every string in which the matches of the new rule overlap no others, the new rule changes nothing but that its own
matches are rewritten and reported. -/
theorem C108_only_added (hE : LawfulEvent impl wf leavesOf rew) (hok : ScannerOk (withRule sc rule))
    (hb : SameOldBlocked sc blocked blocked') (e : E) (hs : Scannable wf leavesOf (withRule sc rule) blocked' e)
    (hn : AddsNoText sc rule blocked' (leavesOf e)) :
    ∃ (out out' : Leaf → List RuleMatch × Str) (G G' : Path → Str → Str),
      scan impl sc e blocked = Res.ok (rew G e, (leavesOf e).flatMap fun l => (out l).1) ∧
      scan impl (withRule sc rule) e blocked' = Res.ok (rew G' e, (leavesOf e).flatMap fun l => (out' l).1) ∧
      ∀ l ∈ leavesOf e, G l.path l.text = (out l).2 ∧ G' l.path l.text = (out' l).2 ∧
        (StandsAlone sc rule blocked' (leavesOf e) l →
          OnlyAdded impl.enc sc rule blocked' (leavesOf e) l (out l).1 (out' l).1 (out l).2 (out' l).2) := by
  obtain ⟨out, G, h1, h2⟩ := C10_scan_result hE (fun x hx => hok x (List.mem_append_left _ hx)) blocked e (scannable_old hb hs)
  obtain ⟨out', G', h1', h2'⟩ := C10_scan_result hE hok blocked' e hs
  exact ⟨out, out', G, G', h1, h1', fun l hl => ⟨(h2 l hl).2, (h2' l hl).2, fun hap =>
    onlyAdded_of hok hb hn hap (h2 l hl).1 (h2' l hl).1⟩⟩

/-- C108: in any case the new rule has an effect only on matches that its own ones reach through overlaps, and a match that is
no longer reported overlaps one of higher priority that is. -/
theorem C108_reached (hE : LawfulEvent impl wf leavesOf rew) (hok : ScannerOk (withRule sc rule))
    (hb : SameOldBlocked sc blocked blocked') (e : E) (hs : Scannable wf leavesOf (withRule sc rule) blocked' e)
    (hn : AddsNoText sc rule blocked' (leavesOf e)) :
    ∃ (out out' : Leaf → List RuleMatch × Str) (rs rs' : Leaf → List M) (G G' : Path → Str → Str),
      scan impl sc e blocked = Res.ok (rew G e, (leavesOf e).flatMap fun l => (out l).1) ∧
      scan impl (withRule sc rule) e blocked' = Res.ok (rew G' e, (leavesOf e).flatMap fun l => (out' l).1) ∧
      ∀ l ∈ leavesOf e, G l.path l.text = (out l).2 ∧ G' l.path l.text = (out' l).2 ∧
        RewrittenAt impl.enc sc l (rs l) (out l).1 (out l).2 ∧ RewrittenAt impl.enc (withRule sc rule) l (rs' l) (out' l).1 (out' l).2 ∧
        (∀ m, ¬ Reached sc.rules.length (Kept (withRule sc rule) blocked' (leavesOf e) l.path l.text) m →
          (m ∈ rs l ↔ m ∈ rs' l)) ∧
        (∀ m ∈ rs l, m ∉ rs' l → ∃ r ∈ rs' l, Higher (redacting (withRule sc rule)) r m ∧ Overlap r m) := by
  obtain ⟨out, G, h1, h2⟩ := C10_scan_result hE (fun x hx => hok x (List.mem_append_left _ hx)) blocked e (scannable_old hb hs)
  obtain ⟨out', G', h1', h2'⟩ := C10_scan_result hE hok blocked' e hs
  have key : ∀ l, ∃ rs rs' : List M, l ∈ leavesOf e →
      RewrittenAt impl.enc sc l rs (out l).1 (out l).2 ∧ RewrittenAt impl.enc (withRule sc rule) l rs' (out' l).1 (out' l).2 ∧
      (∀ m, ¬ Reached sc.rules.length (Kept (withRule sc rule) blocked' (leavesOf e) l.path l.text) m → (m ∈ rs ↔ m ∈ rs')) ∧
      (∀ m ∈ rs, m ∉ rs' → ∃ r ∈ rs', Higher (redacting (withRule sc rule)) r m ∧ Overlap r m) := by
    intro l
    by_cases hl : l ∈ leavesOf e
    · obtain ⟨ks, res, ps, tail, a1, a2, a3, a4, a5, a6, a7⟩ := (h2 l hl).1
      obtain ⟨ks', res', ps', tail', b1, b2, b3, b4, b5, b6, b7⟩ := (h2' l hl).1
      refine ⟨res, res', fun _ => ⟨⟨ps, tail, a4, a5, a6, a7⟩, ⟨ps', tail', b4, b5, b6, b7⟩, ?_, ?_⟩⟩
      · intro m hm
        let K := Kept (withRule sc rule) blocked' (leavesOf e) l.path l.text
        have dec : ∀ x, ∃ b : Bool, b = true ↔ (¬ Reached sc.rules.length K x ∧ x.rule ≠ sc.rules.length) := fun x => by
          by_cases h : ¬ Reached sc.rules.length K x ∧ x.rule ≠ sc.rules.length
          · exact ⟨true, by simp [h]⟩
          · exact ⟨false, by simp only [h, Bool.false_eq_true]⟩
        obtain ⟨P, hP⟩ := Classical.axiomOfChoice dec
        have hpart := part_same hb hn a1 a2 b1 b2 P (fun x hx => ((hP x).1 hx).2) (fun a ha b hb' ho h => by
          refine (hP a).2 ⟨fun hr => ((hP b).1 h).1 (.step a b hr ((b1 b).1 hb') ho), fun he => ?_⟩
          exact ((hP b).1 h).1 (.step a b (.start a ((b1 a).1 ha) he) ((b1 b).1 hb') ho)) m
        rw [List.mem_filter, List.mem_filter] at hpart
        constructor
        · intro h
          have hlt := ((kept_old (rule := rule) hb hn).1 ((a1 m).1 (a2.1 m h))).2
          exact (hpart.1 ⟨h, (hP m).2 ⟨hm, by omega⟩⟩).1
        · intro h
          exact (hpart.2 ⟨h, (hP m).2 ⟨hm, fun he => hm (.start m ((b1 m).1 (b2.1 m h)) he)⟩⟩).1
      · intro m hm hno
        have hk := (b1 m).2 ((kept_old hb hn).1 ((a1 m).1 (a2.1 m hm))).1
        apply Classical.byContradiction
        intro hc
        exact hno ((b2.2 m hk).2 hc)
    · exact ⟨[], [], fun h => absurd h hl⟩
  obtain ⟨rs, hrs⟩ := Classical.axiomOfChoice key
  obtain ⟨rs', hrs'⟩ := Classical.axiomOfChoice hrs
  exact ⟨out, out', rs, rs', G, G', h1, h1', fun l hl => ⟨(h2 l hl).2, (h2' l hl).2, hrs' l hl⟩⟩

/-- C108: the result of a scan for which the last rule is blocked is that of the scanner without this rule. -/
theorem C108_blocked (hE : LawfulEvent impl wf leavesOf rew) (hok : ScannerOk (withRule sc rule))
    (hb : SameOldBlocked sc blocked blocked') (hlast : sc.rules.length ∈ blocked') (e : E)
    (hs : Scannable wf leavesOf (withRule sc rule) blocked' e) :
    scan impl (withRule sc rule) e blocked' = scan impl sc e blocked := by
  obtain ⟨out, out', G, G', h1, h1', h⟩ := C108_only_added hE hok hb e hs fun _ => .inl hlast
  have hno : ∀ p c m, Kept (withRule sc rule) blocked' (leavesOf e) p c m → m.rule ≠ sc.rules.length := by
    rintro p c m ⟨⟨x, f, ⟨a, _⟩, _⟩, _⟩ he
    exact a (he ▸ hlast)
  have key : ∀ l ∈ leavesOf e, out l = out' l := by
    intro l hl
    obtain ⟨ps, tail, _, e2, e3, e4, e5, e6, _⟩ := (h l hl).2.2 fun m m' hm _ he => absurd he (hno _ _ m hm)
    have hps : ∀ p ∈ ps, p.rule ≠ sc.rules.length := by
      have aux : ∀ (ps : List Piece) o, (∀ m ∈ ranges o ps, m.rule ≠ sc.rules.length) → ∀ p ∈ ps, p.rule ≠ sc.rules.length := by
        intro ps
        induction ps with
        | nil => intro _ _ p hp; cases hp
        | cons q ps ih =>
          intro o h p hp
          rcases List.mem_cons.1 hp with rfl | hp
          · exact h _ List.mem_cons_self
          · exact ih _ (fun m hm => h m (by rw [ranges]; exact List.mem_cons_of_mem _ hm)) p hp
      exact aux ps 0 fun m hm => hno _ _ m (e6 m hm)
    have same : ∀ ps : List Piece, (∀ p ∈ ps, p.rule ≠ sc.rules.length) →
        SamePieces (fun r r' => r = r' ∧ r ≠ sc.rules.length) ps ps := by
      intro ps
      induction ps with
      | nil => intro _; trivial
      | cons q ps ih => intro h; exact ⟨rfl, rfl, ⟨rfl, h q List.mem_cons_self⟩, ih fun p hp => h p (List.mem_cons_of_mem _ hp)⟩
    have hsp := same ps hps
    have hf : ∀ r r', (r = r' ∧ r ≠ sc.rules.length) →
        (fun t => if r = sc.rules.length then t else redacted sc.fp (infoOf (withRule sc rule) r).action t) =
          fun t => redacted sc.fp (infoOf (withRule sc rule) r').action t := by
      rintro r _ ⟨rfl, hl⟩
      funext t
      rw [if_neg hl]
    refine Prod.ext ?_ ?_
    · have := reports_same (units := impl.enc.units) (rm := sc.returnMatches) (path := l.path) (g := id) (g' := id)
        (I := infoOf (withRule sc rule)) (I' := infoOf (withRule sc rule))
        (fun r r' h => ⟨hf r r' h, by rw [h.1]⟩) (fun _ _ h _ => by rw [h.1]) [] [] hsp
      rw [List.map_id, List.map_id] at this
      rw [e5, e3, this]
      have hall : ∀ (ps : List Piece) inn o', (∀ p ∈ ps, p.rule ≠ sc.rules.length) → ∀ o ∈ reports impl.enc.units
          (infoOf (withRule sc rule)) (fun r t => redacted sc.fp (infoOf (withRule sc rule) r).action t) sc.returnMatches l.path
            inn o' ps, o.rule ≠ sc.rules.length := by
        intro ps
        induction ps with
        | nil => intro _ _ _ o ho; cases ho
        | cons q ps ih =>
          intro inn o' h o ho
          rcases List.mem_cons.1 ho with rfl | ho
          · exact h q List.mem_cons_self
          · exact ih _ _ (fun p hp => h p (List.mem_cons_of_mem _ hp)) o ho
      exact List.filter_eq_self.2 fun o ho => decide_eq_true (hall ps [] [] hps o ho)
    · rw [e4, e2]
      exact output_same hf _ hsp
  have hG : rew G' e = rew G e := hE.rew_congr _ _ e hs.wf fun l hl _ => by rw [(h l hl).1, (h l hl).2.1, key l hl]
  rw [h1, h1', hG]
  exact congrArg (fun x => Res.ok (rew G e, x)) (flatMap_congr fun l hl => by rw [key l hl])

end

/-! ## Where the new rule does matter -/

private def fld (s : String) : Seg := .field s.toList

private def fs : List (String × Ev) → Fields
  | [] => .nil
  | (k, v) :: r => .cons k.toList v (fs r)

private def fp : Fingerprint := ⟨fun s => s.length, fun s => s.length⟩

private def rl (t : String) (a : Action) : CRule :=
  RegexRule.toCRule ⟨textRx t.toList, none, none, none⟩ ⟨a, false⟩ (.excl []) false (fun c => blen c + 1)

private def ev (s t : String) : Ev := .map (fs [("n", .str s.toList), ("k", .str t.toList)])

private def texts (r : Res (Ev × List RuleMatch)) : Res (List Str × List Nat) :=
  r.map fun x => ((x.1.leaves false).map (·.text), x.2.map (·.rule))

private def r0 := rl "b:c" (.redact "#".toList)
private def r1 := rl "c;d" (.redact "!".toList)
private def r2 := rl "a@b" (.redact "?".toList)
private def sc01 : Scanner := ⟨[r0, r1], false, false, true, fp⟩

/-- C108, finding: the effect goes beyond the matches that the new ones overlap.  The new match `a@b` displaces `b:c`, so that
`c;d`, which was not reported, is reported; `:` is no longer redacted and `;d` now is. -/
theorem C108_reaches_further :
    texts (scan jsonEvent sc01 (ev "a@b:c;d" "c;d") []) = Res.ok (["a@#;d".toList, "!".toList], [0, 1]) ∧
    texts (scan jsonEvent (withRule sc01 r2) (ev "a@b:c;d" "c;d") []) = Res.ok (["?:!".toList, "!".toList], [2, 1, 1]) := by
  decide +kernel

/-! ## Example -/

private theorem rl_ok {t : String} (ht : t.toList ≠ []) {a : Action} (ha : a ≠ .partialFirst 0 ∧ a ≠ .partialLast 0) :
    RuleOk (rl t a) :=
  regexRule_ok (textRx_ok _ ht).1 (textRx_ok _ ht).2 (by intro k hk; cases hk) (by intro c; omega) ha _ false

private theorem rl_returns {t : String} (ht : t.toList ≠ []) (a : Action) (c : Str) (p : Path) (ex : Bool) :
    ∃ f, (rl t a).run c p ex = Res.ok f :=
  stringMatches_returns (r := ⟨textRx _, none, none, none⟩) (textRx_ok _ ht).1 (textRx_ok _ ht).2
    (by intro k hk; cases hk) false ex (by intro _ x hx; cases hx) p (Nat.lt_succ_self _)

private theorem sc_ok : ScannerOk (withRule sc01 r2) := by
  intro rule h
  simp only [withRule, sc01, List.cons_append, List.nil_append, List.mem_cons, List.not_mem_nil, or_false] at h
  rcases h with rfl | rfl | rfl
  · exact rl_ok (by simp) (by simp)
  · exact rl_ok (by simp) (by simp)
  · exact rl_ok (by simp) (by simp)

private theorem sc_scannable (blocked : List Nat) :
    Scannable WellKeyed (Ev.leaves false) (withRule sc01 r2) blocked (ev "b:c a@b" "a@b:c") where
  wf := by simp [ev, fs, WellKeyed, WellKeyedFields, keys]
  returns := by
    intro rule h l _ ex
    simp only [withRule, sc01, List.cons_append, List.nil_append, List.mem_cons, List.not_mem_nil, or_false] at h
    rcases h with rfl | rfl | rfl
    · exact rl_returns (by simp) _ _ _ _
    · exact rl_returns (by simp) _ _ _ _
    · exact rl_returns (by simp) _ _ _ _
  strings := by
    intro l hl hf
    have hall : ∀ l ∈ Ev.leaves false (ev "b:c a@b" "a@b:c"), l.fixed = false := by decide +kernel
    rw [hall l hl] at hf
    cases hf

private def matchesOf (r : Nat) (l : Leaf) : List (Nat × Nat) :=
  match (withRule sc01 r2).rules[r]? with
  | none => []
  | some rule => match rule.run l.text l.path false with
    | .ok f => f.matches_
    | _ => []

private theorem kept_matches {leaves : List Leaf} {l : Leaf} {m : M} (hk : Kept (withRule sc01 r2) [] leaves l.path l.text m) :
    m.rule < 3 ∧ (m.st, m.en) ∈ matchesOf m.rule l := by
  obtain ⟨⟨rule, f, ⟨_, h1, _⟩, h2, h3⟩, _⟩ := hk
  refine ⟨(List.getElem?_eq_some_iff.1 h1).1, ?_⟩
  unfold matchesOf
  rw [h1]
  simp only [h2]
  exact h3

private def leafN : Leaf := ⟨[fld "n"], "b:c a@b".toList, false⟩

private theorem apart : StandsAlone sc01 r2 [] ((ev "b:c a@b" "a@b:c").leaves false) leafN := by
  have h : [0, 1].all (fun r => (matchesOf r leafN).all fun x => (matchesOf 2 leafN).all fun y =>
      !(decide (Overlap ⟨2, y.1, y.2⟩ ⟨r, x.1, x.2⟩))) = true := by decide +kernel
  intro m m' hm hm' e1 e2 ho
  obtain ⟨_, h2⟩ := kept_matches hm
  obtain ⟨h3, h4⟩ := kept_matches hm'
  have e1 : m.rule = 2 := e1
  have e2 : m'.rule ≠ 2 := e2
  rw [e1] at h2
  have hr : m'.rule ∈ [0, 1] := by
    have : m'.rule = 0 ∨ m'.rule = 1 := by omega
    rcases this with h | h <;> simp [h]
  have := List.all_eq_true.1 (List.all_eq_true.1 (List.all_eq_true.1 h _ hr) _ h4) _ h2
  have ho' : Overlap ⟨2, m.st, m.en⟩ ⟨m'.rule, m'.st, m'.en⟩ := ho
  simp [ho'] at this

/-- The hypotheses of the theorems are met: in the first string the matches are apart, in the second they overlap; and with the
new rule blocked. -/
example : LawfulEvent jsonEvent WellKeyed (Ev.leaves false) rewrite ∧ ScannerOk (withRule sc01 r2) ∧
    SameOldBlocked sc01 [] [] ∧ Scannable WellKeyed (Ev.leaves false) (withRule sc01 r2) [] (ev "b:c a@b" "a@b:c") ∧
    AddsNoText sc01 r2 [] ((ev "b:c a@b" "a@b:c").leaves false) ∧ leafN ∈ (ev "b:c a@b" "a@b:c").leaves false ∧
    StandsAlone sc01 r2 [] ((ev "b:c a@b" "a@b:c").leaves false) leafN ∧
    texts (scan jsonEvent sc01 (ev "b:c a@b" "a@b:c") []) = Res.ok (["# a@b".toList, "a@#".toList], [0, 0]) ∧
    texts (scan jsonEvent (withRule sc01 r2) (ev "b:c a@b" "a@b:c") []) = Res.ok (["# ?".toList, "?:c".toList], [0, 2, 2]) ∧
    SameOldBlocked sc01 [] [2] ∧ sc01.rules.length ∈ [2] ∧
    Scannable WellKeyed (Ev.leaves false) (withRule sc01 r2) [2] (ev "b:c a@b" "a@b:c") := by
  refine ⟨jsonEvent_lawful, sc_ok, fun r _ => Iff.rfl, sc_scannable [], fun h => (by cases h), by decide +kernel, apart,
    by decide +kernel, by decide +kernel, fun r hr => ?_, by decide, sc_scannable [2]⟩
  have : r < 2 := hr
  simp only [List.mem_singleton, List.not_mem_nil, iff_false]
  omega

end Sds.Props
