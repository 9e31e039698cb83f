import Verif.Spec.Undo
import Verif.Props.EndToEnd

/-! # C110: with returned values, a scan loses nothing -/

namespace Sds.Props
open Sds Spec

private theorem cutUnits_append {units : Str → Nat} (happ : ∀ a b, units (a ++ b) = units a + units b)
    (hpos : ∀ c, 0 < units [c]) (b : Str) : ∀ a : Str, cutUnits units (units a) (a ++ b) = (a, b)
  | [] => by
    have h0 : units [] = 0 := by have := happ [] []; simp only [List.append_nil] at this; omega
    rw [h0, List.nil_append]
    cases b with
    | nil => rfl
    | cons c cs => simp [cutUnits]
  | c :: a => by
    have h1 : units (c :: a) = units [c] + units a := happ [c] a
    have h2 := hpos c
    have h3 : units (c :: a) - units [c] = units a := by omega
    rw [List.cons_append, cutUnits, if_neg (by omega), h3, cutUnits_append happ hpos b a]

private theorem undo_reports {units : Str → Nat} (happ : ∀ a b, units (a ++ b) = units a + units b)
    (hpos : ∀ c, 0 < units [c]) (I : Nat → RuleInfo) (f : Nat → Str → Str) (path : Path) (tail : Str) :
    ∀ (ps : List Piece) (inn out : Str),
      undo units (units out) (output f ps tail) (reports units I f true path inn out ps) = input ps tail
  | [], _, _ => rfl
  | p :: ps, inn, out => by
    simp only [reports, undo, output, input, if_true, Option.getD_some]
    have e1 : units (out ++ p.gap) - units out = units p.gap := by rw [happ]; omega
    have e2 : units (out ++ p.gap ++ f p.rule p.text) - units (out ++ p.gap) = units (f p.rule p.text) := by rw [happ]; omega
    rw [e1, e2, List.append_assoc p.gap (f p.rule p.text), cutUnits_append happ hpos]
    dsimp only
    rw [cutUnits_append happ hpos]
    dsimp only
    rw [undo_reports happ hpos I f path tail ps]

theorem reports_path {units : Str → Nat} {I : Nat → RuleInfo} {f : Nat → Str → Str} {rm : Bool} {path : Path} :
    ∀ (ps : List Piece) (inn out : Str), ∀ o ∈ reports units I f rm path inn out ps, o.path = path
  | [], _, _, o, ho => by cases ho
  | p :: ps, inn, out, o, ho => by
    simp only [reports] at ho
    rcases List.mem_cons.1 ho with rfl | ho
    · rfl
    · exact reports_path ps _ _ o ho

theorem reportsAt_leaf {leaves : List Leaf} {out : Leaf → List RuleMatch}
    (hp : ∀ l ∈ leaves, ∀ o ∈ out l, o.path = l.path) (hnd : (leaves.map (·.path)).Nodup) :
    ∀ l ∈ leaves, reportsAt (leaves.flatMap out) l.path = out l := by
  induction leaves with
  | nil => intro l hl; cases hl
  | cons a leaves ih =>
    intro l hl
    rw [List.map_cons, List.nodup_cons] at hnd
    have hother : ∀ x : Path, ∀ b ∈ a :: leaves, b.path ≠ x → reportsAt (out b) x = [] := by
      intro x b hb hne
      refine List.filter_eq_nil_iff.2 fun o ho => ?_
      rw [hp b hb o ho]
      simpa using hne
    have hself : ∀ b ∈ a :: leaves, reportsAt (out b) b.path = out b := by
      intro b hb
      exact List.filter_eq_self.2 fun o ho => decide_eq_true (hp b hb o ho)
    have hsplit : reportsAt ((a :: leaves).flatMap out) l.path = reportsAt (out a) l.path ++ reportsAt (leaves.flatMap out) l.path := by
      unfold reportsAt
      rw [List.flatMap_cons, List.filter_append]
    rw [hsplit]
    rcases List.mem_cons.1 hl with rfl | hl'
    · rw [hself l List.mem_cons_self]
      have : reportsAt (leaves.flatMap out) l.path = [] := by
        refine List.filter_eq_nil_iff.2 fun o ho => ?_
        obtain ⟨b, hb, ho⟩ := List.mem_flatMap.1 ho
        rw [hp b (List.mem_cons_of_mem _ hb) o ho]
        intro h
        have h : b.path = l.path := of_decide_eq_true h
        exact hnd.1 (h ▸ List.mem_map_of_mem hb)
      rw [this, List.append_nil]
    · rw [hother l.path a List.mem_cons_self (fun h => hnd.1 (h ▸ List.mem_map_of_mem hl')),
        ih (fun b hb => hp b (List.mem_cons_of_mem _ hb)) hnd.2 l hl', List.nil_append]

section
variable {E : Type} {impl : EventImpl E} {wf : E → Prop} {leavesOf : E → List Leaf} {rew : (Path → Str → Str) → E → E}

/-- C110: if values are returned, putting every returned value in the place that its report names makes the original event of the
redacted one. -/
theorem C110_undo (hE : LawfulEvent impl wf leavesOf rew) {sc : Scanner} (hok : ScannerOk sc) (hrm : sc.returnMatches = true)
    (hpos : ∀ c, 0 < impl.enc.units [c]) (blocked : List Nat) (e : E) (hs : Scannable wf leavesOf sc blocked e) :
    ∃ after os, scan impl sc e blocked = Res.ok (after, os) ∧
      rew (fun p s => undo impl.enc.units 0 s (reportsAt os p)) after = e := by
  obtain ⟨out, G, h1, h2⟩ := C10_scan_result hE hok blocked e hs
  refine ⟨_, _, h1, ?_⟩
  have h0 : impl.enc.units [] = 0 := units_nil hE.enc
  have hpath : ∀ l ∈ leavesOf e, ∀ o ∈ (out l).1, o.path = l.path := by
    intro l hl o ho
    obtain ⟨_, _, ps, _, _, _, _, _, _, h6, _⟩ := (h2 l hl).1
    rw [h6] at ho
    exact reports_path ps _ _ o ho
  rw [hE.rew_rew]
  refine (hE.rew_congr _ (fun _ c => c) e hs.wf fun l hl _ => ?_).trans (hE.rew_id e)
  rw [reportsAt_leaf hpath (hE.nodup e hs.wf) l hl, (h2 l hl).2]
  obtain ⟨_, _, ps, tail, _, _, _, h4, _, h6, h7⟩ := (h2 l hl).1
  rw [h6, h7, h4, hrm]
  have := undo_reports hE.enc.units_append hpos (infoOf sc) (fun r t => redacted sc.fp (infoOf sc r).action t) l.path tail ps [] []
  rw [h0] at this
  exact this

/-- C110: two events with the same result are the same. -/
theorem C110_same_result (hE : LawfulEvent impl wf leavesOf rew) {sc : Scanner} (hok : ScannerOk sc) (hrm : sc.returnMatches = true)
    (hpos : ∀ c, 0 < impl.enc.units [c]) (blocked : List Nat) (e e' : E) (hs : Scannable wf leavesOf sc blocked e)
    (hs' : Scannable wf leavesOf sc blocked e') (h : scan impl sc e blocked = scan impl sc e' blocked) : e = e' := by
  obtain ⟨after, os, h1, h2⟩ := C110_undo hE hok hrm hpos blocked e hs
  obtain ⟨after', os', h1', h2'⟩ := C110_undo hE hok hrm hpos blocked e' hs'
  rw [h1, h1'] at h
  cases h
  exact h2.symm.trans h2'

end

/-! ## Example -/

private def fs : List (String × Ev) → Fields
  | [] => .nil
  | (k, v) :: r => .cons k.toList v (fs r)

private def fp : Fingerprint := ⟨fun s => s.length, fun s => s.length⟩

private def rl (t : String) (a : Action) : CRule :=
  RegexRule.toCRule ⟨textRx t.toList, none, none, none⟩ ⟨a, false⟩ (.excl []) false (fun c => blen c + 1)

private def sc2 (rm : Bool) : Scanner := ⟨[rl "a@b" (.redact "##".toList), rl "é" (.redact [])], false, false, rm, fp⟩

private def ev (s : String) : Ev := .map (fs [("n", .str s.toList), ("m", .list (.cons (.str "é".toList) .nil))])

private def back (r : Res (Ev × List RuleMatch)) : Res (List Str × List Str) :=
  r.map fun x => ((x.1.leaves false).map (·.text),
    ((rewrite (fun p s => undo blen 0 s (reportsAt x.2 p)) x.1).leaves false).map (·.text))

private theorem rl_ok {t : String} (ht : t.toList ≠ []) {a : Action} (ha : a ≠ .partialFirst 0 ∧ a ≠ .partialLast 0) :
    RuleOk (rl t a) :=
  regexRule_ok (textRx_ok _ ht).1 (textRx_ok _ ht).2 (by intro k hk; cases hk) (by intro c; omega) ha _ false

private theorem rl_returns {t : String} (ht : t.toList ≠ []) (a : Action) (c : Str) (p : Path) (ex : Bool) :
    ∃ f, (rl t a).run c p ex = Res.ok f :=
  stringMatches_returns (r := ⟨textRx _, none, none, none⟩) (textRx_ok _ ht).1 (textRx_ok _ ht).2
    (by intro k hk; cases hk) false ex (by intro _ x hx; cases hx) p (Nat.lt_succ_self _)

/-- The hypotheses are met: an event with three redactions, one of them empty, and the event that is restored. -/
example : LawfulEvent jsonEvent WellKeyed (Ev.leaves false) rewrite ∧ ScannerOk (sc2 true) ∧ (sc2 true).returnMatches = true ∧
    (∀ c, 0 < jsonEvent.enc.units [c]) ∧
    Scannable WellKeyed (Ev.leaves false) (sc2 true) [] (ev "xa@bé a@b ") ∧
    back (scan jsonEvent (sc2 true) (ev "xa@bé a@b ") []) =
      Res.ok (["x## ## ".toList, []], ["xa@bé a@b ".toList, "é".toList]) := by
  refine ⟨jsonEvent_lawful, ?_, rfl, fun c => blen_pos (by simp), ⟨?_, ?_, ?_⟩, by decide +kernel⟩
  · intro rule h
    simp only [sc2, List.mem_cons, List.not_mem_nil, or_false] at h
    rcases h with rfl | rfl
    · exact rl_ok (by simp) (by simp)
    · exact rl_ok (by simp) (by simp)
  · simp [ev, fs, WellKeyed, WellKeyedFields, WellKeyedItems, keys]
  · intro rule h l _ ex
    simp only [sc2, List.mem_cons, List.not_mem_nil, or_false] at h
    rcases h with rfl | rfl
    · exact rl_returns (by simp) _ _ _ _
    · exact rl_returns (by simp) _ _ _ _
  · intro l hl hf
    have hall : ∀ l ∈ Ev.leaves false (ev "xa@bé a@b "), l.fixed = false := by decide +kernel
    rw [hall l hl] at hf
    cases hf

private def either : CRule :=
  RegexRule.toCRule ⟨fun c p => (textRx "a@b".toList c p).or (textRx "c@d".toList c p), none, none, none⟩
    ⟨.redact "##".toList, false⟩ (.excl []) false (fun c => blen c + 1)

private def seen (r : Res (Ev × List RuleMatch)) : Res (List Str × List RuleMatch) :=
  r.map fun x => ((x.1.leaves false).map (·.text), x.2)

/-- C110: without returned values this is not so: two strings with the same result. -/
theorem C110_without_values :
    let sc : Scanner := ⟨[either], false, false, false, fp⟩
    seen (scan jsonEvent sc (.str "a@b".toList) []) =
        Res.ok (["##".toList], [⟨0, [], .placeholder, 0, 2, -1, none, .notAvailable⟩]) ∧
      seen (scan jsonEvent sc (.str "c@d".toList) []) =
        Res.ok (["##".toList], [⟨0, [], .placeholder, 0, 2, -1, none, .notAvailable⟩]) := by
  decide +kernel

end Sds.Props
