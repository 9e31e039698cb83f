import Verif.Model.GoProgram
import Verif.Props.GoRun
import Verif.Props.Goroutines
import Verif.Props.JsonText

/-! # C90: programs that share scanners among goroutines

Composition of C87 (goroutines and memory), C86 (texts of rules) and C81 (what a scanner does). -/

namespace Sds.Props
open Sds Sds.Spec

section
variable {C S D E : Type}

/-- The event may come in a program. -/
inductive Emits : GoProg C D E → GoEvent C D E → Prop where
  | here {ev : GoEvent C D E} {p : GoProg C D E} : Emits (.event ev p) ev
  | event {ev ev' : GoEvent C D E} {p : GoProg C D E} : Emits p ev → Emits (.event ev' p) ev
  | load {x : Nat} {k : Addr → GoProg C D E} {a : Addr} {ev : GoEvent C D E} : Emits (k a) ev → Emits (.load x k) ev
  | store {x : Nat} {a : Addr} {p : GoProg C D E} {ev : GoEvent C D E} : Emits p ev → Emits (.store x a p) ev
  | call {f : Addr → Addr → Call C E} {k : Out → GoProg C D E} {o : Out} {ev : GoEvent C D E} : Emits (k o) ev →
      Emits (.call f k) ev
  | read {s : Addr} {p : GoProg C D E} {ev : GoEvent C D E} : Emits p ev → Emits (.read s p) ev
  | copy {b : Addr} {k : D → GoProg C D E} {d : D} {ev : GoEvent C D E} : Emits (k d) ev → Emits (.copy b k) ev

theorem emits_step {lib : Lib C S D E} {i : Nat} {c c' : GoConf C S D E} {evs : List (Nat × GoEvent C D E)}
    (h : GoStep lib i c evs c') :
    (∀ e ∈ evs, e.1 = i ∧ Emits (c.threads i) e.2) ∧ ∀ j ev, Emits (c'.threads j) ev → Emits (c.threads j) ev := by
  have other : ∀ {j : Nat} {p : GoProg C D E}, (c.goOn i p).threads j = if j = i then p else c.threads j := rfl
  cases h with
  | event ht =>
    refine ⟨fun e he => ?_, fun j ev he => ?_⟩
    · obtain rfl := List.mem_singleton.1 he
      exact ⟨rfl, ht ▸ .here⟩
    · rw [other] at he
      split at he
      · next h => subst h; rw [ht]; exact .event he
      · exact he
  | load ht =>
    refine ⟨fun e he => (by cases he), fun j ev he => ?_⟩
    rw [other] at he
    split at he
    · next h => subst h; rw [ht]; exact .load he
    · exact he
  | store ht =>
    refine ⟨fun e he => (by cases he), fun j ev he => ?_⟩
    simp only [other] at he
    split at he
    · next h => subst h; rw [ht]; exact .store he
    · exact he
  | call ht _ _ =>
    refine ⟨fun e he => (by cases he), fun j ev he => ?_⟩
    simp only [other] at he
    split at he
    · next h => subst h; rw [ht]; exact .call he
    · exact he
  | read ht _ =>
    refine ⟨fun e he => (by cases he), fun j ev he => ?_⟩
    rw [other] at he
    split at he
    · next h => subst h; rw [ht]; exact .read he
    · exact he
  | copy ht _ =>
    refine ⟨fun e he => (by cases he), fun j ev he => ?_⟩
    rw [other] at he
    split at he
    · next h => subst h; rw [ht]; exact .copy he
    · exact he

theorem emits_run {lib : Lib C S D E} {ops : Nat → List (GoOp C E)} {c : GoConf C S D E} {tr : List (Nat × GoEvent C D E)}
    (h : GoRun lib ops c tr) :
    (∀ e ∈ tr, Emits (goProg (ops e.1)) e.2) ∧ ∀ j ev, Emits (c.threads j) ev → Emits (goProg (ops j)) ev := by
  induction h with
  | start => exact ⟨fun e he => (by cases he), fun j ev he => he⟩
  | step _ hs ih =>
    obtain ⟨h1, h2⟩ := emits_step hs
    refine ⟨fun e he => ?_, fun j ev he => ih.2 j ev (h2 j ev he)⟩
    rcases List.mem_append.1 he with he | he
    · exact ih.1 e he
    · obtain ⟨rfl, h3⟩ := h1 e he
      exact ih.2 _ _ h3

theorem emits_addRules {l : Addr} {ev : GoEvent C D E} : ∀ {jsons : List (Option C)} {k : Bool → GoProg C D E},
    Emits (progAddRules l jsons k) ev → ∃ ok, Emits (k ok) ev
  | [], k, h => ⟨true, h⟩
  | json :: rest, k, h => by
    unfold progAddRules at h
    cases h with
    | call h =>
      dsimp only at h
      split at h
      · exact ⟨false, h⟩
      · cases h with
        | call h => cases h with
          | call h => exact emits_addRules h

theorem emits_create {jsons : List (Option C)} {k : Except (Option Int) Addr → GoProg C D E} {ev : GoEvent C D E}
    (h : Emits (progCreate jsons k) ev) : ∃ r, Emits (k r) ev := by
  unfold progCreate at h
  cases h with
  | call h =>
    obtain ⟨ok, h⟩ := emits_addRules h
    split at h
    · cases h with
      | call h =>
        dsimp only at h
        split at h
        · split at h
          · cases h with
            | call h => cases h with
              | call h => exact ⟨_, h⟩
          · cases h with
            | call h => exact ⟨_, h⟩
        · cases h with
          | call h => exact ⟨_, h⟩
    · cases h with
      | call h => exact ⟨_, h⟩

theorem emits_reads {s : Addr} {p : GoProg C D E} {ev : GoEvent C D E} : ∀ {n : Nat}, Emits (progReads s n p) ev → Emits p ev
  | 0, h => h
  | n + 1, h => by
    cases h with
    | read h => exact emits_reads h

theorem emits_scan {x : Nat} {e : E} {n : Nat} {k : GoScanned D → GoProg C D E} {ev : GoEvent C D E}
    (h : Emits (progScan x e n k) ev) : ∃ r, Emits (k r) ev := by
  unfold progScan at h
  cases h with
  | load h =>
    have h := emits_reads h
    cases h with
    | call h =>
      dsimp only at h
      split at h
      · cases h with
        | call h => exact ⟨_, h⟩
      · split at h
        · exact ⟨_, h⟩
        · cases h with
          | copy h => cases h with
            | call h => exact ⟨_, h⟩

/-- What ends was asked for. -/
theorem emits_ops {ev : GoEvent C D E} : ∀ {ops : List (GoOp C E)}, Emits (goProg ops) ev →
    (∀ x jsons res, ev = .createEnds x jsons res → GoOp.create x jsons ∈ ops) ∧
    (∀ x e r, ev = .scanEnds x e r → ∃ n, GoOp.scan x e n ∈ ops)
  | [], h => by cases h
  | o :: ops, h => by
    unfold goProg at h
    have later : Emits (goProg ops) ev → _ := fun h => emits_ops h
    have weaken : (∀ x jsons res, ev = .createEnds x jsons res → GoOp.create x jsons ∈ ops) ∧
        (∀ x e r, ev = .scanEnds x e r → ∃ n, GoOp.scan x e n ∈ ops) →
        (∀ x jsons res, ev = .createEnds x jsons res → GoOp.create x jsons ∈ o :: ops) ∧
        (∀ x e r, ev = .scanEnds x e r → ∃ n, GoOp.scan x e n ∈ o :: ops) := fun ⟨h1, h2⟩ =>
      ⟨fun x j r e => List.mem_cons_of_mem _ (h1 x j r e), fun x e r he => by
        obtain ⟨n, hn⟩ := h2 x e r he
        exact ⟨n, List.mem_cons_of_mem _ hn⟩⟩
    cases o with
    | create x jsons =>
      unfold GoOp.prog at h
      cases h with
      | here => exact ⟨nofun, nofun⟩
      | event h =>
        obtain ⟨r, h⟩ := emits_create h
        cases r with
        | ok id =>
          cases h with
          | store h => cases h with
            | here => exact ⟨fun x' j r e => by cases e; exact List.mem_cons_self, nofun⟩
            | event h => exact weaken (later h)
        | error err =>
          cases h with
          | here => exact ⟨fun x' j r e => by cases e; exact List.mem_cons_self, nofun⟩
          | event h => exact weaken (later h)
    | scan x e n =>
      unfold GoOp.prog at h
      cases h with
      | here => exact ⟨nofun, nofun⟩
      | event h =>
        obtain ⟨r, h⟩ := emits_scan h
        cases h with
        | here => exact ⟨nofun, fun x' e' r e => by cases e; exact ⟨n, List.mem_cons_self⟩⟩
        | event h => exact weaken (later h)
    | delete x =>
      unfold GoOp.prog progDelete at h
      cases h with
      | here => exact ⟨nofun, nofun⟩
      | event h => cases h with
        | load h => cases h with
          | call h => cases h with
            | store h => cases h with
              | here => exact ⟨nofun, nofun⟩
              | event h => exact weaken (later h)
end

variable {O : Outside} {D : Dates} {short : Bool} {uses : Nat → List GoUse} {c : GoConf RustRule Scanner Bytes Bytes}
  {tr : List (Nat × GoEvent RustRule Bytes Bytes)}

theorem lib_codes (O : Outside) : ∀ cs code, O.lib.build cs = .error code → code < 0 := by
  intro cs code h
  unfold Outside.lib at h
  dsimp only at h
  split at h
  · cases h
  · next e _ => cases h; cases e <;> simp [CreateErr.code]

theorem sent_eq (D : Dates) (short : Bool) (r : GoRule × Bytes) : GoRule.sent D short r = goCreateRule D r.1 :=
  C86_rule_from_text D short r.1 r.2

theorem createRules_iff (D : Dates) : ∀ {gs : List GoRule} {rs : List RustRule},
    goCreateRules D gs = some rs ↔ gs.map (goCreateRule D) = rs.map some
  | [], [] => by simp [goCreateRules]
  | [], _ :: _ => by simp [goCreateRules]
  | g :: gs, rs => by
    unfold goCreateRules
    cases h : goCreateRule D g with
    | none => cases rs <;> simp [h]
    | some r =>
      cases h' : goCreateRules D gs with
      | none =>
        cases rs with
        | nil => simp
        | cons r' rs =>
          have := createRules_iff D (gs := gs) (rs := rs)
          rw [h'] at this
          simp only [List.map_cons, List.cons.injEq, ← this]
          simp
      | some rs' =>
        cases rs with
        | nil => simp
        | cons r' rs =>
          have := createRules_iff D (gs := gs) (rs := rs)
          rw [h'] at this
          simp only [List.map_cons, List.cons.injEq, ← this, h]
          simp

/-- C90, memory: as C87 says, a disciplined program never touches memory that is not its, and never gets stuck. -/
theorem C90_defined_partial (hr : GoRun O.lib (fun i => goOps D short (uses i)) c tr) (hd : Disciplined tr) (i : Nat) :
    ¬ GoUndefined O.lib c i ∧ (c.threads i ≠ .done → ∃ evs c', GoStep O.lib i c evs c') :=
  ⟨C87_no_undefined_behaviour_partial (lib_codes O) hr hd i, C87_never_stuck_partial (lib_codes O) hr hd i⟩

/-- C90, creation: `CreateScanner` in any goroutine of a disciplined program succeeds exactly if the rules that were given to
it make a scanner. -/
theorem C90_created_partial (hr : GoRun O.lib (fun i => goOps D short (uses i)) c tr) (hd : Disciplined tr) {i x : Nat}
    {jsons : List (Option RustRule)} {res : Option (Option Int)} (he : (i, .createEnds x jsons res) ∈ tr) :
    ∃ rules, .create x rules ∈ uses i ∧ jsons = rules.map (GoRule.sent D short) ∧
      (res = none ↔ ∃ sc, goScanner O D (rules.map (·.1)) = some sc) := by
  have hop := (emits_ops ((emits_run hr).1 _ he)).1 x jsons res rfl
  obtain ⟨u, hu, hop⟩ := List.mem_filterMap.1 hop
  have hright := C87_reports_partial (lib_codes O) hr hd _ he
  cases u with
  | scanMap y ev n =>
    simp only [GoUse.op] at hop
    cases h : ev.encode with
    | none => rw [h] at hop; cases hop
    | some b => rw [h] at hop; cases hop
  | scanText y t n => cases hop
  | delete y => cases hop
  | create y rules =>
    simp only [GoUse.op, Option.some.injEq, GoOp.create.injEq] at hop
    obtain ⟨rfl, rfl⟩ := hop
    refine ⟨rules, hu, rfl, ?_⟩
    have e : rules.map (GoRule.sent D short) = (rules.map (·.1)).map (goCreateRule D) := by
      rw [List.map_map]; exact List.map_congr_left fun r _ => sent_eq D short r
    rw [e] at hright
    unfold goScanner
    cases hc : goCreateRules D (rules.map (·.1)) with
    | none =>
      refine ⟨fun h => ?_, fun ⟨sc, h⟩ => by cases h⟩
      subst h
      obtain ⟨cs, s, h1, _⟩ := hright
      rw [(createRules_iff D).2 h1] at hc
      cases hc
    | some rs =>
      have hrs := (createRules_iff D).1 hc
      have inj : ∀ {a b : List RustRule}, a.map some = b.map some → a = b := fun h =>
        (List.map_inj_right (fun _ _ h => by cases h; rfl)).1 h
      dsimp only
      constructor
      · rintro rfl
        obtain ⟨cs, s, h1, h2⟩ := hright
        obtain rfl := inj (hrs.symm.trans h1)
        unfold Outside.lib at h2
        dsimp only at h2
        split at h2
        · next sc hsc => exact ⟨sc, by rw [hsc]⟩
        · cases h2
      · rintro ⟨sc, hsc⟩
        have hb : O.lib.build rs = .ok sc := by
          unfold Outside.lib
          dsimp only
          cases hs : O.scanner {} rs with
          | ok sc' => rw [hs] at hsc; cases hsc; rfl
          | error e => rw [hs] at hsc; cases hsc
        match res, hright with
        | none, _ => rfl
        | some none, hright =>
          rw [hrs] at hright
          simp [Right] at hright
        | some (some code), hright =>
          obtain ⟨cs, h1, h2⟩ := hright
          obtain rfl := inj (hrs.symm.trans h1)
          rw [hb] at h2
          rcases h2 with h2 | ⟨h2, _⟩ <;> cases h2

/-- The scan is not one of those that never end (C21). -/
def Ends (O : Outside) (D : Dates) (gs : List GoRule) (bytes : Bytes) : Prop :=
  ∀ sc, goScanner O D gs = some sc → scanBinary sc bytes ≠ .hang

/-- C90, what is scanned: a scan that ends is of an event or of a text that this goroutine gave, in the encoding of C48. -/
theorem C90_sent (hr : GoRun O.lib (fun i => goOps D short (uses i)) c tr) {i x : Nat} {bytes : Bytes} {r : GoScanned Bytes}
    (he : (i, .scanEnds x bytes r) ∈ tr) :
    (∃ ev n, .scanMap x ev n ∈ uses i ∧ ev.encode = some bytes) ∨
    ∃ text n, .scanText x text n ∈ uses i ∧ goEncodeString text = bytes := by
  obtain ⟨n, hop⟩ := (emits_ops ((emits_run hr).1 _ he)).2 x bytes r rfl
  obtain ⟨u, hu, hop⟩ := List.mem_filterMap.1 hop
  cases u with
  | scanMap y ev m =>
    simp only [GoUse.op, Option.map_eq_some_iff, GoOp.scan.injEq] at hop
    obtain ⟨b, hb, rfl, rfl, rfl⟩ := hop
    exact .inl ⟨ev, _, hu, hb⟩
  | scanText y t m =>
    simp only [GoUse.op, Option.some.injEq, GoOp.scan.injEq] at hop
    obtain ⟨rfl, rfl, rfl⟩ := hop
    exact .inr ⟨t, _, hu, rfl⟩
  | delete y => cases hop
  | create y rules => cases hop

/-- C90, scanning: whatever the other goroutines do meanwhile, a scan in a disciplined program gives what it gives in a program
that only makes the scanner from the rules that were given for it and scans this event. -/
theorem C90_scanned_partial (hr : GoRun O.lib (fun i => goOps D short (uses i)) c tr) (hd : Disciplined tr) {i x : Nat}
    {bytes : Bytes} {r : GoScanned Bytes} (he : (i, .scanEnds x bytes r) ∈ tr) :
    ∃ j rules, (j, .createEnds x (rules.map (GoRule.sent D short)) none) ∈ tr ∧ .create x rules ∈ uses j ∧
      ∀ gs, gs = rules.map (·.1) → Ends O D gs bytes →
        (∀ ev : GoFields, ev.encode = some bytes → finishMap ev r = goRun O D gs ev) ∧
        (∀ text, goEncodeString text = bytes → ∃ sc, goScanner O D gs = some sc ∧ finishText text r = scanString sc text) := by
  obtain ⟨j, cs, s, hcr, hb, hrep⟩ := C87_reports_partial (lib_codes O) hr hd _ he
  obtain ⟨rules, hu, hjs, hiff⟩ := C90_created_partial hr hd hcr
  refine ⟨j, rules, hjs ▸ hcr, hu, fun gs hgs hends => ?_⟩
  have e : rules.map (GoRule.sent D short) = gs.map (goCreateRule D) := by
    rw [hgs, List.map_map]; exact List.map_congr_left fun r _ => sent_eq D short r
  have hsc : goScanner O D gs = some s := by
    unfold goScanner
    rw [(createRules_iff D).2 (by rw [← e, ← hjs])]
    dsimp only
    unfold Outside.lib at hb
    dsimp only at hb
    cases hs : O.scanner {} cs with
    | ok sc' => rw [hs] at hb; cases hb; rfl
    | error e => rw [hs] at hb; cases hb
  have hnh := hends s hsc
  have hresp : goResponse r = lowLevelScan s bytes := by
    rw [hrep]
    unfold Outside.lib lowLevelScan
    dsimp only
    cases h : scanBinary s bytes with
    | hang => exact absurd h hnh
    | panic => rfl
    | ok v =>
      obtain ⟨st, ms⟩ := v
      dsimp only
      cases encodeResponse st ms with
      | none => rfl
      | some b => rfl
  refine ⟨fun ev hev => ?_, fun text ht => ⟨s, hsc, ?_⟩⟩
  · unfold goRun finishMap scanEventsMap
    rw [hsc, hresp]
    dsimp only
    rw [hev]
    rfl
  · unfold finishText scanString
    rw [hresp, ht]
    rfl

open Sds.Re in
/-- C90: goroutines share scanners.  Whatever they do meanwhile, every string of an event that one of them has scanned has the
text that the rules given for this scanner ask for, nothing else is changed, and the reported matches are exactly these.
Missing: what C81 leaves out, and programs that are not disciplined (C87). -/
theorem C90_program_partial {T : Tables} {gs : List GoRule} {rs : List (RustRule × Ast)} (hO : Faithful T O)
    (hr : GoRun O.lib (fun i => goOps D short (uses i)) c tr) (hd : Disciplined tr) {i x : Nat} {bytes : Bytes}
    {r : GoScanned Bytes} (he : (i, .scanEnds x bytes r) ∈ tr)
    (hx : ∀ j rules, .create x rules ∈ uses j → rules.map (·.1) = gs) (h : AskFor T gs rs) (hn : rs.length ≤ 4294967296)
    (ev : GoFields) (hev : ev.encode = some bytes)
    (hk : GoKeyed (.map ev)) (hs : GoSized (.map ev)) (hu : KeysUtf8 (.map ev)) (hstr : StringsUtf8 (.map ev))
    (hsafe : ∀ p s, GoAt (.map ev) (goPath p) (.str (utf8 s)) → ∀ x ∈ rs, Regular T O x.1 x.2 s)
    (size : Str → Nat) (hsize : ∀ p s, GoAt (.map ev) (goPath p) (.str (utf8 s)) →
      ∀ ps tail, Cut T O rs s ps tail → blen (rewritten O rs ps tail) ≤ size s)
    (htotal : ∀ leaves, LeavesOf (.map ev) leaves → (leaves.map fun l => stringCost (size l.text) l).sum < 2147483648) :
    ∃ G res, finishMap ev r = Res.ok (some (goRewrite G (.map ev), res)) ∧
      ∃ cutOf : Path → Str → List Piece × Str,
        (∀ p s, GoAt (.map ev) (goPath p) (.str (utf8 s)) → Cut T O rs s (cutOf p s).1 (cutOf p s).2 ∧
          G (goPath p) (utf8 s) = utf8 (rewritten O rs (cutOf p s).1 (cutOf p s).2)) ∧
        (res.mutated = true ↔ ∃ p s, GoAt (.map ev) (goPath p) (.str (utf8 s)) ∧
          ∃ q ∈ (cutOf p s).1, actionAt rs q.rule ≠ .none) ∧
        ∀ m, m ∈ res.matches_ ↔ ∃ p s, GoAt (.map ev) (goPath p) (.str (utf8 s)) ∧ Reported O rs p (cutOf p s).1 m := by
  obtain ⟨j, rules, hcr, hu', hsame⟩ := C90_scanned_partial hr hd he
  obtain ⟨rules', hu'', _, hiff⟩ := C90_created_partial hr hd hcr
  obtain rfl := hx j rules hu'
  have hc : ∃ sc, goScanner O D (rules.map (·.1)) = some sc := by
    rw [← hx j rules' hu'']
    exact hiff.1 rfl
  obtain ⟨G, res, h1, h2⟩ := C81_go_rules_partial (D := D) hO h hn hc ev hk hs hu hstr hsafe size hsize htotal
  refine ⟨G, res, ?_, h2⟩
  rw [(hsame _ rfl fun sc hsc hh => ?_).1 ev hev, h1]
  unfold goRun scanEventsMap at h1
  rw [hsc] at h1
  dsimp only at h1
  rw [hev] at h1
  unfold lowLevelScan at h1
  dsimp only at h1
  rw [hh] at h1
  cases h1

/-! ## Example: two goroutines scan with one scanner, one of them while the other's scan is running -/

namespace GoProgramExample

/-- The only regex matches `1`. -/
def outside : Outside :=
  ⟨fun _ _ => .ok fun s i => if (s.drop i).head? = some '1' then some (i + 1) else none, fun a b => decide (a = b), fun _ _ _ => none,
    fun _ => 0, fun _ => none, 0, fun _ => false, fun _ => false, ⟨fun _ => 0, fun _ => 0⟩⟩

def dates : Dates := ⟨fun _ => [], fun _ => none⟩

/-- A rule that replaces `1` by `#`; in memory, other text follows its C string. -/
def rules : List (GoRule × Bytes) :=
  [(goRedactingRule (utf8 "id".toList) (utf8 "1".toList) (utf8 "#".toList) ⟨none, []⟩, utf8 "}x".toList)]

def event : GoFields := .cons (utf8 "k".toList) (.str (utf8 "a1".toList)) .nil

def use : Nat → List GoUse
  | 0 => [.create 7 rules, .scanMap 7 event 1, .delete 7]
  | 1 => [.scanText 7 (utf8 "11".toList) 1]
  | _ => []

def start : GoConf RustRule Scanner Bytes Bytes := ⟨[], fun _ => 0, fun i => goProg (goOps dates true (use i))⟩

def sched : List (Nat × Addr × Addr) :=
  [(0, 0, 0), (0, 1, 9), (0, 2, 3), (0, 9, 8), (0, 9, 8), (0, 4, 9), (0, 9, 8), (0, 0, 0), (0, 0, 0),
    (0, 0, 0), (1, 0, 0), (0, 0, 0), (1, 0, 0), (1, 0, 0), (0, 0, 0), (0, 5, 6), (1, 6, 7), (0, 0, 0), (1, 0, 0), (0, 7, 8),
    (1, 7, 8), (1, 0, 0), (0, 0, 0), (0, 0, 0), (0, 0, 0), (0, 8, 9), (0, 0, 0), (0, 0, 0)]

/-- What Go makes of the scans of a history. -/
def finished : List (Nat × GoEvent RustRule Bytes Bytes) → List (Nat × Option GoVal × Option Bytes)
  | [] => []
  | (i, .scanEnds _ _ r) :: tr =>
    (i, match i with
      | 0 => ((match finishMap event r with | .ok (some v) => some v.1 | _ => none), none)
      | _ => (none, (match finishText (utf8 "11".toList) r with | .ok (some v) => some v.event | _ => none))) :: finished tr
  | _ :: tr => finished tr

example : ∃ c tr, GoRun outside.lib (fun i => goOps dates true (use i)) c tr ∧ Disciplined tr ∧ c.heap = [] ∧
    finished tr = [(1, none, some (utf8 "##".toList)),
      (0, some (.map (.cons (utf8 "k".toList) (.str (utf8 "a#".toList)) .nil)), none)] := by
  have key : (goExec outside.lib start [] sched).any (fun r => disciplinedB [] r.2 && r.1.heap.isEmpty &&
      decide (finished r.2 = [(1, none, some (utf8 "##".toList)),
        (0, some (.map (.cons (utf8 "k".toList) (.str (utf8 "a#".toList)) .nil)), none)])) = true := by decide +kernel
  cases h : goExec outside.lib start [] sched with
  | none => rw [h] at key; cases key
  | some r =>
    rw [h] at key
    simp only [Option.any_some, Bool.and_eq_true, decide_eq_true_eq, List.isEmpty_iff] at key
    refine ⟨r.1, r.2, goExec_sound sched .start h, ?_, key.1.2, key.2⟩
    exact disciplinedB_sound r.2 [] key.1.1 (by intro t i ev u e; simp at e)

end GoProgramExample

end Sds.Props
