import Verif.Spec.GoErrors
import Verif.Props.GoProgram
import Verif.Props.Builder
import Verif.Props.GoRule
import Verif.Props.GoRun
import Verif.Lemmas.Utf8

/-! # C96: what callers of the Go package are told about a failure -/

namespace Sds.Props

open Sds.Spec

/-! ## Panics -/

theorem zero_mem_utf8 (s : Str) : 0 ∈ utf8 s ↔ '\x00' ∈ s := by
  induction s with
  | nil => simp [utf8]
  | cons c s ih =>
    rw [utf8, List.mem_append, ih, List.mem_cons]
    have : 0 ∈ utf8Char c ↔ '\x00' = c := by
      constructor
      · intro h
        have : c.toNat = 0 := by
          unfold utf8Char at h
          dsimp only at h
          split at h
          · simpa using Eq.symm (by simpa using h)
          · split at h
            · simp only [List.mem_cons, List.not_mem_nil, or_false] at h; omega
            · split at h <;> simp only [List.mem_cons, List.not_mem_nil, or_false] at h <;> omega
        exact Char.toNat_inj.mp this.symm
      · rintro rfl
        decide
    rw [this]

theorem cStr_append_zero {b : Bytes} (h : 0 ∉ b) (rest : Bytes) : cStr (b ++ 0 :: rest) = b := by
  unfold cStr
  rw [List.takeWhile_append_of_pos]
  · simp
  · intro x hx
    have : x ≠ 0 := fun e => h (e ▸ hx)
    simpa using this

theorem errorMemory_eq (m : Str) : errorMemory m = utf8 (if '\x00' ∈ m then noInformation else m) ++ [0] := by
  unfold errorMemory cStringNew
  by_cases h : '\x00' ∈ m
  · rw [if_pos ((zero_mem_utf8 m).mpr h), if_pos h]; rfl
  · rw [if_neg (fun x => h ((zero_mem_utf8 m).mp x)), if_neg h]; rfl

theorem errorMemory_read (m : Str) : cStr (errorMemory m) = utf8 (if '\x00' ∈ m then noInformation else m) := by
  rw [errorMemory_eq]
  refine cStr_append_zero ?_ []
  rw [zero_mem_utf8]
  split
  · decide
  · assumption

/-- A panic of a scan whose text has no zero: the text of the Go error is `internal panic: ` and that text. -/
theorem C96_scan_panic_partial {p : Payload} {m : Str} (h : Carries p m) (h0 : '\x00' ∉ m) :
    goScanError (scanErrorOut (some p)) = some (utf8 ("internal panic: ".toList ++ m)) := by
  have : p.message = m := by cases h <;> rfl
  rw [utf8_append]
  show some (_ ++ cStr (errorMemory p.message)) = _
  rw [errorMemory_read, this, if_neg h0]

/-- The same for a panic while a scanner is created. -/
theorem C96_create_panic_partial {p : Payload} {m : Str} (h : Carries p m) (h0 : '\x00' ∉ m) :
    goCreateResult (Creating.panic p).native = .error (utf8 ("internal panic: ".toList ++ m)) := by
  have : p.message = m := by cases h <;> rfl
  rw [utf8_append]
  show Except.error (_ ++ cStr (errorMemory p.message)) = _
  rw [errorMemory_read, this, if_neg h0]

/-- So different texts give different errors. -/
theorem C96_texts_distinguished {p q : Payload} {m n : Str} (hp : Carries p m) (hq : Carries q n) (hm : '\x00' ∉ m)
    (hn : '\x00' ∉ n) (h : goScanError (scanErrorOut (some p)) = goScanError (scanErrorOut (some q))) : m = n := by
  rw [C96_scan_panic_partial hp hm, C96_scan_panic_partial hq hn] at h
  exact List.append_cancel_left (utf8_inj (Option.some.inj h))

/-- Without a text, or with one that has a zero, the caller is only told that there was a panic. -/
theorem C96_no_information {p : Payload} (h : ∀ m, Carries p m → '\x00' ∈ m) :
    goScanError (scanErrorOut (some p)) =
      some (utf8 "internal panic: Rust panicked. No more information is available.".toList) ∧
    goCreateResult (Creating.panic p).native =
      .error (utf8 "internal panic: Rust panicked. No more information is available.".toList) := by
  have hm : cStr (errorMemory p.message) = utf8 noInformation := by
    rw [errorMemory_read]
    cases p with
    | str s => rw [if_pos (show '\x00' ∈ (Payload.str s).message from h s (.str s))]
    | string s => rw [if_pos (show '\x00' ∈ (Payload.string s).message from h s (.string s))]
    | other =>
      show utf8 (if '\x00' ∈ noInformation then noInformation else noInformation) = _
      rw [ite_self]
  constructor
  · show some (_ ++ cStr (errorMemory p.message)) = _
    rw [hm]
    decide +kernel
  · show Except.error (_ ++ cStr (errorMemory p.message)) = _
    rw [hm]
    rfl

/-- A scan that does not panic is not reported as one. -/
theorem C96_no_false_panic : goScanError (scanErrorOut none) = none := rfl

/-- The memory of the text ends with its only zero, so that `free_string` frees as much as was allocated. -/
theorem C96_freed_whole (p : Payload) : ∃ b, errorMemory p.message = b ++ [0] ∧ 0 ∉ b ∧
    fromRawSize (errorMemory p.message) = (errorMemory p.message).length := by
  refine ⟨_, errorMemory_eq _, ?_, ?_⟩
  · rw [zero_mem_utf8]
    split
    · decide
    · assumption
  · unfold fromRawSize
    rw [errorMemory_read, errorMemory_eq, List.length_append]
    rfl

example : goScanError (scanErrorOut (some (.string "index out of bounds".toList))) =
    some (utf8 "internal panic: index out of bounds".toList) := by decide +kernel

/-! ## Creation of a scanner -/

theorem complaint_iff {V : Type} {regexOf : Str → Except RegexErr V} {r : RuleCfg} {s : String} :
    Complaint regexOf r s ↔ ∃ e, Faulty regexOf r e ∧ goCreateResult (Creating.error e).native = .error (utf8 s.toList) := by
  have inj : ∀ {a b : String}, (Except.error (utf8 a.toList) : Except Bytes Int) = .error (utf8 b.toList) → a = b := by
    intro a b h
    have := utf8_inj (Except.error.inj h)
    exact String.toList_inj.mp this
  constructor
  · intro h
    cases h with
    | regex h => exact ⟨_, .regex h, rfl⟩
    | action h h' => exact ⟨_, .action h h', rfl⟩
    | @keywords v c h h' hk hw =>
      rcases compile_cases regexOf r 0 with ⟨e, _, hf, _⟩ | ⟨_, _, _, hv, _⟩
      · refine ⟨e, hf, ?_⟩
        cases hf with
        | regex h2 => rw [h] at h2; cases h2
        | action _ h2 => exact absurd h2 h'
        | keywords _ _ _ _ => rfl
      · exact absurd (hv.2.2 c hk) hw
  · rintro ⟨e, hf, ht⟩
    have hnv := faulty_not_valid hf
    cases hf with
    | regex h =>
      obtain rfl := inj (a := "invalid regex") ht
      exact .regex h
    | action h h' =>
      obtain rfl := inj (a := "invalid match action") ht
      exact .action h h'
    | @keywords v c e h h' hk hf =>
      obtain rfl := inj (a := "invalid keywords") ht
      refine .keywords h h' hk fun hw => hnv ⟨⟨v, h⟩, h', fun c' hc' => ?_⟩
      rw [hk] at hc'
      cases hc'
      exact hw

variable {O : Outside} {D : Dates}

/-- The rules of the Go package and what arrives of them. -/
def Arrive (gs : List GoRule) (rs : List RustRule) : Prop :=
  gs.length = rs.length ∧ ∀ (i : Nat) (g : GoRule) (r : RustRule), gs[i]? = some g → rs[i]? = some r → Sized g ∧ RuleFor g r

theorem arrive_created : ∀ {gs : List GoRule} {rs : List RustRule}, Arrive gs rs → goCreateRules D gs = some rs
  | [], [], _ => rfl
  | [], _ :: _, h => by cases h.1
  | _ :: _, [], h => by cases h.1
  | g :: gs, r :: rs, h => by
    obtain ⟨hs, hf⟩ := h.2 0 g r rfl rfl
    unfold goCreateRules
    rw [C64_rule_arrives hs hf]
    dsimp only
    rw [arrive_created (gs := gs) (rs := rs) ⟨Nat.succ.inj h.1, fun i x y hx hy => h.2 (i + 1) x y hx hy⟩]

/-- `CreateScanner` fails exactly if a rule is faulty, and the error says what is wrong with the first faulty one: its
pattern, else its action, else its keywords. -/
theorem C96_first_fault_named {gs : List GoRule} {rs : List RustRule} (h : Arrive gs rs) (why : Payload) (a : Nat) (t : Bytes) :
    goNewScanner O D why a gs = .error t ↔
    ∃ l r m s, rs = l ++ r :: m ∧ (∀ x ∈ l, ValidRule O.regexOf x.cfg) ∧ Complaint O.regexOf r.cfg s ∧ Says t s := by
  unfold goNewScanner
  rw [arrive_created h]
  dsimp only
  have hok : ∀ n : Nat, goCreateResult (Creating.scanner n).native = .ok (n : Int) := by
    intro n
    unfold goCreateResult Creating.native
    dsimp only
    rw [if_neg (by omega)]
  have hb := C46_first_fault O.regexOf (rs.map RustRule.cfg)
  unfold Outside.scanner
  cases hbs : buildScanner O.regexOf (rs.map RustRule.cfg) with
  | error e =>
    dsimp only
    constructor
    · intro he
      obtain ⟨l, r, m, hl, hv, hf⟩ := (hb e).mp hbs
      obtain ⟨l', m', hrs, hl', hm'⟩ := List.map_eq_append_iff.mp hl
      obtain ⟨r', m'', rfl, hr', _⟩ := List.map_eq_cons_iff.mp hm'
      have hc : ∃ s : String, goCreateResult (Creating.error e).native = .error (utf8 s.toList) := by
        cases hf with
        | regex _ => exact ⟨"invalid regex", rfl⟩
        | action _ _ => exact ⟨"invalid match action", rfl⟩
        | keywords _ _ _ _ => exact ⟨"invalid keywords", rfl⟩
      obtain ⟨s, hs⟩ := hc
      refine ⟨l', r', m'', s, hrs, ?_, ?_, ?_⟩
      · intro x hx
        exact hv _ (by rw [← hl']; exact List.mem_map_of_mem hx)
      · rw [hr']
        exact complaint_iff.mpr ⟨e, hf, hs⟩
      · rw [hs] at he
        exact (Except.error.inj he).symm
    · rintro ⟨l, r, m, s, rfl, hv, hc, rfl⟩
      obtain ⟨e', hf, ht⟩ := complaint_iff.mp hc
      have := (hb e').mpr ⟨l.map RustRule.cfg, r.cfg, m.map RustRule.cfg, by simp, by
        intro x hx
        obtain ⟨y, hy, rfl⟩ := List.mem_map.mp hx
        exact hv y hy, hf⟩
      rw [hbs] at this
      cases this
      exact ht
  | ok b =>
    dsimp only
    rw [hok]
    refine ⟨fun he => (by cases he), ?_⟩
    rintro ⟨l, r, m, s, rfl, hv, hc, rfl⟩
    obtain ⟨e', hf, ht⟩ := complaint_iff.mp hc
    have := (hb e').mpr ⟨l.map RustRule.cfg, r.cfg, m.map RustRule.cfg, by simp, by
      intro x hx
      obtain ⟨y, hy, rfl⟩ := List.mem_map.mp hx
      exact hv y hy, hf⟩
    rw [hbs] at this
    cases this

/-- Where the claim fails: a rule whose text the library does not accept is always reported by the same words, whatever the
library's panic says. -/
theorem C96_rule_reason_lost {gs : List GoRule} (h : ∃ g ∈ gs, goCreateRule D g = none) (why : Payload) (a : Nat) :
    goNewScanner O D why a gs = .error (utf8 "Failed to create regex rule".toList) := by
  have hn : goCreateRules D gs = none := by
    obtain ⟨g, hg, hn⟩ := h
    induction gs with
    | nil => cases hg
    | cons g' gs ih =>
      unfold goCreateRules
      rcases List.mem_cons.mp hg with rfl | hg
      · rw [hn]
      · cases goCreateRule D g' with
        | none => rfl
        | some r => dsimp only; rw [ih hg]
  unfold goNewScanner
  rw [hn]
  rfl

/-- Non-vacuity: the second rule has a pattern that does not parse and redacts nothing; the third has the keyword ``. -/
private def faultyRules : List GoRule := [goHashRule [] (goConst "a") ⟨none, []⟩,
  goPartialRule [] (goConst "(") 0 (goConst "LastCharacters") ⟨none, []⟩,
  goHashRule [] (goConst "b") ⟨some (goCreateKeywords 30 (some [[]]) none), []⟩]

private def faultyArrived : List RustRule := [⟨['a'], .hash, none, none, .excl [], [], none⟩,
  ⟨['('], .partialLast 0, none, none, .excl [], [], none⟩, ⟨['b'], .hash, some ⟨30, [[]], []⟩, none, .excl [], [], none⟩]

example : Arrive faultyRules faultyArrived := by
  refine ⟨rfl, fun i g r hg hr => ?_⟩
  match i, hg, hr with
  | 0, hg, hr =>
    cases hg; cases hr
    exact ⟨⟨by decide, by intro k hk; cases hk⟩, ⟨by decide +kernel, .hash rfl, trivial, rfl, rfl, rfl, rfl⟩⟩
  | 1, hg, hr =>
    cases hg; cases hr
    exact ⟨⟨by decide, by intro k hk; cases hk⟩, ⟨by decide +kernel, .last rfl rfl, trivial, rfl, rfl, rfl, rfl⟩⟩
  | 2, hg, hr =>
    cases hg; cases hr
    exact ⟨⟨by decide, by intro k hk; cases hk; decide⟩, ⟨by decide +kernel, .hash rfl, ⟨rfl, rfl, rfl⟩, rfl, rfl, rfl, rfl⟩⟩
  | n + 3, hg, _ => simp [faultyRules] at hg

example (rx : Rx) (h : O.regexOf ['a'] = .ok rx) : ValidRule O.regexOf (RustRule.cfg ⟨['a'], .hash, none, none, .excl [], [], none⟩) ∧
    Complaint O.regexOf (RustRule.cfg ⟨['('], .partialLast 0, none, none, .excl [], [], none⟩) "invalid regex" :=
  ⟨⟨⟨rx, h⟩, (by intro hb; rcases hb with hb | hb <;> cases hb), (by intro c hc; cases hc)⟩, .regex (e := .invalidSyntax) rfl⟩

example : goCreateRule D ⟨[], [], ⟨goConst "Mask", [], 0, []⟩, none, []⟩ = none := by rfl

end Sds.Props
