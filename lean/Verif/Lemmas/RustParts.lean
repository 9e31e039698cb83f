import Verif.Lemmas.RustRead

/-! # Lemmas: what was read means what was printed -/

namespace Sds.Re
open Sds Spec

variable {T : Tables}

/-! ## Bracketing of sequences -/

theorem spans_seq_cons {n : Node} {l : List Node} {p m q : Str} :
    Spans T (.seq (n :: l)) p m q ↔ ∃ m1 m2, m = m1 ++ m2 ∧ Spans T n p m1 (m2 ++ q) ∧ Spans T (.seq l) (p ++ m1) m2 q :=
  ⟨fun h => by cases h with | seqCons h h' => exact ⟨_, _, rfl, h, h'⟩,
   fun ⟨_, _, e, h, h'⟩ => e ▸ .seqCons h h'⟩

theorem spans_seq_nil {p m q : Str} : Spans T (.seq []) p m q ↔ m = [] :=
  ⟨fun h => by cases h; rfl, fun h => h ▸ .seqNil⟩

theorem spans_seq_one {n : Node} {p m q : Str} : Spans T (.seq [n]) p m q ↔ Spans T n p m q := by
  rw [spans_seq_cons]
  constructor
  · rintro ⟨m1, m2, rfl, h, h'⟩
    rw [spans_seq_nil] at h'
    subst h'
    simpa using h
  · intro h
    exact ⟨m, [], by simp, by simpa using h, .seqNil⟩

theorem spans_seq_append {l l' : List Node} {p m q : Str} :
    Spans T (.seq (l ++ l')) p m q ↔
      ∃ m1 m2, m = m1 ++ m2 ∧ Spans T (.seq l) p m1 (m2 ++ q) ∧ Spans T (.seq l') (p ++ m1) m2 q := by
  induction l generalizing p m with
  | nil =>
    simp only [List.nil_append, spans_seq_nil]
    constructor
    · intro h; exact ⟨[], m, rfl, rfl, by simpa using h⟩
    · rintro ⟨m1, m2, rfl, rfl, h⟩; simpa using h
  | cons n l ih =>
    rw [List.cons_append, spans_seq_cons]
    constructor
    · rintro ⟨m1, m2, rfl, h, h'⟩
      obtain ⟨m3, m4, rfl, h3, h4⟩ := ih.mp h'
      refine ⟨m1 ++ m3, m4, by simp, ?_, by simpa using h4⟩
      exact .seqCons (by simpa using h) h3
    · rintro ⟨m1, m2, rfl, h, h'⟩
      obtain ⟨m3, m4, rfl, h3, h4⟩ := spans_seq_cons.mp h
      exact ⟨m3, m4 ++ m2, by simp, by simpa using h3, ih.mpr ⟨m4, m2, rfl, h4, by simpa using h'⟩⟩

theorem spans_joined {l : List Node} {p m q : Str} : Spans T (joined l) p m q ↔ Spans T (.seq l) p m q := by
  unfold joined
  split
  · exact spans_seq_one.symm
  · exact Iff.rfl

theorem spans_rep_mono {n n' : Node} (h : ∀ p m q, Spans T n p m q → Spans T n' p m q) {lo : Nat} {hi : Option Nat}
    {g : Bool} {p m q : Str} (hs : Spans T (.rep lo hi g n) p m q) : Spans T (.rep lo hi g n') p m q := by
  generalize hr : Node.rep lo hi g n = r at hs
  induction hs generalizing lo hi with
  | repZero =>
    cases hr
    exact .repZero
  | repSucc hh h1 h2 ih1 ih2 =>
    cases hr
    exact .repSucc hh (h _ _ _ h1) (ih2 rfl)
  | _ => cases hr

mutual

/-- The parts of an expression, one after another, match what the expression matches. -/
theorem spans_parts (n : Node) (p m q : Str) : Spans T n p m q ↔ Spans T (.seq (parts n)) p m q := by
  cases n with
  | eps =>
    rw [parts, spans_seq_nil]
    exact ⟨fun h => by cases h; rfl, fun h => h ▸ .eps⟩
  | set P => rw [parts, spans_seq_one]
  | look l => rw [parts, spans_seq_one]
  | seq l => rw [parts]; exact spans_partsAll l p m q
  | alt l =>
    rw [parts, spans_seq_one]
    have h := spans_joinedEach l p m q
    constructor
    · intro hs
      cases hs with
      | alt hn hs =>
        obtain ⟨n', hn', hs'⟩ := h.mp ⟨_, hn, hs⟩
        exact .alt hn' hs'
    · intro hs
      cases hs with
      | alt hn hs =>
        obtain ⟨n', hn', hs'⟩ := h.mpr ⟨_, hn, hs⟩
        exact .alt hn' hs'
  | rep lo hi g n =>
    rw [parts, spans_seq_one]
    have h := fun p m q => (spans_parts n p m q).trans spans_joined.symm
    exact ⟨spans_rep_mono fun p m q => (h p m q).mp, spans_rep_mono fun p m q => (h p m q).mpr⟩
  | capture name n =>
    rw [parts, spans_seq_one]
    have h := (spans_parts n p m q).trans spans_joined.symm
    constructor
    · intro hs
      cases hs with
      | capture hs => exact .capture (h.mp hs)
    · intro hs
      cases hs with
      | capture hs => exact .capture (h.mpr hs)

theorem spans_partsAll (l : List Node) (p m q : Str) : Spans T (.seq l) p m q ↔ Spans T (.seq (partsAll l)) p m q := by
  cases l with
  | nil => rw [partsAll]
  | cons n l =>
    rw [partsAll, spans_seq_append, spans_seq_cons]
    constructor
    · rintro ⟨m1, m2, e, h, h'⟩
      exact ⟨m1, m2, e, (spans_parts n _ _ _).mp h, (spans_partsAll l _ _ _).mp h'⟩
    · rintro ⟨m1, m2, e, h, h'⟩
      exact ⟨m1, m2, e, (spans_parts n _ _ _).mpr h, (spans_partsAll l _ _ _).mpr h'⟩

theorem spans_joinedEach (l : List Node) (p m q : Str) :
    (∃ n ∈ l, Spans T n p m q) ↔ ∃ n ∈ joinedEach l, Spans T n p m q := by
  cases l with
  | nil => rw [joinedEach]
  | cons n l =>
    have h1 := (spans_parts n p m q).trans spans_joined.symm
    have h2 := spans_joinedEach l p m q
    rw [joinedEach]
    simp only [List.mem_cons, exists_eq_or_imp, h1, h2]

end

/-! ## Meaning -/

theorem rustMeaningList_append (l l' : List RAst) (t : RFlagState) :
    rustMeaningList T (l ++ l') t =
      ((rustMeaningList T l t).1 ++ (rustMeaningList T l' (rustMeaningList T l t).2).1,
        (rustMeaningList T l' (rustMeaningList T l t).2).2) := by
  induction l generalizing t with
  | nil => simp [rustMeaningList]
  | cons a l ih => simp [rustMeaningList, ih]

theorem partsAll_append (l l' : List Node) : partsAll (l ++ l') = partsAll l ++ partsAll l' := by
  induction l with
  | nil => simp [partsAll]
  | cons n l ih => simp [partsAll, ih]

theorem intoAst_meaning (l : List RAst) (t : RFlagState) :
    parts (rustMeaning T (intoAst l) t).1 = partsAll (rustMeaningList T l t).1 ∧
      (rustMeaning T (intoAst l) t).2 = (rustMeaningList T l t).2 := by
  unfold intoAst
  split
  · simp [rustMeaning, rustMeaningList, parts, partsAll]
  · simp [rustMeaningList, partsAll]
  · simp [rustMeaning, parts]

theorem intoItem_set (l : List RClassItem) (t : RFlagState) :
    rustItemSet T t (intoItem l) = rustItemSet T t (.union l) := by
  unfold intoItem
  split
  · funext x; simp [rustItemSet, rustItemsSet]
  · rfl

theorem flagsAfter_absent {l : List RFlagsItem} {f : RFlag} (h : .flag f ∉ l) (on : Bool) (t : RFlagState) :
    rustFlagsAfter l on t f = t f := by
  induction l generalizing on t with
  | nil => rfl
  | cons i l ih =>
    simp only [List.mem_cons, not_or] at h
    cases i with
    | negation => rw [rustFlagsAfter, ih h.2]
    | flag g =>
      have hg : f ≠ g := fun e => h.1 (by rw [e])
      rw [rustFlagsAfter, ih h.2]
      simp [switch, hg]

theorem spaceAfter_eq {l : List RFlagsItem} (h : l.Nodup) (t : RFlagState) :
    spaceAfter l (t .ignoreWhitespace) = rustFlagsAfter l true t .ignoreWhitespace := by
  unfold spaceAfter
  generalize true = on
  induction l generalizing on t with
  | nil => rfl
  | cons i l ih =>
    rw [List.nodup_cons] at h
    cases i with
    | negation => rw [spaceFlag, rustFlagsAfter]; exact ih h.2 t false
    | flag g =>
      cases g with
      | ignoreWhitespace =>
        rw [spaceFlag, rustFlagsAfter, flagsAfter_absent h.1]
        simp [switch]
      | _ =>
        rw [spaceFlag, rustFlagsAfter]
        · rw [← ih h.2 _ on]; simp [switch]
        · simp

theorem flagsOk_nodup {l : List RFlagsItem} (h : flagsOk l = true) : l.Nodup := by
  simp only [flagsOk, Bool.and_eq_true, decide_eq_true_eq] at h
  exact h.1

theorem capture_congr {n n' : Node} {name : Option Str} (h : parts n = parts n') :
    parts (.capture name n) = parts (.capture name n') := by
  rw [parts, parts, h]

set_option hygiene false in
local macro "smaller" : tactic =>
  `(tactic| (first | omega | (simp only [RAst.group.sizeOf_spec, RAst.repetition.sizeOf_spec, RAst.concat.sizeOf_spec,
    RAst.alternation.sizeOf_spec, List.cons.sizeOf_spec] at hz; omega)))

mutual

theorem atom_meaning (n : Nat) {x : Bool} {a b : RAst} (h : SeesAtom x a b) (hz : 3 * sizeOf a < n) (t : RFlagState)
    (hx : t .ignoreWhitespace = x) :
    parts (rustMeaning T a t).1 = parts (rustMeaning T b t).1 ∧ (rustMeaning T a t).2 = t ∧
      (rustMeaning T b t).2 = t := by
  have hpos : 0 < n := by omega
  cases h with
  | literal h hs =>
    refine ⟨rfl, ?_⟩
    rw [rustMeaning]
    split <;> simp
  | dot => simp [rustMeaning]
  | assertion hk => simp [rustMeaning]
  | boundary hf => simp [rustMeaning]
  | unicode h => simp [rustMeaning]
  | @bracketed _ negated it l hl h hi =>
    have hs : rustItemSet T t it = rustItemSet T t (intoItem l) := by
      rcases hi with rfl | rfl
      · rfl
      · exact (intoItem_set l t).symm
    simp [rustMeaning, hs]
  | @group _ kind a b hk hb =>
    cases kind with
    | captureIndex =>
      have := body_meaning (n - 1) hb (by smaller) t hx
      refine ⟨?_, by simp [rustMeaning], by simp [rustMeaning]⟩
      rw [rustMeaning, rustMeaning]
      exact capture_congr this
    | captureName name =>
      have := body_meaning (n - 1) hb (by smaller) t hx
      refine ⟨?_, by simp [rustMeaning], by simp [rustMeaning]⟩
      rw [rustMeaning, rustMeaning]
      exact capture_congr this
    | nonCapturing fs =>
      have := body_meaning (n - 1) hb (by smaller) (rustFlagsAfter fs true t)
        (by rw [groupX, ← hx, spaceAfter_eq (flagsOk_nodup hk)])
      refine ⟨?_, by simp [rustMeaning], by simp [rustMeaning]⟩
      rw [rustMeaning, rustMeaning]
      exact this
termination_by n
decreasing_by all_goals omega

theorem sees_meaning (n : Nat) {x x' : Bool} {a : RAst} {l : List RAst} (h : Sees x a l x') (hz : 3 * sizeOf a + 1 < n)
    (t : RFlagState) (hx : t .ignoreWhitespace = x) :
    parts (rustMeaning T a t).1 = partsAll (rustMeaningList T l t).1 ∧
      (rustMeaningList T l t).2 = (rustMeaning T a t).2 ∧ (rustMeaning T a t).2 .ignoreWhitespace = x' := by
  have hpos : 0 < n := by omega
  cases h with
  | atom h =>
    obtain ⟨h1, h2, h3⟩ := atom_meaning (n - 1) h (by smaller) t hx
    simp [rustMeaningList, partsAll, h1, h2, h3, hx]
  | empty => simp [rustMeaning, rustMeaningList, parts, partsAll, hx]
  | flags hf hn =>
    simp [rustMeaning, rustMeaningList, parts, partsAll, ← hx, spaceAfter_eq (flagsOk_nodup hf)]
  | space hc => simp [rustMeaning, rustMeaningList, parts, partsAll, hx, hc]
  | repetition hk h =>
    obtain ⟨h1, h2, h3⟩ := atom_meaning (n - 1) h (by smaller) t hx
    simp [rustMeaning, rustMeaningList, parts, partsAll, h1, h2, h3, hx]
  | concat h =>
    obtain ⟨h1, h2, h3⟩ := seesAll_meaning (n - 1) h (by smaller) t hx
    simp [rustMeaning, parts, h1, h2, h3]
termination_by n
decreasing_by all_goals omega

theorem seesAll_meaning (n : Nat) {x x' : Bool} {as l : List RAst} (h : SeesAll x as l x') (hz : 3 * sizeOf as < n)
    (t : RFlagState) (hx : t .ignoreWhitespace = x) :
    partsAll (rustMeaningList T as t).1 = partsAll (rustMeaningList T l t).1 ∧
      (rustMeaningList T l t).2 = (rustMeaningList T as t).2 ∧ (rustMeaningList T as t).2 .ignoreWhitespace = x' := by
  have hpos : 0 < n := by omega
  cases h with
  | nil => simp [rustMeaningList, hx]
  | cons h hs =>
    obtain ⟨h1, h2, h3⟩ := sees_meaning (n - 1) h (by smaller) t hx
    obtain ⟨h4, h5, h6⟩ := seesAll_meaning (n - 1) hs (by smaller) _ h3
    simp [rustMeaningList_append, rustMeaningList, partsAll_append, partsAll, h1, h2, h4, h5, h6]
termination_by n
decreasing_by all_goals omega

theorem alts_meaning (n : Nat) {x x' : Bool} {as bs : List RAst} (h : SeesAlts x as bs x') (hz : 3 * sizeOf as < n)
    (t : RFlagState) (hx : t .ignoreWhitespace = x) :
    joinedEach (rustMeaningList T as t).1 = joinedEach (rustMeaningList T bs t).1 := by
  have hpos : 0 < n := by omega
  cases h with
  | @one _ _ a l h =>
    obtain ⟨h1, h2, h3⟩ := sees_meaning (n - 1) h (by smaller) t hx
    simp [rustMeaningList, joinedEach, h1, (intoAst_meaning l t).1]
  | @cons _ _ _ a l as bs h hs =>
    obtain ⟨h1, h2, h3⟩ := sees_meaning (n - 1) h (by smaller) t hx
    have h4 := alts_meaning (n - 1) hs (by smaller) _ h3
    simp [rustMeaningList, joinedEach, h1, (intoAst_meaning l t).1, (intoAst_meaning l t).2, h2, h4]
termination_by n
decreasing_by all_goals omega

theorem body_meaning (n : Nat) {x : Bool} {a b : RAst} (h : SeesBody x a b) (hz : 3 * sizeOf a + 2 < n) (t : RFlagState)
    (hx : t .ignoreWhitespace = x) : parts (rustMeaning T a t).1 = parts (rustMeaning T b t).1 := by
  have hpos : 0 < n := by omega
  cases h with
  | @one _ _ _ l h =>
    obtain ⟨h1, _⟩ := sees_meaning (n - 1) h (by smaller) t hx
    rw [h1, (intoAst_meaning l t).1]
  | alternation h h2 =>
    have := alts_meaning (n - 1) h (by smaller) t hx
    simp [rustMeaning, parts, this]
termination_by n
decreasing_by all_goals omega

end

end Sds.Re
