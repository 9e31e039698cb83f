import Verif.Spec.KeywordRegex
import Verif.Lemmas.RustRead
import Verif.Lemmas.RustParts
import Verif.Lemmas.Keywords
import Verif.Lemmas.PathWords

/-! # Lemmas: the texts of keyword regexes -/

namespace Sds
open Re Spec

variable {T : Tables}

/-! ## Reading -/

/-- The parts of the pattern of one keyword. -/
def kwParts (lits : Str) (a b : Char) : List RAst := boundaryAst a ++ lits.map literalAst ++ boundaryAst b

theorem sees_literal (c : Char) : SeesAtom false (literalAst c) (literalAst c) := by
  refine .literal ?_ (by intro h; cases h)
  show LitOk _
  unfold LitOk
  cases h : isMetaCharacter c <;> simp

theorem sees_boundary : SeesAtom false wordBoundaryAst wordBoundaryAst := .boundary (by decide)

theorem seesAll_atoms : ∀ l : List RAst, (∀ a ∈ l, SeesAtom false a a) → SeesAll false l l false
  | [], _ => .nil
  | a :: l, h =>
    .cons (l := [a]) (.atom (h a List.mem_cons_self)) (seesAll_atoms l fun b hb => h b (List.mem_cons_of_mem _ hb))

theorem kwParts_atoms {lits : Str} {a b : Char} : ∀ x ∈ kwParts lits a b, x = wordBoundaryAst ∨ ∃ c, x = literalAst c := by
  intro x hx
  unfold kwParts boundaryAst at hx
  simp only [List.mem_append, List.mem_map] at hx
  rcases hx with (hx | ⟨c, _, rfl⟩) | hx
  · split at hx
    · exact .inl (List.mem_singleton.1 hx)
    · cases hx
  · exact .inr ⟨c, rfl⟩
  · split at hx
    · exact .inl (List.mem_singleton.1 hx)
    · cases hx

theorem sees_kw (lits : Str) (a b : Char) : Sees false (.concat (kwParts lits a b)) (kwParts lits a b) false := by
  refine .concat (seesAll_atoms _ fun x hx => ?_)
  rcases kwParts_atoms x hx with rfl | ⟨c, rfl⟩
  · exact sees_boundary
  · exact sees_literal c

theorem seesAlts_kws {ls : List (List RAst)} (h : ∀ l ∈ ls, Sees false (.concat l) l false) (hne : ls ≠ []) :
    SeesAlts false (ls.map .concat) (ls.map intoAst) false := by
  induction ls with
  | nil => exact absurd rfl hne
  | cons l ls ih =>
    cases ls with
    | nil => exact .one (h l List.mem_cons_self)
    | cons l' ls =>
      exact .cons (h l List.mem_cons_self) (ih (fun x hx => h x (List.mem_cons_of_mem _ hx)) (List.cons_ne_nil _ _))

theorem depth_atoms {l : List RAst} (h : ∀ x ∈ l, x = wordBoundaryAst ∨ ∃ c, x = literalAst c) : astsDepth l ≤ 1 := by
  induction l with
  | nil => exact Nat.zero_le _
  | cons x l ih =>
    have := ih fun y hy => h y (List.mem_cons_of_mem _ hy)
    rw [astsDepth]
    rcases h x List.mem_cons_self with rfl | ⟨c, rfl⟩
    · have : wordBoundaryAst.depth = 1 := rfl
      omega
    · have : (literalAst c).depth = 0 := rfl
      omega

theorem names_atoms {l : List RAst} (h : ∀ x ∈ l, x = wordBoundaryAst ∨ ∃ c, x = literalAst c) : astsNames l = [] := by
  induction l with
  | nil => rfl
  | cons x l ih =>
    rw [astsNames, ih fun y hy => h y (List.mem_cons_of_mem _ hy)]
    rcases h x List.mem_cons_self with rfl | ⟨c, rfl⟩ <;> rfl

theorem intoAst_depth (l : List RAst) : (intoAst l).depth ≤ astsDepth l + 1 := by
  unfold intoAst
  split
  · exact Nat.zero_le _
  · simp only [astsDepth]; omega
  · rw [RAst.depth]; omega

theorem intoAst_names (l : List RAst) : (intoAst l).names = astsNames l := by
  unfold intoAst
  split
  · rfl
  · simp [astsNames]
  · rw [RAst.names]

theorem alts_depth {ls : List (List RAst)} (h : ∀ l ∈ ls, ∀ x ∈ l, x = wordBoundaryAst ∨ ∃ c, x = literalAst c) :
    astsDepth (ls.map intoAst) ≤ 2 ∧ astsNames (ls.map intoAst) = [] := by
  induction ls with
  | nil => exact ⟨Nat.zero_le _, rfl⟩
  | cons l ls ih =>
    obtain ⟨h1, h2⟩ := ih fun x hx => h x (List.mem_cons_of_mem _ hx)
    have h3 := intoAst_depth l
    have h4 := depth_atoms (h l List.mem_cons_self)
    have h5 := names_atoms (h l List.mem_cons_self)
    refine ⟨by rw [List.map_cons, astsDepth]; omega, ?_⟩
    rw [List.map_cons, astsNames, h2, intoAst_names, h5]
    rfl

/-- The crate reads the text of an alternation of keywords as this alternation. -/
theorem readRust_kws {ls : List (List RAst)} (hne : ls ≠ [])
    (h : ∀ l ∈ ls, (∀ x ∈ l, x = wordBoundaryAst ∨ ∃ c, x = literalAst c)) :
    readRust (RAst.alternation (ls.map .concat)).print = some (intoAlt (ls.map intoAst)) := by
  have hs : ∀ l ∈ ls, Sees false (.concat l) l false := by
    intro l hl
    refine .concat (seesAll_atoms _ fun x hx => ?_)
    rcases h l hl x hx with rfl | ⟨c, rfl⟩
    · exact sees_boundary
    · exact sees_literal c
  obtain ⟨hd, hn⟩ := alts_depth h
  match ls, hne with
  | [l], _ =>
    have e : (RAst.alternation ([l].map .concat)).print = (RAst.concat l).print := by
      rw [RAst.print, List.map_cons, List.map_nil, printAlternatives]
    rw [e]
    refine readRust_print (.one (hs l List.mem_cons_self)) ?_ ?_
    · have h3 := intoAst_depth l
      have h4 := depth_atoms (h l List.mem_cons_self)
      show (intoAst l).depth ≤ 250
      omega
    · show (intoAst l).names.Nodup
      rw [intoAst_names, names_atoms (h l List.mem_cons_self)]
      exact List.nodup_nil
  | l :: l' :: ls, _ =>
    refine readRust_print (.alternation (seesAlts_kws hs (List.cons_ne_nil _ _)) (by simp)) ?_ ?_
    · show (RAst.alternation ((l :: l' :: ls).map intoAst)).depth ≤ 250
      rw [RAst.depth]
      omega
    · show (RAst.alternation ((l :: l' :: ls).map intoAst)).names.Nodup
      rw [RAst.names, hn]
      exact List.nodup_nil

/-! ## Meaning -/

theorem spans_literal {k : Char} {t : RFlagState} (hi : t .caseInsensitive = true) (hx : t .ignoreWhitespace = false)
    {p m q : Str} : Spans T (rustMeaning T (literalAst k) t).1 p m q ↔ ∃ c, m = [c] ∧ T.same k c := by
  have e : (rustMeaning T (literalAst k) t).1 = .set (near T true (· = k)) := by
    rw [literalAst, rustMeaning, if_neg (by rw [hx]; rintro ⟨h, _⟩; cases h), hi]
  rw [e]
  constructor
  · intro h
    cases h with
    | set h =>
      rename_i c
      obtain ⟨y, rfl, hy⟩ := (by simpa [near] using h : ∃ y, y = k ∧ T.same y c)
      exact ⟨c, rfl, hy⟩
  · rintro ⟨c, rfl, h⟩
    exact .set (by simpa [near] using h)

theorem meaning_literal_flags (k : Char) (t : RFlagState) : (rustMeaning T (literalAst k) t).2 = t := by
  rw [literalAst, rustMeaning]
  by_cases h : t .ignoreWhitespace = true ∧
      (if isMetaCharacter k then RLiteralKind.metaChar else .verbatim) = .verbatim ∧ isWs k = true
  · rw [if_pos h]
  · rw [if_neg h]

theorem meaning_boundary (t : RFlagState) : rustMeaning T wordBoundaryAst t = (.look .asciiWord, t) := by
  rw [wordBoundaryAst, rustMeaning]
  simp [rustMeaning, rustFlagsAfter, rustLookOf, switch]

theorem meaningList_append (l l' : List RAst) (t : RFlagState) :
    (rustMeaningList T (l ++ l') t).1 =
      (rustMeaningList T l t).1 ++ (rustMeaningList T l' (rustMeaningList T l t).2).1 := by
  induction l generalizing t with
  | nil => rfl
  | cons a l ih => simp only [List.cons_append, rustMeaningList, ih]

theorem meaningList_atoms_flags {l : List RAst} (h : ∀ x ∈ l, x = wordBoundaryAst ∨ ∃ c, x = literalAst c) (t : RFlagState) :
    (rustMeaningList T l t).2 = t := by
  induction l generalizing t with
  | nil => rfl
  | cons x l ih =>
    have hx : (rustMeaning T x t).2 = t := by
      rcases h x List.mem_cons_self with rfl | ⟨c, rfl⟩
      · rw [meaning_boundary]
      · exact meaning_literal_flags c t
    simp only [rustMeaningList, hx]
    exact ih (fun y hy => h y (List.mem_cons_of_mem _ hy)) t

theorem literals_atoms (lits : Str) : ∀ x ∈ lits.map literalAst, x = wordBoundaryAst ∨ ∃ c, x = literalAst c := by
  intro x hx
  obtain ⟨c, _, rfl⟩ := List.mem_map.1 hx
  exact .inr ⟨c, rfl⟩

theorem boundary_atoms (c : Char) : ∀ x ∈ boundaryAst c, x = wordBoundaryAst ∨ ∃ c, x = literalAst c := by
  intro x hx
  unfold boundaryAst at hx
  split at hx
  · exact .inl (List.mem_singleton.1 hx)
  · cases hx

theorem spans_literals {lits : Str} {t : RFlagState} (hi : t .caseInsensitive = true) (hx : t .ignoreWhitespace = false)
    {p m q : Str} : Spans T (.seq (rustMeaningList T (lits.map literalAst) t).1) p m q ↔ Variant T lits m := by
  induction lits generalizing p m with
  | nil =>
    rw [List.map_nil, rustMeaningList, spans_seq_nil]
    exact ⟨fun h => by subst h; exact .nil, fun h => by cases h; rfl⟩
  | cons k lits ih =>
    simp only [List.map_cons, rustMeaningList, meaning_literal_flags]
    rw [spans_seq_cons]
    constructor
    · rintro ⟨m1, m2, rfl, h1, h2⟩
      obtain ⟨c, rfl, hc⟩ := (spans_literal hi hx).1 h1
      exact .cons hc (ih.1 h2)
    · intro h
      cases h with
      | cons h h' => exact ⟨[_], _, rfl, (spans_literal hi hx).2 ⟨_, rfl, h⟩, ih.2 h'⟩

theorem spans_boundary {a : Char} {t : RFlagState} {p m q : Str} :
    Spans T (.seq (rustMeaningList T (boundaryAst a) t).1) p m q ↔
      m = [] ∧ (AsciiAlnum a → Boundary AsciiWordChar p q) := by
  unfold boundaryAst
  cases h : asciiAlnum a with
  | false =>
    have hn : ¬ AsciiAlnum a := fun h' => by rw [(asciiAlnum_iff a).2 h'] at h; cases h
    simp [rustMeaningList, spans_seq_nil, hn]
  | true =>
    have hy := (asciiAlnum_iff a).1 h
    simp only [if_true, rustMeaningList, meaning_boundary, spans_seq_one]
    constructor
    · intro h
      cases h with
      | look h => exact ⟨rfl, fun _ => h⟩
    · rintro ⟨rfl, h⟩
      exact .look (h hy)

theorem spans_kwParts {lits kw : Str} {a b : Char} (ha : kw.head? = some a) (hb : kw.getLast? = some b) {t : RFlagState}
    (hi : t .caseInsensitive = true) (hx : t .ignoreWhitespace = false) {p m q : Str} :
    Spans T (.seq (rustMeaningList T (kwParts lits a b) t).1) p m q ↔ Written T kw lits p m q := by
  unfold kwParts Written
  rw [meaningList_append, meaningList_append, meaningList_atoms_flags (boundary_atoms a),
    meaningList_atoms_flags (T := T) (l := boundaryAst a ++ lits.map literalAst) (by
      intro x hx
      rcases List.mem_append.1 hx with hx | hx
      · exact boundary_atoms a x hx
      · exact literals_atoms lits x hx), spans_seq_append]
  simp only [ha, hb, Option.some.injEq, forall_eq']
  constructor
  · rintro ⟨m12, m3, rfl, h12, h3⟩
    obtain ⟨m1, m2, rfl, h1, h2⟩ := spans_seq_append.1 h12
    obtain ⟨e1, b1⟩ := spans_boundary.1 h1
    obtain ⟨e3, b3⟩ := spans_boundary.1 h3
    subst e1 e3
    refine ⟨by simpa using (spans_literals hi hx).1 h2, ?_, ?_⟩
    · simpa using b1
    · simpa using b3
  · rintro ⟨h2, h1, h3⟩
    refine ⟨m, [], by simp, spans_seq_append.2 ⟨[], m, rfl, spans_boundary.2 ⟨rfl, by simpa using h1⟩,
      (spans_literals hi hx).2 h2⟩, spans_boundary.2 ⟨rfl, h3⟩⟩

theorem spans_intoAst (l : List RAst) (t : RFlagState) {p m q : Str} :
    Spans T (rustMeaning T (intoAst l) t).1 p m q ↔ Spans T (.seq (rustMeaningList T l t).1) p m q := by
  unfold intoAst
  split
  · rw [rustMeaning, rustMeaningList, spans_seq_nil]
    exact ⟨fun h => by cases h; rfl, fun h => h ▸ .eps⟩
  · simp only [rustMeaningList, spans_seq_one]
  · rw [rustMeaning]

theorem meaning_intoAst_flags {l : List RAst} (h : ∀ x ∈ l, x = wordBoundaryAst ∨ ∃ c, x = literalAst c) (t : RFlagState) :
    (rustMeaning T (intoAst l) t).2 = t := by
  have := meaningList_atoms_flags (T := T) h t
  unfold intoAst
  split
  · rfl
  · simpa only [rustMeaningList] using this
  · rw [rustMeaning]
    exact this

theorem spans_alts {ls : List (List RAst)} (h : ∀ l ∈ ls, ∀ x ∈ l, x = wordBoundaryAst ∨ ∃ c, x = literalAst c)
    (t : RFlagState) {p m q : Str} :
    (∃ n ∈ (rustMeaningList T (ls.map intoAst) t).1, Spans T n p m q) ↔
      ∃ l ∈ ls, Spans T (.seq (rustMeaningList T l t).1) p m q := by
  induction ls with
  | nil => simp [rustMeaningList]
  | cons l ls ih =>
    simp only [List.map_cons, rustMeaningList, meaning_intoAst_flags (h l List.mem_cons_self), List.mem_cons,
      exists_eq_or_imp, ih fun x hx => h x (List.mem_cons_of_mem _ hx), spans_intoAst]

theorem spans_intoAlt {ls : List (List RAst)} (h : ∀ l ∈ ls, ∀ x ∈ l, x = wordBoundaryAst ∨ ∃ c, x = literalAst c)
    (hne : ls ≠ []) (t : RFlagState) {p m q : Str} :
    Spans T (rustMeaning T (intoAlt (ls.map intoAst)) t).1 p m q ↔
      ∃ l ∈ ls, Spans T (.seq (rustMeaningList T l t).1) p m q := by
  match ls, hne with
  | [l], _ =>
    simp only [List.map_cons, List.map_nil, intoAlt, spans_intoAst, List.mem_singleton, exists_eq_left]
  | l :: l' :: ls, _ =>
    rw [← spans_alts h t]
    simp only [List.map_cons, intoAlt]
    rw [rustMeaning]
    constructor
    · intro h
      cases h with
      | alt hn h => exact ⟨_, hn, h⟩
    · rintro ⟨n, hn, h⟩
      exact .alt hn h

/-! ## Keywords -/

/-- What the patterns of several keywords are, if the literals of a keyword are given by `f`. -/
theorem patternsOf_eq {pattern : Str → Res RAst} {f : Str → Str} {kws : List Str} {l : List RAst}
    (hp : ∀ kw a, pattern kw = .ok a → ∃ x y, kw.head? = some x ∧ kw.getLast? = some y ∧ a = .concat (kwParts (f kw) x y))
    (h : patternsOf pattern kws = .ok l) :
    ∃ ls : List (List RAst), l = ls.map .concat ∧
      (∀ p ∈ ls, ∃ kw ∈ kws, ∃ x y, kw.head? = some x ∧ kw.getLast? = some y ∧ p = kwParts (f kw) x y) ∧
      (∀ kw ∈ kws, ∃ x y, kw.head? = some x ∧ kw.getLast? = some y ∧ kwParts (f kw) x y ∈ ls) ∧ ls.length = kws.length := by
  induction kws generalizing l with
  | nil =>
    cases h
    exact ⟨[], rfl, by simp, by simp, rfl⟩
  | cons kw kws ih =>
    rw [patternsOf] at h
    split at h
    · next a ha =>
      split at h
      · next l' hl =>
        cases h
        obtain ⟨x, y, h1, h2, rfl⟩ := hp kw a ha
        obtain ⟨ls, rfl, h3, h4, h5⟩ := ih hl
        refine ⟨kwParts (f kw) x y :: ls, rfl, ?_, ?_, by simp [h5]⟩
        · intro p hp
          rcases List.mem_cons.1 hp with rfl | hp
          · exact ⟨kw, List.mem_cons_self, x, y, h1, h2, rfl⟩
          · obtain ⟨k, hk, r⟩ := h3 p hp
            exact ⟨k, List.mem_cons_of_mem _ hk, r⟩
        · intro k hk
          rcases List.mem_cons.1 hk with rfl | hk
          · exact ⟨x, y, h1, h2, List.mem_cons_self⟩
          · obtain ⟨x', y', h6, h7, h8⟩ := h4 k hk
            exact ⟨x', y', h6, h7, List.mem_cons_of_mem _ h8⟩
      · cases h
      · cases h
    · cases h
    · cases h

theorem contentPattern_eq (kw : Str) (a : RAst) (h : contentPattern kw = .ok a) :
    ∃ x y, kw.head? = some x ∧ kw.getLast? = some y ∧ a = .concat (kwParts (id kw) x y) := by
  unfold contentPattern at h
  split at h
  · next x y hx hy => cases h; exact ⟨x, y, hx, hy, rfl⟩
  · cases h

theorem pathPattern_eq (kw : Str) (a : RAst) (h : pathPattern kw = .ok a) :
    ∃ x y, kw.head? = some x ∧ kw.getLast? = some y ∧ a = .concat (kwParts ((standardize kw).map asciiLower) x y) := by
  unfold pathPattern at h
  split at h
  · next x y hx hy =>
    cases h
    refine ⟨x, y, hx, hy, ?_⟩
    simp only [kwParts, List.map_map]
    rfl
  · cases h

theorem patternsOf_ok {pattern : Str → Res RAst} {kws : List Str} (h : ∀ kw ∈ kws, ∃ a, pattern kw = .ok a) :
    ∃ l, patternsOf pattern kws = .ok l := by
  induction kws with
  | nil => exact ⟨[], rfl⟩
  | cons kw kws ih =>
    obtain ⟨a, ha⟩ := h kw List.mem_cons_self
    obtain ⟨l, hl⟩ := ih fun k hk => h k (List.mem_cons_of_mem _ hk)
    exact ⟨a :: l, by rw [patternsOf, ha, hl]⟩

theorem ends_of_ne {kw : Str} (h : kw ≠ []) : ∃ x y, kw.head? = some x ∧ kw.getLast? = some y := by
  cases kw with
  | nil => exact absurd rfl h
  | cons c cs => exact ⟨c, (c :: cs).getLast (List.cons_ne_nil _ _), rfl, List.getLast?_eq_some_getLast _⟩

theorem contentPattern_ok {kw : Str} (h : kw ≠ []) : ∃ a, contentPattern kw = .ok a := by
  obtain ⟨x, y, hx, hy⟩ := ends_of_ne h
  exact ⟨_, by rw [contentPattern, hx, hy]⟩

theorem pathPattern_ok {kw : Str} (h : kw ≠ []) : ∃ a, pathPattern kw = .ok a := by
  obtain ⟨x, y, hx, hy⟩ := ends_of_ne h
  exact ⟨_, by rw [pathPattern, hx, hy]⟩

theorem keywordText_ok {pattern : Str → Res RAst} {kws : List Str} (h : ∀ kw ∈ kws, ∃ a, pattern kw = .ok a) :
    ∃ t, keywordText pattern kws = .ok t := by
  obtain ⟨l, hl⟩ := patternsOf_ok h
  exact ⟨_, by rw [keywordText, hl]⟩

/-- The text of several keywords is read, and matches what one of the keywords matches. -/
theorem keywordText_means {pattern : Str → Res RAst} {f : Str → Str} {kws : List Str} {text : Str}
    (hp : ∀ kw a, pattern kw = .ok a → ∃ x y, kw.head? = some x ∧ kw.getLast? = some y ∧ a = .concat (kwParts (f kw) x y))
    (hne : kws ≠ []) (h : keywordText pattern kws = .ok text) :
    ∃ r, readRust text = some r ∧ ∀ (T : Tables) before mid after,
      Spans T (rustMeaning T r keywordFlags).1 before mid after ↔ ∃ kw ∈ kws, Written T kw (f kw) before mid after := by
  unfold keywordText at h
  split at h
  · next l hl =>
    cases h
    obtain ⟨ls, rfl, h1, h2, h3⟩ := patternsOf_eq hp hl
    have hls : ls ≠ [] := by
      rintro rfl
      exact hne (List.length_eq_zero_iff.1 h3.symm)
    have hat : ∀ l ∈ ls, ∀ x ∈ l, x = wordBoundaryAst ∨ ∃ c, x = literalAst c := by
      intro l hl
      obtain ⟨kw, _, x, y, _, _, rfl⟩ := h1 l hl
      exact kwParts_atoms
    refine ⟨_, readRust_kws hls hat, fun T before mid after => ?_⟩
    rw [spans_intoAlt hat hls]
    constructor
    · rintro ⟨l, hl, h⟩
      obtain ⟨kw, hkw, x, y, hx, hy, rfl⟩ := h1 l hl
      exact ⟨kw, hkw, (spans_kwParts hx hy rfl rfl).1 h⟩
    · rintro ⟨kw, hkw, h⟩
      obtain ⟨x, y, hx, hy, hm⟩ := h2 kw hkw
      exact ⟨_, hm, (spans_kwParts hx hy rfl rfl).2 h⟩
  · cases h
  · cases h

/-! ## The matchers of the model -/

theorem variant_iff {eqc : Char → Char → Bool} (hf : Folds T eqc) (kw m : Str) : Variant T kw m ↔ SameText eqc kw m := by
  constructor
  · intro h
    induction h with
    | nil => exact .nil
    | cons h _ ih => exact .cons ((hf _ _).2 h) ih
  · intro h
    induction h with
    | nil => exact .nil
    | cons h _ ih => exact .cons ((hf _ _).1 h) ih

theorem boundary_iff (a b : Str) : wordBoundary a b = true ↔ Boundary AsciiWordChar a b := by
  have hw : ∀ c, asciiWord c = true ↔ AsciiWordChar c := by
    intro c
    unfold asciiWord AsciiWordChar
    rw [Bool.or_eq_true, asciiAlnum_iff, beq_iff_eq]
    unfold AsciiAlnum
    simp only [or_assoc]
  unfold wordBoundary Boundary
  cases ha : a.getLast? <;> cases hb : b.head? <;> simp [← hw]
  · rename_i x y
    cases asciiWord x <;> cases asciiWord y <;> simp

theorem written_iff {eqc : Char → Char → Bool} (hf : Folds T eqc) (kw lits a m b : Str) :
    Written T kw lits a m b ↔ SameText eqc lits m ∧ Bounded kw a m b := by
  unfold Written Bounded
  rw [variant_iff hf]
  simp only [boundary_iff]

end Sds
