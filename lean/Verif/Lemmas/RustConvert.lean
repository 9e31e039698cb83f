import Verif.Lemmas.RustParts
import Verif.Props.Normalize

/-! # Lemmas: converted patterns are among those the reader understands -/

namespace Sds.Re
open Sds Spec

/-! ## Shapes that the parser gives -/

/-- A name of a group. -/
def GroupNameOk (name : Str) : Prop :=
  ∃ c t, name = c :: t ∧ c ∈ asciiLettersUnderscore ∧ ∀ d ∈ t, d ∈ asciiAlphanumericUnderscore

/-- A bracketed class has items, and properties have names. -/
def ClassGood : CharacterClass → Prop
  | .bracket _ items => items ≠ [] ∧ ∀ u, .unicodeProperty u ∈ items → u.name ∈ unicodePropertyNames.map String.toList
  | .unicodeProperty u => u.name ∈ unicodePropertyNames.map String.toList
  | _ => True

/-- Groups have good names. -/
def GroupGood : GroupKind → Prop
  | .namedCapturing name => GroupNameOk name
  | _ => True

mutual

/-- Alternations are whole patterns or whole groups, and repetitions are not nested without a group. -/
def Shaped (alt : Bool) : Ast → Prop
  | .alternation l => alt = true ∧ 2 ≤ l.length ∧ ShapedAll l
  | .concat l => ShapedAll l
  | .group k a => GroupGood k ∧ Shaped true a
  | .characterClass c => ClassGood c
  | .repetition _ a => Shaped false a ∧ ∀ q b, a ≠ .repetition q b
  | .empty => True
  | .literal _ => True
  | .assertion _ => True
  | .flags _ => True

/-- The same for every element. -/
def ShapedAll : List Ast → Prop
  | [] => True
  | a :: l => Shaped false a ∧ ShapedAll l

end

/-! ## Leaves -/

theorem property_names : ∀ name ∈ unicodePropertyNames.map String.toList, NameOk name := by
  have h : (unicodePropertyNames.map String.toList).all
      (fun name => decide (name ≠ []) && name.all fun c => decide (c ∈ asciiLettersUnderscore)) = true := by
    decide +kernel
  intro name hn
  have := List.all_eq_true.mp h name hn
  simpa [NameOk] using this

theorem litOk_convert (l : Literal) (k : LiteralKind) : LitOk (convertLiteral l k) := by
  unfold LitOk convertLiteral
  by_cases hm : isMetaCharacter l.c = true
  · simp [hm]
  · simp only [hm, if_neg, Bool.false_eq_true, not_false_eq_true]
    split
    · trivial
    · rename_i h; exfalso; revert h; (repeat' split) <;> simp
    · trivial

theorem classLitOk_convert (l : Literal) : ClassLitOk (convertLiteral l .bracketedCharacterClass) := by
  refine ⟨litOk_convert l _, fun hk => ?_⟩
  cases hw : isWs l.c with
  | false => exact hw
  | true =>
    exfalso
    unfold convertLiteral at hk
    rw [hw] at hk
    revert hk
    (repeat' split) <;> simp_all

theorem bracketLiteral_ok (c : Char) : ItemOk (bracketLiteral c) := .literal (classLitOk_convert _)

theorem bracketRange_ok {a b : Char} (h : a ≤ b) : ItemOk (bracketRange a b) :=
  .range (classLitOk_convert _) (classLitOk_convert _) h

/-- The class is one bracketed list of items that can stand in another class. -/
def Listed (c : RBracketed) : Prop :=
  ∃ l : List RClassItem, l ≠ [] ∧ (∀ i ∈ l, ItemOk i) ∧ intoItem l = c.item ∧ c.item.print.head? ≠ some ':'

theorem listed_union {n : Bool} {l : List RClassItem} (hl : 2 ≤ l.length) (h : ∀ i ∈ l, ItemOk i)
    (hc : (printItems l).head? ≠ some ':') : Listed { negated := n, item := .union l } := by
  refine ⟨l, by rintro rfl; simp at hl, h, ?_, by rw [RClassItem.print]; exact hc⟩
  unfold intoItem
  split
  · simp at hl
  · rfl

theorem listed_horizontal (n : Bool) : Listed (horizontalWhitespace n) :=
  listed_union (by simp) (by simp [bracketLiteral_ok]) (by decide +kernel)

theorem listed_vertical (n : Bool) : Listed (verticalWhitespace n) :=
  listed_union (by simp) (by simp [bracketLiteral_ok]) (by decide +kernel)

theorem listed_perl (c : PerlClass) : Listed (convertPerlClass c) := by
  have d : ∀ n, Listed (perlClassDigit n) := fun n =>
    ⟨[bracketRange '0' '9'], by simp, by simp [bracketRange_ok (show '0' ≤ '9' by decide)], rfl,
      show (bracketRange '0' '9').print.head? ≠ some ':' by decide +kernel⟩
  have s : ∀ n, Listed (perlClassSpace n) := fun n =>
    listed_union (by simp) (by simp [bracketLiteral_ok]) (by decide +kernel)
  have w : ∀ n, Listed (perlClassWord n) := fun n =>
    listed_union (by simp) (by simp [bracketRange_ok (show '0' ≤ '9' by decide), bracketRange_ok (show 'a' ≤ 'z' by decide),
      bracketRange_ok (show 'A' ≤ 'Z' by decide), ItemOk.literal (classLitOk_convert ⟨'_', false⟩)])
      (by decide +kernel)
  cases c
  · exact d _
  · exact s _
  · exact w _
  · exact d _
  · exact s _
  · exact w _

theorem Listed.item {c : RBracketed} (h : Listed c) : ItemOk c.toItem := by
  obtain ⟨l, hl, h, hi, hc⟩ := h
  exact .bracketed hl h (by rw [← hi, print_intoItem]) hi fun d hd e => hc (e ▸ hd)

theorem Listed.atom {c : RBracketed} (h : Listed c) (x : Bool) : ∃ b, SeesAtom x (.classBracketed c) b := by
  obtain ⟨l, hl, h, hi, _⟩ := h
  exact ⟨_, .bracketed (negated := c.negated) (it := c.item) hl h (.inl hi.symm)⟩

theorem item_ok {it : BracketItem} (hr : ∀ a b, it = .range a b → a ≤ b)
    (hu : ∀ u, it = .unicodeProperty u → u.name ∈ unicodePropertyNames.map String.toList) :
    ItemOk (convertBracketItem it) := by
  cases it with
  | literal c => exact bracketLiteral_ok c
  | range a b => exact bracketRange_ok (hr a b rfl)
  | perl p => exact (listed_perl p).item
  | unicodeProperty u => exact .unicode (property_names _ (hu u rfl))
  | ascii n k => exact .ascii
  | horizontalWhitespace => exact (listed_horizontal _).item
  | notHorizontalWhitespace => exact (listed_horizontal _).item
  | verticalWhitespace => exact (listed_vertical _).item
  | notVerticalWhitespace => exact (listed_vertical _).item

theorem class_atom {c : CharacterClass} (hg : ClassGood c)
    (hr : ∀ negated items, c = .bracket negated items → ∀ a b, .range a b ∈ items → a ≤ b) (x : Bool) :
    ∃ b, SeesAtom x (convertClass c) b := by
  cases c with
  | bracket negated items =>
    refine ⟨_, .bracketed (l := convertBracketItems items) ?_ ?_ (.inr rfl)⟩
    · simpa [convertBracketItems] using hg.1
    · intro i hi
      simp only [convertBracketItems, List.mem_map] at hi
      obtain ⟨it, hit, rfl⟩ := hi
      exact item_ok (fun a b e => hr _ _ rfl a b (e ▸ hit)) fun u e => hg.2 u (e ▸ hit)
  | perl p => exact (listed_perl p).atom x
  | dot => exact ⟨_, .dot⟩
  | horizontalWhitespace => exact (listed_horizontal _).atom x
  | notHorizontalWhitespace => exact (listed_horizontal _).atom x
  | verticalWhitespace => exact (listed_vertical _).atom x
  | notVerticalWhitespace => exact (listed_vertical _).atom x
  | unicodeProperty u => exact ⟨_, .unicode (property_names _ hg)⟩

theorem convertFlags_ok (f : Flags) : flagsOk (convertFlags f) = true := by
  have h := Props.C54_converted_flags_valid f
  simp only [flagsOk, Bool.and_eq_true, decide_eq_true_eq]
  exact ⟨h.1, h.2⟩

theorem flag_effect (f : Flags) (b : Bool) (x : Flag) :
    rustFlagsAfter (convertFlags f) true (fun _ => b) (convertFlag x) =
      if x ∈ f.remove then false else if x ∈ f.add then true else b := by
  rw [Props.C54_flags_in_effect f (fun _ => b) (fun _ => b) (fun _ _ _ => rfl) x _ (by cases x <;> rfl), flagsAfter,
    Props.foldl_switch, Props.foldl_switch]

theorem convertFlags_ne {f : Flags} (h : f.add ≠ [] ∨ f.remove ≠ []) : convertFlags f ≠ [] := by
  intro e
  have heff := flag_effect f
  rw [e] at heff
  simp only [rustFlagsAfter] at heff
  have hr : f.remove = [] := List.eq_nil_iff_forall_not_mem.2 fun x hx => by
    have := heff true x
    simp [hx] at this
  have ha : f.add = [] := List.eq_nil_iff_forall_not_mem.2 fun x hx => by
    have := heff false x
    simp [hx, hr] at this
  rcases h with h | h
  · exact h ha
  · exact h hr

theorem spaceAfter_keeps {f : Flags} (h : .ignoreWhitespace ∉ f.add) : spaceAfter (convertFlags f) false = false := by
  have := spaceAfter_eq (flagsOk_nodup (convertFlags_ok f)) fun _ => false
  rw [this, show RFlag.ignoreWhitespace = convertFlag .ignoreWhitespace from rfl, flag_effect]
  simp [h]

theorem newline_atom (x : Bool) (l : RLiteral) (hl : l.kind = .hexBrace) : SeesAtom x (.literal l) (.literal l) := by
  obtain ⟨k, c⟩ := l
  subst hl
  exact .literal trivial (by simp)

/-! ## Trees -/

/-- The conditions on patterns. -/
structure PatternOk (a : Ast) : Prop where
  units : RepeatsUnits a
  flags : FlagsGiven a
  ranges : OrderedRanges a
  counts : OrderedCounts a

theorem PatternOk.of_parts {a b : Ast} (h : PatternOk a) (hp : ∀ c, PartOf c b → PartOf c a) : PatternOk b :=
  ⟨fun q c hc => h.units q c (hp _ hc), fun f hf => h.flags f (hp _ hf), fun n l hl => h.ranges n l (hp _ hl),
    fun q c hc => h.counts q c (hp _ hc)⟩

/-- Whitespace under quantifiers is not ignored. -/
def SpaceOk (x : Bool) (a : Ast) : Prop := (x = false ∧ NoIgnoreSpace a) ∨ EscapedSpaces a

theorem noSpace_parts {a b : Ast} (h : NoIgnoreSpace a) (hp : ∀ c, PartOf c b → PartOf c a) : NoIgnoreSpace b :=
  ⟨fun f hf => h.1 f (hp _ hf), fun f c hf => h.2 f c (hp _ hf)⟩

theorem escaped_parts {a b : Ast} (h : EscapedSpaces a) (hp : ∀ c, PartOf c b → PartOf c a) : EscapedSpaces b :=
  fun q l hq => h q l (hp _ hq)

theorem SpaceOk.of_parts {x : Bool} {a b : Ast} (h : SpaceOk x a) (hp : ∀ c, PartOf c b → PartOf c a) : SpaceOk x b :=
  h.imp (fun h => ⟨h.1, noSpace_parts h.2 hp⟩) fun h => escaped_parts h hp

theorem ascii_space {c : Char} (h : isWs c = true) (hc : c.toNat < 128) : asciiWhitespaceChars.contains c = true := by
  have h : ∀ n : Fin 128, isWs (Char.ofNat n) = true → asciiWhitespaceChars.contains (Char.ofNat n) = true := by
    decide +kernel
  have := h ⟨c.toNat, hc⟩
  simp only [Char.ofNat_toNat] at this
  exact this ‹_›

theorem literal_atom {x : Bool} {l : Literal} (h : x = true → isWs l.c = true → l.escaped = true ∧ l.c.toNat < 128) :
    SeesAtom x (.literal (convertLiteral l .normal)) (.literal (convertLiteral l .normal)) := by
  refine .literal (litOk_convert l _) fun hx hk => ?_
  cases hw : isWs l.c with
  | false => exact hw
  | true =>
    exfalso
    obtain ⟨he, hc⟩ := h hx hw
    have hm := ascii_space hw hc
    unfold convertLiteral at hk
    simp only [hm, he] at hk
    revert hk
    split <;> simp

theorem literal_sees (x : Bool) (l : Literal) : ∃ items, Sees x (.literal (convertLiteral l .normal)) items x := by
  by_cases h : x = true ∧ (convertLiteral l .normal).kind = .verbatim ∧ isWs l.c = true
  · obtain ⟨rfl, hk, hw⟩ := h
    refine ⟨[], ?_⟩
    have : convertLiteral l .normal = { kind := .verbatim, c := l.c } := by
      rw [← hk]; rfl
    rw [this]
    exact .space hw
  · refine ⟨_, .atom (.literal (litOk_convert l _) fun hx hk => ?_)⟩
    cases hw : isWs l.c with
    | false => exact hw
    | true => exact absurd ⟨hx, hk, hw⟩ h

theorem assertion_atom {k : AssertionType} (h : k ≠ .endLine ∧ k ≠ .endTextOptionalNewline) (x : Bool) :
    ∃ b, SeesAtom x (convertAssertion k) b := by
  cases k with
  | wordBoundary => exact ⟨_, .boundary (by decide)⟩
  | notWordBoundary => exact ⟨_, .boundary (by decide)⟩
  | startLine => exact ⟨_, .assertion (by decide)⟩
  | endLine => exact absurd rfl h.1
  | startText => exact ⟨_, .assertion (by decide)⟩
  | endText => exact ⟨_, .assertion (by decide)⟩
  | endTextOptionalNewline => exact absurd rfl h.2

theorem assertion_sees (k : AssertionType) (x : Bool) : ∃ l, Sees x (convertAssertion k) l x := by
  by_cases h : k ≠ .endLine ∧ k ≠ .endTextOptionalNewline
  · obtain ⟨b, hb⟩ := assertion_atom h x
    exact ⟨_, .atom hb⟩
  · cases k with
    | endLine =>
      exact ⟨_, .concat (.cons (.repetition trivial (newline_atom x _ rfl))
        (.cons (.atom (.assertion (by decide))) .nil))⟩
    | endTextOptionalNewline =>
      exact ⟨_, .concat (.cons (.repetition trivial (newline_atom x _ (by decide)))
        (.cons (.atom (.assertion (by decide))) .nil))⟩
    | _ => exact absurd (by decide) h

theorem repOk_convert {q : QuantifierKind} {k : RRepetitionKind} (h : convertQuantifier q = .ok k)
    (ho : ∀ n m, q = .rangeMinMax n m → n ≤ m) : RepOk k := by
  unfold convertQuantifier quantifierLimit at h
  split at h
  · cases h; trivial
  · split at h
    · cases h
    · cases h; show _ < 2 ^ 32; omega
  · split at h
    · cases h
    · cases h; exact ⟨by omega, by omega, ho _ _ rfl⟩
  · split at h
    · cases h
    · cases h; show _ < 2 ^ 32; omega
  · cases h; trivial
  · cases h; trivial

mutual

theorem conv_atom (a : Ast) {x : Bool} {r : RAst} (hs : Shaped false a) (hg : PatternOk a) (hx : SpaceOk x a) (hu : OneUnit a)
    (hr : ∀ q b, a ≠ .repetition q b)
    (hl : ∀ l, a = .literal l → x = true → isWs l.c = true → l.escaped = true ∧ l.c.toNat < 128)
    (h : convertAst a = .ok r) : ∃ b, SeesAtom x r b := by
  match a with
  | .empty => exact hu.elim
  | .flags f => exact hu.elim
  | .concat l => exact hu.elim
  | .alternation l => rw [Shaped] at hs; cases hs.1
  | .repetition q b => exact absurd rfl (hr q b)
  | .literal l =>
    rw [convertAst] at h
    cases h
    exact ⟨_, literal_atom (hl l rfl)⟩
  | .assertion k =>
    rw [convertAst] at h
    cases h
    exact assertion_atom hu x
  | .characterClass c =>
    rw [convertAst] at h
    cases h
    rw [Shaped] at hs
    exact class_atom hs (fun n l e => hg.ranges n l (e ▸ .self _)) x
  | .group k a =>
    rw [convertAst] at h
    split at h
    · rename_i r' hr'
      cases h
      rw [Shaped] at hs
      have hx' : SpaceOk (groupX (convertGroupKind k) x) a := by
        rcases hx with ⟨hx, hn⟩ | he
        · refine .inl ⟨?_, noSpace_parts hn fun c hc => .group hc⟩
          cases k with
          | capturing => exact hx
          | namedCapturing name => exact hx
          | nonCapturing f =>
            subst hx
            exact spaceAfter_keeps (hn.2 f a (.self _))
        · exact .inr (escaped_parts he fun c hc => .group hc)
      obtain ⟨b, hb⟩ := conv_body a hs.2 (hg.of_parts fun c hc => .group hc) hx' hr'
      refine ⟨_, .group ?_ hb⟩
      cases k with
      | capturing => trivial
      | namedCapturing name => exact hs.1
      | nonCapturing f => exact convertFlags_ok f
    · cases h
termination_by 3 * sizeOf a
decreasing_by all_goals (simp only [Ast.group.sizeOf_spec]; omega)

theorem conv_item (a : Ast) {x : Bool} {r : RAst} (hs : Shaped false a) (hg : PatternOk a) (hx : SpaceOk x a)
    (h : convertAst a = .ok r) : ∃ l x', Sees x r l x' ∧ (x = false → NoIgnoreSpace a → x' = false) := by
  match a with
  | .empty =>
    rw [convertAst] at h
    cases h
    exact ⟨_, _, .empty, fun h _ => h⟩
  | .flags f =>
    rw [convertAst] at h
    cases h
    refine ⟨_, _, .flags (convertFlags_ok f) (convertFlags_ne (hg.flags f (.self _))), ?_⟩
    rintro rfl hn
    exact spaceAfter_keeps (hn.1 f (.self _))
  | .concat l =>
    rw [convertAst] at h
    split at h
    · rename_i l' hl'
      cases h
      rw [Shaped] at hs
      obtain ⟨items, x', hi, hk⟩ := conv_items l hs (fun a ha => hg.of_parts fun c hc => .concat ha hc)
        (hx.imp (fun h => ⟨h.1, fun a ha => noSpace_parts h.2 fun c hc => .concat ha hc⟩)
          fun h a ha => escaped_parts h fun c hc => .concat ha hc) hl'
      exact ⟨items, x', .concat hi, fun h1 h2 => hk h1 fun a ha => noSpace_parts h2 fun c hc => .concat ha hc⟩
    · cases h
  | .alternation l => rw [Shaped] at hs; cases hs.1
  | .repetition q b =>
    rw [convertAst] at h
    split at h
    · cases h
    · rename_i k hk
      split at h
      · rename_i r' hr'
        cases h
        rw [Shaped] at hs
        have hp : ∀ c, PartOf c b → PartOf c (.repetition q b) := fun c hc => .repetition hc
        obtain ⟨c, hc⟩ := conv_atom b hs.1 (hg.of_parts hp) (hx.of_parts hp) (hg.units q b (.self _)) hs.2
          (by
            rintro l rfl rfl hw
            rcases hx with ⟨h, _⟩ | he
            · cases h
            · exact he q l (.self _) hw) hr'
        exact ⟨_, _, .repetition (repOk_convert hk (hg.counts q b (.self _))) hc, fun h _ => h⟩
      · cases h
  | .literal l =>
    rw [convertAst] at h
    cases h
    obtain ⟨items, hi⟩ := literal_sees x l
    exact ⟨_, _, hi, fun h _ => h⟩
  | .assertion k =>
    rw [convertAst] at h
    cases h
    obtain ⟨items, hi⟩ := assertion_sees k x
    exact ⟨_, _, hi, fun h _ => h⟩
  | .characterClass c =>
    obtain ⟨b, hb⟩ := conv_atom (.characterClass c) hs hg hx trivial (by simp) (by simp) h
    exact ⟨_, _, .atom hb, fun h _ => h⟩
  | .group k a =>
    obtain ⟨b, hb⟩ := conv_atom (.group k a) hs hg hx trivial (by simp) (by simp) h
    exact ⟨_, _, .atom hb, fun h _ => h⟩
termination_by 3 * sizeOf a + 1
decreasing_by all_goals (first | omega | (simp only [Ast.concat.sizeOf_spec, Ast.repetition.sizeOf_spec]; omega))

theorem conv_items (l : List Ast) {x : Bool} {rs : List RAst} (hs : ShapedAll l) (hg : ∀ a ∈ l, PatternOk a)
    (hx : (x = false ∧ ∀ a ∈ l, NoIgnoreSpace a) ∨ ∀ a ∈ l, EscapedSpaces a) (h : convertList l = .ok rs) :
    ∃ items x', SeesAll x rs items x' ∧ (x = false → (∀ a ∈ l, NoIgnoreSpace a) → x' = false) := by
  match l with
  | [] =>
    rw [convertList] at h
    cases h
    exact ⟨_, _, .nil, fun h _ => h⟩
  | a :: l =>
    rw [convertList] at h
    split at h
    · cases h
    · rename_i r hr
      split at h
      · rename_i rs' hrs
        cases h
        rw [ShapedAll] at hs
        obtain ⟨items, x', hi, hk⟩ := conv_item a hs.1 (hg a (by simp))
          (hx.imp (fun h => ⟨h.1, h.2 a (by simp)⟩) fun h => h a (by simp)) hr
        obtain ⟨items', x'', hi', hk'⟩ := conv_items l (x := x') hs.2 (fun b hb => hg b (by simp [hb]))
          (hx.imp (fun h => ⟨hk h.1 (h.2 a (by simp)), fun b hb => h.2 b (by simp [hb])⟩)
            fun h b hb => h b (by simp [hb])) hrs
        exact ⟨_, _, .cons hi hi', fun h1 h2 => hk' (hk h1 (h2 a (by simp))) fun b hb => h2 b (by simp [hb])⟩
      · cases h
termination_by 3 * sizeOf l
decreasing_by all_goals (simp only [List.cons.sizeOf_spec]; omega)

theorem conv_alts (l : List Ast) {x : Bool} {rs : List RAst} (hne : l ≠ []) (hs : ShapedAll l) (hg : ∀ a ∈ l, PatternOk a)
    (hx : (x = false ∧ ∀ a ∈ l, NoIgnoreSpace a) ∨ ∀ a ∈ l, EscapedSpaces a) (h : convertList l = .ok rs) :
    rs.length = l.length ∧ ∃ items x', SeesAlts x rs items x' := by
  match l with
  | [] => exact absurd rfl hne
  | a :: l =>
    rw [convertList] at h
    split at h
    · cases h
    · rename_i r hr
      split at h
      · rename_i rs' hrs
        cases h
        rw [ShapedAll] at hs
        obtain ⟨items, x', hi, hk⟩ := conv_item a hs.1 (hg a (by simp))
          (hx.imp (fun h => ⟨h.1, h.2 a (by simp)⟩) fun h => h a (by simp)) hr
        by_cases hl : l = []
        · subst hl
          rw [convertList] at hrs
          cases hrs
          exact ⟨rfl, _, _, .one hi⟩
        · obtain ⟨hlen, items', x'', hi'⟩ := conv_alts l (x := x') hl hs.2 (fun b hb => hg b (by simp [hb]))
            (hx.imp (fun h => ⟨hk h.1 (h.2 a (by simp)), fun b hb => h.2 b (by simp [hb])⟩)
              fun h b hb => h b (by simp [hb])) hrs
          exact ⟨by simp [hlen], _, _, .cons hi hi'⟩
      · cases h
termination_by 3 * sizeOf l
decreasing_by all_goals (simp only [List.cons.sizeOf_spec]; omega)

theorem conv_body (a : Ast) {x : Bool} {r : RAst} (hs : Shaped true a) (hg : PatternOk a) (hx : SpaceOk x a)
    (h : convertAst a = .ok r) : ∃ b, SeesBody x r b := by
  by_cases ha : ∃ l, a = .alternation l
  · obtain ⟨l, e⟩ := ha
    rw [e] at hs hg hx h
    rw [convertAst] at h
    split at h
    · rename_i l' hl'
      cases h
      rw [Shaped] at hs
      obtain ⟨hlen, items, x', hi⟩ := conv_alts l (x := x) (by rintro rfl; simp at hs) hs.2.2
        (fun a ha => hg.of_parts fun c hc => .alternation ha hc)
        (hx.imp (fun h => ⟨h.1, fun a ha => noSpace_parts h.2 fun c hc => .alternation ha hc⟩)
          fun h a ha => escaped_parts h fun c hc => .alternation ha hc) hl'
      exact ⟨_, .alternation hi (by omega)⟩
    · cases h
  · have hs' : Shaped false a := by
      cases a with
      | alternation l => exact absurd ⟨l, rfl⟩ ha
      | _ => simp only [Shaped] at hs ⊢; try exact hs
    obtain ⟨l, x', hl, _⟩ := conv_item a hs' hg hx h
    exact ⟨_, .one hl⟩
termination_by 3 * sizeOf a + 2
decreasing_by
  · subst e; simp only [Ast.alternation.sizeOf_spec]; omega
  · omega

end

end Sds.Re
