import Verif.Lemmas.RustConvert

/-! # Lemmas: converted patterns that the Rust crate rejects -/

namespace Sds.Re
open Sds Spec

/-! ## Fuel -/

theorem readLoop_more {n : Nat} {st : RState} {s : Str} {r : RAst} (h : readLoop n st s = some r) (k : Nat) :
    readLoop (n + k) st s = some r := by
  induction n generalizing st s with
  | zero => cases h
  | succ n ih =>
    rw [Nat.add_right_comm]
    rw [readLoop] at h ⊢
    split at h
    · exact h
    · split at h
      · exact ih h
      · cases h

/-! ## Being stuck -/

/-- The reader rejects the text from this state. -/
def Stuck (st : RState) (s : Str) : Prop := ∀ n, readLoop n st s = none

theorem Stuck.step {st : RState} {c : Char} {t : Str} (hc : Stops st.x c) (h : readStep st c t = none) : Stuck st (c :: t) := by
  intro n
  cases n with
  | zero => rfl
  | succ n => rw [readLoop, skipSpace_stop hc]; simp only [h]

theorem Stuck.after {st st' : RState} {t rest : Str} (h : Eats st t st' rest) (hs : Stuck st' rest) : Stuck st (t ++ rest) := by
  obtain ⟨k, _, h⟩ := h
  intro n
  cases hr : readLoop n st (t ++ rest) with
  | none => rfl
  | some r =>
    have := readLoop_more hr k
    rw [h, hs n] at this
    cases this

/-- From no state in which whitespace is (not) ignored does the reader get past the text, and the text does not begin with
a quantifier. -/
def Rejects (x : Bool) (text : Str) : Prop :=
  ∀ rest, Calm x (text ++ rest) ∧ ∀ done stack, Stuck { x := x, done := done, stack := stack } (text ++ rest)

/-! ## Classes -/

/-- An item that is fine or a range that is not in order. -/
def ItemSeen (it : RClassItem) : Prop :=
  ItemOk it ∨ ∃ a b, it = .range a b ∧ ClassLitOk a ∧ ClassLitOk b ∧ ¬ a.c ≤ b.c

theorem seen_head {it : RClassItem} (h : ItemSeen it) (x : Bool) :
    ∃ c t, it.print = c :: t ∧ Stops x c ∧ c ≠ '-' ∧ c ≠ ']' ∧ c ≠ '^' := by
  rcases h with h | ⟨a, b, rfl, ha, _, _⟩
  · exact item_head h x
  · obtain ⟨c, t, hp, h1, h2, h3, _, h4, _⟩ := classLiteral_head ha x
    exact ⟨c, _, by rw [RClassItem.print, hp]; rfl, h1, h2, h3, h4⟩

theorem readClassRange_unordered {a b : RLiteral} (ha : ClassLitOk a) (hb : ClassLitOk b) (hab : ¬ a.c ≤ b.c) (x : Bool)
    (rest : Str) : readClassRange x (a.print ++ '-' :: (b.print ++ rest)) = none := by
  unfold readClassRange
  rw [readClassPrim_literal ha.1]
  simp only [skipSpace_stop (meta_stop (c := '-') (by decide) (by decide) x)]
  obtain ⟨c, t, hp, h1, h2, h3, _⟩ := classLiteral_head hb x
  have hs : skipSpace x (b.print ++ rest) = b.print ++ rest := by rw [hp]; exact skipSpace_stop h1 _
  rw [hs]
  split
  · rename_i h; rw [hp] at h; cases h; exact absurd rfl h3
  · rename_i h; rw [hp] at h; cases h; exact absurd rfl h2
  · rw [readClassPrim_literal hb.1]
    simp only [if_neg hab]

theorem readItems_unordered {x : Bool} (l : List RClassItem) (h : ∀ i ∈ l, ItemSeen i) (hb : ∃ i ∈ l, ¬ ItemOk i) (rest : Str)
    (n : Nat) (acc : List RClassItem) (hn : (printItems l).length < n) :
    readItems x n acc (printItems l ++ ']' :: rest) = none := by
  induction l generalizing n acc with
  | nil => obtain ⟨_, h, _⟩ := hb; cases h
  | cons it l ih =>
    obtain ⟨m, rfl⟩ : ∃ m, n = m + 1 := ⟨n - 1, by omega⟩
    obtain ⟨c0, t0, hp0, hs0, hd0⟩ := seen_head (h it (by simp)) x
    have hpos : 0 < it.print.length := by rw [hp0]; simp
    rw [printItems, List.length_append] at hn
    by_cases hit : ItemOk it
    · have hl : ∃ i ∈ l, ¬ ItemOk i := by
        obtain ⟨i, hi, hni⟩ := hb
        rcases List.mem_cons.1 hi with rfl | hi
        · exact absurd hit hni
        · exact ⟨i, hi, hni⟩
      have hnext : ∃ c t, printItems l ++ ']' :: rest = c :: t ∧ Stops x c ∧ c ≠ '-' := by
        cases l with
        | nil => exact ⟨']', rest, rfl, meta_stop (by decide) (by decide) x, by decide⟩
        | cons j l =>
          obtain ⟨c, t, hp, h1, h2, _⟩ := seen_head (h j (by simp)) x
          exact ⟨c, _, by rw [printItems, hp]; rfl, h1, h2⟩
      obtain ⟨c, t, hr, hs', hd'⟩ := hnext
      rw [printItems, List.append_assoc, hr,
        readItems_step hit (fun l' _ h' n acc rest hn => readItems_ok x _ l' (Nat.le_refl _) h' n acc rest hn) hs' hd' t
          (by omega), ← hr]
      exact ih (fun i hi => h i (by simp [hi])) hl m _ (by omega)
    · rcases h it (by simp) with hok | ⟨a, b, rfl, ha, hb', hab⟩
      · exact absurd hok hit
      · obtain ⟨d, t2, hp2, hs2, h2, h3, h4, _, h5, h6⟩ := classLiteral_head ha x
        have hrange := readClassRange_unordered ha hb' hab x (printItems l ++ ']' :: rest)
        rw [printItems, RClassItem.print, List.append_assoc, List.append_assoc, List.cons_append]
        rw [hp2, List.cons_append] at hrange ⊢
        rw [readItems, skipSpace_stop hs2]
        simp only [if_neg h3, if_neg h4]
        rw [if_neg (by rintro ⟨h | h | h, _⟩ <;> contradiction), hrange]

theorem readClass_unordered {l : List RClassItem} (h : ∀ i ∈ l, ItemSeen i) (hb : ∃ i ∈ l, ¬ ItemOk i) (x negated : Bool)
    (rest : Str) : readClass x ((if negated then ['^'] else []) ++ (printItems l ++ ']' :: rest)) = none := by
  have hopen : readClassOpen x ((if negated then ['^'] else []) ++ (printItems l ++ ']' :: rest)) =
      (negated, [], printItems l ++ ']' :: rest) := by
    cases l with
    | nil => obtain ⟨_, h, _⟩ := hb; cases h
    | cons it l =>
      obtain ⟨c, t, hp, h1, h2, h3, h4⟩ := seen_head (h it (by simp)) x
      have e : printItems (it :: l) ++ ']' :: rest = c :: (t ++ (printItems l ++ ']' :: rest)) := by
        rw [printItems, hp]; simp
      exact classOpen_head (c := c) (t := t ++ (printItems l ++ ']' :: rest)) e h1 h2 h3 h4 negated
  unfold readClass
  rw [hopen]
  simp only
  rw [readItems_unordered l h hb rest _ [] (by simp [List.length_append]; omega)]

/-! ## Trees -/

/-- What the crate checks in a pattern while reading it. -/
structure Checked (a : Ast) : Prop where
  flags : FlagsGiven a
  ranges : OrderedRanges a
  counts : OrderedCounts a

theorem checked_leaf {a : Ast} (h : ∀ b, PartOf b a → b = a) (hf : ∀ f, a ≠ .flags f)
    (hc : ∀ n l, a ≠ .characterClass (.bracket n l)) (hr : ∀ q b, a ≠ .repetition q b) : Checked a :=
  ⟨fun f hp => absurd (h _ hp).symm (hf f), fun n l hp => absurd (h _ hp).symm (hc n l),
    fun q b hp => absurd (h _ hp).symm (hr q b)⟩

theorem not_checked_concat {l : List Ast} (h : ¬ Checked (.concat l)) : ∃ a ∈ l, ¬ Checked a := by
  refine Classical.byContradiction fun hn => h ?_
  have hall : ∀ a ∈ l, Checked a := fun a ha => Classical.byContradiction fun hc => hn ⟨a, ha, hc⟩
  refine ⟨fun f hp => ?_, fun n l' hp => ?_, fun q b hp => ?_⟩
  · cases hp with | concat hb hp => exact (hall _ hb).flags f hp
  · cases hp with | concat hb hp => exact (hall _ hb).ranges n l' hp
  · cases hp with | concat hb hp => exact (hall _ hb).counts q b hp

theorem not_checked_alternation {l : List Ast} (h : ¬ Checked (.alternation l)) : ∃ a ∈ l, ¬ Checked a := by
  refine Classical.byContradiction fun hn => h ?_
  have hall : ∀ a ∈ l, Checked a := fun a ha => Classical.byContradiction fun hc => hn ⟨a, ha, hc⟩
  refine ⟨fun f hp => ?_, fun n l' hp => ?_, fun q b hp => ?_⟩
  · cases hp with | alternation hb hp => exact (hall _ hb).flags f hp
  · cases hp with | alternation hb hp => exact (hall _ hb).ranges n l' hp
  · cases hp with | alternation hb hp => exact (hall _ hb).counts q b hp

theorem not_checked_group {k : GroupKind} {a : Ast} (h : ¬ Checked (.group k a)) : ¬ Checked a := by
  refine fun hc => h ⟨fun f hp => ?_, fun n l' hp => ?_, fun q b hp => ?_⟩
  · cases hp with | group hp => exact hc.flags f hp
  · cases hp with | group hp => exact hc.ranges n l' hp
  · cases hp with | group hp => exact hc.counts q b hp

theorem not_checked_repetition {q : Quantifier} {a : Ast} (h : ¬ Checked (.repetition q a)) (hc : Checked a) :
    ∃ n m, q.kind = .rangeMinMax n m ∧ ¬ n ≤ m := by
  refine Classical.byContradiction fun hn => h ⟨fun f hp => ?_, fun n l' hp => ?_, fun q' b hp n m hq => ?_⟩
  · cases hp with | repetition hp => exact hc.flags f hp
  · cases hp with | repetition hp => exact hc.ranges n l' hp
  · cases hp with
    | self => exact Classical.byContradiction fun hm => hn ⟨n, m, hq, hm⟩
    | repetition hp => exact hc.counts q' b hp n m hq

theorem Checked.patternOk {a : Ast} (h : Checked a) (hu : RepeatsUnits a) : PatternOk a := ⟨hu, h.flags, h.ranges, h.counts⟩

theorem convertFlags_nil {f : Flags} (h : ¬ (f.add ≠ [] ∨ f.remove ≠ [])) : convertFlags f = [] := by
  obtain ⟨a, r⟩ := f
  simp only [ne_eq, not_or, Classical.not_not] at h
  obtain ⟨rfl, rfl⟩ := h
  rfl

/-- A flag group without flags. -/
theorem rejects_flags (x : Bool) : Rejects x (RAst.flags []).print := by
  intro rest
  have e : (RAst.flags []).print ++ rest = '(' :: '?' :: ')' :: rest := by rw [RAst.print]; rfl
  rw [e]
  refine ⟨Calm.of_head (open_stop x) (by decide), fun done stack => Stuck.step (open_stop x) ?_⟩
  have hs : skipSpace x ('?' :: ')' :: rest) = '?' :: ')' :: rest := skipSpace_stop (meta_stop (by decide) (by decide) x) _
  simp [readStep, readGroup, hs, readFlags]

/-- A class with a range that is not in order. -/
theorem rejects_class {l : List RClassItem} (h : ∀ i ∈ l, ItemSeen i) (hb : ∃ i ∈ l, ¬ ItemOk i) (x negated : Bool) :
    Rejects x (RAst.classBracketed { negated := negated, item := .union l }).print := by
  intro rest
  have e : (RAst.classBracketed { negated := negated, item := .union l }).print ++ rest =
      '[' :: ((if negated then ['^'] else []) ++ (printItems l ++ ']' :: rest)) := by
    rw [RAst.print, RBracketed.toItem, RClassItem.print, RClassItem.print]
    cases negated <;> simp
  rw [e]
  have hst : Stops x '[' := meta_stop (by decide) (by decide) x
  refine ⟨Calm.of_head hst (by decide), fun done stack => Stuck.step hst ?_⟩
  simp [readStep, readClass_unordered h hb]

theorem convert_class_seen {negated : Bool} {items : List BracketItem} (hg : ClassGood (.bracket negated items)) :
    ∀ i ∈ convertBracketItems items, ItemSeen i := by
  intro i hi
  simp only [convertBracketItems, List.mem_map] at hi
  obtain ⟨it, hit, rfl⟩ := hi
  by_cases hr : ∀ a b, it = .range a b → a ≤ b
  · exact .inl (item_ok hr fun u e => hg.2 u (e ▸ hit))
  · simp only [Classical.not_forall] at hr
    obtain ⟨a, b, rfl, hab⟩ := hr
    exact .inr ⟨_, _, rfl, classLitOk_convert _, classLitOk_convert _, hab⟩

theorem convert_range_bad {a b : Char} (h : ¬ a ≤ b) : ¬ ItemOk (convertBracketItem (.range a b)) := by
  intro hi
  cases hi with
  | range ha hb hab => exact h hab

theorem class_rejects {c : CharacterClass} (hg : ClassGood c) (hb : ¬ Checked (.characterClass c)) (x : Bool) :
    Rejects x (convertClass c).print := by
  have hleaf : ∀ b, PartOf b (.characterClass c) → b = .characterClass c := by
    intro b hp
    cases hp
    rfl
  cases c with
  | bracket negated items =>
    have : ∃ a b, .range a b ∈ items ∧ ¬ a ≤ b := by
      refine Classical.byContradiction fun hn => hb ⟨fun f hp => ?_, fun n l hp a b hab => ?_, fun q b hp => ?_⟩
      · have := hleaf _ hp; cases this
      · have := hleaf _ hp
        cases this
        exact Classical.byContradiction fun h => hn ⟨a, b, hab, h⟩
      · have := hleaf _ hp; cases this
    obtain ⟨a, b, hm, hab⟩ := this
    exact rejects_class (convert_class_seen hg)
      ⟨_, List.mem_map.2 ⟨_, hm, rfl⟩, convert_range_bad hab⟩ x negated
  | _ => exact absurd (checked_leaf hleaf (by simp) (by simp) (by simp)) hb

theorem readCounts_unordered {n m : Nat} (h1 : n < 2 ^ 32) (h2 : m < 2 ^ 32) (h3 : ¬ n ≤ m) (rest : Str) :
    readCounts (printNat n ++ ',' :: (printNat m ++ '}' :: rest)) = none := by
  unfold readCounts
  rw [readDecimal_print (d := ',') h1 (by decide)]
  have hne : ∀ s, printNat m ++ '}' :: rest ≠ '}' :: s := by
    intro s h
    cases hp : printNat m with
    | nil =>
      rw [printNat_eq] at hp
      exact Nat.toDigits_ne_nil hp
    | cons c t =>
      have hd := printNat_digit (n := m) (c := c) (by rw [hp]; simp)
      rw [hp] at h
      cases h
      revert hd; decide
  split
  · rename_i h; cases h
  · rename_i h
    simp only [Option.some.injEq, Prod.mk.injEq, List.cons.injEq, true_and] at h
    exact absurd h.2 (hne _)
  · rename_i h
    simp only [Option.some.injEq, Prod.mk.injEq, List.cons.injEq, true_and] at h
    obtain ⟨rfl, rfl⟩ := h
    rw [readDecimal_print (d := '}') h2 (by decide)]
    simp [h3]
  · rfl

/-- A counted repetition that is not in order, of whatever. -/
theorem stuck_counts {st : RState} {n m : Nat} (h1 : n < 2 ^ 32) (h2 : m < 2 ^ 32) (h3 : ¬ n ≤ m) (rest : Str) :
    Stuck st ((RRepetitionKind.bounded n m).print ++ rest) := by
  have e : (RRepetitionKind.bounded n m).print ++ rest = '{' :: (printNat n ++ ',' :: (printNat m ++ '}' :: rest)) := by
    simp [RRepetitionKind.print]
  rw [e]
  refine Stuck.step (meta_stop (by decide) (by decide) _) ?_
  simp [readStep, readCounts_unordered h1 h2 h3]

theorem spaceOk_group {x : Bool} {k : GroupKind} {a : Ast} (hx : SpaceOk x (.group k a)) :
    SpaceOk (groupX (convertGroupKind k) x) a := by
  rcases hx with ⟨hx, hn⟩ | he
  · refine .inl ⟨?_, noSpace_parts hn fun c hc => .group hc⟩
    cases k with
    | capturing => exact hx
    | namedCapturing name => exact hx
    | nonCapturing f =>
      subst hx
      exact spaceAfter_keeps (hn.2 f a (.self _))
  · exact .inr (escaped_parts he fun c hc => .group hc)

theorem kindOk_convert {k : GroupKind} (h : GroupGood k) : KindOk (convertGroupKind k) := by
  cases k with
  | capturing => trivial
  | namedCapturing name => exact h
  | nonCapturing f => exact convertFlags_ok f

mutual

theorem rej_atom (a : Ast) {x : Bool} {r : RAst} (hs : Shaped false a) (hw : RepeatsUnits a) (hb : ¬ Checked a)
    (hx : SpaceOk x a) (hu : OneUnit a) (hr : ∀ q b, a ≠ .repetition q b) (h : convertAst a = .ok r) : Rejects x r.print := by
  match a with
  | .empty => exact hu.elim
  | .flags f => exact hu.elim
  | .concat l => exact hu.elim
  | .alternation l => rw [Shaped] at hs; cases hs.1
  | .repetition q b => exact absurd rfl (hr q b)
  | .literal l =>
    exact absurd (checked_leaf (by intro b hp; cases hp; rfl) (by simp) (by simp) (by simp)) hb
  | .assertion k =>
    exact absurd (checked_leaf (by intro b hp; cases hp; rfl) (by simp) (by simp) (by simp)) hb
  | .characterClass c =>
    rw [convertAst] at h
    cases h
    rw [Shaped] at hs
    exact class_rejects hs hb x
  | .group k a =>
    rw [convertAst] at h
    split at h
    · rename_i r' hr'
      cases h
      rw [Shaped] at hs
      have hbody := rej_body a hs.2 (fun q b hp => hw q b (.group hp)) (not_checked_group hb) (spaceOk_group hx) hr'
      intro rest
      rw [RAst.print, List.append_assoc, List.append_assoc]
      obtain ⟨hcalm, hstuck⟩ := hbody ([')'] ++ rest)
      refine ⟨?_, fun done stack => Stuck.after (eats_open (kindOk_convert hs.1) ?_) (hstuck _ _)⟩
      · have : ∃ t, (convertGroupKind k).print = '(' :: t := by
          cases k <;> exact ⟨_, rfl⟩
        obtain ⟨t, ht⟩ := this
        rw [ht]
        exact Calm.of_head (open_stop x) (by decide)
      · intro hk
        rw [hk] at hcalm
        exact hcalm.no_question'
    · cases h
termination_by 3 * sizeOf a
decreasing_by all_goals (simp only [Ast.group.sizeOf_spec]; omega)

theorem rej_item (a : Ast) {x : Bool} {r : RAst} (hs : Shaped false a) (hw : RepeatsUnits a) (hb : ¬ Checked a)
    (hx : SpaceOk x a) (h : convertAst a = .ok r) : Rejects x r.print := by
  match a with
  | .empty => exact absurd (checked_leaf (by intro b hp; cases hp; rfl) (by simp) (by simp) (by simp)) hb
  | .flags f =>
    rw [convertAst] at h
    cases h
    have : ¬ (f.add ≠ [] ∨ f.remove ≠ []) := by
      intro hf
      refine hb ⟨fun g hp => ?_, fun n l hp => ?_, fun q b hp => ?_⟩
      · cases hp; exact hf
      · cases hp
      · cases hp
    rw [convertFlags_nil this]
    exact rejects_flags x
  | .concat l =>
    rw [convertAst] at h
    split at h
    · rename_i l' hl'
      cases h
      rw [Shaped] at hs
      rw [RAst.print]
      exact rej_items l hs (fun a ha q b hp => hw q b (.concat ha hp)) (not_checked_concat hb)
        (hx.imp (fun h => ⟨h.1, fun a ha => noSpace_parts h.2 fun c hc => .concat ha hc⟩)
          fun h a ha => escaped_parts h fun c hc => .concat ha hc) hl'
    · cases h
  | .alternation l => rw [Shaped] at hs; cases hs.1
  | .repetition q b =>
    rw [convertAst] at h
    split at h
    · cases h
    · rename_i k hk
      split at h
      · rename_i r' hr'
        cases h
        rw [Shaped] at hs
        have hp : ∀ c, PartOf c b → PartOf c (.repetition q b) := fun c hc => .repetition hc
        intro rest
        rw [RAst.print, List.append_assoc, List.append_assoc]
        by_cases hcb : Checked b
        · obtain ⟨n, m, hq, hnm⟩ := not_checked_repetition hb hcb
          obtain ⟨c, hc⟩ := conv_atom b hs.1 (hcb.patternOk fun q c hc => hw q c (hp _ hc)) (hx.of_parts hp)
            (hw q b (.self _)) hs.2
            (by
              rintro l rfl rfl hw
              rcases hx with ⟨h, _⟩ | he
              · cases h
              · exact he q l (.self _) hw) hr'
          refine ⟨atom_calm hc _, fun done stack => Stuck.after (atom_eats _ hc (Nat.lt_succ_self _) done stack _) ?_⟩
          rw [hq] at hk
          unfold convertQuantifier quantifierLimit at hk
          simp only at hk
          split at hk
          · cases hk
          · cases hk
            exact stuck_counts (by omega) (by omega) hnm _
        · exact rej_atom b hs.1 (fun q c hc => hw q c (hp _ hc)) hcb (hx.of_parts hp) (hw q b (.self _)) hs.2 hr' _
      · cases h
  | .literal l => exact absurd (checked_leaf (by intro b hp; cases hp; rfl) (by simp) (by simp) (by simp)) hb
  | .assertion k => exact absurd (checked_leaf (by intro b hp; cases hp; rfl) (by simp) (by simp) (by simp)) hb
  | .characterClass c => exact rej_atom (.characterClass c) hs hw hb hx trivial (by simp) h
  | .group k a => exact rej_atom (.group k a) hs hw hb hx trivial (by simp) h
termination_by 3 * sizeOf a + 1
decreasing_by all_goals (first | omega | (simp only [Ast.concat.sizeOf_spec, Ast.repetition.sizeOf_spec]; omega))

theorem rej_items (l : List Ast) {x : Bool} {rs : List RAst} (hs : ShapedAll l) (hw : ∀ a ∈ l, RepeatsUnits a)
    (hb : ∃ a ∈ l, ¬ Checked a)
    (hx : (x = false ∧ ∀ a ∈ l, NoIgnoreSpace a) ∨ ∀ a ∈ l, EscapedSpaces a) (h : convertList l = .ok rs) :
    Rejects x (printConcat rs) := by
  match l with
  | [] => obtain ⟨_, h, _⟩ := hb; cases h
  | a :: l =>
    rw [convertList] at h
    split at h
    · cases h
    · rename_i r hr
      split at h
      · rename_i rs' hrs
        cases h
        rw [ShapedAll] at hs
        intro rest
        rw [printConcat, List.append_assoc]
        have hxa : SpaceOk x a := hx.imp (fun h => ⟨h.1, h.2 a (by simp)⟩) fun h => h a (by simp)
        by_cases hca : Checked a
        · obtain ⟨items, x', hi, hk⟩ := conv_item a hs.1 (hca.patternOk (hw a (by simp))) hxa hr
          have hb' : ∃ a ∈ l, ¬ Checked a := by
            obtain ⟨c, hc, hnc⟩ := hb
            rcases List.mem_cons.1 hc with rfl | hc
            · exact absurd hca hnc
            · exact ⟨c, hc, hnc⟩
          have ih := rej_items l (x := x') hs.2 (fun b hb => hw b (by simp [hb])) hb'
            (hx.imp (fun h => ⟨hk h.1 (h.2 a (by simp)), fun b hb => h.2 b (by simp [hb])⟩)
              fun h b hb => h b (by simp [hb])) hrs
          obtain ⟨hcalm, hstuck⟩ := ih rest
          exact ⟨sees_calm hi hcalm, fun done stack =>
            Stuck.after (sees_eats _ hi (Nat.lt_succ_self _) done stack _ hcalm) (hstuck _ _)⟩
        · exact rej_item a hs.1 (hw a (by simp)) hca hxa hr _
      · cases h
termination_by 3 * sizeOf l
decreasing_by all_goals (simp only [List.cons.sizeOf_spec]; omega)

theorem rej_alts (l : List Ast) {x : Bool} {rs : List RAst} (hs : ShapedAll l) (hw : ∀ a ∈ l, RepeatsUnits a)
    (hb : ∃ a ∈ l, ¬ Checked a)
    (hx : (x = false ∧ ∀ a ∈ l, NoIgnoreSpace a) ∨ ∀ a ∈ l, EscapedSpaces a) (h : convertList l = .ok rs) :
    Rejects x (printAlternatives rs) := by
  match l with
  | [] => obtain ⟨_, h, _⟩ := hb; cases h
  | a :: l =>
    rw [convertList] at h
    split at h
    · cases h
    · rename_i r hr
      split at h
      · rename_i rs' hrs
        cases h
        rw [ShapedAll] at hs
        intro rest
        have hxa : SpaceOk x a := hx.imp (fun h => ⟨h.1, h.2 a (by simp)⟩) fun h => h a (by simp)
        have hprint : ∃ t, printAlternatives (r :: rs') = r.print ++ t ∧
            (l ≠ [] → t = '|' :: printAlternatives rs') := by
          cases rs' with
          | nil =>
            refine ⟨[], by rw [printAlternatives]; simp, fun hl => ?_⟩
            cases l with
            | nil => exact absurd rfl hl
            | cons b l =>
              rw [convertList] at hrs
              split at hrs
              · cases hrs
              · split at hrs <;> cases hrs
          | cons r' rs' => exact ⟨_, by rw [printAlternatives]; simp, fun _ => rfl⟩
        obtain ⟨t, hp, ht⟩ := hprint
        rw [hp, List.append_assoc]
        by_cases hca : Checked a
        · obtain ⟨items, x', hi, hk⟩ := conv_item a hs.1 (hca.patternOk (hw a (by simp))) hxa hr
          have hb' : ∃ a ∈ l, ¬ Checked a := by
            obtain ⟨c, hc, hnc⟩ := hb
            rcases List.mem_cons.1 hc with rfl | hc
            · exact absurd hca hnc
            · exact ⟨c, hc, hnc⟩
          have hl : l ≠ [] := by
            rintro rfl
            obtain ⟨_, h, _⟩ := hb'
            cases h
          have ih := rej_alts l (x := x') hs.2 (fun b hb => hw b (by simp [hb])) hb'
            (hx.imp (fun h => ⟨hk h.1 (h.2 a (by simp)), fun b hb => h.2 b (by simp [hb])⟩)
              fun h b hb => h b (by simp [hb])) hrs
          rw [ht hl, List.cons_append]
          have hbar : Stops x' '|' := meta_stop (by decide) (by decide) x'
          have hcalm : Calm x' ('|' :: (printAlternatives rs' ++ rest)) := Calm.of_head hbar (by decide)
          refine ⟨sees_calm hi hcalm, fun done stack =>
            Stuck.after (sees_eats _ hi (Nat.lt_succ_self _) done stack _ hcalm) ?_⟩
          have halt : ∃ stack', ({ x := x', done := done ++ items, stack := stack } : RState).alternate =
              { x := x', done := [], stack := stack' } := by
            unfold RState.alternate
            split <;> exact ⟨_, rfl⟩
          obtain ⟨stack', hstack⟩ := halt
          have hstep : Eats { x := x', done := done ++ items, stack := stack } ['|']
              { x := x', done := [], stack := stack' } (printAlternatives rs' ++ rest) :=
            Eats.step (t := []) hbar (by simp [readStep, hstack])
          exact Stuck.after hstep ((ih rest).2 _ _)
        · exact rej_item a hs.1 (hw a (by simp)) hca hxa hr _
      · cases h
termination_by 3 * sizeOf l
decreasing_by all_goals (simp only [List.cons.sizeOf_spec]; omega)

theorem rej_body (a : Ast) {x : Bool} {r : RAst} (hs : Shaped true a) (hw : RepeatsUnits a) (hb : ¬ Checked a)
    (hx : SpaceOk x a) (h : convertAst a = .ok r) : Rejects x r.print := by
  by_cases ha : ∃ l, a = .alternation l
  · obtain ⟨l, e⟩ := ha
    rw [e] at hs hw hb hx h
    rw [convertAst] at h
    split at h
    · rename_i l' hl'
      cases h
      rw [Shaped] at hs
      rw [RAst.print]
      exact rej_alts l (x := x) hs.2.2 (fun a ha q b hp => hw q b (.alternation ha hp)) (not_checked_alternation hb)
        (hx.imp (fun h => ⟨h.1, fun a ha => noSpace_parts h.2 fun c hc => .alternation ha hc⟩)
          fun h a ha => escaped_parts h fun c hc => .alternation ha hc) hl'
    · cases h
  · have hs' : Shaped false a := by
      cases a with
      | alternation l => exact absurd ⟨l, rfl⟩ ha
      | _ => simp only [Shaped] at hs ⊢; try exact hs
    exact rej_item a hs' hw hb hx h
termination_by 3 * sizeOf a + 2
decreasing_by
  · subst e; simp only [Ast.alternation.sizeOf_spec]; omega
  · omega

end

/-- A pattern that fails one of the checks is rejected. -/
theorem readRust_unchecked {a : Ast} {r : RAst} (hs : Shaped true a) (hw : RepeatsUnits a) (hb : ¬ Checked a)
    (hx : SpaceOk false a) (h : convertAst a = .ok r) : readRust r.print = none := by
  have := (rej_body a hs hw hb hx h []).2 [] [] (r.print.length + 1)
  rw [List.append_nil] at this
  unfold readRust
  rw [this]

end Sds.Re
