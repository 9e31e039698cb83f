import Verif.Spec.Normalize
import Verif.Props.Grammar

/-! # C53, C54: quantifier limit and inline flags -/

namespace Sds.Props
open Sds Spec Re

/-! ## C53 -/

deriving instance DecidableEq for Except
deriving instance DecidableEq for Res

private theorem quant_ok {k : QuantifierKind} : (∃ r, convertQuantifier k = .ok r) ↔ ∀ n ∈ counts k, n ≤ 3000 := by
  cases k <;> simp only [convertQuantifier, counts, quantifierLimit] <;> (try simp) <;> split <;>
    simp <;> omega

private theorem quant_err {k : QuantifierKind} {e : PErr} (h : convertQuantifier k = .error e) :
    e = .exceededQuantifierLimit := by
  cases k <;> simp only [convertQuantifier] at h <;> (try split at h) <;> cases h <;> rfl

mutual

private theorem convert_err {a : Ast} {e : PErr} (h : convertAst a = .error e) : e = .exceededQuantifierLimit := by
  match a with
  | .empty => cases h
  | .literal _ => cases h
  | .flags _ => cases h
  | .assertion _ => cases h
  | .characterClass _ => cases h
  | .concat l =>
    unfold convertAst at h
    cases hl : convertList l with
    | ok _ => rw [hl] at h; cases h
    | error e' => rw [hl] at h; cases h; exact convertList_err hl
  | .alternation l =>
    unfold convertAst at h
    cases hl : convertList l with
    | ok _ => rw [hl] at h; cases h
    | error e' => rw [hl] at h; cases h; exact convertList_err hl
  | .group k b =>
    unfold convertAst at h
    cases hl : convertAst b with
    | ok _ => rw [hl] at h; cases h
    | error e' => rw [hl] at h; cases h; exact convert_err hl
  | .repetition q b =>
    unfold convertAst at h
    cases hq : convertQuantifier q.kind with
    | error e' => rw [hq] at h; cases h; exact quant_err hq
    | ok k =>
      rw [hq] at h
      dsimp only at h
      cases hl : convertAst b with
      | ok _ => rw [hl] at h; cases h
      | error e' => rw [hl] at h; cases h; exact convert_err hl

private theorem convertList_err {l : List Ast} {e : PErr} (h : convertList l = .error e) :
    e = .exceededQuantifierLimit := by
  match l with
  | [] => cases h
  | a :: l =>
    unfold convertList at h
    cases ha : convertAst a with
    | error e' => rw [ha] at h; cases h; exact convert_err ha
    | ok r =>
      rw [ha] at h
      dsimp only at h
      cases hl : convertList l with
      | ok _ => rw [hl] at h; cases h
      | error e' => rw [hl] at h; cases h; exact convertList_err hl

end

private theorem list_ok {l : List Ast} : (∃ r, convertList l = .ok r) ↔ ∀ a ∈ l, ∃ r, convertAst a = .ok r := by
  induction l with
  | nil => simp [convertList]
  | cons a l ih =>
    unfold convertList
    cases ha : convertAst a with
    | error e => simp [ha]
    | ok r =>
      cases hl : convertList l with
      | ok rs => simpa [ha, hl] using ih
      | error e => simpa [ha, hl] using ih

private theorem partOf_leaf {a b : Ast} (h : PartOf a b) (hb : nestings [b] = 0)
    (h1 : ∀ l, b ≠ .concat l) (h2 : ∀ l, b ≠ .alternation l) (h3 : ∀ q i, b ≠ .repetition q i) : a = b := by
  cases h with
  | self => rfl
  | concat => exact absurd rfl (h1 _)
  | alternation => exact absurd rfl (h2 _)
  | group => simp [nestings, nesting] at hb
  | repetition => exact absurd rfl (h3 _ _)

private theorem small_leaf {b : Ast} (hb : nestings [b] = 0)
    (h1 : ∀ l, b ≠ .concat l) (h2 : ∀ l, b ≠ .alternation l) (h3 : ∀ q i, b ≠ .repetition q i) : SmallCounts b := by
  intro q inner h
  exact absurd (partOf_leaf h hb h1 h2 h3).symm (h3 _ _)

private theorem convert_iff (n : Nat) : ∀ a, height a ≤ n → ((∃ r, convertAst a = .ok r) ↔ SmallCounts a) := by
  induction n with
  | zero => intro a h; cases a <;> simp [height] at h
  | succ n ih =>
    have hlist : ∀ l, heights l ≤ n → ((∃ r, convertList l = .ok r) ↔ ∀ a ∈ l, SmallCounts a) := by
      intro l hl
      rw [list_ok]
      exact ⟨fun h a ha => (ih a (heights_le.1 hl a ha)).1 (h a ha),
        fun h a ha => (ih a (heights_le.1 hl a ha)).2 (h a ha)⟩
    intro a h
    cases a with
    | empty => exact iff_of_true ⟨_, rfl⟩ (small_leaf rfl (by simp) (by simp) (by simp))
    | literal _ => exact iff_of_true ⟨_, rfl⟩ (small_leaf rfl (by simp) (by simp) (by simp))
    | flags _ => exact iff_of_true ⟨_, rfl⟩ (small_leaf rfl (by simp) (by simp) (by simp))
    | assertion _ => exact iff_of_true ⟨_, rfl⟩ (small_leaf rfl (by simp) (by simp) (by simp))
    | characterClass _ => exact iff_of_true ⟨_, rfl⟩ (small_leaf rfl (by simp) (by simp) (by simp))
    | concat l =>
      have hl : heights l ≤ n := by simp only [height] at h; omega
      have : (∃ r, convertAst (.concat l) = .ok r) ↔ ∃ r, convertList l = .ok r := by
        unfold convertAst
        cases convertList l <;> simp
      rw [this, hlist l hl]
      constructor
      · intro hs q inner hw
        cases hw with
        | concat hb hw => exact hs _ hb q inner hw
      · intro hs a ha q inner hw
        exact hs q inner (.concat ha hw)
    | alternation l =>
      have hl : heights l ≤ n := by simp only [height] at h; omega
      have : (∃ r, convertAst (.alternation l) = .ok r) ↔ ∃ r, convertList l = .ok r := by
        unfold convertAst
        cases convertList l <;> simp
      rw [this, hlist l hl]
      constructor
      · intro hs q inner hw
        cases hw with
        | alternation hb hw => exact hs _ hb q inner hw
      · intro hs a ha q inner hw
        exact hs q inner (.alternation ha hw)
    | group k b =>
      have hl : height b ≤ n := by simp only [height] at h; omega
      have : (∃ r, convertAst (.group k b) = .ok r) ↔ ∃ r, convertAst b = .ok r := by
        rw [convertAst]
        cases convertAst b <;> simp
      rw [this, ih b hl]
      constructor
      · intro hs q inner hw
        cases hw with
        | group hw => exact hs q inner hw
      · intro hs q inner hw
        exact hs q inner (.group hw)
    | repetition q b =>
      have hl : height b ≤ n := by simp only [height] at h; omega
      have : (∃ r, convertAst (.repetition q b) = .ok r) ↔
          (∃ r, convertQuantifier q.kind = .ok r) ∧ ∃ r, convertAst b = .ok r := by
        rw [convertAst]
        cases convertQuantifier q.kind <;> cases convertAst b <;> simp
      rw [this, ih b hl, quant_ok]
      constructor
      · rintro ⟨h1, h2⟩ q' inner hw
        cases hw with
        | self => exact h1
        | repetition hw => exact h2 q' inner hw
      · intro hs
        exact ⟨hs q b (.self _), fun q' inner hw => hs q' inner (.repetition hw)⟩

/-- C53: conversion succeeds exactly if every number in a quantifier is at most 3000, wherever it is in the pattern. -/
theorem C53_convert_iff (a : Ast) : (∃ r, convertAst a = .ok r) ↔ SmallCounts a :=
  convert_iff (height a) a (Nat.le_refl _)

/-- C53: it fails with the quantifier error only. -/
theorem C53_convert_error (a : Ast) (e : PErr) (h : convertAst a = .error e) : e = .exceededQuantifierLimit :=
  convert_err h

/-- C53: which patterns are converted, and which error the others get. -/
theorem C53_pattern_iff (s : Str) :
    ((∃ r, convertToRustRegex s = .ok (.ok r)) ↔ ∃ a, parseRegexPattern s = .ok (.ok a) ∧ SmallCounts a) ∧
    (convertToRustRegex s = .ok (.error .exceededQuantifierLimit) ↔
      ∃ a, parseRegexPattern s = .ok (.ok a) ∧ ¬ SmallCounts a) ∧
    ∃ r, convertToRustRegex s = .ok r := by
  unfold convertToRustRegex
  obtain ⟨r, hr⟩ := C52_terminates s
  rw [hr]
  cases r with
  | error e =>
    have := C52_rejections s e hr
    refine ⟨by simp, ?_, _, rfl⟩
    simp only [Res.ok.injEq, Except.error.injEq]
    constructor
    · rintro rfl
      rcases this with h | ⟨h, _⟩ <;> cases h
    · simp
  | ok a =>
    have hi := C53_convert_iff a
    cases ha : convertAst a with
    | ok r =>
      have hs := hi.1 ⟨r, ha⟩
      refine ⟨by simpa [ha] using hs, by simpa [ha] using hs, by simp [ha]⟩
    | error e =>
      have he := convert_err ha
      subst he
      have hs : ¬ SmallCounts a := fun hs => by
        obtain ⟨r, h⟩ := hi.2 hs
        rw [ha] at h
        cases h
      refine ⟨by simpa [ha] using hs, by simpa [ha] using hs, by simp [ha]⟩

/-- C53, partial: the property also asks that ranges are ordered, which the conversion does not check (see
`C53_unordered_range_converted`); what holds is the bound on the numbers. -/
theorem C53_counts_bounded_partial (s : Str) (r : Str) (h : convertToRustRegex s = .ok (.ok r)) :
    ∃ a, Syntax.Denotes s a ∧ SmallCounts a := by
  obtain ⟨a, h1, h2⟩ := (C53_pattern_iff s).1.1 ⟨r, h⟩
  exact ⟨a, ((C82_accepted_iff s a).1 h1).1, h2⟩

/-- The range of a pattern that is a single repetition. -/
private def rangeOf (s : Str) : Option (Nat × Nat) :=
  match parseRegexPattern s with
  | .ok (.ok (.repetition { isLazy := _, kind := .rangeMinMax n m } _)) => some (n, m)
  | _ => none

/-- C53, the counterexample: `x{5,3}` is converted, to itself. -/
theorem C53_unordered_range_converted :
    convertToRustRegex "x{5,3}".toList = .ok (.ok "x{5,3}".toList) ∧
    ∃ a, Syntax.Denotes "x{5,3}".toList a ∧ ¬ OrderedCounts a := by
  have h : rangeOf "x{5,3}".toList = some (5, 3) := by decide +kernel
  refine ⟨by decide +kernel, ?_⟩
  unfold rangeOf at h
  split at h
  · next h' =>
    cases h
    exact ⟨_, ((C82_accepted_iff _ _).1 h').1, fun ho => absurd (ho _ _ (.self _) 5 3 rfl) (by omega)⟩
  · cases h

/-- C53, what large numbers do: one that does not fit in 32 bits is not read as a quantifier at all, so the pattern
is converted, with the braces as ordinary characters. -/
theorem C53_huge_count_is_literal :
    convertToRustRegex "x{4294967296}".toList = .ok (.ok "x\\{4294967296\\}".toList) ∧
    convertToRustRegex "x{4294967295}".toList = .ok (.error .exceededQuantifierLimit) := by
  decide +kernel

example : convertToRustRegex "(a|b{3000})*".toList = .ok (.ok "(a|b{3000})*".toList) ∧
    convertToRustRegex "(a|b{3001})*".toList = .ok (.error .exceededQuantifierLimit) ∧
    convertToRustRegex "b{1,3001}".toList = .ok (.error .exceededQuantifierLimit) := by decide +kernel

/-! ## C54 -/

private theorem mem_dedup {l : List Flag} {x : Flag} : x ∈ dedup l ↔ x ∈ l := by
  fun_induction dedup l with
  | case1 => rfl
  | case2 => rfl
  | case3 a l ih => simp only [ih, List.mem_cons]; simp
  | case4 a b l h ih => simp [ih]

private theorem dedup_head {l : List Flag} : (dedup l).head? = l.head? := by
  fun_induction dedup l with
  | case1 => rfl
  | case2 => rfl
  | case3 a l ih => simpa using ih
  | case4 a b l h ih => simp

private theorem rank_inj {a b : Flag} (h : a.rank = b.rank) : a = b := by
  cases a <;> cases b <;> first | rfl | (simp [Flag.rank] at h)

private theorem nodup_dedup {l : List Flag} (h : l.Pairwise fun a b => a.rank ≤ b.rank) : (dedup l).Nodup := by
  fun_induction dedup l with
  | case1 => simp
  | case2 => simp
  | case3 a l ih => exact ih (List.pairwise_cons.1 h).2
  | case4 a b l hne ih =>
    obtain ⟨h1, h2⟩ := List.pairwise_cons.1 h
    refine List.nodup_cons.2 ⟨?_, ih h2⟩
    rw [mem_dedup]
    intro hm
    rcases List.mem_cons.1 hm with rfl | hm
    · exact hne rfl
    · have h3 := h1 b List.mem_cons_self
      have h4 := (List.pairwise_cons.1 h2).1 a hm
      exact hne (rank_inj (Nat.le_antisymm h3 h4))

private theorem mem_insert {f x : Flag} {l : List Flag} : x ∈ insertFlag f l ↔ x = f ∨ x ∈ l := by
  fun_induction insertFlag f l with
  | case1 => simp
  | case2 g l h => simp
  | case3 g l h ih => simp only [List.mem_cons, ih]; exact or_left_comm

private theorem mem_sort {x : Flag} {l : List Flag} : x ∈ sortFlags l ↔ x ∈ l := by
  induction l with
  | nil => rfl
  | cons f l ih => rw [sortFlags, mem_insert, ih, List.mem_cons]

private theorem sorted_insert {f : Flag} {l : List Flag} (h : l.Pairwise fun a b => a.rank ≤ b.rank) :
    (insertFlag f l).Pairwise fun a b => a.rank ≤ b.rank := by
  fun_induction insertFlag f l with
  | case1 => simp
  | case2 g l hg =>
    refine List.pairwise_cons.2 ⟨fun x hx => ?_, h⟩
    rcases List.mem_cons.1 hx with rfl | hx
    · exact hg
    · exact Nat.le_trans hg ((List.pairwise_cons.1 h).1 x hx)
  | case3 g l hg ih =>
    refine List.pairwise_cons.2 ⟨fun x hx => ?_, ih (List.pairwise_cons.1 h).2⟩
    rcases mem_insert.1 hx with rfl | hx
    · omega
    · exact (List.pairwise_cons.1 h).1 x hx

private theorem sorted_flags (l : List Flag) : (sortFlags l).Pairwise fun a b => a.rank ≤ b.rank := by
  induction l with
  | nil => exact List.Pairwise.nil
  | cons f l ih => exact sorted_insert ih

private theorem mem_normal {l : List Flag} {x : Flag} : x ∈ dedup (sortFlags l) ↔ x ∈ l := by
  rw [mem_dedup, mem_sort]

private theorem nodup_normal (l : List Flag) : (dedup (sortFlags l)).Nodup := nodup_dedup (sorted_flags l)

private theorem foldl_retain (both l : List Flag) :
    both.foldl (fun l f => l.filter fun x => x ≠ f) l = l.filter fun x => x ∉ both := by
  induction both generalizing l with
  | nil => simp only [List.foldl_nil, List.not_mem_nil, not_false_eq_true, decide_true]; exact (List.filter_eq_self.2 fun _ _ => rfl).symm
  | cons f both ih =>
    rw [List.foldl_cons, ih, List.filter_filter]
    congr 1
    funext x
    by_cases h : x = f <;> simp [h]

/-- The additions that are kept. -/
private theorem kept_adds (f : Flags) :
    (let addFlags := dedup (sortFlags f.add)
     let removeFlags := dedup (sortFlags f.remove)
     (removeFlags.filter fun x => addFlags.contains x).foldl (fun l f => l.filter fun x => x ≠ f) addFlags) =
    (dedup (sortFlags f.add)).filter fun x => x ∉ f.remove := by
  simp only
  rw [foldl_retain]
  refine List.filter_congr fun x hx => ?_
  simp only [List.mem_filter, mem_normal, List.contains_eq_mem, decide_eq_decide]
  rw [mem_normal] at hx
  simp [hx]

theorem foldl_switch (l : List Flag) (on : Bool) (s : Flag → Bool) (x : Flag) :
    l.foldl (fun s y => switch s y on) s x = if x ∈ l then on else s x := by
  induction l generalizing s with
  | nil => simp
  | cons y l ih =>
    rw [List.foldl_cons, ih]
    by_cases h : x ∈ l
    · simp [h]
    · by_cases h' : x = y <;> simp [h, h', switch]

private theorem rust_append (l : List Flag) (rest : List RFlagsItem) (on : Bool) (s : RFlag → Bool) :
    rustFlagsAfter (l.map (fun f => RFlagsItem.flag (convertFlag f)) ++ rest) on s =
      rustFlagsAfter rest on (fun y => if ∃ x ∈ l, convertFlag x = y then on else s y) := by
  induction l generalizing s with
  | nil => simp
  | cons f l ih =>
    simp only [List.map_cons, List.cons_append, rustFlagsAfter, ih]
    congr 1
    funext y
    by_cases h : ∃ x ∈ l, convertFlag x = y
    · simp [h]
    · by_cases h' : y = convertFlag f
      · simp [h', switch]
      · simp [h, h', switch, Ne.symm h']

private theorem convertFlag_inj {a b : Flag} (h : convertFlag a = convertFlag b) : a = b := by
  cases a <;> cases b <;> first | rfl | cases h

private theorem rust_effect (f : Flags) (s : RFlag → Bool) (x : RFlag) :
    rustFlagsAfter (convertFlags f) true s x =
      if (∃ y ∈ f.remove, convertFlag y = x) then false
      else if (∃ y ∈ f.add, convertFlag y = x) then true else s x := by
  have hk := kept_adds f
  unfold convertFlags
  simp only at hk ⊢
  rw [hk, rust_append]
  by_cases hr : f.remove = []
  · have : dedup (sortFlags f.remove) = [] := List.eq_nil_iff_forall_not_mem.2 fun y hy => by
      rw [mem_normal, hr] at hy
      cases hy
    rw [this]
    simp only [List.isEmpty_nil, if_true, rustFlagsAfter, hr, List.not_mem_nil, not_false_eq_true, decide_true,
      List.mem_filter, mem_normal, and_true, false_and, exists_false, if_false]
  · have : (dedup (sortFlags f.remove)).isEmpty = false := by
      rw [List.isEmpty_eq_false_iff]
      obtain ⟨y, hy⟩ := List.exists_mem_of_ne_nil _ hr
      exact List.ne_nil_of_mem (mem_normal.2 hy)
    rw [this]
    simp only [Bool.false_eq_true, if_false, rustFlagsAfter]
    have := rust_append (dedup (sortFlags f.remove)) [] false
    simp only [List.append_nil] at this
    rw [this]
    simp only [rustFlagsAfter, mem_normal, List.mem_filter, decide_eq_true_eq]
    by_cases h : ∃ y ∈ f.remove, convertFlag y = x
    · rw [if_pos h, if_pos h]
    · rw [if_neg h, if_neg h]
      congr 1
      refine propext ⟨?_, ?_⟩
      · rintro ⟨y, h1, h2⟩
        exact ⟨y, mem_normal.1 (List.mem_filter.1 h1).1, h2⟩
      · rintro ⟨y, h1, h2⟩
        exact ⟨y, List.mem_filter.2 ⟨mem_normal.2 h1, by simpa using fun hy => h ⟨y, hy, h2⟩⟩, h2⟩

/-- C54: a converted flag group changes every flag as the original does: additions one after the other, then
removals. -/
theorem C54_flags_in_effect (f : Flags) (s : Flag → Bool) (r : RFlag → Bool)
    (h : ∀ x y, flagLetter x = rustFlagLetter y → s x = r y) (x : Flag) (y : RFlag)
    (hxy : flagLetter x = rustFlagLetter y) :
    rustFlagsAfter (convertFlags f) true r y = flagsAfter f s x := by
  have hy : y = convertFlag x := by cases x <;> cases y <;> first | rfl | (exact absurd hxy (by decide))
  subst hy
  rw [rust_effect]
  have hiff : ∀ l : List Flag, (∃ z ∈ l, convertFlag z = convertFlag x) ↔ x ∈ l := fun l =>
    ⟨fun ⟨z, hz, e⟩ => convertFlag_inj e ▸ hz, fun h => ⟨x, h, rfl⟩⟩
  simp only [hiff]
  unfold flagsAfter
  rw [foldl_switch, foldl_switch, h x _ hxy]

/-- C54: it changes no other flag. -/
theorem C54_other_flags_kept (f : Flags) (r : RFlag → Bool) (y : RFlag)
    (hy : ∀ x, flagLetter x ≠ rustFlagLetter y) : rustFlagsAfter (convertFlags f) true r y = r y := by
  rw [rust_effect]
  have : ∀ l : List Flag, ¬ ∃ z ∈ l, convertFlag z = y := by
    rintro l ⟨z, _, rfl⟩
    exact hy z (by cases z <;> rfl)
  rw [if_neg (this _), if_neg (this _)]

/-- C54: the converted group meets the syntax rules of Rust: nothing occurs twice, not even once added and once
removed, and the negation is not the last item. -/
theorem C54_converted_flags_valid (f : Flags) : RustFlagsValid (convertFlags f) := by
  have hk := kept_adds f
  unfold convertFlags
  simp only at hk ⊢
  rw [hk]
  have hmap : ∀ l : List Flag, l.Nodup → (l.map fun f => RFlagsItem.flag (convertFlag f)).Nodup := fun l hl =>
    List.pairwise_map.2 (hl.imp fun h e => by simp only [RFlagsItem.flag.injEq] at e; exact h (convertFlag_inj e))
  have hadd := hmap _ ((nodup_normal f.add).filter fun x => x ∉ f.remove)
  by_cases hr : (dedup (sortFlags f.remove)).isEmpty
  · rw [if_pos hr, List.append_nil]
    refine ⟨hadd, fun h => ?_⟩
    have := List.mem_of_getLast? h
    simp at this
  · rw [if_neg hr]
    refine ⟨?_, ?_⟩
    · rw [List.nodup_append]
      refine ⟨hadd, List.nodup_cons.2 ⟨by simp, hmap _ (nodup_normal f.remove)⟩, ?_⟩
      intro a ha b hb
      obtain ⟨x, hx, rfl⟩ := List.mem_map.1 ha
      rcases List.mem_cons.1 hb with rfl | hb
      · simp
      · obtain ⟨y, hy, rfl⟩ := List.mem_map.1 hb
        intro he
        simp only [RFlagsItem.flag.injEq] at he
        have := convertFlag_inj he
        subst this
        have h1 := (List.mem_filter.1 hx).2
        simp only [decide_eq_true_eq] at h1
        exact h1 (mem_normal.1 hy)
    · intro h
      rw [List.getLast?_append] at h
      have h2 : ∀ l : List Flag, l ≠ [] →
          (RFlagsItem.negation :: l.map fun f => RFlagsItem.flag (convertFlag f)).getLast? ≠ some .negation := by
        intro l hl h
        rw [List.getLast?_cons_of_ne_nil (by simpa using hl)] at h
        have := List.mem_of_getLast? h
        simp at this
      have hne : dedup (sortFlags f.remove) ≠ [] := by simpa using hr
      cases hl : (RFlagsItem.negation :: (dedup (sortFlags f.remove)).map fun f => RFlagsItem.flag (convertFlag f)).getLast? with
      | none => simp at hl
      | some x =>
        rw [hl] at h
        simp only [Option.some_or, Option.some.injEq] at h
        exact h2 _ hne (hl.trans (by rw [h]))

/-- A group that adds `i` twice and `s`, and removes `s` and `x`. -/
private def mixed : Flags :=
  { add := [.caseInsensitive, .dotMatchesNewLine, .caseInsensitive], remove := [.ignoreWhitespace, .dotMatchesNewLine] }

example : convertFlags mixed = [.flag .caseInsensitive, .negation, .flag .dotMatchesNewLine, .flag .ignoreWhitespace] ∧
    flagsAfter mixed (fun _ => true) .multiLine = true ∧ flagsAfter mixed (fun _ => true) .dotMatchesNewLine = false := by
  decide +kernel

end Sds.Props
