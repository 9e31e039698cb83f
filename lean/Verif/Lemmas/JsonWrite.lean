import Verif.Lemmas.JsonRead
import Verif.Props.GoRule

/-! # Lemmas: what is written -/

namespace Sds
open Spec Spec.Json

theorem hexChar_digit (n : Nat) : HexDigit (hexChar n) (n % 16) := by
  have key : ∀ k, k < 16 → "0123456789abcdef".toList[k]? = some (Nat.digitChar k) := by decide
  exact Or.inl (key _ (Nat.mod_lt _ (by decide)))

theorem unicodeEscape_of {c : Char} (h : c.toNat < 65536) : Char1 (unicodeEscape c.toNat) c := by
  refine .unicode ⟨_, _, _, _, _, _, _, _, rfl, hexChar_digit _, hexChar_digit _, hexChar_digit _, hexChar_digit _, ?_⟩
  omega

theorem goChar_of (short : Bool) (c : Char) : Char1 (goChar short c) c := by
  have back : ∀ k, c.toNat = k → c = Char.ofNat k := fun k hk => by rw [← hk, Char.ofNat_toNat]
  unfold goChar
  split
  · next h => rcases h with rfl | rfl <;> constructor
  split
  · next h => subst h; exact .newline
  split
  · next h => subst h; exact .carriageReturn
  split
  · next h => subst h; exact .tab
  split
  · next h => rw [back _ h.2]; exact .backspace
  split
  · next h => rw [back _ h.2]; exact .formFeed
  split
  · next h =>
    refine unicodeEscape_of ?_
    rcases h with h | rfl | rfl | rfl | h | h
    · omega
    · decide
    · decide
    · decide
    · omega
    · omega
  · next h1 _ _ _ _ _ h2 =>
    simp only [not_or] at h1 h2
    exact .plain (by omega) h1.1 h1.2

theorem rustChar_of (c : Char) : Char1 (rustChar c) c := by
  have back : ∀ k, c.toNat = k → c = Char.ofNat k := fun k hk => by rw [← hk, Char.ofNat_toNat]
  unfold rustChar
  split
  · next h => rcases h with rfl | rfl <;> constructor
  split
  · next h => subst h; exact .newline
  split
  · next h => subst h; exact .carriageReturn
  split
  · next h => subst h; exact .tab
  split
  · next h => rw [back _ h]; exact .backspace
  split
  · next h => rw [back _ h]; exact .formFeed
  split
  · exact unicodeEscape_of (by omega)
  · next h1 _ _ _ _ _ h2 =>
    simp only [not_or] at h1
    exact .plain (by omega) h1.1 h1.2

/-! ## Strings -/

theorem goQuotedGo_skip (short : Bool) (k : Nat) (b : Bytes) : goQuotedGo short k b = goQuotedGo short 0 (b.drop k) := by
  induction b generalizing k with
  | nil => simp [goQuotedGo]
  | cons a b ih => cases k with
    | zero => rfl
    | succ k => simpa [goQuotedGo] using ih k

theorem goQuotedGo_of (short : Bool) (b : Bytes) : ∃ u, Chars u (goText b) ∧ goQuotedGo short 0 b = utf8 u := by
  unfold goText
  induction hn : b.length using Nat.strongRecOn generalizing b with
  | _ n ih =>
  cases b with
  | nil => exact ⟨[], .nil, rfl⟩
  | cons a rest =>
    rw [goTextGo, goQuotedGo, Props.goTextGo_skip, goQuotedGo_skip]
    obtain ⟨u, hu, he⟩ := ih (rest.drop (goRune a rest).2).length (by simp at hn ⊢; omega) _ rfl
    rw [he]
    split
    · exact ⟨_, .cons (goChar_of short _) hu, (utf8_append _ _).symm⟩
    · next hc =>
      have hr : (goRune a rest).1 = replacementChar := by
        revert hc
        unfold goRune
        simp only
        split
        · next h => intro hc; exact absurd h hc
        · intro _; rfl
      rw [hr]
      exact ⟨_, .cons (unicodeEscape_of (c := replacementChar) (by decide)) hu, (utf8_append _ _).symm⟩

theorem goQuoted_of (short : Bool) (b : Bytes) : ∃ t, Quoted t (goText b) ∧ goQuoted short b = utf8 t := by
  obtain ⟨u, hu, he⟩ := goQuotedGo_of short b
  refine ⟨_, ⟨u, hu, rfl⟩, ?_⟩
  rw [goQuoted, he, ← utf8_append, ← utf8_append]
  rfl

theorem rustString_of (s : Str) : Quoted (rustString s) s := by
  refine ⟨s.flatMap rustChar, ?_, rfl⟩
  induction s with
  | nil => exact .nil
  | cons c s ih => rw [List.flatMap_cons]; exact .cons (rustChar_of c) ih

/-! ## Documents -/

mutual
theorem GoJson.text_of (short : Bool) (v : GoJson) (d : Nat) (hd : v.tree.depth ≤ d) :
    ∃ t, Value d t v.tree ∧ v.text short = utf8 t := by
  cases v with
  | null => exact ⟨_, .null, rfl⟩
  | num n => exact ⟨_, .num (number_toDigits n), rfl⟩
  | str b =>
    obtain ⟨t, ht, he⟩ := goQuoted_of short b
    exact ⟨t, .str ht, he⟩
  | arr l =>
    rw [GoJson.tree, JVal.depth] at hd
    obtain ⟨d, rfl⟩ : ∃ e, d = e + 1 := ⟨d - 1, by omega⟩
    rw [GoJson.tree, GoJson.text]
    cases l with
    | nil => exact ⟨_, .noElements space_nil, rfl⟩
    | cons v l =>
      obtain ⟨t, ht, he⟩ := GoJson.textList_of short (v :: l) (by simp) d (by omega)
      exact ⟨_, .arr ht, by rw [he, ← utf8_append, ← utf8_append]; rfl⟩
  | obj fs =>
    rw [GoJson.tree, JVal.depth] at hd
    obtain ⟨d, rfl⟩ : ∃ e, d = e + 1 := ⟨d - 1, by omega⟩
    rw [GoJson.tree, GoJson.text]
    cases fs with
    | nil => exact ⟨_, .noMembers space_nil, rfl⟩
    | cons v l =>
      obtain ⟨t, ht, he⟩ := GoJson.textFields_of short (v :: l) (by simp) d (by omega)
      exact ⟨_, .obj ht, by rw [he, ← utf8_append, ← utf8_append]; rfl⟩
theorem GoJson.textList_of (short : Bool) (l : List GoJson) (hl : l ≠ []) (d : Nat)
    (hd : JVal.depthList (GoJson.treeList l) ≤ d) : ∃ t, Elements d t (GoJson.treeList l) ∧ GoJson.textList short l = utf8 t := by
  match l, hl with
  | [v], _ =>
    rw [GoJson.treeList, JVal.depthList] at hd
    obtain ⟨t, ht, he⟩ := GoJson.text_of short v d (by omega)
    exact ⟨_, .one (a := []) (b := []) space_nil ht space_nil, by rw [GoJson.textList, he]; simp⟩
  | v :: w :: l, _ =>
    rw [GoJson.treeList, JVal.depthList] at hd
    obtain ⟨t, ht, he⟩ := GoJson.text_of short v d (by omega)
    obtain ⟨r, hr, hre⟩ := GoJson.textList_of short (w :: l) (by simp) d (by omega)
    rw [GoJson.treeList]
    refine ⟨_, .more (a := []) (b := []) space_nil ht space_nil hr, ?_⟩
    rw [GoJson.textList, he, hre, ← utf8_append, ← utf8_append]
    simp
theorem GoJson.textFields_of (short : Bool) (l : List (Str × GoJson)) (hl : l ≠ []) (d : Nat)
    (hd : JVal.depthFields (GoJson.treeFields l) ≤ d) :
    ∃ t, Members d t (GoJson.treeFields l) ∧ GoJson.textFields short l = utf8 t := by
  match l, hl with
  | [(k, v)], _ =>
    rw [GoJson.treeFields, JVal.depthFields] at hd
    obtain ⟨t, ht, he⟩ := GoJson.text_of short v d (by omega)
    obtain ⟨q, hq, hqe⟩ := goQuoted_of short (utf8 k)
    rw [Props.goText_utf8] at hq
    refine ⟨_, .one (a := []) (b := []) (c := []) (e := []) space_nil hq space_nil space_nil ht space_nil, ?_⟩
    rw [GoJson.textFields, he, hqe, ← utf8_append, ← utf8_append]
    simp
  | (k, v) :: w :: l, _ =>
    rw [GoJson.treeFields, JVal.depthFields] at hd
    obtain ⟨t, ht, he⟩ := GoJson.text_of short v d (by omega)
    obtain ⟨q, hq, hqe⟩ := goQuoted_of short (utf8 k)
    rw [Props.goText_utf8] at hq
    obtain ⟨r, hr, hre⟩ := GoJson.textFields_of short (w :: l) (by simp) d (by omega)
    rw [GoJson.treeFields]
    refine ⟨_, .more (a := []) (b := []) (c := []) (e := []) space_nil hq space_nil space_nil ht space_nil hr, ?_⟩
    rw [GoJson.textFields, he, hqe, hre, ← utf8_append, ← utf8_append, ← utf8_append, ← utf8_append]
    simp
end

mutual
theorem JVal.text_of (v : JVal) (d : Nat) (hd : v.depth ≤ d) : Value d v.text v := by
  cases v with
  | null => exact .null
  | bool b => cases b; exact .no; exact .yes
  | num n => exact .num (number_toDigits n)
  | str s => exact .str (rustString_of s)
  | arr l =>
    rw [JVal.depth] at hd
    obtain ⟨d, rfl⟩ : ∃ e, d = e + 1 := ⟨d - 1, by omega⟩
    rw [JVal.text]
    cases l with
    | nil => exact .noElements space_nil
    | cons v l => exact .arr (JVal.textList_of (v :: l) (by simp) d (by omega))
  | obj fs =>
    rw [JVal.depth] at hd
    obtain ⟨d, rfl⟩ : ∃ e, d = e + 1 := ⟨d - 1, by omega⟩
    rw [JVal.text]
    cases fs with
    | nil => exact .noMembers space_nil
    | cons v l => exact .obj (JVal.textFields_of (v :: l) (by simp) d (by omega))
theorem JVal.textList_of (l : List JVal) (hl : l ≠ []) (d : Nat) (hd : JVal.depthList l ≤ d) :
    Elements d (JVal.textList l) l := by
  match l, hl with
  | [v], _ =>
    rw [JVal.depthList] at hd
    have := Elements.one (a := []) (b := []) space_nil (JVal.text_of v d (by omega)) space_nil
    simpa [JVal.textList] using this
  | v :: w :: l, _ =>
    rw [JVal.depthList] at hd
    have := Elements.more (a := []) (b := []) space_nil (JVal.text_of v d (by omega)) space_nil
      (JVal.textList_of (w :: l) (by simp) d (by omega))
    simpa [JVal.textList] using this
theorem JVal.textFields_of (l : List (Str × JVal)) (hl : l ≠ []) (d : Nat) (hd : JVal.depthFields l ≤ d) :
    Members d (JVal.textFields l) l := by
  match l, hl with
  | [(k, v)], _ =>
    rw [JVal.depthFields] at hd
    have := Members.one (a := []) (b := []) (c := []) (e := []) space_nil (rustString_of k) space_nil space_nil
      (JVal.text_of v d (by omega)) space_nil
    simpa [JVal.textFields] using this
  | (k, v) :: w :: l, _ =>
    rw [JVal.depthFields] at hd
    have := Members.more (a := []) (b := []) (c := []) (e := []) space_nil (rustString_of k) space_nil space_nil
      (JVal.text_of v d (by omega)) space_nil (JVal.textFields_of (w :: l) (by simp) d (by omega))
    simpa [JVal.textFields] using this
end

/-! ## No text has a zero byte -/

theorem hexDigit_pos {c : Char} {n : Nat} (h : HexDigit c n) : c.toNat ≠ 0 := by
  have key : ∀ x ∈ "0123456789abcdef".toList ++ "0123456789ABCDEF".toList, x.toNat ≠ 0 := by decide
  rcases h with h | h
  · exact key c (List.mem_append_left _ (List.mem_of_getElem? h))
  · exact key c (List.mem_append_right _ (List.mem_of_getElem? h))

theorem hex4_pos {t : Str} {n : Nat} (h : Hex4 t n) : ∀ c ∈ t, c.toNat ≠ 0 := by
  obtain ⟨a, b, c, d, x, y, z, w, rfl, h1, h2, h3, h4, rfl⟩ := h
  intro e he
  simp only [List.mem_cons, List.not_mem_nil, or_false] at he
  rcases he with rfl | rfl | rfl | rfl
  · exact hexDigit_pos h1
  · exact hexDigit_pos h2
  · exact hexDigit_pos h3
  · exact hexDigit_pos h4

theorem char1_pos {t : Str} {x : Char} (h : Char1 t x) : ∀ c ∈ t, c.toNat ≠ 0 := by
  cases h with
  | plain h => intro c hc; simp only [List.mem_singleton] at hc; subst hc; omega
  | unicode h =>
    intro c hc
    simp only [List.mem_cons] at hc
    rcases hc with rfl | rfl | hc
    · decide
    · decide
    · exact hex4_pos h c hc
  | pair h h' =>
    intro c hc
    simp only [List.mem_cons, List.mem_append] at hc
    rcases hc with rfl | rfl | hc | rfl | rfl | hc
    · decide
    · decide
    · exact hex4_pos h c hc
    · decide
    · decide
    · exact hex4_pos h' c hc
  | _ => decide

theorem chars_pos {t x : Str} (h : Chars t x) : ∀ c ∈ t, c.toNat ≠ 0 := by
  induction h with
  | nil => simp
  | cons h1 _ ih =>
    intro c hc
    rcases List.mem_append.1 hc with hc | hc
    · exact char1_pos h1 c hc
    · exact ih c hc

theorem quoted_pos {t x : Str} (h : Quoted t x) : ∀ c ∈ t, c.toNat ≠ 0 := by
  obtain ⟨u, hu, rfl⟩ := h
  intro c hc
  simp only [List.mem_cons, List.mem_append, List.not_mem_nil, or_false] at hc
  rcases hc with rfl | hc | rfl
  · decide
  · exact chars_pos hu c hc
  · decide

theorem space_pos {t : Str} (h : Space t) : ∀ c ∈ t, c.toNat ≠ 0 := by
  intro c hc
  rcases h c hc with rfl | rfl | rfl | rfl <;> decide

theorem number_pos {t : Str} {n : Nat} (h : Number t n) : ∀ c ∈ t, c.toNat ≠ 0 := by
  intro c hc
  obtain ⟨d, hd, rfl⟩ := (jsonDigit_iff c).1 (number_digits h c hc)
  rw [Nat.toNat_digitChar_of_lt_ten hd]
  omega

mutual
theorem value_pos {d : Nat} {t : Str} {v : JVal} (h : Value d t v) : ∀ c ∈ t, c.toNat ≠ 0 := by
  cases h with
  | null => decide
  | yes => decide
  | no => decide
  | num h => exact number_pos h
  | str h => exact quoted_pos h
  | noElements h =>
    intro c hc
    simp only [List.mem_cons, List.mem_append, List.not_mem_nil, or_false] at hc
    rcases hc with rfl | hc | rfl
    · decide
    · exact space_pos h c hc
    · decide
  | arr h =>
    intro c hc
    simp only [List.mem_cons, List.mem_append, List.not_mem_nil, or_false] at hc
    rcases hc with rfl | hc | rfl
    · decide
    · exact elements_pos h c hc
    · decide
  | noMembers h =>
    intro c hc
    simp only [List.mem_cons, List.mem_append, List.not_mem_nil, or_false] at hc
    rcases hc with rfl | hc | rfl
    · decide
    · exact space_pos h c hc
    · decide
  | obj h =>
    intro c hc
    simp only [List.mem_cons, List.mem_append, List.not_mem_nil, or_false] at hc
    rcases hc with rfl | hc | rfl
    · decide
    · exact members_pos h c hc
    · decide
theorem elements_pos {d : Nat} {t : Str} {l : List JVal} (h : Elements d t l) : ∀ c ∈ t, c.toNat ≠ 0 := by
  cases h with
  | one ha hv hb =>
    intro c hc
    simp only [List.mem_append] at hc
    rcases hc with hc | hc | hc
    · exact space_pos ha c hc
    · exact value_pos hv c hc
    · exact space_pos hb c hc
  | more ha hv hb hr =>
    intro c hc
    simp only [List.mem_append, List.mem_cons] at hc
    rcases hc with hc | hc | hc | rfl | hc
    · exact space_pos ha c hc
    · exact value_pos hv c hc
    · exact space_pos hb c hc
    · decide
    · exact elements_pos hr c hc
theorem members_pos {d : Nat} {t : Str} {l : List (Str × JVal)} (h : Members d t l) : ∀ c ∈ t, c.toNat ≠ 0 := by
  cases h with
  | one ha hq hb hc' hv he =>
    intro c hc
    simp only [List.mem_append, List.mem_cons] at hc
    rcases hc with hc | hc | hc | rfl | hc | hc | hc
    · exact space_pos ha c hc
    · exact quoted_pos hq c hc
    · exact space_pos hb c hc
    · decide
    · exact space_pos hc' c hc
    · exact value_pos hv c hc
    · exact space_pos he c hc
  | more ha hq hb hc' hv he hr =>
    intro c hc
    simp only [List.mem_append, List.mem_cons] at hc
    rcases hc with hc | hc | hc | rfl | hc | hc | hc | rfl | hc
    · exact space_pos ha c hc
    · exact quoted_pos hq c hc
    · exact space_pos hb c hc
    · decide
    · exact space_pos hc' c hc
    · exact value_pos hv c hc
    · exact space_pos he c hc
    · decide
    · exact members_pos hr c hc
end

mutual
theorem value_depth {d : Nat} {t : Str} {v : JVal} (h : Value d t v) : v.depth ≤ d := by
  cases h with
  | null => simp [JVal.depth]
  | yes => simp [JVal.depth]
  | no => simp [JVal.depth]
  | num h => simp [JVal.depth]
  | str h => simp [JVal.depth]
  | noElements h => simp [JVal.depth, JVal.depthList]
  | arr h => have := elements_depth h; simp only [JVal.depth]; omega
  | noMembers h => simp [JVal.depth, JVal.depthFields]
  | obj h => have := members_depth h; simp only [JVal.depth]; omega
theorem elements_depth {d : Nat} {t : Str} {l : List JVal} (h : Elements d t l) : JVal.depthList l ≤ d := by
  cases h with
  | one _ hv _ => have := value_depth hv; simp only [JVal.depthList]; omega
  | more _ hv _ hr => have := value_depth hv; have := elements_depth hr; simp only [JVal.depthList]; omega
theorem members_depth {d : Nat} {t : Str} {l : List (Str × JVal)} (h : Members d t l) : JVal.depthFields l ≤ d := by
  cases h with
  | one _ _ _ _ hv _ => have := value_depth hv; simp only [JVal.depthFields]; omega
  | more _ _ _ _ hv _ hr => have := value_depth hv; have := members_depth hr; simp only [JVal.depthFields]; omega
end

theorem utf8_pos {t : Str} (h : ∀ c ∈ t, c.toNat ≠ 0) : ∀ b ∈ utf8 t, b ≠ 0 := by
  induction t with
  | nil => intro b hb; cases hb
  | cons c t ih =>
    intro b hb
    rw [utf8] at hb
    rcases List.mem_append.1 hb with hb | hb
    · have hc := h c List.mem_cons_self
      unfold utf8Char at hb
      simp only at hb
      split at hb
      · simp at hb; omega
      · split at hb
        · simp at hb; omega
        · split at hb
          · simp at hb; omega
          · simp at hb; omega
    · exact ih (fun x hx => h x (List.mem_cons_of_mem _ hx)) b hb

theorem cStr_cString {b : Bytes} (h : ∀ x ∈ b, x ≠ 0) (after : Bytes) : cStr (cString b after) = b := by
  unfold cStr cString
  induction b with
  | nil => rfl
  | cons a b ih =>
    rw [List.cons_append, List.takeWhile_cons_of_pos (by simpa using h a List.mem_cons_self),
      ih fun x hx => h x (List.mem_cons_of_mem _ hx)]

end Sds
