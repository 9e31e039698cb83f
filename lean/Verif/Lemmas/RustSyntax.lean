import Verif.Spec.RustSyntax

/-! # Lemmas: reading the parts of a printed pattern -/

namespace Sds.Re
open Sds Spec

/-! ## Text -/

theorem untilChar_append {d : Char} {a : Str} (h : d ∉ a) (b : Str) : untilChar d (a ++ d :: b) = some (a, b) := by
  induction a with
  | nil => simp [untilChar]
  | cons c a ih =>
    simp only [List.mem_cons, not_or] at h
    rw [List.cons_append, untilChar, if_neg (fun e => h.1 e.symm), ih h.2]

/-- A character at which `bump_space` stops. -/
def Stops (x : Bool) (c : Char) : Prop := x = true → isWs c = false ∧ c ≠ '#'

theorem skipSpace_stop {x : Bool} {c : Char} (h : Stops x c) (s : Str) : skipSpace x (c :: s) = c :: s := by
  unfold skipSpace
  cases x with
  | false => rfl
  | true =>
    obtain ⟨h1, h2⟩ := h rfl
    simp [skipIgnored, h1, h2]

theorem skipSpace_ws {c : Char} (h : isWs c = true) (s : Str) : skipSpace true (c :: s) = skipSpace true s := by
  simp [skipSpace, skipIgnored, h]

theorem skipSpace_false (s : Str) : skipSpace false s = s := rfl

theorem skipSpace_nil (x : Bool) : skipSpace x [] = [] := by cases x <;> rfl

theorem meta_stop {c : Char} (h : isMetaCharacter c = true) (hh : c ≠ '#') (x : Bool) : Stops x c := by
  intro _
  simp only [isMetaCharacter, List.contains_eq_mem, List.mem_cons, List.not_mem_nil, or_false, decide_eq_true_eq] at h
  refine ⟨?_, hh⟩
  rcases h with h | h | h | h | h | h | h | h | h | h | h | h | h | h | h | h | h | h <;> subst h <;> decide

/-! ## Numbers -/

theorem printNat_eq (n : Nat) : printNat n = Nat.toDigits 10 n := by
  unfold printNat
  show (Nat.repr n).toList = _
  simp [Nat.repr]

theorem printNat_digit {n : Nat} {c : Char} (h : c ∈ printNat n) : '0' ≤ c ∧ c ≤ '9' := by
  rw [printNat_eq] at h
  have := Nat.isDigit_of_mem_toDigits (by decide) (by decide) h
  simp only [Char.isDigit, Bool.and_eq_true, decide_eq_true_eq] at this
  exact this

theorem parseU32_printNat {n : Nat} (h : n < 2 ^ 32) : parseU32 (printNat n) = some n := by
  unfold parseU32
  have h1 : (printNat n).foldl (fun n c => n * 10 + (c.toNat - 48)) 0 = n := by
    have := Nat.ofDigitChars_ten_toDigits (n := n)
    rw [Nat.ofDigitChars_eq_foldl] at this
    rw [printNat_eq]
    simpa only [Nat.mul_comm 10, Char.reduceToNat] using this
  have h2 : printNat n ≠ [] := by rw [printNat_eq]; exact Nat.toDigits_ne_nil
  simp only [h1]
  rw [if_pos ⟨h2, h⟩]

theorem spanDigits_append {a : Str} (h : ∀ c ∈ a, '0' ≤ c ∧ c ≤ '9') {d : Char} (hd : ¬ ('0' ≤ d ∧ d ≤ '9')) (s : Str) :
    spanDigits (a ++ d :: s) = (a, d :: s) := by
  induction a with
  | nil => simp only [List.nil_append, spanDigits, if_neg hd]
  | cons c a ih =>
    rw [List.cons_append, spanDigits, if_pos (h c (by simp)), ih fun c hc => h c (by simp [hc])]

theorem readDecimal_print {n : Nat} (h : n < 2 ^ 32) {d : Char} (hd : ¬ ('0' ≤ d ∧ d ≤ '9')) (s : Str) :
    readDecimal (printNat n ++ d :: s) = some (n, d :: s) := by
  unfold readDecimal
  rw [spanDigits_append (fun c hc => printNat_digit hc) hd, parseU32_printNat h]

/-- A digit in upper case. -/
def hexUpper (c : Char) : Char := if 'a' ≤ c ∧ c ≤ 'f' then Char.ofNat (c.toNat - 32) else c

theorem hexValue_digit {d : Nat} (h : d < 16) : hexValue (hexUpper d.digitChar) = some d := by
  revert d
  decide

theorem hexUpper_ne {d : Nat} (h : d < 16) : hexUpper d.digitChar ≠ '}' := by
  revert d
  decide

theorem printHex_eq (n : Nat) : printHex n = (Nat.toDigits 16 n).map hexUpper := rfl

theorem hexNumber_append (a b : Str) (m : Nat) :
    hexNumber (a ++ b) m = (hexNumber a m).bind fun k => hexNumber b k := by
  induction a generalizing m with
  | nil => rfl
  | cons c a ih =>
    rw [List.cons_append, hexNumber, hexNumber]
    cases hexValue c with
    | none => rfl
    | some d => exact ih _

theorem printHex_lt {n : Nat} (h : n < 16) : printHex n = [hexUpper n.digitChar] := by
  rw [printHex_eq, Nat.toDigits_of_lt_base h]; rfl

theorem printHex_ge {n : Nat} (h : 16 ≤ n) : printHex n = printHex (n / 16) ++ [hexUpper (n % 16).digitChar] := by
  rw [printHex_eq, printHex_eq, Nat.toDigits_of_base_le (by decide) h, List.map_append, List.map_singleton]

theorem hexNumber_printHex (n : Nat) : hexNumber (printHex n) 0 = some n := by
  induction n using Nat.strongRecOn with
  | _ n ih =>
    rcases Nat.lt_or_ge n 16 with h | h
    · rw [printHex_lt h]
      simp only [hexNumber, hexValue_digit h]
      simp
    · rw [printHex_ge h, hexNumber_append, ih (n / 16) (by omega)]
      simp only [Option.bind_some, hexNumber, hexValue_digit (Nat.mod_lt n (by decide : 0 < 16))]
      congr 1
      omega

theorem printHex_brace (n : Nat) : '}' ∉ printHex n := by
  induction n using Nat.strongRecOn with
  | _ n ih =>
    rcases Nat.lt_or_ge n 16 with h | h
    · rw [printHex_lt h]
      simpa using (hexUpper_ne h).symm
    · rw [printHex_ge h]
      simp only [List.mem_append, List.mem_singleton, not_or]
      exact ⟨ih (n / 16) (by omega), (hexUpper_ne (Nat.mod_lt n (by decide))).symm⟩

theorem printHex_ne_nil (n : Nat) : printHex n ≠ [] := by
  rw [printHex_eq]
  simp [Nat.toDigits_ne_nil]

theorem charFromU32_toNat (c : Char) : charFromU32 c.toNat = some c := by
  have hv := c.valid
  unfold charFromU32
  have h1 : c.toNat < 0xD800 ∨ (0xDFFF < c.toNat ∧ c.toNat < 0x110000) := hv
  rw [if_pos h1, Char.ofNat_toNat]

/-! ## Literals and other escapes -/

/-- A literal that the printed form identifies. -/
def LitOk (l : RLiteral) : Prop :=
  match l.kind with
  | .verbatim => isMetaCharacter l.c = false
  | .metaChar => isMetaCharacter l.c = true
  | .hexBrace => True

theorem readEscape_hex (c : Char) (rest : Str) :
    readEscape ('x' :: '{' :: printHex c.toNat ++ '}' :: rest) = some (.literal { kind := .hexBrace, c := c }, rest) := by
  simp only [readEscape, List.cons_append]
  rw [if_neg (by decide), if_pos trivial]
  simp only [readHexBrace, untilChar_append (printHex_brace _), if_neg (printHex_ne_nil _), hexNumber_printHex,
    charFromU32_toNat]

theorem readEscape_meta {c : Char} (h : isMetaCharacter c = true) (rest : Str) :
    readEscape (c :: rest) = some (.literal { kind := .metaChar, c := c }, rest) := by
  simp [readEscape, h]

/-- A name of a Unicode property that the printed form identifies. -/
def NameOk (name : Str) : Prop := name ≠ [] ∧ ∀ c ∈ name, c ∈ asciiLettersUnderscore

theorem readEscape_unicode {name : Str} (h : NameOk name) (negated : Bool) (rest : Str) :
    readEscape ((if negated then 'P' else 'p') :: '{' :: name ++ '}' :: rest) = some (.unicode negated name, rest) := by
  have hb : '}' ∉ name := fun hm => by
    have := h.2 _ hm
    revert this
    decide
  have ha : name.all (fun c => decide (c ∈ asciiLettersUnderscore)) = true := by
    simpa using h.2
  cases negated with
  | true =>
    simp only [if_true, readEscape, List.cons_append]
    rw [if_neg (by decide), if_neg (by decide), if_pos (Or.inr trivial)]
    simp only [readUnicode, untilChar_append hb]
    rw [if_pos ⟨h.1, ha⟩]
    rfl
  | false =>
    simp only [Bool.false_eq_true, if_false, readEscape, List.cons_append]
    rw [if_neg (by decide), if_neg (by decide), if_pos (Or.inl trivial)]
    simp only [readUnicode, untilChar_append hb]
    rw [if_pos ⟨h.1, ha⟩]
    rfl

/-! ## Classes -/

/-- A literal of a class: whitespace is escaped. -/
def ClassLitOk (l : RLiteral) : Prop := LitOk l ∧ (l.kind = .verbatim → isWs l.c = false)

theorem readClassPrim_literal {l : RLiteral} (h : LitOk l) (rest : Str) :
    readClassPrim (l.print ++ rest) = some (.literal l, rest) := by
  obtain ⟨k, c⟩ := l
  cases k with
  | verbatim =>
    have hc : c ≠ '\\' := fun e => by subst e; simp [LitOk, isMetaCharacter] at h
    simp [RLiteral.print, readClassPrim, hc]
  | metaChar =>
    have hc : isMetaCharacter c = true := h
    simp [RLiteral.print, readClassPrim, readEscape_meta hc]
  | hexBrace =>
    have := readEscape_hex c rest
    simp only [RLiteral.print, readClassPrim, List.append_assoc, List.cons_append, List.nil_append, if_true]
    simpa using this

/-- How the text of a literal begins. -/
theorem literal_head {l : RLiteral} (h : LitOk l) :
    ∃ c t, l.print = c :: t ∧ (c = '\\' ∨ (l.kind = .verbatim ∧ c = l.c ∧ t = [] ∧ isMetaCharacter c = false)) := by
  obtain ⟨k, c⟩ := l
  cases k with
  | verbatim => exact ⟨c, [], rfl, .inr ⟨rfl, rfl, rfl, h⟩⟩
  | metaChar => exact ⟨'\\', [c], rfl, .inl rfl⟩
  | hexBrace => exact ⟨'\\', _, rfl, .inl rfl⟩

theorem backslash_stop (x : Bool) : Stops x '\\' := meta_stop (by decide) (by decide) x

theorem classLiteral_head {l : RLiteral} (h : ClassLitOk l) (x : Bool) :
    ∃ c t, l.print = c :: t ∧ Stops x c ∧ c ≠ '-' ∧ c ≠ ']' ∧ c ≠ '[' ∧ c ≠ '^' ∧ c ≠ '&' ∧ c ≠ '~' := by
  obtain ⟨c, t, hp, hc⟩ := literal_head h.1
  refine ⟨c, t, hp, ?_⟩
  rcases hc with rfl | ⟨hk, rfl, _, hm⟩
  · exact ⟨backslash_stop x, by decide⟩
  · have hne : ∀ d, isMetaCharacter d = true → l.c ≠ d := fun d hd e => by rw [e, hd] at hm; cases hm
    exact ⟨fun _ => ⟨h.2 hk, hne _ (by decide)⟩, hne _ (by decide), hne _ (by decide), hne _ (by decide),
      hne _ (by decide), hne _ (by decide), hne _ (by decide)⟩

/-- Items of a class that the printed form identifies. -/
inductive ItemOk : RClassItem → Prop where
  | literal {l : RLiteral} (h : ClassLitOk l) : ItemOk (.literal l)
  | range {a b : RLiteral} (ha : ClassLitOk a) (hb : ClassLitOk b) (hab : a.c ≤ b.c) : ItemOk (.range a b)
  | ascii {negated : Bool} {kind : RAsciiKind} : ItemOk (.ascii negated kind)
  | unicode {negated : Bool} {name : Str} (h : NameOk name) : ItemOk (.unicode negated name)
  | bracketed {negated : Bool} {it : RClassItem} {l : List RClassItem} (hl : l ≠ []) (h : ∀ i ∈ l, ItemOk i)
      (hp : it.print = printItems l) (hi : intoItem l = it) (ha : ∀ c, it.print.head? = some c → c ≠ ':') :
      ItemOk (.bracketed negated it)

theorem item_head {it : RClassItem} (h : ItemOk it) (x : Bool) :
    ∃ c t, it.print = c :: t ∧ Stops x c ∧ c ≠ '-' ∧ c ≠ ']' ∧ c ≠ '^' := by
  cases h with
  | literal h =>
    obtain ⟨c, t, hp, h1, h2, h3, _, h4, _⟩ := classLiteral_head h x
    exact ⟨c, t, by rw [RClassItem.print, hp], h1, h2, h3, h4⟩
  | range ha hb hab =>
    obtain ⟨c, t, hp, h1, h2, h3, _, h4, _⟩ := classLiteral_head ha x
    exact ⟨c, _, by rw [RClassItem.print, hp]; rfl, h1, h2, h3, h4⟩
  | ascii => exact ⟨'[', _, by rw [RClassItem.print]; rfl, meta_stop (by decide) (by decide) x, by decide⟩
  | unicode h => exact ⟨'\\', _, by rw [RClassItem.print, printUnicode]; rfl, backslash_stop x, by decide⟩
  | @bracketed negated it =>
    refine ⟨'[', (if negated then ['^'] else []) ++ it.print ++ [']'], ?_, meta_stop (by decide) (by decide) x, by decide⟩
    rw [RClassItem.print]
    cases negated <;> rfl

/-- How the text after an item of a class begins. -/
theorem items_head {l : List RClassItem} (h : ∀ i ∈ l, ItemOk i) (x : Bool) (rest : Str) :
    ∃ c t, printItems l ++ ']' :: rest = c :: t ∧ Stops x c ∧ c ≠ '-' ∧ (l ≠ [] → c ≠ ']' ∧ c ≠ '^') := by
  cases l with
  | nil => exact ⟨']', rest, rfl, meta_stop (by decide) (by decide) x, by decide, by simp⟩
  | cons it l =>
    obtain ⟨c, t, hp, h1, h2, h3⟩ := item_head (h it (by simp)) x
    exact ⟨c, t ++ (printItems l ++ ']' :: rest), by rw [printItems, hp]; simp, h1, h2, fun _ => h3⟩

theorem readCaret_none {c : Char} (h : c ≠ '^') (s : Str) : readCaret (c :: s) = (false, c :: s) := by
  unfold readCaret
  split
  · rename_i h'; cases h'; exact absurd rfl h
  · rfl

/-- The opening of a class whose first item begins with `c`. -/
theorem classOpen_head {x : Bool} {s t : Str} {c : Char} (hp : s = c :: t) (h1 : Stops x c) (h2 : c ≠ '-') (h3 : c ≠ ']')
    (h4 : c ≠ '^') (negated : Bool) : readClassOpen x ((if negated then ['^'] else []) ++ s) = (negated, [], s) := by
  rw [hp]
  have hd : readDashes x (c :: t).length (c :: t) = ([], c :: t) := by
    rw [List.length_cons]
    unfold readDashes
    split
    · rename_i h; cases h; exact absurd rfl h2
    · rfl
  have hc : readCaret (skipSpace x ((if negated then ['^'] else []) ++ c :: t)) = (negated, c :: t) := by
    cases negated with
    | true =>
      have : skipSpace x ('^' :: c :: t) = '^' :: c :: t := skipSpace_stop (meta_stop (by decide) (by decide) x) _
      simp only [if_true, List.cons_append, List.nil_append, this, readCaret]
    | false =>
      simp only [Bool.false_eq_true, if_false, List.nil_append, skipSpace_stop h1, readCaret_none h4]
  unfold readClassOpen
  simp only [hc, skipSpace_stop h1, hd]
  split
  · rename_i h; cases h; exact absurd rfl h3
  · rename_i h; cases h; rfl

theorem readClassOpen_ok {l : List RClassItem} (hl : l ≠ []) (h : ∀ i ∈ l, ItemOk i) (x negated : Bool) (rest : Str) :
    readClassOpen x ((if negated then ['^'] else []) ++ (printItems l ++ ']' :: rest)) =
      (negated, [], printItems l ++ ']' :: rest) := by
  obtain ⟨c, t, hp, h1, h2, h3⟩ := items_head h x rest
  exact classOpen_head hp h1 h2 (h3 hl).1 (h3 hl).2 negated

theorem readClassRange_literal {l : RLiteral} (h : ClassLitOk l) {x : Bool} {c : Char} {t : Str} (hc : Stops x c)
    (hd : c ≠ '-') : readClassRange x (l.print ++ c :: t) = some (.literal l, c :: t) := by
  unfold readClassRange
  rw [readClassPrim_literal h.1]
  simp only [skipSpace_stop hc, RPrim.toItem]
  split
  · rename_i h; cases h; exact absurd rfl hd
  · rfl

theorem readClassRange_unicode {name : Str} (h : NameOk name) {negated x : Bool} {c : Char} {t : Str} (hc : Stops x c)
    (hd : c ≠ '-') : readClassRange x (printUnicode negated name ++ c :: t) = some (.unicode negated name, c :: t) := by
  have hr : readClassPrim (printUnicode negated name ++ c :: t) = some (.unicode negated name, c :: t) := by
    have := readEscape_unicode h negated (c :: t)
    simp only [printUnicode, List.append_assoc, List.cons_append, List.nil_append, readClassPrim, if_true]
    simpa using this
  unfold readClassRange
  rw [hr]
  simp only [skipSpace_stop hc, RPrim.toItem]
  split
  · rename_i h; cases h; exact absurd rfl hd
  · rfl

theorem readClassRange_range {a b : RLiteral} (ha : ClassLitOk a) (hb : ClassLitOk b) (hab : a.c ≤ b.c) (x : Bool)
    (rest : Str) : readClassRange x (a.print ++ '-' :: (b.print ++ rest)) = some (.range a b, rest) := by
  unfold readClassRange
  rw [readClassPrim_literal ha.1]
  simp only [skipSpace_stop (meta_stop (c := '-') (by decide) (by decide) x)]
  obtain ⟨c, t, hp, h1, h2, h3, _⟩ := classLiteral_head hb x
  have hs : skipSpace x (b.print ++ rest) = b.print ++ rest := by rw [hp]; exact skipSpace_stop h1 _
  rw [hs]
  split
  · rename_i h; rw [hp] at h; cases h; exact absurd rfl h3
  · rename_i h; rw [hp] at h; cases h; exact absurd rfl h2
  · rw [readClassPrim_literal hb.1]
    simp only [if_pos hab]

theorem ascii_find (kind : RAsciiKind) : asciiKinds.find? (fun k => k.name = kind.name) = some kind := by
  cases kind <;> decide

theorem ascii_name (kind : RAsciiKind) : ':' ∉ kind.name ∧ kind.name.head? ≠ some '^' ∧ kind.name ≠ [] := by
  cases kind <;> decide

theorem readAsciiClass_ok (negated : Bool) (kind : RAsciiKind) (rest : Str) :
    readAsciiClass (':' :: ((if negated then ['^'] else []) ++ (kind.name ++ ':' :: ']' :: rest))) =
      some (.ascii negated kind, rest) := by
  obtain ⟨h1, h2, h3⟩ := ascii_name kind
  have hc : readCaret ((if negated then ['^'] else []) ++ (kind.name ++ ':' :: ']' :: rest)) =
      (negated, kind.name ++ ':' :: ']' :: rest) := by
    cases negated with
    | true => rfl
    | false =>
      cases hn : kind.name with
      | nil => exact absurd hn h3
      | cons c cs =>
        rw [hn] at h2
        exact readCaret_none (fun e => h2 (by rw [e]; rfl)) _
  simp only [readAsciiClass, hc, untilChar_append h1, ascii_find]

theorem readAsciiClass_none {s : Str} (h : s.head? ≠ some ':') : readAsciiClass s = none := by
  cases s with
  | nil => rfl
  | cons c s =>
    have : c ≠ ':' := fun e => h (by rw [e]; rfl)
    unfold readAsciiClass
    split
    · rename_i h; cases h; exact absurd rfl this
    · rfl

/-- Reading one item of a printed class; `hinner` is about the items inside of it. -/
theorem readItems_step {x : Bool} {it : RClassItem} (hit : ItemOk it)
    (hinner : ∀ l, (printItems l).length < it.print.length → (∀ i ∈ l, ItemOk i) →
      ∀ n acc rest, (printItems l).length < n → readItems x n acc (printItems l ++ ']' :: rest) = some (acc ++ l, rest))
    {c : Char} (hs' : Stops x c) (hd' : c ≠ '-') (t : Str) {n : Nat} (hn : it.print.length ≤ n + 1) (acc : List RClassItem) :
    readItems x (n + 1) acc (it.print ++ c :: t) = readItems x n (acc ++ [it]) (c :: t) := by
  have hskip : skipSpace x (it.print ++ c :: t) = it.print ++ c :: t := by
    obtain ⟨d, u, hp, hs, _⟩ := item_head hit x
    rw [hp]; exact skipSpace_stop hs _
  rw [readItems, hskip]
  cases hit with
  | @literal lit hlit =>
    obtain ⟨d, t2, hp2, _, h2, h3, h4, _, h5, h6⟩ := classLiteral_head hlit x
    have e : (RClassItem.literal lit).print ++ c :: t = d :: (t2 ++ c :: t) := by
      rw [RClassItem.print, hp2]; rfl
    have hrange := readClassRange_literal hlit (x := x) (t := t) hs' hd'
    rw [hp2, List.cons_append] at hrange
    rw [e]
    simp only [if_neg h3, if_neg h4]
    rw [if_neg (by rintro ⟨h | h | h, _⟩ <;> contradiction), hrange]
  | range ha hb' hab =>
    obtain ⟨d, t2, hp2, _, h2, h3, h4, _, h5, h6⟩ := classLiteral_head ha x
    have hrange := readClassRange_range ha hb' hab x (c :: t)
    rw [RClassItem.print, List.append_assoc, List.cons_append]
    rw [hp2, List.cons_append] at hrange ⊢
    simp only [if_neg h3, if_neg h4]
    rw [if_neg (by rintro ⟨h | h | h, _⟩ <;> contradiction), hrange]
  | @ascii negated kind =>
    have hread := readAsciiClass_ok negated kind (c :: t)
    have e : (RClassItem.ascii negated kind).print ++ c :: t =
        '[' :: ':' :: ((if negated then ['^'] else []) ++ (kind.name ++ ':' :: ']' :: (c :: t))) := by
      rw [RClassItem.print]; simp
    rw [e]
    simp only [hread]
    rw [if_neg (by decide), if_pos trivial]
  | @unicode negated name hname =>
    have hrange := readClassRange_unicode hname (negated := negated) (x := x) (t := t) hs' hd'
    rw [RClassItem.print]
    have e : printUnicode negated name ++ c :: t =
        '\\' :: ((if negated then 'P' else 'p') :: '{' :: (name ++ '}' :: (c :: t))) := by
      simp [printUnicode]
    rw [e] at hrange ⊢
    simp only [hrange]
    rw [if_neg (by decide), if_neg (by decide), if_neg (fun h => absurd h.1 (by decide))]
  | @bracketed negated it l' hl' h' hpi hii ha =>
    have e : ∀ rest, (RClassItem.bracketed negated it).print ++ rest =
        '[' :: ((if negated then ['^'] else []) ++ (printItems l' ++ ']' :: rest)) := by
      intro rest
      rw [RClassItem.print, hpi]; cases negated <;> simp
    have hopen := readClassOpen_ok hl' h' x negated (c :: t)
    have hlen' : (printItems l').length + 2 ≤ (RClassItem.bracketed negated it).print.length := by
      have := congrArg List.length (e [])
      simp only [List.length_append, List.length_cons, List.length_nil] at this
      omega
    have hin := hinner l' (by omega) h' n [] (c :: t) (by omega)
    rw [List.nil_append] at hin
    have hnone : readAsciiClass ((if negated then ['^'] else []) ++ (printItems l' ++ ']' :: (c :: t))) = none := by
      apply readAsciiClass_none
      cases negated with
      | true => simp
      | false =>
        cases l' with
        | nil => exact absurd rfl hl'
        | cons i l'' =>
          obtain ⟨c2, t2, hp2, _⟩ := item_head (h' i (by simp)) x
          have hh : (printItems (i :: l'')).head? = some c2 := by rw [printItems, hp2]; rfl
          intro hcolon
          refine ha c2 (by rw [hpi]; exact hh) ?_
          rw [printItems, hp2] at hcolon
          simpa using hcolon
    rw [e]
    simp only [hnone, hopen, hin, hii]
    rw [if_neg (by decide), if_pos trivial]

/-- Reading the items of a printed class gives the items. -/
theorem readItems_ok (x : Bool) (m : Nat) : ∀ (l : List RClassItem), (printItems l).length ≤ m → (∀ i ∈ l, ItemOk i) →
    ∀ n acc rest, m < n → readItems x n acc (printItems l ++ ']' :: rest) = some (acc ++ l, rest) := by
  induction m using Nat.strongRecOn with
  | _ m ih =>
    intro l hm h n acc rest hn
    cases n with
    | zero => omega
    | succ n =>
      cases l with
      | nil =>
        have : skipSpace x (']' :: rest) = ']' :: rest := skipSpace_stop (meta_stop (by decide) (by decide) x) _
        simp [printItems, readItems, this]
      | cons it l =>
        have hit := h it (by simp)
        have hl : ∀ i ∈ l, ItemOk i := fun i hi => h i (by simp [hi])
        obtain ⟨c', t', hr, hs', hd', _⟩ := items_head hl x rest
        obtain ⟨c, t, hp, hs, hd, hb, _⟩ := item_head hit x
        have hpos : 0 < it.print.length := by rw [hp]; simp
        rw [printItems, List.length_append] at hm
        have hnext := ih _ (show (printItems l).length < m by omega) l (Nat.le_refl _) hl n (acc ++ [it]) rest (by omega)
        rw [List.append_assoc, List.singleton_append] at hnext
        rw [printItems, List.append_assoc, hr, readItems_step hit ?_ hs' hd' t' (by omega), ← hr]
        · exact hnext
        · intro l' hl' h' n acc rest hn
          exact ih _ (by omega) l' (Nat.le_refl _) h' n acc rest hn

/-- Reading a printed class. -/
theorem readClass_ok {l : List RClassItem} (hl : l ≠ []) (h : ∀ i ∈ l, ItemOk i) (x negated : Bool) (rest : Str) :
    readClass x ((if negated then ['^'] else []) ++ (printItems l ++ ']' :: rest)) =
      some ({ negated := negated, item := intoItem l }, rest) := by
  unfold readClass
  rw [readClassOpen_ok hl h]
  simp only
  rw [readItems_ok x _ l (Nat.le_refl _) h _ [] rest (by simp [List.length_append]; omega)]
  rfl

end Sds.Re
