import Verif.Model.Parser
import Verif.Spec.Parser
import Verif.Lemmas.Str

/-! # The parser terminates, does not panic, and keeps the depth -/

namespace Sds.Re
open Sds

/-- A class of inputs with the failures that are allowed on them. -/
structure Ctx where
  dom : Input → Prop
  bad : Input → PErr → Prop
  dom_mono : ∀ {i j : Input}, j.depth = i.depth → j.value <:+ i.value → dom i → dom j
  bad_mono : ∀ {i j : Input} {e : PErr}, j.depth = i.depth → j.value <:+ i.value → bad j e → bad i e
  bad_syntax : ∀ i, bad i .invalidSyntax

/-- An allowed outcome: the rest is a part of the input at the same depth, an error is a syntax error, and there is
no panic and no endless loop. -/
def Fine {α : Type} (C : Ctx) (i : Input) : PR α → Prop
  | .ok j _ => j.depth = i.depth ∧ j.value <:+ i.value
  | .err e => e = .invalidSyntax
  | .fail e => C.bad i e
  | .panic => False
  | .hang => False

/-- All outcomes of the parser are allowed. -/
def Safe {α : Type} (C : Ctx) (p : Parser α) : Prop := ∀ i, C.dom i → Fine C i (p i)

section
variable {α β : Type} {C : Ctx}

theorem Fine.mono {C : Ctx} {i j : Input} {r : PR α} (hd : j.depth = i.depth) (hv : j.value <:+ i.value)
    (h : Fine C j r) : Fine C i r := by
  cases r with
  | ok k a => exact ⟨h.1.trans hd, h.2.trans hv⟩
  | err e => exact h
  | fail e => exact C.bad_mono hd hv h
  | panic => exact h
  | hang => exact h

theorem Safe.pure (a : α) : Safe C (Pure.pure a : Parser α) := fun _ _ => ⟨rfl, List.suffix_refl _⟩

theorem Safe.bindp {p : Parser α} {f : α → Parser β} (hp : Safe C p) (hf : ∀ a, Safe C (f a)) :
    Safe C (Parser.bind p f) := by
  intro i hi
  have h := hp i hi
  unfold Parser.bind
  cases hr : p i with
  | ok j a =>
    rw [hr] at h
    exact (hf a j (C.dom_mono h.1 h.2 hi)).mono h.1 h.2
  | err e => rw [hr] at h; exact h
  | fail e => rw [hr] at h; exact h
  | panic => rw [hr] at h; exact h
  | hang => rw [hr] at h; exact h

theorem Safe.bind {p : Parser α} {f : α → Parser β} (hp : Safe C p) (hf : ∀ a, Safe C (f a)) : Safe C (p >>= f) :=
  Safe.bindp hp hf

theorem Safe.orElse {p q : Parser α} (hp : Safe C p) (hq : Safe C q) : Safe C (Parser.orElse p q) := by
  intro i hi
  have h := hp i hi
  unfold Parser.orElse
  cases hr : p i with
  | ok j a => rw [hr] at h; exact h
  | err e => exact hq i hi
  | fail e => rw [hr] at h; exact h
  | panic => rw [hr] at h; exact h
  | hang => rw [hr] at h; exact h

theorem Safe.alt {p : Parser α} {l : List (Parser α)} (hp : Safe C p) (hl : ∀ q ∈ l, Safe C q) : Safe C (alt p l) := by
  induction l generalizing p with
  | nil => exact hp
  | cons q l ih =>
    exact Safe.orElse hp (ih (hl q List.mem_cons_self) (fun r hr => hl r (List.mem_cons_of_mem _ hr)))

theorem Safe.error : Safe C (error .invalidSyntax : Parser α) := fun _ _ => rfl

theorem Safe.failure : Safe C (failure .invalidSyntax : Parser α) := fun i _ => C.bad_syntax i

theorem stripPrefix_eq {t s r : Str} (h : stripPrefix t s = some r) : s = t ++ r := by
  induction t generalizing s with
  | nil => simp [stripPrefix] at h; simpa using h
  | cons c t ih =>
    cases s with
    | nil => simp [stripPrefix] at h
    | cons d s =>
      simp only [stripPrefix] at h
      split at h
      · next e => rw [e, ih h]; rfl
      · cases h

theorem stripPrefix_append (t r : Str) : stripPrefix t (t ++ r) = some r := by
  induction t with
  | nil => rfl
  | cons c t ih => simpa [stripPrefix] using ih

theorem Safe.tag (t : Str) : Safe C (tag t) := by
  intro i _
  unfold Re.tag
  split
  · next r hr => exact ⟨rfl, by rw [stripPrefix_eq hr]; exact List.suffix_append _ _⟩
  · rfl

theorem Safe.tagged (t : Str) (a : α) : Safe C (tagged t a) := Safe.bind (Safe.tag t) (fun _ => Safe.pure a)

theorem splitBefore_eq {t s a b : Str} (h : splitBefore t s = some (a, b)) : s = a ++ b := by
  induction s generalizing a b with
  | nil =>
    simp only [splitBefore] at h
    split at h
    · simp only [Option.some.injEq, Prod.mk.injEq] at h
      rw [← h.1, ← h.2]; rfl
    · cases h
  | cons c s ih =>
    simp only [splitBefore] at h
    split at h
    · simp only [Option.some.injEq, Prod.mk.injEq] at h
      rw [← h.1, ← h.2]; rfl
    · split at h
      · next x y hxy =>
        simp only [Option.some.injEq, Prod.mk.injEq] at h
        rw [← h.1, ← h.2, ih hxy]; rfl
      · cases h

theorem Safe.takeUntil (t : Str) : Safe C (takeUntil t) := by
  intro i _
  unfold Re.takeUntil
  split
  · next a b h => exact ⟨rfl, by rw [splitBefore_eq h]; exact List.suffix_append _ _⟩
  · rfl

theorem Safe.satisfy (f : Char → Bool) : Safe C (satisfy f) := by
  intro i _
  unfold Re.satisfy
  split
  · next c cs h =>
    split
    · exact ⟨rfl, by rw [h]; exact List.suffix_cons _ _⟩
    · rfl
  · rfl

theorem Safe.eof : Safe C eof := by
  intro i _
  unfold Re.eof
  split
  · exact ⟨rfl, List.suffix_refl _⟩
  · rfl

theorem Safe.opt {p : Parser α} (hp : Safe C p) : Safe C (opt p) := by
  intro i hi
  have h := hp i hi
  unfold Re.opt
  cases hr : p i with
  | ok j a => rw [hr] at h; exact h
  | err e => exact ⟨rfl, List.suffix_refl _⟩
  | fail e => rw [hr] at h; exact h
  | panic => rw [hr] at h; exact h
  | hang => rw [hr] at h; exact h

theorem blen_suffix {a b : Str} (h : a <:+ b) : blen a ≤ blen b := by
  obtain ⟨t, rfl⟩ := h
  rw [blen_append]
  omega

theorem Safe.manyLoop {p : Parser α} (hp : Safe C p) {n : Nat} {i : Input} (hi : C.dom i) (hn : blen i.value < n) :
    Fine C i (manyLoop p n i) := by
  induction n generalizing i with
  | zero => omega
  | succ n ih =>
    have h := hp i hi
    unfold Re.manyLoop
    cases hr : p i with
    | ok j a =>
      rw [hr] at h
      have hl := blen_suffix h.2
      dsimp only
      split
      · rfl
      · next hne =>
        have := ih (C.dom_mono h.1 h.2 hi) (by omega)
        refine Fine.mono h.1 h.2 ?_
        unfold Parser.bind
        cases hl : Re.manyLoop p n j with
        | ok k l => rw [hl] at this; exact this
        | err e => rw [hl] at this; exact this
        | fail e => rw [hl] at this; exact this
        | panic => rw [hl] at this; exact this
        | hang => rw [hl] at this; exact this
    | err e => exact ⟨rfl, List.suffix_refl _⟩
    | fail e => rw [hr] at h; exact h
    | panic => rw [hr] at h; exact h
    | hang => rw [hr] at h; exact h

theorem Safe.many0 {p : Parser α} (hp : Safe C p) : Safe C (many0 p) :=
  fun _ hi => Safe.manyLoop hp hi (Nat.lt_succ_self _)

theorem Safe.many1 {p : Parser α} (hp : Safe C p) : Safe C (many1 p) :=
  Safe.bind hp (fun _ => Safe.bind (Safe.many0 hp) (fun _ => Safe.pure _))

theorem Safe.manyUpTo {p : Parser α} (hp : Safe C p) (n : Nat) : Safe C (manyUpTo p n) := by
  induction n with
  | zero => exact Safe.pure _
  | succ n ih =>
    intro i hi
    have h := hp i hi
    unfold Re.manyUpTo
    cases hr : p i with
    | ok j a =>
      rw [hr] at h
      dsimp only
      split
      · rfl
      · exact Fine.mono h.1 h.2 (Safe.bindp ih (fun _ => Safe.pure _) j (C.dom_mono h.1 h.2 hi))
    | err e => exact ⟨rfl, List.suffix_refl _⟩
    | fail e => rw [hr] at h; exact h
    | panic => rw [hr] at h; exact h
    | hang => rw [hr] at h; exact h

theorem Safe.sepLoop {sep : Parser Unit} {p : Parser α} (hs : Safe C sep) (hp : Safe C p) {n : Nat} {i : Input}
    (hi : C.dom i) (hn : blen i.value < n) : Fine C i (sepLoop sep p n i) := by
  induction n generalizing i with
  | zero => omega
  | succ n ih =>
    have h := hs i hi
    unfold Re.sepLoop
    cases hr : sep i with
    | ok j u =>
      rw [hr] at h
      have hl := blen_suffix h.2
      dsimp only
      split
      · rfl
      · next hne =>
        have h' := hp j (C.dom_mono h.1 h.2 hi)
        cases hq : p j with
        | ok k a =>
          rw [hq] at h'
          have hl' := blen_suffix h'.2
          have := ih (C.dom_mono h'.1 h'.2 (C.dom_mono h.1 h.2 hi)) (by omega)
          refine Fine.mono h.1 h.2 (Fine.mono h'.1 h'.2 ?_)
          dsimp only
          unfold Parser.bind
          cases hl : Re.sepLoop sep p n k with
          | ok k l => rw [hl] at this; exact this
          | err e => rw [hl] at this; exact this
          | fail e => rw [hl] at this; exact this
          | panic => rw [hl] at this; exact this
          | hang => rw [hl] at this; exact this
        | err e => exact ⟨rfl, List.suffix_refl _⟩
        | fail e => rw [hq] at h'; exact Fine.mono (r := PR.fail e) h.1 h.2 h'
        | panic => rw [hq] at h'; exact h'
        | hang => rw [hq] at h'; exact h'
    | err e => exact ⟨rfl, List.suffix_refl _⟩
    | fail e => rw [hr] at h; exact h
    | panic => rw [hr] at h; exact h
    | hang => rw [hr] at h; exact h

theorem Safe.separatedList1 {sep : Parser Unit} {p : Parser α} (hs : Safe C sep) (hp : Safe C p) :
    Safe C (separatedList1 sep p) :=
  Safe.bind hp (fun _ => Safe.bind (fun _ hi => Safe.sepLoop hs hp hi (Nat.lt_succ_self _)) (fun _ => Safe.pure _))

theorem Safe.recognize {p : Parser α} (hp : Safe C p) : Safe C (recognize p) := by
  intro i hi
  have h := hp i hi
  unfold Re.recognize
  cases hr : p i with
  | ok j a => rw [hr] at h; exact h
  | err e => rw [hr] at h; exact h
  | fail e => rw [hr] at h; exact h
  | panic => rw [hr] at h; exact h
  | hang => rw [hr] at h; exact h

theorem Safe.ite {c : Prop} [Decidable c] {p q : Parser α} (hp : Safe C p) (hq : Safe C q) :
    Safe C (if c then p else q) := by
  split
  · exact hp
  · exact hq

end

/-! ## Leaves -/

section
variable {C : Ctx}

theorem safe_integer : Safe C integer := by
  refine Safe.bind (Safe.many1 (Safe.satisfy _)) (fun a => ?_)
  split
  · exact Safe.pure _
  · exact Safe.error

theorem safe_quantifier : Safe C quantifier := by
  refine Safe.bind (Safe.alt (Safe.tagged _ _) ?_) (fun a => Safe.bind (Safe.opt (Safe.tag _)) (fun _ => Safe.pure _))
  intro q hq
  simp only [List.mem_cons, List.not_mem_nil, or_false] at hq
  rcases hq with rfl | rfl | rfl | rfl | rfl
  · exact Safe.tagged _ _
  · exact Safe.tagged _ _
  · exact Safe.bind (Safe.tag _) fun _ => Safe.bind safe_integer fun _ => Safe.bind (Safe.tag _) fun _ => Safe.pure _
  · exact Safe.bind (Safe.tag _) fun _ => Safe.bind safe_integer fun _ => Safe.bind (Safe.tag _) fun _ =>
      Safe.bind safe_integer fun _ => Safe.bind (Safe.tag _) fun _ => Safe.pure _
  · exact Safe.bind (Safe.tag _) fun _ => Safe.bind safe_integer fun _ => Safe.bind (Safe.tag _) fun _ =>
      Safe.bind (Safe.tag _) fun _ => Safe.pure _

theorem safe_assertion : Safe C assertion := by
  refine Safe.alt (Safe.tagged _ _) ?_
  intro q hq
  simp only [List.mem_cons, List.not_mem_nil, or_false] at hq
  rcases hq with rfl | rfl | rfl | rfl | rfl | rfl <;> exact Safe.tagged _ _

theorem safe_unicodePropertyName : Safe C unicodePropertyName :=
  Safe.bind (Safe.recognize (Safe.many0 (Safe.satisfy _))) fun _ => Safe.ite (Safe.pure _) Safe.error

theorem safe_unicodePropertyClass : Safe C unicodePropertyClass := by
  refine Safe.alt ?_ ?_
  · exact Safe.bind (Safe.tag _) fun _ => Safe.bind safe_unicodePropertyName fun _ => Safe.bind (Safe.tag _) fun _ =>
      Safe.pure _
  · intro q hq
    simp only [List.mem_cons, List.not_mem_nil, or_false] at hq
    subst hq
    exact Safe.bind (Safe.tag _) fun _ => Safe.bind safe_unicodePropertyName fun _ => Safe.bind (Safe.tag _) fun _ =>
      Safe.pure _

theorem safe_perl : Safe C perlCharacterClass := by
  refine Safe.alt (Safe.tagged _ _) ?_
  intro q hq
  simp only [List.mem_cons, List.not_mem_nil, or_false] at hq
  rcases hq with rfl | rfl | rfl | rfl | rfl <;> exact Safe.tagged _ _

theorem safe_flag : Safe C flag := by
  refine Safe.alt (Safe.tagged _ _) ?_
  intro q hq
  simp only [List.mem_cons, List.not_mem_nil, or_false] at hq
  rcases hq with rfl | rfl | rfl <;> exact Safe.tagged _ _

theorem safe_flags : Safe C flags :=
  Safe.bind (Safe.many0 safe_flag) fun _ =>
    Safe.bind (Safe.opt (Safe.bind (Safe.tag _) fun _ => Safe.many0 safe_flag)) fun _ => Safe.pure _

theorem safe_flagsExpression : Safe C flagsExpression :=
  Safe.bind (Safe.tag _) fun _ => Safe.bind safe_flags fun _ => Safe.bind (Safe.tag _) fun _ => Safe.pure _

theorem safe_quotedLiterals : Safe C quotedLiterals :=
  Safe.bind (Safe.tag _) fun _ => Safe.bind (Safe.takeUntil _) fun _ => Safe.bind (Safe.tag _) fun _ => Safe.pure _

theorem safe_quoteExpression : Safe C quoteExpression := by
  refine Safe.bind safe_quotedLiterals fun chars => ?_
  dsimp only
  split <;> exact Safe.pure _

theorem charFromU32_control (c : Char) (h : c ∈ asciiLetters) : (charFromU32 (asciiLower c - 97 + 1)).isSome := by
  have : ∀ c ∈ asciiLetters, (charFromU32 (asciiLower c - 97 + 1)).isSome = true := by decide +kernel
  exact this c h

theorem safe_escapedControl : Safe C escapedControlSequence := by
  refine Safe.bind (Safe.tag _) fun _ => ?_
  intro i hi
  show Fine C i (Parser.bind _ _ i)
  unfold Parser.bind
  have h := Safe.satisfy (C := C) (fun c => decide (c ∈ asciiLetters)) i hi
  cases hr : oneOf asciiLetters i with
  | ok j c =>
    have hc : c ∈ asciiLetters := by
      unfold oneOf satisfy at hr
      split at hr
      · split at hr
        · next c' _ _ hd =>
          cases hr
          exact of_decide_eq_true hd
        · cases hr
      · cases hr
    have h1 := charFromU32_control c hc
    rw [show satisfy (fun c => decide (c ∈ asciiLetters)) i = oneOf asciiLetters i from rfl, hr] at h
    dsimp only
    cases hn : charFromU32 (asciiLower c - 97 + 1) with
    | some c => exact h
    | none => rw [hn] at h1; cases h1
  | err e => rw [show satisfy (fun c => decide (c ∈ asciiLetters)) i = oneOf asciiLetters i from rfl, hr] at h; exact h
  | fail e => rw [show satisfy (fun c => decide (c ∈ asciiLetters)) i = oneOf asciiLetters i from rfl, hr] at h; exact h
  | panic => rw [show satisfy (fun c => decide (c ∈ asciiLetters)) i = oneOf asciiLetters i from rfl, hr] at h; exact h
  | hang => rw [show satisfy (fun c => decide (c ∈ asciiLetters)) i = oneOf asciiLetters i from rfl, hr] at h; exact h

theorem safe_hex : Safe C hexEscapedLiteral := by
  refine Safe.bind (Safe.alt ?_ ?_) (fun a => ?_)
  · exact Safe.bind (Safe.tag _) fun _ => Safe.bind (Safe.recognize (Safe.takeUntil _)) fun _ =>
      Safe.bind (Safe.tag _) fun _ => Safe.pure _
  · intro q hq
    simp only [List.mem_cons, List.not_mem_nil, or_false] at hq
    subst hq
    exact Safe.bind (Safe.tag _) fun _ => Safe.bind (Safe.recognize (Safe.manyUpTo (Safe.satisfy _) _)) fun _ =>
      Safe.pure _
  · obtain ⟨b, hex⟩ := a
    dsimp only
    refine Safe.bind ?_ (fun n => ?_)
    · refine Safe.ite ?_ (Safe.pure _)
      split
      · exact Safe.pure _
      · exact Safe.failure
    · split
      · exact Safe.pure _
      · exact Safe.failure

theorem safe_escapedLiteral : Safe C escapedLiteral := by
  refine Safe.bind (Safe.alt safe_escapedControl ?_) (fun _ => Safe.pure _)
  intro q hq
  simp only [List.mem_cons, List.not_mem_nil, or_false] at hq
  rcases hq with rfl | rfl | rfl | rfl | rfl | rfl | rfl | rfl | rfl <;>
    first | exact Safe.tagged _ _ | exact safe_hex

theorem safe_literal (kind : LiteralKind) : Safe C (literal kind) := by
  refine Safe.bind (Safe.opt (Safe.tag _)) (fun b => Safe.ite (Safe.alt safe_escapedLiteral ?_) ?_)
  · intro q hq
    simp only [List.mem_cons, List.not_mem_nil, or_false] at hq
    subst hq
    exact Safe.bind (Safe.satisfy _) fun _ => Safe.pure _
  · refine Safe.bind ?_ fun _ => Safe.pure _
    split <;> exact Safe.satisfy _

theorem safe_bracketAsciiClass : Safe C bracketAsciiClass := by
  refine Safe.bind (Safe.tag _) fun _ => Safe.bind (Safe.opt (Safe.tag _)) fun _ =>
    Safe.bind (Safe.alt (Safe.tagged _ _) ?_) fun _ => Safe.bind (Safe.tag _) fun _ => Safe.pure _
  intro q hq
  simp only [List.mem_cons, List.not_mem_nil, or_false] at hq
  rcases hq with rfl | rfl | rfl | rfl | rfl | rfl | rfl | rfl | rfl | rfl | rfl | rfl | rfl <;> exact Safe.tagged _ _

theorem safe_bracketItemLiteral : Safe C bracketItemLiteral := by
  refine Safe.alt (Safe.bind (safe_literal _) fun _ => Safe.pure _) ?_
  intro q hq
  simp only [List.mem_cons, List.not_mem_nil, or_false] at hq
  rcases hq with rfl | rfl
  · exact Safe.bind safe_perl fun _ => Safe.pure _
  · exact Safe.bind safe_unicodePropertyClass fun _ => Safe.pure _

theorem safe_bracketItem : Safe C bracketItem := by
  refine Safe.alt (Safe.bind safe_perl fun _ => Safe.pure _) ?_
  intro q hq
  simp only [List.mem_cons, List.not_mem_nil, or_false] at hq
  rcases hq with rfl | rfl | rfl | rfl | rfl | rfl | rfl | rfl
  · exact Safe.tagged _ _
  · exact Safe.tagged _ _
  · exact Safe.tagged _ _
  · exact Safe.tagged _ _
  · exact Safe.bind safe_quotedLiterals fun _ => Safe.pure _
  · exact Safe.bind safe_bracketAsciiClass fun _ => Safe.pure _
  · exact Safe.bind (Safe.bind (safe_literal _) fun _ => Safe.bind (Safe.tag _) fun _ =>
      Safe.bind (safe_literal _) fun _ => Safe.pure _) fun _ => Safe.pure _
  · exact Safe.bind safe_bracketItemLiteral fun _ => Safe.pure _

theorem safe_bracketCharacterClass : Safe C bracketCharacterClass :=
  Safe.bind (Safe.tag _) fun _ => Safe.bind (Safe.opt (Safe.tag _)) fun _ => Safe.bind (Safe.opt (Safe.tag _)) fun _ =>
    Safe.bind (Safe.many0 safe_bracketItem) fun _ => Safe.bind (Safe.tag _) fun _ =>
      Safe.ite Safe.error (Safe.pure _)

theorem safe_characterClass : Safe C characterClass := by
  refine Safe.alt (Safe.tagged _ _) ?_
  intro q hq
  simp only [List.mem_cons, List.not_mem_nil, or_false] at hq
  rcases hq with rfl | rfl | rfl | rfl | rfl | rfl | rfl
  · exact Safe.tagged _ _
  · exact Safe.tagged _ _
  · exact Safe.tagged _ _
  · exact Safe.tagged _ _
  · exact safe_bracketCharacterClass
  · exact Safe.bind safe_perl fun _ => Safe.pure _
  · exact Safe.bind safe_unicodePropertyClass fun _ => Safe.pure _

theorem safe_captureGroupName : Safe C captureGroupName :=
  Safe.recognize (Safe.bind (Safe.satisfy _) fun _ => Safe.many0 (Safe.satisfy _))

end

/-! ## Groups and expressions -/

/-- Number of opening parentheses. -/
def opens (s : Str) : Nat := s.count '('

theorem opens_suffix {a b : Str} (h : a <:+ b) : opens a ≤ opens b := by
  obtain ⟨t, rfl⟩ := h
  simp [opens]

/-- Inputs that are not too deep for the fuel; a depth failure needs enough opening parentheses. -/
def ctx (limit fuel : Nat) : Ctx where
  dom i := i.depth ≤ limit ∧ limit + 1 ≤ fuel + i.depth
  bad i e := e = .invalidSyntax ∨ (e = .exceededDepthLimit ∧ limit ≤ i.depth + opens i.value)
  dom_mono hd _ h := by rw [hd]; exact h
  bad_mono := by
    intro i j e hd hv h
    have := opens_suffix hv
    rw [hd] at h
    rcases h with h | ⟨h, h'⟩
    · exact Or.inl h
    · exact Or.inr ⟨h, by omega⟩
  bad_syntax _ := Or.inl rfl

/-- The same, directly after the depth was incremented. -/
def ctxIn (limit fuel : Nat) : Ctx where
  dom i := i.depth ≤ limit ∧ limit + 1 ≤ fuel + i.depth
  bad i e := e = .invalidSyntax ∨ (e = .exceededDepthLimit ∧ limit + 1 ≤ i.depth + opens i.value)
  dom_mono hd _ h := by rw [hd]; exact h
  bad_mono := by
    intro i j e hd hv h
    have := opens_suffix hv
    rw [hd] at h
    rcases h with h | ⟨h, h'⟩
    · exact Or.inl h
    · exact Or.inr ⟨h, by omega⟩
  bad_syntax _ := Or.inl rfl

/-- The parser consumes an opening parenthesis when it succeeds. -/
def Opening {α : Type} (p : Parser α) : Prop := ∀ i j a, p i = .ok j a → opens j.value < opens i.value

theorem Opening.tag {t : Str} : Opening (tag ('(' :: t)) := by
  intro i j a h
  unfold Re.tag at h
  split at h
  · next r hr =>
    cases h
    rw [stripPrefix_eq hr]
    simp [opens]
    omega
  · cases h

theorem Safe.opening {α β : Type} {limit fuel : Nat} {p : Parser α} {f : α → Parser β} (ho : Opening p)
    (hp : Safe (ctxIn limit fuel) p) (hf : ∀ a, Safe (ctx limit fuel) (f a)) :
    Safe (ctxIn limit fuel) (p >>= f) := by
  intro i hi
  show Fine _ i (Parser.bind p f i)
  have h := hp i hi
  unfold Parser.bind
  cases hr : p i with
  | ok j a =>
    rw [hr] at h
    have hlt := ho i j a hr
    have hj := hf a j ((ctx limit fuel).dom_mono h.1 h.2 hi)
    dsimp only
    cases hq : f a j with
    | ok k b => rw [hq] at hj; exact ⟨hj.1.trans h.1, hj.2.trans h.2⟩
    | err e => rw [hq] at hj; exact hj
    | fail e =>
      rw [hq] at hj
      rcases hj with hj | ⟨hj, hj'⟩
      · exact Or.inl hj
      · refine Or.inr ⟨hj, ?_⟩
        rw [h.1] at hj'
        omega
    | panic => rw [hq] at hj; exact hj
    | hang => rw [hq] at hj; exact hj
  | err e => rw [hr] at h; exact h
  | fail e => rw [hr] at h; exact h
  | panic => rw [hr] at h; exact h
  | hang => rw [hr] at h; exact h

theorem safe_members {limit fuel : Nat} {expr : Parser Ast} (he : Safe (ctx limit fuel) expr) :
    Safe (ctxIn limit fuel) (alt (nonCapturingGroup expr) [captureGroup expr, namedCaptureGroup expr]) := by
  refine Safe.alt ?_ ?_
  · exact Safe.opening Opening.tag (Safe.tag _) fun _ => Safe.bind safe_flags fun _ => Safe.bind (Safe.tag _) fun _ =>
      Safe.bind he fun _ => Safe.bind (Safe.tag _) fun _ => Safe.pure _
  · intro q hq
    simp only [List.mem_cons, List.not_mem_nil, or_false] at hq
    rcases hq with rfl | rfl
    · exact Safe.opening Opening.tag (Safe.tag _) fun _ => Safe.bind he fun _ => Safe.bind (Safe.tag _) fun _ =>
        Safe.pure _
    · refine Safe.alt ?_ ?_
      · refine Safe.opening ?_ (Safe.alt (Safe.tag _) ?_) fun _ => Safe.bind safe_captureGroupName fun _ =>
          Safe.bind (Safe.tag _) fun _ => Safe.bind he fun _ => Safe.bind (Safe.tag _) fun _ => Safe.pure _
        · intro i j a h
          simp only [Re.alt, Parser.orElse] at h
          split at h
          · next hr => cases h; exact Opening.tag _ _ _ hr
          · exact Opening.tag _ _ _ h
          · cases h
          · cases h
          · cases h
        · intro q hq
          simp only [List.mem_cons, List.not_mem_nil, or_false] at hq
          subst hq
          exact Safe.tag _
      · intro q hq
        simp only [List.mem_cons, List.not_mem_nil, or_false] at hq
        subst hq
        exact Safe.opening Opening.tag (Safe.tag _) fun _ => Safe.bind safe_captureGroupName fun _ =>
          Safe.bind (Safe.tag _) fun _ => Safe.bind he fun _ => Safe.bind (Safe.tag _) fun _ => Safe.pure _

theorem safe_group {limit fuel : Nat} {expr : Parser Ast} (he : Safe (ctx limit fuel) expr) :
    Safe (ctx limit (fuel + 1)) (group limit expr) := by
  intro i hi
  unfold group
  dsimp only
  split
  · next h => exact Or.inr ⟨rfl, by have := hi.1; omega⟩
  · next h =>
    have hm := safe_members he { i with depth := i.depth + 1 } ⟨by dsimp only; omega, by have := hi.2; dsimp only; omega⟩
    split
    · next rest g hr =>
      rw [hr] at hm
      exact ⟨by have := hm.1; dsimp only at this ⊢; omega, hm.2⟩
    · next e hr => rw [hr] at hm; exact hm
    · next e hr =>
      rw [hr] at hm
      rcases hm with hm | ⟨hm, hm'⟩
      · exact Or.inl hm
      · exact Or.inr ⟨hm, by dsimp only at hm'; omega⟩
    · next hr => rw [hr] at hm; exact hm
    · next hr => rw [hr] at hm; exact hm

theorem safe_atomic {limit fuel : Nat} {expr : Parser Ast} (he : Safe (ctx limit fuel) expr) :
    Safe (ctx limit (fuel + 1)) (atomic limit expr) := by
  refine Safe.bind (Safe.alt safe_quoteExpression ?_) fun _ => Safe.bind (Safe.opt safe_quantifier) fun q => ?_
  · intro q hq
    simp only [List.mem_cons, List.not_mem_nil, or_false] at hq
    rcases hq with rfl | rfl | rfl | rfl | rfl
    · exact Safe.bind safe_flagsExpression fun _ => Safe.pure _
    · exact safe_group he
    · exact Safe.bind safe_assertion fun _ => Safe.pure _
    · exact Safe.bind safe_characterClass fun _ => Safe.pure _
    · exact Safe.bind (safe_literal _) fun _ => Safe.pure _
  · split <;> exact Safe.pure _

theorem safe_concat {limit fuel : Nat} {expr : Parser Ast} (he : Safe (ctx limit fuel) expr) :
    Safe (ctx limit (fuel + 1)) (concatExpression limit expr) := by
  refine Safe.bind (Safe.many1 (safe_atomic he)) fun l => ?_
  split <;> exact Safe.pure _

theorem safe_alternate {limit fuel : Nat} {expr : Parser Ast} (he : Safe (ctx limit fuel) expr) :
    Safe (ctx limit (fuel + 1)) (alternateExpression limit expr) := by
  refine Safe.bind (Safe.separatedList1 (Safe.tag _) (Safe.opt (safe_concat he))) fun l => ?_
  dsimp only
  split <;> exact Safe.pure _

/-- The recursion is never deeper than the limit allows. -/
theorem safe_expression (limit fuel : Nat) : Safe (ctx limit fuel) (expression limit fuel) := by
  induction fuel with
  | zero =>
    intro i hi
    have h1 := hi.1
    have h2 := hi.2
    omega
  | succ fuel ih => exact safe_alternate ih

end Sds.Re
