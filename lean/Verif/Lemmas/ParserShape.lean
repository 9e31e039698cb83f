import Verif.Lemmas.ParserLimit
import Verif.Lemmas.RustConvert

/-! # Lemmas: the shape of what the parser returns -/

namespace Sds.Re
open Sds Spec

/-- Whatever the parser returns has the property. -/
def Gives {α : Type} (P : α → Prop) (p : Parser α) : Prop := ∀ i j a, p i = .ok j a → P a

section
variable {α β : Type} {P Q : α → Prop} {R : β → Prop}

theorem Gives.any (p : Parser α) : Gives (fun _ => True) p := fun _ _ _ _ => trivial

theorem Gives.bind {p : Parser α} {f : α → Parser β} (hp : Gives P p) (hf : ∀ a, P a → Gives R (f a)) :
    Gives R (p >>= f) := by
  intro i k b h
  obtain ⟨j, a, h1, h2⟩ := bind_ok.1 h
  exact hf a (hp _ _ _ h1) _ _ _ h2

/-- Only what comes last matters. -/
theorem Gives.last {p : Parser α} {f : α → Parser β} (hf : ∀ a, Gives R (f a)) : Gives R (p >>= f) :=
  Gives.bind (Gives.any p) fun a _ => hf a

theorem Gives.pure {a : α} (h : P a) : Gives P (Pure.pure a : Parser α) := by
  intro i j b hb
  obtain ⟨_, rfl⟩ := pure_ok.1 hb
  exact h

theorem Gives.error {e : PErr} : Gives P (Re.error e) := by
  intro i j a h
  cases h

theorem Gives.orElse {p q : Parser α} (hp : Gives P p) (hq : Gives P q) : Gives P (Parser.orElse p q) := by
  intro i j a h
  rcases orElse_ok.1 h with h | ⟨_, h⟩
  · exact hp _ _ _ h
  · exact hq _ _ _ h

theorem Gives.alt {p : Parser α} {l : List (Parser α)} (hp : Gives P p) (hl : ∀ q ∈ l, Gives P q) : Gives P (alt p l) := by
  induction l generalizing p with
  | nil => exact hp
  | cons q l ih => exact Gives.orElse hp (ih (hl q (by simp)) fun r hr => hl r (by simp [hr]))

theorem Gives.tagged {t : Str} {a : α} (h : P a) : Gives P (tagged t a) := Gives.last fun _ => Gives.pure h

theorem Gives.opt {p : Parser α} (hp : Gives P p) : Gives (fun o => ∀ a, o = some a → P a) (Re.opt p) := by
  intro i j o h a ho
  rcases opt_ok.1 h with ⟨b, h1, h2⟩ | ⟨_, _, h2⟩
  · rw [h2] at ho; cases ho; exact hp _ _ _ h1
  · rw [h2] at ho; cases ho

theorem Gives.manyLoop {p : Parser α} (hp : Gives P p) (n : Nat) : Gives (fun l => ∀ a ∈ l, P a) (Re.manyLoop p n) := by
  induction n with
  | zero => intro i j l h; cases h
  | succ n ih =>
    intro i j l h
    unfold Re.manyLoop at h
    cases h1 : p i with
    | ok k a =>
      rw [h1] at h
      dsimp only at h
      split at h
      · cases h
      · obtain ⟨m, l', h2, h3⟩ := bind_ok.1 h
        obtain ⟨_, rfl⟩ := pure_ok.1 h3
        intro b hb
        rcases List.mem_cons.1 hb with rfl | hb
        · exact hp _ _ _ h1
        · exact ih _ _ _ h2 b hb
    | err x => rw [h1] at h; cases h; simp
    | fail x => rw [h1] at h; cases h
    | panic => rw [h1] at h; cases h
    | hang => rw [h1] at h; cases h

theorem Gives.many0 {p : Parser α} (hp : Gives P p) : Gives (fun l => ∀ a ∈ l, P a) (Re.many0 p) :=
  fun i j l h => Gives.manyLoop hp _ i j l h

theorem Gives.many1 {p : Parser α} (hp : Gives P p) : Gives (fun l => l ≠ [] ∧ ∀ a ∈ l, P a) (Re.many1 p) :=
  Gives.bind hp fun a ha => Gives.bind (Gives.many0 hp) fun l hl => Gives.pure
    ⟨by simp, fun b hb => by
      rcases List.mem_cons.1 hb with rfl | hb
      · exact ha
      · exact hl b hb⟩

theorem Gives.sepLoop {sep : Parser Unit} {p : Parser α} (hp : Gives P p) (n : Nat) :
    Gives (fun l => ∀ a ∈ l, P a) (Re.sepLoop sep p n) := by
  induction n with
  | zero => intro i j l h; cases h
  | succ n ih =>
    intro i j l h
    unfold Re.sepLoop at h
    cases h1 : sep i with
    | ok k u =>
      rw [h1] at h
      dsimp only at h
      split at h
      · cases h
      · cases h2 : p k with
        | ok m a =>
          rw [h2] at h
          obtain ⟨x, l', h3, h4⟩ := bind_ok.1 h
          obtain ⟨_, rfl⟩ := pure_ok.1 h4
          intro b hb
          rcases List.mem_cons.1 hb with rfl | hb
          · exact hp _ _ _ h2
          · exact ih _ _ _ h3 b hb
        | err x => rw [h2] at h; cases h; simp
        | fail x => rw [h2] at h; cases h
        | panic => rw [h2] at h; cases h
        | hang => rw [h2] at h; cases h
    | err x => rw [h1] at h; cases h; simp
    | fail x => rw [h1] at h; cases h
    | panic => rw [h1] at h; cases h
    | hang => rw [h1] at h; cases h

theorem Gives.separated {sep : Parser Unit} {p : Parser α} (hp : Gives P p) :
    Gives (fun l => l ≠ [] ∧ ∀ a ∈ l, P a) (separatedList1 sep p) :=
  Gives.bind hp fun a ha => Gives.bind (p := fun i => Re.sepLoop sep p (blen i.value + 1) i)
    (fun i j l h => Gives.sepLoop hp _ i j l h) fun l hl => Gives.pure
    ⟨by simp, fun b hb => by
      rcases List.mem_cons.1 hb with rfl | hb
      · exact ha
      · exact hl b hb⟩

end

/-! ## Names -/

theorem satisfy_ok {ok : Char → Bool} {i j : Input} {c : Char} (h : satisfy ok i = .ok j c) :
    i.value = c :: j.value ∧ ok c = true := by
  unfold satisfy at h
  split at h
  · rename_i d cs hv
    split at h
    · cases h; exact ⟨hv, ‹_›⟩
    · cases h
  · cases h

theorem manySatisfy_ok {ok : Char → Bool} (n : Nat) {i j : Input} {l : Str} (h : manyLoop (satisfy ok) n i = .ok j l) :
    i.value = l ++ j.value ∧ ∀ c ∈ l, ok c = true := by
  induction n generalizing i l with
  | zero => cases h
  | succ n ih =>
    unfold manyLoop at h
    cases h1 : satisfy ok i with
    | ok k a =>
      rw [h1] at h
      dsimp only at h
      split at h
      · cases h
      · obtain ⟨m, l', h2, h3⟩ := bind_ok.1 h
        obtain ⟨rfl, rfl⟩ := pure_ok.1 h3
        obtain ⟨e1, hc⟩ := satisfy_ok h1
        obtain ⟨e2, hl⟩ := ih h2
        refine ⟨by rw [e1, e2]; rfl, fun c hc' => ?_⟩
        rcases List.mem_cons.1 hc' with rfl | hc'
        · exact hc
        · exact hl c hc'
    | err x => rw [h1] at h; cases h; simp
    | fail x => rw [h1] at h; cases h
    | panic => rw [h1] at h; cases h
    | hang => rw [h1] at h; cases h

theorem gives_groupName : Gives GroupNameOk captureGroupName := by
  intro i j name h
  unfold captureGroupName recognize at h
  cases h1 : (do let _ ← oneOf asciiLettersUnderscore; many0 (oneOf asciiAlphanumericUnderscore) : Parser Str) i with
  | ok k t =>
    rw [h1] at h
    cases h
    obtain ⟨m, c, h2, h3⟩ := bind_ok.1 h1
    obtain ⟨e1, hc⟩ := satisfy_ok h2
    obtain ⟨e2, ht⟩ := manySatisfy_ok _ h3
    refine ⟨c, t, ?_, by simpa using hc, fun d hd => by simpa using ht d hd⟩
    rw [e1, e2]
    have : (c :: (t ++ j.value)).length - j.value.length = (c :: t).length := by simp; omega
    rw [this]
    exact List.take_left (l₁ := c :: t)
  | err x => rw [h1] at h; cases h
  | fail x => rw [h1] at h; cases h
  | panic => rw [h1] at h; cases h
  | hang => rw [h1] at h; cases h

/-- A property with a known name. -/
def Known (u : UnicodePropertyClass) : Prop := u.name ∈ unicodePropertyNames.map String.toList

theorem gives_propertyName : Gives (fun n => n ∈ unicodePropertyNames.map String.toList) unicodePropertyName := by
  refine Gives.last fun name => ?_
  split
  · exact Gives.pure ‹_›
  · exact Gives.error

theorem gives_property : Gives Known unicodePropertyClass := by
  refine Gives.alt ?_ ?_
  · exact Gives.last fun _ => Gives.bind gives_propertyName fun n hn => Gives.last fun _ => Gives.pure hn
  · intro q hq
    simp only [List.mem_cons, List.not_mem_nil, or_false] at hq
    subst hq
    exact Gives.last fun _ => Gives.bind gives_propertyName fun n hn => Gives.last fun _ => Gives.pure hn

/-! ## Classes -/

/-- Properties among the items have known names. -/
def ItemsKnown (l : List BracketItem) : Prop := ∀ u, .unicodeProperty u ∈ l → Known u

theorem gives_bracketItem : Gives ItemsKnown bracketItem := by
  refine Gives.alt (Gives.last fun c => Gives.pure (by simp [ItemsKnown])) ?_
  intro q hq
  simp only [List.mem_cons, List.not_mem_nil, or_false] at hq
  rcases hq with rfl | rfl | rfl | rfl | rfl | rfl | rfl | rfl
  · exact Gives.tagged (by simp [ItemsKnown])
  · exact Gives.tagged (by simp [ItemsKnown])
  · exact Gives.tagged (by simp [ItemsKnown])
  · exact Gives.tagged (by simp [ItemsKnown])
  · exact Gives.last fun l => Gives.pure (by simp [ItemsKnown])
  · refine Gives.bind (P := fun it => ∀ u, it ≠ .unicodeProperty u) ?_ fun it h => Gives.pure ?_
    · exact Gives.last fun _ => Gives.last fun _ => Gives.last fun _ => Gives.last fun _ => Gives.pure (by simp)
    · intro u hu
      rw [List.mem_singleton] at hu
      exact absurd hu.symm (h u)
  · refine Gives.bind (P := fun it => ∀ u, it ≠ .unicodeProperty u) ?_ fun it h => Gives.pure ?_
    · exact Gives.last fun _ => Gives.last fun _ => Gives.last fun _ => Gives.pure (by simp)
    · intro u hu
      rw [List.mem_singleton] at hu
      exact absurd hu.symm (h u)
  · refine Gives.bind (P := fun it => ∀ u, it = .unicodeProperty u → Known u) ?_ fun it h => Gives.pure ?_
    · refine Gives.alt (Gives.last fun _ => Gives.pure (by simp)) ?_
      intro q hq
      simp only [List.mem_cons, List.not_mem_nil, or_false] at hq
      rcases hq with rfl | rfl
      · exact Gives.last fun _ => Gives.pure (by simp)
      · exact Gives.bind gives_property fun u hu => Gives.pure (by rintro _ ⟨⟩; exact hu)
    · intro u hu
      rw [List.mem_singleton] at hu
      exact h u hu.symm

theorem gives_bracket : Gives ClassGood bracketCharacterClass := by
  refine Gives.last fun _ => Gives.last fun negated => Gives.last fun closing =>
    Gives.bind (Gives.many0 gives_bracketItem) fun items hi => Gives.last fun _ => ?_
  dsimp only
  generalize hl : (if closing.isSome then BracketItem.literal ']' :: items.flatten else items.flatten) = l
  split
  · exact Gives.error
  · rename_i h
    refine Gives.pure ⟨by simpa using h, ?_⟩
    intro u hu
    have hu : .unicodeProperty u ∈ items.flatten := by
      rw [← hl] at hu
      split at hu
      · simpa using hu
      · exact hu
    obtain ⟨l, hl, hu⟩ := List.mem_flatten.1 hu
    exact hi l hl u hu

theorem gives_class : Gives ClassGood characterClass := by
  refine Gives.alt (Gives.tagged trivial) ?_
  intro q hq
  simp only [List.mem_cons, List.not_mem_nil, or_false] at hq
  rcases hq with rfl | rfl | rfl | rfl | rfl | rfl | rfl
  · exact Gives.tagged trivial
  · exact Gives.tagged trivial
  · exact Gives.tagged trivial
  · exact Gives.tagged trivial
  · exact gives_bracket
  · exact Gives.last fun _ => Gives.pure trivial
  · exact Gives.bind gives_property fun u hu => Gives.pure hu

/-! ## Trees -/

theorem shapedAll_iff {l : List Ast} : ShapedAll l ↔ ∀ a ∈ l, Shaped false a := by
  induction l with
  | nil => simp [ShapedAll]
  | cons a l ih => simp [ShapedAll, ih]

theorem Shaped.weaken {a : Ast} (h : Shaped false a) : Shaped true a := by
  cases a with
  | alternation l => rw [Shaped] at h; cases h.1
  | _ => simp only [Shaped] at h ⊢; try exact h

/-- A part without quantifier. -/
def Single (a : Ast) : Prop := Shaped false a ∧ ∀ q b, a ≠ .repetition q b

theorem gives_quote : Gives Single quoteExpression := by
  refine Gives.last fun chars => ?_
  dsimp only
  have hl : ∀ a ∈ chars.map fun c => Ast.literal { c := c, escaped := true }, Shaped false a := by
    intro a ha
    obtain ⟨c, _, rfl⟩ := List.mem_map.1 ha
    simp [Shaped]
  split
  · exact Gives.pure ⟨by simp [Shaped], by simp⟩
  · rename_i a he
    obtain ⟨c, _, rfl⟩ := List.mem_map.1 (he ▸ List.mem_singleton.2 rfl : a ∈ chars.map _)
    exact Gives.pure ⟨by simp [Shaped], by simp⟩
  · exact Gives.pure ⟨by rw [Shaped]; exact shapedAll_iff.2 hl, by simp⟩

variable {L : Nat} {e : Parser Ast}

theorem gives_grp {o : Parser GroupKind} (ho : Gives GroupGood o) (he : Gives (Shaped true) e) : Gives Single (grp o e) :=
  Gives.bind ho fun k hk => Gives.bind he fun a ha => Gives.last fun _ => Gives.pure
    ⟨by rw [Shaped]; exact ⟨hk, ha⟩, by simp⟩

theorem gives_group (he : Gives (Shaped true) e) : Gives Single (group L e) := by
  intro i j a h
  obtain ⟨_, r, hr, _⟩ := group_ok h
  rw [members_grp] at hr
  refine Gives.orElse (gives_grp ?_ he) (Gives.orElse (gives_grp ?_ he)
    (Gives.orElse (gives_grp ?_ he) (gives_grp ?_ he))) _ _ _ hr
  · exact Gives.last fun _ => Gives.last fun _ => Gives.last fun _ => Gives.pure trivial
  · exact Gives.last fun _ => Gives.pure trivial
  · exact Gives.last fun _ => Gives.bind gives_groupName fun n hn => Gives.last fun _ => Gives.pure hn
  · exact Gives.last fun _ => Gives.bind gives_groupName fun n hn => Gives.last fun _ => Gives.pure hn

theorem gives_atomic (he : Gives (Shaped true) e) : Gives (Shaped false) (atomic L e) := by
  refine Gives.bind (P := Single) (Gives.alt gives_quote ?_) fun a ha => Gives.last fun q => ?_
  · intro q hq
    simp only [List.mem_cons, List.not_mem_nil, or_false] at hq
    rcases hq with rfl | rfl | rfl | rfl | rfl
    · exact Gives.last fun f => Gives.pure ⟨by simp [Shaped], by simp⟩
    · exact gives_group he
    · exact Gives.last fun f => Gives.pure ⟨by simp [Shaped], by simp⟩
    · exact Gives.bind gives_class fun c hc => Gives.pure ⟨by rw [Shaped]; exact hc, by simp⟩
    · exact Gives.last fun f => Gives.pure ⟨by simp [Shaped], by simp⟩
  · split
    · exact Gives.pure (by rw [Shaped]; exact ha)
    · exact Gives.pure ha.1

theorem gives_concat (he : Gives (Shaped true) e) : Gives (Shaped false) (concatExpression L e) := by
  refine Gives.bind (Gives.many1 (gives_atomic he)) fun l hl => ?_
  split
  · exact Gives.pure (hl.2 _ (by simp))
  · exact Gives.pure (by rw [Shaped]; exact shapedAll_iff.2 hl.2)

theorem gives_alternate (he : Gives (Shaped true) e) : Gives (Shaped true) (alternateExpression L e) := by
  refine Gives.bind (Gives.separated (Gives.opt (gives_concat he))) fun l hl => ?_
  dsimp only
  have hm : ∀ a ∈ l.map fun c => c.getD Ast.empty, Shaped false a := by
    intro a ha
    obtain ⟨o, ho, rfl⟩ := List.mem_map.1 ha
    cases o with
    | none => simp [Shaped]
    | some b => exact hl.2 _ ho b rfl
  split
  · rename_i a he
    exact Gives.pure (Shaped.weaken (hm a (he ▸ List.mem_singleton.2 rfl)))
  · rename_i hne
    refine Gives.pure ?_
    rw [Shaped]
    refine ⟨rfl, ?_, shapedAll_iff.2 hm⟩
    match l, hl.1, hne with
    | [], h, _ => exact absurd rfl h
    | [o], _, h => exact absurd rfl (h (o.getD .empty))
    | _ :: _ :: _, _, _ => simp

theorem gives_expression (n : Nat) : Gives (Shaped true) (expression L n) := by
  induction n with
  | zero => intro i j a h; cases h
  | succ n ih => exact gives_alternate ih

/-- What the parser returns has the shape. -/
theorem parse_shaped {s : Str} {a : Ast} (h : parseRegexPattern s = .ok (.ok a)) : Shaped true a := by
  unfold parseRegexPattern parseWith at h
  split at h
  · rename_i j b hb
    cases h
    obtain ⟨k, c, h1, h2⟩ := bind_ok.1 hb
    obtain ⟨_, _, _, h3⟩ := bind_ok.1 h2
    obtain ⟨_, rfl⟩ := pure_ok.1 h3
    exact gives_expression _ _ _ _ h1
  all_goals cases h

end Sds.Re
