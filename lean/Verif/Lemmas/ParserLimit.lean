import Verif.Lemmas.Parser

/-! # What the nesting limit of the parser does -/

namespace Sds.Re
open Sds Spec

/-! ## Results of combinators -/

section
variable {α β γ : Type}

theorem bind_ok {p : Parser α} {f : α → Parser β} {i k : Input} {b : β} :
    (p >>= f) i = .ok k b ↔ ∃ j a, p i = .ok j a ∧ f a j = .ok k b := by
  show Parser.bind p f i = _ ↔ _
  unfold Parser.bind
  cases p i with
  | ok j a =>
    constructor
    · intro h; exact ⟨j, a, rfl, h⟩
    · rintro ⟨_, _, h1, h2⟩
      cases h1
      exact h2
  | err x => simp
  | fail x => simp
  | panic => simp
  | hang => simp

theorem bind_of_ok {p : Parser α} {f : α → Parser β} {i j : Input} {a : α} (h : p i = .ok j a) :
    (p >>= f) i = f a j := by
  show Parser.bind p f i = _
  unfold Parser.bind
  rw [h]

theorem bind_of_err {p : Parser α} {f : α → Parser β} {i : Input} {e : PErr} (h : p i = .err e) :
    (p >>= f) i = .err e := by
  show Parser.bind p f i = _
  unfold Parser.bind
  rw [h]

theorem bind_of_fail {p : Parser α} {f : α → Parser β} {i : Input} {e : PErr} (h : p i = .fail e) :
    (p >>= f) i = .fail e := by
  show Parser.bind p f i = _
  unfold Parser.bind
  rw [h]

theorem bind_err {p : Parser α} {f : α → Parser β} {i : Input} {e : PErr} :
    (p >>= f) i = .err e ↔ p i = .err e ∨ ∃ j a, p i = .ok j a ∧ f a j = .err e := by
  show Parser.bind p f i = _ ↔ _
  unfold Parser.bind
  cases p i with
  | ok j a =>
    constructor
    · intro h; exact Or.inr ⟨j, a, rfl, h⟩
    · rintro (h | ⟨_, _, h1, h2⟩)
      · cases h
      · cases h1
        exact h2
  | err x => simp
  | fail x => simp
  | panic => simp
  | hang => simp

theorem pure_ok {a b : α} {i j : Input} : (pure a : Parser α) i = .ok j b ↔ j = i ∧ b = a := by
  show PR.ok i a = PR.ok j b ↔ _
  simp only [PR.ok.injEq]
  constructor
  · rintro ⟨rfl, rfl⟩; exact ⟨rfl, rfl⟩
  · rintro ⟨rfl, rfl⟩; exact ⟨rfl, rfl⟩

theorem pure_err {a : α} {i : Input} {e : PErr} : (pure a : Parser α) i ≠ .err e := by
  intro h
  cases h

theorem pbind_assoc (p : Parser α) (f : α → Parser β) (g : β → Parser γ) :
    ((p >>= f) >>= g) = (p >>= fun a => f a >>= g) := by
  funext i
  show Parser.bind (Parser.bind p f) g i = Parser.bind p (fun a => Parser.bind (f a) g) i
  unfold Parser.bind
  cases p i <;> rfl

theorem pure_pbind (a : α) (f : α → Parser β) : ((pure a : Parser α) >>= f) = f a := rfl

theorem orElse_ok {p q : Parser α} {i j : Input} {a : α} :
    Parser.orElse p q i = .ok j a ↔ p i = .ok j a ∨ ((∃ e, p i = .err e) ∧ q i = .ok j a) := by
  unfold Parser.orElse
  cases p i <;> simp

theorem orElse_of_err {p q : Parser α} {i : Input} {e : PErr} (h : p i = .err e) : Parser.orElse p q i = q i := by
  unfold Parser.orElse
  rw [h]

theorem orElse_of_ok {p q : Parser α} {i j : Input} {a : α} (h : p i = .ok j a) :
    Parser.orElse p q i = .ok j a := by
  unfold Parser.orElse
  rw [h]

theorem orElse_err {p q : Parser α} {i : Input} {e : PErr} :
    Parser.orElse p q i = .err e ↔ (∃ e', p i = .err e') ∧ q i = .err e := by
  unfold Parser.orElse
  cases p i <;> simp

theorem tag_ok {t : Str} {i j : Input} {u : Unit} :
    tag t i = .ok j u ↔ i.value = t ++ j.value ∧ j.depth = i.depth := by
  unfold tag
  constructor
  · intro h
    split at h
    · next r hr => cases h; exact ⟨stripPrefix_eq hr, rfl⟩
    · cases h
  · rintro ⟨h1, h2⟩
    rw [h1, stripPrefix_append]
    cases j
    simp only at h2 ⊢
    rw [h2]

theorem tag_err {t : Str} {i : Input} (h : stripPrefix t i.value = none) : tag t i = .err .invalidSyntax := by
  unfold tag
  rw [h]

end

/-! ## Lower and higher limits -/

/-- The second result, or a depth failure. -/
def Rel {α : Type} (x y : PR α) : Prop := x = y ∨ x = .fail .exceededDepthLimit

/-- The first parser gives the result of the second one, or a depth failure. -/
def Sim {α : Type} (C : Ctx) (p q : Parser α) : Prop := ∀ i, C.dom i → Rel (p i) (q i)

section
variable {α β : Type} {C : Ctx}

theorem Sim.refl (p : Parser α) : Sim C p p := fun _ _ => Or.inl rfl

theorem Sim.bind {p q : Parser α} {f g : α → Parser β} (hs : Safe C p) (h : Sim C p q)
    (hf : ∀ a, Sim C (f a) (g a)) : Sim C (p >>= f) (q >>= g) := by
  intro i hi
  rcases h i hi with h | h
  · have hs := hs i hi
    show Rel (Parser.bind p f i) (Parser.bind q g i)
    unfold Parser.bind
    rw [← h]
    cases hr : p i with
    | ok j a => rw [hr] at hs; exact hf a j (C.dom_mono hs.1 hs.2 hi)
    | err e => exact Or.inl rfl
    | fail e => exact Or.inl rfl
    | panic => exact Or.inl rfl
    | hang => exact Or.inl rfl
  · exact Or.inr (bind_of_fail h)

theorem Sim.orElse {p q p' q' : Parser α} (h : Sim C p q) (h' : Sim C p' q') :
    Sim C (Parser.orElse p p') (Parser.orElse q q') := by
  intro i hi
  unfold Parser.orElse
  rcases h i hi with h | h
  · rw [← h]
    cases p i with
    | ok j a => exact Or.inl rfl
    | err e => exact h' i hi
    | fail e => exact Or.inl rfl
    | panic => exact Or.inl rfl
    | hang => exact Or.inl rfl
  · rw [h]; exact Or.inr rfl

theorem Sim.opt {p q : Parser α} (h : Sim C p q) : Sim C (opt p) (opt q) := by
  intro i hi
  unfold Re.opt
  rcases h i hi with h | h
  · rw [h]; exact Or.inl rfl
  · rw [h]; exact Or.inr rfl

theorem Sim.manyLoop {p q : Parser α} (hs : Safe C p) (h : Sim C p q) (n : Nat) :
    Sim C (manyLoop p n) (manyLoop q n) := by
  induction n with
  | zero => exact Sim.refl _
  | succ n ih =>
    intro i hi
    unfold Re.manyLoop
    rcases h i hi with h | h
    · rw [← h]
      have hs := hs i hi
      cases hr : p i with
      | ok j a =>
        rw [hr] at hs
        dsimp only
        split
        · exact Or.inl rfl
        · unfold Parser.bind
          rcases ih j (C.dom_mono hs.1 hs.2 hi) with h' | h'
          · rw [h']; exact Or.inl rfl
          · rw [h']; exact Or.inr rfl
      | err e => exact Or.inl rfl
      | fail e => exact Or.inl rfl
      | panic => exact Or.inl rfl
      | hang => exact Or.inl rfl
    · rw [h]; exact Or.inr rfl

theorem Sim.many1 {p q : Parser α} (hs : Safe C p) (h : Sim C p q) : Sim C (many1 p) (many1 q) :=
  Sim.bind hs h fun _ => Sim.bind (Safe.many0 hs) (fun i hi => Sim.manyLoop hs h _ i hi) fun _ => Sim.refl _

theorem Sim.sepLoop {sep : Parser Unit} {p q : Parser α} (hsep : Safe C sep) (hs : Safe C p) (h : Sim C p q) (n : Nat) :
    Sim C (sepLoop sep p n) (sepLoop sep q n) := by
  induction n with
  | zero => exact Sim.refl _
  | succ n ih =>
    intro i hi
    unfold Re.sepLoop
    have h1 := hsep i hi
    cases hr : sep i with
    | ok j u =>
      rw [hr] at h1
      dsimp only
      split
      · exact Or.inl rfl
      · have hj := C.dom_mono h1.1 h1.2 hi
        rcases h j hj with h | h
        · rw [← h]
          have hs := hs j hj
          cases hq : p j with
          | ok k a =>
            rw [hq] at hs
            dsimp only
            unfold Parser.bind
            rcases ih k (C.dom_mono hs.1 hs.2 hj) with h' | h'
            · rw [h']; exact Or.inl rfl
            · rw [h']; exact Or.inr rfl
          | err e => exact Or.inl rfl
          | fail e => exact Or.inl rfl
          | panic => exact Or.inl rfl
          | hang => exact Or.inl rfl
        · rw [h]; exact Or.inr rfl
    | err e => exact Or.inl rfl
    | fail e => exact Or.inl rfl
    | panic => exact Or.inl rfl
    | hang => exact Or.inl rfl

end

section
variable {L L' n : Nat} {e e' : Parser Ast}

theorem sim_members (he : Safe (ctx L n) e) (h : Sim (ctx L n) e e') :
    Sim (ctx L n) (alt (nonCapturingGroup e) [captureGroup e, namedCaptureGroup e])
      (alt (nonCapturingGroup e') [captureGroup e', namedCaptureGroup e']) := by
  have tail : ∀ k : GroupKind, Sim (ctx L n) (do let inner ← e; tag [')']; pure (Ast.group k inner))
      (do let inner ← e'; tag [')']; pure (Ast.group k inner)) :=
    fun k => Sim.bind he h fun _ => Sim.refl _
  refine Sim.orElse ?_ (Sim.orElse ?_ (Sim.orElse ?_ ?_))
  · exact Sim.bind (Safe.tag _) (Sim.refl _) fun _ => Sim.bind safe_flags (Sim.refl _) fun _ =>
      Sim.bind (Safe.tag _) (Sim.refl _) fun _ => tail _
  · exact Sim.bind (Safe.tag _) (Sim.refl _) fun _ => tail _
  · refine Sim.bind (Safe.alt (Safe.tag _) ?_) (Sim.refl _) fun _ => Sim.bind safe_captureGroupName (Sim.refl _) fun _ =>
      Sim.bind (Safe.tag _) (Sim.refl _) fun _ => tail _
    intro q hq
    simp only [List.mem_cons, List.not_mem_nil, or_false] at hq
    subst hq
    exact Safe.tag _
  · exact Sim.bind (Safe.tag _) (Sim.refl _) fun _ => Sim.bind safe_captureGroupName (Sim.refl _) fun _ =>
      Sim.bind (Safe.tag _) (Sim.refl _) fun _ => tail _

theorem sim_group (hL : L ≤ L') (he : Safe (ctx L n) e) (h : Sim (ctx L n) e e') :
    Sim (ctx L (n + 1)) (group L e) (group L' e') := by
  intro i hi
  have h2 := hi.2
  unfold group
  dsimp only
  split
  · exact Or.inr rfl
  · rw [if_neg (by omega)]
    rcases sim_members he h { i with depth := i.depth + 1 } ⟨by dsimp only; omega, by dsimp only; omega⟩ with h' | h'
    · rw [h']; exact Or.inl rfl
    · rw [h']; exact Or.inr rfl

theorem sim_atomic (hL : L ≤ L') (he : Safe (ctx L n) e) (h : Sim (ctx L n) e e') :
    Sim (ctx L (n + 1)) (atomic L e) (atomic L' e') := by
  refine Sim.bind ?_ ?_ fun _ => Sim.refl _
  · refine Safe.alt safe_quoteExpression ?_
    intro q hq
    simp only [List.mem_cons, List.not_mem_nil, or_false] at hq
    rcases hq with rfl | rfl | rfl | rfl | rfl
    · exact Safe.bind safe_flagsExpression fun _ => Safe.pure _
    · exact safe_group he
    · exact Safe.bind safe_assertion fun _ => Safe.pure _
    · exact Safe.bind safe_characterClass fun _ => Safe.pure _
    · exact Safe.bind (safe_literal _) fun _ => Safe.pure _
  · exact Sim.orElse (Sim.refl _) (Sim.orElse (Sim.refl _) (Sim.orElse (sim_group hL he h) (Sim.refl _)))

theorem sim_concat (hL : L ≤ L') (he : Safe (ctx L n) e) (h : Sim (ctx L n) e e') :
    Sim (ctx L (n + 1)) (concatExpression L e) (concatExpression L' e') :=
  Sim.bind (Safe.many1 (safe_atomic he)) (Sim.many1 (safe_atomic he) (sim_atomic hL he h)) fun _ => Sim.refl _

theorem sim_alternate (hL : L ≤ L') (he : Safe (ctx L n) e) (h : Sim (ctx L n) e e') :
    Sim (ctx L (n + 1)) (alternateExpression L e) (alternateExpression L' e') := by
  have hc := Safe.opt (safe_concat he)
  have sc := Sim.opt (sim_concat hL he h)
  refine Sim.bind (Safe.separatedList1 (Safe.tag _) hc) ?_ fun _ => Sim.refl _
  exact Sim.bind hc sc fun _ => Sim.bind (fun _ hi => Safe.sepLoop (Safe.tag _) hc hi (Nat.lt_succ_self _))
    (fun i hi => Sim.sepLoop (Safe.tag _) hc sc _ i hi) fun _ => Sim.refl _

end

/-- A lower limit only adds depth failures, and more fuel changes nothing. -/
theorem sim_expression {L L' : Nat} (hL : L ≤ L') (n k : Nat) :
    Sim (ctx L n) (expression L n) (expression L' (n + k)) := by
  induction n with
  | zero =>
    intro i hi
    have h1 := hi.1
    have h2 := hi.2
    omega
  | succ n ih =>
    rw [Nat.add_right_comm]
    exact sim_alternate hL (safe_expression L n) ih

theorem safe_more_fuel (L n k : Nat) : Safe (ctx L n) (expression L (n + k)) := by
  intro i hi
  have h := safe_expression L (n + k) i ⟨hi.1, by have := hi.2; omega⟩
  cases hr : expression L (n + k) i <;> rw [hr] at h <;> exact h

theorem sim_less_fuel (L n k : Nat) : Sim (ctx L n) (expression L (n + k)) (expression L n) := by
  induction n with
  | zero =>
    intro i hi
    have h1 := hi.1
    have h2 := hi.2
    omega
  | succ n ih =>
    rw [Nat.add_right_comm]
    exact sim_alternate (Nat.le_refl _) (safe_more_fuel L n k) ih

/-- More fuel changes nothing. -/
theorem expression_fuel {L n k : Nat} {i : Input} (hi : (ctx L n).dom i) :
    expression L (n + k) i = expression L n i := by
  rcases sim_less_fuel L n k i hi with h | h
  · exact h
  · rcases sim_expression (Nat.le_refl L) n k i hi with h' | h'
    · exact h'.symm
    · rw [h, h']

/-! ## Accepted expressions respect the limit -/

section
variable {L : Nat} {e : Parser Ast}

theorem opt_ok {α : Type} {p : Parser α} {i j : Input} {o : Option α} :
    opt p i = .ok j o ↔ (∃ a, p i = .ok j a ∧ o = some a) ∨ ((∃ x, p i = .err x) ∧ j = i ∧ o = none) := by
  unfold opt
  cases p i with
  | ok k a =>
    simp only [PR.ok.injEq, reduceCtorEq, exists_false, false_and, or_false]
    constructor
    · rintro ⟨rfl, rfl⟩; exact ⟨a, ⟨rfl, rfl⟩, rfl⟩
    · rintro ⟨b, ⟨rfl, rfl⟩, rfl⟩; exact ⟨rfl, rfl⟩
  | err x =>
    simp only [PR.ok.injEq, reduceCtorEq, false_and, exists_false, false_or, PR.err.injEq, exists_eq', true_and]
    constructor
    · rintro ⟨rfl, rfl⟩; exact ⟨rfl, rfl⟩
    · rintro ⟨rfl, rfl⟩; exact ⟨rfl, rfl⟩
  | fail x => simp
  | panic => simp
  | hang => simp

theorem opt_not_err {α : Type} {p : Parser α} {i : Input} {x : PErr} (h : opt p i = .err x) : False := by
  unfold opt at h
  cases hp : p i <;> rw [hp] at h <;> cases h

theorem group_not_fail_depth {i : Input} (h : group L e i ≠ .fail .exceededDepthLimit) : i.depth + 1 ≤ L := by
  unfold group at h
  dsimp only at h
  by_cases hd : i.depth + 1 > L
  · rw [if_pos hd] at h; exact absurd rfl h
  · omega

theorem atomic_err_depth {i : Input} {x : PErr} (h : atomic L e i = .err x) : i.depth + 1 ≤ L := by
  refine group_not_fail_depth (e := e) ?_
  intro hg
  have h1 := bind_err.1 h
  rcases h1 with h1 | ⟨j, a, h1, h2⟩
  · have h2 := (orElse_err.1 h1).2
    have h3 := (orElse_err.1 h2).2
    obtain ⟨y, h4⟩ := (orElse_err.1 h3).1
    rw [hg] at h4
    cases h4
  · rcases bind_err.1 h2 with h3 | ⟨k, q, h3, h4⟩
    · exact opt_not_err h3
    · cases q <;> cases h4

theorem tail_ok {k : GroupKind} {i j : Input} {a : Ast}
    (h : (do let inner ← e; tag [')']; pure (Ast.group k inner) : Parser Ast) i = .ok j a) :
    ∃ r inner, e i = .ok r inner ∧ r.value = ')' :: j.value ∧ j.depth = r.depth ∧ a = .group k inner := by
  obtain ⟨r, inner, h1, h2⟩ := bind_ok.1 h
  obtain ⟨s, u, h3, h4⟩ := bind_ok.1 h2
  obtain ⟨rfl, rfl⟩ := pure_ok.1 h4
  obtain ⟨h5, h6⟩ := tag_ok.1 h3
  exact ⟨r, inner, h1, h5, h6, rfl⟩

/-- The parsers of the groups up to the inner expression. -/
def openNonCapturing : Parser GroupKind := do
  tag ['(', '?']
  let f ← flags
  tag [':']
  pure (.nonCapturing f)

def openCapture : Parser GroupKind := do
  tag ['(']
  pure .capturing

def openNamed : Parser GroupKind := do
  alt (tag ['(', '?', '<']) [tag ['(', '?', 'P', '<']]
  let name ← captureGroupName
  tag ['>']
  pure (.namedCapturing name)

def openQuoted : Parser GroupKind := do
  tag ['(', '?', '\'']
  let name ← captureGroupName
  tag ['\'']
  pure (.namedCapturing name)

/-- A group: its opening, the inner expression, and the closing parenthesis. -/
def grp (o : Parser GroupKind) (e : Parser Ast) : Parser Ast :=
  o >>= fun k => do
    let inner ← e
    tag [')']
    pure (.group k inner)

theorem nonCapturing_grp : nonCapturingGroup e = grp openNonCapturing e := by
  simp only [nonCapturingGroup, grp, openNonCapturing, pbind_assoc, pure_pbind]

theorem capture_grp : captureGroup e = grp openCapture e := by
  simp only [captureGroup, grp, openCapture, pbind_assoc, pure_pbind]

theorem named_grp : namedCaptureGroup e = Parser.orElse (grp openNamed e) (grp openQuoted e) := by
  simp only [namedCaptureGroup, grp, openNamed, openQuoted, pbind_assoc, pure_pbind, alt]

theorem members_grp : alt (nonCapturingGroup e) [captureGroup e, namedCaptureGroup e] =
    Parser.orElse (grp openNonCapturing e) (Parser.orElse (grp openCapture e)
      (Parser.orElse (grp openNamed e) (grp openQuoted e))) := by
  simp only [alt, nonCapturing_grp, capture_grp, named_grp]

/-- The context without conditions. -/
def anyCtx : Ctx where
  dom _ := True
  bad _ _ := True
  dom_mono _ _ h := h
  bad_mono _ _ h := h
  bad_syntax _ := trivial

theorem safe_openNonCapturing {C : Ctx} : Safe C openNonCapturing :=
  Safe.bind (Safe.tag _) fun _ => Safe.bind safe_flags fun _ => Safe.bind (Safe.tag _) fun _ => Safe.pure _

theorem safe_openCapture {C : Ctx} : Safe C openCapture := Safe.bind (Safe.tag _) fun _ => Safe.pure _

theorem safe_openNamed {C : Ctx} : Safe C openNamed := by
  refine Safe.bind (Safe.alt (Safe.tag _) ?_) fun _ => Safe.bind safe_captureGroupName fun _ =>
    Safe.bind (Safe.tag _) fun _ => Safe.pure _
  intro q hq
  simp only [List.mem_cons, List.not_mem_nil, or_false] at hq
  subst hq
  exact Safe.tag _

theorem safe_openQuoted {C : Ctx} : Safe C openQuoted :=
  Safe.bind (Safe.tag _) fun _ => Safe.bind safe_captureGroupName fun _ => Safe.bind (Safe.tag _) fun _ => Safe.pure _

theorem Safe.ok {α : Type} {p : Parser α} (h : Safe anyCtx p) {i j : Input} {a : α} (hp : p i = .ok j a) :
    j.depth = i.depth ∧ j.value <:+ i.value := by
  have := h i trivial
  rw [hp] at this
  exact this

theorem grp_ok {o : Parser GroupKind} {i j : Input} {a : Ast} (ho : Safe anyCtx o) (h : grp o e i = .ok j a) :
    ∃ k kd r inner, o i = .ok k kd ∧ k.depth = i.depth ∧ e k = .ok r inner ∧ r.value = ')' :: j.value ∧
      j.depth = r.depth ∧ a = .group kd inner := by
  obtain ⟨k, kd, h1, h2⟩ := bind_ok.1 h
  obtain ⟨r, inner, h3, h4, h5, h6⟩ := tail_ok h2
  exact ⟨k, kd, r, inner, h1, (ho.ok h1).1, h3, h4, h5, h6⟩

theorem members_ok {i j : Input} {a : Ast}
    (h : alt (nonCapturingGroup e) [captureGroup e, namedCaptureGroup e] i = .ok j a) :
    ∃ k kd r inner, k.depth = i.depth ∧ e k = .ok r inner ∧ a = .group kd inner := by
  rw [members_grp] at h
  rcases orElse_ok.1 h with h | ⟨_, h⟩
  · obtain ⟨k, kd, r, inner, _, hd, he, _, _, ha⟩ := grp_ok safe_openNonCapturing h
    exact ⟨k, kd, r, inner, hd, he, ha⟩
  rcases orElse_ok.1 h with h | ⟨_, h⟩
  · obtain ⟨k, kd, r, inner, _, hd, he, _, _, ha⟩ := grp_ok safe_openCapture h
    exact ⟨k, kd, r, inner, hd, he, ha⟩
  rcases orElse_ok.1 h with h | ⟨_, h⟩
  · obtain ⟨k, kd, r, inner, _, hd, he, _, _, ha⟩ := grp_ok safe_openNamed h
    exact ⟨k, kd, r, inner, hd, he, ha⟩
  · obtain ⟨k, kd, r, inner, _, hd, he, _, _, ha⟩ := grp_ok safe_openQuoted h
    exact ⟨k, kd, r, inner, hd, he, ha⟩

theorem group_ok {i j : Input} {a : Ast} (h : group L e i = .ok j a) :
    i.depth + 1 ≤ L ∧ ∃ r, alt (nonCapturingGroup e) [captureGroup e, namedCaptureGroup e]
      { i with depth := i.depth + 1 } = .ok r a ∧ j = { r with depth := r.depth - 1 } := by
  unfold group at h
  dsimp only at h
  split at h
  · cases h
  · next hd =>
    split at h
    · next r g hr => cases h; exact ⟨by omega, r, hr, rfl⟩
    all_goals cases h

theorem quote_nesting {i j : Input} {a : Ast} (h : quoteExpression i = .ok j a) : nesting a = 0 := by
  obtain ⟨k, l, _, h2⟩ := bind_ok.1 h
  have key : ∀ l : Str, nestings (l.map fun c => Ast.literal { c := c, escaped := true }) = 0 := by
    intro l
    induction l with
    | nil => simp [nestings]
    | cons c l ih => simp [nestings, nesting, ih]
  match l, h2 with
  | [], h2 => obtain ⟨_, rfl⟩ := pure_ok.1 h2; simp [nesting]
  | [c], h2 => obtain ⟨_, rfl⟩ := pure_ok.1 h2; simp [nesting]
  | c :: d :: l, h2 =>
    obtain ⟨_, rfl⟩ := pure_ok.1 h2
    simpa [nesting] using key (c :: d :: l)

theorem atomic_ok_nesting {i : Input}
    (he : ∀ k j a, k.depth = i.depth + 1 → i.depth + 1 ≤ L → e k = .ok j a → i.depth + 1 + nesting a + 1 ≤ L)
    {j : Input} {a : Ast} (h : atomic L e i = .ok j a) : nesting a = 0 ∨ i.depth + nesting a + 1 ≤ L := by
  obtain ⟨k, inner, h1, h2⟩ := bind_ok.1 h
  have hin : nesting inner = 0 ∨ i.depth + nesting inner + 1 ≤ L := by
    rcases orElse_ok.1 h1 with h | ⟨_, h⟩
    · exact Or.inl (quote_nesting h)
    rcases orElse_ok.1 h with h | ⟨_, h⟩
    · obtain ⟨_, _, _, h⟩ := bind_ok.1 h
      obtain ⟨_, rfl⟩ := pure_ok.1 h
      exact Or.inl (by simp [nesting])
    rcases orElse_ok.1 h with h | ⟨_, h⟩
    · obtain ⟨hl, r, hm, _⟩ := group_ok h
      obtain ⟨k, kd, r, inner', hd, he', rfl⟩ := members_ok hm
      have := he k r inner' hd hl he'
      right
      simp only [nesting]
      dsimp only at hd
      omega
    rcases orElse_ok.1 h with h | ⟨_, h⟩
    · obtain ⟨_, _, _, h⟩ := bind_ok.1 h
      obtain ⟨_, rfl⟩ := pure_ok.1 h
      exact Or.inl (by simp [nesting])
    rcases orElse_ok.1 h with h | ⟨_, h⟩
    · obtain ⟨_, _, _, h⟩ := bind_ok.1 h
      obtain ⟨_, rfl⟩ := pure_ok.1 h
      exact Or.inl (by simp [nesting])
    · obtain ⟨_, _, _, h⟩ := bind_ok.1 h
      obtain ⟨_, rfl⟩ := pure_ok.1 h
      exact Or.inl (by simp [nesting])
  obtain ⟨m, q, h3, h4⟩ := bind_ok.1 h2
  cases q with
  | none => obtain ⟨_, rfl⟩ := pure_ok.1 h4; exact hin
  | some q => obtain ⟨_, rfl⟩ := pure_ok.1 h4; simpa [nesting] using hin

theorem manyLoop_ok {α : Type} {p : Parser α} {n : Nat} {i j : Input} {l : List α} (h : manyLoop p n i = .ok j l)
    (hs : ∀ i k a, p i = .ok k a → k.depth = i.depth) :
    (∃ x, p j = .err x) ∧ j.depth = i.depth ∧
      ∀ a ∈ l, ∃ k r, k.depth = i.depth ∧ p k = .ok r a := by
  induction n generalizing i l with
  | zero => cases h
  | succ n ih =>
    unfold manyLoop at h
    cases hp : p i with
    | ok k a =>
      rw [hp] at h
      dsimp only at h
      split at h
      · cases h
      · obtain ⟨m, l', h1, h2⟩ := bind_ok.1 h
        obtain ⟨rfl, rfl⟩ := pure_ok.1 h2
        obtain ⟨h3, h4, h5⟩ := ih h1
        have hk := hs i k a hp
        refine ⟨h3, h4.trans hk, ?_⟩
        intro b hb
        rcases List.mem_cons.1 hb with rfl | hb
        · exact ⟨i, k, rfl, hp⟩
        · obtain ⟨x, y, h6, h7⟩ := h5 b hb
          exact ⟨x, y, h6.trans hk, h7⟩
    | err x =>
      rw [hp] at h
      cases h
      exact ⟨⟨x, hp⟩, rfl, fun a ha => by cases ha⟩
    | fail x => rw [hp] at h; cases h
    | panic => rw [hp] at h; cases h
    | hang => rw [hp] at h; cases h

theorem nestings_le {l : List Ast} {n : Nat} : nestings l ≤ n ↔ ∀ a ∈ l, nesting a ≤ n := by
  induction l with
  | nil => simp [nestings]
  | cons a l ih => simp [nestings, Nat.max_le, ih]

theorem many1_ok {α : Type} {p : Parser α} {i j : Input} {l : List α} (h : many1 p i = .ok j l)
    (hs : ∀ i k a, p i = .ok k a → k.depth = i.depth) :
    (∃ x, p j = .err x) ∧ j.depth = i.depth ∧ ∀ a ∈ l, ∃ k r, k.depth = i.depth ∧ p k = .ok r a := by
  obtain ⟨k, a, h1, h2⟩ := bind_ok.1 h
  obtain ⟨m, l', h3, h4⟩ := bind_ok.1 h2
  obtain ⟨rfl, rfl⟩ := pure_ok.1 h4
  obtain ⟨h5, h6, h7⟩ := manyLoop_ok h3 hs
  have hk := hs i k a h1
  refine ⟨h5, h6.trans hk, ?_⟩
  intro b hb
  rcases List.mem_cons.1 hb with rfl | hb
  · exact ⟨i, k, rfl, h1⟩
  · obtain ⟨x, y, h8, h9⟩ := h7 b hb
    exact ⟨x, y, h8.trans hk, h9⟩

end

/-- Parsers that keep the depth when they succeed. -/
def Keeps {α : Type} (p : Parser α) : Prop := ∀ i j a, p i = .ok j a → j.depth = i.depth

section
variable {α β : Type}

theorem Safe.keeps {p : Parser α} (h : Safe anyCtx p) : Keeps p := fun _ _ _ hp => (h.ok hp).1

theorem Keeps.bind {p : Parser α} {f : α → Parser β} (hp : Keeps p) (hf : ∀ a, Keeps (f a)) : Keeps (p >>= f) := by
  intro i j b h
  obtain ⟨k, a, h1, h2⟩ := bind_ok.1 h
  exact (hf a k j b h2).trans (hp i k a h1)

theorem Keeps.orElse {p q : Parser α} (hp : Keeps p) (hq : Keeps q) : Keeps (Parser.orElse p q) := by
  intro i j a h
  rcases orElse_ok.1 h with h | ⟨_, h⟩
  · exact hp i j a h
  · exact hq i j a h

theorem Keeps.opt {p : Parser α} (hp : Keeps p) : Keeps (opt p) := by
  intro i j a h
  rcases opt_ok.1 h with ⟨b, h, _⟩ | ⟨_, h, _⟩
  · exact hp i j b h
  · rw [h]

theorem Keeps.pure (a : α) : Keeps (Pure.pure a : Parser α) := by
  intro i j b h
  rw [(pure_ok.1 h).1]

theorem Keeps.many0 {p : Parser α} (hp : Keeps p) : Keeps (many0 p) := by
  intro i j l h
  exact (manyLoop_ok h hp).2.1

theorem Keeps.sepLoop {sep : Parser Unit} {p : Parser α} (hs : Keeps sep) (hp : Keeps p) (n : Nat) :
    Keeps (sepLoop sep p n) := by
  induction n with
  | zero => intro i j l h; cases h
  | succ n ih =>
    intro i j l h
    unfold Re.sepLoop at h
    cases h1 : sep i with
    | ok k u =>
      rw [h1] at h
      dsimp only at h
      split at h
      · cases h
      · cases h2 : p k with
        | ok m a =>
          rw [h2] at h
          obtain ⟨x, l', h3, h4⟩ := bind_ok.1 h
          obtain ⟨rfl, rfl⟩ := pure_ok.1 h4
          exact (ih m j l' h3).trans ((hp k m a h2).trans (hs i k u h1))
        | err x => rw [h2] at h; cases h; rfl
        | fail x => rw [h2] at h; cases h
        | panic => rw [h2] at h; cases h
        | hang => rw [h2] at h; cases h
    | err x => rw [h1] at h; cases h; rfl
    | fail x => rw [h1] at h; cases h
    | panic => rw [h1] at h; cases h
    | hang => rw [h1] at h; cases h

theorem keeps_grp {o : Parser GroupKind} {e : Parser Ast} (ho : Safe anyCtx o) (he : Keeps e) : Keeps (grp o e) :=
  Keeps.bind ho.keeps fun _ => Keeps.bind he fun _ => Keeps.bind (Safe.keeps (Safe.tag _)) fun _ => Keeps.pure _

theorem keeps_group {L : Nat} {e : Parser Ast} (he : Keeps e) : Keeps (group L e) := by
  intro i j a h
  obtain ⟨_, r, hr, rfl⟩ := group_ok h
  rw [members_grp] at hr
  have := Keeps.orElse (keeps_grp safe_openNonCapturing he) (Keeps.orElse (keeps_grp safe_openCapture he)
    (Keeps.orElse (keeps_grp safe_openNamed he) (keeps_grp safe_openQuoted he))) _ _ _ hr
  dsimp only at this ⊢
  omega

theorem keeps_atomic {L : Nat} {e : Parser Ast} (he : Keeps e) : Keeps (atomic L e) := by
  refine Keeps.bind ?_ fun _ => Keeps.bind (Keeps.opt (Safe.keeps safe_quantifier)) fun q => ?_
  · exact Keeps.orElse (Safe.keeps safe_quoteExpression) (Keeps.orElse
      (Safe.keeps (Safe.bind safe_flagsExpression fun _ => Safe.pure _)) (Keeps.orElse (keeps_group he) (Keeps.orElse
        (Safe.keeps (Safe.bind safe_assertion fun _ => Safe.pure _)) (Keeps.orElse
          (Safe.keeps (Safe.bind safe_characterClass fun _ => Safe.pure _))
            (Safe.keeps (Safe.bind (safe_literal _) fun _ => Safe.pure _))))))
  · split <;> exact Keeps.pure _

theorem keeps_concat {L : Nat} {e : Parser Ast} (he : Keeps e) : Keeps (concatExpression L e) := by
  refine Keeps.bind (Keeps.bind (keeps_atomic he) fun _ => Keeps.bind (Keeps.many0 (keeps_atomic he)) fun _ =>
    Keeps.pure _) fun l => ?_
  split <;> exact Keeps.pure _

theorem keeps_expression (L n : Nat) : Keeps (expression L n) := by
  induction n with
  | zero => intro i j a h; cases h
  | succ n ih =>
    have hc := Keeps.opt (keeps_concat (L := L) ih)
    refine Keeps.bind (Keeps.bind hc fun _ => Keeps.bind
      (fun i j l h => Keeps.sepLoop (Safe.keeps (Safe.tag _)) hc _ i j l h) fun _ => Keeps.pure _) fun l => ?_
    dsimp only
    split <;> exact Keeps.pure _

end

section
variable {L : Nat} {e : Parser Ast}

theorem concat_ok_nesting (hk : Keeps e) {i : Input}
    (he : ∀ k j a, k.depth = i.depth + 1 → i.depth + 1 ≤ L → e k = .ok j a → i.depth + 1 + nesting a + 1 ≤ L)
    {j : Input} {a : Ast} (h : concatExpression L e i = .ok j a) : i.depth + nesting a + 1 ≤ L := by
  obtain ⟨k, l, h1, h2⟩ := bind_ok.1 h
  obtain ⟨⟨x, h3⟩, h4, h5⟩ := many1_ok h1 (keeps_atomic hk)
  have hd := atomic_err_depth h3
  have hl : ∀ b ∈ l, i.depth + nesting b + 1 ≤ L := by
    intro b hb
    obtain ⟨k, r, h6, h7⟩ := h5 b hb
    rcases atomic_ok_nesting (i := k) (by rw [h6]; exact he) h7 with h8 | h8 <;> omega
  split at h2
  · next b =>
    obtain ⟨_, rfl⟩ := pure_ok.1 h2
    exact hl _ List.mem_cons_self
  · obtain ⟨_, rfl⟩ := pure_ok.1 h2
    simp only [nesting]
    have : nestings l ≤ L - i.depth - 1 := nestings_le.2 fun b hb => by have := hl b hb; omega
    omega

theorem many1_err {α : Type} {p : Parser α} {i : Input} {x : PErr} (h : many1 p i = .err x) :
    p i = .err x ∨ ∃ j a, p i = .ok j a ∧ many0 p j = .err x := by
  rcases bind_err.1 h with h | ⟨j, a, h1, h2⟩
  · exact Or.inl h
  · rcases bind_err.1 h2 with h | ⟨k, l, h3, h4⟩
    · exact Or.inr ⟨j, a, h1, h⟩
    · cases h4

theorem sepLoop_mem {α : Type} {sep : Parser Unit} {p : Parser α} (hs : Keeps sep) (hp : Keeps p) {n : Nat}
    {i j : Input} {l : List α} (h : sepLoop sep p n i = .ok j l) :
    ∀ a ∈ l, ∃ k r, k.depth = i.depth ∧ p k = .ok r a := by
  induction n generalizing i l with
  | zero => cases h
  | succ n ih =>
    unfold sepLoop at h
    cases h1 : sep i with
    | ok k u =>
      rw [h1] at h
      dsimp only at h
      split at h
      · cases h
      · cases h2 : p k with
        | ok m a =>
          rw [h2] at h
          obtain ⟨x, l', h3, h4⟩ := bind_ok.1 h
          obtain ⟨rfl, rfl⟩ := pure_ok.1 h4
          intro b hb
          rcases List.mem_cons.1 hb with rfl | hb
          · exact ⟨k, m, hs i k u h1, h2⟩
          · obtain ⟨x, y, h5, h6⟩ := ih h3 b hb
            exact ⟨x, y, h5.trans ((hp k m a h2).trans (hs i k u h1)), h6⟩
        | err x => rw [h2] at h; cases h; intro b hb; cases hb
        | fail x => rw [h2] at h; cases h
        | panic => rw [h2] at h; cases h
        | hang => rw [h2] at h; cases h
    | err x => rw [h1] at h; cases h; intro b hb; cases hb
    | fail x => rw [h1] at h; cases h
    | panic => rw [h1] at h; cases h
    | hang => rw [h1] at h; cases h

end

/-! ## Progress -/

/-- The parser consumes something when it succeeds. -/
def Prog {α : Type} (C : Ctx) (p : Parser α) : Prop :=
  ∀ i j a, C.dom i → p i = .ok j a → blen j.value < blen i.value

section
variable {α β : Type} {C : Ctx}

theorem Prog.left {p : Parser α} {f : α → Parser β} (hs : Safe C p) (hp : Prog C p) (hf : ∀ a, Safe C (f a)) :
    Prog C (p >>= f) := by
  intro i j b hi h
  obtain ⟨k, a, h1, h2⟩ := bind_ok.1 h
  have h3 := hp i k a hi h1
  have h4 := hs i hi
  rw [h1] at h4
  have h5 := hf a k (C.dom_mono h4.1 h4.2 hi)
  rw [h2] at h5
  have := blen_suffix h5.2
  omega

theorem Prog.right {p : Parser α} {f : α → Parser β} (hs : Safe C p) (hf : ∀ a, Prog C (f a)) : Prog C (p >>= f) := by
  intro i j b hi h
  obtain ⟨k, a, h1, h2⟩ := bind_ok.1 h
  have h4 := hs i hi
  rw [h1] at h4
  have h5 := hf a k j b (C.dom_mono h4.1 h4.2 hi) h2
  have := blen_suffix h4.2
  omega

theorem Prog.orElse {p q : Parser α} (hp : Prog C p) (hq : Prog C q) : Prog C (Parser.orElse p q) := by
  intro i j a hi h
  rcases orElse_ok.1 h with h | ⟨_, h⟩
  · exact hp i j a hi h
  · exact hq i j a hi h

theorem Prog.alt {p : Parser α} {l : List (Parser α)} (hp : Prog C p) (hl : ∀ q ∈ l, Prog C q) : Prog C (alt p l) := by
  induction l generalizing p with
  | nil => exact hp
  | cons q l ih =>
    exact Prog.orElse hp (ih (hl q List.mem_cons_self) (fun r hr => hl r (List.mem_cons_of_mem _ hr)))

theorem Prog.tag {c : Char} {t : Str} : Prog C (Re.tag (c :: t)) := by
  intro i j a _ h
  have h1 := (tag_ok.1 h).1
  rw [h1]
  have := Char.utf8Size_pos c
  simp
  omega

theorem Prog.tagged {c : Char} {t : Str} {a : α} : Prog C (tagged (c :: t) a) :=
  Prog.left (Safe.tag _) Prog.tag fun _ => Safe.pure _

theorem Prog.satisfy {f : Char → Bool} : Prog C (satisfy f) := by
  intro i j a _ h
  unfold Re.satisfy at h
  split at h
  · next c cs hc =>
    have := Char.utf8Size_pos c
    split at h
    · cases h
      rw [hc]
      simp
      omega
    · cases h
  · cases h

theorem prog_quote : Prog C quoteExpression := by
  refine Prog.left safe_quotedLiterals ?_ fun chars => ?_
  · exact Prog.left (Safe.tag _) Prog.tag fun _ => Safe.bind (Safe.takeUntil _) fun _ => Safe.bind (Safe.tag _) fun _ =>
      Safe.pure _
  · dsimp only
    split <;> exact Safe.pure _

theorem prog_assertion : Prog C assertion := by
  refine Prog.alt Prog.tagged ?_
  intro q hq
  simp only [List.mem_cons, List.not_mem_nil, or_false] at hq
  rcases hq with rfl | rfl | rfl | rfl | rfl | rfl <;> exact Prog.tagged

theorem prog_perl : Prog C perlCharacterClass := by
  refine Prog.alt Prog.tagged ?_
  intro q hq
  simp only [List.mem_cons, List.not_mem_nil, or_false] at hq
  rcases hq with rfl | rfl | rfl | rfl | rfl <;> exact Prog.tagged

theorem prog_unicode : Prog C unicodePropertyClass := by
  refine Prog.alt ?_ ?_
  · exact Prog.left (Safe.tag _) Prog.tag fun _ => Safe.bind safe_unicodePropertyName fun _ =>
      Safe.bind (Safe.tag _) fun _ => Safe.pure _
  · intro q hq
    simp only [List.mem_cons, List.not_mem_nil, or_false] at hq
    subst hq
    exact Prog.left (Safe.tag _) Prog.tag fun _ => Safe.bind safe_unicodePropertyName fun _ =>
      Safe.bind (Safe.tag _) fun _ => Safe.pure _

theorem prog_characterClass : Prog C characterClass := by
  refine Prog.alt Prog.tagged ?_
  intro q hq
  simp only [List.mem_cons, List.not_mem_nil, or_false] at hq
  rcases hq with rfl | rfl | rfl | rfl | rfl | rfl | rfl
  · exact Prog.tagged
  · exact Prog.tagged
  · exact Prog.tagged
  · exact Prog.tagged
  · exact Prog.left (Safe.tag _) Prog.tag fun _ => Safe.bind (Safe.opt (Safe.tag _)) fun _ =>
      Safe.bind (Safe.opt (Safe.tag _)) fun _ => Safe.bind (Safe.many0 safe_bracketItem) fun _ =>
        Safe.bind (Safe.tag _) fun _ => Safe.ite Safe.error (Safe.pure _)
  · exact Prog.left safe_perl prog_perl fun _ => Safe.pure _
  · exact Prog.left safe_unicodePropertyClass prog_unicode fun _ => Safe.pure _

theorem prog_escapedLiteral : Prog C escapedLiteral := by
  have hall : Safe C (Re.alt escapedControlSequence
    [tagged ['a'] (Char.ofNat 0x07), tagged ['b'] (Char.ofNat 0x08), tagged ['e'] (Char.ofNat 0x1B),
      tagged ['f'] (Char.ofNat 0x0C), tagged ['n'] '\n', tagged ['r'] '\r', tagged ['t'] '\t',
      tagged ['v'] (Char.ofNat 0x0B), hexEscapedLiteral]) := by
    refine Safe.alt safe_escapedControl ?_
    intro q hq
    simp only [List.mem_cons, List.not_mem_nil, or_false] at hq
    rcases hq with rfl | rfl | rfl | rfl | rfl | rfl | rfl | rfl | rfl <;>
      first | exact Safe.tagged _ _ | exact safe_hex
  refine Prog.left hall (Prog.alt ?_ ?_) fun _ => Safe.pure _
  · intro i j a _ h
    obtain ⟨k, u, h1, h2⟩ := bind_ok.1 h
    have h3 := Prog.tag (C := anyCtx) i k u trivial h1
    obtain ⟨m, c, h4, h5⟩ := bind_ok.1 h2
    have h6 := Prog.satisfy (C := anyCtx) k m c trivial h4
    have : j = m := by
      cases hc : charFromU32 (asciiLower c - 97 + 1) with
      | some d => rw [hc] at h5; exact (pure_ok.1 h5).1
      | none => rw [hc] at h5; cases h5
    rw [this]
    omega
  · intro q hq
    simp only [List.mem_cons, List.not_mem_nil, or_false] at hq
    rcases hq with rfl | rfl | rfl | rfl | rfl | rfl | rfl | rfl | rfl
    · exact Prog.tagged
    · exact Prog.tagged
    · exact Prog.tagged
    · exact Prog.tagged
    · exact Prog.tagged
    · exact Prog.tagged
    · exact Prog.tagged
    · exact Prog.tagged
    · refine Prog.left (Safe.alt ?_ ?_) (Prog.alt ?_ ?_) fun a => ?_
      · exact Safe.bind (Safe.tag _) fun _ => Safe.bind (Safe.recognize (Safe.takeUntil _)) fun _ =>
          Safe.bind (Safe.tag _) fun _ => Safe.pure _
      · intro q hq
        simp only [List.mem_cons, List.not_mem_nil, or_false] at hq
        subst hq
        exact Safe.bind (Safe.tag _) fun _ => Safe.bind (Safe.recognize (Safe.manyUpTo (Safe.satisfy _) _)) fun _ =>
          Safe.pure _
      · exact Prog.left (Safe.tag _) Prog.tag fun _ => Safe.bind (Safe.recognize (Safe.takeUntil _)) fun _ =>
          Safe.bind (Safe.tag _) fun _ => Safe.pure _
      · intro q hq
        simp only [List.mem_cons, List.not_mem_nil, or_false] at hq
        subst hq
        exact Prog.left (Safe.tag _) Prog.tag fun _ =>
          Safe.bind (Safe.recognize (Safe.manyUpTo (Safe.satisfy _) _)) fun _ => Safe.pure _
      · obtain ⟨b, hex⟩ := a
        dsimp only
        refine Safe.bind ?_ (fun n => ?_)
        · refine Safe.ite ?_ (Safe.pure _)
          split
          · exact Safe.pure _
          · exact Safe.failure
        · split
          · exact Safe.pure _
          · exact Safe.failure

theorem prog_literal (kind : LiteralKind) : Prog C (literal kind) := by
  refine Prog.right (Safe.opt (Safe.tag _)) fun b => ?_
  split
  · refine Prog.alt prog_escapedLiteral ?_
    intro q hq
    simp only [List.mem_cons, List.not_mem_nil, or_false] at hq
    subst hq
    exact Prog.left (Safe.satisfy _) Prog.satisfy fun _ => Safe.pure _
  · refine Prog.left ?_ ?_ fun _ => Safe.pure _
    · split <;> exact Safe.satisfy _
    · split <;> exact Prog.satisfy

theorem prog_openings : Prog C openNonCapturing ∧ Prog C openCapture ∧ Prog C openNamed ∧ Prog C openQuoted := by
  refine ⟨?_, ?_, ?_, ?_⟩
  · exact Prog.left (Safe.tag _) Prog.tag fun _ => Safe.bind safe_flags fun _ => Safe.bind (Safe.tag _) fun _ =>
      Safe.pure _
  · exact Prog.left (Safe.tag _) Prog.tag fun _ => Safe.pure _
  · refine Prog.left (Safe.alt (Safe.tag _) ?_) (Prog.alt Prog.tag ?_) fun _ => Safe.bind safe_captureGroupName fun _ =>
      Safe.bind (Safe.tag _) fun _ => Safe.pure _
    · intro q hq
      simp only [List.mem_cons, List.not_mem_nil, or_false] at hq
      subst hq
      exact Safe.tag _
    · intro q hq
      simp only [List.mem_cons, List.not_mem_nil, or_false] at hq
      subst hq
      exact Prog.tag
  · exact Prog.left (Safe.tag _) Prog.tag fun _ => Safe.bind safe_captureGroupName fun _ => Safe.bind (Safe.tag _) fun _ =>
      Safe.pure _

end

theorem prog_group {L n : Nat} {e : Parser Ast} (he : Safe (ctx L n) e) : Prog (ctx L (n + 1)) (group L e) := by
  intro i j a hi h
  have h2 := hi.2
  obtain ⟨hd, r, hr, rfl⟩ := group_ok h
  rw [members_grp] at hr
  have tail : ∀ k : GroupKind, Safe (ctx L n) (do let inner ← e; tag [')']; pure (Ast.group k inner)) :=
    fun k => Safe.bind he fun _ => Safe.bind (Safe.tag _) fun _ => Safe.pure _
  have hp := prog_openings (C := ctx L n)
  exact Prog.orElse (Prog.left safe_openNonCapturing hp.1 tail) (Prog.orElse (Prog.left safe_openCapture hp.2.1 tail)
    (Prog.orElse (Prog.left safe_openNamed hp.2.2.1 tail) (Prog.left safe_openQuoted hp.2.2.2 tail)))
    { i with depth := i.depth + 1 } r a ⟨hd, by dsimp only; omega⟩ hr

theorem prog_atomic {L n : Nat} {e : Parser Ast} (he : Safe (ctx L n) e) : Prog (ctx L (n + 1)) (atomic L e) := by
  refine Prog.left (Safe.alt safe_quoteExpression ?_) (Prog.alt prog_quote ?_) fun _ =>
    Safe.bind (Safe.opt safe_quantifier) fun q => ?_
  · intro q hq
    simp only [List.mem_cons, List.not_mem_nil, or_false] at hq
    rcases hq with rfl | rfl | rfl | rfl | rfl
    · exact Safe.bind safe_flagsExpression fun _ => Safe.pure _
    · exact safe_group he
    · exact Safe.bind safe_assertion fun _ => Safe.pure _
    · exact Safe.bind safe_characterClass fun _ => Safe.pure _
    · exact Safe.bind (safe_literal _) fun _ => Safe.pure _
  · intro q hq
    simp only [List.mem_cons, List.not_mem_nil, or_false] at hq
    rcases hq with rfl | rfl | rfl | rfl | rfl
    · refine Prog.left safe_flagsExpression ?_ fun _ => Safe.pure _
      exact Prog.left (Safe.tag _) Prog.tag fun _ => Safe.bind safe_flags fun _ => Safe.bind (Safe.tag _) fun _ =>
        Safe.pure _
    · exact prog_group he
    · exact Prog.left safe_assertion prog_assertion fun _ => Safe.pure _
    · exact Prog.left safe_characterClass prog_characterClass fun _ => Safe.pure _
    · exact Prog.left (safe_literal _) (prog_literal _) fun _ => Safe.pure _
  · split <;> exact Safe.pure _

theorem manyLoop_not_err {α : Type} {C : Ctx} {p : Parser α} (hs : Safe C p) (hp : Prog C p) {n : Nat} {i : Input}
    {x : PErr} (hi : C.dom i) : manyLoop p n i ≠ .err x := by
  induction n generalizing i with
  | zero => intro h; cases h
  | succ n ih =>
    intro h
    unfold manyLoop at h
    have h1 := hs i hi
    cases hr : p i with
    | ok j a =>
      rw [hr] at h h1
      have h2 := hp i j a hi hr
      dsimp only at h
      rw [if_neg (by omega)] at h
      rcases bind_err.1 h with h | ⟨_, _, _, h⟩
      · exact ih (C.dom_mono h1.1 h1.2 hi) h
      · cases h
    | err e => rw [hr] at h; cases h
    | fail e => rw [hr] at h; cases h
    | panic => rw [hr] at h; cases h
    | hang => rw [hr] at h; cases h

theorem concat_err {L n : Nat} {e : Parser Ast} (he : Safe (ctx L n) e) {i : Input} (hi : (ctx L (n + 1)).dom i)
    {x : PErr} (h : concatExpression L e i = .err x) : atomic L e i = .err x := by
  rcases bind_err.1 h with h | ⟨j, l, _, h2⟩
  · rcases many1_err h with h | ⟨j, a, h1, h2⟩
    · exact h
    · have hs := safe_atomic he i hi
      rw [h1] at hs
      exact absurd h2 (manyLoop_not_err (safe_atomic he) (prog_atomic he) ((ctx L (n + 1)).dom_mono hs.1 hs.2 hi))
  · split at h2 <;> cases h2

/-- An accepted expression nests less deep than the limit allows. -/
theorem expression_nesting {L n : Nat} {i j : Input} {a : Ast} (hi : (ctx L n).dom i)
    (h : expression L n i = .ok j a) : i.depth + nesting a + 1 ≤ L := by
  induction n generalizing i j a with
  | zero => cases h
  | succ n ih =>
    have h1 := hi.1
    have h2 := hi.2
    have he : ∀ k j a, k.depth = i.depth + 1 → i.depth + 1 ≤ L → expression L n k = .ok j a →
        i.depth + 1 + nesting a + 1 ≤ L := by
      intro k j a hk hl h
      have := ih (i := k) ⟨by omega, by omega⟩ h
      omega
    have hkeep := keeps_expression L n
    have hc : ∀ k j o, k.depth = i.depth → opt (concatExpression L (expression L n)) k = .ok j o →
        i.depth + nesting (o.getD Ast.empty) + 1 ≤ L := by
      intro k j o hk h
      rcases opt_ok.1 h with ⟨b, h', rfl⟩ | ⟨⟨x, h'⟩, rfl, rfl⟩
      · have := concat_ok_nesting hkeep (by rw [hk]; exact he) h'
        rw [hk] at this
        exact this
      · have hx := concat_err (safe_expression L n) (i := j) ⟨by omega, by omega⟩ h'
        have := atomic_err_depth hx
        simp only [Option.getD_none, nesting]
        omega
    obtain ⟨k, l, h3, h4⟩ := bind_ok.1 h
    obtain ⟨m, o, h5, h6⟩ := bind_ok.1 h3
    obtain ⟨r, l', h7, h8⟩ := bind_ok.1 h6
    obtain ⟨rfl, rfl⟩ := pure_ok.1 h8
    have hkc := Keeps.opt (keeps_concat (L := L) hkeep)
    have hl : ∀ b ∈ (o :: l').map (fun c => c.getD Ast.empty), i.depth + nesting b + 1 ≤ L := by
      intro b hb
      simp only [List.mem_map] at hb
      obtain ⟨c, hc', rfl⟩ := hb
      rcases List.mem_cons.1 hc' with rfl | hc'
      · exact hc i m c rfl h5
      · obtain ⟨x, y, h9, h10⟩ := sepLoop_mem (Safe.keeps (Safe.tag _)) hkc h7 c hc'
        exact hc x y c (h9.trans (hkc i m o h5)) h10
    have h0 := hl (o.getD Ast.empty) (by simp)
    have hn : nestings ((o :: l').map (fun c => c.getD Ast.empty)) ≤ L - i.depth - 1 :=
      nestings_le.2 fun b hb => by have := hl b hb; omega
    cases l' with
    | nil =>
      obtain ⟨_, rfl⟩ := pure_ok.1 h4
      exact h0
    | cons o' l' =>
      obtain ⟨_, rfl⟩ := pure_ok.1 h4
      simp only [nesting]
      omega

/-! ## Patterns that do not nest too deeply are not rejected -/

/-- Does not start with an opening parenthesis. -/
def NoOpen (s : Str) : Prop := s.head? ≠ some '('

theorem strip_open {s : Str} (h : NoOpen s) (t : Str) : stripPrefix ('(' :: t) s = none := by
  cases s with
  | nil => rfl
  | cons c s =>
    simp only [stripPrefix]
    rw [if_neg]
    rintro rfl
    exact h rfl

theorem grp_of_err {o : Parser GroupKind} {e : Parser Ast} {i : Input} {x : PErr} (h : o i = .err x) :
    grp o e i = .err x := bind_of_err h

theorem open_err {i : Input} (h : NoOpen i.value) :
    openNonCapturing i = .err .invalidSyntax ∧ openCapture i = .err .invalidSyntax ∧
    openNamed i = .err .invalidSyntax ∧ openQuoted i = .err .invalidSyntax := by
  refine ⟨?_, ?_, ?_, ?_⟩
  · exact bind_of_err (tag_err (strip_open h _))
  · exact bind_of_err (tag_err (strip_open h _))
  · refine bind_of_err ?_
    simp only [alt]
    rw [orElse_of_err (tag_err (strip_open h _))]
    exact tag_err (strip_open h _)
  · exact bind_of_err (tag_err (strip_open h _))

theorem group_no_open {L : Nat} {e : Parser Ast} {i : Input} (hd : i.depth + 1 ≤ L) (h : NoOpen i.value) :
    group L e i = .err .invalidSyntax := by
  have ho := open_err (i := { i with depth := i.depth + 1 }) h
  unfold group
  dsimp only
  rw [if_neg (by omega), members_grp, orElse_of_err (grp_of_err ho.1), orElse_of_err (grp_of_err ho.2.1),
    orElse_of_err (grp_of_err ho.2.2.1), grp_of_err ho.2.2.2]

/-- Without an opening parenthesis the limit does not matter. -/
theorem atomic_no_open {L L' : Nat} {e e' : Parser Ast} {i : Input} (hd : i.depth + 1 ≤ L) (hL : L ≤ L')
    (h : NoOpen i.value) : atomic L e i = atomic L' e' i := by
  have h1 := group_no_open (e := e) hd h
  have h2 := group_no_open (L := L') (e := e') (by omega) h
  have : ∀ p q r : Parser Ast, Parser.orElse p (Parser.orElse q (Parser.orElse (group L e) r)) i =
      Parser.orElse p (Parser.orElse q (Parser.orElse (group L' e') r)) i := by
    intro p q r
    unfold Parser.orElse
    rw [h1, h2]
  show Parser.bind _ _ i = Parser.bind _ _ i
  unfold Parser.bind
  simp only [alt]
  rw [this]

/-- On a question mark nothing is parsed. -/
theorem atomic_question {L : Nat} {e : Parser Ast} {v : Str} {d : Nat} (hd : d + 1 ≤ L) :
    atomic L e { value := '?' :: v, depth := d } = .err .invalidSyntax := by
  have h1 := group_no_open (L := L) (e := e) (i := { value := '?' :: v, depth := d }) hd (by simp [NoOpen])
  refine bind_of_err ?_
  simp only [alt]
  rw [orElse_of_err (e := .invalidSyntax) rfl, orElse_of_err (e := .invalidSyntax) rfl, orElse_of_err h1,
    orElse_of_err (e := .invalidSyntax) rfl, orElse_of_err (e := .invalidSyntax) rfl]
  rfl

theorem expression_question {L n : Nat} {v : Str} {d : Nat} (hd : d + 1 ≤ L) :
    expression L (n + 1) { value := '?' :: v, depth := d } = .ok { value := '?' :: v, depth := d } .empty := by
  have h1 := atomic_question (e := expression L n) (v := v) hd
  have h2 : concatExpression L (expression L n) { value := '?' :: v, depth := d } = .err .invalidSyntax :=
    bind_of_err (bind_of_err h1)
  have h3 : opt (concatExpression L (expression L n)) { value := '?' :: v, depth := d } =
      .ok { value := '?' :: v, depth := d } none := by
    unfold opt
    rw [h2]
  show alternateExpression L (expression L n) _ = _
  refine (bind_of_ok (j := { value := '?' :: v, depth := d }) (a := [none]) ?_).trans ?_
  · refine (bind_of_ok h3).trans ?_
    refine (bind_of_ok (j := { value := '?' :: v, depth := d }) (a := []) ?_).trans rfl
    rfl
  · rfl

theorem flags_head {i j : Input} {f : Flags} {c : Char} {rest : Str} (h : flags i = .ok j f)
    (hj : j.value = ':' :: rest) (hv : i.value.head? = some c) : c ∈ [':', '-', 'i', 'm', 's', 'x'] := by
  obtain ⟨v, d⟩ := i
  cases v with
  | nil => cases hv
  | cons b v =>
    simp only [List.head?_cons, Option.some.injEq] at hv
    subst hv
    refine Decidable.byContradiction fun hn => ?_
    simp only [List.mem_cons, List.not_mem_nil, or_false, not_or] at hn
    have t : ∀ c, c ≠ b → ∀ t, tag (c :: t) { value := b :: v, depth := d } = .err .invalidSyntax := by
      intro c hc t
      exact tag_err (by simp [stripPrefix, hc])
    have hflag : flag { value := b :: v, depth := d } = .err .invalidSyntax := by
      simp only [flag, alt, tagged]
      rw [orElse_of_err (bind_of_err (t 'i' (Ne.symm hn.2.2.1) _)),
        orElse_of_err (bind_of_err (t 'm' (Ne.symm hn.2.2.2.1) _)),
        orElse_of_err (bind_of_err (t 's' (Ne.symm hn.2.2.2.2.1) _))]
      exact bind_of_err (t 'x' (Ne.symm hn.2.2.2.2.2) _)
    have hm : many0 flag { value := b :: v, depth := d } = .ok { value := b :: v, depth := d } [] := by
      unfold many0 manyLoop
      rw [hflag]
    obtain ⟨k, l, h1, h2⟩ := bind_ok.1 h
    rw [hm] at h1
    cases h1
    obtain ⟨k, o, h3, h4⟩ := bind_ok.1 h2
    obtain ⟨rfl, _⟩ := pure_ok.1 h4
    rcases opt_ok.1 h3 with ⟨a, h5, _⟩ | ⟨_, h5, _⟩
    · obtain ⟨k, u, h6, _⟩ := bind_ok.1 h5
      rw [t '-' (Ne.symm hn.2.1)] at h6
      cases h6
    · rw [h5] at hj
      simp only [List.cons.injEq] at hj
      exact hn.1 hj.1

theorem openNonCapturing_ok {i k : Input} {kd : GroupKind} (h : openNonCapturing i = .ok k kd) :
    ∃ c rest, i.value = '(' :: '?' :: c :: rest ∧ c ∈ [':', '-', 'i', 'm', 's', 'x'] := by
  obtain ⟨j, u, h1, h2⟩ := bind_ok.1 h
  obtain ⟨m, f, h3, h4⟩ := bind_ok.1 h2
  obtain ⟨r, u', h5, _⟩ := bind_ok.1 h4
  have h6 := (tag_ok.1 h1).1
  have h7 := (tag_ok.1 h5).1
  have h8 := (Safe.ok safe_flags h3).2
  cases hj : j.value with
  | nil =>
    rw [hj, h7] at h8
    simp at h8
  | cons c rest =>
    refine ⟨c, rest, by rw [h6, hj]; rfl, flags_head h3 h7 (by rw [hj]; rfl)⟩

theorem openNamed_ok {i k : Input} {kd : GroupKind} (h : openNamed i = .ok k kd) :
    ∃ c rest, i.value = '(' :: '?' :: c :: rest ∧ c ∈ ['<', 'P'] := by
  obtain ⟨j, u, h1, _⟩ := bind_ok.1 h
  simp only [alt] at h1
  rcases orElse_ok.1 h1 with h1 | ⟨_, h1⟩
  · exact ⟨'<', j.value, (tag_ok.1 h1).1, by simp⟩
  · exact ⟨'P', '<' :: j.value, (tag_ok.1 h1).1, by simp⟩

theorem openQuoted_ok {i k : Input} {kd : GroupKind} (h : openQuoted i = .ok k kd) :
    ∃ rest, i.value = '(' :: '?' :: '\'' :: rest := by
  obtain ⟨j, u, h1, _⟩ := bind_ok.1 h
  exact ⟨j.value, (tag_ok.1 h1).1⟩

section
variable {L L' n n' d : Nat}

/-- The claim for the inner expressions of groups. -/
def Exact (L d : Nat) (e e' : Parser Ast) : Prop :=
  ∀ i j a, i.depth = d → e' i = .ok j a → NoOpen j.value → i.depth + nesting a + 1 ≤ L → e i = .ok j a

theorem grp_exact {e e' : Parser Ast} {o : Parser GroupKind} (he : Exact L d e e') (ho : Safe anyCtx o)
    {i j : Input} {a : Ast} (hid : i.depth = d) (h : grp o e' i = .ok j a) (hn : i.depth + nesting a ≤ L) :
    grp o e i = .ok j a := by
  obtain ⟨k, kd, r, inner, h1, h2, h3, h4, h5, rfl⟩ := grp_ok ho h
  have h6 := he k r inner (h2.trans hid) h3 (by rw [h4]; simp [NoOpen]) (by simp only [nesting] at hn; omega)
  have h7 : tag [')'] r = .ok j () := tag_ok.2 ⟨h4, h5⟩
  exact (bind_of_ok h1).trans ((bind_of_ok h6).trans ((bind_of_ok h7).trans rfl))

/-- An opening parenthesis followed by a question mark is not a plain group. -/
theorem grp_capture_question {i : Input} {v : Str} (hd : i.depth + 1 ≤ L) (hv : i.value = '(' :: '?' :: v) :
    grp openCapture (expression L (n + 1)) i = .err .invalidSyntax := by
  have h0 : tag ['('] i = .ok { value := '?' :: v, depth := i.depth } () := tag_ok.2 ⟨hv, rfl⟩
  have h1 : openCapture i = .ok { value := '?' :: v, depth := i.depth } .capturing := (bind_of_ok h0).trans rfl
  refine (bind_of_ok h1).trans ((bind_of_ok (expression_question hd)).trans ?_)
  exact bind_of_err (tag_err rfl)

theorem members_exact (hL : L ≤ L') (he : Exact L d (expression L (n + 1)) (expression L' (n' + 1))) {i j : Input}
    {a : Ast}
    (h : alt (nonCapturingGroup (expression L' (n' + 1))) [captureGroup (expression L' (n' + 1)),
      namedCaptureGroup (expression L' (n' + 1))] i = .ok j a) (hid : i.depth = d) (hd : i.depth + 1 ≤ L) (hn : i.depth + nesting a ≤ L) :
    alt (nonCapturingGroup (expression L (n + 1))) [captureGroup (expression L (n + 1)),
      namedCaptureGroup (expression L (n + 1))] i = .ok j a := by
  rw [members_grp] at h ⊢
  rcases orElse_ok.1 h with h | ⟨⟨x1, g1⟩, h⟩
  · exact orElse_of_ok (grp_exact he safe_openNonCapturing hid h hn)
  -- the opening of a non-capturing group rules out the other groups
  have f1 : ∃ x, openNonCapturing i = .err x := by
    cases hq : openNonCapturing i with
    | ok k kd =>
      exfalso
      obtain ⟨c, rest, h1, h2⟩ := openNonCapturing_ok hq
      rw [orElse_of_err (grp_capture_question (by omega) h1)] at h
      rcases orElse_ok.1 h with h | ⟨_, h⟩
      · obtain ⟨k, kd, r, inner, h3, _⟩ := grp_ok safe_openNamed h
        obtain ⟨c', rest', h4, h5⟩ := openNamed_ok h3
        rw [h1] at h4
        simp only [List.cons.injEq, true_and] at h4
        rw [h4.1] at h2
        simp only [List.mem_cons, List.not_mem_nil, or_false] at h5
        rcases h5 with rfl | rfl <;> simp at h2
      · obtain ⟨k, kd, r, inner, h3, _⟩ := grp_ok safe_openQuoted h
        obtain ⟨rest', h4⟩ := openQuoted_ok h3
        rw [h1] at h4
        simp only [List.cons.injEq, true_and] at h4
        rw [h4.1] at h2
        simp at h2
    | err x => exact ⟨x, rfl⟩
    | fail x => rw [show grp openNonCapturing _ i = .fail x from bind_of_fail hq] at g1; cases g1
    | panic =>
      have := safe_openNonCapturing (C := anyCtx) i trivial
      rw [hq] at this; exact this.elim
    | hang =>
      have := safe_openNonCapturing (C := anyCtx) i trivial
      rw [hq] at this; exact this.elim
  obtain ⟨x, f1⟩ := f1
  rw [orElse_of_err (grp_of_err f1)]
  rcases orElse_ok.1 h with h | ⟨⟨x2, g2⟩, h⟩
  · exact orElse_of_ok (grp_exact he safe_openCapture hid h hn)
  rcases orElse_ok.1 h with h | ⟨⟨x3, g3⟩, h⟩
  · obtain ⟨k, kd, r, inner, h3, _⟩ := grp_ok safe_openNamed h
    obtain ⟨c', rest', h4, h5⟩ := openNamed_ok h3
    rw [orElse_of_err (grp_capture_question hd h4)]
    exact orElse_of_ok (grp_exact he safe_openNamed hid h hn)
  · obtain ⟨k, kd, r, inner, h3, _⟩ := grp_ok safe_openQuoted h
    obtain ⟨rest', h4⟩ := openQuoted_ok h3
    have f3 : openNamed i = .err .invalidSyntax := by
      refine bind_of_err ?_
      simp only [alt]
      rw [orElse_of_err (tag_err (by rw [h4]; rfl))]
      exact tag_err (by rw [h4]; rfl)
    rw [orElse_of_err (grp_capture_question hd h4), orElse_of_err (grp_of_err f3)]
    exact grp_exact he safe_openQuoted hid h hn

theorem group_exact (hL : L ≤ L') (he : Exact L (d + 1) (expression L (n + 1)) (expression L' (n' + 1))) {i j : Input} {a : Ast}
    (hid : i.depth = d) (h : group L' (expression L' (n' + 1)) i = .ok j a) (hn : i.depth + nesting a + 1 ≤ L) :
    group L (expression L (n + 1)) i = .ok j a := by
  obtain ⟨_, r, hr, rfl⟩ := group_ok h
  obtain ⟨_, _, _, inner, _, _, rfl⟩ := members_ok hr
  simp only [nesting] at hn
  have := members_exact hL he hr (by rw [← hid]) (by dsimp only; omega) (by simp only [nesting]; omega)
  unfold group
  dsimp only
  rw [if_neg (by omega), this]

theorem leaves_open {i : Input} {v : Str} (hv : i.value = '(' :: v) :
    (do let a ← assertion; pure (Ast.assertion a) : Parser Ast) i = .err .invalidSyntax ∧
    (do let c ← characterClass; pure (Ast.characterClass c) : Parser Ast) i = .err .invalidSyntax ∧
    (do let l ← literal .normal; pure (Ast.literal l) : Parser Ast) i = .err .invalidSyntax := by
  obtain ⟨w, d⟩ := i
  simp only at hv
  subst hv
  exact ⟨rfl, rfl, rfl⟩

theorem atomic_exact (hL : L ≤ L') (he : Exact L (d + 1) (expression L (n + 1)) (expression L' (n' + 1))) {i j : Input}
    {a : Ast} (hid : i.depth = d) (h : atomic L' (expression L' (n' + 1)) i = .ok j a) (hn : i.depth + nesting a + 1 ≤ L) :
    atomic L (expression L (n + 1)) i = .ok j a := by
  by_cases ho : NoOpen i.value
  · rw [atomic_no_open (by omega) hL ho]; exact h
  · obtain ⟨v, hv⟩ : ∃ v, i.value = '(' :: v := by
      cases hi : i.value with
      | nil => rw [hi] at ho; exact absurd (by simp [NoOpen]) ho
      | cons c v =>
        rw [hi] at ho
        simp only [NoOpen, List.head?_cons, ne_eq, Option.some.injEq, Decidable.not_not] at ho
        exact ⟨v, by rw [ho]⟩
    obtain ⟨k, inner, h1, h2⟩ := bind_ok.1 h
    have hin : nesting inner = nesting a := by
      obtain ⟨m, q, h3, h4⟩ := bind_ok.1 h2
      cases q <;> obtain ⟨_, rfl⟩ := pure_ok.1 h4 <;> simp [nesting]
    refine (bind_of_ok (j := k) (a := inner) ?_).trans h2
    simp only [alt] at h1 ⊢
    rcases orElse_ok.1 h1 with h | ⟨⟨x, hx⟩, h⟩
    · exact orElse_of_ok h
    rw [orElse_of_err hx]
    rcases orElse_ok.1 h with h | ⟨⟨x, hx⟩, h⟩
    · exact orElse_of_ok h
    rw [orElse_of_err hx]
    rcases orElse_ok.1 h with h | ⟨_, h⟩
    · exact orElse_of_ok (group_exact hL he hid h (by omega))
    · exfalso
      obtain ⟨e1, e2, e3⟩ := leaves_open hv
      rw [orElse_of_err e1, orElse_of_err e2, e3] at h
      cases h

theorem manyLoop_exact (hL : L ≤ L') (he : Exact L (d + 1) (expression L (n + 1)) (expression L' (n' + 1))) {m : Nat}
    {i j : Input} {l : List Ast} (hid : i.depth = d) (hk : j.depth = i.depth)
    (h : manyLoop (atomic L' (expression L' (n' + 1))) m i = .ok j l) (ho : NoOpen j.value)
    (hd : i.depth + 1 ≤ L) (hn : i.depth + nestings l + 1 ≤ L) :
    manyLoop (atomic L (expression L (n + 1))) m i = .ok j l := by
  induction m generalizing i l with
  | zero => cases h
  | succ m ih =>
    unfold manyLoop at h ⊢
    cases hp : atomic L' (expression L' (n' + 1)) i with
    | ok k a =>
      rw [hp] at h
      dsimp only at h
      split at h
      · cases h
      · next hne =>
        obtain ⟨r, l', h1, h2⟩ := bind_ok.1 h
        obtain ⟨rfl, rfl⟩ := pure_ok.1 h2
        simp only [nestings] at hn
        have hkd := keeps_atomic (keeps_expression L' (n' + 1)) i k a hp
        rw [atomic_exact hL he hid hp (by omega)]
        dsimp only
        rw [if_neg hne]
        exact (bind_of_ok (ih (by omega) (by omega) h1 (by omega) (by omega))).trans rfl
    | err x =>
      rw [hp] at h
      cases h
      rw [atomic_no_open hd hL ho, hp]
    | fail x => rw [hp] at h; cases h
    | panic => rw [hp] at h; cases h
    | hang => rw [hp] at h; cases h

theorem concat_exact (hL : L ≤ L') (he : Exact L (d + 1) (expression L (n + 1)) (expression L' (n' + 1))) {i j : Input}
    {a : Ast} (hid : i.depth = d) (h : concatExpression L' (expression L' (n' + 1)) i = .ok j a) (ho : NoOpen j.value)
    (hn : i.depth + nesting a + 1 ≤ L) : concatExpression L (expression L (n + 1)) i = .ok j a := by
  obtain ⟨k, l, h1, h2⟩ := bind_ok.1 h
  have hkj : k = j ∧ nestings l = nesting a := by
    split at h2
    · obtain ⟨rfl, rfl⟩ := pure_ok.1 h2; simp [nestings]
    · obtain ⟨rfl, rfl⟩ := pure_ok.1 h2; simp [nesting]
  obtain ⟨rfl, hl⟩ := hkj
  refine (bind_of_ok (j := k) (a := l) ?_).trans h2
  obtain ⟨m, b, h3, h4⟩ := bind_ok.1 h1
  obtain ⟨r, l', h5, h6⟩ := bind_ok.1 h4
  obtain ⟨rfl, rfl⟩ := pure_ok.1 h6
  have hkeep := keeps_atomic (L := L') (keeps_expression L' (n' + 1))
  have hm := hkeep i m b h3
  simp only [nestings] at hl
  refine (bind_of_ok (atomic_exact hL he hid h3 (by omega))).trans ((bind_of_ok ?_).trans h6)
  exact manyLoop_exact hL he (hm.trans hid) (manyLoop_ok h5 hkeep).2.1 h5 ho (by omega) (by omega)

/-- What may follow a part of an alternation. -/
theorem opt_exact (hL : L ≤ L') (he : Exact L (d + 1) (expression L (n + 1)) (expression L' (n' + 1))) {i j : Input}
    {o : Option Ast} (hid : i.depth = d) (hi : (ctx L' (n' + 2)).dom i)
    (h : opt (concatExpression L' (expression L' (n' + 1))) i = .ok j o) (ho : NoOpen j.value)
    (hn : i.depth + nesting (o.getD Ast.empty) + 1 ≤ L) :
    opt (concatExpression L (expression L (n + 1))) i = .ok j o := by
  rcases opt_ok.1 h with ⟨a, h1, rfl⟩ | ⟨⟨x, h1⟩, rfl, rfl⟩
  · exact opt_ok.2 (Or.inl ⟨a, concat_exact hL he hid h1 ho hn, rfl⟩)
  · refine opt_ok.2 (Or.inr ⟨⟨x, ?_⟩, rfl, rfl⟩)
    have := concat_err (safe_expression L' (n' + 1)) hi h1
    rw [← atomic_no_open (e := expression L (n + 1)) (by omega) hL ho] at this
    exact bind_of_err (bind_of_err this)

theorem sepLoop_exact (hL : L ≤ L') (he : Exact L (d + 1) (expression L (n + 1)) (expression L' (n' + 1))) {m : Nat}
    {i j : Input} {l : List (Option Ast)} (hid : i.depth = d) (hi : (ctx L' (n' + 2)).dom i)
    (h : sepLoop (tag ['|']) (opt (concatExpression L' (expression L' (n' + 1)))) m i = .ok j l) (ho : NoOpen j.value)
    (hn : ∀ o ∈ l, i.depth + nesting (o.getD Ast.empty) + 1 ≤ L) :
    NoOpen i.value ∧ sepLoop (tag ['|']) (opt (concatExpression L (expression L (n + 1)))) m i = .ok j l := by
  induction m generalizing i l with
  | zero => cases h
  | succ m ih =>
    unfold sepLoop at h ⊢
    cases hs : tag ['|'] i with
    | ok k u =>
      rw [hs] at h
      obtain ⟨hv, hkd⟩ := tag_ok.1 hs
      refine ⟨by rw [hv]; simp [NoOpen], ?_⟩
      dsimp only at h ⊢
      split at h
      · cases h
      · next hne =>
        rw [if_neg hne]
        have hdk : (ctx L' (n' + 2)).dom k := by have := hi; exact ⟨by rw [hkd]; exact this.1, by rw [hkd]; exact this.2⟩
        cases hp : opt (concatExpression L' (expression L' (n' + 1))) k with
        | ok r o =>
          rw [hp] at h
          obtain ⟨x, l', h1, h2⟩ := bind_ok.1 h
          obtain ⟨rfl, rfl⟩ := pure_ok.1 h2
          have hr := Keeps.opt (keeps_concat (L := L') (keeps_expression L' (n' + 1))) k r o hp
          have hdr : (ctx L' (n' + 2)).dom r := ⟨by rw [hr]; exact hdk.1, by rw [hr]; exact hdk.2⟩
          obtain ⟨h3, h4⟩ := ih (hr.trans (hkd.trans hid)) hdr h1 (fun o' ho' => by
            have := hn o' (List.mem_cons_of_mem _ ho')
            rw [hr, hkd]
            exact this)
          have h5 := hn o List.mem_cons_self
          rw [opt_exact hL he (hkd.trans hid) hdk hp h3 (by rw [hkd]; exact h5)]
          exact (bind_of_ok h4).trans rfl
        | err x => exact (opt_not_err hp).elim
        | fail x => rw [hp] at h; cases h
        | panic => rw [hp] at h; cases h
        | hang => rw [hp] at h; cases h
    | err x =>
      rw [hs] at h
      cases h
      exact ⟨ho, rfl⟩
    | fail x => rw [hs] at h; cases h
    | panic => rw [hs] at h; cases h
    | hang => rw [hs] at h; cases h

end

theorem nesting_mem {l : List Ast} {a : Ast} (h : a ∈ l) : nesting a ≤ nestings l := by
  induction l with
  | nil => cases h
  | cons b l ih =>
    simp only [nestings]
    rcases List.mem_cons.1 h with rfl | h
    · exact Nat.le_max_left _ _
    · exact Nat.le_trans (ih h) (Nat.le_max_right _ _)

/-- An expression that is accepted with a higher limit and does not nest too deeply is accepted. -/
theorem expression_exact {L L' n n' : Nat} (hL : L ≤ L') {i j : Input} {a : Ast} (hi : (ctx L n).dom i)
    (hi' : (ctx L' n').dom i) (h : expression L' n' i = .ok j a) (ho : NoOpen j.value)
    (hn : i.depth + nesting a + 1 ≤ L) : expression L n i = .ok j a := by
  induction n' generalizing n i j a with
  | zero => cases h
  | succ n' ih =>
    have hd := hi.2
    have hd' := hi'.2
    obtain ⟨m, rfl⟩ : ∃ m, n = m + 2 := ⟨n - 2, by omega⟩
    obtain ⟨m', rfl⟩ : ∃ m', n' = m' + 1 := ⟨n' - 1, by omega⟩
    have he : Exact L (i.depth + 1) (expression L (m + 1)) (expression L' (m' + 1)) := by
      intro k r b hk h1 h2 h3
      exact ih ⟨by omega, by omega⟩ ⟨by omega, by omega⟩ h1 h2 h3
    obtain ⟨k, l, h3, h4⟩ := bind_ok.1 h
    obtain ⟨r, o, h5, h6⟩ := bind_ok.1 h3
    obtain ⟨s, l', h7, h8⟩ := bind_ok.1 h6
    obtain ⟨rfl, rfl⟩ := pure_ok.1 h8
    have hkj : k = j ∧ nestings ((o :: l').map fun c => c.getD Ast.empty) = nesting a := by
      cases l' with
      | nil => obtain ⟨rfl, rfl⟩ := pure_ok.1 h4; simp [nestings]
      | cons o' l' => obtain ⟨rfl, rfl⟩ := pure_ok.1 h4; simp [nesting]
    obtain ⟨rfl, hl⟩ := hkj
    have hmem : ∀ c ∈ o :: l', i.depth + nesting (c.getD Ast.empty) + 1 ≤ L := by
      intro c hc
      have : nesting (c.getD Ast.empty) ≤ nestings ((o :: l').map fun c => c.getD Ast.empty) :=
        nesting_mem (List.mem_map.2 ⟨c, hc, rfl⟩)
      rw [hl] at this
      omega
    have hr := Keeps.opt (keeps_concat (L := L') (keeps_expression L' (m' + 1))) i r o h5
    obtain ⟨h9, h10⟩ := sepLoop_exact hL he hr ⟨by rw [hr]; exact hi'.1, by rw [hr]; exact hi'.2⟩ h7 ho
      (fun c hc => by rw [hr]; exact hmem c (List.mem_cons_of_mem _ hc))
    have h11 := opt_exact hL he rfl hi' h5 h9 (hmem o List.mem_cons_self)
    exact (bind_of_ok ((bind_of_ok h11).trans ((bind_of_ok h10).trans rfl))).trans h4

/-! ## Height -/

theorem heights_le {l : List Ast} {n : Nat} : heights l ≤ n ↔ ∀ a ∈ l, height a ≤ n := by
  induction l with
  | nil => simp [heights]
  | cons a l ih => simp [heights, Nat.max_le, ih]

/-- An expression is not much higher than its groups nest. -/
theorem expression_height {L n : Nat} {i j : Input} {a : Ast} (h : expression L n i = .ok j a) :
    height a ≤ 4 * nesting a + 5 := by
  induction n generalizing i j a with
  | zero => cases h
  | succ n ih =>
    have hkeep := keeps_expression L n
    have hatom : ∀ i j a, atomic L (expression L n) i = .ok j a → height a ≤ 4 * nesting a + 3 := by
      intro i j a h
      obtain ⟨k, inner, h1, h2⟩ := bind_ok.1 h
      have hin : height inner ≤ 4 * nesting inner + 2 := by
        rcases orElse_ok.1 h1 with h | ⟨_, h⟩
        · obtain ⟨_, l, _, h2⟩ := bind_ok.1 h
          match l, h2 with
          | [], h2 => obtain ⟨_, rfl⟩ := pure_ok.1 h2; simp [height]
          | [c], h2 => obtain ⟨_, rfl⟩ := pure_ok.1 h2; simp [height]
          | c :: d :: l, h2 =>
            obtain ⟨_, rfl⟩ := pure_ok.1 h2
            have : heights ((c :: d :: l).map fun c => Ast.literal { c := c, escaped := true }) ≤ 1 := by
              refine heights_le.2 fun b hb => ?_
              obtain ⟨c, _, rfl⟩ := List.mem_map.1 hb
              simp [height]
            simp only [height]
            omega
        rcases orElse_ok.1 h with h | ⟨_, h⟩
        · obtain ⟨_, _, _, h⟩ := bind_ok.1 h
          obtain ⟨_, rfl⟩ := pure_ok.1 h
          simp [height]
        rcases orElse_ok.1 h with h | ⟨_, h⟩
        · obtain ⟨_, r, hm, _⟩ := group_ok h
          obtain ⟨k, kd, r, inner', _, he', rfl⟩ := members_ok hm
          have := ih he'
          simp only [height, nesting]
          omega
        rcases orElse_ok.1 h with h | ⟨_, h⟩
        · obtain ⟨_, _, _, h⟩ := bind_ok.1 h
          obtain ⟨_, rfl⟩ := pure_ok.1 h
          simp [height]
        rcases orElse_ok.1 h with h | ⟨_, h⟩
        · obtain ⟨_, _, _, h⟩ := bind_ok.1 h
          obtain ⟨_, rfl⟩ := pure_ok.1 h
          simp [height]
        · obtain ⟨_, _, _, h⟩ := bind_ok.1 h
          obtain ⟨_, rfl⟩ := pure_ok.1 h
          simp [height]
      obtain ⟨m, q, h3, h4⟩ := bind_ok.1 h2
      cases q with
      | none => obtain ⟨_, rfl⟩ := pure_ok.1 h4; omega
      | some q => obtain ⟨_, rfl⟩ := pure_ok.1 h4; simp only [height, nesting]; omega
    have hc : ∀ i j a, concatExpression L (expression L n) i = .ok j a → height a ≤ 4 * nesting a + 4 := by
      intro i j a h
      obtain ⟨k, l, h1, h2⟩ := bind_ok.1 h
      obtain ⟨_, _, h5⟩ := many1_ok h1 (keeps_atomic hkeep)
      split at h2
      · obtain ⟨_, rfl⟩ := pure_ok.1 h2
        obtain ⟨x, y, _, h6⟩ := h5 _ List.mem_cons_self
        have := hatom _ _ _ h6
        omega
      · obtain ⟨_, rfl⟩ := pure_ok.1 h2
        have : heights l ≤ 4 * nestings l + 3 := heights_le.2 fun b hb => by
          obtain ⟨x, y, _, h6⟩ := h5 b hb
          have := hatom _ _ _ h6
          have := nesting_mem hb
          omega
        simp only [height, nesting]
        omega
    have ho : ∀ k j o, opt (concatExpression L (expression L n)) k = .ok j o →
        height (o.getD Ast.empty) ≤ 4 * nesting (o.getD Ast.empty) + 4 := by
      intro k j o h
      rcases opt_ok.1 h with ⟨b, h', rfl⟩ | ⟨_, _, rfl⟩
      · exact hc _ _ _ h'
      · simp [height]
    obtain ⟨k, l, h3, h4⟩ := bind_ok.1 h
    obtain ⟨m, o, h5, h6⟩ := bind_ok.1 h3
    obtain ⟨r, l', h7, h8⟩ := bind_ok.1 h6
    obtain ⟨rfl, rfl⟩ := pure_ok.1 h8
    have hkc := Keeps.opt (keeps_concat (L := L) hkeep)
    have hl : ∀ b ∈ (o :: l').map (fun c => c.getD Ast.empty), height b ≤ 4 * nesting b + 4 := by
      intro b hb
      simp only [List.mem_map] at hb
      obtain ⟨c, hc', rfl⟩ := hb
      rcases List.mem_cons.1 hc' with rfl | hc'
      · exact ho i m c h5
      · obtain ⟨x, y, h9, h10⟩ := sepLoop_mem (Safe.keeps (Safe.tag _)) hkc h7 c hc'
        exact ho x y c h10
    have h0 := hl (o.getD Ast.empty) (by simp)
    have hn : heights ((o :: l').map (fun c => c.getD Ast.empty)) ≤
        4 * nestings ((o :: l').map (fun c => c.getD Ast.empty)) + 4 :=
      heights_le.2 fun b hb => by have := hl b hb; have := nesting_mem hb; omega
    cases l' with
    | nil =>
      obtain ⟨_, rfl⟩ := pure_ok.1 h4
      show height (o.getD Ast.empty) ≤ 4 * nesting (o.getD Ast.empty) + 5
      omega
    | cons o' l' =>
      obtain ⟨_, rfl⟩ := pure_ok.1 h4
      simp only [nesting, height]
      omega

end Sds.Re
