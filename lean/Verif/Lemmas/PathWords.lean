import Verif.Spec.PathWords
import Verif.Lemmas.Keywords

/-! # Lemmas: the words of field names and keywords -/

namespace Sds
open Spec

theorem char_le {a b : Char} : a ≤ b ↔ a.toNat ≤ b.toNat := Iff.rfl

theorem Spec.Capital.alnum {c : Char} (h : Capital c) : AsciiAlnum c := Or.inr (Or.inl h)

theorem Spec.Small.alnum {c : Char} (h : Small c) : AsciiAlnum c := by
  rcases h with h | h
  · exact Or.inl h
  · exact Or.inr (Or.inr h)

theorem Spec.Small.not_capital {c : Char} (h : Small c) : ¬ Capital c := by
  unfold Small at h; unfold Capital
  simp only [char_le] at *
  have e1 : ('a' : Char).toNat = 97 := rfl
  have e2 : ('z' : Char).toNat = 122 := rfl
  have e3 : ('0' : Char).toNat = 48 := rfl
  have e4 : ('9' : Char).toNat = 57 := rfl
  have e5 : ('A' : Char).toNat = 65 := rfl
  have e6 : ('Z' : Char).toNat = 90 := rfl
  omega

theorem alnum_cases {c : Char} (h : AsciiAlnum c) : Small c ∨ Capital c := by
  rcases h with h | h | h
  · exact Or.inl (Or.inl h)
  · exact Or.inr h
  · exact Or.inl (Or.inr h)

theorem alnum_ascii {c : Char} (h : AsciiAlnum c) : c.toNat < 128 := by
  unfold AsciiAlnum at h
  simp only [char_le] at h
  have e2 : ('z' : Char).toNat = 122 := rfl
  have e4 : ('9' : Char).toNat = 57 := rfl
  have e6 : ('Z' : Char).toNat = 90 := rfl
  omega

theorem utf8Size_ascii {c : Char} (h : c.toNat < 128) : c.utf8Size = 1 := by
  unfold Char.utf8Size
  rw [if_pos]
  rw [UInt32.le_iff_toNat_le]
  have : c.val.toNat < 128 := h
  have e : (0x7f : UInt32).toNat = 127 := rfl
  show c.val.toNat ≤ (0x7f : UInt32).toNat
  omega

theorem blen_ascii {s : Str} (h : ∀ c ∈ s, c.toNat < 128) : blen s = s.length := by
  induction s with
  | nil => rfl
  | cons c s ih =>
    have h1 := utf8Size_ascii (h c List.mem_cons_self)
    have h2 := ih (fun x hx => h x (List.mem_cons_of_mem _ hx))
    simp only [blen_cons, List.length_cons]
    omega

theorem alnum_not_sep {c : Char} (h : AsciiAlnum c) :
    ¬ (c = '-' ∨ c = '_' ∨ c = '.' ∨ c = ' ' ∨ c = '/') := by
  rintro (rfl | rfl | rfl | rfl | rfl) <;> revert h <;> decide

theorem charType_capital {c : Char} (h : Capital c) : charType c = .uppercase :=
  upper_uppercase (by simp [isUpper, h.1, h.2])

theorem charType_small {c : Char} (h : Small c) : charType c = .regular := by
  have h1 := alnum_not_sep h.alnum
  have h2 : isUpper c = false := by
    cases hu : isUpper c with
    | false => rfl
    | true =>
      simp only [isUpper, Bool.and_eq_true, decide_eq_true_eq] at hu
      exact absurd hu h.not_capital
  simp [charType, h1, h2]

theorem charType_link {c : Char} (h : c ∈ ['-', '_', '.', ' ', '/']) : charType c = .separator := by
  have : c = '-' ∨ c = '_' ∨ c = '.' ∨ c = ' ' ∨ c = '/' := by simpa using h
  simp [charType, this]

theorem charType_alnum {c : Char} (h : AsciiAlnum c) : charType c ≠ .separator := by
  rcases alnum_cases h with h | h
  · rw [charType_small h]; simp
  · rw [charType_capital h]; simp

theorem link_ascii {c : Char} (h : c ∈ ['-', '_', '.', ' ', '/']) : c.toNat < 128 := by
  simp at h; rcases h with rfl | rfl | rfl | rfl | rfl <;> decide

/-! ## The loop on ASCII text -/

/-- The loop, looking at the rest to find the last character. -/
def stdLoop : Char → Str → Str
  | _, [] => []
  | prev, c :: cs => pushedFor cs.isEmpty prev c ++ stdLoop c cs

theorem standardizeLoop_eq (s : Str) : ∀ (n i : Nat) (prev : Char), n = i + 1 + s.length →
    standardizeLoop n i prev s = stdLoop prev s := by
  induction s with
  | nil => intros; rfl
  | cons c s ih =>
    intro n i prev h
    simp only [standardizeLoop, stdLoop]
    rw [ih n (i + 1) c (by simp at h; omega)]
    have : decide (i + 2 = n) = s.isEmpty := by
      cases s with
      | nil => simp at h; simp; omega
      | cons x s => simp at h; simp; omega
    rw [this]

theorem standardize_ascii {c : Char} {s : Str} (h : ∀ x ∈ c :: s, x.toNat < 128) :
    standardize (c :: s) = c :: stdLoop c s := by
  simp only [standardize]
  rw [standardizeLoop_eq s _ 0 c (by rw [blen_ascii h]; simp; omega)]

/-- No separator and no camel-case hump after `prev`. -/
def NoHump : Char → Str → Prop
  | _, [] => True
  | prev, y :: s => AsciiAlnum y ∧ (Capital y → charType prev ≠ .regular) ∧ NoHump y s

theorem pushed_plain {b : Bool} {prev y : Char} (h1 : AsciiAlnum y) (h2 : Capital y → charType prev ≠ .regular) :
    pushedFor b prev y = [y] := by
  unfold pushedFor
  rcases alnum_cases h1 with h | h
  · rw [charType_small h]; cases b <;> rfl
  · rw [charType_capital h]
    have := h2 h
    cases b <;> cases hp : charType prev <;> simp_all

theorem getLast?_getD_cons {c : Char} {s : Str} : (c :: s).getLast? = some (s.getLast?.getD c) := by
  cases s with
  | nil => rfl
  | cons z s =>
    rw [List.getLast?_cons_cons]
    cases hh : (z :: s).getLast? with
    | none => simp at hh
    | some x => rfl

theorem stdLoop_run (s : Str) : ∀ (prev : Char) (t : Str), NoHump prev s →
    stdLoop prev (s ++ t) = s ++ stdLoop (s.getLast?.getD prev) t := by
  induction s with
  | nil => intros; rfl
  | cons y s ih =>
    intro prev t h
    simp only [List.cons_append, stdLoop]
    rw [pushed_plain h.1 h.2.1, ih y t h.2.2]
    rw [getLast?_getD_cons]
    simp

theorem noHump_small {s : Str} : ∀ {prev : Char}, (∀ c ∈ s, Small c) → NoHump prev s := by
  induction s with
  | nil => intros; trivial
  | cons y s ih =>
    intro prev h
    have hy := h y List.mem_cons_self
    exact ⟨hy.alnum, fun hc => absurd hc hy.not_capital, ih (fun x hx => h x (List.mem_cons_of_mem _ hx))⟩

theorem noHump_word {us rs : Str} : ∀ {prev : Char}, Capital prev → (∀ c ∈ us, Capital c) → (∀ c ∈ rs, Small c) →
    NoHump prev (us ++ rs) := by
  induction us with
  | nil => intro prev _ _ h; exact noHump_small h
  | cons u us ih =>
    intro prev hp hu hr
    have h := hu u List.mem_cons_self
    refine ⟨h.alnum, fun _ => by rw [charType_capital hp]; simp, ?_⟩
    exact ih h (fun x hx => hu x (List.mem_cons_of_mem _ hx)) hr

theorem Spec.PlainWord.cons {w : Str} (h : PlainWord w) : ∃ c s, w = c :: s ∧ AsciiAlnum c ∧ NoHump c s := by
  obtain ⟨us, rs, rfl, hne, hu, hr⟩ := h
  cases us with
  | cons u us =>
    have h := hu u List.mem_cons_self
    exact ⟨u, us ++ rs, rfl, h.alnum, noHump_word h (fun x hx => hu x (List.mem_cons_of_mem _ hx)) hr⟩
  | nil =>
    cases rs with
    | nil => exact absurd rfl hne
    | cons r rs =>
      exact ⟨r, rs, rfl, (hr r List.mem_cons_self).alnum, noHump_small (fun x hx => hr x (List.mem_cons_of_mem _ hx))⟩

theorem Spec.PlainWord.alnum {w : Str} (h : PlainWord w) : ∀ c ∈ w, AsciiAlnum c := by
  obtain ⟨us, rs, rfl, _, hu, hr⟩ := h
  intro c hc
  rcases List.mem_append.1 hc with h | h
  · exact (hu c h).alnum
  · exact (hr c h).alnum

theorem Spec.MadeOf.plain {n : Str} {ws : List Str} (h : MadeOf n ws) : ws ≠ [] ∧ ∀ w ∈ ws, PlainWord w := by
  induction h with
  | word h => exact ⟨by simp, by simpa using h⟩
  | link h _ _ ih => exact ⟨by simp, by simpa using ⟨h, ih.2⟩⟩
  | camel h _ _ _ _ _ ih => exact ⟨by simp, by simpa using ⟨h, ih.2⟩⟩

theorem Spec.MadeOf.head {n : Str} {ws : List Str} (h : MadeOf n ws) : ∃ c s, n = c :: s ∧ AsciiAlnum c := by
  have key : ∀ {w t : Str}, PlainWord w → ∃ c s, w ++ t = c :: s ∧ AsciiAlnum c := by
    intro w t h
    obtain ⟨c, s, rfl, hc, _⟩ := h.cons
    exact ⟨c, s ++ t, rfl, hc⟩
  cases h with
  | word h => simpa using key (t := []) h
  | link h _ _ => exact key h
  | camel h _ _ _ _ _ => exact key h

theorem Spec.MadeOf.last {n : Str} {ws : List Str} (h : MadeOf n ws) : ∃ c, n.getLast? = some c ∧ AsciiAlnum c := by
  induction h with
  | @word w h =>
    obtain ⟨c, s, rfl, _, _⟩ := h.cons
    cases hl : (c :: s).getLast? with
    | none => simp at hl
    | some l => exact ⟨l, rfl, h.alnum l (List.mem_of_getLast? hl)⟩
  | link _ _ hn ih =>
    obtain ⟨c, h1, h2⟩ := ih
    refine ⟨c, ?_, h2⟩
    rw [List.getLast?_append, List.getLast?_cons, h1]; rfl
  | camel _ _ _ _ _ hn ih =>
    obtain ⟨c, h1, h2⟩ := ih
    refine ⟨c, ?_, h2⟩
    rw [List.getLast?_append, h1]; rfl

theorem Spec.MadeOf.ascii {n : Str} {ws : List Str} (h : MadeOf n ws) : ∀ c ∈ n, c.toNat < 128 := by
  induction h with
  | word h => exact fun c hc => alnum_ascii (h.alnum c hc)
  | link h hc _ ih =>
    intro x hx
    simp only [List.mem_append, List.mem_cons] at hx
    rcases hx with hx | rfl | hx
    · exact alnum_ascii (h.alnum x hx)
    · exact link_ascii hc
    · exact ih x hx
  | camel h _ _ _ _ _ ih =>
    intro x hx
    simp only [List.mem_append] at hx
    rcases hx with hx | hx
    · exact alnum_ascii (h.alnum x hx)
    · exact ih x hx

theorem endsInHump_append {a n : Str} (h : ¬ EndsInHump (a ++ n)) : ¬ EndsInHump n := by
  rintro ⟨b, x, u, rfl, h1, h2⟩
  exact h ⟨a ++ b, x, u, by simp, h1, h2⟩

theorem dotJoin_cons_of_ne {w : Str} {ws : List Str} (h : ws ≠ []) : dotJoin (w :: ws) = w ++ '.' :: dotJoin ws := by
  cases ws with
  | nil => exact absurd rfl h
  | cons a l => rfl

theorem Spec.MadeOf.std {n : Str} {ws : List Str} (h : MadeOf n ws) (hh : ¬ EndsInHump n) :
    standardize n = dotJoin ws := by
  have ha := h.ascii
  induction h with
  | @word w h =>
    obtain ⟨c, s, rfl, _, hr⟩ := h.cons
    rw [standardize_ascii ha]
    have := stdLoop_run s c [] hr
    simp only [List.append_nil, stdLoop] at this
    rw [this]; rfl
  | @link w n ws k h hk hn ih =>
    have hi := ih (endsInHump_append (a := w ++ [k]) (by simpa using hh)) hn.ascii
    rw [dotJoin_cons_of_ne hn.plain.1, ← hi]
    obtain ⟨d, ds, rfl, hd⟩ := hn.head
    rw [standardize_ascii hn.ascii]
    obtain ⟨c, s, rfl, _, hr⟩ := h.cons
    rw [List.cons_append] at ha ⊢
    rw [standardize_ascii ha, stdLoop_run s c _ hr]
    have hl : charType (s.getLast?.getD c) ≠ .separator :=
      charType_alnum (h.alnum _ (List.mem_of_getLast? getLast?_getD_cons))
    simp only [stdLoop, List.isEmpty_cons]
    have e1 : pushedFor false (s.getLast?.getD c) k = ['.'] := by
      unfold pushedFor
      rw [charType_link hk]
      cases hc : charType (s.getLast?.getD c) <;> simp_all
    have e2 : pushedFor ds.isEmpty k d = [d] := pushed_plain hd (fun _ => by rw [charType_link hk]; simp)
    rw [e1, e2]; simp
  | @camel w n ws l k h hl hs hk hu hn ih =>
    have hi := ih (endsInHump_append hh) hn.ascii
    rw [dotJoin_cons_of_ne hn.plain.1, ← hi]
    obtain ⟨d, ds, rfl, hd⟩ := hn.head
    simp only [List.head?_cons, Option.some.injEq] at hk
    subst hk
    rw [standardize_ascii hn.ascii]
    have hds : ds.isEmpty = false := by
      cases ds with
      | cons _ _ => rfl
      | nil =>
        exfalso
        obtain ⟨b, rfl⟩ := List.getLast?_eq_some_iff.1 hl
        exact hh ⟨b, l, d, by simp, hs, hu⟩
    obtain ⟨c, s, rfl, _, hr⟩ := h.cons
    rw [List.cons_append] at ha ⊢
    rw [standardize_ascii ha, stdLoop_run s c _ hr]
    rw [getLast?_getD_cons, Option.some.injEq] at hl
    simp only [stdLoop, hds, hl]
    have e1 : pushedFor false l d = ['.', d] := by
      unfold pushedFor
      rw [charType_small hs, charType_capital hu]
    rw [e1]; simp

theorem lowered_eq (w : Str) : lowered w = w.map asciiLower := by rw [asciiLower_toLower]; rfl

theorem map_dotJoin (ws : List Str) : (dotJoin ws).map asciiLower = dotJoin (ws.map lowered) := by
  induction ws with
  | nil => rfl
  | cons w ws ih =>
    cases ws with
    | nil => rw [List.map_singleton, lowered_eq]; rfl
    | cons v ws =>
      have e : asciiLower '.' = '.' := by decide
      rw [dotJoin_cons_of_ne (List.cons_ne_nil v ws), List.map_cons,
        dotJoin_cons_of_ne (w := lowered w) (ws := (v :: ws).map lowered) (by simp), ← ih]
      simp [lowered_eq, e]

/-! ## Splitting at dots -/

/-- The pieces between the dots. -/
def pieces : Str → List Str
  | [] => [[]]
  | c :: cs =>
    if c = '.' then [] :: pieces cs
    else
      match pieces cs with
      | [] => [[c]]
      | p :: ps => (c :: p) :: ps

theorem pieces_ne (s : Str) : pieces s ≠ [] := by
  cases s with
  | nil => simp [pieces]
  | cons c s =>
    simp only [pieces]
    split
    · simp
    · split <;> simp

theorem pieces_dot (x y : Str) : pieces (x ++ '.' :: y) = pieces x ++ pieces y := by
  induction x with
  | nil => simp [pieces]
  | cons c x ih =>
    simp only [List.cons_append, pieces, ih]
    split
    · rfl
    · cases hp : pieces x with
      | nil => exact absurd hp (pieces_ne x)
      | cons p ps => rfl

theorem pieces_plain {w : Str} (h : ∀ c ∈ w, c ≠ '.') : pieces w = [w] := by
  induction w with
  | nil => rfl
  | cons c w ih =>
    simp only [pieces]
    rw [if_neg (h c List.mem_cons_self), ih (fun x hx => h x (List.mem_cons_of_mem _ hx))]

theorem pieces_dotJoin {ws : List Str} (hne : ws ≠ []) (h : ∀ w ∈ ws, ∀ c ∈ w, c ≠ '.') : pieces (dotJoin ws) = ws := by
  induction ws with
  | nil => exact absurd rfl hne
  | cons w ws ih =>
    have hw := pieces_plain (h w List.mem_cons_self)
    cases ws with
    | nil => exact hw
    | cons v ws =>
      rw [dotJoin_cons_of_ne (List.cons_ne_nil _ _), pieces_dot, hw,
        ih (List.cons_ne_nil _ _) (fun x hx => h x (List.mem_cons_of_mem _ hx))]
      rfl

theorem dotJoin_append {xs ys : List Str} (hx : xs ≠ []) (hy : ys ≠ []) :
    dotJoin (xs ++ ys) = dotJoin xs ++ '.' :: dotJoin ys := by
  induction xs with
  | nil => exact absurd rfl hx
  | cons x xs ih =>
    cases xs with
    | nil => exact dotJoin_cons_of_ne hy
    | cons z xs =>
      rw [List.cons_append, dotJoin_cons_of_ne (by simp), ih (by simp), dotJoin_cons_of_ne (List.cons_ne_nil _ _)]
      simp

/-- A text between dots consists of whole words. -/
theorem infix_of_split {ks ws : List Str} {a b : Str} (hk : ks ≠ []) (hw : ws ≠ [])
    (hkd : ∀ w ∈ ks, ∀ c ∈ w, c ≠ '.') (hwd : ∀ w ∈ ws, ∀ c ∈ w, c ≠ '.')
    (h : dotJoin ws = a ++ dotJoin ks ++ b) (ha : a = [] ∨ ∃ a', a = a' ++ ['.']) (hb : b = [] ∨ ∃ b', b = '.' :: b') :
    ks <:+: ws := by
  have hp := congrArg pieces h
  rw [pieces_dotJoin hw hwd] at hp
  have hk' := pieces_dotJoin hk hkd
  have right : pieces (dotJoin ks ++ b) = ks ++ (if b = [] then [] else pieces b.tail) := by
    rcases hb with rfl | ⟨b', rfl⟩
    · simp [hk']
    · rw [pieces_dot, hk']; simp
  rcases ha with rfl | ⟨a', rfl⟩
  · rw [List.nil_append, right] at hp
    exact ⟨[], _, by rw [hp]; rfl⟩
  · have e : a' ++ ['.'] ++ dotJoin ks ++ b = a' ++ '.' :: (dotJoin ks ++ b) := by simp
    rw [e, pieces_dot, right] at hp
    exact ⟨pieces a', if b = [] then [] else pieces b.tail, by rw [hp]; simp⟩

/-- Consecutive words stand between dots. -/
theorem split_of_infix {ks ws : List Str} (hk : ks ≠ []) (h : ks <:+: ws) :
    ∃ a b, dotJoin ws = a ++ dotJoin ks ++ b ∧ (a = [] ∨ ∃ a', a = a' ++ ['.']) ∧ (b = [] ∨ ∃ b', b = '.' :: b') := by
  obtain ⟨xs, ys, rfl⟩ := h
  have right : ∃ b, dotJoin (ks ++ ys) = dotJoin ks ++ b ∧ (b = [] ∨ ∃ b', b = '.' :: b') := by
    cases ys with
    | nil => exact ⟨[], by simp, Or.inl rfl⟩
    | cons y ys => exact ⟨_, dotJoin_append hk (List.cons_ne_nil _ _), Or.inr ⟨_, rfl⟩⟩
  obtain ⟨b, hb, hb'⟩ := right
  cases xs with
  | nil => exact ⟨[], b, by simpa using hb, Or.inl rfl, hb'⟩
  | cons x xs =>
    refine ⟨dotJoin (x :: xs) ++ ['.'], b, ?_, Or.inr ⟨_, rfl⟩, hb'⟩
    rw [List.append_assoc (x :: xs), dotJoin_append (List.cons_ne_nil _ _) (by simp [hk]), hb]
    simp

/-! ## Matching -/

theorem pathKwMatchAt_iff (eqc : Char → Char → Bool) (kw path : Str) (p q : Nat) :
    pathKwMatchAt eqc kw path p = some q ↔
      ∃ a m b, path = a ++ m ++ b ∧ blen a = p ∧ blen (a ++ m) = q ∧
        SameText eqc ((standardize kw).map asciiLower) m ∧ Bounded kw a m b := by
  unfold pathKwMatchAt
  constructor
  · intro h
    split at h
    · cases h
    · next a r hc =>
      obtain ⟨h1, h2⟩ := cut_eq_some.1 hc
      split at h
      · cases h
      · next m r' hm =>
        obtain ⟨h3, h4⟩ := (matchLits_spec _ _ _ _ _).1 hm
        subst h3
        split at h
        · next hb =>
          simp only [Option.some.injEq] at h
          rw [Bool.and_eq_true, boundaryNeeded_or, boundaryNeeded_or] at hb
          exact ⟨a, m, r', by simp [h1], h2, by simp; omega, h4, hb⟩
        · cases h
  · rintro ⟨a, m, b, rfl, rfl, rfl, h4, hb⟩
    rw [List.append_assoc, cut_append]
    have hm := (matchLits_spec eqc _ (m ++ b) m b).2 ⟨rfl, h4⟩
    simp only [hm]
    rw [if_pos]
    · simp
    · rw [Bool.and_eq_true, boundaryNeeded_or, boundaryNeeded_or]; exact hb

theorem keywordInPath_iff (eqc : Char → Char → Bool) (kws : List Str) (path : Str) :
    keywordInPath eqc kws path = true ↔ ∃ kw ∈ kws, ∃ a m b, path = a ++ m ++ b ∧
        SameText eqc ((standardize kw).map asciiLower) m ∧ Bounded kw a m b := by
  unfold keywordInPath
  simp only [List.any_eq_true]
  constructor
  · rintro ⟨p, _, kw, hkw, h⟩
    obtain ⟨q, hq⟩ := Option.isSome_iff_exists.1 h
    obtain ⟨a, m, b, h1, _, _, h2, h3⟩ := (pathKwMatchAt_iff _ _ _ _ _).1 hq
    exact ⟨kw, hkw, a, m, b, h1, h2, h3⟩
  · rintro ⟨kw, hkw, a, m, b, h1, h2, h3⟩
    refine ⟨blen a, mem_boundaries.2 ⟨a, m ++ b, by simp [h1], rfl⟩, kw, hkw, ?_⟩
    exact Option.isSome_iff_exists.2 ⟨_, (pathKwMatchAt_iff _ _ _ _ _).2 ⟨a, m, b, h1, rfl, rfl, h2, h3⟩⟩

/-- The characters of a standardized path. -/
def PathChar (c : Char) : Prop := Small c ∨ c = '.'

theorem asciiLower_small {c : Char} (h : Small c) : asciiLower c = c := by
  unfold asciiLower
  exact if_neg h.not_capital

theorem asciiLower_alnum {c : Char} (h : AsciiAlnum c) : Small (asciiLower c) := by
  rcases alnum_cases h with h | h
  · rw [asciiLower_small h]; exact h
  · unfold asciiLower
    obtain ⟨h1, h2⟩ := h
    rw [if_pos ⟨h1, h2⟩]
    simp only [char_le] at h1 h2
    have e5 : ('A' : Char).toNat = 65 := rfl
    have e6 : ('Z' : Char).toNat = 90 := rfl
    have e1 : ('a' : Char).toNat = 97 := rfl
    have e2 : ('z' : Char).toNat = 122 := rfl
    have hv : (Char.ofNat (c.toNat + 32)).toNat = c.toNat + 32 := by
      have hvalid : (c.toNat + 32).isValidChar := Or.inl (by omega)
      unfold Char.ofNat
      rw [dif_pos hvalid]
      rfl
    refine Or.inl ?_
    simp only [char_le, hv]
    omega

theorem pathChar_ascii {c : Char} (h : PathChar c) : c.toNat < 128 ∧ asciiLower c = c := by
  rcases h with h | rfl
  · exact ⟨alnum_ascii h.alnum, asciiLower_small h⟩
  · decide

theorem sameText_path {eqc : Char → Char → Bool} (hf : FoldsAscii eqc) {k : Str} : ∀ {m : Str},
    (∀ c ∈ k, PathChar c) → (∀ c ∈ m, PathChar c) → (SameText eqc k m ↔ m = k) := by
  induction k with
  | nil =>
    intro m _ _
    exact ⟨fun h => by cases h; rfl, fun h => by subst h; exact .nil⟩
  | cons x k ih =>
    intro m hk hm
    have hx := pathChar_ascii (hk x List.mem_cons_self)
    have hk' : ∀ c ∈ k, PathChar c := fun c hc => hk c (List.mem_cons_of_mem _ hc)
    cases m with
    | nil => exact ⟨fun h => (by cases h), fun h => (by cases h)⟩
    | cons y m =>
      have hy := pathChar_ascii (hm y List.mem_cons_self)
      have hm' : ∀ c ∈ m, PathChar c := fun c hc => hm c (List.mem_cons_of_mem _ hc)
      have he : eqc x y = true ↔ y = x := by
        rw [hf x y hx.1 hy.1, ← asciiLower_toLower, hx.2, hy.2]; exact eq_comm
      constructor
      · intro h
        cases h with
        | cons h1 h2 => rw [he.1 h1, (ih hk' hm').1 h2]
      · intro h
        simp only [List.cons.injEq] at h
        exact .cons (he.2 h.1) ((ih hk' hm').2 h.2)

theorem dotJoin_pathChars {ws : List Str} (h : ∀ w ∈ ws, ∀ c ∈ w, Small c) : ∀ c ∈ dotJoin ws, PathChar c := by
  induction ws with
  | nil => intro c hc; simp [dotJoin] at hc
  | cons w ws ih =>
    have h1 := h w List.mem_cons_self
    have h2 := ih (fun x hx => h x (List.mem_cons_of_mem _ hx))
    intro c hc
    cases ws with
    | nil => exact Or.inl (h1 c hc)
    | cons v ws =>
      rw [dotJoin_cons_of_ne (List.cons_ne_nil _ _)] at hc
      simp only [List.mem_append, List.mem_cons] at hc
      rcases hc with hc | rfl | hc
      · exact Or.inl (h1 c hc)
      · exact Or.inr rfl
      · exact h2 c hc

theorem small_word {c : Char} (h : Small c) : AsciiWord c := Or.inl h.alnum

theorem small_ne_dot {c : Char} (h : Small c) : c ≠ '.' := by
  rintro rfl
  unfold Small at h
  revert h; decide

theorem not_word_iff {c : Char} (h : PathChar c) : ¬ AsciiWord c ↔ c = '.' := by
  rcases h with h | rfl
  · exact ⟨fun hn => absurd (small_word h) hn, fun hd => absurd hd (small_ne_dot h)⟩
  · decide

/-- Lower-case words: nothing but small characters, not empty. -/
def SmallWords (ws : List Str) : Prop := ∀ w ∈ ws, w ≠ [] ∧ ∀ c ∈ w, Small c

theorem smallWords_lowered {ws : List Str} (h : ∀ w ∈ ws, PlainWord w) : SmallWords (ws.map lowered) := by
  intro w hw
  obtain ⟨v, hv, rfl⟩ := List.mem_map.1 hw
  obtain ⟨c, s, rfl, _, _⟩ := (h v hv).cons
  refine ⟨by simp [lowered_eq], ?_⟩
  intro c hc
  obtain ⟨d, hd, rfl⟩ := List.mem_map.1 hc
  rw [← asciiLower_toLower]
  exact asciiLower_alnum ((h _ hv).alnum d hd)

theorem head_dotJoin {ks : List Str} (hk : ks ≠ []) (h : SmallWords ks) : ∃ c, (dotJoin ks).head? = some c ∧ Small c := by
  cases ks with
  | nil => exact absurd rfl hk
  | cons k ks =>
    obtain ⟨h1, h2⟩ := h k List.mem_cons_self
    obtain ⟨c, s, rfl⟩ := List.exists_cons_of_ne_nil h1
    refine ⟨c, ?_, h2 c List.mem_cons_self⟩
    rw [dotJoin_cons]; rfl

theorem last_dotJoin {ks : List Str} (hk : ks ≠ []) (h : SmallWords ks) :
    ∃ c, (dotJoin ks).getLast? = some c ∧ Small c := by
  induction ks with
  | nil => exact absurd rfl hk
  | cons k ks ih =>
    cases ks with
    | nil =>
      obtain ⟨h1, h2⟩ := h k List.mem_cons_self
      obtain ⟨c, s, rfl⟩ := List.exists_cons_of_ne_nil h1
      exact ⟨_, getLast?_getD_cons, h2 _ (List.mem_of_getLast? getLast?_getD_cons)⟩
    | cons v ks =>
      obtain ⟨c, h1, h2⟩ := ih (List.cons_ne_nil _ _) (fun x hx => h x (List.mem_cons_of_mem _ hx))
      refine ⟨c, ?_, h2⟩
      rw [dotJoin_cons_of_ne (List.cons_ne_nil _ _), List.getLast?_append, List.getLast?_cons, h1]; rfl

/-- Word boundaries around lower-case words in a standardized path are dots. -/
theorem bounded_path {kw a m b : Str} {ks : List Str} (hks : ks ≠ []) (hs : SmallWords ks) (hm : m = dotJoin ks)
    (hh : ∃ c, kw.head? = some c ∧ AsciiAlnum c) (hl : ∃ c, kw.getLast? = some c ∧ AsciiAlnum c)
    (ha : ∀ c ∈ a, PathChar c) (hb : ∀ c ∈ b, PathChar c) :
    Bounded kw a m b ↔ (a = [] ∨ ∃ a', a = a' ++ ['.']) ∧ (b = [] ∨ ∃ b', b = '.' :: b') := by
  obtain ⟨c, hc1, hc2⟩ := head_dotJoin hks hs
  obtain ⟨d, hd1, hd2⟩ := last_dotJoin hks hs
  obtain ⟨k, hk1, hk2⟩ := hh
  obtain ⟨l, hl1, hl2⟩ := hl
  subst hm
  have h1 : (dotJoin ks ++ b).head? = some c := by rw [List.head?_append, hc1]; rfl
  have h2 : (a ++ dotJoin ks).getLast? = some d := by rw [List.getLast?_append, hd1]; rfl
  have left : wordBoundary a (dotJoin ks ++ b) = true ↔ (a = [] ∨ ∃ a', a = a' ++ ['.']) := by
    rw [wordBoundary_of_after h1 (small_word hc2)]
    constructor
    · intro h
      cases hx : a.getLast? with
      | none => exact Or.inl (List.getLast?_eq_none_iff.1 hx)
      | some x =>
        have := (not_word_iff (ha x (List.mem_of_getLast? hx))).1 (h x hx)
        subst this
        exact Or.inr (List.getLast?_eq_some_iff.1 hx)
    · rintro (rfl | ⟨a', rfl⟩) x hx
      · simp at hx
      · simp at hx; subst hx; decide
  have right : wordBoundary (a ++ dotJoin ks) b = true ↔ (b = [] ∨ ∃ b', b = '.' :: b') := by
    rw [wordBoundary_of_before h2 (small_word hd2)]
    cases b with
    | nil => simp
    | cons x b =>
      have := not_word_iff (hb x List.mem_cons_self)
      simp [this]
  rw [← left, ← right]
  unfold Bounded
  constructor
  · exact fun h => ⟨h.1 k hk1 hk2, h.2 l hl1 hl2⟩
  · exact fun h => ⟨fun _ _ _ => h.1, fun _ _ _ => h.2⟩

/-- The standardized path of words, possibly with a dot in front. -/
theorem keyword_in_words {eqc : Char → Char → Bool} (hf : FoldsAscii eqc) {kw : Str} {ks ws : List Str} {pre : Str}
    (hk : MadeOf kw ks) (hh : ¬ EndsInHump kw) (hw : SmallWords ws) (hpre : pre = [] ∨ pre = ['.']) :
    (∃ a m b, pre ++ dotJoin ws = a ++ m ++ b ∧
        SameText eqc ((standardize kw).map asciiLower) m ∧ Bounded kw a m b) ↔ ks.map lowered <:+: ws := by
  rw [hk.std hh, map_dotJoin]
  have hks : ks.map lowered ≠ [] := by simpa using hk.plain.1
  have hs := smallWords_lowered hk.plain.2
  have hkp := dotJoin_pathChars (fun w hw => (hs w hw).2)
  have hwp := dotJoin_pathChars (fun w hx => (hw w hx).2)
  have hpp : ∀ c ∈ pre ++ dotJoin ws, PathChar c := by
    intro c hc
    rcases List.mem_append.1 hc with h | h
    · rcases hpre with rfl | rfl
      · simp at h
      · simp at h; exact Or.inr h
    · exact hwp c h
  have hkh : ∃ c, kw.head? = some c ∧ AsciiAlnum c := by
    obtain ⟨c, s, rfl, hc⟩ := hk.head
    exact ⟨c, rfl, hc⟩
  have hkd : ∀ w ∈ ks.map lowered, ∀ c ∈ w, c ≠ '.' := fun w hx c hc => small_ne_dot ((hs w hx).2 c hc)
  have hwd : ∀ w ∈ ws, ∀ c ∈ w, c ≠ '.' := fun w hx c hc => small_ne_dot ((hw w hx).2 c hc)
  constructor
  · rintro ⟨a, m, b, he, hm, hb⟩
    rw [he] at hpp
    have hmp : ∀ c ∈ m, PathChar c := fun c hc => hpp c (by simp [hc])
    have hm' := (sameText_path hf hkp hmp).1 hm
    rw [bounded_path hks hs hm' hkh hk.last (fun c hc => hpp c (by simp [hc])) (fun c hc => hpp c (by simp [hc]))] at hb
    subst hm'
    rcases hpre with rfl | rfl
    · cases ws with
      | nil =>
        exfalso
        obtain ⟨c, hc, _⟩ := head_dotJoin hks hs
        have : dotJoin (ks.map lowered) = [] := by
          simp only [dotJoin, List.append_nil] at he
          have := he.symm
          simp at this
          exact this.2.1
        rw [this] at hc; cases hc
      | cons w ws => exact infix_of_split hks (List.cons_ne_nil _ _) hkd hwd he hb.1 hb.2
    · rcases hb.1 with rfl | ⟨a', rfl⟩
      · exfalso
        obtain ⟨c, hc, hc'⟩ := head_dotJoin hks hs
        have : (dotJoin (ks.map lowered) ++ b).head? = some '.' := by
          have := congrArg List.head? he
          simpa using this.symm
        rw [List.head?_append, hc] at this
        cases this
        exact small_ne_dot hc' rfl
      · cases a' with
        | nil =>
          have he' : dotJoin ws = dotJoin (ks.map lowered) ++ b := by simpa using he
          cases ws with
          | nil =>
            exfalso
            obtain ⟨c, hc, _⟩ := head_dotJoin hks hs
            have : dotJoin (ks.map lowered) = [] := by
              have := he'.symm
              simp [dotJoin] at this
              exact this.1
            rw [this] at hc; cases hc
          | cons w ws =>
            exact infix_of_split (a := []) hks (List.cons_ne_nil _ _) hkd hwd (by simpa using he') (Or.inl rfl) hb.2
        | cons x a' =>
          have he' : dotJoin ws = (a' ++ ['.']) ++ dotJoin (ks.map lowered) ++ b := by
            have := congrArg List.tail he
            simpa using this
          cases ws with
          | nil => simp [dotJoin] at he'
          | cons w ws => exact infix_of_split hks (List.cons_ne_nil _ _) hkd hwd he' (Or.inr ⟨_, rfl⟩) hb.2
  · intro h
    obtain ⟨a, b, he, ha, hb⟩ := split_of_infix hks h
    have he' : pre ++ dotJoin ws = (pre ++ a) ++ dotJoin (ks.map lowered) ++ b := by simp [he]
    refine ⟨pre ++ a, dotJoin (ks.map lowered), b, he', (sameText_path hf hkp hkp).2 rfl, ?_⟩
    rw [he'] at hpp
    rw [bounded_path hks hs rfl hkh hk.last (fun c hc => hpp c (by simp only [List.mem_append] at hc ⊢; exact Or.inl (Or.inl hc)))
      (fun c hc => hpp c (by simp [hc]))]
    refine ⟨?_, hb⟩
    rcases hpre with rfl | rfl
    · simpa using ha
    · rcases ha with rfl | ⟨a', rfl⟩
      · exact Or.inr ⟨[], rfl⟩
      · exact Or.inr ⟨'.' :: a', rfl⟩

/-! ## Paths -/

theorem Spec.MadeOf.sanitized {n : Str} {ws : List Str} (h : MadeOf n ws) (hh : ¬ EndsInHump n) :
    (standardize n).map asciiLower = dotJoin (ws.map lowered) := by
  rw [h.std hh, map_dotJoin]

theorem Spec.PathWords.plain {ok : Str → Prop} {p : Path} {ws : List Str} (h : PathWords ok p ws) :
    ∀ w ∈ ws, PlainWord w := by
  induction h with
  | nil => simp
  | index _ ih => exact ih
  | field hf _ _ ih =>
    intro w hw
    rcases List.mem_append.1 hw with hw | hw
    · exact hf.plain.2 w hw
    · exact ih w hw

theorem dots_flat {l : List Str} (h : l ≠ []) : l.flatMap (fun f => '.' :: f) = '.' :: dotJoin l := by
  cases l with
  | nil => exact absurd rfl h
  | cons a l => rw [dotJoin_cons]; rfl

theorem flat_words {san : Str → Str} {p : Path} {ws : List Str} (h : PathWords (fun f => ¬ EndsInHump f) p ws)
    (hs : ∀ f fs, MadeOf f fs → ¬ EndsInHump f → san f = dotJoin (fs.map lowered)) :
    (fieldsOf p).flatMap (fun f => '.' :: san f) = (ws.map lowered).flatMap (fun f => '.' :: f) := by
  induction h with
  | nil => rfl
  | index _ ih => exact ih
  | @field f p fs ws hf hl _ ih =>
    rw [fieldsOf, List.flatMap_cons, ih, hs f fs hf hl, List.map_append, List.flatMap_append,
      dots_flat (l := fs.map lowered) (by simpa using hf.plain.1)]

/-- The sanitized path: the words joined with dots, with a dot in front if the path begins with an index. -/
theorem sanitizePath_words {p : Path} {ws : List Str} (h : PathWords (fun f => ¬ EndsInHump f) p ws)
    (hs : ∀ f fs, MadeOf f fs → ¬ EndsInHump f → sanitizeField f = dotJoin (fs.map lowered)) :
    ∃ pre, (pre = [] ∨ pre = ['.']) ∧ sanitizePath p = pre ++ dotJoin (ws.map lowered) := by
  cases h with
  | nil => exact ⟨[], Or.inl rfl, rfl⟩
  | @index i p ws h =>
    have e := flat_words h hs
    simp only [sanitizePath, sanitizeLoop, sanitizeLoop_succ, e]
    cases ws with
    | nil => exact ⟨[], Or.inl rfl, rfl⟩
    | cons w ws => exact ⟨['.'], Or.inr rfl, dots_flat (by simp)⟩
  | @field f p fs ws hf hl h =>
    have e := flat_words h hs
    refine ⟨[], Or.inl rfl, ?_⟩
    simp only [sanitizePath, sanitizeLoop, sanitizeLoop_succ, e, hs f fs hf hl, List.map_append]
    cases ws with
    | nil => simp
    | cons w ws =>
      rw [dots_flat (by simp), dotJoin_append (by simpa using hf.plain.1) (by simp)]
      simp

end Sds
