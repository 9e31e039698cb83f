import Verif.Lemmas.Str
import Verif.Model.Validators
import Verif.Spec.Validators

namespace Sds
open Spec

theorem char_ofNat_toNat {n : Nat} (h : n < 128) : (Char.ofNat n).toNat = n := by
  have hv : n.isValidChar := by left; omega
  simp [Char.ofNat, hv, Char.toNat, Char.ofNatAux, UInt32.toNat]

theorem char_eq_of_toNat {c d : Char} (h : c.toNat = d.toNat) : c = d := by
  apply Char.ext
  exact UInt32.toNat_inj.1 h

theorem isDigit_iff {c : Char} {d : Nat} : IsDigit c d ↔ toDigit c = some d := by
  unfold IsDigit toDigit
  have h0 : '0'.toNat = 48 := rfl
  rw [h0]
  constructor
  · rintro ⟨h1, rfl⟩
    rw [char_ofNat_toNat (by omega), if_pos (by omega)]
    simp
  · intro h
    split at h
    · next hc =>
      simp only [Option.some.injEq] at h
      refine ⟨by omega, char_eq_of_toNat ?_⟩
      rw [char_ofNat_toNat (by omega)]
      omega
    · cases h

theorem toDigit_lt {c : Char} {d : Nat} (h : toDigit c = some d) : d < 10 := (isDigit_iff.2 h).1

theorem digits_iff {t : Str} {ds : List Nat} : Digits t ds ↔ ds = t.filterMap toDigit := by
  constructor
  · intro h
    induction h with
    | nil => rfl
    | digit h _ ih => rw [List.filterMap_cons_some (isDigit_iff.1 h), ih]
    | @other c t ds h _ ih =>
      have : toDigit c = none := by
        cases hc : toDigit c with
        | none => rfl
        | some d => exact absurd (isDigit_iff.2 hc) (h d)
      rw [List.filterMap_cons_none this, ih]
  · rintro rfl
    induction t with
    | nil => exact .nil
    | cons c t ih =>
      cases hc : toDigit c with
      | none =>
        rw [List.filterMap_cons_none hc]
        exact .other (fun d hd => by rw [isDigit_iff, hc] at hd; cases hd) ih
      | some d =>
        rw [List.filterMap_cons_some hc]
        exact .digit (isDigit_iff.2 hc) ih

theorem digits_lt {t : Str} {ds : List Nat} (h : Digits t ds) : ∀ d ∈ ds, d < 10 := by
  rw [digits_iff] at h
  subst h
  intro d hd
  obtain ⟨c, _, hc⟩ := List.mem_filterMap.1 hd
  exact toDigit_lt hc

theorem digits_length {t : Str} {ds : List Nat} (h : Digits t ds) : ds.length ≤ t.length := by
  rw [digits_iff] at h
  subst h
  exact List.length_filterMap_le _ _

theorem nextDigit_none {cs : List Char} (h : nextDigit cs = none) : cs.filterMap toDigit = [] := by
  induction cs with
  | nil => rfl
  | cons c cs ih =>
    unfold nextDigit at h
    split at h
    · cases h
    · next hc => rw [List.filterMap_cons_none hc, ih h]

theorem nextDigit_some {cs : List Char} {d : Nat} {r : List Char} (h : nextDigit cs = some (d, r)) :
    cs.filterMap toDigit = d :: r.filterMap toDigit ∧ d < 10 := by
  induction cs with
  | nil => cases h
  | cons c cs ih =>
    unfold nextDigit at h
    split at h
    · next d' hc =>
      simp only [Option.some.injEq, Prod.mk.injEq] at h
      obtain ⟨rfl, rfl⟩ := h
      exact ⟨List.filterMap_cons_some hc, toDigit_lt hc⟩
    · next hc =>
      rw [List.filterMap_cons_none hc]
      exact ih h

/-! ## Luhn -/

/-- The Luhn sum of reversed digits; `b` says whether the first is doubled. -/
def altSum : Bool → List Nat → Nat
  | _, [] => 0
  | b, d :: ds => (if b then crossSum (2 * d) else d) + altSum (!b) ds

theorem altSum_zipIdx (ds : List Nat) : ∀ n, ((ds.zipIdx n).map fun x => if x.2 % 2 = 1 then crossSum (2 * x.1) else x.1).sum =
    altSum (decide (n % 2 = 1)) ds := by
  induction ds with
  | nil => intro n; rfl
  | cons d ds ih =>
    intro n
    rw [List.zipIdx_cons, List.map_cons, List.sum_cons, ih, altSum]
    have : (!decide (n % 2 = 1)) = decide ((n + 1) % 2 = 1) := by
      rw [Bool.eq_iff_iff]
      simp
      omega
    rw [this]
    simp

theorem luhnSum_eq (ds : List Nat) : luhnSum ds = altSum false ds.reverse := by
  unfold luhnSum
  rw [altSum_zipIdx]
  rfl

theorem altSum_le {ds : List Nat} (h : ∀ d ∈ ds, d < 10) : ∀ b, altSum b ds ≤ 9 * ds.length := by
  induction ds with
  | nil => intro b; simp [altSum]
  | cons d ds ih =>
    intro b
    have h1 := ih (fun x hx => h x (List.mem_cons_of_mem _ hx)) (!b)
    have h2 := h d List.mem_cons_self
    simp only [altSum, crossSum, List.length_cons]
    split <;> omega

theorem luhnLoop_eq : ∀ (n : Nat) (cs : List Char) (sum : Nat) (b : Bool), cs.length = n →
    sum + altSum (!b) (cs.filterMap toDigit) < 2 ^ 32 →
    luhnLoop cs sum b = sum + altSum (!b) (cs.filterMap toDigit) := by
  intro n
  induction n using Nat.strongRecOn with
  | _ n ih =>
    intro cs sum b hn hlt
    rw [luhnLoop]
    split
    · next h => rw [nextDigit_none h]; rfl
    · next d r h =>
      obtain ⟨h1, h2⟩ := nextDigit_some h
      have hl := nextDigit_length h
      rw [h1] at hlt ⊢
      simp only [altSum] at hlt ⊢
      have key : (if b = true then addU32 sum d else if d > 4 then addU32 sum (d * 2 - 9) else addU32 sum (d * 2)) =
          sum + if (!b) = true then crossSum (2 * d) else d := by
        unfold addU32
        cases b with
        | true =>
          simp only [Bool.not_true, if_true, Bool.false_eq_true, if_false] at hlt ⊢
          rw [Nat.mod_eq_of_lt (by omega)]
        | false =>
          simp only [Bool.not_false, if_true, Bool.false_eq_true, if_false, crossSum] at hlt ⊢
          split <;> rw [Nat.mod_eq_of_lt (by omega)] <;> omega
      rw [key, ih r.length (by omega) r _ (!b) rfl (by omega)]
      omega

theorem luhnValid_iff {t : Str} (ht : t.length < 2 ^ 28) :
    luhnValid t = true ↔ t.filterMap toDigit ≠ [] ∧ luhnSum (t.filterMap toDigit) % 10 = 0 := by
  have hrev : t.reverse.filterMap toDigit = (t.filterMap toDigit).reverse := by
    rw [List.filterMap_reverse]
  unfold luhnValid
  split
  · next h =>
    have := nextDigit_none h
    rw [hrev, List.reverse_eq_nil_iff] at this
    simp [this]
  · next d r h =>
    obtain ⟨h1, h2⟩ := nextDigit_some h
    rw [hrev] at h1
    have hne : t.filterMap toDigit ≠ [] := by
      intro hc; rw [hc] at h1; cases h1
    have hlen : (r.filterMap toDigit).length ≤ t.length := by
      have := congrArg List.length h1
      rw [List.length_reverse, List.length_cons] at this
      have := List.length_filterMap_le toDigit t
      omega
    have hle : altSum true (r.filterMap toDigit) ≤ 9 * (r.filterMap toDigit).length := by
      refine altSum_le (fun x hx => ?_) _
      obtain ⟨c, _, hc⟩ := List.mem_filterMap.1 hx
      exact toDigit_lt hc
    rw [luhnLoop_eq r.length r 0 false rfl (by simp only [Bool.not_false]; omega)]
    rw [luhnSum_eq, h1]
    simp only [altSum, Bool.not_false, Bool.false_eq_true, if_false, Nat.zero_add, beq_iff_eq]
    constructor
    · intro h; exact ⟨hne, by omega⟩
    · rintro ⟨_, h⟩; omega

/-- The loop with its 32-bit sum, for texts of any length. -/
theorem luhnLoop_mod : ∀ (n : Nat) (cs : List Char) (sum : Nat) (b : Bool), cs.length = n → sum < 2 ^ 32 →
    luhnLoop cs sum b = (sum + altSum (!b) (cs.filterMap toDigit)) % 2 ^ 32 := by
  intro n
  induction n using Nat.strongRecOn with
  | _ n ih =>
    intro cs sum b hn hlt
    rw [luhnLoop]
    split
    · next h => rw [nextDigit_none h]; exact (Nat.mod_eq_of_lt hlt).symm
    · next d r h =>
      obtain ⟨h1, h2⟩ := nextDigit_some h
      have hl := nextDigit_length h
      rw [h1]
      simp only [altSum]
      have key : (if b = true then addU32 sum d else if d > 4 then addU32 sum (d * 2 - 9) else addU32 sum (d * 2)) =
          (sum + if (!b) = true then crossSum (2 * d) else d) % 2 ^ 32 := by
        unfold addU32
        cases b with
        | true => simp
        | false =>
          simp only [Bool.not_false, if_true, Bool.false_eq_true, if_false, crossSum]
          split
          · have : 2 * d / 10 + 2 * d % 10 = d * 2 - 9 := by omega
            rw [this]
          · have : 2 * d / 10 + 2 * d % 10 = d * 2 := by omega
            rw [this]
      rw [key, ih r.length (by omega) r _ (!b) rfl (Nat.mod_lt _ (by decide))]
      omega

/-- The Luhn check of a text of any length. -/
theorem luhnValid_mod (t : Str) : luhnValid t = true ↔
    ∃ ps c, t.filterMap toDigit = ps ++ [c] ∧ (altSum true ps.reverse % 2 ^ 32 + c) % 10 = 0 := by
  have hrev : t.reverse.filterMap toDigit = (t.filterMap toDigit).reverse := by
    rw [List.filterMap_reverse]
  unfold luhnValid
  split
  · next h =>
    have := nextDigit_none h
    rw [hrev, List.reverse_eq_nil_iff] at this
    simp [this]
  · next d r h =>
    obtain ⟨h1, h2⟩ := nextDigit_some h
    rw [hrev] at h1
    have h3 : t.filterMap toDigit = (r.filterMap toDigit).reverse ++ [d] := by
      have := congrArg List.reverse h1
      rw [List.reverse_reverse, List.reverse_cons] at this
      exact this
    rw [luhnLoop_mod r.length r 0 false rfl (by decide), h3, beq_iff_eq, Nat.zero_add, Bool.not_false]
    constructor
    · intro h
      refine ⟨_, d, rfl, ?_⟩
      rw [List.reverse_reverse]
      omega
    · rintro ⟨ps, c, he, hc⟩
      obtain ⟨rfl, e⟩ := List.append_inj' he rfl
      cases e
      rw [List.reverse_reverse] at hc
      omega

/-- Contribution of a digit. -/
theorem altSum_append (a b : List Nat) : ∀ x, altSum x (a ++ b) = altSum x a + altSum (if a.length % 2 = 0 then x else !x) b := by
  induction a with
  | nil => intro x; simp [altSum]
  | cons d a ih =>
    intro x
    simp only [List.cons_append, altSum, ih, List.length_cons]
    have : (if a.length % 2 = 0 then (!x) else !(!x)) = if (a.length + 1) % 2 = 0 then x else !x := by
      rw [Bool.not_not]
      split
      · rw [if_neg (by omega)]
      · rw [if_pos (by omega)]
    rw [this]
    omega

theorem luhnSum_change (a b : List Nat) {x y : Nat} (hx : x < 10) (hy : y < 10) (hne : x ≠ y)
    (h : luhnSum (a ++ x :: b) % 10 = 0) : luhnSum (a ++ y :: b) % 10 ≠ 0 := by
  rw [luhnSum_eq] at h ⊢
  simp only [List.reverse_append, List.reverse_cons, List.append_assoc, List.singleton_append] at h ⊢
  rw [altSum_append] at h ⊢
  simp only [altSum] at h ⊢
  generalize (if b.reverse.length % 2 = 0 then false else !false) = p at h ⊢
  cases p <;> simp only [crossSum, if_true, Bool.false_eq_true, if_false] at h ⊢ <;> omega

theorem crossSum_swap : ∀ x : Fin 10, ∀ y : Fin 10, (crossSum (2 * x) + y) % 10 = (crossSum (2 * y) + x) % 10 →
    x = y ∨ (x = 0 ∧ y = 9) ∨ (x = 9 ∧ y = 0) := by decide +kernel

/-- Swapping adjacent digits, unless they are 0 and 9. -/
theorem luhnSum_swap (a b : List Nat) {x y : Nat} (hx : x < 10) (hy : y < 10) (hne : x ≠ y)
    (h09 : ¬ (x = 0 ∧ y = 9)) (h90 : ¬ (x = 9 ∧ y = 0))
    (h : luhnSum (a ++ x :: y :: b) % 10 = 0) : luhnSum (a ++ y :: x :: b) % 10 ≠ 0 := by
  rw [luhnSum_eq] at h ⊢
  simp only [List.reverse_append, List.reverse_cons, List.append_assoc, List.cons_append, List.nil_append] at h ⊢
  rw [altSum_append] at h ⊢
  simp only [altSum] at h ⊢
  generalize (if b.reverse.length % 2 = 0 then false else !false) = p at h ⊢
  have : (crossSum (2 * x) + y) % 10 ≠ (crossSum (2 * y) + x) % 10 := by
    intro hc
    rcases crossSum_swap ⟨x, hx⟩ ⟨y, hy⟩ hc with h | ⟨h, h'⟩ | ⟨h, h'⟩
    · exact hne (congrArg Fin.val h)
    · exact h09 ⟨congrArg Fin.val h, congrArg Fin.val h'⟩
    · exact h90 ⟨congrArg Fin.val h, congrArg Fin.val h'⟩
  cases p <;> simp only [if_true, Bool.false_eq_true, if_false, Bool.not_true, Bool.not_false] at h ⊢ <;> omega

theorem luhnSum_check (ds : List Nat) (x : Nat) : luhnSum (ds ++ [x]) = x + altSum true ds.reverse := by
  rw [luhnSum_eq]
  simp [altSum]

/-! ## NHS -/

/-- The loop on the digits, from back to front. -/
def nhsOn : List Nat → Nhs → Option Nhs
  | [], s => some s
  | d :: ds, s =>
    if s.count > 10 then none
    else if s.count < 9 then nhsOn ds ⟨s.sum + d * (11 - (s.count + 1)), s.count + 1, s.check⟩
    else nhsOn ds ⟨s.sum, s.count + 1, d⟩

theorem nhsLoop_eq : ∀ (n : Nat) (cs : List Char) (s : Nhs), cs.length = n → s.sum ≤ 90 * s.count → s.count ≤ 11 →
    nhsLoop cs s = nhsOn (cs.filterMap toDigit) s := by
  intro n
  induction n using Nat.strongRecOn with
  | _ n ih =>
    intro cs s hn hs hc
    rw [nhsLoop]
    split
    · next h => rw [nextDigit_none h]; rfl
    · next d r h =>
      obtain ⟨h1, h2⟩ := nextDigit_some h
      have hl := nextDigit_length h
      rw [h1, nhsOn]
      split
      · rfl
      · split
        · next h9 =>
          have hm : d * (11 - (s.count + 1)) ≤ 9 * 10 := Nat.mul_le_mul (by omega) (by omega)
          have : addU32 s.sum (d * (11 - (s.count + 1))) = s.sum + d * (11 - (s.count + 1)) := by
            unfold addU32
            rw [Nat.mod_eq_of_lt (by omega)]
          rw [this]
          exact ih r.length (by omega) r _ rfl (by simp only; omega) (by simp only; omega)
        · exact ih r.length (by omega) r _ rfl (by simp only; omega) (by simp only; omega)

theorem nhsOn_long : ∀ (ds : List Nat) (s : Nhs), s.count ≤ 11 → 12 ≤ s.count + ds.length → nhsOn ds s = none := by
  intro ds
  induction ds with
  | nil => intro s _ h2; simp at h2; omega
  | cons d ds ih =>
    intro s h1 h2
    rw [nhsOn]
    simp only [List.length_cons] at h2
    split
    · rfl
    · split
      · exact ih _ (by simp only; omega) (by simp only; omega)
      · exact ih _ (by simp only; omega) (by simp only; omega)

/-! ## NIR -/

theorem number_append (a b : List Nat) : number (a ++ b) = number a * 10 ^ b.length + number b := by
  have : ∀ (b : List Nat) (n : Nat), b.foldl (fun n d => 10 * n + d) n = n * 10 ^ b.length + b.foldl (fun n d => 10 * n + d) 0 := by
    intro b
    induction b with
    | nil => intro n; simp
    | cons d b ih =>
      intro n
      rw [List.foldl_cons, ih, List.foldl_cons, ih (10 * 0 + d), List.length_cons, Nat.pow_succ]
      rw [Nat.add_mul, Nat.add_mul]
      simp only [Nat.mul_zero, Nat.zero_mul, Nat.zero_add]
      rw [Nat.mul_comm 10 n, Nat.mul_assoc, Nat.mul_comm 10 (10 ^ b.length)]
      omega
  unfold number
  rw [List.foldl_append, this]

theorem number_lt {ds : List Nat} (h : ∀ d ∈ ds, d < 10) : number ds < 10 ^ ds.length := by
  have : ∀ (l : List Nat) (n k : Nat), (∀ d ∈ l, d < 10) → n < 10 ^ k →
      l.foldl (fun n d => 10 * n + d) n < 10 ^ (k + l.length) := by
    intro l
    induction l with
    | nil => intro n k _ h; simpa using h
    | cons d l ih =>
      intro n k hd h
      have h1 := hd d List.mem_cons_self
      have := ih (10 * n + d) (k + 1) (fun x hx => hd x (List.mem_cons_of_mem _ hx)) (by rw [Nat.pow_succ]; omega)
      rw [List.foldl_cons, List.length_cons, Nat.add_comm l.length, ← Nat.add_assoc]
      exact this
  simpa [number] using this ds 0 0 h (by simp)

theorem nextDigits_none {n : Nat} : ∀ {cs : List Char} {total : Int}, nextDigits n cs total = none →
    (cs.filterMap toDigit).length < n := by
  induction n with
  | zero => intro cs total h; cases h
  | succ n ih =>
    intro cs total h
    unfold nextDigits at h
    split at h
    · next h' => rw [nextDigit_none h']; simp
    · next d r h' =>
      rw [(nextDigit_some h').1]
      have := ih h
      simp; omega

theorem nextDigits_some {n : Nat} : ∀ {cs : List Char} {total k : Nat} {v : Int} {r : List Char},
    nextDigits n cs total = some (v, r) → total < 10 ^ k → n + k ≤ 18 →
    ∃ ds, cs.filterMap toDigit = ds ++ r.filterMap toDigit ∧ ds.length = n ∧
      v = ((ds.foldl (fun n d => 10 * n + d) total : Nat) : Int) := by
  induction n with
  | zero =>
    intro cs total k v r h _ _
    simp only [nextDigits, Option.some.injEq, Prod.mk.injEq] at h
    obtain ⟨rfl, rfl⟩ := h
    exact ⟨[], by simp, rfl, rfl⟩
  | succ n ih =>
    intro cs total k v r h ht hk
    unfold nextDigits at h
    split at h
    · cases h
    · next d r' h' =>
      obtain ⟨h1, h2⟩ := nextDigit_some h'
      have hlt : 10 * total + d < 10 ^ (k + 1) := by rw [Nat.pow_succ]; omega
      have hk18 : 10 ^ (k + 1) ≤ 10 ^ 18 := Nat.pow_le_pow_right (by omega) (by omega)
      have hb : Int.bmod ((total : Int) * 10 + d) (2 ^ 64) = ((10 * total + d : Nat) : Int) := by
        rw [Int.bmod_eq_of_le] <;> omega
      rw [hb] at h
      obtain ⟨ds, h3, h4, h5⟩ := ih h hlt (by omega)
      exact ⟨d :: ds, by rw [h1, h3]; rfl, by simp [h4], h5⟩

/-! ## Chinese identity numbers -/

theorem all2_length {α β : Type} {R : α → β → Prop} {l : List α} {l' : List β} (h : All2 R l l') : l.length = l'.length := by
  induction h with
  | nil => rfl
  | cons _ _ ih => simp [ih]

theorem all2_append {α β : Type} {R : α → β → Prop} {a c : List α} {b d : List β} (h : All2 R a b) (h' : All2 R c d) :
    All2 R (a ++ c) (b ++ d) := by
  induction h with
  | nil => exact h'
  | cons h _ ih => exact .cons h ih

theorem all2_unique {α β : Type} {R : α → β → Prop} (hR : ∀ a b b', R a b → R a b' → b = b') {l : List α} {l' l'' : List β}
    (h : All2 R l l') (h' : All2 R l l'') : l' = l'' := by
  induction h generalizing l'' with
  | nil => cases h'; rfl
  | cons h _ ih =>
    cases h' with
    | cons h1 h2 => rw [hR _ _ _ h h1, ih h2]

theorem isDigit_utf8Size {c : Char} {d : Nat} (h : IsDigit c d) : c.utf8Size = 1 := by
  obtain ⟨h1, rfl⟩ := h
  have : ∀ d : Fin 10, (Char.ofNat ('0'.toNat + d)).utf8Size = 1 := by decide
  exact this ⟨d, h1⟩

theorem blen_of_digits {cs : Str} {ds : List Nat} (h : All2 IsDigit cs ds) : blen cs = cs.length := by
  induction h with
  | nil => rfl
  | cons h _ ih => simp [blen, isDigit_utf8Size h, ih]; omega

/-- Weighted sum. -/
def dot : List Nat → List Nat → Nat
  | k :: ks, d :: ds => k * d + dot ks ds
  | _, _ => 0

theorem chineseSum_iff : ∀ (cs : List Char) (ks : List Nat) (sum s : Nat), cs.length ≤ ks.length →
    (chineseSum cs ks sum = some s ↔ ∃ ds, All2 IsDigit cs ds ∧ s = sum + dot ks ds) := by
  intro cs
  induction cs with
  | nil =>
    intro ks sum s _
    have : chineseSum [] ks sum = some sum := by cases ks <;> rfl
    rw [this]
    constructor
    · intro h
      refine ⟨[], .nil, ?_⟩
      simp only [Option.some.injEq] at h
      cases ks <;> simp [dot, h]
    · rintro ⟨ds, h, rfl⟩
      cases h
      cases ks <;> simp [dot]
  | cons c cs ih =>
    intro ks sum s hl
    cases ks with
    | nil => simp at hl
    | cons k ks =>
      simp only [List.length_cons, Nat.add_le_add_iff_right] at hl
      unfold chineseSum
      cases hc : toDigit c with
      | none =>
        simp only [reduceCtorEq, false_iff]
        rintro ⟨ds, h, _⟩
        cases h with
        | cons h _ => rw [isDigit_iff, hc] at h; cases h
      | some x =>
        simp only
        rw [ih ks _ s hl]
        constructor
        · rintro ⟨ds, h, rfl⟩
          exact ⟨x :: ds, .cons (isDigit_iff.2 hc) h, by simp [dot]; omega⟩
        · rintro ⟨ds, h, rfl⟩
          cases h with
          | cons h h' =>
            rw [isDigit_iff, hc] at h
            cases h
            exact ⟨_, h', by simp [dot]; omega⟩

theorem dot_base2 {bs : List Nat} (h : bs.length = 17) : dot chineseCoefficients bs % 11 = 2 * base2 bs % 11 := by
  obtain ⟨b1, bs, rfl⟩ := List.exists_cons_of_length_pos (l := bs) (by omega)
  obtain ⟨b2, bs, rfl⟩ := List.exists_cons_of_length_pos (l := bs) (by simp at h; omega)
  obtain ⟨b3, bs, rfl⟩ := List.exists_cons_of_length_pos (l := bs) (by simp at h; omega)
  obtain ⟨b4, bs, rfl⟩ := List.exists_cons_of_length_pos (l := bs) (by simp at h; omega)
  obtain ⟨b5, bs, rfl⟩ := List.exists_cons_of_length_pos (l := bs) (by simp at h; omega)
  obtain ⟨b6, bs, rfl⟩ := List.exists_cons_of_length_pos (l := bs) (by simp at h; omega)
  obtain ⟨b7, bs, rfl⟩ := List.exists_cons_of_length_pos (l := bs) (by simp at h; omega)
  obtain ⟨b8, bs, rfl⟩ := List.exists_cons_of_length_pos (l := bs) (by simp at h; omega)
  obtain ⟨b9, bs, rfl⟩ := List.exists_cons_of_length_pos (l := bs) (by simp at h; omega)
  obtain ⟨b10, bs, rfl⟩ := List.exists_cons_of_length_pos (l := bs) (by simp at h; omega)
  obtain ⟨b11, bs, rfl⟩ := List.exists_cons_of_length_pos (l := bs) (by simp at h; omega)
  obtain ⟨b12, bs, rfl⟩ := List.exists_cons_of_length_pos (l := bs) (by simp at h; omega)
  obtain ⟨b13, bs, rfl⟩ := List.exists_cons_of_length_pos (l := bs) (by simp at h; omega)
  obtain ⟨b14, bs, rfl⟩ := List.exists_cons_of_length_pos (l := bs) (by simp at h; omega)
  obtain ⟨b15, bs, rfl⟩ := List.exists_cons_of_length_pos (l := bs) (by simp at h; omega)
  obtain ⟨b16, bs, rfl⟩ := List.exists_cons_of_length_pos (l := bs) (by simp at h; omega)
  obtain ⟨b17, bs, rfl⟩ := List.exists_cons_of_length_pos (l := bs) (by simp at h; omega)
  cases bs with
  | cons _ _ => simp at h
  | nil =>
    simp only [chineseCoefficients, dot, base2, List.foldl_cons, List.foldl_nil]
    omega

/-- `to_ascii_uppercase` as used in the check. -/
def upper (c : Char) : Char := if 97 ≤ c.toNat ∧ c.toNat ≤ 122 then Char.ofNat (c.toNat - 32) else c

/-- The check character for a value. -/
def checkChar (d : Nat) : Char := if d = 10 then 'X' else Char.ofNat (48 + d)

theorem upper_eq {c : Char} {d : Nat} (hd : d ≤ 10) : upper c = checkChar d ↔ CheckValue c d := by
  have h0 : '0'.toNat = 48 := rfl
  have hX : 'X'.toNat = 88 := rfl
  have hx : 'x'.toNat = 120 := rfl
  have key : upper c = checkChar d ↔ (upper c).toNat = (checkChar d).toNat := ⟨fun h => by rw [h], char_eq_of_toNat⟩
  rw [key]
  have hu : (upper c).toNat = if 97 ≤ c.toNat ∧ c.toNat ≤ 122 then c.toNat - 32 else c.toNat := by
    unfold upper
    split
    · rw [char_ofNat_toNat (by omega)]
    · rfl
  have hk : (checkChar d).toNat = if d = 10 then 88 else 48 + d := by
    unfold checkChar
    split
    · rfl
    · rw [char_ofNat_toNat (by omega)]
  rw [hu, hk]
  unfold CheckValue IsDigit
  rw [h0]
  constructor
  · intro h
    by_cases h10 : d = 10
    · right
      rw [if_pos h10] at h
      refine ⟨h10, ?_⟩
      split at h
      · right; exact char_eq_of_toNat (by rw [hx]; omega)
      · left; exact char_eq_of_toNat (by rw [hX]; omega)
    · left
      rw [if_neg h10] at h
      refine ⟨by omega, char_eq_of_toNat ?_⟩
      rw [char_ofNat_toNat (by omega)]
      split at h <;> omega
  · rintro (⟨h1, rfl⟩ | ⟨rfl, rfl | rfl⟩)
    · rw [char_ofNat_toNat (by omega)]
      rw [if_neg (by omega), if_neg (by omega)]
    · decide
    · decide

theorem chineseCheck_eq (sum : Nat) : chineseCheck sum = checkChar ((12 - sum % 11) % 11) := by
  have h : sum % 11 < 11 := Nat.mod_lt _ (by omega)
  unfold chineseCheck
  generalize sum % 11 = r at h
  have : ∀ r : Fin 11, (match r.val with
    | 0 => '1'
    | 1 => '0'
    | 2 => 'X'
    | r => Char.ofNat (12 - r + 48)) = checkChar ((12 - r.val) % 11) := by decide
  exact this ⟨r, h⟩

theorem checkValue_le {c : Char} {d : Nat} (h : CheckValue c d) : d ≤ 10 := by
  rcases h with h | ⟨rfl, _⟩
  · have := h.1; omega
  · omega

theorem checkValue_unique {c : Char} {d d' : Nat} (h : CheckValue c d) (h' : CheckValue c d') : d = d' := by
  have h1 := checkValue_le h
  have h2 := checkValue_le h'
  rw [← upper_eq h1] at h
  rw [← upper_eq h2] at h'
  have : ∀ d d' : Fin 11, checkChar d = checkChar d' → d = d' := by decide +kernel
  have := this ⟨d, by omega⟩ ⟨d', by omega⟩ (h.symm.trans h')
  exact congrArg Fin.val this

theorem checkValue_utf8Size {c : Char} {d : Nat} (h : CheckValue c d) : c.utf8Size = 1 := by
  rcases h with h | ⟨_, rfl | rfl⟩
  · exact isDigit_utf8Size h
  · rfl
  · rfl

theorem blen_one {r : Str} (h : blen r = 1) : ∃ c, r = [c] := by
  cases r with
  | nil => cases h
  | cons c r =>
    have h1 : 0 < c.utf8Size := Char.utf8Size_pos c
    cases r with
    | nil => exact ⟨c, rfl⟩
    | cons c' r =>
      have h2 : 0 < c'.utf8Size := Char.utf8Size_pos c'
      simp only [blen] at h
      omega

theorem chineseValid_iff (t : Str) : (∃ b, chineseValid t = Res.ok b) ∧
    (chineseValid t = Res.ok true ↔ ∃ ds, ChineseId t ds ∧ base2 ds % 11 = 1) := by
  unfold chineseValid
  have hfwd : ∀ ds, ChineseId t ds → ∃ (body : Str) (c : Char) (bs : List Nat) (d : Nat), t = body ++ [c] ∧ body.length = 17 ∧ ds = bs ++ [d] ∧
      All2 IsDigit body bs ∧ CheckValue c d ∧ blen t = 18 ∧ t.take 17 = body := by
    rintro ds ⟨body, c, bs, d, rfl, h2, h3, h4, h5⟩
    refine ⟨body, c, bs, d, rfl, h2, h3, h4, h5, ?_, ?_⟩
    · simp [blen, blen_of_digits h4, h2, checkValue_utf8Size h5]
    · rw [← h2]; simp
  have hbase : ∀ (bs : List Nat) (d : Nat), base2 (bs ++ [d]) = 2 * base2 bs + d := by
    intro bs d; simp [base2, List.foldl_append]
  split
  · next h18 =>
    refine ⟨⟨_, rfl⟩, by simp, ?_⟩
    rintro ⟨ds, h, _⟩
    obtain ⟨_, _, _, _, _, _, _, _, _, h, _⟩ := hfwd ds h
    exact absurd h h18
  · next h18 =>
    have h18 : blen t = 18 := Decidable.not_not.1 h18
    split
    · next hs =>
      refine ⟨⟨_, rfl⟩, by simp, ?_⟩
      rintro ⟨ds, h, _⟩
      obtain ⟨body, c, bs, d, _, h2, _, h4, _, _, h7⟩ := hfwd ds h
      have := (chineseSum_iff body chineseCoefficients 0 _ (by rw [h2]; decide)).2 ⟨bs, h4, rfl⟩
      rw [h7, this] at hs
      cases hs
    · next sum hs =>
      obtain ⟨bs, hb, rfl⟩ := (chineseSum_iff _ _ _ _ (by simp [chineseCoefficients]; omega)).1 hs
      have hlen : 17 < t.length := by
        refine Classical.byContradiction (fun hc => ?_)
        rw [List.take_of_length_le (by omega)] at hb
        have := blen_of_digits hb
        omega
      have hbl : blen (t.take 17) = 17 := by
        rw [blen_of_digits hb, List.length_take]; omega
      have hsplit : t = t.take 17 ++ t.drop 17 := (List.take_append_drop 17 t).symm
      have hd : blen (t.drop 17) = 1 := by
        have := congrArg blen hsplit
        rw [blen_append, hbl] at this
        omega
      obtain ⟨c, hc⟩ := blen_one hd
      rw [hc] at hsplit
      have hlast : t.getLast? = some c := by rw [hsplit]; simp
      rw [hlast]
      have hbl17 : bs.length = 17 := by
        rw [← all2_length hb, List.length_take]; omega
      refine ⟨⟨_, rfl⟩, ?_⟩
      have hmod : (0 + dot chineseCoefficients bs) % 11 = 2 * base2 bs % 11 := by rw [Nat.zero_add]; exact dot_base2 hbl17
      simp only [Res.ok.injEq, beq_iff_eq]
      have hup : (if 97 ≤ c.toNat ∧ c.toNat ≤ 122 then Char.ofNat (c.toNat - 32) else c) = upper c := rfl
      rw [hup, chineseCheck_eq, hmod, upper_eq (by omega)]
      constructor
      · intro h
        refine ⟨bs ++ [(12 - 2 * base2 bs % 11) % 11], ⟨t.take 17, c, bs, _, hsplit, by rw [List.length_take]; omega, rfl, hb, h⟩, ?_⟩
        rw [hbase]; omega
      · rintro ⟨ds, h, h1⟩
        obtain ⟨body, c', bs', d, g1, g2, rfl, g4, g5, _, g7⟩ := hfwd ds h
        rw [← g7] at g4
        have : bs = bs' := all2_unique (fun a b b' h h' => by
          rw [isDigit_iff] at h h'; rw [h] at h'; exact Option.some.inj h') hb g4
        subst this
        rw [hbase] at h1
        have hcc : c = c' := by
          rw [← g7] at g1
          have := hsplit.symm.trans g1
          simpa using this
        subst hcc
        have : (12 - 2 * base2 bs % 11) % 11 = d := by
          have := checkValue_le g5
          omega
        rw [this]; exact g5

theorem base2_append (a b : List Nat) : base2 (a ++ b) = base2 a * 2 ^ b.length + base2 b := by
  have : ∀ (b : List Nat) (n : Nat), b.foldl (fun n d => 2 * n + d) n = n * 2 ^ b.length + b.foldl (fun n d => 2 * n + d) 0 := by
    intro b
    induction b with
    | nil => intro n; simp
    | cons d b ih =>
      intro n
      rw [List.foldl_cons, ih, List.foldl_cons, ih (2 * 0 + d), List.length_cons, Nat.pow_succ]
      rw [Nat.add_mul, Nat.add_mul]
      simp only [Nat.mul_zero, Nat.zero_mul, Nat.zero_add]
      rw [Nat.mul_comm 2 n, Nat.mul_assoc, Nat.mul_comm 2 (2 ^ b.length)]
      omega
  unfold base2
  rw [List.foldl_append, this]

/-- `2 ^ k * d` is not divisible by 11 for `0 < d < 11`. -/
theorem pow2_mod11 (k : Nat) : ∃ r, 0 < r ∧ r < 11 ∧ 2 ^ k % 11 = r := by
  induction k with
  | zero => exact ⟨1, by decide⟩
  | succ k ih =>
    obtain ⟨r, h1, h2, h3⟩ := ih
    refine ⟨2 * r % 11, by omega, by omega, ?_⟩
    rw [Nat.pow_succ]; omega

theorem mul_mod11 : ∀ r d e : Fin 11, r ≠ 0 → (r.val * d.val) % 11 = (r.val * e.val) % 11 → d = e := by decide +kernel

theorem base2_change (a b : List Nat) {x y : Nat} (hx : x ≤ 10) (hy : y ≤ 10)
    (h : base2 (a ++ x :: b) % 11 = base2 (a ++ y :: b) % 11) : x = y := by
  have hc : ∀ z, base2 (z :: b) = z * 2 ^ b.length + base2 b := by
    intro z
    have := base2_append [z] b
    simpa [base2] using this
  rw [base2_append, base2_append, hc, hc] at h
  obtain ⟨r, h1, h2, h3⟩ := pow2_mod11 b.length
  have e : ∀ z, z * 2 ^ b.length % 11 = r * z % 11 := by
    intro z
    rw [Nat.mul_mod, h3, Nat.mul_comm r z, Nat.mul_mod z r, Nat.mod_eq_of_lt h2]
  have ex := e x
  have ey := e y
  simp only [List.length_cons] at h
  have hh : r * x % 11 = r * y % 11 := by omega
  have := mul_mod11 ⟨r, h2⟩ ⟨x, by omega⟩ ⟨y, by omega⟩ (by simp [Fin.ext_iff]; omega) hh
  exact congrArg Fin.val this

theorem base2_swap (a b : List Nat) {x y : Nat} (hx : x ≤ 10) (hy : y ≤ 10)
    (h : base2 (a ++ x :: y :: b) % 11 = base2 (a ++ y :: x :: b) % 11) : x = y := by
  have hc : ∀ z w, base2 (z :: w :: b) = (2 * z + w) * 2 ^ b.length + base2 b := by
    intro z w
    have := base2_append [z, w] b
    simpa [base2] using this
  rw [base2_append, base2_append, hc, hc] at h
  obtain ⟨r, h1, h2, h3⟩ := pow2_mod11 b.length
  have e : ∀ z, z * 2 ^ b.length % 11 = r * z % 11 := by
    intro z
    rw [Nat.mul_mod, h3, Nat.mul_comm r z, Nat.mul_mod z r, Nat.mod_eq_of_lt h2]
  have ex := e x
  have ey := e y
  simp only [List.length_cons, Nat.add_mul, Nat.mul_assoc] at h
  have hh : r * x % 11 = r * y % 11 := by omega
  have := mul_mod11 ⟨r, h2⟩ ⟨x, by omega⟩ ⟨y, by omega⟩ (by simp [Fin.ext_iff]; omega) hh
  exact congrArg Fin.val this

/-! ## Splitting -/

theorem splitOn_ne_nil (sep : Char) (t : Str) : splitOn sep t ≠ [] := by
  cases t with
  | nil => simp [splitOn]
  | cons c t =>
    unfold splitOn
    split
    · simp
    · split <;> simp

theorem splitOn_none {sep : Char} {t : Str} (h : sep ∉ t) : splitOn sep t = [t] := by
  induction t with
  | nil => rfl
  | cons c t ih =>
    simp only [List.mem_cons, not_or] at h
    unfold splitOn
    rw [if_neg (fun hc => h.1 hc.symm), ih h.2]

theorem splitOn_append (sep : Char) (a b : Str) : splitOn sep (a ++ sep :: b) = splitOn sep a ++ splitOn sep b := by
  induction a with
  | nil => simp [splitOn]
  | cons c a ih =>
    rw [List.cons_append, splitOn, splitOn]
    by_cases hc : c = sep
    · rw [if_pos hc, if_pos hc, ih]; rfl
    · rw [if_neg hc, if_neg hc, ih]
      cases h : splitOn sep a with
      | nil => exact absurd h (splitOn_ne_nil _ _)
      | cons p ps => rfl

theorem last_sep {sep : Char} {t : Str} (h : sep ∈ t) : ∃ a b, t = a ++ sep :: b ∧ sep ∉ b := by
  induction t with
  | nil => cases h
  | cons c t ih =>
    by_cases ht : sep ∈ t
    · obtain ⟨a, b, rfl, hb⟩ := ih ht
      exact ⟨c :: a, b, rfl, hb⟩
    · rcases List.mem_cons.1 h with rfl | h
      · exact ⟨[], t, rfl, ht⟩
      · exact absurd h ht

theorem splitOn_last {sep : Char} {a b : Str} (h : sep ∉ b) :
    2 ≤ (splitOn sep (a ++ sep :: b)).length ∧ (splitOn sep (a ++ sep :: b)).getLast? = some b := by
  rw [splitOn_append, splitOn_none h]
  have := List.length_pos_iff.2 (splitOn_ne_nil sep a)
  constructor
  · simp; omega
  · simp

theorem splitOn_mem {sep : Char} {t : Str} : ∀ p ∈ splitOn sep t, sep ∉ p := by
  induction t with
  | nil => simp [splitOn]
  | cons c t ih =>
    unfold splitOn
    by_cases hc : c = sep
    · rw [if_pos hc]
      intro p hp
      rcases List.mem_cons.1 hp with rfl | hp
      · simp
      · exact ih p hp
    · rw [if_neg hc]
      cases h : splitOn sep t with
      | nil => exact absurd h (splitOn_ne_nil _ _)
      | cons q qs =>
        rw [h] at ih
        intro p hp
        rcases List.mem_cons.1 hp with rfl | hp
        · intro hm
          rcases List.mem_cons.1 hm with h' | hm
          · exact hc h'.symm
          · exact ih q List.mem_cons_self hm
        · exact ih p (List.mem_cons_of_mem _ hp)

/-- Inverse of `splitOn`. -/
def joinWith (sep : Char) : List Str → Str
  | [] => []
  | [p] => p
  | p :: q :: ps => p ++ sep :: joinWith sep (q :: ps)

theorem join_splitOn (sep : Char) (t : Str) : joinWith sep (splitOn sep t) = t := by
  induction t with
  | nil => rfl
  | cons c t ih =>
    unfold splitOn
    cases h : splitOn sep t with
    | nil => exact absurd h (splitOn_ne_nil _ _)
    | cons q qs =>
      rw [h] at ih
      by_cases hc : c = sep
      · rw [if_pos hc]
        simp only [joinWith, ih]
        rw [hc]; rfl
      · rw [if_neg hc]
        simp only
        rw [← ih]
        cases qs <;> rfl

theorem splitOn_three {sep : Char} {t a b c : Str} : splitOn sep t = [a, b, c] ↔
    t = a ++ sep :: (b ++ sep :: c) ∧ sep ∉ a ∧ sep ∉ b ∧ sep ∉ c := by
  constructor
  · intro h
    have h1 := join_splitOn sep t
    have h2 := splitOn_mem (sep := sep) (t := t)
    rw [h] at h1 h2
    refine ⟨h1.symm, h2 a (by simp), h2 b (by simp), h2 c (by simp)⟩
  · rintro ⟨rfl, ha, hb, hc⟩
    rw [splitOn_append, splitOn_append, splitOn_none ha, splitOn_none hb, splitOn_none hc]
    rfl

/-! ## Base 62 -/

theorem isAlnum_iff {c : Char} : isAlnum c = true ↔ AlphaNum c := by
  unfold isAlnum AlphaNum
  have h : ∀ a b : Char, a ≤ b ↔ a.toNat ≤ b.toNat := fun a b => Iff.rfl
  simp only [h, Bool.or_eq_true, Bool.and_eq_true, decide_eq_true_eq]
  have e1 : '0'.toNat = 48 := rfl
  have e2 : '9'.toNat = 57 := rfl
  have e3 : 'A'.toNat = 65 := rfl
  have e4 : 'Z'.toNat = 90 := rfl
  have e5 : 'a'.toNat = 97 := rfl
  have e6 : 'z'.toNat = 122 := rfl
  rw [e1, e2, e3, e4, e5, e6, or_assoc]

theorem base62Digit_iff {c : Char} {d : Nat} : base62Digits[d]? = some c ↔ d < 62 ∧ c = base62Digit d := by
  constructor
  · intro h
    have hd : d < 62 := by
      have := (List.getElem?_eq_some_iff.1 h).1
      exact this
    have : ∀ d : Fin 62, base62Digits[d.val]? = some (base62Digit d.val) := by decide +kernel
    have := this ⟨d, hd⟩
    exact ⟨hd, Option.some.inj (h.symm.trans this)⟩
  · rintro ⟨hd, rfl⟩
    have : ∀ d : Fin 62, base62Digits[d.val]? = some (base62Digit d.val) := by decide +kernel
    exact this ⟨d, hd⟩

theorem base62Digit_inj {d e : Nat} (hd : d < 62) (he : e < 62) (h : base62Digit d = base62Digit e) : d = e := by
  have : ∀ d e : Fin 62, base62Digit d.val = base62Digit e.val → d = e := by decide +kernel
  exact congrArg Fin.val (this ⟨d, hd⟩ ⟨e, he⟩ h)

theorem base62_snoc {t : Str} {c : Char} {n : Nat} (h : Base62 (t ++ [c]) n) :
    ∃ m d, d < 62 ∧ c = base62Digit d ∧ n = 62 * m + d ∧ Base62 t m := by
  obtain ⟨ds, h1, rfl⟩ := h
  have : ∀ (t : Str) (ds : List Nat), All2 (fun c d => base62Digits[d]? = some c) (t ++ [c]) ds →
      ∃ es d, ds = es ++ [d] ∧ All2 (fun c d => base62Digits[d]? = some c) t es ∧ base62Digits[d]? = some c := by
    intro t
    induction t with
    | nil =>
      intro ds h
      cases h with
      | cons h h' =>
        cases h'
        exact ⟨[], _, rfl, .nil, h⟩
    | cons x t ih =>
      intro ds h
      cases h with
      | cons h h' =>
        obtain ⟨es, d, rfl, g1, g2⟩ := ih _ h'
        exact ⟨_ :: es, d, rfl, .cons h g1, g2⟩
  obtain ⟨es, d, rfl, g1, g2⟩ := this t ds h1
  obtain ⟨g3, g4⟩ := base62Digit_iff.1 g2
  exact ⟨_, d, g3, g4, by rw [List.foldl_append]; rfl, es, g1, rfl⟩

theorem base62_append_digit {t : Str} {m d : Nat} (h : Base62 t m) (hd : d < 62) :
    Base62 (t ++ [base62Digit d]) (62 * m + d) := by
  obtain ⟨ds, h1, rfl⟩ := h
  exact ⟨ds ++ [d], all2_append h1 (.cons (base62Digit_iff.2 ⟨hd, rfl⟩) .nil), by rw [List.foldl_append]; rfl⟩

theorem base62_spec (n : Nat) : Base62 (base62 n) n ∧ (∀ k, (base62 n).length ≤ k + 1 ↔ n < 62 ^ (k + 1)) := by
  induction n using Nat.strongRecOn with
  | _ n ih =>
    rw [base62]
    split
    · next h =>
      refine ⟨⟨[n], .cons (base62Digit_iff.2 ⟨h, rfl⟩) .nil, by simp⟩, fun k => ?_⟩
      constructor
      · intro _
        have : 62 ^ 1 ≤ 62 ^ (k + 1) := Nat.pow_le_pow_right (by omega) (by omega)
        omega
      · intro _; simp
    · next h =>
      obtain ⟨h1, h2⟩ := ih (n / 62) (by omega)
      constructor
      · have := base62_append_digit h1 (d := n % 62) (by omega)
        rwa [show 62 * (n / 62) + n % 62 = n by omega] at this
      · intro k
        rw [List.length_append, List.length_singleton]
        cases k with
        | zero =>
          have : (base62 (n / 62)).length ≠ 0 := by
            intro hc
            have := List.length_eq_zero_iff.1 hc
            rw [base62] at this
            split at this
            · cases this
            · simp at this
          constructor
          · intro; omega
          · intro; omega
        | succ k =>
          have := h2 k
          rw [Nat.pow_succ]
          constructor
          · intro hl
            have := this.1 (by omega)
            omega
          · intro hl
            have := this.2 (by omega)
            omega

theorem base62_unique : ∀ {k : Nat} {t t' : Str} {n : Nat}, t.length = k → t'.length = k → Base62 t n → Base62 t' n → t = t' := by
  intro k
  induction k with
  | zero =>
    intro t t' n h h' _ _
    rw [List.length_eq_zero_iff.1 h, List.length_eq_zero_iff.1 h']
  | succ k ih =>
    intro t t' n h h' hb hb'
    obtain ⟨a, c, rfl⟩ : ∃ a c, t = a ++ [c] := by
      rcases List.eq_nil_or_concat t with rfl | ⟨a, c, rfl⟩
      · cases h
      · exact ⟨a, c, by simp⟩
    obtain ⟨a', c', rfl⟩ : ∃ a c, t' = a ++ [c] := by
      rcases List.eq_nil_or_concat t' with rfl | ⟨a, c, rfl⟩
      · cases h'
      · exact ⟨a, c, by simp⟩
    obtain ⟨m, d, h1, rfl, rfl, h2⟩ := base62_snoc hb
    obtain ⟨m', d', h1', rfl, h3, h2'⟩ := base62_snoc hb'
    have hm : m = m' := by omega
    have hd : d = d' := by omega
    subst hm hd
    rw [ih (by simpa using h) (by simpa using h') h2 h2']

theorem blen_of_alnum {t : Str} (h : ∀ c ∈ t, AlphaNum c) : blen t = t.length := by
  induction t with
  | nil => rfl
  | cons c t ih =>
    have hc := isAlnum_iff.2 (h c List.mem_cons_self)
    have h1 : c.utf8Size = 1 := by
      have : c.toNat < 128 := by
        simp only [isAlnum, Bool.or_eq_true, Bool.and_eq_true, decide_eq_true_eq] at hc
        omega
      unfold Char.utf8Size
      rw [if_pos]
      exact UInt32.le_iff_toNat_le.2 (by show c.toNat ≤ 127; omega)
    simp [h1, ih (fun x hx => h x (List.mem_cons_of_mem _ hx))]
    omega

theorem blen_take_alnum {t : Str} (h : ∀ c ∈ t, AlphaNum c) (n : Nat) : blen (t.take n) = min n t.length := by
  rw [blen_of_alnum (fun c hc => h c (List.mem_of_mem_take hc)), List.length_take]

theorem githubValid_spec (crc : Str → Nat) (t : Str) : (∃ b, githubValid crc t = Res.ok b) ∧
    (githubValid crc t = Res.ok true ↔ ∃ pre payload check, t = pre ++ '_' :: (payload ++ check) ∧
      (∀ c ∈ payload ++ check, AlphaNum c) ∧ payload ≠ [] ∧ check.length = 6 ∧ check = base62 (crc payload)) := by
  by_cases hu : '_' ∈ t
  · obtain ⟨a, l, rfl, hl⟩ := last_sep hu
    obtain ⟨h1, h2⟩ := splitOn_last (a := a) hl
    unfold githubValid
    simp only [if_neg (show ¬ (splitOn '_' (a ++ '_' :: l)).length < 2 by omega), h2]
    have huniq : ∀ pre r, a ++ '_' :: l = pre ++ '_' :: r → '_' ∉ r → l = r := by
      intro pre r he hr
      have := (splitOn_last (a := pre) hr).2
      rw [← he, h2] at this
      exact Option.some.inj this
    have hnot : ∀ r : Str, (∀ c ∈ r, AlphaNum c) → '_' ∉ r := by
      intro r hr hm
      have := isAlnum_iff.2 (hr _ hm)
      exact absurd this (by decide)
    by_cases hal : l.all isAlnum = true
    · have hal' : ∀ c ∈ l, AlphaNum c := fun c hc => isAlnum_iff.1 (List.all_eq_true.1 hal c hc)
      rw [hal]
      simp only [Bool.not_true, Bool.false_eq_true, if_false]
      have hb := blen_of_alnum hal'
      by_cases h6 : blen l ≤ 6
      · rw [if_pos h6]
        refine ⟨⟨_, rfl⟩, by simp, ?_⟩
        rintro ⟨pre, payload, check, he, halp, hne, hc6, _⟩
        have := huniq pre _ he (hnot _ halp)
        rw [this, blen_of_alnum halp, List.length_append, hc6] at h6
        exact absurd (List.length_eq_zero_iff.1 (show payload.length = 0 by omega)) hne
      · rw [if_neg h6]
        have hsplit : l = l.take (l.length - 6) ++ l.drop (l.length - 6) := (List.take_append_drop _ _).symm
        have hbt : blen (l.take (l.length - 6)) = blen l - 6 := by
          rw [blen_take_alnum hal', hb]; omega
        have hs1 : slice l 0 (blen l - 6) = some (l.take (l.length - 6)) :=
          slice_eq_some.2 ⟨[], l.drop (l.length - 6), by simp, by simp, by simp [hbt]⟩
        have hs2 : sliceFrom l (blen l - 6) = some (l.drop (l.length - 6)) := by
          have := sliceFrom_append (l.take (l.length - 6)) (l.drop (l.length - 6))
          rwa [← hsplit, hbt] at this
        rw [hs1, hs2]
        refine ⟨⟨_, rfl⟩, ?_⟩
        simp only [Res.ok.injEq, beq_iff_eq]
        constructor
        · intro h
          refine ⟨a, _, _, by rw [← hsplit], by rw [← hsplit]; exact hal', ?_, ?_, h.symm⟩
          · intro hc
            have := congrArg List.length hc
            rw [List.length_take, List.length_nil] at this
            omega
          · rw [List.length_drop]; omega
        · rintro ⟨pre, payload, check, he, halp, hne, hc6, hck⟩
          have hlp := huniq pre _ he (hnot _ halp)
          have hlen : l.length - 6 = payload.length := by rw [hlp]; simp [hc6]
          rw [hlen, hlp]
          simp [← hck]
    · have hal : l.all isAlnum = false := by simpa using hal
      rw [hal]
      simp only [Bool.not_false, if_true]
      refine ⟨⟨_, rfl⟩, by simp, ?_⟩
      rintro ⟨pre, payload, check, he, halp, _⟩
      have hlp := huniq pre _ he (hnot _ halp)
      rw [← hlp] at halp
      have : l.all isAlnum = true := List.all_eq_true.2 (fun c hc => isAlnum_iff.2 (halp c hc))
      rw [hal] at this; cases this
  · unfold githubValid
    simp only [splitOn_none hu]
    refine ⟨⟨_, rfl⟩, by simp, ?_⟩
    rintro ⟨pre, payload, check, rfl, _⟩
    simp at hu

end Sds
