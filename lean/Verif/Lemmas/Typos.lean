import Verif.Lemmas.Validators

/-! # Why check digits and checksums detect small changes -/

namespace Sds
open Spec

/-! ## CRC-32 -/

theorem xor_cancel_right {a b c : Nat} (h : a ^^^ c = b ^^^ c) : a = b := by
  have := congrArg (fun n => n ^^^ c) h
  simpa [Nat.xor_assoc] using this

theorem xor_cancel_left {a b c : Nat} (h : c ^^^ a = c ^^^ b) : a = b :=
  xor_cancel_right (c := c) (by rw [Nat.xor_comm a, Nat.xor_comm b]; exact h)

/-- One bit of CRC-32. -/
def crcBit (c : Nat) : Nat := if c % 2 = 1 then (c / 2) ^^^ 0xEDB88320 else c / 2

theorem crcBits_succ (n c : Nat) : crcBits (n + 1) c = crcBits n (crcBit c) := rfl

theorem crcBit_lt {c : Nat} (h : c < 2 ^ 32) : crcBit c < 2 ^ 32 := by
  unfold crcBit
  split
  · exact Nat.xor_lt_two_pow (by omega) (by decide)
  · omega

theorem crcBits_lt : ∀ (n : Nat) {c : Nat}, c < 2 ^ 32 → crcBits n c < 2 ^ 32
  | 0, _, h => h
  | n + 1, _, h => crcBits_lt n (crcBit_lt h)

theorem crcBit_inj {c d : Nat} (hc : c < 2 ^ 32) (hd : d < 2 ^ 32) (h : crcBit c = crcBit d) : c = d := by
  have top : ∀ {x y : Nat}, x < 2 ^ 31 → y < 2 ^ 31 → x ^^^ 0xEDB88320 ≠ y := by
    intro x y hx hy e
    have h1 := congrArg (fun n => n.testBit 31) e
    simp only [Nat.testBit_xor] at h1
    rw [Nat.testBit_lt_two_pow hx, Nat.testBit_lt_two_pow hy] at h1
    exact absurd h1 (by decide)
  unfold crcBit at h
  split at h <;> split at h
  · have := xor_cancel_right h
    omega
  · exact absurd h (top (by omega) (by omega))
  · exact absurd h.symm (top (by omega) (by omega))
  · omega

theorem crcBits_inj : ∀ (n : Nat) {c d : Nat}, c < 2 ^ 32 → d < 2 ^ 32 → crcBits n c = crcBits n d → c = d
  | 0, _, _, _, _, h => h
  | n + 1, _, _, hc, hd, h => crcBit_inj hc hd (crcBits_inj n (crcBit_lt hc) (crcBit_lt hd) h)

/-- What is above the lowest bit is added to the result. -/
theorem crcBit_shift (c y : Nat) : crcBit (c ^^^ (2 * y)) = crcBit c ^^^ y := by
  have h1 : (c ^^^ (2 * y)) % 2 = c % 2 := by
    have := Nat.xor_mod_two_pow (a := c) (b := 2 * y) (n := 1)
    rw [Nat.pow_one, Nat.mul_mod_right, Nat.xor_zero] at this
    exact this
  have h2 : (c ^^^ (2 * y)) / 2 = c / 2 ^^^ y := by
    rw [Nat.xor_div_two, Nat.mul_div_cancel_left _ (by decide)]
  unfold crcBit
  rw [h1, h2]
  split
  · rw [Nat.xor_assoc, Nat.xor_comm y, ← Nat.xor_assoc]
  · rfl

theorem crcBits_shift : ∀ (n c y : Nat), crcBits n (c ^^^ (2 ^ n * y)) = crcBits n c ^^^ y
  | 0, c, y => by rw [Nat.pow_zero, Nat.one_mul]; rfl
  | n + 1, c, y => by
    have e : 2 ^ (n + 1) * y = 2 * (2 ^ n * y) := by rw [Nat.pow_succ, Nat.mul_comm (2 ^ n), Nat.mul_assoc]
    rw [crcBits_succ, e, crcBit_shift, crcBits_shift n, crcBits_succ]

theorem crcBits_add : ∀ (m n c : Nat), crcBits n (crcBits m c) = crcBits (m + n) c
  | 0, n, c => by rw [Nat.zero_add]; rfl
  | m + 1, n, c => by rw [crcBits_succ, crcBits_add m, Nat.add_right_comm, crcBits_succ]

/-- The bytes of a text as one number. -/
def word : Str → Nat
  | [] => 0
  | c :: t => c.toNat ^^^ (2 ^ 8 * word t)

def crcFeed (c : Nat) (t : Str) : Nat := t.foldl (fun c x => crcBits 8 (c ^^^ x.toNat)) c

theorem crcFeed_append (c : Nat) (a b : Str) : crcFeed c (a ++ b) = crcFeed (crcFeed c a) b := List.foldl_append

theorem crcFeed_word : ∀ (t : Str) (c : Nat), crcFeed c t = crcBits (8 * t.length) (c ^^^ word t)
  | [], c => by rw [word, Nat.xor_zero]; rfl
  | x :: t, c => by
    show crcFeed (crcBits 8 (c ^^^ x.toNat)) t = _
    rw [crcFeed_word t, ← crcBits_shift, crcBits_add, word, Nat.xor_assoc, List.length_cons]
    congr 1
    omega

theorem word_lt : ∀ {t : Str}, (∀ c ∈ t, c.toNat < 256) → word t < 2 ^ (8 * t.length)
  | [], _ => by decide
  | c :: t, h => by
    have h1 := word_lt (t := t) (fun x hx => h x (List.mem_cons_of_mem _ hx))
    have h2 := h c List.mem_cons_self
    have e : 8 * (c :: t).length = 8 + 8 * t.length := by rw [List.length_cons]; omega
    have hp : 2 ^ 8 * word t < 2 ^ (8 + 8 * t.length) := by
      rw [Nat.pow_add]
      exact Nat.mul_lt_mul_of_pos_left h1 (by decide)
    rw [word, e]
    refine Nat.xor_lt_two_pow (Nat.lt_of_lt_of_le h2 ?_) hp
    exact Nat.pow_le_pow_right (n := 2) (i := 8) (by decide) (by omega)

theorem word_inj : ∀ {s t : Str}, (∀ c ∈ s, c.toNat < 256) → (∀ c ∈ t, c.toNat < 256) → s.length = t.length →
    word s = word t → s = t
  | [], [], _, _, _, _ => rfl
  | [], _ :: _, _, _, h, _ => by cases h
  | _ :: _, [], _, _, h, _ => by cases h
  | c :: s, d :: t, hs, ht, hl, h => by
    have hc := hs c List.mem_cons_self
    have hd := ht d List.mem_cons_self
    have low : ∀ {x w : Nat}, x < 256 → (x ^^^ (2 ^ 8 * w)) % 2 ^ 8 = x := by
      intro x w hx
      rw [Nat.xor_mod_two_pow, Nat.mul_mod_right, Nat.xor_zero]
      exact Nat.mod_eq_of_lt hx
    rw [word, word] at h
    have h1 : c.toNat = d.toNat := by
      have := congrArg (fun n => n % 2 ^ 8) h
      rwa [low hc, low hd] at this
    rw [h1] at h
    have h2 := Nat.eq_of_mul_eq_mul_left (by decide) (xor_cancel_left h)
    rw [char_eq_of_toNat h1, word_inj (fun x hx => hs x (List.mem_cons_of_mem _ hx))
      (fun x hx => ht x (List.mem_cons_of_mem _ hx)) (by simpa using hl) h2]

theorem crcFeed_lt : ∀ {t : Str} {c : Nat}, (∀ x ∈ t, x.toNat < 256) → c < 2 ^ 32 → crcFeed c t < 2 ^ 32
  | [], _, _, h => h
  | x :: t, c, ht, h => by
    refine crcFeed_lt (t := t) (fun y hy => ht y (List.mem_cons_of_mem _ hy)) (crcBits_lt 8 ?_)
    exact Nat.xor_lt_two_pow h (Nat.lt_of_lt_of_le (ht x List.mem_cons_self) (by decide))

theorem crcFeed_inj : ∀ {t : Str} {c d : Nat}, (∀ x ∈ t, x.toNat < 256) → c < 2 ^ 32 → d < 2 ^ 32 →
    crcFeed c t = crcFeed d t → c = d
  | [], _, _, _, _, _, h => h
  | x :: t, c, d, ht, hc, hd, h => by
    have hx : x.toNat < 2 ^ 32 := Nat.lt_of_lt_of_le (ht x List.mem_cons_self) (by decide)
    have h1 := crcFeed_inj (t := t) (fun y hy => ht y (List.mem_cons_of_mem _ hy))
      (crcBits_lt 8 (Nat.xor_lt_two_pow hc hx)) (crcBits_lt 8 (Nat.xor_lt_two_pow hd hx)) h
    exact xor_cancel_right (crcBits_inj 8 (Nat.xor_lt_two_pow hc hx) (Nat.xor_lt_two_pow hd hx) h1)

/-- Texts that differ within four adjacent bytes have different checksums. -/
theorem crc32_burst {a x y b : Str} (ha : ∀ c ∈ a, c.toNat < 256) (hx : ∀ c ∈ x, c.toNat < 256)
    (hy : ∀ c ∈ y, c.toNat < 256) (hb : ∀ c ∈ b, c.toNat < 256) (hl : x.length = y.length) (h4 : x.length ≤ 4)
    (h : crc32 (a ++ (x ++ b)) = crc32 (a ++ (y ++ b))) : x = y := by
  have h : crcFeed 0xFFFFFFFF (a ++ (x ++ b)) ^^^ 0xFFFFFFFF = crcFeed 0xFFFFFFFF (a ++ (y ++ b)) ^^^ 0xFFFFFFFF := h
  have h := xor_cancel_right h
  rw [crcFeed_append, crcFeed_append, crcFeed_append _ a, crcFeed_append _ y] at h
  have hs : crcFeed 0xFFFFFFFF a < 2 ^ 32 := crcFeed_lt ha (by decide)
  have h := crcFeed_inj hb (crcFeed_lt hx hs) (crcFeed_lt hy hs) h
  have hw : ∀ {z : Str}, (∀ c ∈ z, c.toNat < 256) → z.length ≤ 4 → word z < 2 ^ 32 := fun hz hz4 =>
    Nat.lt_of_lt_of_le (word_lt hz) (Nat.pow_le_pow_right (n := 2) (j := 32) (by decide) (by omega))
  rw [crcFeed_word x, crcFeed_word y, ← hl] at h
  have h := crcBits_inj _ (Nat.xor_lt_two_pow hs (hw hx h4)) (Nat.xor_lt_two_pow hs (hw hy (hl ▸ h4))) h
  exact word_inj hx hy hl (xor_cancel_left h)

theorem base62_inj {m n : Nat} (h : base62 m = base62 n) : m = n := by
  obtain ⟨ds, h1, h2⟩ := (base62_spec m).1
  obtain ⟨es, h3, h4⟩ := (base62_spec n).1
  rw [h] at h1
  rw [h2, h4, all2_unique (fun a b b' hb hb' => by
    obtain ⟨g1, g2⟩ := base62Digit_iff.1 hb
    obtain ⟨g3, g4⟩ := base62Digit_iff.1 hb'
    exact base62Digit_inj g1 g3 (g2.symm.trans g4)) h1 h3]

theorem alphaNum_lt {c : Char} (h : AlphaNum c) : c.toNat < 256 := by
  rcases h with ⟨_, h⟩ | ⟨_, h⟩ | ⟨_, h⟩ <;> exact Nat.lt_of_le_of_lt h (by decide)

/-- The part of a token after its last underscore. -/
theorem after_underscore {pre pre' r r' : Str} (h : pre ++ '_' :: r = pre' ++ '_' :: r') (hr : ∀ c ∈ r, AlphaNum c)
    (hr' : ∀ c ∈ r', AlphaNum c) : r = r' := by
  have hnot : ∀ r : Str, (∀ c ∈ r, AlphaNum c) → '_' ∉ r := by
    intro r hr hm
    have := isAlnum_iff.2 (hr _ hm)
    exact absurd this (by decide)
  have h1 := (splitOn_last (a := pre) (hnot r hr)).2
  rw [h, (splitOn_last (a := pre') (hnot r' hr')).2] at h1
  exact (Option.some.inj h1).symm

/-- An accepted token, given its last part. -/
theorem github_last {crc : Str → Nat} {pre payload check : Str} (ha : ∀ c ∈ payload ++ check, AlphaNum c)
    (hc : check.length = 6) (hv : githubValid crc (pre ++ '_' :: (payload ++ check)) = Res.ok true) :
    check = base62 (crc payload) := by
  obtain ⟨pre', payload', check', he, ha', _, hc', h⟩ := (githubValid_spec crc _).2.1 hv
  obtain ⟨rfl, rfl⟩ := List.append_inj' (after_underscore he ha ha') (by rw [hc, hc'])
  exact h

/-! ## NHS -/

/-- Sum with weights 1, 2, 3, ... from the right. -/
def nhsWeights : List Nat → Nat
  | [] => 0
  | d :: ds => (ds.length + 1) * d + nhsWeights ds

theorem nhsNumber_weights {ds : List Nat} (h : NhsNumber ds) : nhsWeights ds % 11 = 0 := by
  obtain ⟨d1, d2, d3, d4, d5, d6, d7, d8, d9, d10, rfl, h1, h2⟩ := h
  simp only [nhsWeights, List.length_cons, List.length_nil] at *
  split at h2 <;> omega

theorem nhsWeights_append (a b b' : List Nat) (h : b.length = b'.length) :
    ∃ s, nhsWeights (a ++ b) = s + nhsWeights b ∧ nhsWeights (a ++ b') = s + nhsWeights b' := by
  induction a with
  | nil => exact ⟨0, by simp⟩
  | cons d a ih =>
    obtain ⟨s, h1, h2⟩ := ih
    refine ⟨((a ++ b).length + 1) * d + s, ?_, ?_⟩
    · rw [List.cons_append, nhsWeights, h1, Nat.add_assoc]
    · rw [List.cons_append, nhsWeights, h2, ← Nat.add_assoc]
      simp [h]

theorem nhs_mul : ∀ k : Fin 10, ∀ x y : Fin 10, ((k.val + 1) * x.val) % 11 = ((k.val + 1) * y.val) % 11 → x = y := by
  decide +kernel

theorem nhs_swap : ∀ k : Fin 10, ∀ x y : Fin 10, ((k.val + 1 + 1) * x.val + (k.val + 1) * y.val) % 11 =
    ((k.val + 1 + 1) * y.val + (k.val + 1) * x.val) % 11 → x = y := by
  decide +kernel

/-! ## NIR -/

/-- The weight of the digit with `n` digits after it. -/
def nirWeight (n : Nat) : Nat := if 2 ≤ n then 10 ^ (n - 2) else 10 ^ n

def nirWeights : List Nat → Nat
  | [] => 0
  | d :: ds => nirWeight ds.length * d + nirWeights ds

theorem nirWeights_eq {k : List Nat} (hk : k.length = 2) : ∀ a : List Nat, nirWeights (a ++ k) = number a + number k
  | [] => by
    match k, hk with
    | [p, q], _ => simp [nirWeights, nirWeight, number]
  | d :: a => by
    have h : number (d :: a) = d * 10 ^ a.length + number a := by
      have := number_append [d] a
      simpa [number] using this
    rw [List.cons_append, nirWeights, nirWeights_eq hk a, h, List.length_append, hk, nirWeight, if_pos (by omega),
      Nat.add_sub_cancel, Nat.mul_comm d]
    omega

theorem nirWeights_append (a b b' : List Nat) (h : b.length = b'.length) :
    ∃ s, nirWeights (a ++ b) = s + nirWeights b ∧ nirWeights (a ++ b') = s + nirWeights b' := by
  induction a with
  | nil => exact ⟨0, by simp⟩
  | cons d a ih =>
    obtain ⟨s, h1, h2⟩ := ih
    refine ⟨nirWeight (a ++ b).length * d + s, ?_, ?_⟩
    · rw [List.cons_append, nirWeights, h1, Nat.add_assoc]
    · rw [List.cons_append, nirWeights, h2, ← Nat.add_assoc]
      simp [h]

theorem nir_swap : ∀ k : Fin 14, ∀ x y : Fin 10, (nirWeight (k.val + 1) * x.val + nirWeight k.val * y.val) % 97 =
    (nirWeight (k.val + 1) * y.val + nirWeight k.val * x.val) % 97 → x = y := by
  decide +kernel

end Sds
