import Verif.Lemmas.RustParts
import Verif.Props.Validation
import Verif.Spec.AwsSecret

/-! # C73: the AWS secret that is sent is the one in the match -/

namespace Sds.Props
open Sds Spec Re

/-! ## The search -/

theorem isSecretChar_iff (c : Char) : isSecretChar c = true ↔ SecretChar c := by
  simp only [isSecretChar, SecretChar, Char.isAlphanum, Char.isAlpha, Char.isUpper, Char.isLower, Char.isDigit,
    Bool.or_eq_true, Bool.and_eq_true, decide_eq_true_eq, beq_iff_eq, Char.le_def, or_assoc]

theorem isWordIn_iff (word : Char → Bool) (c : Char) : isWordIn word c = true ↔ WordIn word c := by
  unfold isWordIn WordIn
  split
  · simp only [AsciiWordChar, Char.isAlphanum, Char.isAlpha, Char.isUpper, Char.isLower, Char.isDigit,
      Bool.or_eq_true, Bool.and_eq_true, decide_eq_true_eq, beq_iff_eq, Char.le_def]
    constructor
    · rintro (((h | h) | h) | h)
      · exact .inr (.inl h)
      · exact .inl h
      · exact .inr (.inr (.inl h))
      · exact .inr (.inr (.inr h))
    · rintro (h | h | h | h)
      · exact .inl (.inl (.inr h))
      · exact .inl (.inl (.inl h))
      · exact .inl (.inr h)
      · exact .inr h
  · rfl

theorem spans_times {T : Tables} {P : Char → Prop} {g : Bool} (n : Nat) {p m q : Str} :
    Spans T (.rep n (some n) g (.set P)) p m q ↔ m.length = n ∧ ∀ c ∈ m, P c := by
  induction n generalizing p m with
  | zero =>
    constructor
    · intro h
      cases h with
      | repZero => simp
      | repSucc hh => simp at hh
    · rintro ⟨h, -⟩
      rw [List.length_eq_zero_iff.1 h]
      exact .repZero
  | succ n ih =>
    constructor
    · intro h
      generalize hr : Node.rep (n + 1) (some (n + 1)) g (.set P) = r at h
      cases h with
      | repSucc hh h h' =>
        cases hr
        cases h with
        | set hc =>
          obtain ⟨h1, h2⟩ := ih.1 h'
          refine ⟨by simp [h1], ?_⟩
          intro c hc'
          simp only [List.cons_append, List.nil_append, List.mem_cons] at hc'
          rcases hc' with rfl | hc'
          · exact hc
          · exact h2 c hc'
      | _ => cases hr
    · rintro ⟨h1, h2⟩
      match m, h1 with
      | c :: m, h1 =>
        exact Spans.repSucc (m := [c]) (m' := m) (by simp) (.set (h2 c (by simp)))
          (ih.2 ⟨by simpa using h1, fun d hd => h2 d (by simp [hd])⟩)

theorem spans_secret {T : Tables} {p m q : Str} :
    Spans T secretNode p m q ↔ IsSecret m ∧ Boundary T.wordChar (p ++ m) q := by
  unfold secretNode
  rw [spans_seq_cons]
  constructor
  · rintro ⟨m1, m2, rfl, h1, h2⟩
    rw [spans_seq_one] at h2
    cases h1 with
    | capture h1 =>
      cases h2 with
      | look h2 =>
        rw [List.append_nil]
        exact ⟨(spans_times 40).1 h1, h2⟩
  · rintro ⟨h1, h2⟩
    exact ⟨m, [], (List.append_nil m).symm, .capture ((spans_times 40).2 h1), spans_seq_one.2 (.look h2)⟩

theorem secretAt_iff {T : Tables} {word : Char → Bool} (hw : ∀ c, T.wordChar c ↔ WordIn word c) (p s : Str) :
    secretAt word s = true ↔ ∃ m q, s = m ++ q ∧ Spans T secretNode p m q := by
  have hb : ∀ o : Option Char, o.any (isWordIn word) = true ↔ ∃ c ∈ o, T.wordChar c := by
    intro o
    cases o with
    | none => simp
    | some c => simp [hw, isWordIn_iff]
  have hlast : ∀ m : Str, m.length = 40 → (p ++ m).getLast? = m.getLast? := by
    intro m hm
    match m, hm with
    | c :: m, _ => rw [List.getLast?_append, List.getLast?_cons]; rfl
  have key : ∀ m q : Str, IsSecret m → (Boundary T.wordChar (p ++ m) q ↔
      (m.getLast?.any (isWordIn word) != q.head?.any (isWordIn word)) = true) := by
    intro m q hm
    rw [Boundary, hlast m hm.1, ← hb, ← hb]
    cases m.getLast?.any (isWordIn word) <;> cases q.head?.any (isWordIn word) <;> simp
  unfold secretAt
  simp only [Bool.and_eq_true, beq_iff_eq, List.all_eq_true, isSecretChar_iff]
  constructor
  · rintro ⟨h1, h2⟩
    exact ⟨s.take 40, s.drop 40, (List.take_append_drop 40 s).symm, spans_secret.2 ⟨h1, (key _ _ h1).2 h2⟩⟩
  · rintro ⟨m, q, rfl, h⟩
    obtain ⟨h1, h2⟩ := spans_secret.1 h
    have h40 := h1.1
    rw [List.take_append_of_le_length (by omega), List.take_of_length_le (by omega),
      List.drop_append_of_le_length (by omega), List.drop_of_length_le (by omega), List.nil_append]
    exact ⟨h1, (key _ _ h1).1 h2⟩

theorem extractSecret_skip {word : Char → Bool} (p s : Str)
    (h : ∀ p1 p2, p = p1 ++ p2 → p2 ≠ [] → secretAt word (p2 ++ s) = false) :
    extractSecret word (p ++ s) = extractSecret word s := by
  induction p with
  | nil => rfl
  | cons c p ih =>
    have h1 := h [] (c :: p) rfl (by simp)
    rw [List.cons_append] at h1 ⊢
    rw [extractSecret, h1]
    exact ih fun p1 p2 e hne => h (c :: p1) p2 (by simp [e]) hne

theorem extractSecret_hit {word : Char → Bool} {s : Str} (h : secretAt word s = true) :
    extractSecret word s = s.take 40 := by
  match s with
  | [] => simp [secretAt] at h
  | c :: s => rw [extractSecret, if_pos h]

/-- C73: what is sent is the leftmost match of the pattern for secrets, and nothing if there is none. -/
theorem C73_leftmost (T : Tables) (word : Char → Bool) (hw : ∀ c, T.wordChar c ↔ WordIn word c) (s : Str) :
    (∀ k, LeftmostSpan T secretNode s k → extractSecret word s = k) ∧
    ((¬ ∃ p k q, s = p ++ k ++ q ∧ Spans T secretNode p k q) → extractSecret word s = []) := by
  constructor
  · rintro k ⟨p, q, rfl, h, hmin⟩
    rw [List.append_assoc, extractSecret_skip p]
    · rw [extractSecret_hit ((secretAt_iff hw p _).2 ⟨k, q, rfl, h⟩)]
      have := (spans_secret.1 h).1.1
      rw [List.take_append_of_le_length (by omega), List.take_of_length_le (by omega)]
    · rintro p1 p2 rfl hne
      rw [Bool.eq_false_iff]
      intro hs
      obtain ⟨m, q', e, h'⟩ := (secretAt_iff hw p1 _).1 hs
      have := hmin p1 m q' (by rw [List.append_assoc p1 m, ← e]; simp) h'
      rw [List.length_append] at this
      have := List.length_pos_iff.2 hne
      omega
  · intro hno
    have := extractSecret_skip (word := word) s [] (fun p1 p2 e hne => by
      rw [Bool.eq_false_iff]
      intro hs
      obtain ⟨m, q', e', h'⟩ := (secretAt_iff hw p1 _).1 hs
      exact hno ⟨p1, m, q', by rw [List.append_assoc, ← e', e]; simp, h'⟩)
    rw [List.append_nil] at this
    rw [this]
    rfl

/-! ## A text with one secret -/

/-- Nothing is found that begins before the secret. -/
theorem secretAt_before {word : Char → Bool} {p s : Str} (hb : ∀ c, p.getLast? = some c → ¬ SecretChar c)
    (hn : NoSecret p) (p1 p2 : Str) (e : p = p1 ++ p2) (hne : p2 ≠ []) : secretAt word (p2 ++ s) = false := by
  rw [Bool.eq_false_iff]
  intro h
  simp only [secretAt, Bool.and_eq_true, beq_iff_eq, List.all_eq_true, isSecretChar_iff] at h
  obtain ⟨h1, -⟩ := h
  by_cases hl : 40 ≤ p2.length
  · rw [List.take_append_of_le_length hl] at h1
    exact hn p1 (p2.take 40) (p2.drop 40) (by rw [List.append_assoc, List.take_append_drop, e]) h1
  · obtain ⟨c, hc⟩ := Option.isSome_iff_exists.1 (List.getLast?_isSome.2 hne)
    refine hb c (by rw [e, List.getLast?_append, hc]; rfl) (h1.2 c ?_)
    rw [List.take_append, List.take_of_length_le (by omega)]
    exact List.mem_append_left _ (List.mem_of_getLast? hc)

theorem extractSecret_none {word : Char → Bool} {s : Str} (hn : NoSecret s) : extractSecret word s = [] := by
  have := extractSecret_skip (word := word) s [] (fun p1 p2 e _ => by
    rw [Bool.eq_false_iff]
    intro h
    simp only [secretAt, Bool.and_eq_true, beq_iff_eq, List.all_eq_true, isSecretChar_iff] at h
    rw [List.append_nil] at h
    exact hn p1 (p2.take 40) (p2.drop 40) (by rw [List.append_assoc, List.take_append_drop, e]) h.1)
  rw [List.append_nil] at this
  rw [this]
  rfl

theorem take_key {k q : Str} (h : k.length = 40) : (k ++ q).take 40 = k ∧ (k ++ q).drop 40 = q := by
  rw [List.take_append_of_le_length (by omega), List.take_of_length_le (by omega),
    List.drop_append_of_le_length (by omega), List.drop_of_length_le (by omega), List.nil_append]
  exact ⟨rfl, rfl⟩

theorem secretChar_word (word : Char → Bool) {c : Char} (h : SecretChar c) :
    isWordIn word c = true ↔ ¬ (c = '/' ∨ c = '+') := by
  have h128 : c.toNat < 128 := by
    rcases h with ⟨_, h⟩ | ⟨_, h⟩ | ⟨_, h⟩ | rfl | rfl
    · exact Nat.lt_of_le_of_lt h (by decide)
    · exact Nat.lt_of_le_of_lt h (by decide)
    · exact Nat.lt_of_le_of_lt h (by decide)
    · decide
    · decide
  rw [isWordIn, if_pos h128]
  constructor
  · rintro h (rfl | rfl) <;> simp at h <;> revert h <;> decide
  · intro hne
    have := (isSecretChar_iff c).2 h
    simp only [isSecretChar, Bool.or_eq_true, beq_iff_eq] at this ⊢
    rcases this with (h | h) | h
    · exact .inl h
    · exact absurd (.inl h) hne
    · exact absurd (.inr h) hne

open Classical in
/-- Whether the only secret of a text is sent depends on its last character and on what follows. -/
theorem extract_only {word : Char → Bool} {p k q : Str} (h : OnlySecret p k q) {c : Char} (hc : k.getLast? = some c) :
    extractSecret word (p ++ k ++ q) =
      if (¬ (c = '/' ∨ c = '+')) ↔ ∃ d, q.head? = some d ∧ WordIn word d then [] else k := by
  rw [List.append_assoc, extractSecret_skip p _ (secretAt_before h.before h.noneBefore)]
  have hk := h.secret.1
  obtain ⟨h1, h2⟩ := take_key (q := q) hk
  have hat : secretAt word (k ++ q) = true ↔
      ¬ ((¬ (c = '/' ∨ c = '+')) ↔ ∃ d, q.head? = some d ∧ WordIn word d) := by
    have hc' := secretChar_word word (h.secret.2 c (List.mem_of_getLast? hc))
    have hq : q.head?.any (isWordIn word) = true ↔ ∃ d, q.head? = some d ∧ WordIn word d := by
      cases q.head? with
      | none => simp
      | some d => simp [isWordIn_iff]
    simp only [secretAt, h1, h2, Bool.and_eq_true, beq_iff_eq, List.all_eq_true, isSecretChar_iff, hc, Option.any_some]
    rw [← hc', ← hq]
    constructor
    · rintro ⟨-, h⟩
      revert h
      cases isWordIn word c <;> cases q.head?.any (isWordIn word) <;> simp
    · intro hne
      refine ⟨⟨hk, h.secret.2⟩, ?_⟩
      revert hne
      cases isWordIn word c <;> cases q.head?.any (isWordIn word) <;> simp
  by_cases hs : secretAt word (k ++ q) = true
  · rw [if_neg (hat.1 hs), extractSecret_hit hs, h1]
  · rw [if_pos (Classical.not_not.1 (mt hat.2 hs))]
    have hne : ∃ d k', k = d :: k' := by
      match k, hk with
      | d :: k', _ => exact ⟨d, k', rfl⟩
    obtain ⟨d, k', rfl⟩ := hne
    rw [List.cons_append] at hs ⊢
    rw [extractSecret, if_neg hs]
    -- what begins inside of the secret goes beyond its end
    have : extractSecret word (k' ++ q) = extractSecret word q := by
      refine extractSecret_skip k' q fun p1 p2 e hne => ?_
      rw [Bool.eq_false_iff]
      intro hs'
      simp only [secretAt, Bool.and_eq_true, beq_iff_eq, List.all_eq_true, isSecretChar_iff] at hs'
      have hlen : p2.length < 40 := by
        have := congrArg List.length e
        simp only [List.length_append, List.length_cons] at this hk
        omega
      obtain ⟨⟨h3, h4⟩, -⟩ := hs'
      rw [List.take_append, List.take_of_length_le (by omega)] at h3 h4
      match q, h with
      | [], _ => simp at h3; omega
      | x :: q, h =>
        refine h.after x rfl (h4 x (List.mem_append_right _ ?_))
        rw [show 40 - p2.length = (39 - p2.length) + 1 from by omega, List.take_succ_cons]
        simp
    rw [this, extractSecret_none h.noneAfter]

/-- C73 (partial: for secrets that do not end in `/` or `+` and are not followed by a word character): the only secret
in the text of a match is sent. -/
theorem C73_secret_sent_partial {word : Char → Bool} {p k q : Str} (h : OnlySecret p k q)
    (hlast : ∀ c, k.getLast? = some c → c ≠ '/' ∧ c ≠ '+') (hq : ∀ d, q.head? = some d → ¬ WordIn word d) :
    extractSecret word (p ++ k ++ q) = k := by
  have hne : k ≠ [] := by
    rintro rfl
    exact absurd h.secret.1 (by decide)
  obtain ⟨c, hc⟩ := Option.isSome_iff_exists.1 (List.getLast?_isSome.2 hne)
  rw [extract_only h hc, if_neg]
  intro hi
  obtain ⟨d, hd, hw⟩ := hi.1 (by rintro (rfl | rfl) <;> simp_all)
  exact hq d hd hw

/-- C73 fails: if the secret ends in `/` or `+`, as one in 32 does, and is followed by the end of the text or by
something other than a word character, an empty secret is sent. -/
theorem C73_final_slash_not_sent {word : Char → Bool} {p k q : Str} (h : OnlySecret p k q)
    (hlast : k.getLast? = some '/' ∨ k.getLast? = some '+') (hq : ∀ d, q.head? = some d → ¬ WordIn word d) :
    extractSecret word (p ++ k ++ q) = [] := by
  have hno : ¬ ∃ d, q.head? = some d ∧ WordIn word d := fun ⟨d, hd, hw⟩ => hq d hd hw
  rcases hlast with hc | hc <;> rw [extract_only h hc, if_pos] <;> simp [hno]

/-- C73 fails: a secret followed by an underscore or by a letter of another script is not sent either. -/
theorem C73_word_after_not_sent {word : Char → Bool} {p k q : Str} (h : OnlySecret p k q)
    (hlast : ∀ c, k.getLast? = some c → c ≠ '/' ∧ c ≠ '+') (hq : ∃ d, q.head? = some d ∧ WordIn word d) :
    extractSecret word (p ++ k ++ q) = [] := by
  have hne : k ≠ [] := by
    rintro rfl
    exact absurd h.secret.1 (by decide)
  obtain ⟨c, hc⟩ := Option.isSome_iff_exists.1 (List.getLast?_isSome.2 hne)
  rw [extract_only h hc, if_pos]
  have := hlast c hc
  exact iff_of_true (by rintro (rfl | rfl) <;> simp_all) hq

/-! ## Texts that meet the hypotheses -/

theorem noSecret_short {s : Str} (h : s.length < 40) : NoSecret s := by
  rintro p k q rfl ⟨hk, -⟩
  simp only [List.length_append] at h
  omega

theorem onlySecret_of {p k q : Str} (h1 : k.length = 40) (h2 : k.all isSecretChar = true)
    (h3 : p.length < 40) (h4 : q.length < 40) (h5 : p.getLast?.any isSecretChar = false)
    (h6 : q.head?.any isSecretChar = false) : OnlySecret p k q := by
  refine ⟨⟨h1, fun c hc => (isSecretChar_iff c).1 (List.all_eq_true.1 h2 c hc)⟩, fun c hc hs => ?_, fun c hc hs => ?_,
    noSecret_short h3, noSecret_short h4⟩
  · rw [hc] at h5
    simp [(isSecretChar_iff c).2 hs] at h5
  · rw [hc] at h6
    simp [(isSecretChar_iff c).2 hs] at h6

/-- A secret that ends in `/`. -/
def slashKey : Str := "wJalrXUtnFEMI/K7MDENG/bPxRfiCYEXAMPLEKE/".toList

example : OnlySecret "aws_secret_access_key=".toList "wJalrXUtnFEMI/K7MDENG/bPxRfiCYEXAMPLEKEY".toList ";".toList :=
  onlySecret_of (by decide +kernel) (by decide +kernel) (by decide +kernel) (by decide +kernel) (by decide +kernel)
    (by decide +kernel)

example : OnlySecret "key=".toList slashKey "\"".toList ∧ OnlySecret [] someKey ['_'] :=
  ⟨onlySecret_of (by decide +kernel) (by decide +kernel) (by decide +kernel) (by decide +kernel) (by decide +kernel)
    (by decide +kernel),
  onlySecret_of (by decide +kernel) (by decide +kernel) (by decide +kernel) (by decide +kernel) (by decide +kernel)
    (by decide +kernel)⟩

/-- There is such a table of word characters. -/
example : ∃ T : Tables, ∀ c, T.wordChar c ↔ WordIn (fun _ => false) c :=
  ⟨⟨Eq, fun _ _ => False, WordIn fun _ => false, fun _ => rfl, Eq.symm, Eq.trans, fun h _ => h,
    fun h h1 h2 => by subst h; omega⟩, fun _ => Iff.rfl⟩

/-- C73 fails: without something in front that cannot be part of a secret, a part of the secret may be sent together
with what is before it. -/
theorem C73_other_secret_sent :
    ∃ k : Str, IsSecret k ∧ k.getLast? = some 'a' ∧ ∀ word, extractSecret word ('/' :: k) = '/' :: k.take 39 := by
  refine ⟨List.replicate 38 'a' ++ ['/', 'a'], ⟨by decide, fun c hc => ?_⟩, by decide, fun word => ?_⟩
  · rw [← isSecretChar_iff]
    exact List.all_eq_true.1 (show (List.replicate 38 'a' ++ ['/', 'a']).all isSecretChar = true by decide +kernel) c hc
  · have h1 : isWordIn word 'a' = true := by simp [isWordIn]
    have h2 : isWordIn word '/' = false := by simp [isWordIn]
    rw [extractSecret, if_pos]
    · decide +kernel
    · have e1 : ('/' :: (List.replicate 38 'a' ++ ['/', 'a'])).take 40 = '/' :: (List.replicate 38 'a' ++ ['/']) := by
        decide +kernel
      have e2 : ('/' :: (List.replicate 38 'a' ++ ['/', 'a'])).drop 40 = ['a'] := by decide +kernel
      rw [secretAt, e1, e2]
      have e3 : ('/' :: (List.replicate 38 'a' ++ ['/'])).getLast? = some '/' := by decide +kernel
      have e4 : ('/' :: (List.replicate 38 'a' ++ ['/'])).all isSecretChar = true := by decide +kernel
      rw [e3, e4]
      simp [h1, h2]

/-! ## What this does to validation -/

/-- Accepts one id with one secret and refuses everything else. -/
def oneKeyNet (id key : Str) (word : Char → Bool) : Net where
  http := fun _ _ => .response 404
  aws := fun _ _ r => if r.id = id ∧ r.secret = key then .response 200 else .response 403
  signable := fun _ => true
  word := word

/-- C73, end to end: AWS accepts the id with the secret, both are matched exactly, and they are reported invalid because
the secret ends in `/`. -/
theorem C73_valid_secret_reported_invalid :
    ∃ (id key : Str) (net : Net), IsSecret key ∧
      (∀ i j cfg, net.aws i j ⟨cfg, id, key⟩ = .response 200) ∧
      validateMatches net inOrder awsRules [(.aws, .aws awsCfg)] true
        [aMatch 0 0 id .notChecked, aMatch 1 30 key .notChecked] =
        .ok (some [aMatch 0 0 id .invalid, aMatch 1 30 key .invalid]) := by
  refine ⟨['i'], slashKey, oneKeyNet ['i'] slashKey (fun _ => false), ?_, ?_, by decide +kernel⟩
  · exact (onlySecret_of (p := []) (q := []) (by decide +kernel) (by decide +kernel) (by decide +kernel)
      (by decide +kernel) (by decide +kernel) (by decide +kernel)).secret
  · intro i j cfg
    simp [oneKeyNet]

end Sds.Props
