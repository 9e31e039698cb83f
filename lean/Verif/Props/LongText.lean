import Verif.Spec.LongText
import Verif.Props.Codec

/-! # C100: texts of 2^32 bytes and more -/

namespace Sds.Props

open Sds Spec

private theorem readU32_any (n : Nat) (r : Bytes) : readU32 (be32 n ++ r) = some (n % 4294967296, r) := by
  simp only [be32, List.cons_append, List.nil_append, readU32, Option.some.injEq, Prod.mk.injEq, and_true]
  omega

private theorem readBytes_any (b r : Bytes) :
    readBytes (encodeBytes b ++ r) = some (b.take (b.length % 4294967296), b.drop (b.length % 4294967296) ++ r) := by
  have hle : b.length % 4294967296 ≤ b.length := Nat.mod_le _ _
  unfold readBytes encodeBytes
  rw [List.append_assoc, readU32_any]
  dsimp only
  rw [if_pos (by rw [List.length_append]; omega), List.take_append_of_le_length hle, List.drop_append_of_le_length hle]

private theorem ops_field (k r : Bytes) : binaryOps (0 :: (encodeBytes k ++ r)) =
    (binaryOps (k.drop (k.length % 4294967296) ++ r)).map (Op.push (.field (lossy (k.take (k.length % 4294967296)))) :: ·) := by
  unfold binaryOps
  rw [List.length_cons, binaryOpsF, if_pos rfl, readBytes_any]
  dsimp only
  rw [binaryOps_fuel _ (k.drop (k.length % 4294967296) ++ r).length _ (by simp [encodeBytes]; omega) (Nat.le_refl _)]

private theorem ops_index (n : Nat) (r : Bytes) :
    binaryOps (1 :: (be32 n ++ r)) = (binaryOps r).map (Op.push (.index (n % 4294967296)) :: ·) := by
  unfold binaryOps
  rw [List.length_cons, binaryOpsF, if_neg (by decide), if_pos rfl, readU32_any]
  dsimp only
  rw [binaryOps_fuel _ r.length r (by simp) (Nat.le_refl _)]

private theorem ops_string (b r : Bytes) : binaryOps (goEncodeString b ++ r) =
    (binaryOps (b.drop (b.length % 4294967296) ++ r)).map (Op.visit (lossy (b.take (b.length % 4294967296))) :: ·) := by
  unfold binaryOps goEncodeString
  rw [List.cons_append, List.length_cons, binaryOpsF, if_neg (by decide), if_neg (by decide), if_neg (by decide),
    if_pos rfl, readBytes_any]
  dsimp only
  rw [binaryOps_fuel _ (b.drop (b.length % 4294967296) ++ r).length _ (by simp [encodeBytes]; omega) (Nat.le_refl _)]

private theorem ops_other (x : Nat) (r : Bytes) (h : 4 ≤ x) : binaryOps (x :: r) = .panic := by
  unfold binaryOps
  rw [List.length_cons, binaryOpsF, if_neg (by omega), if_neg (by omega), if_neg (by omega), if_neg (by omega)]

/-- What is left of a long text is not an encoding. -/
private theorem ops_left {t : Bytes} (hp : Plain t) (hl : Long t) (r : Bytes) :
    binaryOps (t.drop (t.length % 4294967296) ++ r) = .panic := by
  have hlt : t.length % 4294967296 < t.length := by
    have := Nat.mod_lt t.length (show 4294967296 > 0 by decide)
    unfold Long at hl
    omega
  cases hd : t.drop (t.length % 4294967296) with
  | nil => rw [List.drop_eq_nil_iff] at hd; omega
  | cons x xs =>
    exact ops_other x _ (hp x (List.mem_of_mem_drop (by rw [hd]; exact List.mem_cons_self)))

private theorem ops_short {t : Bytes} (hl : ¬ Long t) (r : Bytes) : t.drop (t.length % 4294967296) ++ r = r := by
  unfold Long at hl
  rw [Nat.mod_eq_of_lt (by omega), List.drop_length, List.nil_append]

mutual
private theorem val_panics : ∀ (v : GoVal) (b r : Bytes), v.encode = some b → (∀ t ∈ goTexts v, Plain t) →
    ((∃ t ∈ goTexts v, Long t) ∨ binaryOps r = .panic) → binaryOps (b ++ r) = .panic
  | .str t, b, r, he, hp, h => by
    simp only [GoVal.encode, Option.some.injEq] at he
    rw [← he, ops_string]
    by_cases hl : Long t
    · rw [ops_left (hp t (by simp [goTexts])) hl]
      rfl
    · rw [ops_short hl]
      rcases h with ⟨s, hs, hl'⟩ | h
      · simp only [goTexts, List.mem_singleton] at hs
        exact absurd (hs ▸ hl') hl
      · rw [h]; rfl
  | .map m, b, r, he, hp, h => fields_panic m b r (by simpa only [GoVal.encode] using he) (by simpa only [goTexts] using hp)
      (by simpa only [goTexts] using h)
  | .list l, b, r, he, hp, h => items_panic l 0 b r (by simpa only [GoVal.encode] using he) (by simpa only [goTexts] using hp)
      (by simpa only [goTexts] using h)
  | .other, _, _, he, _, _ => by simp [GoVal.encode] at he
private theorem items_panic : ∀ (l : GoItems) (i : Nat) (b r : Bytes), l.encode i = some b → (∀ t ∈ goTextsItems l, Plain t) →
    ((∃ t ∈ goTextsItems l, Long t) ∨ binaryOps r = .panic) → binaryOps (b ++ r) = .panic
  | .nil, i, b, r, he, _, h => by
    simp only [GoItems.encode, Option.some.injEq] at he
    rcases h with ⟨t, ht, _⟩ | h
    · simp [goTextsItems] at ht
    · rw [← he]; exact h
  | .cons v rest, i, b, r, he, hp, h => by
    simp only [GoItems.encode] at he
    cases ha : v.encode with
    | none => rw [ha] at he; cases he
    | some a =>
      rw [ha] at he
      dsimp only at he
      cases hc : rest.encode (i + 1) with
      | none => rw [hc] at he; cases he
      | some c =>
        rw [hc] at he
        simp only [Option.some.injEq] at he
        simp only [goTextsItems, List.mem_append] at hp h
        have hb : b ++ r = 1 :: (be32 i ++ (a ++ 2 :: (c ++ r))) := by rw [← he]; simp
        rw [hb, ops_index]
        have key : binaryOps (a ++ 2 :: (c ++ r)) = .panic := by
          refine val_panics v a _ ha (fun t ht => hp t (Or.inl ht)) ?_
          by_cases hl : ∃ t ∈ goTexts v, Long t
          · exact Or.inl hl
          · refine Or.inr ?_
            rw [binaryOps_pop, items_panic rest (i + 1) c r hc (fun t ht => hp t (Or.inr ht)) (by
              rcases h with ⟨t, ht | ht, hl'⟩ | h
              · exact absurd ⟨t, ht, hl'⟩ hl
              · exact Or.inl ⟨t, ht, hl'⟩
              · exact Or.inr h)]
            rfl
        rw [key]
        rfl
private theorem fields_panic : ∀ (m : GoFields) (b r : Bytes), m.encode = some b → (∀ t ∈ goTextsFields m, Plain t) →
    ((∃ t ∈ goTextsFields m, Long t) ∨ binaryOps r = .panic) → binaryOps (b ++ r) = .panic
  | .nil, b, r, he, _, h => by
    simp only [GoFields.encode, Option.some.injEq] at he
    rcases h with ⟨t, ht, _⟩ | h
    · simp [goTextsFields] at ht
    · rw [← he]; exact h
  | .cons k v rest, b, r, he, hp, h => by
    simp only [GoFields.encode] at he
    cases ha : v.encode with
    | none => rw [ha] at he; cases he
    | some a =>
      rw [ha] at he
      dsimp only at he
      cases hc : rest.encode with
      | none => rw [hc] at he; cases he
      | some c =>
        rw [hc] at he
        simp only [Option.some.injEq] at he
        simp only [goTextsFields, List.mem_cons, List.mem_append] at hp h
        have hb : b ++ r = 0 :: (encodeBytes k ++ (a ++ 2 :: (c ++ r))) := by rw [← he]; simp
        rw [hb, ops_field]
        by_cases hk : Long k
        · rw [ops_left (hp k (Or.inl rfl)) hk]
          rfl
        · rw [ops_short hk]
          have key : binaryOps (a ++ 2 :: (c ++ r)) = .panic := by
            refine val_panics v a _ ha (fun t ht => hp t (Or.inr (Or.inl ht))) ?_
            by_cases hl : ∃ t ∈ goTexts v, Long t
            · exact Or.inl hl
            · refine Or.inr ?_
              rw [binaryOps_pop, fields_panic rest c r hc (fun t ht => hp t (Or.inr (Or.inr ht))) (by
                rcases h with ⟨t, rfl | ht | ht, hl'⟩ | h
                · exact absurd hl' hk
                · exact absurd ⟨t, ht, hl'⟩ hl
                · exact Or.inl ⟨t, ht, hl'⟩
                · exact Or.inr h)]
              rfl
          rw [key]
          rfl
end

/-- C100 for texts without the bytes 0 to 3: one whose length does not fit 32 bits is refused with an error, whatever the
scanner.  (A shorter one is scanned in full: C50.) -/
theorem C100_string_refused_partial (sc : Scanner) (text : Bytes) (hp : Plain text) (hl : Long text) :
    scanString sc text = .ok none := by
  have h : binaryOps (goEncodeString text) = .panic := by
    have h := val_panics (.str text) (goEncodeString text) [] rfl (by simp only [goTexts, List.mem_singleton]; rintro t rfl; exact hp)
      (Or.inl ⟨text, by simp [goTexts], hl⟩)
    rwa [List.append_nil] at h
  unfold scanString lowLevelScan scanBinary
  rw [h]

/-- C100 for events in which no text has a byte 0 to 3: if any string or key is too long, at any depth, the event is
refused with an error. -/
theorem C100_event_refused_partial (sc : Scanner) (ev : GoFields) (hp : ∀ t ∈ goTexts (.map ev), Plain t)
    (hl : ∃ t ∈ goTexts (.map ev), Long t) : scanEventsMap sc ev = .ok none := by
  unfold scanEventsMap
  cases he : ev.encode with
  | none => rfl
  | some bytes =>
    have h := val_panics (.map ev) bytes [] (by simpa only [GoVal.encode] using he) hp (Or.inl hl)
    rw [List.append_nil] at h
    dsimp only
    unfold lowLevelScan scanBinary
    rw [h]

/-- What the library reads of any string: the first bytes, as many as the remainder of the length by 2^32, are the text; the
rest is read as if Go had encoded it. -/
theorem C100_read (text rest : Bytes) (k n : Nat) (hn : text.length = k * 4294967296 + n) (hlt : n < 4294967296) :
    ∃ first left, text = first ++ left ∧ first.length = n ∧
      binaryOps (goEncodeString text ++ rest) = (binaryOps (left ++ rest)).map (Op.visit (lossy first) :: ·) := by
  have hm : text.length % 4294967296 = n := by omega
  refine ⟨text.take n, text.drop n, (List.take_append_drop _ _).symm, by rw [List.length_take]; omega, ?_⟩
  rw [ops_string, hm]

/-! ## Cases -/

private def sevenRule : CRule :=
  RegexRule.toCRule ⟨fun s i => if (s.drop i).head? = some '7' then some (i + 1) else none, none, none, none⟩
    ⟨.redact "#".toList, false⟩ (.excl []) false (fun c => blen c + 1)

private def sevenScanner : Scanner := ⟨[sevenRule], false, false, false, ⟨fun s => s.length, fun s => s.length⟩⟩

/-- Texts meeting the hypotheses of the two theorems. -/
example : ∃ t : Bytes, Plain t ∧ Long t ∧ ∃ ev : GoFields, (∀ t ∈ goTexts (.map ev), Plain t) ∧
    ∃ t ∈ goTexts (.map ev), Long t := by
  obtain ⟨n, hn⟩ : ∃ n : Nat, n = 4294967296 := ⟨_, rfl⟩
  have h1 : Plain (List.replicate n 55) := by
    intro x hx
    rw [List.eq_of_mem_replicate hx]
    decide
  have h2 : Long (List.replicate n 55) := by
    unfold Long
    rw [List.length_replicate]
    omega
  refine ⟨List.replicate n 55, h1, h2, .cons [97] (.str (List.replicate n 55)) .nil, ?_, List.replicate n 55, ?_, h2⟩
  · intro t ht
    simp only [goTexts, goTextsFields, List.mem_cons, List.mem_append, List.not_mem_nil, or_false] at ht
    rcases ht with rfl | rfl
    · intro x hx; rw [List.mem_singleton.1 hx]; decide
    · exact h1
  · simp [goTexts, goTextsFields]

/-- A text that the library takes for an empty string and a key. -/
private def hidden (n : Nat) : Bytes := 0 :: (be32 n ++ (List.replicate n 55 ++ [2]))

private theorem hidden_length (n : Nat) : (hidden n).length = n + 6 := by
  simp [hidden, be32]

private theorem visits_hidden (s : Str) : visitCombinations (RuleSet.new [.excl []] false) [.visit [], .push (.field s), .pop] =
    Res.ok [⟨[], [], [0], []⟩] := by
  rfl

/-- C100, finding: the scanner replaces the digit 7; in a text of 2^32 bytes that is full of them but begins with a zero, it
replaces nothing, and the caller is told that there are no matches. -/
theorem C100_hidden : ∃ (sc : Scanner) (text : Bytes),
    scanString sc (utf8 "7".toList) = .ok (some ⟨true, utf8 "#".toList, [⟨0, [], .placeholder, 0, 1, 0⟩]⟩) ∧
    text.length = 4294967296 ∧ (∃ pre post, text = pre ++ List.replicate 4294967290 55 ++ post) ∧
    scanString sc text = .ok (some ⟨false, text, []⟩) := by
  obtain ⟨n, hn⟩ : ∃ n : Nat, n = 4294967290 := ⟨_, rfl⟩
  have hlen : (hidden n).length = 4294967296 := by rw [hidden_length]; omega
  refine ⟨sevenScanner, hidden n, by decide +kernel, hlen, ⟨0 :: be32 n, [2], ?_⟩, ?_⟩
  · rw [← hn]
    simp [hidden]
  · have h1 : binaryOps (goEncodeString (hidden n)) =
        .ok [.visit [], .push (.field (lossy (List.replicate n 55))), .pop] := by
      have h := ops_string (hidden n) []
      rw [List.append_nil, hlen, Nat.mod_self, List.drop_zero, List.take_zero, List.append_nil] at h
      rw [h]
      have h2 : hidden n = 0 :: (encodeBytes (List.replicate n 55) ++ [2]) := by simp [hidden, encodeBytes]
      rw [h2, binaryOps_field (by rw [List.length_replicate]; omega)]
      rfl
    have h2 : scanBinary sevenScanner (goEncodeString (hidden n)) = .ok ([], []) := by
      unfold scanBinary
      rw [h1]
      dsimp only
      have e : RuleSet.new (sevenScanner.rules.map (·.scope)) sevenScanner.wildcards = RuleSet.new [.excl []] false := rfl
      rw [e, visits_hidden]
      rfl
    unfold scanString lowLevelScan
    rw [h2]
    rfl

end Sds.Props
