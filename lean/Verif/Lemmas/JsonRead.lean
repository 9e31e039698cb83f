import Verif.Lemmas.JsonText

/-! # Lemmas: what is read is what the grammar says -/

namespace Sds
open Spec Spec.Json

/-! ## Soundness -/

theorem of_readWord {w : Str} {v v' : JVal} {s r : Str} (h : readWord w v s = some (v', r)) : v' = v ∧ s = w ++ r := by
  unfold readWord at h
  split at h
  · next hp =>
    simp only [Option.some.injEq, Prod.mk.injEq] at h
    obtain ⟨rfl, rfl⟩ := h
    obtain ⟨u, rfl⟩ := List.isPrefixOf_iff_prefix.1 hp
    simp
  · cases h

theorem read_sound : ∀ fuel : Nat,
    (∀ d s v r, readValue fuel d s = some (v, r) → ∃ w t, Space w ∧ Value d t v ∧ s = w ++ (t ++ r)) ∧
    (∀ d s l r, readElements fuel d s = some (l, r) → ∃ t, Elements d t l ∧ s = t ++ ']' :: r) ∧
    (∀ d s l r, readMembers fuel d s = some (l, r) → ∃ t, Members d t l ∧ s = t ++ '}' :: r) := by
  intro fuel
  induction fuel with
  | zero => exact ⟨fun _ _ _ _ h => (by cases h), fun _ _ _ _ h => (by cases h), fun _ _ _ _ h => (by cases h)⟩
  | succ f ih =>
    obtain ⟨ihV, ihE, ihM⟩ := ih
    refine ⟨?_, ?_, ?_⟩
    · intro d s v r h
      obtain ⟨w, hw, hs, _⟩ := skipSpace_spec s
      rw [readValue] at h
      split at h
      · cases h
      · next c r1 hc =>
        rw [hc] at hs
        refine ⟨w, ?_⟩
        suffices ∃ t, Value d t v ∧ c :: r1 = t ++ r by
          obtain ⟨t, h1, h2⟩ := this
          exact ⟨t, hw, h1, by rw [hs, h2]⟩
        split at h
        · obtain ⟨rfl, h2⟩ := of_readWord h; exact ⟨_, .null, h2⟩
        split at h
        · obtain ⟨rfl, h2⟩ := of_readWord h; exact ⟨_, .yes, h2⟩
        split at h
        · obtain ⟨rfl, h2⟩ := of_readWord h; exact ⟨_, .no, h2⟩
        split at h
        · next hq =>
          subst hq
          cases hb : readBody (r1.length + 1) r1 with
          | none => rw [hb] at h; cases h
          | some p =>
            rw [hb] at h
            simp only [Option.map_some, Option.some.injEq, Prod.mk.injEq] at h
            obtain ⟨rfl, rfl⟩ := h
            obtain ⟨u, hu, rfl⟩ := of_readBody hb
            exact ⟨'"' :: (u ++ ['"']), .str ⟨u, hu, rfl⟩, by simp⟩
        split at h
        · next hq =>
          subst hq
          cases d with
          | zero => cases h
          | succ d =>
            simp only at h
            obtain ⟨w', hw', hs', _⟩ := skipSpace_spec r1
            split at h
            · next r2 hr2 =>
              simp only [Option.some.injEq, Prod.mk.injEq] at h
              obtain ⟨rfl, rfl⟩ := h
              rw [hr2] at hs'
              exact ⟨'[' :: (w' ++ [']']), .noElements hw', by rw [hs']; simp⟩
            · next r2 =>
              cases he : readElements f d (skipSpace r1) with
              | none => rw [he] at h; cases h
              | some p =>
                rw [he] at h
                simp only [Option.map_some, Option.some.injEq, Prod.mk.injEq] at h
                obtain ⟨l, r'⟩ := p
                obtain ⟨rfl, rfl⟩ := h
                obtain ⟨t, ht, h2⟩ := ihE _ _ _ _ he
                rw [h2] at hs'
                have ht' : Elements d (w' ++ t) l := by
                  cases ht with
                  | one ha hv hb => rw [← List.append_assoc]; exact .one (space_append hw' ha) hv hb
                  | more ha hv hb hr => rw [← List.append_assoc]; exact .more (space_append hw' ha) hv hb hr
                exact ⟨'[' :: ((w' ++ t) ++ [']']), .arr ht', by rw [hs']; simp⟩
        split at h
        · next hq =>
          subst hq
          cases d with
          | zero => cases h
          | succ d =>
            simp only at h
            obtain ⟨w', hw', hs', _⟩ := skipSpace_spec r1
            split at h
            · next r2 hr2 =>
              simp only [Option.some.injEq, Prod.mk.injEq] at h
              obtain ⟨rfl, rfl⟩ := h
              rw [hr2] at hs'
              exact ⟨'{' :: (w' ++ ['}']), .noMembers hw', by rw [hs']; simp⟩
            · next r2 =>
              cases he : readMembers f d (skipSpace r1) with
              | none => rw [he] at h; cases h
              | some p =>
                rw [he] at h
                simp only [Option.map_some, Option.some.injEq, Prod.mk.injEq] at h
                obtain ⟨l, r'⟩ := p
                obtain ⟨rfl, rfl⟩ := h
                obtain ⟨t, ht, h2⟩ := ihM _ _ _ _ he
                rw [h2] at hs'
                have ht' : Members d (w' ++ t) l := by
                  cases ht with
                  | one ha hk hb hc hv hx => rw [← List.append_assoc]; exact .one (space_append hw' ha) hk hb hc hv hx
                  | more ha hk hb hc hv hx hr =>
                    rw [← List.append_assoc]; exact .more (space_append hw' ha) hk hb hc hv hx hr
                exact ⟨'{' :: ((w' ++ t) ++ ['}']), .obj ht', by rw [hs']; simp⟩
        · cases hn : readNumber (c :: r1) with
          | none => rw [hn] at h; cases h
          | some p =>
            rw [hn] at h
            simp only [Option.map_some, Option.some.injEq, Prod.mk.injEq] at h
            obtain ⟨rfl, rfl⟩ := h
            obtain ⟨t, ht, h2⟩ := of_readNumber hn
            exact ⟨t, .num ht, h2⟩
    · intro d s l r h
      rw [readElements] at h
      split at h
      · cases h
      · next v r1 hv =>
        obtain ⟨w, t, hw, ht, rfl⟩ := ihV _ _ _ _ hv
        obtain ⟨b, hb, hs, _⟩ := skipSpace_spec r1
        split at h
        · next r2 hr2 =>
          cases h
          rw [hr2] at hs
          exact ⟨_, .one hw ht hb, by rw [hs]; simp⟩
        · next r2 hr2 =>
          rw [hr2] at hs
          cases he : readElements f d r2 with
          | none => rw [he] at h; cases h
          | some p =>
            rw [he] at h
            simp only [Option.map_some, Option.some.injEq, Prod.mk.injEq] at h
            obtain ⟨rfl, rfl⟩ := h
            obtain ⟨u, hu, rfl⟩ := ihE _ _ _ _ he
            exact ⟨_, .more hw ht hb hu, by rw [hs]; simp⟩
        · cases h
    · intro d s l r h
      obtain ⟨a, ha, hs, _⟩ := skipSpace_spec s
      rw [readMembers] at h
      split at h
      · next r1 hr1 =>
        rw [hr1] at hs
        split at h
        · cases h
        · next k r2 hk =>
          obtain ⟨u, hu, rfl⟩ := of_readBody hk
          obtain ⟨b, hb, hs2, _⟩ := skipSpace_spec r2
          split at h
          · next r3 hr3 =>
            rw [hr3] at hs2
            split at h
            · cases h
            · next v r4 hv =>
              obtain ⟨c, t, hc, ht, rfl⟩ := ihV _ _ _ _ hv
              obtain ⟨e, he, hs4, _⟩ := skipSpace_spec r4
              split at h
              · next r5 hr5 =>
                cases h
                rw [hr5] at hs4
                exact ⟨_, .one ha ⟨u, hu, rfl⟩ hb hc ht he, by rw [hs, hs2, hs4]; simp⟩
              · next r5 hr5 =>
                rw [hr5] at hs4
                cases hm : readMembers f d r5 with
                | none => rw [hm] at h; cases h
                | some p =>
                  rw [hm] at h
                  simp only [Option.map_some, Option.some.injEq, Prod.mk.injEq] at h
                  obtain ⟨rfl, rfl⟩ := h
                  obtain ⟨m, hmm, rfl⟩ := ihM _ _ _ _ hm
                  exact ⟨_, .more ha ⟨u, hu, rfl⟩ hb hc ht he hmm, by rw [hs, hs2, hs4]; simp⟩
              · cases h
          · cases h
      · cases h

/-! ## Completeness -/

theorem readWord_append (w : Str) (v : JVal) (r : Str) : readWord w v (w ++ r) = some (v, r) := by
  unfold readWord
  rw [if_pos (List.isPrefixOf_iff_prefix.2 ⟨r, rfl⟩)]
  simp

theorem tight_cons {c : Char} {r : Str} (h : isJsonSpace c = false) : Tight (c :: r) := by
  intro x hx; cases hx; exact h

theorem follows_cons {c : Char} {r : Str} (h : isJsonDigit c = false ∧ c ≠ '.' ∧ c ≠ 'e' ∧ c ≠ 'E') : Follows (c :: r) := by
  intro x hx; cases hx; exact h

theorem follows_space {w r : Str} (hw : Space w) (hr : Follows r) : Follows (w ++ r) := by
  cases w with
  | nil => exact hr
  | cons c w =>
    refine follows_cons ?_
    rcases hw c List.mem_cons_self with rfl | rfl | rfl | rfl <;> decide

theorem follows_comma (r : Str) : Follows (',' :: r) := follows_cons (by decide)
theorem follows_bracket (r : Str) : Follows (']' :: r) := follows_cons (by decide)
theorem follows_brace (r : Str) : Follows ('}' :: r) := follows_cons (by decide)

/-- What the first character of a value is. -/
theorem value_head {d : Nat} {t : Str} {v : JVal} (h : Value d t v) : ∃ c u, t = c :: u ∧ isJsonSpace c = false ∧
    c ≠ ']' ∧ c ≠ '}' := by
  have lit : ∀ s : String, ∀ c u, s.toList = c :: u → (isJsonSpace c = false ∧ c ≠ ']' ∧ c ≠ '}') →
      ∃ c u, s.toList = c :: u ∧ isJsonSpace c = false ∧ c ≠ ']' ∧ c ≠ '}' := fun s c u h1 h2 => ⟨c, u, h1, h2⟩
  cases h with
  | null => exact lit _ 'n' "ull".toList rfl (by decide)
  | yes => exact lit _ 't' "rue".toList rfl (by decide)
  | no => exact lit _ 'f' "alse".toList rfl (by decide)
  | num h =>
    cases t with
    | nil => exact absurd rfl (number_ne h)
    | cons c u =>
      refine ⟨c, u, rfl, ?_⟩
      obtain ⟨d, hd, rfl⟩ := (jsonDigit_iff c).1 (number_digits h c List.mem_cons_self)
      have hn := Nat.toNat_digitChar_of_lt_ten hd
      generalize Nat.digitChar d = x at hn
      have hne : ∀ y : Char, y.toNat < 48 ∨ 57 < y.toNat → x ≠ y := by rintro y hy rfl; omega
      refine ⟨?_, hne _ (by decide), hne _ (by decide)⟩
      rw [Bool.eq_false_iff]
      intro h
      rcases (space_iff x).1 h with h | h | h | h <;> exact hne _ (by decide) h
  | str h => obtain ⟨u, _, rfl⟩ := h; exact ⟨_, _, rfl, by decide⟩
  | noElements _ => exact ⟨_, _, rfl, by decide⟩
  | arr _ => exact ⟨_, _, rfl, by decide⟩
  | noMembers _ => exact ⟨_, _, rfl, by decide⟩
  | obj _ => exact ⟨_, _, rfl, by decide⟩

theorem value_tight {d : Nat} {t : Str} {v : JVal} (h : Value d t v) (r : Str) : Tight (t ++ r) := by
  obtain ⟨c, u, rfl, h1, _⟩ := value_head h
  exact tight_cons h1

theorem read_complete : ∀ n : Nat,
    (∀ d t v, Value d t v → t.length ≤ n → ∀ fuel, 2 * t.length ≤ fuel → ∀ w r, Space w → Follows r →
      readValue fuel d (w ++ (t ++ r)) = some (v, r)) ∧
    (∀ d t l, Elements d t l → t.length ≤ n → ∀ fuel, 2 * t.length < fuel → ∀ w r, Space w →
      readElements fuel d (w ++ (t ++ ']' :: r)) = some (l, r)) ∧
    (∀ d t l, Members d t l → t.length ≤ n → ∀ fuel, 2 * t.length < fuel → ∀ w r, Space w →
      readMembers fuel d (w ++ (t ++ '}' :: r)) = some (l, r)) := by
  intro n
  induction n with
  | zero =>
    refine ⟨fun d t v h hl => ?_, fun d t l h hl => ?_, fun d t l h hl => ?_⟩
    · obtain ⟨c, u, rfl, _⟩ := value_head h
      simp at hl
    · exfalso
      cases h with
      | one _ hv _ => obtain ⟨c, u, rfl, _⟩ := value_head hv; simp at hl
      | more _ hv _ _ => obtain ⟨c, u, rfl, _⟩ := value_head hv; simp at hl
    · exfalso
      cases h with
      | one => simp at hl
      | more => simp at hl
  | succ n ih =>
    obtain ⟨ihV, ihE, ihM⟩ := ih
    have hV : ∀ d t v, Value d t v → t.length ≤ n + 1 → ∀ fuel, 2 * t.length ≤ fuel → ∀ w r, Space w → Follows r →
        readValue fuel d (w ++ (t ++ r)) = some (v, r) := by
      intro d t v h hl fuel hf w r hw hr
      obtain ⟨f, rfl⟩ : ∃ f, fuel = f + 1 := by
        obtain ⟨c, u, rfl, _⟩ := value_head h
        exact ⟨fuel - 1, by simp at hf; omega⟩
      rw [readValue, skipSpace_append hw (value_tight h r)]
      cases h with
      | null => exact readWord_append "null".toList .null r
      | yes => exact readWord_append "true".toList (.bool true) r
      | no => exact readWord_append "false".toList (.bool false) r
      | num h =>
        cases t with
        | nil => exact absurd rfl (number_ne h)
        | cons c u =>
          have hr' := readNumber_of h hr
          obtain ⟨d, hd, hc⟩ := (jsonDigit_iff c).1 (number_digits h c List.mem_cons_self)
          have hn := Nat.toNat_digitChar_of_lt_ten hd
          rw [← hc] at hn
          have hne : ∀ y : Char, y.toNat < 48 ∨ 57 < y.toNat → c ≠ y := by rintro y hy rfl; omega
          simp only [List.cons_append] at hr' ⊢
          rw [if_neg (hne _ (by decide)), if_neg (hne _ (by decide)), if_neg (hne _ (by decide)), if_neg (hne _ (by decide)),
            if_neg (hne _ (by decide)), if_neg (hne _ (by decide)), hr']
          rfl
      | str h =>
        obtain ⟨u, hu, rfl⟩ := h
        simp only [List.cons_append, List.append_assoc, List.nil_append]
        rw [if_neg (by decide), if_neg (by decide), if_neg (by decide), if_pos trivial, readBody_of hu (by simp; omega)]
        rfl
      | @noElements d w' hw' =>
        simp only [List.cons_append, List.append_assoc, List.nil_append]
        rw [if_neg (by decide), if_neg (by decide), if_neg (by decide), if_neg (by decide), if_pos trivial,
          skipSpace_append hw' (tight_cons (by decide))]
        rfl
      | @arr d t l h =>
        simp only [List.cons_append, List.append_assoc, List.nil_append]
        rw [if_neg (by decide), if_neg (by decide), if_neg (by decide), if_neg (by decide), if_pos trivial]
        simp only [List.length_cons, List.length_append, List.length_nil] at hl hf
        -- white space in front of the first element
        obtain ⟨a, t', ha, rfl, h', c, u, hc, hne⟩ : ∃ a t', Space a ∧ t = a ++ t' ∧ Elements d t' l ∧ ∃ c u, t' = c :: u ∧
            isJsonSpace c = false ∧ c ≠ ']' := by
          cases h with
          | @one _ a t b v ha hv hb =>
            obtain ⟨c, u, rfl, h1, h2, _⟩ := value_head hv
            exact ⟨a, _, ha, rfl, Elements.one (a := []) space_nil hv hb, c, _, rfl, h1, h2⟩
          | @more _ a t b r v l ha hv hb hr =>
            obtain ⟨c, u, rfl, h1, h2, _⟩ := value_head hv
            exact ⟨a, _, ha, rfl, Elements.more (a := []) space_nil hv hb hr, c, _, rfl, h1, h2⟩
        simp only [List.length_append] at hl hf
        have hE := ihE d t' l h' (by omega) f (by omega) [] r space_nil
        rw [List.nil_append] at hE
        rw [List.append_assoc, skipSpace_append ha (by rw [hc]; exact tight_cons hne.1)]
        rw [hc, List.cons_append] at hE ⊢
        split
        · next hx => injection hx with h1 _; exact absurd h1 hne.2
        · rw [hE]; rfl
      | @noMembers d w' hw' =>
        simp only [List.cons_append, List.append_assoc, List.nil_append]
        rw [if_neg (by decide), if_neg (by decide), if_neg (by decide), if_neg (by decide), if_neg (by decide), if_pos trivial,
          skipSpace_append hw' (tight_cons (by decide))]
        rfl
      | @obj d t l h =>
        simp only [List.cons_append, List.append_assoc, List.nil_append]
        rw [if_neg (by decide), if_neg (by decide), if_neg (by decide), if_neg (by decide), if_neg (by decide), if_pos trivial]
        simp only [List.length_cons, List.length_append, List.length_nil] at hl hf
        obtain ⟨a, t', ha, rfl, h', c, u, hc, hne⟩ : ∃ a t', Space a ∧ t = a ++ t' ∧ Members d t' l ∧ ∃ c u, t' = c :: u ∧
            isJsonSpace c = false ∧ c ≠ '}' := by
          cases h with
          | @one _ a q b c t e k v ha hq hb hc hv he =>
            obtain ⟨u, hu, rfl⟩ := hq
            exact ⟨a, _, ha, rfl, Members.one (a := []) space_nil ⟨u, hu, rfl⟩ hb hc hv he, _, _, rfl, by decide⟩
          | @more _ a q b c t e k r v l ha hq hb hc hv he hr =>
            obtain ⟨u, hu, rfl⟩ := hq
            exact ⟨a, _, ha, rfl, Members.more (a := []) space_nil ⟨u, hu, rfl⟩ hb hc hv he hr, _, _, rfl, by decide⟩
        simp only [List.length_append] at hl hf
        have hE := ihM d t' l h' (by omega) f (by omega) [] r space_nil
        rw [List.nil_append] at hE
        rw [List.append_assoc, skipSpace_append ha (by rw [hc]; exact tight_cons hne.1)]
        rw [hc, List.cons_append] at hE ⊢
        split
        · next hx => injection hx with h1 _; exact absurd h1 hne.2
        · rw [hE]; rfl
    refine ⟨hV, ?_, ?_⟩
    · intro d t l h hl fuel hf w r hw
      obtain ⟨f, rfl⟩ : ∃ f, fuel = f + 1 := ⟨fuel - 1, by omega⟩
      rw [readElements]
      cases h with
      | @one _ a t b v ha hv hb =>
        simp only [List.length_append] at hl hf
        simp only [List.append_assoc]
        rw [← List.append_assoc, hV d t v hv (by omega) f (by omega) _ _ (space_append hw ha) (follows_space hb (follows_bracket r))]
        simp only
        rw [skipSpace_append hb (tight_cons (by decide))]
        rfl
      | @more _ a t b r' v l ha hv hb hr =>
        simp only [List.length_append, List.length_cons] at hl hf
        simp only [List.append_assoc, List.cons_append]
        rw [← List.append_assoc, hV d t v hv (by omega) f (by omega) _ _ (space_append hw ha) (follows_space hb (follows_comma _))]
        simp only
        rw [skipSpace_append hb (tight_cons (by decide))]
        simp only
        have := ihE d r' l hr (by omega) f (by omega) [] r space_nil
        rw [List.nil_append] at this
        rw [this]
        rfl
    · intro d t l h hl fuel hf w r hw
      obtain ⟨f, rfl⟩ : ∃ f, fuel = f + 1 := ⟨fuel - 1, by omega⟩
      rw [readMembers]
      cases h with
      | @one _ a q b c t e k v ha hq hb hc hv he =>
        obtain ⟨u, hu, rfl⟩ := hq
        simp only [List.length_append, List.length_cons, List.length_nil] at hl hf
        simp only [List.append_assoc, List.cons_append, List.nil_append]
        rw [← List.append_assoc, skipSpace_append (space_append hw ha) (tight_cons (by decide))]
        simp only
        rw [readBody_of hu (by simp; omega)]
        simp only
        rw [skipSpace_append hb (tight_cons (by decide))]
        simp only
        rw [hV d t v hv (by omega) f (by omega) _ _ hc (follows_space he (follows_brace r))]
        simp only
        rw [skipSpace_append he (tight_cons (by decide))]
        rfl
      | @more _ a q b c t e k r' v l ha hq hb hc hv he hr =>
        obtain ⟨u, hu, rfl⟩ := hq
        simp only [List.length_append, List.length_cons, List.length_nil] at hl hf
        simp only [List.append_assoc, List.cons_append, List.nil_append]
        rw [← List.append_assoc, skipSpace_append (space_append hw ha) (tight_cons (by decide))]
        simp only
        rw [readBody_of hu (by simp; omega)]
        simp only
        rw [skipSpace_append hb (tight_cons (by decide))]
        simp only
        rw [hV d t v hv (by omega) f (by omega) _ _ hc (follows_space he (follows_comma _))]
        simp only
        rw [skipSpace_append he (tight_cons (by decide))]
        simp only
        have := ihM d r' l hr (by omega) f (by omega) [] r space_nil
        rw [List.nil_append] at this
        rw [this]
        rfl

theorem readJson_iff (t : Str) (v : JVal) : readJson t = some v ↔ Document t v := by
  constructor
  · intro h
    unfold readJson at h
    split at h
    · next v' r hv =>
      split at h
      · next hr =>
        cases h
        obtain ⟨w, u, hw, hu, rfl⟩ := (read_sound _).1 _ _ _ _ hv
        obtain ⟨b, hb, hs, _⟩ := skipSpace_spec r
        rw [hr, List.append_nil] at hs
        exact ⟨w, u, r, hw, hu, hs ▸ hb, rfl⟩
      · cases h
    · cases h
  · rintro ⟨a, u, b, ha, hu, hb, rfl⟩
    unfold readJson
    rw [(read_complete u.length).1 _ _ _ hu (Nat.le_refl _) _ (by simp only [List.length_append]; omega) a b ha (by
      have := follows_space hb (r := []) (by intro c hc; cases hc)
      rwa [List.append_nil] at this)]
    simp only
    have := skipSpace_append hb (r := []) (by intro c hc; cases hc)
    rw [List.append_nil] at this
    rw [if_pos this]

end Sds
