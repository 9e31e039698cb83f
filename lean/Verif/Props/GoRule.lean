import Verif.Model.GoRule
import Verif.Lemmas.Utf8

/-! # C64: rules configured in Go -/

namespace Sds

namespace Spec

/-- The action a Go match action asks for. -/
inductive ActionFor (a : GoAction) : Action → Prop where
  | none : a.type = utf8 "None".toList → ActionFor a .none
  | hash : a.type = utf8 "Hash".toList → ActionFor a .hash
  | redact (s : Str) : a.type = utf8 "Redact".toList → a.redaction = utf8 s → ActionFor a (.redact s)
  | first : a.type = utf8 "PartialRedact".toList → a.direction = utf8 "FirstCharacters".toList →
      ActionFor a (.partialFirst a.count)
  | last : a.type = utf8 "PartialRedact".toList → a.direction = utf8 "LastCharacters".toList →
      ActionFor a (.partialLast a.count)

/-- The names of the validators. -/
def validatorName : RustValidator → String
  | .luhnChecksum => "LuhnChecksum"
  | .chineseIdChecksum => "ChineseIdChecksum"
  | .githubTokenChecksum => "GithubTokenChecksum"
  | .nhsCheckDigit => "NhsCheckDigit"
  | .ibanChecker => "IbanChecker"
  | .nirChecksum => "NirChecksum"
  | .jwtExpirationChecker => "JwtExpirationChecker"

/-- The keyword configuration a Go configuration asks for. -/
def KeywordsFor (k : GoKeywords) (c : KwConfig) : Prop :=
  c.lookAhead = k.lookAhead ∧ c.included.map utf8 = k.included.getD [] ∧ c.excluded.map utf8 = k.excluded.getD []

/-- The rule a Go configuration asks for: the same strings and numbers, nothing else set. -/
structure RuleFor (g : GoRule) (r : RustRule) : Prop where
  pattern : utf8 r.pattern = g.pattern
  action : ActionFor g.action r.action
  keywords : match g.keywords, r.keywords with
    | some k, some c => KeywordsFor k c
    | none, none => True
    | _, _ => False
  validator : g.validator = match r.validator with
    | some v => utf8 (validatorName v).toList
    | none => []
  scope : r.scope = .excl []
  labels : r.labels = []
  validation : r.validation = none

/-- Numbers are of type `uint32` in Go. -/
def Sized (g : GoRule) : Prop := g.action.count < 2 ^ 32 ∧ ∀ k, g.keywords = some k → k.lookAhead < 2 ^ 32

/-- Every string that is sent is UTF-8. -/
structure Utf8Rule (g : GoRule) : Prop where
  pattern : ∃ s, g.pattern = utf8 s
  redaction : ∃ s, g.action.redaction = utf8 s
  keywords : ∀ k, g.keywords = some k → ∀ b, b ∈ k.included.getD [] ∨ b ∈ k.excluded.getD [] → ∃ s, b = utf8 s

end Spec

namespace Props
open Sds Spec

variable {D : Dates}

theorem goTextGo_skip (k : Nat) (b : Bytes) : goTextGo k b = goTextGo 0 (b.drop k) := by
  induction b generalizing k with
  | nil => simp [goTextGo]
  | cons a b ih => cases k with
    | zero => rfl
    | succ k => simpa [goTextGo] using ih k

theorem goText_utf8 (s : Str) : goText (utf8 s) = s := by
  unfold goText
  induction s with
  | nil => rfl
  | cons c s ih =>
    obtain ⟨a, tl, h1, h2⟩ := lossyStep_utf8Char c
    have hr : goRune a (tl ++ utf8 s) = (c, tl.length) := by
      unfold goRune
      rw [h2]
      simp only
      rw [if_pos]
      rw [h1]; simp
    rw [utf8, h1, List.cons_append, goTextGo, hr, goTextGo_skip, List.drop_left, ih]

theorem goText_inv {b : Bytes} {s : Str} (h : goText b = s) (hs : replacementChar ∉ s) : b = utf8 s := by
  unfold goText at h
  induction hn : b.length using Nat.strongRecOn generalizing b s with
  | _ n ih =>
  cases b with
  | nil => simp [goTextGo] at h; subst h; rfl
  | cons a rest =>
    rw [goTextGo, goTextGo_skip] at h
    unfold goRune at h
    generalize lossyStep a rest = ck at h
    obtain ⟨c, k⟩ := ck
    simp only at h
    split at h
    · next hc =>
      subst h
      simp only [List.mem_cons, not_or] at hs
      have := ih (rest.drop k).length (by simp only [List.length_cons] at hn; simp; omega) rfl hs.2 rfl
      rw [utf8, ← this, hc]
      simp
    · subst h
      simp at hs

private theorem const_inv {b : Bytes} (c : String) (hc : replacementChar ∉ c.toList) :
    goText b = c.toList ↔ b = goConst c :=
  ⟨fun h => goText_inv h hc, fun h => by rw [h]; exact goText_utf8 _⟩

private theorem const_ne {a b : String} (h : a ≠ b) : goConst a ≠ goConst b := by
  intro hab
  exact h (String.ext (utf8_inj hab))

private theorem read_action (a : GoAction) (h : a.count < 2 ^ 32) : readAction a.json =
    if a.type = goConst "None" then some .none
    else if a.type = goConst "Redact" then some (.redact (goText a.redaction))
    else if a.type = goConst "Hash" then some .hash
    else if a.type = goConst "PartialRedact" then readDirection a.count (goText a.direction)
    else none := by
  have hn : ∀ n : Nat, n < 2 ^ 32 → readUsize (.num n) = some n := by
    intro n hn
    have : n < 2 ^ 64 := by omega
    simp [readUsize, this]
  unfold GoAction.json
  by_cases h1 : a.type = goConst "Redact"
  · rw [if_pos h1, if_neg (by rw [h1]; exact const_ne (by decide)), if_pos h1]
    have ht : goText a.type = "Redact".toList := (const_inv "Redact" (by decide)).2 h1
    simp only [ht]
    rfl
  · by_cases h2 : a.type = goConst "PartialRedact"
    · rw [if_neg h1, if_pos h2, if_neg (by rw [h2]; exact const_ne (by decide)), if_neg h1,
        if_neg (by rw [h2]; exact const_ne (by decide)), if_pos h2]
      have ht : goText a.type = "PartialRedact".toList := (const_inv "PartialRedact" (by decide)).2 h2
      simp only [ht]
      have : ∀ d, readAction (.obj ([("character_count".toList, .num a.count), ("direction".toList, .str d)] ++
          [("match_action".toList, .str "PartialRedact".toList)] ++ [("type".toList, .str "PartialRedact".toList)])) =
          match required readStr (some (JVal.str d)), required readUsize (some (JVal.num a.count)) with
          | some d, some n => readDirection n d
          | _, _ => none := fun d => rfl
      rw [this]
      simp only [required, Option.bind_some, hn _ h, readStr]
    · rw [if_neg h1, if_neg h2]
      have : ∀ t, readAction (.obj ([("match_action".toList, .str t)] ++ [("type".toList, .str t)])) =
          if t = "None".toList then some .none
          else if t = "Redact".toList then none
          else if t = "Hash".toList then some .hash
          else if t = "PartialRedact".toList then none
          else none := fun t => rfl
      rw [this]
      simp only [const_inv "None" (by decide), const_inv "Redact" (by decide), const_inv "Hash" (by decide),
        const_inv "PartialRedact" (by decide), if_neg h1, if_neg h2]

private theorem read_strs (l : List Bytes) : readStrs (l.map (fun b => JVal.str (goText b))) = some (l.map goText) := by
  induction l with
  | nil => rfl
  | cons b l ih => simp [readStrs, readStr, ih]

private theorem read_vec (o : Option (List Bytes)) : readVec (some (goStrings o)) = some ((o.getD []).map goText) := by
  cases o with
  | none => rfl
  | some l => simp [goStrings, readVec, read_strs]

private theorem read_keywords (k : GoKeywords) (h : k.lookAhead < 2 ^ 32) : readKeywords k.json =
    some ⟨k.lookAhead, (k.included.getD []).map goText, (k.excluded.getD []).map goText⟩ := by
  have : ∀ n i e, readKeywords (.obj [("look_ahead_character_count".toList, .num n), ("included_keywords".toList, i),
      ("excluded_keywords".toList, e)]) = match required readUsize (some (JVal.num n)), readVec (some i), readVec (some e) with
      | some n, some i, some e => some ⟨n, i, e⟩
      | _, _, _ => none := fun _ _ _ => rfl
  have h' : k.lookAhead < 2 ^ 64 := by omega
  rw [GoKeywords.json, this, read_vec, read_vec]
  simp [required, readUsize, h']

private theorem read_validator (v : Bytes) : readValidator (goValidatorJson v) = validatorOf (goText v) := rfl

private theorem name_of {t : Str} {v : RustValidator} : validatorOf t = some v ↔ t = (validatorName v).toList := by
  constructor
  · intro h
    unfold validatorOf at h
    repeat' split at h
    all_goals first | cases h | skip
    all_goals (first | (subst t; rfl) | skip)
    all_goals assumption
  · rintro rfl
    cases v <;> decide

private theorem create_eq (g : GoRule) (hg : Sized g) : goCreateRule D g =
    match readAction g.action.json,
      (if g.validator = [] then some none else (validatorOf (goText g.validator)).map some) with
    | some a, some v => some ⟨goText g.pattern, a,
        g.keywords.map (fun k => ⟨k.lookAhead, (k.included.getD []).map goText, (k.excluded.getD []).map goText⟩), v,
        .excl [], [], none⟩
    | _, _ => none := by
  have hobj : ∃ fs, g.action.json = .obj fs := by
    unfold GoAction.json
    dsimp only
    split
    · exact ⟨_, rfl⟩
    · split <;> exact ⟨_, rfl⟩
  unfold goCreateRule GoRule.json
  generalize g.action.json = aj at hobj ⊢
  cases hk : g.keywords with
  | none =>
    by_cases hv : g.validator = []
    · simp only [hv, if_true]
      generalize hr : readAction aj = ra
      have : ∀ i p, readRule D (.obj ([("id".toList, .str i), ("pattern".toList, .str p), ("match_action".toList, aj)] ++ [] ++ [])) =
        match readAction aj with
        | some a => some ⟨p, a, none, none, .excl [], [], none⟩
        | none => none := by
          intro i p
          show (match some p, readAction aj, some none, some none with
            | some p, some a, some k, some v => some (⟨p, a, k, v, .excl [], [], none⟩ : RustRule)
            | _, _, _, _ => none) = _
          cases readAction aj <;> rfl
      rw [this, hr]
      cases ra <;> rfl
    · simp only [hv, if_false]
      have : ∀ i p w, readRule D (.obj ([("id".toList, .str i), ("pattern".toList, .str p), ("match_action".toList, aj)] ++ [] ++
          [("validator".toList, goValidatorJson w)])) =
        match readAction aj, (validatorOf (goText w)).map some with
        | some a, some v => some ⟨p, a, none, v, .excl [], [], none⟩
        | _, _ => none := by
          intro i p w
          show (match some p, readAction aj, some none, (validatorOf (goText w)).map some with
            | some p, some a, some k, some v => some (⟨p, a, k, v, .excl [], [], none⟩ : RustRule)
            | _, _, _, _ => none) = _
          cases readAction aj <;> cases (validatorOf (goText w)).map some <;> rfl
      rw [this]
      rfl
  | some k =>
    have hkw := read_keywords k (hg.2 k hk)
    by_cases hv : g.validator = []
    · simp only [hv, if_true]
      have : ∀ i p, readRule D (.obj ([("id".toList, .str i), ("pattern".toList, .str p), ("match_action".toList, aj)] ++
          [("proximity_keywords".toList, k.json)] ++ [])) =
        match readAction aj, (readKeywords k.json).map some with
        | some a, some k => some ⟨p, a, k, none, .excl [], [], none⟩
        | _, _ => none := by
          intro i p
          show (match some p, readAction aj, (readKeywords k.json).map some, some none with
            | some p, some a, some k, some v => some (⟨p, a, k, v, .excl [], [], none⟩ : RustRule)
            | _, _, _, _ => none) = _
          cases readAction aj <;> cases (readKeywords k.json).map some <;> rfl
      rw [this, hkw]
      cases readAction aj <;> rfl
    · simp only [hv, if_false]
      have : ∀ i p w, readRule D (.obj ([("id".toList, .str i), ("pattern".toList, .str p), ("match_action".toList, aj)] ++
          [("proximity_keywords".toList, k.json)] ++ [("validator".toList, goValidatorJson w)])) =
        match readAction aj, (readKeywords k.json).map some, (validatorOf (goText w)).map some with
        | some a, some k, some v => some ⟨p, a, k, v, .excl [], [], none⟩
        | _, _, _ => none := by
          intro i p w
          show (match some p, readAction aj, (readKeywords k.json).map some, (validatorOf (goText w)).map some with
            | some p, some a, some k, some v => some (⟨p, a, k, v, .excl [], [], none⟩ : RustRule)
            | _, _, _, _ => none) = _
          cases readAction aj <;> cases (readKeywords k.json).map some <;>
            cases (validatorOf (goText w)).map some <;> rfl
      rw [this, hkw]
      cases readAction aj <;> cases (validatorOf (goText g.validator)).map some <;> rfl

private theorem map_text {l : List Str} {b : List Bytes} (h : l.map utf8 = b) : b.map goText = l := by
  subst h
  rw [List.map_map]
  conv => rhs; rw [← List.map_id l]
  apply List.map_congr_left
  intro s _
  exact goText_utf8 s

private theorem text_map {b : List Bytes} (h : ∀ x ∈ b, ∃ s, x = utf8 s) : (b.map goText).map utf8 = b := by
  rw [List.map_map]
  conv => rhs; rw [← List.map_id b]
  apply List.map_congr_left
  intro x hx
  obtain ⟨s, rfl⟩ := h x hx
  simp [goText_utf8]

private theorem name_ne (v : RustValidator) : utf8 (validatorName v).toList ≠ [] := by
  cases v <;> decide

private theorem direction_iff {n : Nat} {d : Bytes} {a : Action} : readDirection n (goText d) = some a ↔
    (d = goConst "FirstCharacters" ∧ a = .partialFirst n) ∨ (d = goConst "LastCharacters" ∧ a = .partialLast n) := by
  unfold readDirection
  simp only [const_inv "FirstCharacters" (by decide), const_inv "LastCharacters" (by decide)]
  by_cases h1 : d = goConst "FirstCharacters"
  · have : goConst "FirstCharacters" ≠ goConst "LastCharacters" := const_ne (by decide)
    simp [h1, this, eq_comm]
  · by_cases h2 : d = goConst "LastCharacters"
    · have : goConst "LastCharacters" ≠ goConst "FirstCharacters" := const_ne (by decide)
      simp [h2, this, eq_comm]
    · simp [h1, h2]

/-- C64: the rule that the Go configuration asks for is created. -/
theorem C64_rule_arrives {g : GoRule} (hg : Sized g) {r : RustRule} (h : RuleFor g r) : goCreateRule D g = some r := by
  obtain ⟨p, a, k, v, s, l, mv⟩ := r
  obtain ⟨h1, h2, h3, h4, h5, h6, h7⟩ := h
  simp only at h1 h2 h3 h4 h5 h6 h7
  subst h5 h6 h7
  have ha : readAction g.action.json = some a := by
    rw [read_action _ hg.1]
    have e := fun {x y : String} (h : x ≠ y) => @const_ne x y h
    cases h2 with
    | none h => rw [show g.action.type = goConst "None" from h, if_pos rfl]
    | hash h =>
      rw [show g.action.type = goConst "Hash" from h, if_neg (e (by decide)), if_neg (e (by decide)), if_pos rfl]
    | redact s h h' =>
      rw [show g.action.type = goConst "Redact" from h, if_neg (e (by decide)), if_pos rfl, h', goText_utf8]
    | first h h' =>
      rw [show g.action.type = goConst "PartialRedact" from h, if_neg (e (by decide)), if_neg (e (by decide)),
        if_neg (e (by decide)), if_pos rfl]
      exact direction_iff.2 (.inl ⟨h', rfl⟩)
    | last h h' =>
      rw [show g.action.type = goConst "PartialRedact" from h, if_neg (e (by decide)), if_neg (e (by decide)),
        if_neg (e (by decide)), if_pos rfl]
      exact direction_iff.2 (.inr ⟨h', rfl⟩)
  have hv : (if g.validator = [] then some none else (validatorOf (goText g.validator)).map some) = some v := by
    cases v with
    | none => rw [if_pos h4]
    | some v =>
      simp only at h4
      rw [if_neg (by rw [h4]; exact name_ne v), h4, goText_utf8, name_of.2 rfl]
      rfl
  have hk : g.keywords.map (fun k : GoKeywords =>
      (⟨k.lookAhead, (k.included.getD []).map goText, (k.excluded.getD []).map goText⟩ : KwConfig)) = k := by
    cases hgk : g.keywords with
    | none =>
      rw [hgk] at h3
      cases k with
      | none => rfl
      | some _ => exact h3.elim
    | some gk =>
      rw [hgk] at h3
      cases k with
      | none => exact h3.elim
      | some c =>
        obtain ⟨e1, e2, e3⟩ := h3
        simp only [Option.map_some, map_text e2, map_text e3, ← e1]
  rw [create_eq g hg, ha, hv, hk, ← h1, goText_utf8]

/-- C64: and nothing else is: a rule that is created is the one that the configuration asks for.  Missing: strings that
are not UTF-8 are changed on the way instead of being rejected (`C64_invalid_text_changed`). -/
theorem C64_nothing_else_partial {g : GoRule} (hg : Sized g) (hu : Utf8Rule g) {r : RustRule}
    (h : goCreateRule D g = some r) : RuleFor g r := by
  rw [create_eq g hg] at h
  split at h
  · next a v ha hv =>
    simp only [Option.some.injEq] at h
    subst h
    refine ⟨?_, ?_, ?_, ?_, rfl, rfl, rfl⟩
    · obtain ⟨s, hs⟩ := hu.pattern
      rw [hs, goText_utf8]
    · rw [read_action _ hg.1] at ha
      split at ha
      · next ht => cases ha; exact .none ht
      · split at ha
        · next ht =>
          cases ha
          obtain ⟨s, hs⟩ := hu.redaction
          exact .redact _ ht (by rw [hs, goText_utf8])
        · split at ha
          · next ht => cases ha; exact .hash ht
          · split at ha
            · next ht =>
              rcases direction_iff.1 ha with ⟨h1, rfl⟩ | ⟨h1, rfl⟩
              · exact .first ht h1
              · exact .last ht h1
            · cases ha
    · cases hk : g.keywords with
      | none => trivial
      | some k =>
        have := hu.keywords k hk
        exact ⟨rfl, text_map (fun x hx => this x (.inl hx)), text_map (fun x hx => this x (.inr hx))⟩
    · split at hv
      · next h => cases hv; exact h
      · cases hvo : validatorOf (goText g.validator) with
        | none => rw [hvo] at hv; cases hv
        | some w =>
          rw [hvo] at hv
          cases hv
          exact goText_inv (name_of.1 hvo) (by cases w <;> decide)
  · cases h

/-- C64: a rule is created exactly if its constants are known: the type of the action, the direction of a partial
redaction and the validator. -/
theorem C64_accepted_iff {g : GoRule} (hg : Sized g) : goCreateRule D g ≠ none ↔
    (g.action.type = utf8 "None".toList ∨ g.action.type = utf8 "Redact".toList ∨ g.action.type = utf8 "Hash".toList ∨
      (g.action.type = utf8 "PartialRedact".toList ∧ (g.action.direction = utf8 "FirstCharacters".toList ∨
        g.action.direction = utf8 "LastCharacters".toList))) ∧
    (g.validator = [] ∨ ∃ v, g.validator = utf8 (validatorName v).toList) := by
  have hA : readAction g.action.json ≠ none ↔
      (g.action.type = utf8 "None".toList ∨ g.action.type = utf8 "Redact".toList ∨ g.action.type = utf8 "Hash".toList ∨
      (g.action.type = utf8 "PartialRedact".toList ∧ (g.action.direction = utf8 "FirstCharacters".toList ∨
        g.action.direction = utf8 "LastCharacters".toList))) := by
    rw [read_action _ hg.1]
    constructor
    · intro h
      split at h
      · next ht => exact .inl ht
      · split at h
        · next ht => exact .inr (.inl ht)
        · split at h
          · next ht => exact .inr (.inr (.inl ht))
          · split at h
            · next ht =>
              refine .inr (.inr (.inr ⟨ht, ?_⟩))
              cases hd : readDirection g.action.count (goText g.action.direction) with
              | none => exact absurd hd h
              | some a => exact (direction_iff.1 hd).imp And.left And.left
            · exact absurd rfl h
    · intro h
      split
      · simp
      · next h0 =>
        split
        · simp
        · next h1 =>
          split
          · simp
          · next h2 =>
            rcases h with h | h | h | ⟨h, hd⟩
            · exact absurd h h0
            · exact absurd h h1
            · exact absurd h h2
            · rw [if_pos (show g.action.type = goConst "PartialRedact" from h)]
              rcases hd with hd | hd
              · rw [direction_iff.2 (.inl ⟨hd, rfl⟩)]; simp
              · rw [direction_iff.2 (.inr ⟨hd, rfl⟩)]; simp
  have hV : (if g.validator = [] then some none else (validatorOf (goText g.validator)).map some) ≠ none ↔
      (g.validator = [] ∨ ∃ v, g.validator = utf8 (validatorName v).toList) := by
    split
    · next h => simp [h]
    · next h =>
      cases hvo : validatorOf (goText g.validator) with
      | none =>
        simp only [Option.map_none, ne_eq, not_true_eq_false, h, false_or, false_iff]
        rintro ⟨v, hv⟩
        rw [hv, goText_utf8, name_of.2 rfl] at hvo
        cases hvo
      | some v =>
        simp only [Option.map_some, ne_eq, reduceCtorEq, not_false_eq_true, true_iff]
        exact .inr ⟨v, goText_inv (name_of.1 hvo) (by cases v <;> decide)⟩
  rw [create_eq g hg, ← hA, ← hV]
  cases readAction g.action.json <;>
    cases (if g.validator = [] then some none else (validatorOf (goText g.validator)).map some) <;> simp

/-- C64: the four constructors of the Go package, for texts which are UTF-8. -/
theorem C64_constructors (id : Bytes) (pattern value : Str) (n : Nat) (hn : n < 2 ^ 32)
    (kw : Option (Nat × Option (List Str) × Option (List Str))) (hk : ∀ k, kw = some k → k.1 < 2 ^ 32)
    (v : Option RustValidator) :
    let x : GoExtra := ⟨kw.map (fun k => goCreateKeywords k.1 (k.2.1.map (·.map utf8)) (k.2.2.map (·.map utf8))),
      match v with
      | some v => utf8 (validatorName v).toList
      | none => []⟩
    let r : Action → RustRule := fun a =>
      ⟨pattern, a, kw.map (fun k => ⟨k.1, k.2.1.getD [], k.2.2.getD []⟩), v, .excl [], [], none⟩
    goCreateRule D (goMatchingRule id (utf8 pattern) x) = some (r .none) ∧
    goCreateRule D (goRedactingRule id (utf8 pattern) (utf8 value) x) = some (r (.redact value)) ∧
    goCreateRule D (goHashRule id (utf8 pattern) x) = some (r .hash) ∧
    goCreateRule D (goPartialRule id (utf8 pattern) n (goConst "FirstCharacters") x) = some (r (.partialFirst n)) ∧
    goCreateRule D (goPartialRule id (utf8 pattern) n (goConst "LastCharacters") x) = some (r (.partialLast n)) := by
  intro x r
  have hks : ∀ k, x.keywords = some k → k.lookAhead < 2 ^ 32 := by
    intro k h
    cases kw with
    | none => cases h
    | some k' => cases h; exact hk k' rfl
  have hkw : match x.keywords, kw.map (fun k => (⟨k.1, k.2.1.getD [], k.2.2.getD []⟩ : KwConfig)) with
      | some k, some c => KeywordsFor k c
      | none, none => True
      | _, _ => False := by
    cases kw with
    | none => trivial
    | some k =>
      obtain ⟨l, i, e⟩ := k
      refine ⟨rfl, ?_, ?_⟩
      · cases i <;> rfl
      · cases e <;> rfl
  refine ⟨?_, ?_, ?_, ?_, ?_⟩ <;> apply C64_rule_arrives
  · exact ⟨by simp [goMatchingRule], hks⟩
  · exact ⟨rfl, .none rfl, hkw, rfl, rfl, rfl, rfl⟩
  · exact ⟨by simp [goRedactingRule], hks⟩
  · exact ⟨rfl, .redact _ rfl rfl, hkw, rfl, rfl, rfl, rfl⟩
  · exact ⟨by simp [goHashRule], hks⟩
  · exact ⟨rfl, .hash rfl, hkw, rfl, rfl, rfl, rfl⟩
  · exact ⟨hn, hks⟩
  · exact ⟨rfl, .first rfl rfl, hkw, rfl, rfl, rfl, rfl⟩
  · exact ⟨hn, hks⟩
  · exact ⟨rfl, .last rfl rfl, hkw, rfl, rfl, rfl, rfl⟩

/-! ## Witness and examples -/

private def latin1 : GoRule := goRedactingRule [] [0x63, 0xE9] [0x78] ⟨none, []⟩

/-- C64, finding: the pattern `cé` in Latin-1 is not UTF-8.  The rule is created without an error, with the pattern
`c` followed by U+FFFD, which is not what was asked for (no pattern is). -/
theorem C64_invalid_text_changed : Sized latin1 ∧ (goCreateRule D latin1).map (·.pattern) = some ['c', replacementChar] ∧
    ∀ r, ¬ RuleFor latin1 r := by
  refine ⟨⟨by decide, by intro k hk; cases hk⟩, by rfl, ?_⟩
  intro r h
  have h1 : goCreateRule D latin1 = some r := C64_rule_arrives ⟨by decide, by intro k hk; cases hk⟩ h
  have h2 : (goCreateRule D latin1).map (·.pattern) = some ['c', replacementChar] := by rfl
  rw [h1] at h2
  have h3 := h.pattern
  simp only [Option.map_some, Option.some.injEq] at h2
  rw [h2] at h3
  exact absurd h3 (by decide +kernel)

private def card : GoRule := ⟨goConst "id", goConst "\\d+é", ⟨goConst "PartialRedact", [], 4, goConst "LastCharacters"⟩,
  some (goCreateKeywords 30 (some [goConst "card"]) none), goConst "LuhnChecksum"⟩

private def cardRule : RustRule := ⟨"\\d+é".toList, .partialLast 4, some ⟨30, ["card".toList], []⟩, some .luhnChecksum,
  .excl [], [], none⟩

/-- The hypotheses are met by a rule with keywords and a validator. -/
example : Sized card ∧ Utf8Rule card ∧ RuleFor card cardRule ∧ goCreateRule D card = some cardRule := by
  have hs : Sized card := ⟨by decide, by intro k hk; cases hk; decide⟩
  have hr : RuleFor card cardRule := by
    refine ⟨by decide +kernel, .last rfl rfl, ⟨rfl, rfl, rfl⟩, by decide +kernel, rfl, rfl, rfl⟩
  refine ⟨hs, ⟨⟨_, rfl⟩, ⟨[], rfl⟩, ?_⟩, hr, C64_rule_arrives hs hr⟩
  intro k hk b hb
  cases hk
  simp [goCreateKeywords] at hb
  exact ⟨_, hb⟩

end Props
end Sds
