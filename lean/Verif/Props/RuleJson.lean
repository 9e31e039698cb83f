import Verif.Model.RuleJson

/-! # C74: a rule configuration survives being written and read -/

namespace Sds

namespace Spec

/-- The indices of a path are of type `usize`. -/
def PathFits (p : Path) : Prop := ∀ i, Seg.index i ∈ p → i < 2 ^ 64

/-- Every number has the range of its type in Rust. -/
structure RuleFits (r : RustRule) : Prop where
  action : ∀ n, r.action = .partialFirst n ∨ r.action = .partialLast n → n < 2 ^ 64
  keywords : ∀ c, r.keywords = some c → c.lookAhead < 2 ^ 64
  scope : match r.scope with
    | .incl i e => ∀ p, p ∈ i ∨ p ∈ e → PathFits p
    | .excl e => ∀ p ∈ e, PathFits p
  aws : ∀ c, r.validation = some (.awsSecret c) → c.timeout < 2 ^ 64 * 1000000000
  http : ∀ c, r.validation = some (.http c) →
    c.timeout < 2 ^ 64 * 1000000000 ∧ ∀ x, x ∈ c.valid ∨ x ∈ c.invalid → x.1 < 2 ^ 16 ∧ x.2 < 2 ^ 16

/-- The names of the fields of a rule configuration. -/
def ruleFields : List Str :=
  ["pattern", "match_action", "scope", "proximity_keywords", "validator", "labels", "match_validation_type"].map
    String.toList

end Spec

namespace Props
open Sds Spec

theorem readAll_map {α : Type} {f : JVal → Option α} {g : α → JVal} {l : List α} (h : ∀ a ∈ l, f (g a) = some a) :
    readAll f (l.map g) = some l := by
  induction l with
  | nil => rfl
  | cons a l ih =>
    simp [readAll, h a (by simp), ih fun b hb => h b (by simp [hb])]

theorem readStrs_map (l : List Str) : readStrs (l.map .str) = some l := by
  induction l with
  | nil => rfl
  | cons a l ih => simp [readStrs, readStr, ih]

theorem usize_num {n : Nat} (h : n < 2 ^ 64) : readUsize (.num n) = some n := by simp [readUsize, h]

theorem action_round {a : Action} (h : ∀ n, a = .partialFirst n ∨ a = .partialLast n → n < 2 ^ 64)
    (hu : a ≠ .utf16Hash) : readAction (writeAction a) = some a := by
  cases a with
  | none => rfl
  | hash => rfl
  | redact r => rfl
  | utf16Hash => exact absurd rfl hu
  | partialFirst n =>
    show (match some "FirstCharacters".toList, readUsize (.num n) with
      | some d, some n => readDirection n d
      | _, _ => none) = _
    rw [usize_num (h n (.inl rfl))]
    rfl
  | partialLast n =>
    show (match some "LastCharacters".toList, readUsize (.num n) with
      | some d, some n => readDirection n d
      | _, _ => none) = _
    rw [usize_num (h n (.inr rfl))]
    rfl

theorem keywords_round {c : KwConfig} (h : c.lookAhead < 2 ^ 64) : readKeywords (writeKeywords c) = some c := by
  show (match readUsize (.num c.lookAhead), readStrs (c.included.map .str), readStrs (c.excluded.map .str) with
    | some n, some i, some e => some (⟨n, i, e⟩ : KwConfig)
    | _, _, _ => none) = _
  rw [usize_num h, readStrs_map, readStrs_map]

theorem validator_round (v : RustValidator) : readValidator (writeValidator v) = some v := by
  cases v <;> rfl

theorem seg_round {s : Seg} (h : ∀ i, s = .index i → i < 2 ^ 64) : readSeg (writeSeg s) = some s := by
  cases s with
  | field s => rfl
  | index i =>
    show (readUsize (.num i)).map Seg.index = _
    rw [usize_num (h i rfl)]
    rfl

theorem path_round {p : Path} (h : PathFits p) : readPath (writePath p) = some p := by
  show readAll readSeg (p.map writeSeg) = some p
  exact readAll_map fun s hs => seg_round fun i e => h i (e ▸ hs)

theorem paths_round {l : List Path} (h : ∀ p ∈ l, PathFits p) : readAll readPath (l.map writePath) = some l :=
  readAll_map fun p hp => path_round (h p hp)

theorem scope_round {s : Scope} (h : match s with
    | .incl i e => ∀ p, p ∈ i ∨ p ∈ e → PathFits p
    | .excl e => ∀ p ∈ e, PathFits p) : readScope (writeScope s) = some s := by
  cases s with
  | incl i e =>
    show (match readAll readPath (i.map writePath), readAll readPath (e.map writePath) with
      | some i, some e => some (Scope.incl i e)
      | _, _ => none) = _
    rw [paths_round fun p hp => h p (.inl hp), paths_round fun p hp => h p (.inr hp)]
  | excl e =>
    show (readAll readPath (e.map writePath)).map Scope.excl = _
    rw [paths_round h]
    rfl

theorem labels_round (l : List (Str × Str)) : readList readLabel (writeLabels l) = some l :=
  readAll_map fun _ _ => rfl

theorem duration_round {n : Nat} (h : n < 2 ^ 64 * 1000000000) : readDuration (writeDuration n) = some n := by
  show (match readUsize (.num (n / 1000000000)), jsonU32 (.num (n % 1000000000)) with
    | some s, some n => if s + n / 1000000000 < 2 ^ 64 then some (s * 1000000000 + n) else none
    | _, _ => none) = _
  have h1 : n / 1000000000 < 2 ^ 64 := by omega
  have h2 : n % 1000000000 < 2 ^ 32 := by omega
  have h3 : n / 1000000000 + n % 1000000000 / 1000000000 < 2 ^ 64 := by omega
  have h4 : n / 1000000000 * 1000000000 + n % 1000000000 = n := by omega
  rw [usize_num h1]
  simp only [jsonU32, if_pos h2, if_pos h3, h4]

theorem range_round {r : Nat × Nat} (h : r.1 < 2 ^ 16 ∧ r.2 < 2 ^ 16) : readRange (writeRange r) = some r := by
  show (match jsonU16 (.num r.1), jsonU16 (.num r.2) with
    | some a, some b => some (a, b)
    | _, _ => none) = _
  simp only [jsonU16, if_pos h.1, if_pos h.2]

theorem ranges_round {l : List (Nat × Nat)} (h : ∀ r ∈ l, r.1 < 2 ^ 16 ∧ r.2 < 2 ^ 16) :
    readAll readRange (l.map writeRange) = some l :=
  readAll_map fun r hr => range_round (h r hr)

theorem aws_round {D : Dates} (hD : ∀ d, D.read (D.text d) = some d) {c : AwsConfig}
    (h : c.timeout < 2 ^ 64 * 1000000000) : readAwsConfig D (writeAwsConfig D c) = some c := by
  obtain ⟨e, d, t⟩ := c
  have key : ∀ o, readAwsConfig D (writeAwsConfig D ⟨e, o, t⟩) =
      match optional (readDate D) (some (writeOption (fun d => .str (D.text d)) o)), readDuration (writeDuration t) with
      | some d, some t => some ⟨e, d, t⟩
      | _, _ => none := by
    intro o
    show (match some e, optional (readDate D) (some (writeOption (fun d => .str (D.text d)) o)),
      readDuration (writeDuration t) with
      | some e, some d, some t => some (⟨e, d, t⟩ : AwsConfig)
      | _, _, _ => none) = _
    cases optional (readDate D) (some (writeOption (fun d => .str (D.text d)) o)) <;>
      cases readDuration (writeDuration t) <;> rfl
  rw [key, duration_round h]
  cases d with
  | none => rfl
  | some d => simp [writeOption, optional, readDate, hD]

theorem http_round {c : HttpConfig} (h1 : c.timeout < 2 ^ 64 * 1000000000)
    (h2 : ∀ x, x ∈ c.valid ∨ x ∈ c.invalid → x.1 < 2 ^ 16 ∧ x.2 < 2 ^ 16) :
    readHttpConfig (writeHttpConfig c) = some c := by
  obtain ⟨e, m, hs, v, i, t⟩ := c
  have he : readAll readStr (e.map .str) = some e := readAll_map fun _ _ => rfl
  have hm : readMethod (writeMethod m) = some m := by cases m <;> rfl
  have hh : readAll readHeader (hs.map writeHeader) = some hs := readAll_map fun _ _ => rfl
  show (match readAll readStr (e.map .str), readMethod (writeMethod m), readAll readHeader (hs.map writeHeader) with
    | some e, some m, some h =>
      match readAll readRange (v.map writeRange), readAll readRange (i.map writeRange),
          readDuration (writeDuration t) with
      | some v, some i, some t => some (⟨e, m, h, v, i, t⟩ : HttpConfig)
      | _, _, _ => none
    | _, _, _ => none) = _
  rw [he, hm, hh, ranges_round fun r hr => h2 r (.inl hr), ranges_round fun r hr => h2 r (.inr hr), duration_round h1]

theorem validation_round {D : Dates} (hD : ∀ d, D.read (D.text d) = some d) {t : VType}
    (h1 : ∀ c, t = .awsSecret c → c.timeout < 2 ^ 64 * 1000000000)
    (h2 : ∀ c, t = .http c →
      c.timeout < 2 ^ 64 * 1000000000 ∧ ∀ x, x ∈ c.valid ∨ x ∈ c.invalid → x.1 < 2 ^ 16 ∧ x.2 < 2 ^ 16) :
    readValidation D (writeValidation D t) = some t := by
  cases t with
  | awsId => rfl
  | awsSession => rfl
  | awsSecret c =>
    show (readAwsConfig D (writeAwsConfig D c)).map VType.awsSecret = _
    rw [aws_round hD (h1 c rfl)]
    rfl
  | http c =>
    show (readHttpConfig (writeHttpConfig c)).map VType.http = _
    rw [http_round (h2 c rfl).1 (h2 c rfl).2]
    rfl

theorem optional_round {α : Type} {f : JVal → Option α} {g : α → JVal} {o : Option α}
    (h : ∀ a, o = some a → f (g a) = some a) (hn : ∀ a, g a ≠ .null) : optional f (some (writeOption g o)) = some o := by
  cases o with
  | none => rfl
  | some a =>
    have := h a rfl
    show optional f (some (g a)) = _
    unfold optional
    split
    · rename_i he; cases he
    · rename_i he; exact absurd (Option.some.inj he) (hn a)
    · rename_i he
      cases he
      rw [this]
      rfl

/-- C74: every rule configuration is read back as it was written.  (`Utf16Hash` only exists behind a feature; chrono
reads the dates that it writes.) -/
theorem C74_round_trip {D : Dates} (hD : ∀ d, D.read (D.text d) = some d) {r : RustRule} (h : RuleFits r)
    (hu : r.action ≠ .utf16Hash) : readRule D (writeRule D r) = some r := by
  obtain ⟨p, a, k, v, s, l, t⟩ := r
  have key : readRule D (writeRule D ⟨p, a, k, v, s, l, t⟩) =
      match readAction (writeAction a), optional readKeywords (some (writeOption writeKeywords k)),
        optional readValidator (some (writeOption writeValidator v)), readScope (writeScope s),
        readList readLabel (writeLabels l), optional (readValidation D) (some (writeOption (writeValidation D) t)) with
      | some a, some k, some v, some s, some l, some t => some ⟨p, a, k, v, s, l, t⟩
      | _, _, _, _, _, _ => none := by
    show (match some p, readAction (writeAction a), optional readKeywords (some (writeOption writeKeywords k)),
        optional readValidator (some (writeOption writeValidator v)) with
      | some p, some a, some k, some v =>
        match readScope (writeScope s), readList readLabel (writeLabels l),
            optional (readValidation D) (some (writeOption (writeValidation D) t)) with
        | some s, some l, some t => some (⟨p, a, k, v, s, l, t⟩ : RustRule)
        | _, _, _ => none
      | _, _, _, _ => none) = _
    cases readAction (writeAction a) <;> cases optional readKeywords (some (writeOption writeKeywords k)) <;>
      cases optional readValidator (some (writeOption writeValidator v)) <;> cases readScope (writeScope s) <;>
      cases readList readLabel (writeLabels l) <;>
      cases optional (readValidation D) (some (writeOption (writeValidation D) t)) <;> rfl
  rw [key, action_round h.action hu, optional_round (fun c hc => keywords_round (h.keywords c hc)) (by simp [writeKeywords]),
    optional_round (fun v _ => validator_round v) (by simp [writeValidator]), scope_round h.scope, labels_round,
    optional_round (fun t ht => validation_round hD (fun c hc => h.aws c (by rw [ht, hc]))
      (fun c hc => h.http c (by rw [ht, hc]))) (by intro t; cases t <;> simp [writeValidation])]

/-! ## Order of fields, unknown fields, missing fields -/

theorem find_perm {fs fs' : List (Str × JVal)} (hp : fs.Perm fs') (hn : (fs.map (·.1)).Nodup) (k : Str) :
    fs.find? (fun f => f.1 == k) = fs'.find? (fun f => f.1 == k) := by
  induction hp with
  | nil => rfl
  | cons x _ ih =>
    simp only [List.map_cons, List.nodup_cons] at hn
    simp only [List.find?_cons]
    rw [ih hn.2]
  | swap x y l =>
    simp only [List.map_cons, List.nodup_cons, List.mem_cons, not_or] at hn
    simp only [List.find?_cons]
    cases hx : x.1 == k <;> cases hy : y.1 == k <;> try rfl
    simp only [beq_iff_eq] at hx hy
    exact absurd (hy.trans hx.symm) hn.1.1
  | trans h1 _ ih1 ih2 =>
    rw [ih1 hn, ih2 ((h1.map _).nodup_iff.1 hn)]

/-- The reader only looks at its seven fields. -/
theorem readRule_congr (D : Dates) {fs fs' : List (Str × JVal)}
    (h : ∀ k ∈ ruleFields, fs.find? (fun f => f.1 == k) = fs'.find? (fun f => f.1 == k)) :
    readRule D (.obj fs) = readRule D (.obj fs') := by
  have e : ∀ k : String, k.toList ∈ ruleFields → jField fs k = jField fs' k := by
    intro k hk
    rw [jField, jField, h _ hk]
  simp only [readRule]
  rw [e "pattern" (by decide), e "match_action" (by decide), e "proximity_keywords" (by decide),
    e "validator" (by decide), e "scope" (by decide), e "labels" (by decide), e "match_validation_type" (by decide)]

/-- C74: the order of the fields is irrelevant, and so are fields with other names. -/
theorem C74_field_order (D : Dates) {fs fs' extra : List (Str × JVal)}
    (hx : ∀ f ∈ extra, f.1 ∉ ruleFields) (hp : fs'.Perm (extra ++ fs)) (hn' : (fs'.map (·.1)).Nodup) :
    readRule D (.obj fs') = readRule D (.obj fs) := by
  apply readRule_congr
  intro k hk
  rw [find_perm hp hn' k, List.find?_append]
  have : extra.find? (fun f => f.1 == k) = none := by
    rw [List.find?_eq_none]
    intro f hf he
    simp only [beq_iff_eq] at he
    exact hx f hf (he ▸ hk)
  rw [this]
  rfl

/-- The fields that may be missing, with what is then used. -/
def withDefaults (p : Str) (a : Action) : RustRule := ⟨p, a, none, none, .excl [], [], none⟩

/-- C74: a pattern and an action are enough: without the other fields, or with `null` for them (except `scope`), the rule
scans everything and has no keywords, validators or labels.  `null` for `scope` is an error. -/
theorem C74_defaults (D : Dates) {p : Str} {a : Action} (ha : ∀ n, a = .partialFirst n ∨ a = .partialLast n → n < 2 ^ 64)
    (hu : a ≠ .utf16Hash) :
    (∀ nulls : List Str, (∀ k ∈ nulls, k ∈ ["proximity_keywords".toList, "validator".toList, "labels".toList,
        "match_validation_type".toList]) →
      readRule D (.obj ([("pattern".toList, .str p), ("match_action".toList, writeAction a)] ++
        nulls.map fun k => (k, .null))) = some (withDefaults p a)) ∧
    readRule D (.obj [("pattern".toList, .str p), ("match_action".toList, writeAction a), ("scope".toList, .null)]) = none := by
  have hra := action_round ha hu
  constructor
  · intro nulls hk
    have key : ∀ k : String, k.toList ∈ ["proximity_keywords".toList, "validator".toList, "labels".toList,
        "match_validation_type".toList] →
        jField ([("pattern".toList, .str p), ("match_action".toList, writeAction a)] ++ nulls.map fun k => (k, .null)) k =
          none ∨
        jField ([("pattern".toList, .str p), ("match_action".toList, writeAction a)] ++ nulls.map fun k => (k, .null)) k =
          some .null := by
      intro k hk'
      rw [jField, List.find?_append]
      have h0 : List.find? (fun f : Str × JVal => f.1 == k.toList)
          [("pattern".toList, .str p), ("match_action".toList, writeAction a)] = none := by
        rw [List.find?_eq_none]
        intro f hf he
        simp only [beq_iff_eq] at he
        rw [← he] at hk'
        simp only [List.mem_cons, List.not_mem_nil, or_false] at hf
        rcases hf with rfl | rfl <;> simp only at hk' <;> revert hk' <;> decide
      rw [h0, Option.none_or]
      cases hf : List.find? (fun f : Str × JVal => f.1 == k.toList) (nulls.map fun k => (k, .null)) with
      | none => exact .inl rfl
      | some f =>
        refine .inr ?_
        obtain ⟨k', _, rfl⟩ := List.mem_map.1 (List.mem_of_find?_eq_some hf)
        rfl
    have hs : jField ([("pattern".toList, .str p), ("match_action".toList, writeAction a)] ++
        nulls.map fun k => (k, .null)) "scope" = none := by
      rw [jField, List.find?_append]
      have h0 : List.find? (fun f : Str × JVal => f.1 == "scope".toList)
          [("pattern".toList, .str p), ("match_action".toList, writeAction a)] = none := by
        rfl
      have h1 : List.find? (fun f : Str × JVal => f.1 == "scope".toList) (nulls.map fun k => (k, .null)) = none := by
        rw [List.find?_eq_none]
        intro f hf he
        simp only [beq_iff_eq] at he
        obtain ⟨k', hk', rfl⟩ := List.mem_map.1 hf
        have := hk k' hk'
        simp only at he
        rw [he] at this
        revert this
        decide
      rw [h0, h1]
      rfl
    have hp : jField ([("pattern".toList, .str p), ("match_action".toList, writeAction a)] ++
        nulls.map fun k => (k, .null)) "pattern" = some (.str p) := rfl
    have hm : jField ([("pattern".toList, .str p), ("match_action".toList, writeAction a)] ++
        nulls.map fun k => (k, .null)) "match_action" = some (writeAction a) := rfl
    simp only [readRule]
    rw [hp, hm, hs]
    have ho : ∀ {α : Type} (f : JVal → Option α) (o : Option JVal), o = none ∨ o = some .null → optional f o = some none := by
      rintro α f o (rfl | rfl) <;> rfl
    have hd : ∀ {α : Type} (d : α) (f : JVal → Option α) (o : Option JVal), o = none ∨ o = some .null →
        defaultedNull d f o = some d := by
      rintro α d f o (rfl | rfl) <;> rfl
    rw [ho _ _ (key "proximity_keywords" (by decide)), ho _ _ (key "validator" (by decide)),
      ho _ _ (key "match_validation_type" (by decide)), hd _ _ _ (key "labels" (by decide))]
    simp [required, readStr, hra, defaulted, withDefaults]
  · show (match some p, readAction (writeAction a), some none, some none with
      | some p, some a, some k, some v =>
        match (none : Option Scope), some [], some none with
        | some s, some l, some t => some (⟨p, a, k, v, s, l, t⟩ : RustRule)
        | _, _, _ => none
      | _, _, _, _ => none) = _
    rw [hra]

/-! ## Examples -/

private def fullRule : RustRule :=
  ⟨"\\d+".toList, .partialLast 4, some ⟨30, ["card".toList], []⟩, some .luhnChecksum,
    .incl [[.field "a".toList, .index 3], []] [[.field [].reverse]], [("team".toList, "x".toList)],
    some (.http ⟨["https://x".toList], .post, [("k".toList, "$MATCH".toList)], [(200, 300)], [(400, 500)], 3000000001⟩)⟩

example : RuleFits fullRule ∧ fullRule.action ≠ .utf16Hash := by
  refine ⟨⟨?_, ?_, ?_, ?_, ?_⟩, by decide⟩
  · rintro n (h | h) <;> simp [fullRule] at h
    omega
  · intro c h
    cases h
    decide
  · intro p hp i hi
    simp at hp
    rcases hp with (rfl | rfl) | rfl <;> simp at hi
    omega
  · intro c h
    cases h
  · intro c h
    cases h
    refine ⟨by decide, ?_⟩
    intro x hx
    simp at hx
    rcases hx with rfl | rfl <;> decide

/-- Dates that are read as they are written. -/
example : ∃ D : Dates, ∀ d, D.read (D.text d) = some d :=
  ⟨⟨fun n => List.replicate n 'x', fun s => some s.length⟩, fun d => by simp⟩

/-- Fields in another order, with one that is not known. -/
example : ∃ fs fs' extra : List (Str × JVal), extra ≠ [] ∧ (∀ f ∈ extra, f.1 ∉ ruleFields) ∧
    fs'.Perm (extra ++ fs) ∧ (fs'.map (·.1)).Nodup := by
  refine ⟨[("pattern".toList, .str []), ("scope".toList, .null)],
    [("scope".toList, .null), ("id".toList, .str []), ("pattern".toList, .str [])], [("id".toList, .str [])], by simp,
    by intro f hf; simp only [List.mem_singleton] at hf; subst hf; decide, ?_, by decide⟩
  exact List.perm_append_comm (l₁ := [("scope".toList, JVal.null)])
    (l₂ := [("id".toList, .str []), ("pattern".toList, .str [])])

end Props
end Sds
