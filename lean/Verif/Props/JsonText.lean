import Verif.Lemmas.JsonWrite
import Verif.Props.RuleJson

/-! # C86: rule configurations survive their JSON text -/

namespace Sds.Props
open Sds Spec Spec.Json

/-- C86: the reader reads exactly the texts of the grammar, as the document that the grammar gives. -/
theorem C86_reads_iff (t : Str) (v : JVal) : readJson t = some v ↔ Document t v := readJson_iff t v

/-- C86: a text stands for at most one document. -/
theorem C86_text_unique {t : Str} {v w : JVal} (hv : Document t v) (hw : Document t w) : v = w :=
  Option.some.inj (((readJson_iff t v).2 hv).symm.trans ((readJson_iff t w).2 hw))

/-- C86: a document can be written so that it is read iff it has at most 127 levels. -/
theorem C86_levels (v : JVal) : (∃ t, readJson t = some v) ↔ v.depth ≤ 127 := by
  constructor
  · rintro ⟨t, h⟩
    obtain ⟨_, u, _, _, hu, _⟩ := (readJson_iff t v).1 h
    exact value_depth hu
  · intro h
    exact ⟨v.text, (readJson_iff _ _).2 ⟨[], v.text, [], space_nil, JVal.text_of v 127 h, space_nil, by simp⟩⟩

/-- C86: no text of a document has a zero byte, so that it is a C string. -/
theorem C86_no_zero {t : Str} {v : JVal} (h : Document t v) : ∀ b ∈ utf8 t, b ≠ 0 := by
  obtain ⟨a, u, b, ha, hu, hb, rfl⟩ := h
  refine utf8_pos fun c hc => ?_
  simp only [List.mem_append] at hc
  rcases hc with hc | hc | hc
  · exact space_pos ha c hc
  · exact value_pos hu c hc
  · exact space_pos hb c hc

/-- C86: what Go writes is a text for the document that Go has (with U+FFFD for bytes that are not UTF-8), in all versions of
Go. -/
theorem C86_go_text (short : Bool) (v : GoJson) (h : v.tree.depth ≤ 127) :
    ∃ t, v.text short = utf8 t ∧ Document t v.tree := by
  obtain ⟨t, h1, h2⟩ := GoJson.text_of short v 127 h
  exact ⟨t, h2, [], t, [], space_nil, h1, space_nil, by simp⟩

private theorem treeFields_append (a b : List (Str × GoJson)) :
    GoJson.treeFields (a ++ b) = GoJson.treeFields a ++ GoJson.treeFields b := by
  induction a with
  | nil => rfl
  | cons x a ih => rw [List.cons_append, GoJson.treeFields, GoJson.treeFields, ih]; rfl

private theorem treeList_strs (l : List Bytes) : GoJson.treeList (l.map .str) = l.map fun b => .str (goText b) := by
  induction l with
  | nil => rfl
  | cons x l ih => rw [List.map_cons, GoJson.treeList, ih]; rfl

private theorem strings_tree (o : Option (List Bytes)) : (goStringsDoc o).tree = goStrings o := by
  cases o with
  | none => rfl
  | some l => show JVal.arr _ = _; rw [treeList_strs]; rfl

private theorem action_tree (a : GoAction) : a.doc.tree = a.json := by
  unfold GoAction.doc GoAction.json
  simp only
  split
  · rfl
  · split
    · rfl
    · rfl

private theorem keywords_tree (k : GoKeywords) : k.doc.tree = k.json := by
  unfold GoKeywords.doc GoKeywords.json
  simp only [GoJson.tree, GoJson.treeFields, strings_tree]

theorem rule_tree (g : GoRule) : g.doc.tree = g.json := by
  unfold GoRule.doc GoRule.json
  rw [GoJson.tree, treeFields_append, treeFields_append]
  have h1 : GoJson.treeFields [("id".toList, .str g.id), ("pattern".toList, .str g.pattern), ("match_action".toList, g.action.doc)] =
      [("id".toList, .str (goText g.id)), ("pattern".toList, .str (goText g.pattern)), ("match_action".toList, g.action.json)] := by
    rw [← action_tree]; rfl
  rw [h1]
  congr 2
  · cases g.keywords with
    | none => rfl
    | some k => simp only [GoJson.treeFields, keywords_tree]
  · split
    · rfl
    · rfl

private theorem depthFields_append (a b : List (Str × JVal)) :
    JVal.depthFields (a ++ b) = max (JVal.depthFields a) (JVal.depthFields b) := by
  induction a with
  | nil => simp [JVal.depthFields]
  | cons x a ih => rw [List.cons_append, JVal.depthFields, JVal.depthFields, ih]; omega

private theorem depthList_le {α : Type} {f : α → JVal} {d : Nat} (h : ∀ a, (f a).depth ≤ d) (l : List α) :
    JVal.depthList (l.map f) ≤ d := by
  induction l with
  | nil => simp [JVal.depthList]
  | cons x l ih => rw [List.map_cons, JVal.depthList]; have := h x; omega

private theorem strings_depth (o : Option (List Bytes)) : (goStrings o).depth ≤ 1 := by
  cases o with
  | none => simp [goStrings, JVal.depth]
  | some l =>
    have := depthList_le (f := fun b => JVal.str (goText b)) (d := 0) (fun a => by simp [JVal.depth]) l
    simp only [goStrings, JVal.depth]
    omega

private theorem action_depth (a : GoAction) : a.json.depth ≤ 1 := by
  unfold GoAction.json
  simp only
  split
  · simp [JVal.depth, JVal.depthFields]
  · split <;> simp [JVal.depth, JVal.depthFields]

private theorem keywords_depth (k : GoKeywords) : k.json.depth ≤ 2 := by
  have := strings_depth k.included
  have := strings_depth k.excluded
  simp only [JVal.depthFields, GoKeywords.json, JVal.depth]
  omega

private theorem rule_depth (g : GoRule) : g.json.depth ≤ 127 := by
  unfold GoRule.json
  rw [JVal.depth, depthFields_append, depthFields_append]
  have h1 := action_depth g.action
  have h3 : JVal.depthFields (if g.validator = [] then [] else [("validator".toList, goValidatorJson g.validator)]) ≤ 1 := by
    split
    · simp [JVal.depthFields]
    · simp [JVal.depthFields, goValidatorJson, JVal.depth]
  cases g.keywords with
  | none =>
    simp only [JVal.depthFields, JVal.depth]
    omega
  | some k =>
    have := keywords_depth k
    simp only [JVal.depthFields, JVal.depth]
    omega

/-- C86: the document that Rust reads from the memory it is pointed to is the one of the rule in Go, whatever the texts of the
rule are and whatever follows in memory. -/
theorem C86_document_arrives (short : Bool) (g : GoRule) (after : Bytes) :
    readJsonC (cString (g.doc.text short) after) = some g.json := by
  obtain ⟨t, h1, h2⟩ := C86_go_text short g.doc (by rw [rule_tree]; exact rule_depth g)
  rw [rule_tree] at h2
  unfold readJsonC
  rw [h1, cStr_cString (C86_no_zero h2), lossy_utf8]
  exact (readJson_iff t _).2 h2

/-- C86: so `CreateRule` is what C64 says of it. -/
theorem C86_rule_from_text (D : Dates) (short : Bool) (g : GoRule) (after : Bytes) :
    createRegexRule D (cString (g.doc.text short) after) = goCreateRule D g := by
  unfold createRegexRule
  rw [C86_document_arrives]
  rfl

private theorem seg_depth (s : Seg) : (writeSeg s).depth ≤ 1 := by
  cases s <;> simp [writeSeg, JVal.depth, JVal.depthFields]

private theorem path_depth (p : Path) : (writePath p).depth ≤ 3 := by
  have := depthList_le seg_depth p
  simp only [writePath, JVal.depth, JVal.depthFields]
  omega

private theorem strs_depth (l : List Str) : (writeStrs l).depth ≤ 1 := by
  have := depthList_le (f := JVal.str) (d := 0) (fun a => by simp [JVal.depth]) l
  simp only [writeStrs, JVal.depth]
  omega

private theorem scope_depth (s : Scope) : (writeScope s).depth ≤ 6 := by
  cases s with
  | incl i e =>
    have := depthList_le path_depth i
    have := depthList_le path_depth e
    simp only [writeScope, JVal.depth, JVal.depthFields]
    omega
  | excl e =>
    have := depthList_le path_depth e
    simp only [writeScope, JVal.depth, JVal.depthFields]
    omega

private theorem option_depth {α : Type} {f : α → JVal} {d : Nat} (h : ∀ a, (f a).depth ≤ d) (o : Option α) :
    (writeOption f o).depth ≤ d := by
  cases o with
  | none => simp [writeOption, JVal.depth]
  | some a => exact h a

private theorem duration_depth (n : Nat) : (writeDuration n).depth ≤ 1 := by
  simp [writeDuration, JVal.depth, JVal.depthFields]

private theorem validation_depth (D : Dates) (t : VType) : (writeValidation D t).depth ≤ 6 := by
  cases t with
  | awsId => simp [writeValidation, JVal.depth, JVal.depthFields]
  | awsSession => simp [writeValidation, JVal.depth, JVal.depthFields]
  | awsSecret c =>
    have := duration_depth c.timeout
    have := option_depth (f := fun d => JVal.str (D.text d)) (d := 0) (fun a => by simp [JVal.depth]) c.forcedDatetime
    simp only [writeValidation, writeAwsConfig, JVal.depth, JVal.depthFields]
    omega
  | http c =>
    have := duration_depth c.timeout
    have := strs_depth c.endpoints
    have hm : (writeMethod c.method).depth = 0 := by cases c.method <;> simp [writeMethod, JVal.depth]
    have := depthList_le (f := writeHeader) (d := 1) (fun a => by simp [writeHeader, JVal.depth, JVal.depthFields]) c.headers
    have := depthList_le (f := writeRange) (d := 1) (fun a => by simp [writeRange, JVal.depth, JVal.depthFields]) c.valid
    have := depthList_le (f := writeRange) (d := 1) (fun a => by simp [writeRange, JVal.depth, JVal.depthFields]) c.invalid
    simp only [writeValidation, writeHttpConfig, JVal.depth, JVal.depthFields]
    omega

private theorem written_depth (D : Dates) (r : RustRule) : (writeRule D r).depth ≤ 127 := by
  have h1 : (writeAction r.action).depth ≤ 1 := by cases r.action <;> simp [writeAction, JVal.depth, JVal.depthFields]
  have h2 := scope_depth r.scope
  have h3 : (writeOption writeKeywords r.keywords).depth ≤ 2 := option_depth (fun k => by
    have := strs_depth k.included
    have := strs_depth k.excluded
    simp only [writeKeywords, JVal.depth, JVal.depthFields]
    omega) _
  have h4 : (writeOption writeValidator r.validator).depth ≤ 1 := option_depth (fun v => by
    simp [writeValidator, JVal.depth, JVal.depthFields]) _
  have h5 : (writeLabels r.labels).depth ≤ 2 := by
    have := depthList_le (f := fun x : Str × Str => JVal.arr [.str x.1, .str x.2]) (d := 1)
      (fun a => by simp [JVal.depth, JVal.depthList]) r.labels
    simp only [writeLabels, JVal.depth]
    omega
  have h6 := option_depth (validation_depth D) r.validation
  simp only [writeRule, JVal.depth, JVal.depthFields]
  omega

/-- C86: a rule configuration that Rust writes as text is read back from it as it was (under the conditions of C74). -/
theorem C86_rust_round_trip {D : Dates} (hD : ∀ d, D.read (D.text d) = some d) {r : RustRule} (h : RuleFits r)
    (hu : r.action ≠ .utf16Hash) : (readJson (writeRule D r).text).bind (readRule D) = some r := by
  have : readJson (writeRule D r).text = some (writeRule D r) :=
    (readJson_iff _ _).2 ⟨[], _, [], space_nil, JVal.text_of _ 127 (written_depth D r), space_nil, by simp⟩
  rw [this]
  exact C74_round_trip hD h hu

/-! ## Examples -/

/-- A rule with a zero byte, quotes, a line break and a byte that is not UTF-8. -/
private def exGo : GoRule :=
  goRedactingRule (utf8 "<1>".toList) (utf8 "\"\\d\n".toList ++ [0, 255, 0xEF, 0xBF, 0xBD]) (utf8 "*".toList) ⟨none, []⟩

/-- What is written, and what is read. -/
example : exGo.doc.text false = utf8 ("{\"id\":\"\\u003c1\\u003e\",\"pattern\":\"\\\"\\\\d\\n\\u0000\\ufffd".toList ++
      [replacementChar] ++ "\",\"match_action\":{\"match_action\":\"Redact\",\"replacement\":\"*\",\"type\":\"Redact\"}}".toList) ∧
    goText exGo.pattern = "\"\\d\n".toList ++ [Char.ofNat 0, replacementChar, replacementChar] := by
  decide +kernel

private def deep : Nat → JVal
  | 0 => .null
  | n + 1 => .arr [deep n]

private def same : JVal → JVal → Bool
  | .null, .null => true
  | .arr [a], .arr [b] => same a b
  | .str a, .str b => a == b
  | .num a, .num b => a == b
  | _, _ => false

/-- Both ends of the limit; white space, escapes and a surrogate pair; texts that are no documents. -/
example : (deep 127).depth = 127 ∧ (readJson (deep 127).text).any (same (deep 127)) = true ∧
    (readJson (deep 128).text).isNone = true ∧
    (readJson " [ \"\\/\\uD83d\\ude00\\u00E9\" ] \n".toList).any
      (same (.arr [.str ['/', Char.ofNat 0x1F600, Char.ofNat 0xE9]])) = true ∧
    ((["[1,]", "01", "\"\\uD83D\"", "\"\\ude00\"", "\"\t\"", "'a'", "nul", "1 2", ""].all fun s =>
      (readJson s.toList).isNone) = true) := by
  decide +kernel

end Sds.Props
