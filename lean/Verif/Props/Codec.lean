import Verif.Lemmas.CodecScan
import Verif.Lemmas.RegexRule
import Verif.Props.Search

/-! # C48-C51: the byte encoding between Go and the library -/

namespace Sds.Props
open Sds Spec

/-! ## A concrete event -/

private def fs : List (String × GoVal) → GoFields
  | [] => .nil
  | (k, v) :: r => .cons (utf8 k.toList) v (fs r)

private def gs (s : String) : GoVal := .str (utf8 s.toList)

/-- `{"é": ["x 12", {"b": "7"}], "id": "a"}` -/
private def exGo : GoFields := fs [("é", .list (.cons (gs "x 12") (.cons (.map (fs [("b", gs "7")])) .nil))), ("id", gs "a")]

private theorem utf8_is (s : Str) : IsUtf8 (utf8 s) := ⟨s, rfl⟩

private theorem fs_field {l : List (String × GoVal)} {k : Bytes} {v : GoVal} (h : GoFieldOf (fs l) k v) :
    IsUtf8 k ∧ ∃ s, (s, v) ∈ l := by
  induction l with
  | nil => exact h.elim
  | cons x l ih =>
    rcases h with ⟨rfl, rfl⟩ | h
    · exact ⟨utf8_is _, x.1, List.mem_cons_self⟩
    · obtain ⟨h1, s, h2⟩ := ih h
      exact ⟨h1, s, List.mem_cons_of_mem _ h2⟩

private theorem exGo_ok : GoKeyed (.map exGo) ∧ GoSized (.map exGo) := by
  constructor
  · simp only [exGo, fs, gs, GoKeyed, GoKeyedFields, GoKeyedItems, goKeys, and_true, true_and]
    decide +kernel
  · simp only [exGo, fs, gs, GoSized, GoSizedFields, GoSizedItems, goLength, and_true]
    decide +kernel

private theorem exGo_keys : KeysUtf8 (.map exGo) := by
  intro p m k w hp hw
  cases hp with
  | here => exact (fs_field hw).1
  | field hk hp =>
    obtain ⟨_, s, hs⟩ := fs_field hk
    simp only [List.mem_cons, Prod.mk.injEq, List.not_mem_nil, or_false] at hs
    rcases hs with ⟨_, rfl⟩ | ⟨_, rfl⟩
    · cases hp with
      | @item _ i v _ _ hi hp =>
        match i, hi with
        | 0, hi => cases hi; cases hp
        | 1, hi =>
          cases hi
          cases hp with
          | here => exact (fs_field hw).1
          | field hk hp =>
            obtain ⟨_, s, hs⟩ := fs_field hk
            simp only [List.mem_cons, Prod.mk.injEq, List.not_mem_nil, or_false] at hs
            obtain ⟨_, rfl⟩ := hs
            cases hp
        | i + 2, hi => exact hi.elim
    · cases hp

/-! ## C48 -/

private theorem toEv_fixed (v : GoVal) : ∀ l ∈ v.toEv.leaves false, KeysUtf8 v → l.fixed = false := by
  intro ⟨p, s, b⟩ hl hu
  cases b with
  | false => rfl
  | true =>
    obtain ⟨w, _, hw⟩ := (at_toEv hu).1 ((Ev.mem_scalar _ _ _).1 hl)
    cases w <;> simp [GoVal.toEv] at hw

/-- The strings of a Go event as seen by the library. -/
theorem mem_leaves_go {v : GoVal} (hu : KeysUtf8 v) {l : Leaf} :
    l ∈ v.toEv.leaves false ↔ l.fixed = false ∧ ∃ b, GoAt v (goPath l.path) (.str b) ∧ l.text = lossy b := by
  obtain ⟨p, s, fx⟩ := l
  have hstr : (⟨p, s, false⟩ : Leaf) ∈ v.toEv.leaves false ↔ ∃ b, GoAt v (goPath p) (.str b) ∧ s = lossy b := by
    rw [Ev.mem_str, at_toEv hu]
    constructor
    · rintro ⟨w, hw, he⟩
      cases w with
      | str b => exact ⟨b, hw, by simpa [GoVal.toEv] using he.symm⟩
      | map m => simp [GoVal.toEv] at he
      | list l => simp [GoVal.toEv] at he
      | other => simp [GoVal.toEv] at he
    · rintro ⟨b, hb, rfl⟩
      exact ⟨_, hb, rfl⟩
  constructor
  · intro h
    have hf := toEv_fixed v _ h hu
    simp only at hf
    subst hf
    exact ⟨rfl, hstr.1 h⟩
  · rintro ⟨hf, h⟩
    simp only at hf
    subst hf
    exact hstr.2 h

/-- C48: an event of strings, maps and lists, with valid UTF-8 and sizes of 32 bits, is encoded without error.
Reading the bytes makes calls that never leave the root, end at the root, visit no path twice, and visit
exactly the strings of the event at their own paths.  The order of `range` over a map is that of the value. -/
theorem C48_event_round_trip (v : GoVal) (hk : GoKeyed v) (hs : GoSized v) (hu : KeysUtf8 v) (hstr : StringsUtf8 v) :
    ∃ bytes ops l, v.encode = some bytes ∧ binaryOps bytes = Res.ok ops ∧ located [] ops = some l ∧
      endsAt [] ops = some [] ∧ (l.map (·.1)).Nodup ∧
      ∀ p s, (p, s) ∈ l ↔ GoAt v (goPath p) (.str (utf8 s)) := by
  obtain ⟨bytes, h1, h2⟩ := v.read_ops hs
  have hwf := v.wellKeyed hk hu
  refine ⟨bytes, _, _, h1, h2, jsonEvent_lawful.visits _ hwf, ?_, ?_, fun p s => ?_⟩
  · have := v.toEv.json_returning [] []
    simpa [endsAt] using this
  · have := jsonEvent_lawful.nodup _ hwf
    simpa [List.map_map, Function.comp_def] using this
  · constructor
    · intro h
      obtain ⟨l, hl, he⟩ := List.mem_map.1 h
      obtain ⟨_, b, hb, ht⟩ := (mem_leaves_go hu).1 hl
      simp only [Prod.mk.injEq] at he
      rw [he.1] at hb
      rw [← he.2, ht, lossy_of_utf8 (hstr _ _ hb)]
      exact hb
    · intro h
      exact List.mem_map.2 ⟨⟨p, s, false⟩, (mem_leaves_go hu).2 ⟨rfl, _, h, (lossy_utf8 s).symm⟩, rfl⟩

/-- C48: without the assumption on UTF-8 nothing panics either: every event of the right size can be read, and
the calls return to the root. -/
theorem C48_any_bytes_can_be_read (v : GoVal) (hs : GoSized v) :
    ∃ bytes ops, v.encode = some bytes ∧ binaryOps bytes = Res.ok ops ∧ endsAt [] ops = some [] := by
  obtain ⟨bytes, h1, h2⟩ := v.read_ops hs
  refine ⟨bytes, _, h1, h2, ?_⟩
  have := v.toEv.json_returning [] []
  simpa [endsAt] using this

/-- C48: the encoder returns an error exactly for the events with a value that is no string, map or list. -/
theorem C48_error_iff_unsupported (v : GoVal) : v.encode = none ↔ ∃ p, GoAt v p .other := v.encode_none

private theorem exGo_strings : StringsUtf8 (.map exGo) := by
  intro p b hp
  cases hp with
  | field hk hp =>
    obtain ⟨_, s, hs⟩ := fs_field hk
    simp only [List.mem_cons, Prod.mk.injEq, List.not_mem_nil, or_false] at hs
    rcases hs with ⟨_, rfl⟩ | ⟨_, rfl⟩
    · cases hp with
      | @item _ i v _ _ hi hp =>
        match i, hi with
        | 0, hi => cases hi; cases hp; exact utf8_is _
        | 1, hi =>
          cases hi
          cases hp with
          | field hk hp =>
            obtain ⟨_, s, hs⟩ := fs_field hk
            simp only [List.mem_cons, Prod.mk.injEq, List.not_mem_nil, or_false] at hs
            obtain ⟨_, rfl⟩ := hs
            cases hp
            exact utf8_is _
        | i + 2, hi => exact hi.elim
    · cases hp
      exact utf8_is _

example : GoKeyed (.map exGo) ∧ GoSized (.map exGo) ∧ KeysUtf8 (.map exGo) ∧ StringsUtf8 (.map exGo) :=
  ⟨exGo_ok.1, exGo_ok.2, exGo_keys, exGo_strings⟩

example : (GoVal.map exGo).encode.map binaryOps = some (Res.ok
    [.push (.field "é".toList), .push (.index 0), .visit "x 12".toList, .pop, .push (.index 1),
      .push (.field "b".toList), .visit "7".toList, .pop, .pop, .pop, .push (.field "id".toList), .visit "a".toList,
      .pop]) := by decide +kernel

/-! ## C49 -/

/-- C49: decoding the response gives all matches in their order, with their rule, displayed path, replacement
type, indices and signed shift, and says whether there was a mutation; the text of the last mutation is
returned. -/
theorem C49_response_round_trip (st : Storage) (ms : List RuleMatch) (hms : ms ≠ []) (hfit : ∀ m ∈ ms, Fits m)
    (hmut : ∀ x ∈ mutations st, MutationFits x) :
    ∃ bytes r, encodeResponse st ms = some bytes ∧ decodeResponse bytes = Res.ok (some r) ∧
      r.matches_ = ms.map goMatch ∧ (r.mutated = true ↔ mutations st ≠ []) ∧
      ∀ x, (mutations st).getLast? = some x → r.event = utf8 x.2 := by
  refine ⟨_, _, by rw [encodeResponse, if_neg (by simpa using hms)],
    decodeResponse_response ms hfit st _ _ (Nat.le_refl _) hmut, by simp, by simp, ?_⟩
  intro x hx
  generalize mutations st = l at hx
  generalize ([] : Bytes) = b
  show lastText l b = _
  induction l generalizing b with
  | nil => cases hx
  | cons y l ih =>
    rw [lastText]
    cases l with
    | nil =>
      simp only [List.getLast?_singleton, Option.some.injEq] at hx
      rw [hx]
      rfl
    | cons z l => exact ih (by simpa using hx) _

/-- C49: no response is sent for an empty list of matches, and the empty buffer is decoded to no match. -/
theorem C49_no_matches (st : Storage) : encodeResponse st [] = none ∧ decodeResponse [] = Res.ok (some ⟨false, [], []⟩) :=
  ⟨rfl, rfl⟩

private def exMatch : RuleMatch := ⟨1, [.field "é".toList, .index 0], .partialEnd, 2, 3, -1, none, .notAvailable⟩

private def exStorage : Storage := [([.field "id".toList], (false, "a".toList)),
  ([.field "é".toList, .index 0], (true, "x #".toList))]

private theorem exMatch_fits : Fits exMatch ∧ ∀ x ∈ mutations exStorage, MutationFits x := by
  constructor
  · have : (utf8 (displayPath exMatch.path)).length < 4294967296 := by decide +kernel
    refine ⟨by decide, this, by decide, by decide, by decide, by decide⟩
  · intro x hx
    have : mutations exStorage = [([.field "é".toList, .index 0], "x #".toList)] := by decide +kernel
    rw [this, List.mem_singleton] at hx
    subst hx
    refine ⟨by decide +kernel, fun s hs => ?_⟩
    simp only [List.mem_cons, List.not_mem_nil, or_false] at hs
    rcases hs with rfl | rfl
    · show (utf8 "é".toList).length < 4294967296
      decide +kernel
    · show 0 < 4294967296
      decide

example : (∀ m ∈ [exMatch], Fits m) ∧ ∀ x ∈ mutations exStorage, MutationFits x :=
  ⟨fun m hm => by rw [List.mem_singleton.1 hm]; exact exMatch_fits.1, exMatch_fits.2⟩

example : (encodeResponse exStorage [exMatch]).map decodeResponse =
    some (Res.ok (some ⟨true, utf8 "x #".toList, [⟨1, utf8 "é[0]".toList, .partialEnd, 2, 3, -1⟩]⟩)) := by decide +kernel

/-! ## C50 -/

/-- C50: applying a response to the event of the caller.  If every mutated path is that of a string of the event,
there is no error and no panic; the strings at the mutated paths have the new text and everything else is the
same (`mutatedText`). -/
theorem C50_mutations_applied (v : GoVal) (hv : ∀ b, v ≠ .str b) (hk : GoKeyed v) (st : Storage) (ms : List RuleMatch)
    (hms : ms ≠ []) (hst : (st.map (·.1)).Nodup) (hfit : ∀ m ∈ ms, Fits m)
    (hmut : ∀ x ∈ mutations st, MutationFits x ∧ ∃ b, GoAt v (goPath x.1) (.str b)) :
    ∃ bytes r, encodeResponse st ms = some bytes ∧
      decodeMap bytes v = Res.ok (some (goRewrite (mutatedText (mutations st)) v, r)) ∧
      r.matches_ = ms.map goMatch ∧ (r.mutated = true ↔ mutations st ≠ []) := by
  have := decodeMap_response ms hfit st _ v ⟨false, [], []⟩ (Nat.le_refl _) hk hv hmut
  rw [applyMutations_eq _ _ ((mutations_keys st).nodup hst)] at this
  exact ⟨_, _, by rw [encodeResponse, if_neg (by simpa using hms)], this, by simp, by simp⟩

/-- What `mutatedText` does: a mutated path gets the new text, another path keeps the old one. -/
theorem mutatedText_spec {ms : List (Path × Str)} (hn : (ms.map (·.1)).Nodup) (p : Path) (b : Bytes) :
    (∀ s, (p, s) ∈ ms → mutatedText ms (goPath p) b = utf8 s) ∧
    (p ∉ ms.map (·.1) → mutatedText ms (goPath p) b = b) := by
  constructor
  · intro s h
    unfold mutatedText
    cases hf : ms.find? (fun x => decide (goPath x.1 = goPath p)) with
    | none => exact absurd (by simp) (List.find?_eq_none.1 hf _ h)
    | some x =>
      have h0 := List.find?_some hf
      have h1 := goPath_inj (of_decide_eq_true h0)
      have h2 := List.mem_of_find?_eq_some hf
      have : x = (p, s) := eq_of_nodup_map hn h2 h h1
      rw [this]
  · intro h
    unfold mutatedText
    cases hf : ms.find? (fun x => decide (goPath x.1 = goPath p)) with
    | none => rfl
    | some x =>
      have h0 := List.find?_some hf
      have h1 := goPath_inj (of_decide_eq_true h0)
      exact absurd (List.mem_map.2 ⟨x, List.mem_of_find?_eq_some hf, h1⟩) h

example : (∀ b, GoVal.map exGo ≠ .str b) ∧ GoKeyed (.map exGo) ∧ (exStorage.map (·.1)).Nodup ∧
    ∀ x ∈ mutations exStorage, MutationFits x ∧ ∃ b, GoAt (.map exGo) (goPath x.1) (.str b) := by
  refine ⟨(fun b h => by cases h), exGo_ok.1, by decide +kernel, fun x hx => ⟨exMatch_fits.2 x hx, ?_⟩⟩
  have : mutations exStorage = [([.field "é".toList, .index 0], "x #".toList)] := by decide +kernel
  rw [this, List.mem_singleton] at hx
  subst hx
  exact ⟨_, .field (Or.inl ⟨rfl, rfl⟩) (.item rfl (.here _))⟩

/-- The type of a match is read in any case (`strings.ToLower`). -/
example : parseReplacementType (utf8 "Hash".toList) = .hash ∧ parseReplacementType (utf8 "PARTIAL_END".toList) = .partialEnd ∧
    parseReplacementType (utf8 "hash ".toList) = .none := by decide +kernel

/-! ## C51 -/

deriving instance DecidableEq for GoVal, GoItems, GoFields

private def fp : Fingerprint := ⟨fun s => s.length, fun s => s.length⟩

private def digits (a : Action) : CRule :=
  RegexRule.toCRule ⟨digitsRx, none, none, none⟩ ⟨a, false⟩ (.excl []) false (fun c => blen c + 1)

/-- A scanner that replaces digits. -/
private def exScanner : Scanner := ⟨[digits (.redact "#".toList)], false, false, false, fp⟩

/-- C51 fails: a key that is no valid UTF-8 is decoded to another key.  The redacted text is stored in a new field
with that other key; the field itself keeps the sensitive text, although a mutation is reported. -/
theorem C51_invalid_key_keeps_content :
    scanEventsMap exScanner (.cons [255] (.str (utf8 "7".toList)) .nil) =
      Res.ok (some (.map (.cons [255] (.str (utf8 "7".toList)) (.cons (utf8 [replacementChar]) (.str (utf8 "#".toList)) .nil)),
        ⟨true, utf8 "#".toList, [⟨0, utf8 [replacementChar], .placeholder, 0, 1, 0⟩]⟩)) := by decide +kernel

/-- C51 fails: two such keys are decoded to the same key.  The ranges found in the second string are applied to the
text of the first one; the library panics, which Go turns into an error, and nothing is redacted. -/
theorem C51_colliding_keys_error :
    scanEventsMap exScanner (.cons [255] (.str (utf8 "1".toList)) (.cons [254] (.str (utf8 "id 22".toList)) .nil)) =
      Res.ok none := by decide +kernel

/-- Finds the letter `a`. -/
private def aRx : Rx := fun c p =>
  match cut c p with
  | some (_, 'a' :: _) => some (p + 1)
  | _ => none

/-- C51 fails: with two such keys the second string decides whether there is a mutation.  The first one has a
redacting match, the second one only a detecting one: both are reported, nothing is redacted. -/
theorem C51_colliding_keys_not_redacted :
    scanEventsMap ⟨[digits (.redact "#".toList),
        RegexRule.toCRule ⟨aRx, none, none, none⟩ ⟨.none, false⟩ (.excl []) false (fun c => blen c + 1)], false, false, false, fp⟩
      (.cons [255] (.str (utf8 "1".toList)) (.cons [254] (.str (utf8 "a".toList)) .nil)) =
      Res.ok (some (.map (.cons [255] (.str (utf8 "1".toList)) (.cons [254] (.str (utf8 "a".toList)) .nil)),
        ⟨false, [], [⟨0, utf8 [replacementChar], .placeholder, 0, 1, 0⟩, ⟨1, utf8 [replacementChar], .none, 0, 1, 0⟩]⟩)) := by
  decide +kernel

private theorem goItemOf_lt {v : GoVal} : ∀ {l : GoItems} {i : Nat}, GoItemOf l i v → i < goLength l
  | .nil, _, h => h.elim
  | .cons _ _, 0, _ => by simp [goLength]
  | .cons _ rest, i + 1, h => by
    have := goItemOf_lt (l := rest) h
    simp only [goLength]
    omega

private theorem sized_field {k : Bytes} {v : GoVal} : ∀ {m : GoFields}, GoSizedFields m → GoFieldOf m k v →
    k.length < 4294967296 ∧ GoSized v
  | .nil, _, h => h.elim
  | .cons _ _ rest, hs, h => by
    simp only [GoSizedFields] at hs
    rcases h with ⟨rfl, rfl⟩ | h
    · exact ⟨hs.1, hs.2.1⟩
    · exact sized_field hs.2.2 h

private theorem sized_item {v : GoVal} : ∀ {l : GoItems} {i : Nat}, GoSizedItems l → GoItemOf l i v → GoSized v
  | .nil, _, _, h => h.elim
  | .cons _ _, 0, hs, h => by
    simp only [GoItemOf] at h
    subst h
    simp only [GoSizedItems] at hs
    exact hs.1
  | .cons _ rest, i + 1, hs, h => by
    simp only [GoSizedItems] at hs
    exact sized_item (l := rest) hs.2 h

/-- The paths of a sized event fit. -/
theorem path_fits {s : Str} (hs : (utf8 s).length < 4294967296) : ∀ {p : Path} {v w : GoVal}, GoSized v →
    GoAt v (goPath p) w → MutationFits (p, s)
  | [], _, _, _, _ => ⟨hs, fun y hy => by cases hy⟩
  | .field f :: p, v, w, hv, h => by
    have h' : GoAt v (.field (utf8 f) :: goPath p) w := h
    cases h' with
    | field hk hp =>
      rw [GoSized] at hv
      obtain ⟨h1, h2⟩ := sized_field hv hk
      have := path_fits hs h2 hp
      refine ⟨hs, fun y hy => ?_⟩
      rcases List.mem_cons.1 hy with rfl | hy
      · exact h1
      · exact this.2 y hy
  | .index i :: p, v, w, hv, h => by
    have h' : GoAt v (.index i :: goPath p) w := h
    cases h' with
    | item hk hp =>
      rw [GoSized] at hv
      have := path_fits hs (sized_item hv.2 hk) hp
      have hlt := goItemOf_lt hk
      refine ⟨hs, fun y hy => ?_⟩
      rcases List.mem_cons.1 hy with rfl | hy
      · exact Nat.lt_of_lt_of_le hlt hv.1
      · exact this.2 y hy

private theorem output_same {f : Nat → Str → Str} {ps : List Piece} {tail : Str}
    (h : ∀ p ∈ ps, f p.rule p.text = p.text) : output f ps tail = input ps tail := by
  induction ps with
  | nil => rfl
  | cons p ps ih =>
    simp only [output, input]
    rw [h p List.mem_cons_self, ih (fun q hq => h q (List.mem_cons_of_mem _ hq))]

private theorem mem_reports {units : Str → Nat} {rules : Nat → RuleInfo} {f : Nat → Str → Str} {rm : Bool} {path : Path}
    {ps : List Piece} {p : Piece} (hp : p ∈ ps) : ∀ inn out, ∃ o ∈ reports units rules f rm path inn out ps,
      o.rule = p.rule := by
  induction ps with
  | nil => cases hp
  | cons q ps ih =>
    intro inn out
    rcases List.mem_cons.1 hp with rfl | hp
    · exact ⟨_, List.mem_cons_self, rfl⟩
    · obtain ⟨o, ho, h⟩ := ih hp (inn ++ q.gap ++ q.text) (out ++ q.gap ++ f q.rule q.text)
      exact ⟨o, List.mem_cons_of_mem _ ho, h⟩

/-- A string without a report of a redacting rule keeps its text. -/
theorem unchanged {enc : Enc} {sc : Scanner} {blocked : List Nat} {leaves : List Leaf} {l : Leaf}
    {os : List RuleMatch} {new : Str} (h : LeafResult enc sc blocked leaves l os new)
    (hno : ¬ ∃ o ∈ os, redacting sc o.rule = true) : new = l.text := by
  obtain ⟨ks, res, ps, tail, _, _, _, h3, _, h4, h5⟩ := h
  rw [h5, h3]
  refine output_same (fun p hp => ?_)
  have : (infoOf sc p.rule).action = .none := by
    refine Classical.byContradiction (fun hn => hno ?_)
    obtain ⟨o, ho, hr⟩ := mem_reports (units := enc.units) (rules := infoOf sc)
      (f := fun r t => redacted sc.fp (infoOf sc r).action t) (rm := sc.returnMatches) (path := l.path) hp [] []
    rw [← h4] at ho
    exact ⟨o, ho, by rw [hr]; simp [redacting, hn]⟩
  simp [this, redacted]

/-- C51 for valid UTF-8 keys: a scan of a map of the Go caller.  Every string with a reported match of a redacting rule
has exactly the text prescribed for it (`LeafResult`), and every other string, the shape, and the keys are
unchanged; the matches are those of the library, in its order.  Missing from the full claim: keys that are not
valid UTF-8, where it is false (above).  Sizes are assumed to fit 32 bits, and the response 2^31 bytes
(beyond that see C94). -/
theorem C51_redaction_reaches_caller_partial {sc : Scanner} (hok : ScannerOk sc) (ev : GoFields) (hk : GoKeyed (.map ev))
    (hs : GoSized (.map ev)) (hu : KeysUtf8 (.map ev))
    (hret : ∀ rule ∈ sc.rules, ∀ p b, GoAt (.map ev) (goPath p) (.str b) → ∀ ex, ∃ f, rule.run (lossy b) p ex = Res.ok f)
    (hresp : ∀ b, (GoVal.map ev).encode = some b → ResponseFits sc b) :
    ∃ (leaves : List Leaf) (out : Leaf → List RuleMatch × Str), LeavesOf (.map ev) leaves ∧
      (∀ l ∈ leaves, LeafResult Enc.utf8 sc [] leaves l (out l).1 (out l).2) ∧
      ((∀ l ∈ leaves, (utf8 (out l).2).length < 4294967296 ∧ ∀ o ∈ (out l).1, Fits o) →
        ∃ g r, scanEventsMap sc ev = Res.ok (some (goRewrite g (.map ev), r)) ∧
          r.matches_ = (leaves.flatMap fun l => (out l).1).map goMatch ∧
          (r.mutated = true ↔ ∃ l ∈ leaves, ∃ o ∈ (out l).1, redacting sc o.rule = true) ∧
          ∀ l ∈ leaves, ∀ b, ((∃ o ∈ (out l).1, redacting sc o.rule = true) → g (goPath l.path) b = utf8 (out l).2) ∧
            ((¬ ∃ o ∈ (out l).1, redacting sc o.rule = true) → g (goPath l.path) b = b)) := by
  have htot : Returns sc ((GoVal.map ev).toEv.leaves false) := by
    intro rule hr l hl ex
    obtain ⟨_, b, hb, ht⟩ := (mem_leaves_go hu).1 hl
    rw [ht]
    exact hret rule hr _ _ hb ex
  obtain ⟨bytes, out, st, henc, hscan, hout, hst, hmut⟩ := scanBinary_spec hok hk hs hu htot
  have hnd := jsonEvent_lawful.nodup _ ((GoVal.map ev).wellKeyed hk hu)
  refine ⟨(GoVal.map ev).toEv.leaves false, out, ⟨hnd, fun l => mem_leaves_go hu⟩,
    fun l hl => leafOut_result jsonEvent_lawful.enc hok (hout l hl), fun hfit => ?_⟩
  generalize hL : (GoVal.map ev).toEv.leaves false = leaves at *
  have hany : ∀ l, ((out l).1.any (fun o => sc.redacts o.rule) = true) ↔ ∃ o ∈ (out l).1, redacting sc o.rule = true := by
    intro l
    rw [redacts_eq, List.any_eq_true]
  have hmuts : ∀ x ∈ mutations st, MutationFits x ∧ ∃ b, GoAt (.map ev) (goPath x.1) (.str b) := by
    rintro ⟨p, s⟩ hx
    obtain ⟨l, hl, rfl, _, rfl⟩ := (hmut p s).1 hx
    have hl' := hl
    rw [← hL] at hl'
    obtain ⟨_, b, hb, _⟩ := (mem_leaves_go hu).1 hl'
    exact ⟨path_fits (hfit l hl).1 hs hb, b, hb⟩
  have hfits : ∀ m ∈ leaves.flatMap (fun l => (out l).1), Fits m := by
    intro m hm
    obtain ⟨l, hl, hm⟩ := List.mem_flatMap.1 hm
    exact (hfit l hl).2 m hm
  have hnodup := (mutations_keys st).nodup hst
  have hdec := decodeMap_response _ hfits st _ (.map ev) ⟨false, [], []⟩ (Nat.le_refl _) hk (fun b h => by cases h) hmuts
  rw [applyMutations_eq _ _ hnodup] at hdec
  have hgo : ∃ r : GoResult, scanEventsMap sc ev = Res.ok (some (goRewrite (mutatedText (mutations st)) (.map ev), r)) ∧
      r.matches_ = (leaves.flatMap fun l => (out l).1).map goMatch ∧ r.mutated = !(mutations st).isEmpty := by
    have henc' : ev.encode = some bytes := henc
    have hp := hresp _ henc
    unfold scanEventsMap
    rw [henc']
    dsimp only
    unfold lowLevelScan
    rw [hscan]
    dsimp only
    cases hms : (leaves.flatMap fun l => (out l).1).isEmpty with
    | true =>
      rw [encodeResponse, if_pos hms]
      dsimp only
      have hem : mutations st = [] := by
        cases hm : mutations st with
        | nil => rfl
        | cons x xs =>
          obtain ⟨p, s⟩ := x
          obtain ⟨l, hl, _, ha, _⟩ := (hmut p s).1 (by rw [hm]; exact List.mem_cons_self)
          obtain ⟨o, ho, _⟩ := (hany l).1 ha
          have : o ∈ leaves.flatMap (fun l => (out l).1) := List.mem_flatMap.2 ⟨l, hl, ho⟩
          rw [List.isEmpty_iff.1 hms] at this
          cases this
      have hid : mutatedText [] = fun _ b => b := by funext p b; rfl
      rw [hem, hid, GoVal.rew_id, List.isEmpty_iff.1 hms]
      exact ⟨_, rfl, rfl, rfl⟩
    | false =>
      have he : encodeResponse st (leaves.flatMap fun l => (out l).1) =
          some (encodeStorage st ++ encodeMatches (leaves.flatMap fun l => (out l).1)) := by
        rw [encodeResponse, if_neg (by rw [hms]; decide)]
      rw [he]
      dsimp only
      rw [goBytes_small (hp _ _ _ hscan he)]
      exact ⟨_, hdec, rfl, rfl⟩
  obtain ⟨r, h1, h2, h3⟩ := hgo
  refine ⟨_, r, h1, h2, ?_, fun l hl b => ⟨fun hr => ?_, fun hr => ?_⟩⟩
  · rw [h3]
    constructor
    · intro he
      cases hm : mutations st with
      | nil => rw [hm] at he; cases he
      | cons x xs =>
        obtain ⟨p, s⟩ := x
        obtain ⟨l, hl, _, ha, _⟩ := (hmut p s).1 (by rw [hm]; exact List.mem_cons_self)
        exact ⟨l, hl, (hany l).1 ha⟩
    · rintro ⟨l, hl, hr⟩
      have := (hmut l.path (out l).2).2 ⟨l, hl, rfl, (hany l).2 hr, rfl⟩
      cases hm : mutations st with
      | nil => rw [hm] at this; cases this
      | cons x xs => rfl
  · exact (mutatedText_spec hnodup l.path b).1 _ ((hmut _ _).2 ⟨l, hl, rfl, (hany l).2 hr, rfl⟩)
  · refine (mutatedText_spec hnodup l.path b).2 (fun hm => hr ?_)
    obtain ⟨⟨p, s⟩, hx, he⟩ := List.mem_map.1 hm
    obtain ⟨l', hl', hp, ha, _⟩ := (hmut p s).1 hx
    have : l' = l := eq_of_nodup_map hnd hl' hl (hp.symm.trans he)
    rw [← this]
    exact (hany l').1 ha

/-- C51: if also the strings are valid UTF-8, the event of the caller has, for every string, the text prescribed for
it, whether it was redacted or not. -/
theorem C51_all_texts_partial {sc : Scanner} (hok : ScannerOk sc) (ev : GoFields) (hk : GoKeyed (.map ev))
    (hs : GoSized (.map ev)) (hu : KeysUtf8 (.map ev)) (hstr : StringsUtf8 (.map ev))
    (hret : ∀ rule ∈ sc.rules, ∀ p b, GoAt (.map ev) (goPath p) (.str b) → ∀ ex, ∃ f, rule.run (lossy b) p ex = Res.ok f)
    (hresp : ∀ b, (GoVal.map ev).encode = some b → ResponseFits sc b) :
    ∃ (leaves : List Leaf) (out : Leaf → List RuleMatch × Str), LeavesOf (.map ev) leaves ∧
      (∀ l ∈ leaves, LeafResult Enc.utf8 sc [] leaves l (out l).1 (out l).2) ∧
      ((∀ l ∈ leaves, (utf8 (out l).2).length < 4294967296 ∧ ∀ o ∈ (out l).1, Fits o) →
        ∃ ev' r, scanEventsMap sc ev = Res.ok (some (ev', r)) ∧
          ∀ l ∈ leaves, GoAt ev' (goPath l.path) (.str (utf8 (out l).2))) := by
  obtain ⟨leaves, out, h1, h2, h3⟩ := C51_redaction_reaches_caller_partial hok ev hk hs hu hret hresp
  refine ⟨leaves, out, h1, h2, fun hfit => ?_⟩
  obtain ⟨g, r, h4, _, _, h5⟩ := h3 hfit
  refine ⟨_, r, h4, fun l hl => ?_⟩
  obtain ⟨_, b, hb, ht⟩ := (h1.2 l).1 hl
  have hat := goAt_rew (g := g) hb
  have : g (goPath l.path) b = utf8 (out l).2 := by
    by_cases hr : ∃ o ∈ (out l).1, redacting sc o.rule = true
    · exact (h5 l hl b).1 hr
    · rw [(h5 l hl b).2 hr, unchanged (h2 l hl) hr, ht, lossy_of_utf8 (hstr _ _ hb)]
  rw [this] at hat
  exact hat

/-- C50 for a single string (`Scan`): the returned text is the prescribed one if a match of a redacting rule is
reported, and the given bytes otherwise. -/
theorem C50_scan_string {sc : Scanner} (hok : ScannerOk sc) (text : Bytes) (hs : text.length < 4294967296)
    (hret : ∀ rule ∈ sc.rules, ∀ ex, ∃ f, rule.run (lossy text) [] ex = Res.ok f)
    (hresp : ResponseFits sc (goEncodeString text)) :
    ∃ os new, LeafResult Enc.utf8 sc [] [⟨[], lossy text, false⟩] ⟨[], lossy text, false⟩ os new ∧
      ((utf8 new).length < 4294967296 → (∀ o ∈ os, Fits o) → ∃ r, scanString sc text = Res.ok (some r) ∧
        r.matches_ = os.map goMatch ∧ (r.mutated = true ↔ ∃ o ∈ os, redacting sc o.rule = true) ∧
        (r.mutated = true → r.event = utf8 new) ∧ (r.mutated = false → r.event = text ∧ new = lossy text)) := by
  have hu : KeysUtf8 (.str text) := by
    intro p m k w hp hw
    cases hp
  have hleaves : (GoVal.str text).toEv.leaves false = [⟨[], lossy text, false⟩] := rfl
  have htot : Returns sc ((GoVal.str text).toEv.leaves false) := by
    intro rule hr l hl ex
    rw [hleaves, List.mem_singleton] at hl
    subst hl
    exact hret rule hr ex
  obtain ⟨bytes, out, st, henc, hscan, hout, hst, hmut⟩ :=
    scanBinary_spec hok (v := .str text) trivial (by simpa [GoSized] using hs) hu htot
  rw [hleaves] at hscan hout hmut
  have hlr := leafOut_result jsonEvent_lawful.enc hok (hout _ List.mem_cons_self)
  refine ⟨_, _, hlr, fun hnew hfits => ?_⟩
  generalize hl : (⟨[], lossy text, false⟩ : Leaf) = l at *
  have hany : ((out l).1.any (fun o => sc.redacts o.rule) = true) ↔ ∃ o ∈ (out l).1, redacting sc o.rule = true := by
    rw [redacts_eq, List.any_eq_true]
  have hpath : l.path = [] := by rw [← hl]
  simp only [List.flatMap_cons, List.flatMap_nil, List.append_nil] at hscan
  have hmuts : ∀ x ∈ mutations st, MutationFits x := by
    rintro ⟨p, s⟩ hx
    obtain ⟨l', hl', rfl, _, rfl⟩ := (hmut p s).1 hx
    rw [List.mem_singleton.1 hl', hpath]
    exact ⟨hnew, fun y hy => by cases hy⟩
  have henc' : goEncodeString text = bytes := by simpa [GoVal.encode] using henc
  have hempty : mutations st ≠ [] ↔ ∃ o ∈ (out l).1, redacting sc o.rule = true := by
    constructor
    · intro h
      cases hm : mutations st with
      | nil => exact absurd hm h
      | cons x xs =>
        obtain ⟨p, s⟩ := x
        obtain ⟨l', hl', _, ha, _⟩ := (hmut p s).1 (by rw [hm]; exact List.mem_cons_self)
        rw [List.mem_singleton.1 hl'] at ha
        exact hany.1 ha
    · intro h hm
      have := (hmut l.path (out l).2).2 ⟨l, List.mem_cons_self, rfl, hany.2 h, rfl⟩
      rw [hm] at this
      cases this
  have hkept : (¬ ∃ o ∈ (out l).1, redacting sc o.rule = true) → (out l).2 = lossy text := by
    intro h
    have := unchanged hlr h
    rw [this, ← hl]
  unfold scanString
  rw [henc'] at hresp ⊢
  unfold lowLevelScan
  rw [hscan]
  dsimp only
  by_cases hms : (out l).1 = []
  · have hno : ¬ ∃ o ∈ (out l).1, redacting sc o.rule = true := by rw [hms]; simp
    rw [hms] at hno hkept ⊢
    exact ⟨_, rfl, rfl, by simp, (fun h => by cases h), fun _ => ⟨rfl, hkept (by simp)⟩⟩
  · obtain ⟨b, r, h1, h2, h3, h4, h5⟩ := C49_response_round_trip st _ hms hfits hmuts
    rw [h1]
    dsimp only
    rw [goBytes_small (hresp _ _ _ hscan h1)]
    simp only [Res.map]
    rw [h2]
    dsimp only
    cases hr : r.mutated with
    | true =>
      rw [if_pos rfl]
      refine ⟨r, rfl, h3, by rw [h4, hempty], fun _ => ?_, fun h => by rw [hr] at h; cases h⟩
      have hne := h4.1 hr
      obtain ⟨⟨p, s⟩, hx⟩ : ∃ x, (mutations st).getLast? = some x := ⟨_, List.getLast?_eq_some_getLast hne⟩
      obtain ⟨l', hl', _, _, hs'⟩ := (hmut p s).1 (List.mem_of_getLast? hx)
      rw [h5 _ hx, ← List.mem_singleton.1 hl', ← hs']
    | false =>
      rw [if_neg (by decide)]
      have hno : ¬ ∃ o ∈ (out l).1, redacting sc o.rule = true := by
        rw [← hempty, ← h4, hr]
        decide
      exact ⟨_, rfl, h3, ⟨(fun h => by cases h), fun h => absurd h hno⟩, (fun h => by cases h), fun _ => ⟨rfl, hkept hno⟩⟩

private theorem exScanner_ok : ScannerOk exScanner := by
  intro rule h
  rw [List.mem_singleton.1 h]
  exact regexRule_ok digitsRx_ok.1 digitsRx_ok.2 (by intro k hk; cases hk) (by intro c; omega) (by simp) _ false

private theorem exScanner_returns : ∀ rule ∈ exScanner.rules, ∀ (c : Str) (p : Path) ex, ∃ f, rule.run c p ex = Res.ok f := by
  intro rule h c p ex
  rw [List.mem_singleton.1 h]
  exact stringMatches_returns (r := ⟨digitsRx, none, none, none⟩) digitsRx_ok.1 digitsRx_ok.2
    (by intro k hk; cases hk) false ex (by intro _ x hx; cases hx) p (Nat.lt_succ_self _)

example : ScannerOk exScanner ∧ (∀ rule ∈ exScanner.rules, ∀ p b, GoAt (.map exGo) (goPath p) (.str b) →
    ∀ ex, ∃ f, rule.run (lossy b) p ex = Res.ok f) ∧
    (∀ b, (GoVal.map exGo).encode = some b → ResponseFits exScanner b) :=
  ⟨exScanner_ok, fun rule h p b _ ex => exScanner_returns rule h _ p ex, by
    intro b hb st ms r h1 h2
    have : (GoVal.map exGo).encode.all (fun b => match scanBinary exScanner b with
      | .ok (st, ms) => (encodeResponse st ms).all fun r => decide (r.length < 2147483648)
      | _ => true) = true := by decide +kernel
    rw [hb, Option.all_some, h1] at this
    dsimp only at this
    rw [h2] at this
    simpa using this⟩

example : (scanEventsMap exScanner exGo).map (Option.map (·.1)) = Res.ok (some (.map (fs
    [("é", .list (.cons (gs "x #") (.cons (.map (fs [("b", gs "#")])) .nil))), ("id", gs "a")]))) := by decide +kernel

example : scanString exScanner (utf8 "x 12".toList) =
    Res.ok (some ⟨true, utf8 "x #".toList, [⟨0, [], .placeholder, 2, 3, -1⟩]⟩) := by decide +kernel

private theorem lower_eq_iff {b name : Bytes} (hn : ∀ y ∈ name, ¬ (65 ≤ y ∧ y ≤ 90)) :
    asciiLowerBytes b = name ↔ SameButCase b name := by
  unfold asciiLowerBytes SameButCase
  constructor
  · rintro rfl
    refine ⟨(List.length_map ..).symm, fun i x y hx hy => ?_⟩
    rw [List.getElem?_map, hx] at hy
    simp only [Option.map_some, Option.some.injEq] at hy
    subst hy
    split
    · omega
    · exact .inl rfl
  · rintro ⟨hl, h⟩
    refine List.ext_getElem? fun i => ?_
    rw [List.getElem?_map]
    cases hx : b[i]? with
    | none =>
      rw [List.getElem?_eq_none_iff] at hx
      exact (List.getElem?_eq_none_iff.2 (hl ▸ hx)).symm
    | some x =>
      have hi : i < name.length := hl ▸ (List.getElem?_eq_some_iff.1 hx).1
      have hy := List.getElem?_eq_getElem hi
      have := h i x _ hx hy
      have hm := hn _ (List.getElem_mem hi)
      rw [hy]
      simp only [Option.map_some, Option.some.injEq]
      split <;> omega

/-- C49: a match has a replacement type other than none iff the response has the name of that type, whatever the case of its
letters. -/
theorem C49_type_names (b : Bytes) (t : ReplacementType) (ht : t ≠ .none) :
    parseReplacementType b = t ↔ SameButCase b (utf8 t.text) := by
  have hn : ∀ t : ReplacementType, ∀ y ∈ utf8 t.text, ¬ (65 ≤ y ∧ y ≤ 90) := by
    intro t; cases t <;> decide +kernel
  rw [← lower_eq_iff (hn t)]
  constructor
  · intro h
    unfold parseReplacementType at h
    dsimp only at h
    split at h
    · next e => rw [e, ← h]; rfl
    split at h
    · next e => rw [e, ← h]; rfl
    split at h
    · next e => rw [e, ← h]; rfl
    split at h
    · next e => rw [e, ← h]; rfl
    exact absurd h.symm ht
  · intro h
    unfold parseReplacementType
    rw [h]
    cases t <;> decide +kernel

/-- Names of replacements are read in any case; unknown ones are no replacement. -/
example : parseReplacementType (utf8 "PARTIAL_BEGINNING".toList) = .partialStart ∧
    parseReplacementType (utf8 "PlaceHolder".toList) = .placeholder ∧ parseReplacementType (utf8 "HASH".toList) = .hash ∧
    parseReplacementType (utf8 "Partial_End".toList) = .partialEnd ∧ parseReplacementType (utf8 "hash2".toList) = .none := by
  decide +kernel

end Sds.Props
