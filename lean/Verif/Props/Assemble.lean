import Verif.Spec.Assemble
import Verif.Props.Builder
import Verif.Props.Prefer
import Verif.Props.Validators
import Verif.Props.Search
import Verif.Props.Near
import Verif.Lemmas.Partial

/-! # C80: a scanner does what the configurations of its rules ask for -/

namespace Sds.Props
open Sds Sds.Spec Sds.Re

variable {T : Tables} {O : Outside} {f : Features} {rules : List RustRule} {sc : Scanner}

/-! ## Validators -/

private theorem iban_iff (O : Outside) (t : Str) : O.ibanValid t = true ↔ ValidText O .ibanChecker t := by
  unfold Outside.ibanValid ValidText
  constructor
  · intro h
    refine ⟨t.filter O.alnum, List.filter_sublist, fun c hc => (List.mem_filter.1 hc).2, fun c hc => ?_, h⟩
    rw [List.count_filter hc]
  · rintro ⟨u, hs, hu, hc, h⟩
    have h1 : u.Sublist (t.filter O.alnum) := by
      have := hs.filter O.alnum
      rwa [List.filter_eq_self.2 hu] at this
    have h2 : u.Perm (t.filter O.alnum) := by
      rw [List.perm_iff_count]
      intro c
      by_cases ha : O.alnum c = true
      · rw [hc c ha, List.count_filter ha]
      · rw [List.count_eq_zero.2 (fun h => ha (hu c h)), List.count_eq_zero.2 (fun h => ha (List.mem_filter.1 h).2)]
    rw [← h1.eq_of_length h2.length_eq]
    exact h

/-- C80, validators: the validator of a rule accepts a text exactly if the text is valid in the sense of C31-C36.  Missing:
NHS numbers that have not ten digits (C32), GitHub tokens with a small checksum (C35); for the Luhn sum, texts of 2^28
characters and more. -/
theorem C80_validators_partial (O : Outside) (v : RustValidator) (t : Str) (hl : v = .luhnChecksum → t.length < 2 ^ 28)
    (hn : v = .nhsCheckDigit → ∃ ds, Digits t ds ∧ ds.length = 10)
    (hg : v = .githubTokenChecksum → ∀ u, 62 ^ 5 ≤ O.crc u) : O.valid v t = true ↔ ValidText O v t := by
  cases v with
  | luhnChecksum =>
    obtain ⟨ds, hd⟩ : ∃ ds, Digits t ds := ⟨_, digits_iff.2 rfl⟩
    rw [Outside.valid, ValidText, C31_luhn_partial (hl rfl) hd]
    constructor
    · exact fun h => ⟨ds, hd, h⟩
    · rintro ⟨ds', hd', h⟩
      have : ds' = ds := (digits_iff.1 hd').trans (digits_iff.1 hd).symm
      exact this ▸ h
  | chineseIdChecksum =>
    obtain ⟨⟨b, hb⟩, h⟩ := C34_chinese_iff t
    rw [hb] at h
    rw [Outside.valid, ValidText, hb, ← h]
    simp
  | githubTokenChecksum =>
    obtain ⟨⟨b, hb⟩, h⟩ := C35_github_partial O.crc t
    rw [hb] at h
    rw [Outside.valid, ValidText, hb]
    simp only [Res.ok.injEq] at h
    rw [h]
    constructor
    · rintro ⟨p, q, r, h1, h2, h3, h4, h5, _⟩; exact ⟨p, q, r, h1, h2, h3, h4, h5⟩
    · rintro ⟨p, q, r, h1, h2, h3, h4, h5⟩; exact ⟨p, q, r, h1, h2, h3, h4, h5, hg rfl q⟩
  | nhsCheckDigit =>
    obtain ⟨ds, hd, h10⟩ := hn rfl
    rw [Outside.valid, ValidText, (C32_nhs_partial hd).1 h10]
    constructor
    · exact fun h => ⟨ds, hd, h⟩
    · rintro ⟨ds', hd', h⟩
      have : ds' = ds := (digits_iff.1 hd').trans (digits_iff.1 hd).symm
      exact this ▸ h
  | ibanChecker => rw [Outside.valid, iban_iff]
  | nirChecksum =>
    obtain ⟨ds, hd⟩ : ∃ ds, Digits t ds := ⟨_, digits_iff.2 rfl⟩
    rw [Outside.valid, ValidText, C33_nir_iff hd]
    constructor
    · rintro ⟨a, k, h⟩; exact ⟨ds, a, k, hd, h⟩
    · rintro ⟨ds', a, k, hd', h⟩
      have : ds' = ds := (digits_iff.1 hd').trans (digits_iff.1 hd).symm
      exact ⟨a, k, this ▸ h⟩
  | jwtExpirationChecker =>
    rw [Outside.valid, ValidText, C36_jwt_iff]
    have key : ∀ pj : Json, ((∀ v, ¬ FieldIs pj "exp".toList v) ∨ ∃ exp, FieldIs pj "exp".toList (.int exp) ∧ O.now < exp) ↔
        ∀ v, FieldIs pj "exp".toList v → ∃ n : Int, v = .int n ∧ O.now < n := by
      intro pj
      simp only [← jsonGet_iff]
      cases pj.get "exp".toList with
      | none => simp
      | some w => simp
    simp only [key]

/-! ## Keywords -/

private theorem compileAll_map {la : Nat} {removed : Char → Bool} : ∀ {kws ts : List Str}, compileAll la removed kws = .ok ts →
    ts = kws.map (fun kw => (trim kw).filter fun c => !removed c) ∧ ∀ t ∈ ts, t ≠ []
  | [], ts, h => by cases h; simp
  | kw :: kws, ts, h => by
    unfold compileAll at h
    split at h
    · cases h
    · next t ht =>
      split at h
      · cases h
      · next ts' hts =>
        cases h
        obtain ⟨h1, h2⟩ := compileAll_map hts
        unfold compileKeyword at ht
        split at ht
        · cases ht
        · simp only at ht
          split at ht
          · cases ht
          · next hne =>
            cases ht
            refine ⟨by rw [List.map_cons, ← h1], ?_⟩
            intro t ht
            rcases List.mem_cons.1 ht with rfl | ht
            · exact hne
            · exact h2 t ht

private theorem compileKeywords_map {la : Nat} {removed : Char → Bool} {kws : List Str} {o : Option (List Str)}
    (h : compileKeywords la removed kws = .ok o) :
    (kws = [] ∧ o = none) ∨ (kws ≠ [] ∧ o = some (kws.map fun kw => (trim kw).filter fun c => !removed c) ∧
      ∀ t ∈ kws.map (fun kw => (trim kw).filter fun c => !removed c), t ≠ []) := by
  unfold compileKeywords at h
  split at h
  · next hk => cases h; exact .inl ⟨hk, rfl⟩
  · next hk =>
    split at h
    · cases h
    · next ts hts =>
      cases h
      obtain ⟨h1, h2⟩ := compileAll_map hts
      exact .inr ⟨hk, by rw [h1], h1 ▸ h2⟩

private theorem compileConfig_parts {k : KwConfig} {inc exc : Option (List Str)} (h : compileConfig k = .ok (inc, exc)) :
    0 < k.lookAhead ∧
    ((k.included = [] ∧ inc = none) ∨ (k.included ≠ [] ∧ inc = some (k.included.map trim) ∧
      ∀ t ∈ k.included.map trim, t ≠ [])) ∧
    ((k.excluded = [] ∧ exc = none) ∨ (k.excluded ≠ [] ∧
      exc = some (k.excluded.map fun kw => (trim kw).filter fun c => c ≠ '-' ∧ c ≠ '_'))) := by
  unfold compileConfig at h
  split at h
  · cases h
  · next hla =>
    split at h
    · cases h
    · split at h
      · cases h
      · next i hi =>
        split at h
        · cases h
        · next x hx =>
          cases h
          refine ⟨by omega, ?_, ?_⟩
          · rcases compileKeywords_map hi with h | ⟨h1, h2, h3⟩
            · exact .inl h
            · have : ∀ s : Str, s.filter (fun c => !(fun _ => false) c) = s := by intro s; simp
              simp only [this] at h2 h3
              exact .inr ⟨h1, h2, h3⟩
          · rcases compileKeywords_map hx with h | ⟨h1, h2, _⟩
            · exact .inl h
            · refine .inr ⟨h1, ?_⟩
              rw [h2]
              congr 2
              funext kw
              congr 1
              funext c
              simp only [isStripped]
              by_cases h1 : c = '-' <;> by_cases h2 : c = '_' <;> simp [h1, h2]

/-! ## The built scanner -/

private theorem scanner_ok (h : O.scanner f rules = .ok sc) : ∃ b, buildScanner O.regexOf (rules.map RustRule.cfg) = .ok b ∧
    sc = ⟨List.zipWith (O.rule f.keywordPaths) b.rules rules, f.wildcards, f.multipass, b.returnMatches, O.fp⟩ := by
  unfold Outside.scanner at h
  split at h
  · cases h
  · next b hb => cases h; exact ⟨b, hb, rfl⟩

private theorem regexOf_ok {p : Str} {rx : Rx} (h : O.regexOf p = .ok rx) : validatePattern O.build matchesNothing p = .ok (.ok rx) := by
  unfold Outside.regexOf at h
  show validatePattern O.build matchesEmptyText p = _
  split at h
  · next r hr => rw [hr, h]
  · cases h

/-- The rule built for the configuration `r`: a regex rule with these parts. -/
private structure RuleParts (O : Outside) (kp : Bool) (r : RustRule) (rule : CRule) (x : RegexRule) : Prop where
  rule : rule = x.toCRule ⟨r.action, r.validation.isSome⟩ r.scope kp (fun c => blen c + 1)
  regex : validatePattern O.build matchesNothing r.pattern = .ok (.ok x.rx)
  validator : x.validator = r.validator.map O.valid
  noneIncluded : ¬ Requires r → x.included = none
  included : ∀ k, r.keywords = some k → k.included ≠ [] → 0 < k.lookAhead ∧ (∀ t ∈ k.included.map trim, t ≠ []) ∧
    x.included = some ⟨k.lookAhead, O.kwSearch (k.included.map trim), keywordInPath O.eqc (k.included.map trim)⟩
  excluded : ∀ e, x.excluded = some e ↔ ∃ k, r.keywords = some k ∧ k.excluded ≠ [] ∧
    e = ⟨O.eqc, k.lookAhead, k.excluded.map fun kw => (trim kw).filter fun c => c ≠ '-' ∧ c ≠ '_'⟩
  action : ¬ BadAction r.action

private theorem built_parts (h : O.scanner f rules = .ok sc) :
    sc.rules.length = rules.length ∧ ∀ (i : Nat) r, rules[i]? = some r →
      ∃ rule x, sc.rules[i]? = some rule ∧ RuleParts O f.keywordPaths r rule x := by
  obtain ⟨b, hb, rfl⟩ := scanner_ok h
  obtain ⟨hlen, hpos⟩ := C46_positions hb
  have hvalid := (C46_built_iff O.regexOf (rules.map RustRule.cfg)).1 ⟨b, hb⟩
  rw [List.length_map] at hlen
  refine ⟨by simp [hlen], fun i r hr => ?_⟩
  have hi : i < rules.length := (List.getElem?_eq_some_iff.1 hr).1
  obtain ⟨br, hbr⟩ : ∃ br, b.rules[i]? = some br := ⟨_, List.getElem?_eq_getElem (by omega)⟩
  obtain ⟨r', hr', _, h1, h2, h3, h4, h5⟩ := hpos i br hbr
  rw [List.getElem?_map, hr] at hr'
  cases hr'
  refine ⟨O.rule f.keywordPaths br r, ⟨br.regex, r.validator.map O.valid,
      br.included.map fun kws => ⟨r.lookAhead, O.kwSearch kws, keywordInPath O.eqc kws⟩,
      br.excluded.map fun kws => ⟨O.eqc, r.lookAhead, kws⟩⟩, ?_, ?_⟩
  · simp [List.getElem?_zipWith, hbr, hr]
  · have hkw : ∀ k, r.keywords = some k → r.lookAhead = k.lookAhead := by
      intro k hk; unfold RustRule.lookAhead; rw [hk]
    refine ⟨?_, regexOf_ok h1, rfl, ?_, ?_, ?_, ?_⟩
    · unfold Outside.rule
      rw [h2, h3]
      rfl
    · intro hreq
      cases hk : r.keywords with
      | none => simp [(h4 hk).1]
      | some k =>
        rcases (compileConfig_parts (h5 k hk)).2.1 with ⟨_, hn⟩ | ⟨hne, _⟩
        · simp [hn]
        · exact absurd ⟨k, hk, hne⟩ hreq
    · intro k hk hne
      obtain ⟨hla, hinc, _⟩ := compileConfig_parts (h5 k hk)
      rcases hinc with ⟨he, _⟩ | ⟨_, hs, ht⟩
      · exact absurd he hne
      · exact ⟨hla, ht, by simp [hs, hkw k hk]⟩
    · intro e
      cases hk : r.keywords with
      | none => simp [(h4 hk).2]
      | some k =>
        rcases (compileConfig_parts (h5 k hk)).2.2 with ⟨he, hn⟩ | ⟨hne, hs⟩
        · simp [hn, he]
        · simp only [hs, Option.map_some, Option.some.injEq, hkw k hk]
          constructor
          · rintro rfl; exact ⟨k, rfl, hne, rfl⟩
          · rintro ⟨k', rfl, _, rfl⟩; rfl
    · have := hvalid r.cfg (List.mem_map_of_mem (List.mem_of_getElem? hr))
      exact this.2.1

/-- C80, building: a scanner is built exactly if every rule has a pattern that is accepted (see C70), an action that keeps
something of partial redactions, and keywords within the limits of C28. -/
theorem C80_built_iff (O : Outside) (f : Features) (rules : List RustRule) :
    (∃ sc, O.scanner f rules = .ok sc) ↔ ∀ r ∈ rules, (∃ rx, validatePattern O.build matchesNothing r.pattern = .ok (.ok rx)) ∧
      ¬ BadAction r.action ∧ ∀ k, r.keywords = some k → WellFormed k := by
  have h1 : (∃ sc, O.scanner f rules = .ok sc) ↔ ∃ b, buildScanner O.regexOf (rules.map RustRule.cfg) = .ok b := by
    constructor
    · rintro ⟨sc, h⟩
      obtain ⟨b, hb, _⟩ := scanner_ok h
      exact ⟨b, hb⟩
    · rintro ⟨b, hb⟩
      unfold Outside.scanner
      rw [hb]
      exact ⟨_, rfl⟩
  rw [h1, C46_built_iff]
  have h2 : ∀ p, (∃ rx, O.regexOf p = .ok rx) ↔ ∃ rx, validatePattern O.build matchesNothing p = .ok (.ok rx) := by
    intro p
    constructor
    · rintro ⟨rx, h⟩; exact ⟨rx, regexOf_ok h⟩
    · rintro ⟨rx, h⟩
      refine ⟨rx, ?_⟩
      have h : validatePattern O.build matchesEmptyText p = .ok (.ok rx) := h
      unfold Outside.regexOf
      rw [h]
  constructor
  · intro h r hr
    obtain ⟨h3, h4⟩ := h r.cfg (List.mem_map_of_mem hr)
    exact ⟨(h2 _).1 h3, h4⟩
  · intro h r hr
    obtain ⟨r', hr', rfl⟩ := List.mem_map.1 hr
    obtain ⟨h3, h4⟩ := h r' hr'
    exact ⟨(h2 _).2 h3, h4⟩

/-- C80, configuration: rule by rule, the built scanner has the scope and the action of the configuration, and it asks for
validation exactly if the configuration does; the features are those given, and matches are kept for validation exactly if
some rule has a validation for which a validator exists. -/
theorem C80_rules_as_configured (h : O.scanner f rules = .ok sc) :
    sc.rules.length = rules.length ∧
    (∀ (i : Nat) r, rules[i]? = some r → ∃ rule, sc.rules[i]? = some rule ∧ rule.scope = r.scope ∧ rule.info.action = r.action ∧
      (rule.info.hasValidation = true ↔ ∃ t, r.validation = some t) ∧ ¬ BadAction r.action) ∧
    sc.wildcards = f.wildcards ∧ sc.multipassEnabled = f.multipass ∧ sc.fp = O.fp ∧
    (sc.returnMatches = true ↔ ∃ r ∈ rules, ∃ t, r.validation = some t ∧ t ≠ .awsId ∧ t ≠ .awsSession) := by
  obtain ⟨hlen, hp⟩ := built_parts h
  obtain ⟨b, hb, hsc⟩ := scanner_ok h
  refine ⟨hlen, fun i r hr => ?_, by simp [hsc], by simp [hsc], by simp [hsc], ?_⟩
  · obtain ⟨rule, x, h1, h2⟩ := hp i r hr
    refine ⟨rule, h1, ?_⟩
    rw [h2.rule]
    exact ⟨rfl, rfl, by simp [RegexRule.toCRule, Option.isSome_iff_exists], h2.action⟩
  · obtain ⟨vs, hvs⟩ := buildScanner_eq O.regexOf (rules.map RustRule.cfg)
    rw [hb] at hvs
    split at hvs
    · cases hvs
    · cases hvs
      rw [hsc]
      simp only [List.any_eq_true, List.mem_map, Option.any_eq_true]
      constructor
      · rintro ⟨o, ⟨_, ⟨r, hr, rfl⟩, rfl⟩, t, ht, hc⟩
        exact ⟨r, hr, t, ht, by cases t <;> simp_all [VType.canCreate], by cases t <;> simp_all [VType.canCreate]⟩
      · rintro ⟨r, hr, t, ht, h1, h2⟩
        refine ⟨r.validation, ⟨_, ⟨r, hr, rfl⟩, rfl⟩, t, ht, ?_⟩
        cases t <;> simp_all [VType.canCreate]

private theorem pattern_rx (hO : Faithful T O) {r : RustRule} {a : Ast} (ha : Pattern T r a) {rx : Rx}
    (h : validatePattern O.build matchesNothing r.pattern = .ok (.ok rx)) :
    rx = firstTry T (meaning T a noFlags).1 ∧ LawfulRx rx ∧ NonEmptyRx rx := by
  obtain ⟨hrx, _⟩ := C76_regex_of_pattern_partial (firstTry_chooses T) hO.engine ha.reads ha.convertible h
  exact ⟨hrx, hrx ▸ chooses_lawful (firstTry_chooses T) _, hrx ▸ chooses_nonEmpty (firstTry_chooses T) ha.neverEmpty⟩

/-- C80, search: a rule without required keywords finds, from left to right, exactly the matches that its configuration asks
for.  Missing: as in C76 (patterns that are not `Convertible`, or match empty texts). -/
theorem C80_finds_partial (hO : Faithful T O) (h : O.scanner f rules = .ok sc) {i : Nat} {r : RustRule} {a : Ast}
    (hr : rules[i]? = some r) (ha : Pattern T r a) (hq : ¬ Requires r) :
    ∃ rule, sc.rules[i]? = some rule ∧ ∀ c path found, rule.run c path false = Res.ok found →
      ∀ l, found.matches_ = l ↔ Leftmost (Asked T O r a c) 0 l := by
  obtain ⟨rule, x, h1, h2⟩ := (built_parts h).2 i r hr
  refine ⟨rule, h1, fun c path found hf l => ?_⟩
  rw [h2.rule] at hf
  rw [C79_found_partial hO.engine ha.reads ha.convertible ha.neverEmpty h2.regex (h2.noneIncluded hq) hf l]
  have heq : (fun s e => Preferred T (meaning T a noFlags).1 c s e ∧
      (∀ v, x.validator = some v → ∃ m, TextAt c s e m ∧ v m = true) ∧
      ∀ k, x.excluded = some k → containsExcluded k.eqc k.keywords k.lookAhead c s = Res.ok false) = Asked T O r a c := by
    funext s e
    rw [Asked, h2.validator]
    have hv : (∀ v, r.validator.map O.valid = some v → ∃ m, TextAt c s e m ∧ v m = true) ↔
        ∀ v, r.validator = some v → ∃ m, TextAt c s e m ∧ O.valid v m = true := by
      simp only [Option.map_eq_some_iff]
      exact ⟨fun h v hv => h _ ⟨v, hv, rfl⟩, by rintro h _ ⟨v, hv, rfl⟩; exact h v hv⟩
    have hx : (∀ k, x.excluded = some k → containsExcluded k.eqc k.keywords k.lookAhead c s = Res.ok false) ↔
        ∀ k, r.keywords = some k → k.excluded ≠ [] → containsExcluded O.eqc
          (k.excluded.map fun kw => (trim kw).filter fun c => c ≠ '-' ∧ c ≠ '_') k.lookAhead c s = Res.ok false := by
      constructor
      · intro h k hk hne
        exact h _ ((h2.excluded _).2 ⟨k, hk, hne, rfl⟩)
      · intro h e he
        obtain ⟨k, hk, hne, rfl⟩ := (h2.excluded _).1 he
        exact h k hk hne
    rw [hv, hx]
  rw [heq]

/-- C80, required keywords: with required keywords, the rule returns, and every match that it finds is a match of the pattern
accepted by the validator, with an occurrence of one of the (trimmed) keywords that starts at most the look-ahead count of
characters before it - or keywords are looked for in paths, and the path has one. -/
theorem C80_near_keyword_partial (hO : Faithful T O) (h : O.scanner f rules = .ok sc) {i : Nat} {r : RustRule} {a : Ast}
    (hr : rules[i]? = some r) (ha : Pattern T r a) {k : KwConfig} (hk : r.keywords = some k) (hq : k.included ≠ []) :
    ∃ rule, sc.rules[i]? = some rule ∧ ∀ c path, ∃ found, rule.run c path false = Res.ok found ∧ ∀ m ∈ found.matches_,
      Preferred T (meaning T a noFlags).1 c m.1 m.2 ∧
      (∀ v, r.validator = some v → ∃ t, TextAt c m.1 m.2 t ∧ O.valid v t = true) ∧
      ((∃ kw ∈ k.included, ∃ ks ke, kwMatchAt O.eqc (trim kw) c ks = some ke ∧ Within c ks m.1 k.lookAhead) ∨
        (f.keywordPaths = true ∧ keywordInPath O.eqc (k.included.map trim) (sanitizePath path) = true)) := by
  obtain ⟨rule, x, h1, h2⟩ := (built_parts h).2 i r hr
  obtain ⟨hla, hne, hinc⟩ := h2.included k hk hq
  obtain ⟨hrx, hl, hrn⟩ := pattern_rx hO ha h2.regex
  refine ⟨rule, h1, fun c path => ?_⟩
  obtain ⟨found, hf, hm⟩ := C23_near_keyword hl hrn hinc hla (hO.keywords _ _ _ (by simpa using hq) hne) f.keywordPaths c path (blen c + 1) (by omega)
  refine ⟨found, by rw [h2.rule]; exact hf, fun m hmem => ?_⟩
  obtain ⟨⟨ha1, ha2⟩, ha3⟩ := hm m hmem
  refine ⟨?_, fun v hv => ?_, ?_⟩
  · rw [hrx] at ha1; exact firstTry_iff.1 ha1
  · exact ha2 _ (by rw [h2.validator, hv]; rfl)
  · rcases ha3 with ⟨ks, ke, ⟨kw, hkw, ho⟩, hw⟩ | h
    · obtain ⟨kw', hkw', rfl⟩ := List.mem_map.1 hkw
      exact .inl ⟨kw', hkw', ks, ke, ho, hw⟩
    · exact .inr h

/-- C80, which matches are found with required keywords: if no keyword overlaps a candidate, the rule finds those candidates,
taken from left to right, that `Near` selects (C85), followed by all of them if keywords are looked for in paths and the path
has one. -/
theorem C80_required_keywords_partial (hO : Faithful T O) (h : O.scanner f rules = .ok sc) {i : Nat} {r : RustRule} {a : Ast}
    (hr : rules[i]? = some r) (ha : Pattern T r a) {k : KwConfig} (hk : r.keywords = some k) (hq : k.included ≠ []) :
    ∃ rule, sc.rules[i]? = some rule ∧ ∀ c path,
      (∀ s e p q, KeywordAt O k.included c s e → AskedNear T O r a c p q → e ≤ p ∨ q ≤ s) →
      ∃ l out, Leftmost (AskedNear T O r a c) 0 l ∧
        Near (KeywordAt O k.included c) (fun s p => Within c s p k.lookAhead) 0 l out ∧
        rule.run c path false = Res.ok
          ⟨out ++ if f.keywordPaths = true ∧ keywordInPath O.eqc (k.included.map trim) (sanitizePath path) = true then l else [], []⟩ := by
  obtain ⟨rule, x, h1, h2⟩ := (built_parts h).2 i r hr
  obtain ⟨hla, hne, hinc⟩ := h2.included k hk hq
  obtain ⟨hrx, hl, hrn⟩ := pattern_rx hO ha h2.regex
  refine ⟨rule, h1, fun c path hap => ?_⟩
  have hacc : Accepted x c = AskedNear T O r a c := by
    funext s e
    rw [Accepted, AskedNear, h2.validator]
    have hv : (∀ v, r.validator.map O.valid = some v → ∃ m, TextAt c s e m ∧ v m = true) ↔
        ∀ v, r.validator = some v → ∃ m, TextAt c s e m ∧ O.valid v m = true := by
      simp only [Option.map_eq_some_iff]
      exact ⟨fun h v hv => h _ ⟨v, hv, rfl⟩, by rintro h _ ⟨v, hv, rfl⟩; exact h v hv⟩
    rw [hv, hrx, firstTry_iff]
  have hocc : (fun s e => ∃ kw ∈ k.included.map trim, kwMatchAt O.eqc kw c s = some e) = KeywordAt O k.included c := by
    funext s e
    rw [KeywordAt]
    simp only [List.mem_map, eq_iff_iff]
    exact ⟨by rintro ⟨_, ⟨kw, hkw, rfl⟩, ho⟩; exact ⟨kw, hkw, ho⟩, by rintro ⟨kw, hkw, ho⟩; exact ⟨_, ⟨kw, hkw, rfl⟩, ho⟩⟩
  have hap' : Apart x (fun c s e => ∃ kw ∈ k.included.map trim, kwMatchAt O.eqc kw c s = some e) c := by
    intro s e p q ho hp
    rw [hacc] at hp
    refine hap s e p q ?_ hp
    rw [← hocc]
    exact ho
  obtain ⟨l, out, _, h3, h4, h5⟩ := C85_required_keywords hl hrn hinc hla (hO.keywords _ _ _ (by simpa using hq) hne) f.keywordPaths hap' path
    (fuel := blen c + 1) (by omega)
  rw [hacc] at h3
  dsimp only at h4 h5
  rw [hocc] at h4
  exact ⟨l, out, h3, h4, by rw [h2.rule]; exact h5⟩

/-- C80, returning: the rule returns on every string for which the check of excluded keywords does not panic; with required
keywords, that check is not made. -/
theorem C80_returns_partial (hO : Faithful T O) (h : O.scanner f rules = .ok sc) {i : Nat} {r : RustRule} {a : Ast}
    (hr : rules[i]? = some r) (ha : Pattern T r a) : ∃ rule, sc.rules[i]? = some rule ∧ ∀ c,
      (Requires r ∨ ExcludedSafe r c) → ∀ path ex, ∃ found, rule.run c path ex = Res.ok found := by
  obtain ⟨rule, x, h1, h2⟩ := (built_parts h).2 i r hr
  obtain ⟨_, hl, hne⟩ := pattern_rx hO ha h2.regex
  refine ⟨rule, h1, fun c hc path ex => ?_⟩
  rw [h2.rule]
  refine stringMatches_returns hl hne ?_ f.keywordPaths ex ?_ path (Nat.lt_succ_self _)
  · intro k hk
    by_cases hq : Requires r
    · obtain ⟨kc, hkc, hne'⟩ := hq
      obtain ⟨hla, hne'', hinc⟩ := h2.included kc hkc hne'
      rw [hinc] at hk
      cases hk
      exact ⟨hla, _, hO.keywords _ _ _ (by simpa using hne') hne''⟩
    · rw [h2.noneIncluded hq] at hk; cases hk
  · intro hi
    have hq : ¬ Requires r := by
      rintro ⟨kc, hkc, hne'⟩
      rw [(h2.included kc hkc hne').2.2] at hi
      cases hi
    have hs := hc.resolve_left hq
    intro e he p hp
    obtain ⟨k, hk, hke, rfl⟩ := (h2.excluded _).1 he
    obtain ⟨pre, post, rfl, rfl⟩ := hp
    have hC := C27_panics_only_then_partial O.eqc (k.excluded.map fun kw => (trim kw).filter fun c => c ≠ '-' ∧ c ≠ '_')
      k.lookAhead pre post
    dsimp only
    generalize containsExcluded O.eqc _ _ _ _ = res at hC ⊢
    cases res with
    | ok b => exact ⟨b, rfl⟩
    | hang => exact absurd rfl hC.2
    | panic =>
      obtain ⟨hlt, x, hx, hsz⟩ := hC.1.1 rfl
      have := hs k hk hke pre post rfl hlt x hx
      omega

/-- C80, scanning: a scanner built from rules with such patterns meets what is assumed of scanners in C01-C18. -/
theorem C80_scanner_ok_partial (hO : Faithful T O) (h : O.scanner f rules = .ok sc)
    (ha : ∀ r ∈ rules, ∃ a, Pattern T r a) : ScannerOk sc := by
  obtain ⟨hlen, hp⟩ := built_parts h
  intro rule hrule
  obtain ⟨i, hi, hi'⟩ := List.mem_iff_getElem.1 hrule
  obtain ⟨r, hr⟩ : ∃ r, rules[i]? = some r := ⟨_, List.getElem?_eq_getElem (by omega)⟩
  obtain ⟨rule', x, h1, h2⟩ := hp i r hr
  rw [List.getElem?_eq_getElem hi, hi'] at h1
  cases h1
  obtain ⟨a, ha⟩ := ha r (List.mem_of_getElem? hr)
  obtain ⟨_, hl, hne⟩ := pattern_rx hO ha h2.regex
  rw [h2.rule]
  refine regexRule_ok hl hne ?_ (fun c => by omega) ?_ _ _
  · intro k hk
    by_cases hq : Requires r
    · obtain ⟨kc, hkc, hne'⟩ := hq
      obtain ⟨hla, hne'', hinc⟩ := h2.included kc hkc hne'
      rw [hinc] at hk
      cases hk
      exact ⟨hla, _, hO.keywords _ _ _ (by simpa using hne') hne''⟩
    · rw [h2.noneIncluded hq] at hk; cases hk
  · have := h2.action
    unfold BadAction at this
    exact ⟨fun h => this (.inl h), fun h => this (.inr h)⟩

/-- Without the feature, no rule looks at the path. -/
theorem C80_paths_ignored (h : O.scanner f rules = .ok sc) (hf : f.keywordPaths = false) :
    ∀ rule ∈ sc.rules, ∀ c p p' ex, rule.run c p ex = rule.run c p' ex := by
  intro rule hr c p p' ex
  obtain ⟨hlen, hp⟩ := built_parts h
  obtain ⟨i, hi, he⟩ := List.mem_iff_getElem.1 hr
  have hi' : i < rules.length := by omega
  obtain ⟨rule', x, h1, h2⟩ := hp i _ (List.getElem?_eq_getElem hi')
  rw [List.getElem?_eq_getElem hi, he] at h1
  cases h1
  rw [h2.rule, hf]
  simp only [RegexRule.toCRule, stringMatches, withIncluded, pathPart]
  rfl

/-! ## An example -/

/-- Everything outside, for the example and for C81. -/
noncomputable def plainOutside (T : Tables) : Outside where
  build := buildOf T (firstTry T)
  eqc a b := a == b
  kwSearch := leftmostKw fun a b => a == b
  crc s := s.length
  decode _ := none
  now := 0
  alnum c := c.isAlphanum
  iban _ := true
  fp := ⟨fun s => s.length, fun s => s.length⟩

theorem plainOutside_faithful (T : Tables) : Faithful T (plainOutside T) where
  engine := buildOf_builds T (firstTry T)
  keywords kws n inPath _ h := leftmostKw_lawful _ kws h n inPath

private def exValidated : RustRule := ⟨"a[b-d]+".toList, .redact "#".toList, some ⟨5, [], ["no-t ".toList]⟩, some .ibanChecker,
  .excl [], [], some .awsId⟩
private def exNear : RustRule := ⟨"a[b-d]+".toList, .partialFirst 2, some ⟨5, [" id".toList], []⟩, none,
  .excl [], [], some (.awsSecret ⟨[], none, 0⟩)⟩

/-- Two rules, one with validator and excluded keyword, one with required keyword: the hypotheses are met. -/
example (T : Tables) : Faithful T (plainOutside T) ∧ (∃ sc, (plainOutside T).scanner {} [exValidated, exNear] = .ok sc) ∧
    (∀ r ∈ [exValidated, exNear], Pattern T r rangePattern) ∧ ¬ Requires exValidated ∧ Requires exNear ∧
    Asked T (plainOutside T) exValidated rangePattern "x acb".toList 2 5 := by
  refine ⟨plainOutside_faithful T, ?_, ?_, ?_, ?_, ?_⟩
  · rw [C80_built_iff]
    intro r hr
    have hp : r.pattern = "a[b-d]+".toList := by
      rcases List.mem_cons.1 hr with rfl | hr
      · rfl
      · obtain rfl := List.mem_singleton.1 hr; rfl
    refine ⟨⟨_, hp ▸ rangePattern_accepted (firstTry_chooses T)⟩, ?_, ?_⟩
    · rcases List.mem_cons.1 hr with rfl | hr
      · simp [BadAction, exValidated]
      · obtain rfl := List.mem_singleton.1 hr; simp [BadAction, exNear]
    · intro k hk
      rw [← C28_accepted_iff]
      rcases List.mem_cons.1 hr with rfl | hr
      · simp only [exValidated, Option.some.injEq] at hk; subst hk; exact ⟨_, rfl⟩
      · obtain rfl := List.mem_singleton.1 hr
        simp only [exNear, Option.some.injEq] at hk; subst hk; exact ⟨_, rfl⟩
  · intro r hr
    have hp : r.pattern = "a[b-d]+".toList := by
      rcases List.mem_cons.1 hr with rfl | hr
      · rfl
      · obtain rfl := List.mem_singleton.1 hr; rfl
    exact ⟨hp ▸ rangePattern_denotes, rangePattern_convertible, rangePattern_neverEmpty T⟩
  · rintro ⟨k, hk, h⟩
    simp only [exValidated, Option.some.injEq] at hk
    subst hk
    exact h rfl
  · exact ⟨_, rfl, by simp⟩
  · refine ⟨?_, ?_, ?_⟩
    · exact rangePattern_preferred T
    · intro v hv
      cases hv
      exact ⟨"acb".toList, ⟨"x ".toList, [], rfl, rfl, rfl⟩, rfl⟩
    · intro k hk _
      cases hk
      show containsExcluded (fun a b => a == b) _ _ _ _ = _
      decide

end Sds.Props
