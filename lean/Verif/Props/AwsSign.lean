import Verif.Spec.AwsSign

/-! # C99: the signed request is the one that is sent -/

namespace Sds.Props

open Sds Spec

/-! ## The date -/

private theorem ofDigits_zeros (n : Nat) (l : Str) : Nat.ofDigitChars 10 (List.replicate n '0' ++ l) 0 = Nat.ofDigitChars 10 l 0 := by
  induction n with
  | zero => rfl
  | succ n ih => rw [List.replicate_succ, List.cons_append, Nat.ofDigitChars_cons]; exact ih

private theorem padded_inj {n i j : Nat} (h : padded n i = padded n j) : i = j := by
  have h := congrArg (fun l => Nat.ofDigitChars 10 l 0) h
  simpa only [padded, ofDigits_zeros, Nat.ofDigitChars_ten_toDigits] using h

private theorem padded_digit {n k : Nat} : ∀ c ∈ padded n k, c.isDigit = true := by
  intro c hc
  rcases List.mem_append.1 hc with h | h
  · rw [List.eq_of_mem_replicate h]; rfl
  · exact Nat.isDigit_of_mem_toDigits (by decide) (by decide) h

private theorem padded_two {k : Nat} (h : k ≤ 99) : (padded 2 k).length = 2 := by
  have all : ∀ k, k < 100 → (padded 2 k).length = 2 := by decide +kernel
  exact all k (by omega)

private theorem padded_four {k : Nat} (h : k ≤ 9999) : (padded 4 k).length = 4 := by
  have hl : (Nat.toDigits 10 k).length ≤ 4 := (Nat.length_toDigits_le_iff (by decide) (by decide)).2 (by omega)
  simp only [padded, List.length_append, List.length_replicate]
  omega

private theorem yearText_inj {y z : Int} (h : yearText y = yearText z) : y = z := by
  have dig : ∀ {n k : Nat} {c : Char} {l : Str}, padded n k = c :: l → c.isDigit = true := by
    intro n k c l h
    exact padded_digit c (by rw [h]; exact List.mem_cons_self)
  have three : ∀ y, (0 ≤ y ∧ yearText y = padded 4 y.toNat) ∨ (0 ≤ y ∧ yearText y = '+' :: padded 4 y.toNat) ∨
      (y < 0 ∧ yearText y = '-' :: padded 4 (-y).toNat) := by
    intro y
    unfold yearText
    split
    · exact Or.inl ⟨by omega, rfl⟩
    · split
      · exact Or.inr (Or.inl ⟨by omega, rfl⟩)
      · exact Or.inr (Or.inr ⟨by omega, rfl⟩)
  rcases three y with ⟨h1, e1⟩ | ⟨h1, e1⟩ | ⟨h1, e1⟩ <;> rcases three z with ⟨h2, e2⟩ | ⟨h2, e2⟩ | ⟨h2, e2⟩ <;> rw [e1, e2] at h
  · have := padded_inj h; omega
  · exact absurd (dig h) (by decide)
  · exact absurd (dig h) (by decide)
  · exact absurd (dig h.symm) (by decide)
  · have := padded_inj (List.cons.inj h).2; omega
  · exact absurd (List.cons.inj h).1 (by decide)
  · exact absurd (dig h.symm) (by decide)
  · exact absurd (List.cons.inj h).1 (by decide)
  · have := padded_inj (List.cons.inj h).2; omega

private theorem append_inj_right' {a b c d : Str} (h : a ++ b = c ++ d) (hl : b.length = d.length) : a = c ∧ b = d :=
  List.append_inj' h hl

private theorem padded_reads (n k : Nat) : Nat.ofDigitChars 10 (padded n k) 0 = k := by
  simp only [padded, ofDigits_zeros, Nat.ofDigitChars_ten_toDigits]

/-- The date in a request says exactly the time that the signature was made for, in the format of ISO 8601 for the years 0
to 9999; different seconds give different dates, in every year. -/
theorem C99_date (t : Stamp) (ht : ValidStamp t) :
    (0 ≤ t.year → t.year ≤ 9999 → SaysTime (amzDate t) t) ∧
      ∀ u, ValidStamp u → amzDate t = amzDate u → t = u := by
  refine ⟨?_, ?_⟩
  · intro h0 h1
    have hy : yearText t.year = padded 4 t.year.toNat := if_pos ⟨h0, h1⟩
    have two : ∀ k, k ≤ 99 → NDigits 2 k (padded 2 k) := fun k hk => ⟨padded_two hk, padded_digit, padded_reads 2 k⟩
    refine ⟨_, _, _, _, _, _, rfl, ⟨t.year.toNat, by omega, ?_⟩, two _ ht.month, two _ ht.day, two _ ht.hour, two _ ht.minute,
      two _ ht.second⟩
    rw [hy]
    exact ⟨padded_four (by omega), padded_digit, padded_reads 4 _⟩
  · intro u hu h
    unfold amzDate at h
    obtain ⟨h, _⟩ := append_inj_right' h rfl
    obtain ⟨h, e1⟩ := append_inj_right' h (by rw [padded_two ht.second, padded_two hu.second])
    obtain ⟨h, e2⟩ := append_inj_right' h (by rw [padded_two ht.minute, padded_two hu.minute])
    obtain ⟨h, e3⟩ := append_inj_right' h (by rw [padded_two ht.hour, padded_two hu.hour])
    obtain ⟨h, _⟩ := append_inj_right' h rfl
    obtain ⟨h, e4⟩ := append_inj_right' h (by rw [padded_two ht.day, padded_two hu.day])
    obtain ⟨h, e5⟩ := append_inj_right' h (by rw [padded_two ht.month, padded_two hu.month])
    have e6 := yearText_inj h
    cases t; cases u
    simp only [Stamp.mk.injEq]
    exact ⟨e6, padded_inj e5, padded_inj e4, padded_inj e3, padded_inj e2, padded_inj e1⟩

/-- The example of the documentation of AWS. -/
example : ValidStamp ⟨2015, 8, 30, 12, 36, 0⟩ ∧ amzDate ⟨2015, 8, 30, 12, 36, 0⟩ = "20150830T123600Z".toList :=
  ⟨⟨by decide, by decide, by decide, by decide, by decide⟩, by decide +kernel⟩

/-! ## The request -/

private theorem headerOk_of {s : Str} (h : ∀ c ∈ s, ¬ Control c) : headerOk s = true := by
  rw [headerOk, List.all_eq_true]
  intro c hc
  have := h c hc
  simp only [Control] at this
  simp only [Bool.or_eq_true, Bool.and_eq_true, decide_eq_true_eq, bne_iff_ne, ne_eq, beq_iff_eq]
  omega

private theorem not_headerOk_of {s : Str} (h : ∃ c ∈ s, Control c) : headerOk s = false := by
  obtain ⟨c, hc, h⟩ := h
  rw [headerOk, List.all_eq_false]
  refine ⟨c, hc, ?_⟩
  simp only [Control] at h
  simp only [Bool.or_eq_true, Bool.and_eq_true, decide_eq_true_eq, bne_iff_ne, ne_eq, beq_iff_eq]
  omega

private theorem not_control_digit {c : Char} (h : c.isDigit = true) : ¬ Control c := by
  have h1 : 48 ≤ c.toNat ∧ c.toNat ≤ 57 := by
    simp only [Char.isDigit, Bool.and_eq_true, decide_eq_true_eq] at h
    exact ⟨UInt32.le_iff_toNat_le.1 h.1, UInt32.le_iff_toNat_le.1 h.2⟩
  simp only [Control]
  omega

private theorem date_ok (t : Stamp) : headerOk (amzDate t) = true := by
  apply headerOk_of
  intro c hc
  have hy : ∀ c ∈ yearText t.year, ¬ Control c := by
    intro c hc
    unfold yearText at hc
    split at hc
    · exact not_control_digit (padded_digit c hc)
    · split at hc
      · rcases List.mem_cons.1 hc with rfl | hc
        · simp only [Control]; decide
        · exact not_control_digit (padded_digit c hc)
      · rcases List.mem_cons.1 hc with rfl | hc
        · simp only [Control]; decide
        · exact not_control_digit (padded_digit c hc)
  simp only [amzDate, List.mem_append, List.mem_singleton] at hc
  rcases hc with (((((((h | h) | h) | h) | h) | h) | h) | h)
  · exact hy c h
  · exact not_control_digit (padded_digit c h)
  · exact not_control_digit (padded_digit c h)
  · rw [h]; simp only [Control]; decide
  · exact not_control_digit (padded_digit c h)
  · exact not_control_digit (padded_digit c h)
  · exact not_control_digit (padded_digit c h)
  · rw [h]; simp only [Control]; decide

/-- The headers that are signed. -/
private def signedHeaders (t : Stamp) : Headers :=
  [("x-amz-date".toList, amzDate t), ("accept-encoding".toList, "identity".toList),
    ("content-type".toList, "application/x-www-form-urlencoded; charset=utf-8".toList),
    ("host".toList, "sts.us-east-1.amazonaws.com".toList)]

private def signInput (t : Stamp) (endpoint id secret : Str) : SignInput :=
  ⟨"POST".toList, endpoint, t, signedHeaders t, "us-east-1".toList, id, secret, "sts".toList,
    "Action=GetCallerIdentity&Version=2011-06-15".toList⟩

private theorem insert_at (hs : Headers) (name value : Str) (h : hs.all (fun h => h.1 != name.map Char.toLower) = true) :
    hs.insert name value = hs ++ [(name.map Char.toLower, value)] := by
  unfold Headers.insert
  rw [List.filter_eq_self.2 (List.all_eq_true.1 h)]

private theorem headersAndBody_eq (sign : Sign) (t : Stamp) (endpoint id secret : Str) :
    awsHeadersAndBody sign t endpoint id secret =
      match sign (signInput t endpoint id secret) with
      | .ok sig => if headerOk sig then
          .ok ("Action=GetCallerIdentity&Version=2011-06-15".toList, signedHeaders t ++ [("authorization".toList, sig)]) else .panic
      | .panic => .panic
      | .hang => .hang := by
  have h1 : headerParse (amzDate t) = .ok (amzDate t) := by rw [headerParse, if_pos (date_ok t)]
  have h2 : headerParse "identity".toList = .ok "identity".toList := by decide +kernel
  have h3 : headerParse "application/x-www-form-urlencoded; charset=utf-8".toList =
    .ok "application/x-www-form-urlencoded; charset=utf-8".toList := by decide +kernel
  have h4 : headerParse "sts.us-east-1.amazonaws.com".toList = .ok "sts.us-east-1.amazonaws.com".toList := by decide +kernel
  have hh : Headers.insert (Headers.insert (Headers.insert (Headers.insert [] "X-Amz-Date".toList (amzDate t))
      "Accept-Encoding".toList "identity".toList) "Content-Type".toList
      "application/x-www-form-urlencoded; charset=utf-8".toList) "host".toList "sts.us-east-1.amazonaws.com".toList =
      signedHeaders t := by
    rw [insert_at [] "X-Amz-Date".toList (amzDate t) rfl]
    rw [insert_at _ "Accept-Encoding".toList _ (by rfl)]
    rw [insert_at _ "Content-Type".toList _ (by rfl)]
    rw [insert_at _ "host".toList _ (by rfl)]
    rfl
  have ha : ∀ v, Headers.insert (signedHeaders t) "authorization".toList v = signedHeaders t ++ [("authorization".toList, v)] := fun v => by
    rw [insert_at _ "authorization".toList v (by rfl)]
    rfl
  unfold awsHeadersAndBody
  simp only [h1, h2, h3, h4, hh, ha]
  simp only [signInput]
  generalize sign _ = x
  cases x with
  | ok sig =>
    simp only [headerParse]
    cases headerOk sig <;> rfl
  | panic => rfl
  | hang => rfl

/-- The time that a request is signed for. -/
private def timeOf (now : Nat) (cfg : AwsConfig) : Nat := cfg.forcedDatetime.getD now

private theorem awsSend_eq (sign : Sign) (split : Nat → Stamp) (now : Nat) (r : AwsReq) :
    awsSend sign split now r =
      match sign (signInput (split (timeOf now r.cfg)) r.cfg.endpoint r.id r.secret) with
      | .ok sig => if headerOk sig then
          .ok ⟨"POST".toList, r.cfg.endpoint, signedHeaders (split (timeOf now r.cfg)) ++ [("authorization".toList, sig)],
            "Action=GetCallerIdentity&Version=2011-06-15".toList, r.cfg.timeout⟩ else .panic
      | .panic => .panic
      | .hang => .hang := by
  obtain ⟨⟨endpoint, forced, timeout⟩, id, secret⟩ := r
  cases forced <;>
  · simp only [awsSend, headersAndBody_eq, timeOf, Option.getD_none, Option.getD_some]
    generalize sign _ = x
    cases x with
    | ok sig =>
      dsimp only
      cases headerOk sig <;> rfl
    | panic => rfl
    | hang => rfl

/-- A request that is sent is the one that was signed: the signer was given the method, the URL, the body and every header
of the request but the signature itself, the id and the secret of the pair, and the time in the header `X-Amz-Date`, which
is the forced time if there is one.  Each of the five headers is there once.  Only the id and the secret depend on what
was found. -/
theorem C99_signed_is_sent (sign : Sign) (split : Nat → Stamp) (now : Nat) (r : AwsReq) (s : SentReq)
    (h : awsSend sign split now r = .ok s) :
    ∃ i sig, sign i = .ok sig ∧ SignedAs s i ∧ i.id = r.id ∧ i.secret = r.secret ∧ i.region = "us-east-1".toList ∧
      i.service = "sts".toList ∧
      (∀ t, r.cfg.forcedDatetime = some t → i.time = split t) ∧ (r.cfg.forcedDatetime = none → i.time = split now) ∧
      s.method = "POST".toList ∧ s.url = r.cfg.endpoint ∧ s.timeout = r.cfg.timeout ∧
      s.body = "Action=GetCallerIdentity&Version=2011-06-15".toList ∧
      s.headers.length = 5 ∧ OneHeader s.headers "Authorization".toList sig ∧
      OneHeader s.headers "Accept-Encoding".toList "identity".toList ∧
      OneHeader s.headers "Content-Type".toList "application/x-www-form-urlencoded; charset=utf-8".toList ∧
      OneHeader s.headers "Host".toList "sts.us-east-1.amazonaws.com".toList := by
  rw [awsSend_eq] at h
  cases hs : sign (signInput (split (timeOf now r.cfg)) r.cfg.endpoint r.id r.secret) with
  | ok sig =>
    rw [hs] at h
    dsimp only at h
    split at h
    · cases h
      refine ⟨_, sig, hs, ⟨rfl, rfl, rfl, rfl, ⟨_, rfl⟩⟩, rfl, rfl, rfl, rfl, ?_, ?_, rfl, rfl, rfl, rfl, rfl, ⟨_, rfl⟩, ⟨_, rfl⟩,
        ⟨_, rfl⟩, ⟨_, rfl⟩⟩
      · intro t ht; simp only [signInput, timeOf, ht, Option.getD_some]
      · intro ht; simp only [signInput, timeOf, ht, Option.getD_none]
    · cases h
  | panic => rw [hs] at h; cases h
  | hang => rw [hs] at h; cases h

private theorem printable_ok {c : Char} (h : 32 ≤ c.toNat ∧ c.toNat < 127) : ¬ Control c := by
  simp only [Control]; omega

/-- With signatures of version 4, a request is sent exactly if the endpoint is a URL and the id has no control character,
whatever the time and the secret; else the validation panics. -/
theorem C99_sent_iff (sign : Sign) (url : Str → Bool) (hs : SignsV4 sign url) (split : Nat → Stamp) (now : Nat) (r : AwsReq) :
    ((url r.cfg.endpoint = true ∧ ∀ c ∈ r.id, ¬ Control c) → ∃ s, awsSend sign split now r = .ok s) ∧
    ((url r.cfg.endpoint = false ∨ ∃ c ∈ r.id, Control c) → awsSend sign split now r = .panic) := by
  rw [awsSend_eq]
  cases hu : url r.cfg.endpoint with
  | false =>
    refine ⟨(fun h => nomatch h.1), fun _ => ?_⟩
    rw [hs.refused _ hu]
  | true =>
    obtain ⟨pre, post, h1, h2, h3⟩ := hs.signature (signInput (split (timeOf now r.cfg)) r.cfg.endpoint r.id r.secret) hu
    rw [h3]
    refine ⟨?_, ?_⟩
    · intro ⟨_, h⟩
      have : headerOk (pre ++ r.id ++ post) = true := by
        apply headerOk_of
        intro c hc
        rcases List.mem_append.1 hc with hc | hc
        · rcases List.mem_append.1 hc with hc | hc
          · exact printable_ok (h1 c hc)
          · exact h c hc
        · exact printable_ok (h2 c hc)
      exact ⟨_, by dsimp only [signInput]; rw [if_pos this]⟩
    · rintro (h | ⟨c, hc, h⟩)
      · cases h
      · have : headerOk (pre ++ r.id ++ post) = false := not_headerOk_of ⟨c, by simp [hc], h⟩
        dsimp only [signInput]
        rw [this]
        rfl

/-- What C77 assumes of AWS follows from this, if all endpoints are URLs. -/
theorem C99_signs_printable (sign : Sign) (url : Str → Bool) (hs : SignsV4 sign url) (hu : ∀ u, url u = true) (split : Nat → Stamp)
    (now : Nat) (http : Nat → HttpReq → Reply) (word : Char → Bool) (reply : Nat → Nat → SentReq → Reply) :
    SignsPrintable (signedNet sign split now http word reply) where
  printable := by
    intro r h
    obtain ⟨s, h⟩ := (C99_sent_iff sign url hs split now r).1 ⟨hu _, fun c hc => printable_ok (h c hc)⟩
    simp only [signedNet, h]
  lineBreak := by
    intro r h
    have h := (C99_sent_iff sign url hs split now r).2 (Or.inr ⟨_, h, Or.inl (by decide)⟩)
    simp only [signedNet, h]

/-! ## Cases -/

private theorem printable_of {s : Str} (h : ∀ c ∈ s, 32 ≤ c.toNat ∧ c.toNat < 127) : Printable s := h

/-- A signer that writes the id between fixed texts. -/
private def toySign : Sign := fun i =>
  if i.url.take 8 == "https://".toList then .ok ("AWS4-HMAC-SHA256 Credential=".toList ++ i.id ++ "/sts".toList) else .panic

private theorem toySign_ok : SignsV4 toySign (fun u => u.take 8 == "https://".toList) where
  signature := by
    intro i h
    exact ⟨"AWS4-HMAC-SHA256 Credential=".toList, "/sts".toList, printable_of (by decide +kernel), printable_of (by decide +kernel), if_pos h⟩
  refused := by
    intro i h
    unfold toySign
    rw [if_neg (by rw [h]; decide)]

private def toySplit : Nat → Stamp := fun k => ⟨2015, 8, 30, 12, 36, k⟩

private def euCfg : AwsConfig := ⟨"https://sts.eu-west-1.amazonaws.com".toList, some 7, 5⟩

/-- A case meeting the hypotheses of `C99_signed_is_sent` and `C99_sent_iff`. -/
example : SignsV4 toySign (fun u => u.take 8 == "https://".toList) ∧
    awsSend toySign toySplit 3 ⟨euCfg, "AKID".toList, "s".toList⟩ = .ok
      ⟨"POST".toList, euCfg.endpoint,
        [("x-amz-date".toList, "20150830T123607Z".toList), ("accept-encoding".toList, "identity".toList),
          ("content-type".toList, "application/x-www-form-urlencoded; charset=utf-8".toList),
          ("host".toList, "sts.us-east-1.amazonaws.com".toList),
          ("authorization".toList, "AWS4-HMAC-SHA256 Credential=AKID/sts".toList)],
        "Action=GetCallerIdentity&Version=2011-06-15".toList, 5⟩ ∧
    awsSend toySign toySplit 3 ⟨euCfg, "A\tB".toList, "s".toList⟩ ≠ .panic ∧
    awsSend toySign toySplit 3 ⟨euCfg, "A\nB".toList, "s".toList⟩ = .panic := by
  refine ⟨toySign_ok, ?_, ?_, ?_⟩ <;> decide +kernel

/-- A signer for which every endpoint is a URL. -/
example : SignsV4 (fun i => .ok ("Credential=".toList ++ i.id ++ "/sts".toList)) (fun _ => true) where
  signature := fun i _ => ⟨"Credential=".toList, "/sts".toList, printable_of (by decide +kernel), printable_of (by decide +kernel), rfl⟩
  refused := fun _ h => nomatch h

/-- The header `Host` of a request is the host of its URL, if the endpoint is one of `sts.us-east-1.amazonaws.com`.  Missing
is every other endpoint: see `C99_host_fixed`. -/
theorem C99_host_partial (sign : Sign) (split : Nat → Stamp) (now : Nat) (r : AwsReq) (s : SentReq)
    (h : awsSend sign split now r = .ok s) :
    OneHeader s.headers "Host".toList (hostOf s.url) ↔ hostOf r.cfg.endpoint = "sts.us-east-1.amazonaws.com".toList := by
  obtain ⟨_, _, _, _, _, _, _, _, _, _, _, hu, _, _, _, _, _, _, n, hh⟩ := C99_signed_is_sent sign split now r s h
  rw [hu]
  constructor
  · rintro ⟨m, hm⟩
    rw [hm] at hh
    simp only [List.cons.injEq, Prod.mk.injEq, and_true] at hh
    exact hh.2
  · intro h
    exact ⟨n, by rw [h]; exact hh⟩

/-- With the default configuration, `Host` is not the host of the URL. -/
theorem C99_default_host (sign : Sign) (split : Nat → Stamp) (now : Nat) (id secret : Str) (s : SentReq)
    (h : awsSend sign split now ⟨AwsConfig.default, id, secret⟩ = .ok s) :
    hostOf s.url = "sts.amazonaws.com".toList ∧ OneHeader s.headers "Host".toList "sts.us-east-1.amazonaws.com".toList ∧
      ¬ OneHeader s.headers "Host".toList (hostOf s.url) := by
  obtain ⟨_, _, _, _, _, _, _, _, _, _, _, hu, _, _, _, _, _, _, hh⟩ := C99_signed_is_sent _ _ _ _ _ h
  have e : hostOf AwsConfig.default.endpoint = "sts.amazonaws.com".toList := by decide +kernel
  refine ⟨by rw [hu]; exact e, hh, ?_⟩
  rw [C99_host_partial _ _ _ _ _ h]
  dsimp only
  rw [e]
  decide +kernel

/-- With the default configuration and a signer of version 4 a request is sent for every id without control characters; so
`C99_default_host` speaks of all of them. -/
example (id secret : Str) (hid : ∀ c ∈ id, ¬ Control c) :
    ∃ s, awsSend toySign toySplit 0 ⟨AwsConfig.default, id, secret⟩ = .ok s :=
  (C99_sent_iff toySign _ toySign_ok toySplit 0 _).1
    ⟨(by decide +kernel : (AwsConfig.default.endpoint.take 8 == "https://".toList) = true), hid⟩

/-- With the endpoint of another region, the request still names the host and the region of `us-east-1`. -/
theorem C99_host_fixed : ∃ (sign : Sign) (url : Str → Bool) (split : Nat → Stamp) (r : AwsReq) (s : SentReq), SignsV4 sign url ∧
    awsSend sign split 0 r = .ok s ∧ hostOf s.url = "sts.eu-west-1.amazonaws.com".toList ∧
    OneHeader s.headers "Host".toList "sts.us-east-1.amazonaws.com".toList ∧
    ¬ OneHeader s.headers "Host".toList (hostOf s.url) := by
  have h : ∃ s, awsSend toySign toySplit 0 ⟨euCfg, "AKID".toList, "s".toList⟩ = .ok s :=
    (C99_sent_iff toySign _ toySign_ok toySplit 0 _).1 (by
      refine ⟨by decide +kernel, ?_⟩
      intro c hc
      have hall : ∀ c ∈ "AKID".toList, 32 ≤ c.toNat ∧ c.toNat < 127 := by decide +kernel
      exact printable_ok (hall c hc))
  obtain ⟨s, h⟩ := h
  have hu := C99_signed_is_sent _ _ _ _ _ h
  obtain ⟨_, _, _, _, _, _, _, _, _, _, _, hu, _, _, _, _, _, _, hh⟩ := hu
  refine ⟨toySign, _, toySplit, _, s, toySign_ok, h, by rw [hu]; decide +kernel, hh, ?_⟩
  rw [C99_host_partial _ _ _ _ _ h]
  decide +kernel

/-- An endpoint that is not a URL makes the validation panic, where the HTTP validator reports an error. -/
theorem C99_bad_endpoint_panics (sign : Sign) (url : Str → Bool) (hs : SignsV4 sign url) (split : Nat → Stamp) (now : Nat)
    (r : AwsReq) (hu : url r.cfg.endpoint = false) : awsSend sign split now r = .panic :=
  (C99_sent_iff sign url hs split now r).2 (Or.inl hu)

end Sds.Props
