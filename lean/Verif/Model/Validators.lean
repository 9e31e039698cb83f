import Verif.Model.Str

/-! # Secondary validation (sds/src/secondary_validation)

The IBAN checker (iban_checker.rs) hands the letters and digits of the text to an external crate and is not
modelled. -/

namespace Sds

/-- `char::to_digit(10)`. -/
def toDigit (c : Char) : Option Nat :=
  if 48 ≤ c.toNat ∧ c.toNat ≤ 57 then some (c.toNat - 48) else none

/-- The loop of `get_previous_digit` and `get_next_digit` (mod.rs 26-41): the next character which is a digit,
and the characters left.  For `get_previous_digit` the list holds the characters from back to front. -/
def nextDigit : List Char → Option (Nat × List Char)
  | [] => none
  | c :: cs =>
    match toDigit c with
    | some d => some (d, cs)
    | none => nextDigit cs

theorem nextDigit_length : ∀ {cs : List Char} {d : Nat} {r : List Char}, nextDigit cs = some (d, r) → r.length < cs.length
  | c :: cs, d, r, h => by
    unfold nextDigit at h
    split at h
    · cases h; simp
    · have := nextDigit_length h; simp; omega

/-- `u32` addition in release mode. -/
def addU32 (a b : Nat) : Nat := (a + b) % 2 ^ 32

/-- The `while let` loop of the Luhn check (luhn_checksum.rs 12-21). -/
def luhnLoop (cs : List Char) (sum : Nat) (isOdd : Bool) : Nat :=
  match h : nextDigit cs with
  | none => sum
  | some (d, r) =>
    luhnLoop r (if isOdd then addU32 sum d else if d > 4 then addU32 sum (d * 2 - 9) else addU32 sum (d * 2)) (!isOdd)
termination_by cs.length
decreasing_by exact nextDigit_length h

/-- `LuhnChecksum::is_valid_match` (luhn_checksum.rs 6-26). -/
def luhnValid (t : Str) : Bool :=
  match nextDigit t.reverse with
  | none => false
  | some (checksum, r) => (10 - luhnLoop r 0 false % 10) % 10 == checksum

/-- State of the NHS check: `total_sum`, `nb_digit`, `check_digit`. -/
structure Nhs where
  sum : Nat
  count : Nat
  check : Nat

/-- The `while let` loop of the NHS check (nhs_check_digit.rs 19-30); `none` is `return false`.
`nhs_multiplier_from_number_idx` is inlined. -/
def nhsLoop (cs : List Char) (s : Nhs) : Option Nhs :=
  match h : nextDigit cs with
  | none => some s
  | some (d, r) =>
    if s.count > 10 then none
    else if s.count < 9 then nhsLoop r ⟨addU32 s.sum (d * (11 - (s.count + 1))), s.count + 1, s.check⟩
    else nhsLoop r ⟨s.sum, s.count + 1, d⟩
termination_by cs.length
decreasing_by all_goals exact nextDigit_length h

/-- `NhsCheckDigit::is_valid_match` (nhs_check_digit.rs 10-53). -/
def nhsValid (t : Str) : Bool :=
  match nhsLoop t.reverse ⟨0, 0, 0⟩ with
  | none => false
  | some s =>
    let identifier := if 11 - s.sum % 11 = 11 then 0 else 11 - s.sum % 11
    if identifier = 10 then false else identifier == s.check

/-- `get_next_digit_chars` (nir_checksum.rs 25-35), with the characters left; `i64` arithmetic wraps. -/
def nextDigits : Nat → List Char → Int → Option (Int × List Char)
  | 0, cs, total => some (total, cs)
  | n + 1, cs, total =>
    match nextDigit cs with
    | none => none
    | some (d, r) => nextDigits n r (Int.bmod (total * 10 + d) (2 ^ 64))

/-- `NirChecksum::is_valid_match` (nir_checksum.rs 8-22). -/
def nirValid (t : Str) : Bool :=
  match nextDigits 13 t 0 with
  | none => false
  | some (n, r) =>
    match nextDigits 2 r 0 with
    | none => false
    | some (key, r) => if (nextDigit r).isSome then false else 97 - Int.tmod n 97 == key

/-- `CHINESE_ID_COEFFICIENTS` (chinese_id_checksum.rs 6). -/
def chineseCoefficients : List Nat := [7, 9, 10, 5, 8, 4, 2, 1, 6, 3, 7, 9, 10, 5, 8, 4, 2]

/-- The loop of chinese_id_checksum.rs 20-26, `none` is `return false`.  Simplification: it runs over at most 17
characters, so the index is always within the coefficients and the `i32` sum cannot overflow. -/
def chineseSum : List Char → List Nat → Nat → Option Nat
  | c :: cs, k :: ks, sum =>
    match toDigit c with
    | some x => chineseSum cs ks (sum + k * x)
    | none => none
  | _, _, sum => some sum

/-- The expected check character (chinese_id_checksum.rs 29-35). -/
def chineseCheck (sum : Nat) : Char :=
  match sum % 11 with
  | 0 => '1'
  | 1 => '0'
  | 2 => 'X'
  | r => Char.ofNat (12 - r + 48)

/-- `ChineseIdChecksum::is_valid_match` (chinese_id_checksum.rs 11-44). -/
def chineseValid (t : Str) : Res Bool :=
  if blen t ≠ 18 then Res.ok false
  else
    match chineseSum (t.take 17) chineseCoefficients 0 with
    | none => Res.ok false
    | some sum =>
      match t.getLast? with
      | none => Res.panic
      | some c => Res.ok ((if 97 ≤ c.toNat ∧ c.toNat ≤ 122 then Char.ofNat (c.toNat - 32) else c) == chineseCheck sum)

/-- `str::split` with a character. -/
def splitOn (sep : Char) : List Char → List Str
  | [] => [[]]
  | c :: cs =>
    if c = sep then [] :: splitOn sep cs
    else
      match splitOn sep cs with
      | [] => [[c]]
      | p :: ps => (c :: p) :: ps

/-- `char::is_ascii_alphanumeric`. -/
def isAlnum (c : Char) : Bool :=
  (48 ≤ c.toNat && c.toNat ≤ 57) || (65 ≤ c.toNat && c.toNat ≤ 90) || (97 ≤ c.toNat && c.toNat ≤ 122)

/-- The digits of the base62 crate: 0-9, A-Z, a-z. -/
def base62Digit (d : Nat) : Char :=
  if d < 10 then Char.ofNat (48 + d) else if d < 36 then Char.ofNat (55 + d) else Char.ofNat (61 + d)

/-- `base62::encode` of the crate base62: no leading zeros. -/
def base62 (n : Nat) : Str :=
  if n < 62 then [base62Digit n] else base62 (n / 62) ++ [base62Digit (n % 62)]
termination_by n
decreasing_by omega

/-- `GithubTokenChecksum::is_valid_match` (github_token_checksum.rs 6-28); `crc` is `crc32fast::hash`. -/
def githubValid (crc : Str → Nat) (t : Str) : Res Bool :=
  let parts := splitOn '_' t
  if parts.length < 2 then Res.ok false
  else
    match parts.getLast? with
    | none => Res.panic
    | some last =>
      if !last.all isAlnum then Res.ok false
      else if blen last ≤ 6 then Res.ok false
      else
        match slice last 0 (blen last - 6), sliceFrom last (blen last - 6) with
        | some payload, some check => Res.ok (base62 (crc payload) == check)
        | _, _ => Res.panic

/-- A decoded JSON value (`serde_json::Value`): what the check looks at.  `int` is a number for which `as_i64`
succeeds. -/
inductive Json where
  | int (i : Int)
  | other
  | obj (fields : List (Str × Json))

/-- `Value::get` with a key: `None` if the value is not an object. -/
def Json.get (j : Json) (k : Str) : Option Json :=
  match j with
  | .obj fs => (fs.find? (fun f => f.1 == k)).map (·.2)
  | _ => none

/-- `decode_segments` (jwt_expiration_checker.rs 37-49); `dec` is `decode_segment` (51-56). -/
def decodeSegments (dec : Str → Option Json) (t : Str) : Option (Json × Json) :=
  match splitOn '.' t with
  | [h, p, _] =>
    match dec h with
    | none => none
    | some hj =>
      match dec p with
      | none => none
      | some pj => some (hj, pj)
  | _ => none

/-- `JwtExpirationChecker::is_valid_match` (jwt_expiration_checker.rs 11-31) at the time `now`. -/
def jwtValid (dec : Str → Option Json) (now : Int) (t : Str) : Bool :=
  match decodeSegments dec t with
  | some (_, payload) =>
    match payload.get "exp".toList with
    | some (.int exp) => decide (exp > now)
    | some _ => false
    | none => true
  | none => false

end Sds
