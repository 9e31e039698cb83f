import Verif.Model.AwsSign
import Verif.Spec.ScanValidate

/-! # What a signed request is -/

namespace Sds.Spec

/-- A header is there exactly once, with this value; names are compared without case. -/
def OneHeader (hs : Headers) (name value : Str) : Prop :=
  ∃ n, hs.filter (fun h => h.1.map Char.toLower == name.map Char.toLower) = [(n, value)]

/-- The request without the header `Authorization` is what was given to the signer, at the time its date says. -/
structure SignedAs (s : SentReq) (i : SignInput) : Prop where
  method : s.method = i.method
  url : s.url = i.url
  body : s.body = i.body
  headers : s.headers.filter (fun h => h.1.map Char.toLower != "authorization".toList) = i.headers
  date : OneHeader s.headers "X-Amz-Date".toList (amzDate i.time)

/-- A time as chrono gives it. -/
structure ValidStamp (t : Stamp) : Prop where
  month : t.month ≤ 99
  day : t.day ≤ 99
  hour : t.hour ≤ 99
  minute : t.minute ≤ 99
  second : t.second ≤ 99

/-- `n` digits that are read as the number `k`. -/
def NDigits (n k : Nat) (s : Str) : Prop := s.length = n ∧ (∀ c ∈ s, c.isDigit = true) ∧ Nat.ofDigitChars 10 s 0 = k

/-- The text is the time in the basic format of ISO 8601, `YYYYMMDD'T'hhmmss'Z'`. -/
def SaysTime (text : Str) (t : Stamp) : Prop :=
  ∃ y mo d h mi s, text = y ++ mo ++ d ++ "T".toList ++ h ++ mi ++ s ++ "Z".toList ∧ (∃ n : Nat, t.year = n ∧ NDigits 4 n y) ∧
    NDigits 2 t.month mo ∧ NDigits 2 t.day d ∧ NDigits 2 t.hour h ∧ NDigits 2 t.minute mi ∧ NDigits 2 t.second s

/-- A signature of version 4: `AWS4-HMAC-SHA256 Credential=<id>/<scope>,SignedHeaders=<names>,Signature=<digits>`, where everything
but the id is printable, whatever is signed; URLs that cannot be parsed are refused by a panic. -/
structure SignsV4 (sign : Sign) (url : Str → Bool) : Prop where
  signature : ∀ i, url i.url = true → ∃ pre post, Printable pre ∧ Printable post ∧ sign i = .ok (pre ++ i.id ++ post)
  refused : ∀ i, url i.url = false → sign i = .panic

/-- A character that no header value may have. -/
def Control (c : Char) : Prop := (c.toNat < 32 ∧ c.toNat ≠ 9) ∨ c.toNat = 127

/-- The host of a URL with scheme `https`, up to the port or the path. -/
def hostOf (url : Str) : Str := (url.drop "https://".length).takeWhile fun c => c != '/' && c != ':' && c != '?' && c != '#'

end Sds.Spec
