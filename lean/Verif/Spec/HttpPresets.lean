import Verif.Model.HttpPresets
import Verif.Spec.Validation

/-! # What the ready-made HTTP configurations should ask, and what the answers mean -/

namespace Sds.Spec

/-- The request that asks GitHub about a token: three seconds to answer. -/
def githubAsks (token : Str) : HttpReq where
  method := .get
  endpoint := "https://api.github.com/octocat".toList
  headers := [("Authorization".toList, "Bearer ".toList ++ token), ("User-Agent".toList, "TEST_DD_SDS".toList),
    ("X-GitHub-Api-Version".toList, "2022-11-28".toList)]
  timeout := 3 * 1000 * 1000 * 1000

/-- The sites of Datadog. -/
def datadogSites : List Str :=
  ["https://api.datadoghq.com/api/v1/validate".toList, "https://api.datadoghq.eu/api/v1/validate".toList,
   "https://api.us3.datadoghq.com/api/v1/validate".toList, "https://api.us5.datadoghq.com/api/v1/validate".toList,
   "https://api.ddog-gov.com/api/v1/validate".toList, "https://api.ap1.datadoghq.com/api/v1/validate".toList]

/-- The request that asks a site of Datadog about a key. -/
def datadogAsks (site key : Str) : HttpReq where
  method := .get
  endpoint := site
  headers := [("DD-API-KEY".toList, key), ("User-Agent".toList, "TEST_DD_SDS".toList),
    ("Accept".toList, "application/json".toList)]
  timeout := 3 * 1000 * 1000 * 1000

/-- The server accepts. -/
def ServerAccepts (r : Reply) : Prop := ∃ code, r = .response code ∧ 200 ≤ code ∧ code < 300

/-- GitHub's answer to a token decides: accepted, refused by a code of the 400s, or unclear. -/
structure GithubVerdict (answer : Reply) (s : MatchStatus) : Prop where
  valid : s = .valid ↔ ServerAccepts answer
  invalid : s = .invalid ↔ ∃ code, answer = .response code ∧ 400 ≤ code ∧ code < 500
  unclear : (∃ msg, s = .error msg) ↔ ¬ ServerAccepts answer ∧ ¬ ∃ code, answer = .response code ∧ 400 ≤ code ∧ code < 500

/-- A key is valid if some site accepts it, invalid if every site says 403, and otherwise it is unclear. -/
structure DatadogVerdict (answer : Str → Reply) (s : MatchStatus) : Prop where
  valid : s = .valid ↔ ∃ site ∈ datadogSites, ServerAccepts (answer site)
  invalid : s = .invalid ↔ ∀ site ∈ datadogSites, answer site = .response 403
  unclear : (∃ msg, s = .error msg) ↔ (∀ site ∈ datadogSites, ¬ ServerAccepts (answer site)) ∧
    ∃ site ∈ datadogSites, answer site ≠ .response 403

/-- `x` is the argument of the last of the calls that are of the kind `k`, or `d` if there is none. -/
def LastSet {α : Type} (k : α → SetCall) (d : α) (calls : List SetCall) (x : α) : Prop :=
  ((∀ y, k y ∉ calls) ∧ x = d) ∨ ∃ before after, calls = before ++ k x :: after ∧ ∀ y, k y ∉ after

end Sds.Spec
