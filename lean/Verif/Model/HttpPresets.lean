import Verif.Model.Validation

/-! # Ready-made HTTP configurations

The setters of `HttpValidatorConfigBuilder` (match_validation/config.rs 127-175) and the two builders of
`HttpValidatorHelper` (match_validation/http_validator.rs 50-99). -/

namespace Sds

/-- `HttpValidatorConfigBuilder::new` (config.rs 128-145). -/
def HttpBuilder.new (endpoint : Str) : HttpBuilder where
  endpoint := endpoint
  hosts := []
  method := .get
  headers := [("Authorization".toList, "Bearer $MATCH".toList)]
  valid := [(200, 300)]
  invalid := [(400, 500)]
  timeout := 3000000000

/-- config.rs 146-149. -/
def HttpBuilder.setHeaders (b : HttpBuilder) (hs : List (Str × Str)) : HttpBuilder := { b with headers := hs }
/-- config.rs 150-153. -/
def HttpBuilder.setHosts (b : HttpBuilder) (hs : List Str) : HttpBuilder := { b with hosts := hs }
/-- config.rs 154-157. -/
def HttpBuilder.setMethod (b : HttpBuilder) (m : HttpMethod) : HttpBuilder := { b with method := m }
/-- config.rs 158-164. -/
def HttpBuilder.setValid (b : HttpBuilder) (rs : List (Nat × Nat)) : HttpBuilder := { b with valid := rs }
/-- config.rs 165-171. -/
def HttpBuilder.setInvalid (b : HttpBuilder) (rs : List (Nat × Nat)) : HttpBuilder := { b with invalid := rs }
/-- config.rs 172-175. -/
def HttpBuilder.setTimeout (b : HttpBuilder) (t : Nat) : HttpBuilder := { b with timeout := t }

/-- One call of a setter. -/
inductive SetCall where
  | headers (hs : List (Str × Str))
  | hosts (hs : List Str)
  | method (m : HttpMethod)
  | valid (rs : List (Nat × Nat))
  | invalid (rs : List (Nat × Nat))
  | timeout (t : Nat)

/-- What a call does to the builder. -/
def HttpBuilder.call (b : HttpBuilder) : SetCall → HttpBuilder
  | .headers hs => b.setHeaders hs
  | .hosts hs => b.setHosts hs
  | .method m => b.setMethod m
  | .valid rs => b.setValid rs
  | .invalid rs => b.setInvalid rs
  | .timeout t => b.setTimeout t

/-- `new_github_config_builder` (http_validator.rs 50-69). -/
def githubBuilder : HttpBuilder :=
  (HttpBuilder.new "https://api.github.com/octocat".toList).setHeaders
    [("Authorization".toList, "Bearer $MATCH".toList), ("User-Agent".toList, "TEST_DD_SDS".toList),
     ("X-GitHub-Api-Version".toList, "2022-11-28".toList)]

/-- `new_datadog_config_builder` (http_validator.rs 71-99). -/
def datadogBuilder : HttpBuilder :=
  (((HttpBuilder.new "https://$HOST/api/v1/validate".toList).setHosts
    ["api.datadoghq.com".toList, "api.datadoghq.eu".toList, "api.us3.datadoghq.com".toList,
     "api.us5.datadoghq.com".toList, "api.ddog-gov.com".toList, "api.ap1.datadoghq.com".toList]).setInvalid
    [(403, 404)]).setHeaders
    [("DD-API-KEY".toList, "$MATCH".toList), ("User-Agent".toList, "TEST_DD_SDS".toList),
     ("Accept".toList, "application/json".toList)]

end Sds
