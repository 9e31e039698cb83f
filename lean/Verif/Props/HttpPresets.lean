import Verif.Spec.HttpPresets
import Verif.Props.Validation

/-! # C89: the ready-made validators for GitHub and Datadog -/

namespace Sds.Props

open Sds.Spec

def githubCfg : HttpConfig :=
  ⟨["https://api.github.com/octocat".toList], .get, githubBuilder.headers, [(200, 300)], [(400, 500)], 3000000000⟩

def datadogCfg : HttpConfig := ⟨datadogSites, .get, datadogBuilder.headers, [(200, 300)], [(403, 404)], 3000000000⟩

theorem github_build : githubBuilder.build = some githubCfg := by decide +kernel
theorem datadog_build : datadogBuilder.build = some datadogCfg := by decide +kernel

theorem header_plain {v : Str} (h : containsStr matchVar v = false) (m : Str) : headerValue v m = v := by
  have : ¬ OccursIn matchVar v := by
    rw [← containsStr_iff matchVar (by decide)]
    simp [h]
  exact replaceGo_none _ _ _ this

theorem header_match (m : Str) : headerValue "$MATCH".toList m = m := by
  have h : headerValue matchVar m = m ++ [] := rfl
  rw [show ("$MATCH".toList : Str) = matchVar from by decide, h, List.append_nil]

theorem header_bearer (m : Str) : headerValue "Bearer $MATCH".toList m = "Bearer ".toList ++ m := by
  have h : headerValue (['B', 'e', 'a', 'r', 'e', 'r', ' '] ++ matchVar) m =
    ['B', 'e', 'a', 'r', 'e', 'r', ' '] ++ (m ++ []) := rfl
  rw [show ("Bearer $MATCH".toList : Str) = ['B', 'e', 'a', 'r', 'e', 'r', ' '] ++ matchVar from by decide, h,
    List.append_nil]
  rfl

theorem github_request (m : Str) : githubCfg.request "https://api.github.com/octocat".toList m = githubAsks m := by
  have h1 : headerValue "TEST_DD_SDS".toList m = "TEST_DD_SDS".toList := header_plain (by decide) m
  have h2 : headerValue "2022-11-28".toList m = "2022-11-28".toList := header_plain (by decide) m
  show (⟨.get, _, [(_, headerValue "Bearer $MATCH".toList m), (_, headerValue "TEST_DD_SDS".toList m),
    (_, headerValue "2022-11-28".toList m)], 3000000000⟩ : HttpReq) = _
  rw [header_bearer, h1, h2]
  rfl

theorem datadog_request (e m : Str) : datadogCfg.request e m = datadogAsks e m := by
  have h1 : headerValue "TEST_DD_SDS".toList m = "TEST_DD_SDS".toList := header_plain (by decide) m
  have h2 : headerValue "application/json".toList m = "application/json".toList := header_plain (by decide) m
  show (⟨.get, _, [(_, headerValue "$MATCH".toList m), (_, headerValue "TEST_DD_SDS".toList m),
    (_, headerValue "application/json".toList m)], 3000000000⟩ : HttpReq) = _
  rw [header_match, h1, h2]
  rfl

theorem codeIn_one (lo hi code : Nat) : CodeIn [(lo, hi)] code ↔ lo ≤ code ∧ code < hi := by
  constructor
  · rintro ⟨a, b, h, h1, h2⟩
    simp at h
    obtain ⟨rfl, rfl⟩ := h
    exact ⟨h1, h2⟩
  · rintro ⟨h1, h2⟩
    exact ⟨lo, hi, by simp, h1, h2⟩

/-- The three outcomes of a reply. -/
theorem outcome_cases {cfg : HttpConfig} {lo hi : Nat} (hv : cfg.valid = [(200, 300)]) (hi' : cfg.invalid = [(lo, hi)])
    (hlo : 300 ≤ lo) (a : Reply) :
    (httpOutcome cfg a = .valid ∧ ServerAccepts a ∧ ¬ ∃ code, a = .response code ∧ lo ≤ code ∧ code < hi) ∨
    (httpOutcome cfg a = .invalid ∧ ¬ ServerAccepts a ∧ ∃ code, a = .response code ∧ lo ≤ code ∧ code < hi) ∨
    ((∃ msg, httpOutcome cfg a = .error msg) ∧ ¬ ServerAccepts a ∧ ¬ ∃ code, a = .response code ∧ lo ≤ code ∧ code < hi) := by
  have h := (httpOutcome_iff cfg a _).2 rfl
  cases a with
  | failed e =>
    refine .inr (.inr ⟨⟨_, rfl⟩, ?_, ?_⟩)
    · rintro ⟨code, h, -⟩; cases h
    · rintro ⟨code, h, -⟩; cases h
  | response code =>
    have e1 : ServerAccepts (.response code) ↔ 200 ≤ code ∧ code < 300 :=
      ⟨fun ⟨c, h, h1⟩ => by cases h; exact h1, fun h => ⟨code, rfl, h⟩⟩
    have e2 : (∃ c, Reply.response code = .response c ∧ lo ≤ c ∧ c < hi) ↔ lo ≤ code ∧ code < hi :=
      ⟨fun ⟨c, h, h1⟩ => by cases h; exact h1, fun h => ⟨code, rfl, h⟩⟩
    rw [e1, e2]
    have c1 := codeIn_one 200 300 code
    have c2 := codeIn_one lo hi code
    cases hs : httpOutcome cfg (.response code) with
    | valid =>
      rw [hs] at h
      simp only [HttpOutcome, hv, c1] at h
      exact .inl ⟨rfl, h, by omega⟩
    | invalid =>
      rw [hs] at h
      simp only [HttpOutcome, hv, hi', c1, c2] at h
      exact .inr (.inl ⟨rfl, h⟩)
    | error msg =>
      rw [hs] at h
      simp only [HttpOutcome, hv, hi', c1, c2] at h
      exact .inr (.inr ⟨⟨msg, rfl⟩, h.1, h.2.1⟩)
    | notChecked => rw [hs] at h; exact h.elim
    | notAvailable => rw [hs] at h; exact h.elim

theorem not_le_notChecked {s : MatchStatus} (h : StatusLe s .notChecked) : s = .notChecked :=
  h.antisymm (.notChecked _)

theorem valid_le {s : MatchStatus} (h : StatusLe .valid s) : s = .valid := (h.antisymm (.valid _)).symm

theorem error_le {m : Str} {s : MatchStatus} (h : StatusLe (.error m) s) : s ≠ .invalid ∧ s ≠ .notChecked := by
  cases h <;> simp

/-- C89, GitHub: the builder is accepted; a match that was not checked before is judged by GitHub's answer to the request
that carries it as a bearer token, and by nothing else. -/
theorem C89_github (net : Net) (sch : Sched) (hf : Fair sch) (ms : List RuleMatch) (hv : ∀ m ∈ ms, m.value ≠ none) :
    ∃ cfg outs, githubBuilder.build = some cfg ∧ httpValidate net sch cfg ms = .ok outs ∧
      Updated (fun i m s => m.status = .notChecked → ∀ token, m.value = some token →
        GithubVerdict (net.http i (githubAsks token)) s) ms outs := by
  obtain ⟨outs, h1, h2⟩ := httpValidate_ok net sch hf githubCfg ms hv
  refine ⟨githubCfg, outs, github_build, h1, h2.mono fun i m s _ hs hst token htk => ?_⟩
  have key : ∀ x, (∃ text, m.value = some text ∧ HttpResult net githubCfg i text x) ↔
      x = httpOutcome githubCfg (net.http i (githubAsks token)) := by
    intro x
    constructor
    · rintro ⟨text, ht, hx⟩
      rw [htk] at ht
      cases ht
      obtain ⟨e, he, rfl⟩ := (httpResult_iff ..).1 hx
      have : e = "https://api.github.com/octocat".toList := by simpa [githubCfg] using he
      rw [this, github_request]
    · rintro rfl
      exact ⟨token, htk, (httpResult_iff ..).2 ⟨"https://api.github.com/octocat".toList, List.mem_cons_self .., by rw [github_request]⟩⟩
  obtain ⟨h3, h4⟩ := hs
  have hle := h4 _ (.inr ((key _).2 rfl))
  have hc := outcome_cases (cfg := githubCfg) rfl rfl (by decide) (net.http i (githubAsks token))
  have hs' : s = httpOutcome githubCfg (net.http i (githubAsks token)) := by
    rcases h3 with h3 | h3
    · rw [h3, hst] at hle
      have := not_le_notChecked hle
      rcases hc with ⟨e, -⟩ | ⟨e, -⟩ | ⟨⟨msg, e⟩, -⟩ <;> · rw [e] at this; cases this
    · exact (key s).1 h3
  rw [hs']
  rcases hc with ⟨e, ha, hb⟩ | ⟨e, ha, hb⟩ | ⟨⟨msg, e⟩, ha, hb⟩
  · rw [e]; exact ⟨by simp [ha], by simp [hb], by simp [ha]⟩
  · rw [e]; exact ⟨by simp [ha], by simp [hb], by simp [hb]⟩
  · rw [e]; exact ⟨by simp [ha], by simp [hb], by simp [ha, hb]⟩

/-- C89, Datadog: the builder is accepted; a match that was not checked before is judged by the answers of all six sites
to the requests that carry it as the key. -/
theorem C89_datadog (net : Net) (sch : Sched) (hf : Fair sch) (ms : List RuleMatch) (hv : ∀ m ∈ ms, m.value ≠ none) :
    ∃ cfg outs, datadogBuilder.build = some cfg ∧ httpValidate net sch cfg ms = .ok outs ∧
      Updated (fun i m s => m.status = .notChecked → ∀ key, m.value = some key →
        DatadogVerdict (fun site => net.http i (datadogAsks site key)) s) ms outs := by
  obtain ⟨outs, h1, h2⟩ := httpValidate_ok net sch hf datadogCfg ms hv
  refine ⟨datadogCfg, outs, datadog_build, h1, h2.mono fun i m s _ hs hst k hk => ?_⟩
  have key : ∀ x, (∃ text, m.value = some text ∧ HttpResult net datadogCfg i text x) ↔
      ∃ site ∈ datadogSites, x = httpOutcome datadogCfg (net.http i (datadogAsks site k)) := by
    intro x
    constructor
    · rintro ⟨text, ht, hx⟩
      rw [hk] at ht
      cases ht
      obtain ⟨e, he, rfl⟩ := (httpResult_iff ..).1 hx
      exact ⟨e, he, by rw [datadog_request]⟩
    · rintro ⟨e, he, rfl⟩
      exact ⟨k, hk, (httpResult_iff ..).2 ⟨e, he, by rw [datadog_request]⟩⟩
  obtain ⟨h3, h4⟩ := hs
  have hle : ∀ site ∈ datadogSites, StatusLe (httpOutcome datadogCfg (net.http i (datadogAsks site k))) s :=
    fun site hm => h4 _ (.inr ((key _).2 ⟨site, hm, rfl⟩))
  have r403 : ∀ a : Reply, (∃ code, a = .response code ∧ 403 ≤ code ∧ code < 404) ↔ a = .response 403 := fun a =>
    ⟨fun ⟨c, e, l1, l2⟩ => by rw [e, show c = 403 by omega], fun e => ⟨403, e, by omega, by omega⟩⟩
  have hc : ∀ site, _ := fun site =>
    outcome_cases (cfg := datadogCfg) (lo := 403) (hi := 404) rfl rfl (by decide) (net.http i (datadogAsks site k))
  simp only [r403] at hc
  have hs' : ∃ site ∈ datadogSites, s = httpOutcome datadogCfg (net.http i (datadogAsks site k)) := by
    rcases h3 with h3 | h3
    · obtain ⟨site, hm⟩ : ∃ site, site ∈ datadogSites := ⟨_, List.mem_cons_self ..⟩
      have := hle site hm
      rw [h3, hst] at this
      have := not_le_notChecked this
      rcases hc site with ⟨e, -⟩ | ⟨e, -⟩ | ⟨⟨msg, e⟩, -⟩ <;> · rw [e] at this; cases this
    · exact (key s).1 h3
  obtain ⟨site, hm, hs'⟩ := hs'
  have hacc : ∀ x ∈ datadogSites, ServerAccepts (net.http i (datadogAsks x k)) → s = .valid := fun x hx ha => by
    have := hle x hx
    rcases hc x with ⟨e, -⟩ | ⟨-, e, -⟩ | ⟨-, e, -⟩
    · rw [e] at this; exact valid_le this
    · exact absurd ha e
    · exact absurd ha e
  have hodd : ∀ x ∈ datadogSites, net.http i (datadogAsks x k) ≠ .response 403 → s ≠ .invalid := fun x hx hn => by
    have := hle x hx
    rcases hc x with ⟨e, -⟩ | ⟨-, -, e⟩ | ⟨⟨msg, e⟩, -⟩
    · rw [e] at this; rw [valid_le this]; simp
    · exact absurd e hn
    · rw [e] at this; exact (error_le this).1
  refine ⟨⟨fun e => ?_, ?_⟩, ⟨fun e x hx => ?_, fun hall => ?_⟩, ⟨?_, ?_⟩⟩
  · rcases hc site with ⟨-, ha, -⟩ | ⟨e', -⟩ | ⟨⟨msg, e'⟩, -⟩
    · exact ⟨site, hm, ha⟩
    · rw [hs', e'] at e; cases e
    · rw [hs', e'] at e; cases e
  · rintro ⟨x, hx, ha⟩
    exact hacc x hx ha
  · exact Classical.byContradiction fun hn => hodd x hx hn e
  · rcases hc site with ⟨-, -, e'⟩ | ⟨e', -⟩ | ⟨-, -, e'⟩
    · exact absurd (hall site hm) e'
    · rw [hs', e']
    · exact absurd (hall site hm) e'
  · rintro ⟨msg, e⟩
    refine ⟨fun x hx ha => (by rw [hacc x hx ha] at e; cases e), site, hm, fun h => ?_⟩
    rcases hc site with ⟨-, -, e'⟩ | ⟨e', -⟩ | ⟨-, -, e'⟩
    · exact e' h
    · rw [hs', e'] at e; cases e
    · exact e' h
  · rintro ⟨hna, x, hx, hn⟩
    rcases hc site with ⟨-, ha, -⟩ | ⟨e', -⟩ | ⟨⟨msg, e'⟩, -⟩
    · exact absurd ha (hna site hm)
    · exact absurd (hs'.trans e') (hodd x hx hn)
    · exact ⟨msg, hs'.trans e'⟩

theorem lastSet_snoc_same {α : Type} (k : α → SetCall) (d : α) (calls : List SetCall) (x : α) :
    LastSet k d (calls ++ [k x]) x := .inr ⟨calls, [], rfl, by simp⟩

theorem lastSet_snoc_other {α : Type} {k : α → SetCall} {d : α} {calls : List SetCall} {x : α} {c : SetCall}
    (h : LastSet k d calls x) (hc : ∀ y, k y ≠ c) : LastSet k d (calls ++ [c]) x := by
  rcases h with ⟨h1, rfl⟩ | ⟨b, a, rfl, h2⟩
  · exact .inl ⟨fun y hy => by
      rcases List.mem_append.1 hy with hy | hy
      · exact h1 y hy
      · exact hc y (List.mem_singleton.1 hy), rfl⟩
  · refine .inr ⟨b, a ++ [c], by simp, fun y hy => ?_⟩
    rcases List.mem_append.1 hy with hy | hy
    · exact h2 y hy
    · exact hc y (List.mem_singleton.1 hy)

/-- C89, the setters: after any sequence of calls each part of the builder is what the last call of its own setter gave,
or the default; no setter touches another part. -/
theorem C89_setters (endpoint : Str) (calls : List SetCall) :
    let b := calls.foldl HttpBuilder.call (.new endpoint)
    b.endpoint = endpoint ∧
    LastSet .headers [("Authorization".toList, "Bearer $MATCH".toList)] calls b.headers ∧
    LastSet .hosts [] calls b.hosts ∧
    LastSet .method .get calls b.method ∧
    LastSet .valid [(200, 300)] calls b.valid ∧
    LastSet .invalid [(400, 500)] calls b.invalid ∧
    LastSet .timeout (3 * 1000 * 1000 * 1000) calls b.timeout := by
  have base : ∀ {α : Type} (k : α → SetCall) (d : α), LastSet k d [] d := fun k d => .inl ⟨by simp, rfl⟩
  suffices H : ∀ r : List SetCall, let b := r.reverse.foldl HttpBuilder.call (.new endpoint)
      b.endpoint = endpoint ∧
      LastSet .headers [("Authorization".toList, "Bearer $MATCH".toList)] r.reverse b.headers ∧
      LastSet .hosts [] r.reverse b.hosts ∧
      LastSet .method .get r.reverse b.method ∧
      LastSet .valid [(200, 300)] r.reverse b.valid ∧
      LastSet .invalid [(400, 500)] r.reverse b.invalid ∧
      LastSet .timeout (3 * 1000 * 1000 * 1000) r.reverse b.timeout by
    have := H calls.reverse
    rwa [List.reverse_reverse] at this
  intro r
  induction r with
  | nil => exact ⟨rfl, base .., base .., base .., base .., base .., base ..⟩
  | cons c r ih =>
    simp only [List.reverse_cons, List.foldl_append, List.foldl_cons, List.foldl_nil] at ih ⊢
    obtain ⟨h0, h1, h2, h3, h4, h5, h6⟩ := ih
    cases c with
    | headers x =>
      exact ⟨h0, lastSet_snoc_same .., lastSet_snoc_other h2 nofun, lastSet_snoc_other h3 nofun,
        lastSet_snoc_other h4 nofun, lastSet_snoc_other h5 nofun, lastSet_snoc_other h6 nofun⟩
    | hosts x =>
      exact ⟨h0, lastSet_snoc_other h1 nofun, lastSet_snoc_same .., lastSet_snoc_other h3 nofun,
        lastSet_snoc_other h4 nofun, lastSet_snoc_other h5 nofun, lastSet_snoc_other h6 nofun⟩
    | method x =>
      exact ⟨h0, lastSet_snoc_other h1 nofun, lastSet_snoc_other h2 nofun, lastSet_snoc_same ..,
        lastSet_snoc_other h4 nofun, lastSet_snoc_other h5 nofun, lastSet_snoc_other h6 nofun⟩
    | valid x =>
      exact ⟨h0, lastSet_snoc_other h1 nofun, lastSet_snoc_other h2 nofun, lastSet_snoc_other h3 nofun,
        lastSet_snoc_same .., lastSet_snoc_other h5 nofun, lastSet_snoc_other h6 nofun⟩
    | invalid x =>
      exact ⟨h0, lastSet_snoc_other h1 nofun, lastSet_snoc_other h2 nofun, lastSet_snoc_other h3 nofun,
        lastSet_snoc_other h4 nofun, lastSet_snoc_same .., lastSet_snoc_other h6 nofun⟩
    | timeout x =>
      exact ⟨h0, lastSet_snoc_other h1 nofun, lastSet_snoc_other h2 nofun, lastSet_snoc_other h3 nofun,
        lastSet_snoc_other h4 nofun, lastSet_snoc_other h5 nofun, lastSet_snoc_same ..⟩

/-- Two calls of one setter and one of another. -/
example : ([SetCall.method .post, .timeout 5, .method .put].foldl HttpBuilder.call (.new ['e'])).method = .put ∧
    ([SetCall.method .post, .timeout 5, .method .put].foldl HttpBuilder.call (.new ['e'])).timeout = 5 ∧
    ([SetCall.method .post, .timeout 5, .method .put].foldl HttpBuilder.call (.new ['e'])).invalid = [(400, 500)] := by
  decide

/-- A key that the site in Europe accepts is valid, whatever the others say; one that five sites refuse and one does not
answer is unclear; a token is refused. -/
example :
    let net : Net := ⟨fun i r =>
      if i = 0 ∧ r.endpoint = "https://api.datadoghq.eu/api/v1/validate".toList then Reply.response 202
      else if r.endpoint = "https://api.ap1.datadoghq.com/api/v1/validate".toList then .failed "timeout".toList
      else .response 403, someNet.aws, someNet.signable, someNet.word⟩
    datadogBuilder.build.map (fun cfg => httpValidate net backwards cfg
      [aMatch 0 0 "k".toList .notChecked, aMatch 0 3 "l".toList .notChecked]) =
      some (.ok [aMatch 0 0 "k".toList .valid,
        aMatch 0 3 "l".toList (.error "Error making HTTP request: timeout".toList)]) ∧
    githubBuilder.build.map (fun cfg => httpValidate net inOrder cfg [aMatch 0 0 "t".toList .notChecked]) =
      some (.ok [aMatch 0 0 "t".toList .invalid]) := by
  decide +kernel

end Sds.Props
