import Verif.Lemmas.KindsScan
import Verif.Props.Scan

/-! # C83: rule kinds with shared data -/

namespace Sds.Props
open Sds Spec

section
variable {V : Nat → Type} {E : Type} {impl : EventImpl E} {wf : E → Prop} {leavesOf : E → List Leaf}
  {rew : (Path → Str → Str) → E → E}

/-- C83: the scanner can always be built, and the configuration of every type was made by the first rule that has
this type of configuration and processed by all rules that have it, in order. -/
theorem C83_configuration (rules : List (KRule V)) (wc mp rm : Bool) (fp : Fingerprint) :
    ∃ sc, KScanner.build rules wc mp rm fp = Res.ok sc ∧ sc.rules = rules ∧ sc.wildcards = wc ∧
      sc.multipassEnabled = mp ∧ sc.returnMatches = rm ∧ sc.fp = fp ∧
      ∀ t, sc.configs.value t = configMade rules t := by
  obtain ⟨sc, h1, h2, h3, h4⟩ := build_ok rules wc mp rm fp
  exact ⟨sc, h1, h3, h4.1, h4.2.1, h4.2.2.1, h4.2.2.2, fun t => by rw [h2.value, h3]⟩

private theorem built {rules : List (KRule V)} {wc mp rm : Bool} {fp : Fingerprint} {sc : KScanner V}
    (h : KScanner.build rules wc mp rm fp = Res.ok sc) : HasConfigs sc := by
  obtain ⟨sc', h1, h2, _⟩ := build_ok rules wc mp rm fp
  rw [h] at h1
  cases h1
  exact h2

/-- C83: every rule that is enabled and in scope is called once on every string, in the order of the strings, and
every call is given the right values: the data that the last call on the same string with data of this type
left, or new data if there was none; the configuration of its type; the cache that the last call in this scan
with a cache of this type left, or a new one.  The scan fails only if one of the rules fails on the values it
was given: no lookup and no downcast fails. -/
theorem C83_calls (hE : LawfulEvent impl wf leavesOf rew) {rules : List (KRule V)} {wc mp rm : Bool} {fp : Fingerprint}
    {sc : KScanner V} (hb : KScanner.build rules wc mp rm fp = Res.ok sc) (e : E) (hwf : wf e) (blocked : List Nat) :
    (∃ calls, Scanned impl (leavesOf e) sc e blocked calls) ∨
    (∃ (calls : List (Call V)) (d : Due), Lawful sc.rules calls.reverse ∧
      InOrder sc.rules sc.wildcards blocked (leavesOf e) (calls.map (·.due) ++ [d]) ∧
      Fails sc.rules calls.reverse d (scanK impl sc e blocked)) := by
  obtain ⟨vs, hv, h⟩ := scanK_trace hE (built hb) e hwf
  rcases h blocked with ⟨calls, h1, h2, h3⟩ | ⟨calls, d, rest, h1, h2, h3⟩
  · exact Or.inl ⟨calls, h1, by rw [h2]; exact hv.inOrder blocked, by rw [h2]; exact hv.allMade blocked, h3⟩
  · refine Or.inr ⟨calls, d, h1, (hv.inOrder blocked).sublist ?_, h3⟩
    rw [← h2]
    have : calls.map (·.due) ++ d :: rest = (calls.map (·.due) ++ [d]) ++ rest := by simp
    rw [this]
    exact List.sublist_append_left _ _

/-- C83: some scanner of rules without data repeats the calls of a scan, so the result is that of a scan with
it.  Rules that do not use their data are the same in it.  If the rules keep to what the scanner relies on, so do
those of the other scanner, and if they never fail it returns on the event: then what is proved about scans
holds for this scan. -/
theorem C83_as_without_data (hE : LawfulEvent impl wf leavesOf rew) {sc : KScanner V} (e : E) (hwf : wf e)
    (blocked : List Nat) {calls : List (Call V)} (h : Scanned impl (leavesOf e) sc e blocked calls) :
    ∃ sc' : Scanner, Repeats sc calls sc' ∧ scanK impl sc e blocked = scan impl sc' e blocked ∧
      (∀ (r : Nat) rule f, sc.rules[r]? = some rule → Stateless rule f →
        ∃ rule' : CRule, sc'.rules[r]? = some rule' ∧ rule'.run = f) ∧
      ((∀ rule ∈ sc.rules, KRuleOk rule) → ScannerOk sc') ∧
      ((∀ rule ∈ sc.rules, ∀ c p ex d g k, ∃ x, rule.run c p ex d g k = Res.ok x) → Returns sc' (leavesOf e)) := by
  have hr := repeating_repeats h.lawful h.inOrder (hE.nodup e hwf)
  exact ⟨_, hr, h.result _ hr, fun r rule f h1 h2 => repeating_stateless h1 h2, fun hok => repeating_ok h.lawful hok,
    fun ht => repeating_returns ht⟩

private theorem filter_due (calls : List (Call V)) (K : Nat → Bool) :
    (calls.filter fun c => K c.due.index).map (·.due) = (calls.map (·.due)).filter fun d => K d.index := by
  rw [List.filter_map]
  rfl

/-- C83: rules that share no type with the others are not affected by them.  If the scan makes some calls, then
with all other rules blocked it makes exactly those of these calls that are calls of the remaining rules: with
the same values, and finding the same. -/
theorem C83_separate (hE : LawfulEvent impl wf leavesOf rew) {rules : List (KRule V)} {wc mp rm : Bool} {fp : Fingerprint}
    {sc : KScanner V} (hb : KScanner.build rules wc mp rm fp = Res.ok sc) (e : E) (hwf : wf e) {K : Nat → Bool}
    (hK : Separate sc.rules K) {blocked blocked' : List Nat}
    (hbl : ∀ r, r < sc.rules.length → (r ∈ blocked' ↔ r ∈ blocked ∨ K r = false)) :
    (∃ calls, Scanned impl (leavesOf e) sc e blocked calls ∧
      Scanned impl (leavesOf e) sc e blocked' (calls.filter fun c => K c.due.index)) ∨
    (∃ (calls : List (Call V)) (d : Due), Lawful sc.rules calls.reverse ∧
      InOrder sc.rules sc.wildcards blocked (leavesOf e) (calls.map (·.due) ++ [d]) ∧
      Fails sc.rules calls.reverse d (scanK impl sc e blocked)) := by
  obtain ⟨vs, hv, h⟩ := scanK_trace hE (built hb) e hwf
  rcases h blocked with ⟨calls, h1, h2, h3⟩ | ⟨calls, d, rest, h1, h2, h3⟩
  · refine Or.inl ⟨calls, ⟨h1, by rw [h2]; exact hv.inOrder blocked, by rw [h2]; exact hv.allMade blocked, h3⟩, ?_⟩
    have hlen : ∀ v ∈ vs, ∀ r ∈ v.rules, (r ∈ blocked' ↔ r ∈ blocked ∨ K r = false) := by
      intro v hvm r hr
      obtain ⟨rule, hrule⟩ := hv.rule v hvm r hr
      exact hbl r (List.getElem?_eq_some_iff.1 hrule).1
    have hdue := dueVisits_filter (i := 0) hlen
    have hl : Lawful sc.rules (calls.filter fun c => K c.due.index).reverse := by
      rw [← List.filter_reverse]
      exact h1.filter hK
    have hd : (calls.filter fun c => K c.due.index).map (·.due) = dueVisits blocked' 0 vs := by
      rw [filter_due, h2, hdue]
    have hres : ∀ sc', Repeats sc (calls.filter fun c => K c.due.index) sc' →
        scanK impl sc e blocked' = scan impl sc' e blocked' := by
      rcases h blocked' with ⟨calls', g1, g2, g3⟩ | ⟨calls', d, rest, g1, g2, rule, x, y, z, hg, g3⟩
      · have : (calls.filter fun c => K c.due.index).reverse = calls'.reverse :=
          hl.unique g1 (by rw [List.map_reverse, List.map_reverse, hd, g2])
        rw [List.reverse_inj.1 this]
        exact g3
      · exfalso
        obtain ⟨as, c, bs, e1, e2, e3⟩ : ∃ as c bs, (calls.filter fun c => K c.due.index) = as ++ c :: bs ∧
            as.map (·.due) = calls'.map (·.due) ∧ c.due = d := by
          have : (calls.filter fun c => K c.due.index).map (·.due) = calls'.map (·.due) ++ d :: rest := by rw [hd, g2]
          obtain ⟨as, l, ha, hb1, hb2⟩ := List.map_eq_append_iff.1 this
          obtain ⟨c, bs, hc1, hc2, _⟩ := List.map_eq_cons_iff.1 hb2
          exact ⟨as, c, bs, by rw [ha, hc1], hb1, hc2⟩
        rw [e1] at hl
        have hl2 : Lawful sc.rules (c :: as.reverse) := by
          have : (as ++ c :: bs).reverse = bs.reverse ++ (c :: as.reverse) := by simp
          rw [this] at hl
          exact hl.drop
        have e4 : as.reverse = calls'.reverse :=
          hl2.tail.unique g1 (by rw [List.map_reverse, List.map_reverse, e2])
        cases hl2 with
        | call _ gr hrun =>
          rw [e4] at gr
          subst e3
          obtain ⟨a1, a2, a3, a4⟩ := gr
          obtain ⟨b1, b2, b3, b4⟩ := hg
          rw [a1] at b1
          cases b1
          rw [a3] at b3
          cases b3
          rw [← a2] at b2
          rw [← a4] at b4
          subst b2 b4
          rw [hrun] at g3
          rcases g3 with ⟨g, _⟩ | ⟨g, _⟩ <;> cases g
    exact ⟨hl, by rw [hd]; exact hv.inOrder blocked', by rw [hd]; exact hv.allMade blocked', hres⟩
  · refine Or.inr ⟨calls, d, h1, (hv.inOrder blocked).sublist ?_, h3⟩
    rw [← h2]
    have : calls.map (·.due) ++ d :: rest = (calls.map (·.due) ++ [d]) ++ rest := by simp
    rw [this]
    exact List.sublist_append_left _ _

/-- C83: the configuration of a type is the same without the rules that do not have this type. -/
theorem C83_configuration_separate (rules : List (KRule V)) (K : KRule V → Bool) (t : Nat)
    (h : ∀ r ∈ rules, r.configT = t → K r = true) : configMade (rules.filter K) t = configMade rules t :=
  configMade_filter h

/-- C83: a regex rule does not use its data, its configuration or its cache, which are all `()` (compiled.rs
34-36). -/
theorem C83_regex_rules (r : RegexRule) (info : RuleInfo) (scope : Scope) (kwPaths : Bool) (fuel : Str → Nat)
    (t : Nat) (unit : V t) :
    Stateless (V := V) ⟨info, scope, true, t, t, t, unit, unit, unit, id,
        fun c p ex d _ k => (stringMatches r kwPaths ex c p (fuel c)).map fun f => (f, d, k)⟩
      (RegexRule.toCRule r info scope kwPaths fuel).run :=
  fun _ _ _ _ _ _ => rfl

end

/-! ## A concrete scanner

Types: 0 is `()`, 1 is a counter. -/

private def Vx : Nat → Type
  | 1 => Nat
  | _ => Unit

private def fldk (s : String) : Seg := .field s.toList

private def fpk : Fingerprint := ⟨fun s => s.length, fun s => s.length⟩

/-- A kind whose rules find the first character of a string, as long as the rules of the kind have found fewer
than `config` on this string and not more than three in the event.  Each rule allows two more. -/
private def limited (a : Action) (start : Nat) : KRule Vx :=
  ⟨⟨a, false⟩, .excl [], false, 1, 1, 1, start, (0 : Nat), (0 : Nat), fun (g : Nat) => (g + 2 : Nat),
    fun c _ _ (d : Nat) (g : Nat) (k : Nat) =>
      if c ≠ [] ∧ blen (c.take 1) = 1 ∧ d < g ∧ k < 3 then Res.ok (⟨[(0, 1)], []⟩, (d + 1 : Nat), (k + 1 : Nat))
      else Res.ok (⟨[], []⟩, (d : Nat), (k : Nat))⟩

private def plain : KRule Vx :=
  ⟨⟨.none, false⟩, .excl [], true, 0, 0, 0, (), (), (), id, fun c p ex d _ k =>
    (stringMatches ⟨digitsRx, none, none, none⟩ false ex c p (blen c + 1)).map fun f => (f, d, k)⟩

private def evk : Ev := .map (.cons "a".toList (.str "x12".toList) (.cons "b".toList (.str "y3".toList) .nil))

private def rulesK : List (KRule Vx) := [limited .none 3, plain, limited .none 0]

/-- Starting from 3 with limit 4 the first rule finds something in each string, the other rule of the kind
(which would start from 0) does not: it is given the data that the first one left.  Then the regex rule. -/
example : (KScanner.build rulesK true true true fpk).map (fun sc =>
    (scanK jsonEvent sc evk []).map fun r => r.2.map fun o => (o.path, o.rule, o.start, o.stop)) =
    Res.ok (Res.ok [([fldk "a"], 0, 0, 1), ([fldk "a"], 1, 1, 3), ([fldk "b"], 0, 0, 1), ([fldk "b"], 1, 1, 2)]) := by
  decide +kernel

/-- With the first rule blocked the other one starts from 0. -/
example : (KScanner.build rulesK true true true fpk).map (fun sc =>
    (scanK jsonEvent sc evk [0]).map fun r => r.2.map fun o => (o.path, o.rule)) =
    Res.ok (Res.ok [([fldk "a"], 2), ([fldk "a"], 1), ([fldk "b"], 2), ([fldk "b"], 1)]) := by
  decide +kernel

/-- The configuration of the counters: each of the two rules added 2. -/
example : configMade rulesK 1 = some (4 : Nat) ∧ configMade rulesK 7 = none := ⟨rfl, rfl⟩

/-- The hypotheses of the theorems are met. -/
example : WellKeyed evk ∧ (∃ sc, KScanner.build rulesK true true true fpk = Res.ok sc ∧
    Separate sc.rules (fun r => r == 1)) := by
  refine ⟨by simp [evk, WellKeyed, WellKeyedFields, keys], ?_⟩
  obtain ⟨sc, h1, h2, _⟩ := C83_configuration rulesK true true true fpk
  refine ⟨sc, h1, ?_⟩
  rw [h2]
  intro r s x y hr hs hk hn
  have e : r = 1 := by simpa using hk
  subst e
  have hx : x = plain := by simpa [rulesK] using hr.symm
  subst hx
  match s, hs, hn with
  | 0, hs, _ =>
    have hy : y = limited .none 3 := by simpa [rulesK] using hs.symm
    subst hy
    decide
  | 1, _, hn => simp at hn
  | 2, hs, _ =>
    have hy : y = limited .none 0 := by simpa [rulesK] using hs.symm
    subst hy
    decide
  | n + 3, hs, _ => simp [rulesK] at hs

end Sds.Props
