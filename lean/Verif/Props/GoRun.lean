import Verif.Spec.GoRun
import Verif.Props.Assemble
import Verif.Props.GoRule
import Verif.Props.Codec
import Verif.Lemmas.Response

/-! # C81: from rules and events of the Go package to the redacted event

Composition of creating rules (C64), building the scanner (C80), the encoding (C48, C49), scanning (C01-C18), and writing
back (C51). -/

namespace Sds.Props
open Sds Sds.Spec Sds.Re

variable {T : Tables} {O : Outside} {D : Dates} {gs : List GoRule} {rs : List (RustRule × Ast)}

/-- The Go rules ask for these rules, whose patterns are these. -/
structure AskFor (T : Tables) (gs : List GoRule) (rs : List (RustRule × Ast)) : Prop where
  length : gs.length = rs.length
  rule : ∀ (i : Nat) g x, gs[i]? = some g → rs[i]? = some x → Sized g ∧ RuleFor g x.1 ∧ Pattern T x.1 x.2

private theorem create_rules : ∀ {gs : List GoRule} {rs : List RustRule}, gs.length = rs.length →
    (∀ (i : Nat) g x, gs[i]? = some g → rs[i]? = some x → goCreateRule D g = some x) → goCreateRules D gs = some rs
  | [], [], _, _ => rfl
  | [], _ :: _, h, _ => by simp at h
  | _ :: _, [], h, _ => by simp at h
  | g :: gs, r :: rs, hl, h => by
    unfold goCreateRules
    rw [h 0 g r rfl rfl, create_rules (gs := gs) (rs := rs) (by simpa using hl) (fun i g x hg hx => h (i + 1) g x hg hx)]

private theorem created (h : AskFor T gs rs) : goCreateRules D gs = some (rs.map (·.1)) := by
  refine create_rules (by simp [h.length]) (fun i g r hg hr => ?_)
  rw [List.getElem?_map, Option.map_eq_some_iff] at hr
  obtain ⟨x, hx, rfl⟩ := hr
  obtain ⟨h1, h2, _⟩ := h.rule i g x hg hx
  exact C64_rule_arrives h1 h2

private theorem goScanner_iff (h : AskFor T gs rs) {sc : Scanner} :
    goScanner O D gs = some sc ↔ O.scanner {} (rs.map (·.1)) = .ok sc := by
  unfold goScanner
  rw [created h]
  dsimp only
  cases O.scanner {} (rs.map (·.1)) <;> simp

/-- C81, creation: Go gets a scanner exactly if all patterns are accepted, no partial redaction is of no characters, and all
keywords are within the limits. -/
theorem C81_created_iff (O : Outside) (D : Dates) (h : AskFor T gs rs) : (∃ sc, goScanner O D gs = some sc) ↔
    ∀ x ∈ rs, (∃ rx, validatePattern O.build matchesNothing x.1.pattern = .ok (.ok rx)) ∧
      ¬ BadAction x.1.action ∧ ∀ k, x.1.keywords = some k → WellFormed k := by
  have : (∃ sc, goScanner O D gs = some sc) ↔ ∃ sc, O.scanner {} (rs.map (·.1)) = .ok sc := by
    simp only [goScanner_iff h]
  rw [this, C80_built_iff]
  simp only [List.mem_map, forall_exists_index, and_imp, forall_apply_eq_imp_iff₂]

private theorem created_all : ∀ {gs : List GoRule} {rs : List RustRule}, goCreateRules D gs = some rs →
    gs.length = rs.length ∧ ∀ (i : Nat) g, gs[i]? = some g → ∃ r, goCreateRule D g = some r ∧ rs[i]? = some r
  | [], rs, h => by
    cases h
    exact ⟨rfl, fun i g hg => by simp at hg⟩
  | g :: gs, rs, h => by
    unfold goCreateRules at h
    cases hg : goCreateRule D g with
    | none => rw [hg] at h; cases h
    | some r =>
      cases hgs : goCreateRules D gs with
      | none => rw [hg, hgs] at h; cases h
      | some rs' =>
        rw [hg, hgs] at h
        cases h
        obtain ⟨h1, h2⟩ := created_all hgs
        refine ⟨by simp [h1], fun i g' hg' => ?_⟩
        cases i with
        | zero => cases hg'; exact ⟨r, hg, rfl⟩
        | succ i => exact h2 i g' hg'

/-- C81, no rule is left out: Go gets a scanner only if all its rules can be created; the scanner has a rule for each of them,
in this order, and the features that are documented as the default ones. -/
theorem C81_every_rule {sc : Scanner} (h : goScanner O D gs = some sc) :
    sc.rules.length = gs.length ∧
    (∀ (i : Nat) g, gs[i]? = some g → ∃ r rule, goCreateRule D g = some r ∧ sc.rules[i]? = some rule ∧
      rule.scope = r.scope ∧ rule.info.action = r.action) ∧
    sc.wildcards = false ∧ sc.multipassEnabled = true ∧ ∀ rule ∈ sc.rules, ∀ c p p' ex, rule.run c p ex = rule.run c p' ex := by
  unfold goScanner at h
  cases hg : goCreateRules D gs with
  | none => rw [hg] at h; cases h
  | some rs =>
    rw [hg] at h
    dsimp only at h
    cases hs : O.scanner {} rs with
    | error e => rw [hs] at h; cases h
    | ok sc' =>
      rw [hs] at h
      cases h
      obtain ⟨h1, h2⟩ := created_all hg
      obtain ⟨h3, h4, h5, h6, _⟩ := C80_rules_as_configured hs
      refine ⟨by omega, fun i g hg => ?_, h5, h6, C80_paths_ignored hs rfl⟩
      obtain ⟨r, hr, hi⟩ := h2 i g hg
      obtain ⟨rule, e1, e2, e3, _⟩ := h4 i r hi
      exact ⟨r, rule, hr, e1, e2, e3⟩

private theorem rule_at (h : AskFor T gs rs) {i : Nat} {x : RustRule × Ast} (hx : rs[i]? = some x) :
    RuleFor (gs[i]?.getD ⟨[], [], ⟨[], [], 0, []⟩, none, []⟩) x.1 ∧ Pattern T x.1 x.2 := by
  have hi : i < gs.length := by rw [h.length]; exact (List.getElem?_eq_some_iff.1 hx).1
  have hg := List.getElem?_eq_getElem hi
  rw [hg]
  exact (h.rule i _ x hg hx).2

private theorem output_append (f : Nat → Str → Str) (ps qs : List Piece) (tail : Str) :
    output f (ps ++ qs) tail = output f ps (output f qs tail) := by
  induction ps with
  | nil => rfl
  | cons p ps ih => simp only [List.cons_append, output, ih]

private theorem output_tail (f : Nat → Str → Str) (ps : List Piece) (tail : Str) :
    output f ps tail = output f ps [] ++ tail := by
  induction ps with
  | nil => rfl
  | cons p ps ih => simp only [output]; rw [ih]; simp

private theorem input_append (ps qs : List Piece) (tail : Str) : input (ps ++ qs) tail = input ps (input qs tail) := by
  induction ps with
  | nil => rfl
  | cons p ps ih => simp only [List.cons_append, input, ih]

private theorem input_tail (ps : List Piece) (tail : Str) : input ps tail = input ps [] ++ tail := by
  induction ps with
  | nil => rfl
  | cons p ps ih => simp only [input]; rw [ih]; simp

private theorem blen_output_le (f : Nat → Str → Str) (before : List Piece) (q : Piece) (after : List Piece) (tail : Str) :
    blen (output f before q.gap) ≤ blen (output f (before ++ [q]) []) ∧
    blen (output f (before ++ [q]) []) ≤ blen (output f (before ++ q :: after) tail) ∧
    blen (input (before ++ [q]) []) ≤ blen (input (before ++ q :: after) tail) := by
  refine ⟨?_, ?_, ?_⟩
  · rw [output_append, output_tail f before q.gap, output_tail f before (output f [q] [])]
    simp [output]
  · rw [show before ++ q :: after = (before ++ [q]) ++ after by simp, output_append _ (before ++ [q]),
      output_tail f (before ++ [q]) (output f after tail)]
    simp
  · rw [show before ++ q :: after = (before ++ [q]) ++ after by simp, input_append (before ++ [q]),
      input_tail (before ++ [q]) (input after tail)]
    simp

private theorem ranges_ge (ps : List Piece) : ∀ o, ∀ m ∈ ranges o ps, o ≤ m.st := by
  induction ps with
  | nil => intro o m h; cases h
  | cons p ps ih =>
    intro o m h
    rcases List.mem_cons.1 h with rfl | h
    · simp
    · have := ih _ m h; omega

private theorem ranges_ordered (ps : List Piece) : ∀ o, (ranges o ps).Pairwise (fun a b => a.en ≤ b.st) := by
  induction ps with
  | nil => intro o; exact .nil
  | cons p ps ih => intro o; exact .cons (fun m hm => ranges_ge ps _ m hm) (ih _)

private theorem pieces_inj : ∀ {ps ps' : List Piece} {tail tail' : Str} {o : Nat}, input ps tail = input ps' tail' →
    ranges o ps = ranges o ps' → ps = ps' ∧ tail = tail'
  | [], [], _, _, _, h, _ => ⟨rfl, h⟩
  | [], _ :: _, _, _, _, _, h => by cases h
  | _ :: _, [], _, _, _, _, h => by cases h
  | p :: ps, p' :: ps', tail, tail', o, h, hr => by
    simp only [ranges, List.cons.injEq, M.mk.injEq] at hr
    obtain ⟨⟨h1, h2, h3⟩, h4⟩ := hr
    simp only [input, List.append_assoc] at h
    obtain ⟨e1, h⟩ := append_inj_blen h (by omega)
    obtain ⟨e2, h⟩ := append_inj_blen h (by omega)
    rw [h3] at h4
    obtain ⟨rfl, rfl⟩ := pieces_inj h h4
    obtain ⟨_, _, _⟩ := p
    obtain ⟨_, _, _⟩ := p'
    simp only at h1 e1 e2
    subst h1 e1 e2
    exact ⟨rfl, rfl⟩

private theorem near_mem {kw win : Nat → Nat → Prop} {start : Nat} {l out : List (Nat × Nat)} (h : Near kw win start l out)
    (m : Nat × Nat) (hm : m ∈ out) : m ∈ l := (near_sublist h).subset hm

private theorem preferred_lt {n : Node} (hp : NeverEmpty T n) {c : Str} {s e : Nat} (h : Preferred T n c s e) : s < e := by
  obtain ⟨b, t, q, _, h1, h2, hs⟩ := (C79_preferred_match T _ _ _).1 _ h
  cases t with
  | nil => exact absurd hs (hp b q)
  | cons x t => have := blen_pos (s := x :: t) (by simp); omega

private theorem finds_lt {r : RustRule} {a : Ast} (hp : NeverEmpty T (meaning T a noFlags).1) {c : Str} {l : List (Nat × Nat)}
    (h : Finds T O r a c l) : ∀ m ∈ l, m.1 < m.2 := by
  intro m hm
  refine preferred_lt hp (c := c) ?_
  · rcases h with ⟨_, h⟩ | ⟨_, _, _, _, h1, h2⟩
    · exact (leftmost_mem h m hm).1
    · exact (leftmost_mem h1 m (near_mem h2 m hm)).1

private theorem encodePath_length : ∀ p : Path, (encodePath p).length = pathCost p
  | [] => rfl
  | .field f :: p => by
    have := encodePath_length p
    simp [encodePath, pathCost, encodeBytes, be32, utf8_length, this]; omega
  | .index i :: p => by
    have := encodePath_length p
    simp [encodePath, pathCost, be32, this]; omega

private theorem le_sum {a : Nat} : ∀ {l : List Nat}, a ∈ l → a ≤ l.sum
  | b :: l, h => by
    rw [List.sum_cons]
    rcases List.mem_cons.1 h with rfl | h
    · omega
    · have := le_sum h
      omega

private theorem pieces_length (ps : List Piece) (tail : Str) : ∀ o, (∀ m ∈ ranges o ps, m.st < m.en) →
    ps.length ≤ blen (input ps tail) := by
  induction ps with
  | nil => intro _ _; simp
  | cons p ps ih =>
    intro o h
    have h1 := ih _ (fun m hm => h m (List.mem_cons_of_mem _ hm))
    have h2 := h _ List.mem_cons_self
    simp only at h2
    simp [input]
    omega

section
variable {sc : Scanner} (hO : Faithful T O) (h : AskFor T gs rs) (hsc : O.scanner {} (rs.map (·.1)) = .ok sc)
include hO h hsc

private theorem rule_facts {i : Nat} {x : RustRule × Ast} (hx : rs[i]? = some x) :
    ∃ rule, sc.rules[i]? = some rule ∧ rule.scope = .excl [] ∧ rule.info.action = x.1.action ∧
      ∀ c, Regular T O x.1 x.2 c → (∀ path ex, ∃ found, rule.run c path ex = Res.ok found) ∧
        ∀ path found, rule.run c path false = Res.ok found → Finds T O x.1 x.2 c found.matches_ := by
  have hx' : (rs.map (·.1))[i]? = some x.1 := by rw [List.getElem?_map, hx]; rfl
  obtain ⟨h1, h2⟩ := rule_at h hx
  obtain ⟨rule, hr, hs, ha, _⟩ := (C80_rules_as_configured hsc).2.1 i x.1 hx'
  obtain ⟨rule', hr', hret⟩ := C80_returns_partial hO hsc hx' h2
  rw [hr] at hr'
  cases hr'
  refine ⟨rule, hr, by rw [hs, h1.scope], ha, fun c hc => ⟨hret c ?_, fun path found hf => ?_⟩⟩
  · by_cases hq : Requires x.1
    · exact .inl hq
    · exact .inr (hc.excluded hq)
  · by_cases hq : Requires x.1
    · obtain ⟨k, hk, hne⟩ := hq
      obtain ⟨rule', hr', hn⟩ := C80_required_keywords_partial hO hsc hx' h2 hk hne
      rw [hr] at hr'
      cases hr'
      obtain ⟨l, out, h3, h4, h5⟩ := hn c path (hc.apart k hk)
      rw [hf] at h5
      cases h5
      simp only [Bool.false_eq_true, false_and, if_false, List.append_nil]
      exact .inr ⟨k, l, hk, hne, h3, h4⟩
    · obtain ⟨rule', hr', hn⟩ := C80_finds_partial hO hsc hx' h2 hq
      rw [hr] at hr'
      cases hr'
      exact .inl ⟨hq, (hn c path found hf _).1 rfl⟩

omit hO h in
private theorem back {i : Nat} {rule : CRule} (hr : sc.rules[i]? = some rule) : ∃ x, rs[i]? = some x := by
  have h1 := (C80_rules_as_configured hsc).1
  rw [List.length_map] at h1
  have : i < sc.rules.length := (List.getElem?_eq_some_iff.1 hr).1
  exact ⟨_, List.getElem?_eq_getElem (by omega)⟩

private theorem action_eq (i : Nat) : (infoOf sc i).action = actionAt rs i := by
  unfold infoOf actionAt
  cases hx : rs[i]? with
  | some x =>
    obtain ⟨rule, hr, _, ha, _⟩ := rule_facts hO h hsc hx
    rw [hr]
    exact ha
  | none =>
    cases hr : sc.rules[i]? with
    | none => rfl
    | some rule =>
      obtain ⟨x, hx'⟩ := back hsc hr
      rw [hx] at hx'
      cases hx'

private theorem kept_iff (leaves : List Leaf) (p : Path) {c : Str} (hs : ∀ x ∈ rs, Regular T O x.1 x.2 c) :
    ∃ found : Nat → List (Nat × Nat), (∀ (i : Nat) x, rs[i]? = some x → Finds T O x.1 x.2 c (found i)) ∧
      ∀ m, Kept sc [] leaves p c m ↔ m.rule < rs.length ∧ (m.st, m.en) ∈ found m.rule := by
  have hall : ∀ i : Nat, ∃ l : List (Nat × Nat), ∀ x, rs[i]? = some x → Finds T O x.1 x.2 c l ∧
      ∃ rule f, sc.rules[i]? = some rule ∧ rule.scope = .excl [] ∧ rule.run c p false = Res.ok f ∧ f.matches_ = l := by
    intro i
    cases hx : rs[i]? with
    | none => exact ⟨[], fun x hx => by cases hx⟩
    | some x =>
      obtain ⟨rule, hr, hsco, _, h1⟩ := rule_facts hO h hsc hx
      obtain ⟨h1, h2⟩ := h1 c (hs x (List.mem_of_getElem? hx))
      obtain ⟨f, hf⟩ := h1 p false
      exact ⟨f.matches_, fun y hy => by cases hy; exact ⟨h2 p f hf, rule, f, hr, hsco, hf, rfl⟩⟩
  refine ⟨fun i => Classical.choose (hall i), fun i x hx => (Classical.choose_spec (hall i) x hx).1, fun m => ?_⟩
  constructor
  · rintro ⟨⟨rule, f, ⟨_, hr, _, _⟩, hf, hm⟩, _⟩
    obtain ⟨x, hx⟩ := back hsc hr
    obtain ⟨_, rule', f', hr', _, hf', hl⟩ := Classical.choose_spec (hall m.rule) x hx
    rw [hr] at hr'
    cases hr'
    rw [hf] at hf'
    cases hf'
    rw [hl] at hm
    exact ⟨(List.getElem?_eq_some_iff.1 hx).1, hm⟩
  · rintro ⟨hlt, hm⟩
    obtain ⟨_, rule, f, hr, hsco, hf, hl⟩ := Classical.choose_spec (hall m.rule) _ (List.getElem?_eq_getElem hlt)
    refine ⟨⟨rule, f, ⟨by simp, hr, by rw [hsco]; trivial, ?_⟩, hf, ?_⟩, ?_⟩
    · rw [hsco]; simp [Excludes]
    · rw [hl]; exact hm
    · rintro ⟨_, _, _, _, _, _, l', _, r', rule', f', ⟨_, hr', _, hex⟩, _⟩
      obtain ⟨x', hx'⟩ := back hsc hr'
      obtain ⟨_, hr'', hsco', _⟩ := rule_facts hO h hsc hx'
      rw [hr'] at hr''
      cases hr''
      rw [hsco'] at hex
      simp [Excludes] at hex

private theorem leaf_cut {leaves : List Leaf} {l : Leaf} (hs : ∀ x ∈ rs, Regular T O x.1 x.2 l.text) {os : List RuleMatch} {new : Str}
    (hr : LeafResult Enc.utf8 sc [] leaves l os new) : ∃ ps tail, Cut T O rs l.text ps tail ∧ new = rewritten O rs ps tail ∧
      (∀ m, m ∈ os.map goMatch ↔ Reported O rs l.path ps m) ∧ os.length ≤ blen l.text ∧
      ((∃ o ∈ os, redacting sc o.rule = true) ↔ ∃ q ∈ ps, actionAt rs q.rule ≠ .none) ∧
      (blen l.text < 2147483648 → blen new < 2147483648 → (utf8 (displayPath l.path)).length < 4294967296 →
        rs.length ≤ 4294967296 → ∀ o ∈ os, Fits o) := by
  obtain ⟨ks, res, ps, tail, h1, h2, _, h4, rfl, rfl, rfl⟩ := hr
  have hact : ∀ i, (infoOf sc i).action = actionAt rs i := action_eq hO h hsc
  have hfp : sc.fp = O.fp := (C80_rules_as_configured hsc).2.2.2.2.1
  have hred : redacting sc = fun i => decide (actionAt rs i ≠ .none) := by
    funext i; unfold redacting; rw [hact]
  have hf : (fun r t => redacted sc.fp (infoOf sc r).action t) = fun i t => redacted O.fp (actionAt rs i) t := by
    funext i t; rw [hact, hfp]
  obtain ⟨found, hfound, hkept⟩ := kept_iff hO h hsc leaves l.path hs
  have hks : ∀ m, m ∈ ks ↔ m.rule < rs.length ∧ (m.st, m.en) ∈ found m.rule := fun m => (h1 m).trans (hkept m)
  rw [hred] at h2
  refine ⟨ps, tail, ⟨h4, found, ks, hfound, hks, h2⟩, by rw [hf]; rfl, fun m => ?_, ?_, ?_, ?_⟩
  · rw [List.mem_map]
    constructor
    · rintro ⟨o, ho, rfl⟩
      obtain ⟨before, q, after, hps, rfl⟩ := (mem_reports_iff ps [] []).1 ho
      refine ⟨before, q, after, hps, rfl, rfl, by simp [goMatch, hact], ?_, ?_, ?_⟩ <;>
        simp [goMatch, hf, rewritten, Enc.utf8]
    · rintro ⟨before, q, after, hps, e1, e2, e3, e4, e5, e6⟩
      refine ⟨_, (mem_reports_iff ps [] []).2 ⟨before, q, after, hps, rfl⟩, ?_⟩
      obtain ⟨m1, m2, m3, m4, m5, m6⟩ := m
      simp only at e1 e2 e3 e4 e5 e6
      subst e1 e2 e3 e4 e5 e6
      simp [goMatch, hact, hfp, rewritten, Enc.utf8]
  · rw [reports_length _ _ _ _ _ ps _ _ 0, h4]
    have hl : (ranges 0 ps).length = ps.length := by
      have : ∀ (ps : List Piece) o, (ranges o ps).length = ps.length := by
        intro ps
        induction ps with
        | nil => intro _; rfl
        | cons p ps ih => intro o; simp [ranges, ih]
      exact this ps 0
    rw [hl]
    refine pieces_length ps tail 0 (fun m hm => ?_)
    obtain ⟨hlt, hmem⟩ := (hks m).1 (h2.1 m hm)
    have hx := List.getElem?_eq_getElem hlt
    exact finds_lt (rule_at h hx).2.neverEmpty (hfound _ _ hx) _ hmem
  · rw [hred]
    constructor
    · rintro ⟨o, ho, hro⟩
      obtain ⟨before, q, after, hps, rfl⟩ := (mem_reports_iff ps [] []).1 ho
      exact ⟨q, by simp [hps], by simpa using hro⟩
    · rintro ⟨q, hq, hro⟩
      obtain ⟨before, after, hps⟩ := List.append_of_mem hq
      exact ⟨_, (mem_reports_iff ps [] []).2 ⟨before, q, after, hps, rfl⟩, by simpa using hro⟩
  · intro hin hout hpath hlen o ho
    obtain ⟨before, q, after, hps, rfl⟩ := (mem_reports_iff ps [] []).1 ho
    have hb := blen_output_le (fun r t => redacted sc.fp (infoOf sc r).action t) before q after tail
    rw [← hps, ← h4] at hb
    have hrule : q.rule < rs.length := by
      have hmem : ∃ m ∈ ranges 0 ps, m.rule = q.rule := by
        have : ∀ (ps : List Piece) o, q ∈ ps → ∃ m ∈ ranges o ps, m.rule = q.rule := by
          intro ps
          induction ps with
          | nil => intro o h; cases h
          | cons p ps ih =>
            intro o h
            rcases List.mem_cons.1 h with rfl | h
            · exact ⟨_, List.mem_cons_self, rfl⟩
            · obtain ⟨m, hm, he⟩ := ih (o + blen p.gap + blen p.text) h
              exact ⟨m, List.mem_cons_of_mem _ hm, he⟩
        exact this ps 0 (by simp [hps])
      obtain ⟨m, hm, he⟩ := hmem
      rw [← he]
      exact ((hks m).1 (h2.1 m hm)).1
    simp only [Fits, Enc.utf8, List.nil_append]
    refine ⟨by omega, hpath, by omega, by omega, by omega, by omega⟩

end

/-- C81: rules and an event of the Go package.  After `CreateScanner` and `ScanEventsMap`, every string of the event of the
caller has the text that the configurations of the rules ask for: it is cut at the matches that the patterns, validators and
keywords ask for and that remain after resolving overlaps, and each of them is rewritten by its action.  Nothing
else is changed.  The reported matches are exactly these, with their places in the new text.  Missing: patterns that the
conversion changes or that match empty texts (C76), texts where a required keyword overlaps a match (C24), keys that are not
valid UTF-8 (C51), places where the check of excluded keywords panics (C27). -/
theorem C81_go_rules_partial (hO : Faithful T O) (h : AskFor T gs rs) (hn : rs.length ≤ 4294967296) (hc : ∃ sc, goScanner O D gs = some sc)
    (ev : GoFields) (hk : GoKeyed (.map ev)) (hs : GoSized (.map ev)) (hu : KeysUtf8 (.map ev)) (hstr : StringsUtf8 (.map ev))
    (hsafe : ∀ p s, GoAt (.map ev) (goPath p) (.str (utf8 s)) → ∀ x ∈ rs, Regular T O x.1 x.2 s)
    (size : Str → Nat) (hsize : ∀ p s, GoAt (.map ev) (goPath p) (.str (utf8 s)) →
      ∀ ps tail, Cut T O rs s ps tail → blen (rewritten O rs ps tail) ≤ size s)
    (htotal : ∀ leaves, LeavesOf (.map ev) leaves → (leaves.map fun l => stringCost (size l.text) l).sum < 2147483648) :
    ∃ G res, goRun O D gs ev = Res.ok (some (goRewrite G (.map ev), res)) ∧
      ∃ cutOf : Path → Str → List Piece × Str,
        (∀ p s, GoAt (.map ev) (goPath p) (.str (utf8 s)) → Cut T O rs s (cutOf p s).1 (cutOf p s).2 ∧
          G (goPath p) (utf8 s) = utf8 (rewritten O rs (cutOf p s).1 (cutOf p s).2)) ∧
        (res.mutated = true ↔ ∃ p s, GoAt (.map ev) (goPath p) (.str (utf8 s)) ∧
          ∃ q ∈ (cutOf p s).1, actionAt rs q.rule ≠ .none) ∧
        ∀ m, m ∈ res.matches_ ↔ ∃ p s, GoAt (.map ev) (goPath p) (.str (utf8 s)) ∧ Reported O rs p (cutOf p s).1 m := by
  obtain ⟨sc, hsc'⟩ := hc
  have hsc := (goScanner_iff h).1 hsc'
  have hrun : goRun O D gs ev = scanEventsMap sc ev := by unfold goRun; rw [hsc']
  rw [hrun]
  have hok : ScannerOk sc := by
    refine C80_scanner_ok_partial hO hsc (fun r hr => ?_)
    obtain ⟨x, hx, rfl⟩ := List.mem_map.1 hr
    obtain ⟨i, hi, he⟩ := List.mem_iff_getElem.1 hx
    exact ⟨x.2, (rule_at h (i := i) (x := x) (by rw [List.getElem?_eq_getElem hi, he])).2⟩
  have hret : ∀ rule ∈ sc.rules, ∀ p b, GoAt (.map ev) (goPath p) (.str b) → ∀ ex, ∃ f, rule.run (lossy b) p ex = Res.ok f := by
    intro rule hrule p b hb ex
    obtain ⟨i, hi, he⟩ := List.mem_iff_getElem.1 hrule
    have hri : sc.rules[i]? = some rule := by rw [List.getElem?_eq_getElem hi, he]
    obtain ⟨x, hx⟩ := back hsc hri
    obtain ⟨rule', hr', _, _, h1⟩ := rule_facts hO h hsc hx
    rw [hri] at hr'
    cases hr'
    refine (h1 _ (hsafe p _ ?_ x (List.mem_of_getElem? hx))).1 p ex
    rw [lossy_of_utf8 (hstr _ _ hb)]
    exact hb
  have hleafOf : ∀ {leaves}, LeavesOf (.map ev) leaves → ∀ {l : Leaf}, l ∈ leaves →
      GoAt (.map ev) (goPath l.path) (.str (utf8 l.text)) := by
    intro leaves h1 l hl
    obtain ⟨_, b, hb, ht⟩ := (h1.2 l).1 hl
    rw [ht, lossy_of_utf8 (hstr _ _ hb)]
    exact hb
  have hresp' : ∀ b, (GoVal.map ev).encode = some b → ResponseFits sc b := by
    refine response_small hok ev hk hs hu hret (fun l => stringCost (size l.text) l) (fun leaves h1 l hl os new hr => ?_) htotal
    have hat := hleafOf h1 hl
    obtain ⟨ps, tail, c1, c2, _, c4, _⟩ := leaf_cut hO h hsc (fun x hx => hsafe _ _ hat x hx) hr
    have := hsize _ _ hat ps tail c1
    rw [← c2] at this
    have hmul : os.length * (42 + blen (displayPath l.path)) ≤ (blen l.text + 1) * (42 + blen (displayPath l.path)) :=
      Nat.mul_le_mul_right _ (by omega)
    rw [encodePath_length]
    unfold stringCost
    omega
  obtain ⟨leaves, out, h1, h2, h3⟩ := C51_redaction_reaches_caller_partial hok ev hk hs hu hret hresp'
  have hleaf : ∀ {l : Leaf}, l ∈ leaves → GoAt (.map ev) (goPath l.path) (.str (utf8 l.text)) := hleafOf h1
  have hmem : ∀ {p s}, GoAt (.map ev) (goPath p) (.str (utf8 s)) → (⟨p, s, false⟩ : Leaf) ∈ leaves :=
    fun hat => (h1.2 _).2 ⟨rfl, _, hat, (lossy_utf8 _).symm⟩
  have hcut := fun l hl => leaf_cut hO h hsc (fun x hx => hsafe _ _ (hleaf hl) x hx) (h2 l hl)
  have hfit : ∀ l ∈ leaves, (utf8 (out l).2).length < 4294967296 ∧ ∀ o ∈ (out l).1, Fits o := by
    intro l hl
    obtain ⟨ps, tail, c1, c2, _, _, _, c5⟩ := hcut l hl
    have h4 := hsize _ _ (hleaf hl) ps tail c1
    rw [← c2] at h4
    have h5 : stringCost (size l.text) l < 2147483648 := by
      refine Nat.lt_of_le_of_lt (le_sum ?_) (htotal leaves h1)
      exact List.mem_map.2 ⟨l, hl, rfl⟩
    unfold stringCost at h5
    have h6 : 42 + blen (displayPath l.path) ≤ (blen l.text + 1) * (42 + blen (displayPath l.path)) :=
      Nat.le_mul_of_pos_left _ (by omega)
    have h7 : (blen l.text + 1) * 1 ≤ (blen l.text + 1) * (42 + blen (displayPath l.path)) :=
      Nat.mul_le_mul_left _ (by omega)
    exact ⟨by rw [utf8_length]; omega, c5 (by omega) (by omega) (by rw [utf8_length]; omega) hn⟩
  obtain ⟨G, res, h4, h5, h6, h7⟩ := h3 hfit
  have hch : ∃ cutOf : Path → Str → List Piece × Str, ∀ l ∈ leaves,
      Cut T O rs l.text (cutOf l.path l.text).1 (cutOf l.path l.text).2 ∧
      (out l).2 = rewritten O rs (cutOf l.path l.text).1 (cutOf l.path l.text).2 ∧
      (∀ m, m ∈ (out l).1.map goMatch ↔ Reported O rs l.path (cutOf l.path l.text).1 m) ∧
      ((∃ o ∈ (out l).1, redacting sc o.rule = true) ↔ ∃ q ∈ (cutOf l.path l.text).1, actionAt rs q.rule ≠ .none) := by
    have : ∀ p s, ∃ c : List Piece × Str, ∀ l ∈ leaves, l.path = p → l.text = s → Cut T O rs l.text c.1 c.2 ∧
        (out l).2 = rewritten O rs c.1 c.2 ∧ (∀ m, m ∈ (out l).1.map goMatch ↔ Reported O rs l.path c.1 m) ∧
        ((∃ o ∈ (out l).1, redacting sc o.rule = true) ↔ ∃ q ∈ c.1, actionAt rs q.rule ≠ .none) := by
      intro p s
      by_cases hl : (⟨p, s, false⟩ : Leaf) ∈ leaves
      · obtain ⟨ps, tail, c1, c2, c3, _, c4, _⟩ := hcut _ hl
        refine ⟨(ps, tail), fun l hl' e1 e2 => ?_⟩
        obtain rfl : l = ⟨p, s, false⟩ := by
          obtain ⟨lp, lt, lf⟩ := l
          have := ((h1.2 _).1 hl').1
          simp only at e1 e2 this
          rw [e1, e2, this]
        exact ⟨c1, c2, c3, c4⟩
      · refine ⟨([], []), fun l hl' e1 e2 => absurd ?_ hl⟩
        obtain ⟨lp, lt, lf⟩ := l
        have := ((h1.2 _).1 hl').1
        simp only at e1 e2 this
        rw [← e1, ← e2, ← this]
        exact hl'
    exact ⟨fun p s => Classical.choose (this p s), fun l hl => Classical.choose_spec (this l.path l.text) l hl rfl rfl⟩
  obtain ⟨cutOf, hch⟩ := hch
  refine ⟨G, res, h4, cutOf, fun p s hat => ?_, ?_, fun m => ?_⟩
  · obtain ⟨c1, c2, _, c4⟩ := hch _ (hmem hat)
    refine ⟨c1, ?_⟩
    obtain ⟨g1, g2⟩ := h7 _ (hmem hat) (utf8 s)
    dsimp only at c1 c2 c4 g1 g2
    rw [← c2]
    by_cases hr : ∃ o ∈ (out ⟨p, s, false⟩).1, redacting sc o.rule = true
    · exact g1 hr
    · rw [g2 hr, unchanged (h2 _ (hmem hat)) hr]
  · rw [h6]
    constructor
    · rintro ⟨l, hl, hr⟩
      exact ⟨_, _, hleaf hl, (hch l hl).2.2.2.1 hr⟩
    · rintro ⟨p, s, hat, hq⟩
      exact ⟨_, hmem hat, (hch _ (hmem hat)).2.2.2.2 hq⟩
  · rw [h5, List.mem_map]
    constructor
    · rintro ⟨o, ho, rfl⟩
      obtain ⟨l, hl, ho⟩ := List.mem_flatMap.1 ho
      exact ⟨_, _, hleaf hl, ((hch l hl).2.2.1 _).1 (List.mem_map_of_mem ho)⟩
    · rintro ⟨p, s, hat, hq⟩
      obtain ⟨o, ho, he⟩ := List.mem_map.1 (((hch _ (hmem hat)).2.2.1 m).2 hq)
      exact ⟨o, List.mem_flatMap.2 ⟨_, hmem hat, ho⟩, he⟩

/-! ## The cut is unique -/

private theorem finds_unique {r : RustRule} {a : Ast} {c : Str} (hkw : ∀ k, r.keywords = some k →
      ∀ s e s' e', KeywordAt O k.included c s e → KeywordAt O k.included c s' e' → e ≤ e' → s ≤ s')
    {l l' : List (Nat × Nat)} (h : Finds T O r a c l) (h' : Finds T O r a c l') : l = l' := by
  have hp := (C79_preferred_match T (meaning T a noFlags).1 c)
  rcases h with ⟨hq, h⟩ | ⟨k, l0, hk, hne, h, hn⟩ <;> rcases h' with ⟨hq', h'⟩ | ⟨k', l0', hk', hne', h', hn'⟩
  · exact leftmost_unique (fun s e e' h h' => (hp s).2.1 _ _ h.1 h'.1) h h'
  · exact absurd ⟨k', hk', hne'⟩ hq
  · exact absurd ⟨k, hk, hne⟩ hq'
  · rw [hk] at hk'
    cases hk'
    rw [leftmost_unique (fun s e e' h h' => (hp s).2.1 _ _ h.1 h'.1) h h'] at hn
    exact C85_determined (hkw k hk) hn hn'

/-- C81: there is only one way to cut a text as the rules ask for, if no keyword is found within another one. -/
theorem C81_cut_unique (hp : ∀ x ∈ rs, NeverEmpty T (meaning T x.2 noFlags).1) {c : Str} {ps ps' : List Piece}
    {tail tail' : Str} (hkw : ∀ x ∈ rs, ∀ k, x.1.keywords = some k →
      ∀ s e s' e', KeywordAt O k.included c s e → KeywordAt O k.included c s' e' → e ≤ e' → s ≤ s')
    (h : Cut T O rs c ps tail) (h' : Cut T O rs c ps' tail') : ps = ps' ∧ tail = tail' := by
  obtain ⟨found, ks, hf, hk, hr⟩ := h.resolved
  obtain ⟨found', ks', hf', hk', hr'⟩ := h'.resolved
  have hsame : ∀ m, m ∈ ks ↔ m ∈ ks' := by
    intro m
    rw [hk, hk']
    refine and_congr_right fun hlt => ?_
    have hx := List.getElem?_eq_getElem hlt
    rw [finds_unique (hkw _ (List.mem_of_getElem? hx)) (hf _ _ hx) (hf' _ _ hx)]
  have hlt : ∀ m ∈ ks, m.st < m.en := by
    intro m hm
    obtain ⟨h1, h2⟩ := (hk m).1 hm
    have hx := List.getElem?_eq_getElem h1
    exact finds_lt (hp _ (List.mem_of_getElem? hx)) (hf _ _ hx) _ h2
  refine pieces_inj (o := 0) (by rw [← h.text, ← h'.text]) ?_
  exact ordered_ext (fun m hm => hlt m (hr.1 m hm)) (fun m hm => hlt m ((hsame m).2 (hr'.1 m hm)))
    (ranges_ordered ps 0) (ranges_ordered ps' 0) (isResolution_unique hsame hr hr')

/-! ## One redacting rule -/

private theorem replaced_of {n : Node} {value c : Str} : ∀ (ps : List Piece) (before tail : Str), c = before ++ input ps tail →
    Leftmost (Preferred T n c) (blen before) ((ranges (blen before) ps).map fun m => (m.st, m.en)) →
    ReplacedAll T n value before (input ps tail) (output (fun _ _ => value) ps tail)
  | [], before, tail, hc, h => by
    cases h with
    | nil h => subst hc; exact .done h
  | p :: ps, before, tail, hc, h => by
    simp only [ranges, List.map_cons] at h
    cases h with
    | cons h1 h2 h3 h4 =>
      have hc' : c = (before ++ p.gap ++ p.text) ++ input ps tail := by rw [hc]; simp [input]
      have e1 : blen before + blen p.gap = blen (before ++ p.gap) := by simp
      have e2 : blen before + blen p.gap + blen p.text = blen (before ++ p.gap ++ p.text) := by simp; omega
      rw [e2] at h2 h4
      rw [e1] at h2 h3
      simp only [input] at hc
      subst hc
      exact .next h2 h3 (replaced_of ps _ tail hc' h4)

/-- With one rule, the text is cut at the matches that the rule finds. -/
private theorem cut_one {x : RustRule × Ast} (hp : NeverEmpty T (meaning T x.2 noFlags).1) (hq : ¬ Requires x.1) {c : Str}
    {ps : List Piece} {tail : Str} (h : Cut T O [x] c ps tail) :
    Leftmost (Asked T O x.1 x.2 c) 0 ((ranges 0 ps).map (fun m => (m.st, m.en))) := by
  obtain ⟨found, ks, hf, hk, h1, h2⟩ := h.resolved
  have hf0 := hf 0 x rfl
  have hl : Leftmost (Asked T O x.1 x.2 c) 0 (found 0) := by
    rcases hf0 with ⟨_, h⟩ | ⟨k, _, hk, hne, _⟩
    · exact h
    · exact absurd ⟨k, hk, hne⟩ hq
  have hlt : ∀ s e, Asked T O x.1 x.2 c s e → s < e := fun s e h => preferred_lt hp h.1
  have hmem : ∀ m, m ∈ ks ↔ m.rule = 0 ∧ (m.st, m.en) ∈ found 0 := by
    intro m
    rw [hk]
    simp only [List.length_singleton, Nat.lt_one_iff]
    exact and_congr_right fun h0 => by rw [h0]
  generalize found 0 = l at hl hmem
  suffices (ranges 0 ps).map (fun m => (m.st, m.en)) = l by rw [this]; exact hl
  have hpw := leftmost_pairwise (fun s e h => Nat.le_of_lt (hlt s e h)) hl
  have hres : ∀ m, m ∈ ranges 0 ps ↔ m ∈ l.map fun q => (⟨0, q.1, q.2⟩ : M) := by
    intro m
    constructor
    · intro hm
      obtain ⟨h0, hml⟩ := (hmem m).1 (h1 m hm)
      refine List.mem_map.2 ⟨_, hml, ?_⟩
      obtain ⟨_, _, _⟩ := m
      simp only at h0
      rw [h0]
    · intro hm
      obtain ⟨q, hq, rfl⟩ := List.mem_map.1 hm
      refine (h2 _ ((hmem _).2 ⟨rfl, hq⟩)).2 ?_
      rintro ⟨r, hr, hh, ho⟩
      obtain ⟨h0, hrl⟩ := (hmem r).1 (h1 r hr)
      have hdis : ∀ {l : List (Nat × Nat)}, l.Pairwise (fun a b => a.2 ≤ b.1) → ∀ a ∈ l, ∀ b ∈ l, a = b ∨ a.2 ≤ b.1 ∨ b.2 ≤ a.1 := by
        intro l
        induction l with
        | nil => intro _ a ha; cases ha
        | cons y l ih =>
          intro h a ha b hb
          obtain ⟨h1, h2⟩ := List.pairwise_cons.1 h
          rcases List.mem_cons.1 ha with rfl | ha' <;> rcases List.mem_cons.1 hb with rfl | hb'
          · exact .inl rfl
          · exact .inr (.inl (h1 b hb'))
          · exact .inr (.inr (h1 a ha'))
          · exact ih h2 a ha' b hb'
      rcases hdis hpw _ hrl _ hq with he | he | he
      · have e1 : r.st = q.1 := by rw [← he]
        have e2 : r.en = q.2 := by rw [← he]
        unfold Higher at hh
        simp only at hh
        rw [h0] at hh
        rcases hh with ⟨a, b⟩ | ⟨_, hh⟩
        · rw [a] at b; cases b
        · omega
      · have := ho.2
        simp only at this he
        omega
      · have := ho.1
        simp only at this he
        omega
  have heq := ordered_ext (fun m hm => hlt _ _ (leftmost_mem hl _ ((hmem m).1 (h1 m hm)).2))
    (by
      intro m hm
      obtain ⟨q, hq, rfl⟩ := List.mem_map.1 hm
      exact hlt _ _ (leftmost_mem hl q hq))
    (ranges_ordered ps 0)
    (show (l.map fun q => (⟨0, q.1, q.2⟩ : M)).Pairwise (fun a b => a.en ≤ b.st) by
      rw [List.pairwise_map]; exact hpw) hres
  rw [heq, List.map_map]
  simp [Function.comp_def]

private theorem replaced_size {n : Node} {value : Str} (hp : NeverEmpty T n) {before rest new : Str}
    (h : ReplacedAll T n value before rest new) : blen new ≤ blen rest * (1 + blen value) := by
  induction h with
  | done _ => exact Nat.le_mul_of_pos_right _ (by omega)
  | @next before gap text rest new h1 _ _ ih =>
    have h2 : 1 ≤ blen text := by
      obtain ⟨b, m, q, e1, e2, e3, hs⟩ := (C79_preferred_match T _ _ _).1 _ h1
      cases m with
      | nil => exact absurd hs (hp b q)
      | cons x m =>
        have := blen_pos (s := x :: m) (by simp)
        simp only [blen_append] at e2 e3
        omega
    simp only [blen_append, Nat.add_mul]
    have h3 : blen gap ≤ blen gap * (1 + blen value) := Nat.le_mul_of_pos_right _ (by omega)
    have h4 : 1 * (1 + blen value) ≤ blen text * (1 + blen value) := Nat.mul_le_mul_right _ h2
    omega

/-- C81, one redacting rule: after `CreateScanner` with `NewRedactingRule(id, pattern, value)` and `ScanEventsMap`, every string
of the event of the caller has `value` in place of every match that a search for the pattern from left to right finds, and
nothing else is changed.  Missing: as above. -/
theorem C81_redacting_rule_partial (hO : Faithful T O) (id : Bytes) {pattern value : Str} {a : Ast} {rx : Rx}
    (ha : Syntax.Denotes pattern a) (hcv : Convertible a) (hne : NeverEmpty T (meaning T a noFlags).1)
    (hacc : validatePattern O.build matchesNothing pattern = .ok (.ok rx))
    (ev : GoFields) (hk : GoKeyed (.map ev)) (hs : GoSized (.map ev)) (hu : KeysUtf8 (.map ev)) (hstr : StringsUtf8 (.map ev))
    (htotal : ∀ leaves, LeavesOf (.map ev) leaves →
      (leaves.map fun l => stringCost (blen l.text * (1 + blen value)) l).sum < 2147483648) :
    ∃ G res, goRun O D [goRedactingRule id (utf8 pattern) (utf8 value) ⟨none, []⟩] ev = Res.ok (some (goRewrite G (.map ev), res)) ∧
      ∀ p s, GoAt (.map ev) (goPath p) (.str (utf8 s)) →
        ∃ s', ReplacedAll T (meaning T a noFlags).1 value [] s s' ∧ G (goPath p) (utf8 s) = utf8 s' := by
  generalize hg : goRedactingRule id (utf8 pattern) (utf8 value) ⟨none, []⟩ = g at *
  let r : RustRule := ⟨pattern, .redact value, none, none, .excl [], [], none⟩
  have hsized : Sized g := by
    rw [← hg]; exact ⟨by simp [goRedactingRule], by intro k hk; cases hk⟩
  have hrule : RuleFor g r := by
    rw [← hg]
    exact ⟨rfl, .redact value rfl rfl, trivial, rfl, rfl, rfl, rfl⟩
  have hreq : ¬ Requires r := by rintro ⟨k, hk, _⟩; cases hk
  have h : AskFor T [g] [(r, a)] := by
    refine ⟨rfl, fun i g' x hg' hx => ?_⟩
    have hi : i = 0 := by
      have := (List.getElem?_eq_some_iff.1 hx).1
      simpa using this
    subst hi
    cases hg'
    cases hx
    exact ⟨hsized, hrule, ⟨ha, hcv, hne⟩⟩
  have hc : ∃ sc, goScanner O D [g] = some sc := by
    rw [C81_created_iff O D h]
    intro x hx
    obtain rfl := List.mem_singleton.1 hx
    exact ⟨⟨rx, hacc⟩, by simp [BadAction, r], by intro k hk; cases hk⟩
  have hsafe : ∀ s, Regular T O r a s := fun s => ⟨fun _ k hk => (by cases hk), fun k hk => (by cases hk)⟩
  have hasked : ∀ s, Asked T O r a s = Preferred T (meaning T a noFlags).1 s := by
    intro s
    funext i e
    refine propext ⟨fun h => h.1, fun h => ⟨h, ?_, ?_⟩⟩
    · intro v hv; cases hv
    · intro k hk; cases hk
  have ⟨sc, hsc'⟩ := hc
  have hsc := (goScanner_iff h).1 hsc'
  have hcut : ∀ s ps tail, Cut T O [(r, a)] s ps tail → ReplacedAll T (meaning T a noFlags).1 value [] s (rewritten O [(r, a)] ps tail) := by
    intro s ps tail hcut
    have hl := cut_one hne hreq hcut
    dsimp only at hl
    rw [hasked] at hl
    have := replaced_of (value := value) ps [] tail (by rw [hcut.text]; rfl) hl
    rw [← hcut.text] at this
    have hout : rewritten O [(r, a)] ps tail = output (fun _ _ => value) ps tail := by
      have hall : ∀ p ∈ ps, p.rule = 0 := by
        intro p hp
        obtain ⟨_, ks, _, hks, hr1, _⟩ := hcut.resolved
        have hmem : ∀ (ps : List Piece) o, p ∈ ps → ∃ m ∈ ranges o ps, m.rule = p.rule := by
          intro ps
          induction ps with
          | nil => intro o h; cases h
          | cons q ps ih =>
            intro o h
            rcases List.mem_cons.1 h with rfl | h
            · exact ⟨_, List.mem_cons_self, rfl⟩
            · obtain ⟨m, hm, he⟩ := ih (o + blen q.gap + blen q.text) h
              exact ⟨m, List.mem_cons_of_mem _ hm, he⟩
        obtain ⟨m, hm, he⟩ := hmem ps 0 hp
        have := ((hks m).1 (hr1 m hm)).1
        rw [he] at this
        simpa using this
      unfold rewritten
      clear hcut this hl
      induction ps with
      | nil => rfl
      | cons p ps ih =>
        simp only [output]
        rw [ih (fun q hq => hall q (List.mem_cons_of_mem _ hq)), hall p List.mem_cons_self]
        rfl
    rw [hout]
    exact this
  obtain ⟨G, res, h1, cutOf, h2, _⟩ := C81_go_rules_partial hO h (by simp) hc ev hk hs hu hstr
    (fun p s _ x hx => by obtain rfl := List.mem_singleton.1 hx; exact hsafe s)
    (fun s => blen s * (1 + blen value)) (fun p s hat ps tail hct => replaced_size hne (hcut _ _ _ hct)) htotal
  exact ⟨G, res, h1, fun p s hat => ⟨_, hcut _ _ _ (h2 p s hat).1, (h2 p s hat).2⟩⟩

/-- `{"n": "x acb"}` -/
private def exEvent : GoFields := .cons (utf8 "n".toList) (.str (utf8 "x acb".toList)) .nil

private theorem exEvent_at {p : List GoSeg} {w : GoVal} (h : GoAt (.map exEvent) p w) :
    (p = [] ∧ w = .map exEvent) ∨ (p = [.field (utf8 "n".toList)] ∧ w = .str (utf8 "x acb".toList)) := by
  cases h with
  | here => exact .inl ⟨rfl, rfl⟩
  | field hk hp =>
    rcases hk with ⟨rfl, rfl⟩ | hk
    · cases hp
      exact .inr ⟨rfl, rfl⟩
    · cases hk

private theorem starts_a {b m q : Str} (h : Spans T (meaning T rangePattern noFlags).1 b m q) : ∃ m', m = 'a' :: m' := by
  rw [rangePattern_meaning] at h
  cases h with
  | seqCons h1 _ =>
    cases h1 with
    | set h => exact ⟨_, by simp [near] at h; rw [h]; rfl⟩

private theorem exText_only {s e : Nat} (hm : Preferred T (meaning T rangePattern noFlags).1 "x acb".toList s e) :
    s = 2 ∧ e = 5 := by
  have hs : s = 2 := by
    obtain ⟨b, m, q, e1, e2, e3, hsp⟩ := (C79_preferred_match T _ _ _).1 _ hm
    obtain ⟨m', rfl⟩ := starts_a hsp
    have e1' : ['x', ' ', 'a', 'c', 'b'] = b ++ 'a' :: m' ++ q := e1
    match b, e1', e2 with
    | [], e, _ => simp at e
    | [_], e, _ => simp at e
    | [y, z], e, e2 =>
      simp only [List.cons_append, List.nil_append, List.cons.injEq] at e
      rw [← e2, ← e.1, ← e.2.1]
      decide
    | [_, _, _], e, _ => simp at e
    | [_, _, _, _], e, _ => simp at e
    | _ :: _ :: _ :: _ :: _ :: _, e, _ => simp at e
  subst hs
  exact ⟨rfl, (C79_preferred_match T _ _ _).2.1 _ _ hm (rangePattern_preferred T)⟩

example (T : Tables) : Faithful T (plainOutside T) ∧ Syntax.Denotes "a[b-d]+".toList rangePattern ∧ Convertible rangePattern ∧
    NeverEmpty T (meaning T rangePattern noFlags).1 ∧
    (∃ rx, validatePattern (plainOutside T).build matchesNothing "a[b-d]+".toList = .ok (.ok rx)) ∧
    GoKeyed (.map exEvent) ∧ GoSized (.map exEvent) ∧ KeysUtf8 (.map exEvent) ∧ StringsUtf8 (.map exEvent) ∧
    (∀ leaves, LeavesOf (.map exEvent) leaves →
      (leaves.map fun l => stringCost (blen l.text * (1 + blen "#".toList)) l).sum < 2147483648) ∧
    ReplacedAll T (meaning T rangePattern noFlags).1 "#".toList [] "x acb".toList "x #".toList := by
  refine ⟨plainOutside_faithful T, rangePattern_denotes, rangePattern_convertible, rangePattern_neverEmpty T,
    ⟨_, rangePattern_accepted (firstTry_chooses T)⟩, ?_, ?_, ?_, ?_, ?_, ?_⟩
  · simp only [exEvent, GoKeyed, GoKeyedFields, goKeys, and_true]
    decide +kernel
  · simp only [exEvent, GoSized, GoSizedFields, and_true]
    decide +kernel
  · intro p m k w hp hw
    rcases exEvent_at hp with ⟨_, h⟩ | ⟨_, h⟩
    · cases h
      rcases hw with ⟨rfl, _⟩ | hw
      · exact ⟨_, rfl⟩
      · cases hw
    · cases h
  · intro p b hp
    rcases exEvent_at hp with ⟨_, h⟩ | ⟨_, h⟩
    · cases h
    · cases h
      exact ⟨_, rfl⟩
  · intro leaves h
    have hall : ∀ l ∈ leaves, l = ⟨[.field "n".toList], "x acb".toList, false⟩ := by
      rintro ⟨p, t, f⟩ hl
      obtain ⟨hf, b, hb, ht⟩ := (h.2 _).1 hl
      dsimp only at hf hb ht
      rcases exEvent_at hb with ⟨_, hw⟩ | ⟨hp, hw⟩
      · cases hw
      · cases hw
        have hp' := goPath_inj (q := [.field "n".toList]) hp
        rw [hf, ht, hp', lossy_utf8]
    match leaves, h, hall with
    | [], _, _ => simp
    | [l], _, hall =>
      rw [hall l List.mem_cons_self]
      show [stringCost (blen "x acb".toList * (1 + blen "#".toList)) ⟨[.field "n".toList], "x acb".toList, false⟩].sum < _
      decide +kernel
    | l :: l' :: _, h, hall =>
      have := h.1
      rw [hall l List.mem_cons_self, hall l' (List.mem_cons_of_mem _ List.mem_cons_self)] at this
      simp at this
  · refine .next (gap := "x ".toList) (text := "acb".toList) (rest := []) (new := []) (rangePattern_preferred T) ?_ (.done ?_)
    · exact fun s e _ hs hm => absurd (exText_only hm).1 (by have : s < 2 := hs; omega)
    · exact fun s e hs hm => absurd (exText_only hm).1 (by have : 5 ≤ s := hs; omega)

/-- A rule that requires the keyword `x`, as given in Go and as it arrives. -/
private def exGo : GoRule := goRedactingRule (utf8 "id".toList) (utf8 "a[b-d]+".toList) (utf8 "#".toList)
  ⟨some ⟨5, some [utf8 "x".toList], none⟩, []⟩
private def exKw : RustRule := ⟨"a[b-d]+".toList, .redact "#".toList, some ⟨5, ["x".toList], []⟩, none, .excl [], [], none⟩

private theorem exKw_at {s e : Nat} : KeywordAt (plainOutside T) ["x".toList] "x acb".toList s e ↔ s = 0 ∧ e = 1 := by
  have hone : ∀ s ≤ 5, kwMatchAt (fun a b => a == b) (trim "x".toList) "x acb".toList s = if s = 0 then some 1 else none := by decide +kernel
  constructor
  · rintro ⟨kw, hkw, h⟩
    obtain rfl := List.mem_singleton.1 hkw
    have hs : s ≤ 5 := by
      obtain ⟨a, m, b, h1, h2, _⟩ := (kwMatchAt_iff _ _ _ _ _).1 h
      have : blen (a ++ m ++ b) = 5 := by rw [← h1]; rfl
      simp only [blen_append] at this
      omega
    have h' : kwMatchAt (fun a b => a == b) (trim "x".toList) "x acb".toList s = some e := h
    rw [hone s hs] at h'
    split at h'
    · cases h'; exact ⟨‹_›, rfl⟩
    · cases h'
  · rintro ⟨rfl, rfl⟩
    exact ⟨_, List.mem_singleton.2 rfl, hone 0 (by omega)⟩

/-- C81 with a required keyword: the hypotheses about the rule and the text are met, and this is the cut. -/
example (T : Tables) : AskFor T [exGo] [(exKw, rangePattern)] ∧ Requires exKw ∧
    (∃ sc, goScanner (plainOutside T) D [exGo] = some sc) ∧
    Regular T (plainOutside T) exKw rangePattern "x acb".toList ∧
    Cut T (plainOutside T) [(exKw, rangePattern)] "x acb".toList [⟨"x ".toList, "acb".toList, 0⟩] [] ∧
    rewritten (plainOutside T) [(exKw, rangePattern)] [⟨"x ".toList, "acb".toList, 0⟩] [] = "x #".toList := by
  have hask : AskFor T [exGo] [(exKw, rangePattern)] := by
    refine ⟨rfl, fun i g' x hg' hx => ?_⟩
    have hi : i = 0 := by
      have := (List.getElem?_eq_some_iff.1 hx).1
      simpa using this
    subst hi
    cases hg'
    cases hx
    refine ⟨⟨by decide, ?_⟩, ⟨rfl, .redact _ rfl rfl, ⟨rfl, rfl, rfl⟩, rfl, rfl, rfl, rfl⟩,
      rangePattern_denotes, rangePattern_convertible, rangePattern_neverEmpty T⟩
    intro k hk
    cases hk
    decide
  have hreq : Requires exKw := ⟨_, rfl, by simp⟩
  refine ⟨hask, hreq, ?_, ⟨fun h => absurd hreq h, ?_⟩, ⟨rfl, fun _ => [(2, 5)], [⟨0, 2, 5⟩], ?_, ?_, ?_⟩, rfl⟩
  · rw [C81_created_iff _ D hask]
    intro x hx
    obtain rfl := List.mem_singleton.1 hx
    refine ⟨⟨_, rangePattern_accepted (firstTry_chooses T)⟩, by simp [BadAction, exKw], ?_⟩
    intro k hk
    rw [← C28_accepted_iff]
    cases hk
    exact ⟨_, rfl⟩
  · intro k hk s e p q h1 h2
    cases hk
    obtain ⟨rfl, rfl⟩ := exKw_at.1 h1
    obtain ⟨rfl, rfl⟩ := exText_only h2.1
    omega
  · intro i x hx
    have hi : i = 0 := by
      have := (List.getElem?_eq_some_iff.1 hx).1
      simpa using this
    subst hi
    cases hx
    refine .inr ⟨_, [(2, 5)], rfl, by simp, ?_, ?_⟩
    · refine .cons (by omega) ⟨rangePattern_preferred T, fun v hv => (by cases hv)⟩ ?_ (.nil ?_)
      · intro p q _ hp h
        have := (exText_only h.1).1
        omega
      · intro p q hp h
        have := (exText_only h.1).1
        omega
    · refine Near.window (w := []) (z := (2, 5)) (l := []) (out := []) (exKw_at.2 ⟨rfl, rfl⟩) (by omega) ?_ ?_ ?_ .nil
      · intro m _ s' e' _ _ _
        omega
      · intro m hm
        obtain rfl := List.mem_singleton.1 hm
        exact ⟨"x ".toList, ⟨[], "acb".toList, rfl, rfl, rfl⟩, by decide⟩
      · intro m hm; cases hm
  · intro m
    obtain ⟨r, s, e⟩ := m
    simp
  · refine ⟨fun m hm => hm, fun m hm => ⟨fun _ => ?_, fun _ => hm⟩⟩
    obtain rfl := List.mem_singleton.1 hm
    rintro ⟨r, hr, hh, _⟩
    obtain rfl : r = ⟨0, 2, 5⟩ := List.mem_singleton.1 hr
    revert hh
    simp [Higher]

end Sds.Props
