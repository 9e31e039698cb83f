import Verif.Spec.Scan
import Verif.Lemmas.Event
import Verif.Lemmas.Search
import Verif.Props.Apply
import Verif.Props.Overlap
import Verif.Props.Scope

/-! Lemmas about scanning an event. -/

namespace Sds
open Spec

theorem Spec.ScannerOk.at {sc : Scanner} (h : ScannerOk sc) {r : Nat} {rule : CRule} (hr : sc.rules[r]? = some rule) :
    RuleOk rule := h rule (List.mem_of_getElem? hr)

theorem eq_of_nodup_map {α β : Type} {f : α → β} {l : List α} (h : (l.map f).Nodup) {a b : α} (ha : a ∈ l) (hb : b ∈ l)
    (hab : f a = f b) : a = b := by
  induction l with
  | nil => cases ha
  | cons x l ih =>
    simp only [List.map_cons, List.nodup_cons] at h
    rcases List.mem_cons.1 ha with ha' | ha' <;> rcases List.mem_cons.1 hb with hb' | hb'
    · rw [ha', hb']
    · subst ha'; exact absurd (hab ▸ List.mem_map_of_mem hb') h.1
    · subst hb'; exact absurd (hab ▸ List.mem_map_of_mem ha') h.1
    · exact ih h.2 ha' hb'

theorem flatMap_filter_nil {α β : Type} {out : α → List β} {p : α → Bool} (l : List α)
    (h : ∀ x ∈ l, p x = false → out x = []) : l.flatMap out = (l.filter p).flatMap out := by
  induction l with
  | nil => rfl
  | cons x l ih =>
    rw [List.filter_cons]
    have ih := ih (fun y hy => h y (List.mem_cons_of_mem _ hy))
    cases hp : p x with
    | true => simp [ih]
    | false => simp [ih, h x List.mem_cons_self hp]

theorem flatMap_congr' {α β : Type} {f g : α → List β} {l : List α} (h : ∀ x ∈ l, f x = g x) :
    l.flatMap f = l.flatMap g := by
  induction l with
  | nil => rfl
  | cons x l ih =>
    simp only [List.flatMap_cons]
    rw [h x List.mem_cons_self, ih (fun y hy => h y (List.mem_cons_of_mem _ hy))]

/-! ## The first phase -/

/-- What `runRules` needs to know about the rules of a visit. -/
def VisitOk (sc : Scanner) (v : Visit) : Prop :=
  (∀ r, r ∈ v.rules ↔ ∃ s, (sc.rules.map (·.scope))[r]? = some s ∧ Scans sc.wildcards v.path s) ∧
  (∀ r, r ∈ v.excluded ↔ ∃ s, (sc.rules.map (·.scope))[r]? = some s ∧ Excludes sc.wildcards v.path s)

theorem scope_at {sc : Scanner} {r : Nat} {s : Scope} :
    (sc.rules.map (·.scope))[r]? = some s ↔ ∃ rule, sc.rules[r]? = some rule ∧ rule.scope = s := by
  simp [List.getElem?_map]

theorem runRules_spec {sc : Scanner} (hok : ScannerOk sc) (blocked : List Nat) (v : Visit)
    (htot : ∀ rule ∈ sc.rules, ∀ ex, ∃ f, rule.run v.content v.path ex = Res.ok f) :
    ∀ (rs : List Nat), (∀ r ∈ rs, ∃ rule, sc.rules[r]? = some rule) → ∃ (ms : List M) (ins : List Str),
      (∀ ex, runRules sc blocked v rs ex = Res.ok (ms, ex ++ ins)) ∧
      (∀ m, m ∈ ms ↔ m.rule ∈ rs ∧ m.rule ∉ blocked ∧ m.rule ∉ v.excluded ∧ ∃ rule f, sc.rules[m.rule]? = some rule ∧
        rule.run v.content v.path false = Res.ok f ∧ (m.st, m.en) ∈ f.matches_) ∧
      (∀ t, t ∈ ins ↔ ∃ r ∈ rs, r ∉ blocked ∧ r ∈ v.excluded ∧ ∃ rule f, sc.rules[r]? = some rule ∧
        rule.run v.content v.path true = Res.ok f ∧ t ∈ f.inserted) := by
  intro rs
  induction rs with
  | nil => intro _; exact ⟨[], [], by simp [runRules], by simp, by simp⟩
  | cons r rs ih =>
    intro hrs
    obtain ⟨ms, ins, h1, h2, h3⟩ := ih (fun r hr => hrs r (List.mem_cons_of_mem _ hr))
    obtain ⟨rule, hr⟩ := hrs r List.mem_cons_self
    by_cases hb : blocked.contains r = true
    · have hb' : r ∈ blocked := by simpa using hb
      refine ⟨ms, ins, fun ex => by rw [runRules, if_pos hb]; exact h1 ex, fun m => ?_, fun t => ?_⟩
      · rw [h2 m]
        constructor
        · rintro ⟨a, b⟩; exact ⟨List.mem_cons_of_mem _ a, b⟩
        · rintro ⟨a, b, c⟩
          rcases List.mem_cons.1 a with a | a
          · rw [a] at b; exact absurd hb' b
          · exact ⟨a, b, c⟩
      · rw [h3 t]
        constructor
        · rintro ⟨x, a, b⟩; exact ⟨x, List.mem_cons_of_mem _ a, b⟩
        · rintro ⟨x, a, b, c⟩
          rcases List.mem_cons.1 a with a | a
          · rw [a] at b; exact absurd hb' b
          · exact ⟨x, a, b, c⟩
    · have hb' : r ∉ blocked := by simpa using hb
      obtain ⟨f, hf⟩ := htot rule (List.mem_of_getElem? hr) (v.excluded.contains r)
      refine ⟨f.matches_.map (fun m => ⟨r, m.1, m.2⟩) ++ ms, f.inserted ++ ins, fun ex => ?_, fun m => ?_, fun t => ?_⟩
      · rw [runRules, if_neg hb, hr]
        simp only [hf]
        rw [h1]
        simp
      · rw [List.mem_append, h2 m, List.mem_map]
        constructor
        · rintro (⟨x, hx, rfl⟩ | ⟨a, b⟩)
          · by_cases he : r ∈ v.excluded
            · have : v.excluded.contains r = true := by simpa using he
              rw [this] at hf
              rw [(hok.at hr).excluded _ _ _ hf] at hx
              cases hx
            · have : v.excluded.contains r = false := by simpa using he
              rw [this] at hf
              exact ⟨List.mem_cons_self, hb', he, rule, f, hr, hf, hx⟩
          · exact ⟨List.mem_cons_of_mem _ a, b⟩
        · rintro ⟨a, b, c, rule', f', hr', hf', hm⟩
          rcases List.mem_cons.1 a with a | a
          · left
            obtain ⟨mr, ms', me⟩ := m
            simp only at a b c hr' hm
            subst a
            rw [hr] at hr'
            cases hr'
            have : v.excluded.contains mr = false := by simpa using c
            rw [this, hf'] at hf
            cases hf
            exact ⟨_, hm, rfl⟩
          · exact Or.inr ⟨a, b, c, rule', f', hr', hf', hm⟩
      · rw [List.mem_append, h3 t]
        constructor
        · rintro (hx | ⟨x, a, b⟩)
          · by_cases he : r ∈ v.excluded
            · have : v.excluded.contains r = true := by simpa using he
              rw [this] at hf
              exact ⟨r, List.mem_cons_self, hb', he, rule, f, hr, hf, hx⟩
            · have : v.excluded.contains r = false := by simpa using he
              rw [this] at hf
              rw [(hok.at hr).scanned _ _ _ hf] at hx
              cases hx
          · exact ⟨x, List.mem_cons_of_mem _ a, b⟩
        · rintro ⟨x, a, b, c, rule', f', hr', hf', hm⟩
          rcases List.mem_cons.1 a with a | a
          · left
            subst a
            rw [hr] at hr'
            cases hr'
            have : v.excluded.contains x = true := by simpa using c
            rw [this, hf'] at hf
            cases hf
            exact hm
          · exact Or.inr ⟨x, a, b, c, rule', f', hr', hf', hm⟩

/-- One visit: the matches are the candidates, the inserted texts those found in excluded fields. -/
theorem runVisit_spec {sc : Scanner} (hok : ScannerOk sc) (blocked : List Nat) (v : Visit) (hv : VisitOk sc v)
    (htot : ∀ rule ∈ sc.rules, ∀ ex, ∃ f, rule.run v.content v.path ex = Res.ok f) :
    ∃ (ms : List M) (ins : List Str),
      (∀ ex, runRules sc blocked v v.rules ex = Res.ok (ms, ex ++ ins)) ∧
      (∀ m, m ∈ ms ↔ Candidate sc blocked v.path v.content m) ∧
      (∀ t, t ∈ ins ↔ ∃ r rule f, Applies sc blocked v.path true r rule ∧
        rule.run v.content v.path true = Res.ok f ∧ t ∈ f.inserted) := by
  obtain ⟨ms, ins, h1, h2, h3⟩ := runRules_spec hok blocked v htot v.rules (fun r hr => by
    obtain ⟨s, hs, _⟩ := (hv.1 r).1 hr
    obtain ⟨rule, hr, _⟩ := scope_at.1 hs
    exact ⟨rule, hr⟩)
  refine ⟨ms, ins, h1, fun m => ?_, fun t => ?_⟩
  · rw [h2 m, hv.1, hv.2]
    constructor
    · rintro ⟨⟨s, hs, hsc⟩, hb, he, rule, f, hr, hf⟩
      obtain ⟨rule', hr', rfl⟩ := scope_at.1 hs
      rw [hr] at hr'
      cases hr'
      refine ⟨rule, f, ⟨hb, hr, hsc, ?_⟩, hf⟩
      constructor
      · intro h; cases h
      · intro h; exact absurd ⟨rule.scope, scope_at.2 ⟨rule, hr, rfl⟩, h⟩ he
    · rintro ⟨rule, f, ⟨hb, hr, hsc, he⟩, hf⟩
      refine ⟨⟨rule.scope, scope_at.2 ⟨rule, hr, rfl⟩, hsc⟩, hb, ?_, rule, f, hr, hf⟩
      rintro ⟨s, hs, hex⟩
      obtain ⟨rule', hr', rfl⟩ := scope_at.1 hs
      rw [hr] at hr'
      cases hr'
      exact absurd (he.2 hex) (by simp)
  · rw [h3 t]
    constructor
    · rintro ⟨r, hr, hb, he, rule, f, hrule, hf⟩
      obtain ⟨s, hs, hsc⟩ := (hv.1 r).1 hr
      obtain ⟨s', hs', hex⟩ := (hv.2 r).1 he
      obtain ⟨rule', hr', rfl⟩ := scope_at.1 hs
      obtain ⟨rule'', hr'', rfl⟩ := scope_at.1 hs'
      rw [hrule] at hr' hr''
      cases hr'; cases hr''
      exact ⟨r, rule, f, ⟨hb, hrule, hsc, ⟨fun _ => hex, fun _ => rfl⟩⟩, hf⟩
    · rintro ⟨r, rule, f, ⟨hb, hrule, hsc, he⟩, hf⟩
      exact ⟨r, (hv.1 r).2 ⟨_, scope_at.2 ⟨rule, hrule, rfl⟩, hsc⟩, hb,
        (hv.2 r).2 ⟨_, scope_at.2 ⟨rule, hrule, rfl⟩, he.1 rfl⟩, rule, f, hrule, hf⟩

/-- All visits; the matches of a string come from `runRules`. -/
theorem runVisits_runRules {sc : Scanner} (hok : ScannerOk sc) (blocked : List Nat)
    (leaves : List Leaf) (htot : Returns sc leaves) (visit : Leaf → Visit)
    (hvisit : ∀ l, (visit l).path = l.path ∧ (visit l).content = l.text ∧ VisitOk sc (visit l)) :
      ∃ (ms : Leaf → List M) (ins : List Str),
        (∀ l ∈ leaves, ∀ m, m ∈ ms l ↔ Candidate sc blocked l.path l.text m) ∧
        (∀ t, t ∈ ins ↔ FoundInExcluded sc blocked leaves t) ∧
        (∀ l ∈ leaves, ∃ ex, runRules sc blocked (visit l) (visit l).rules [] = Res.ok (ms l, ex)) ∧
        ∀ ex, runVisits sc blocked (leaves.map visit) ex =
          Res.ok ((leaves.filter fun l => !(ms l).isEmpty).map fun l => ⟨l.path, l.text, sortBy startLe (ms l)⟩,
            ex ++ ins) := by
  have hsel0 : ∀ l, ∃ x : List M × List Str, l ∈ leaves →
      (∀ ex, runRules sc blocked (visit l) (visit l).rules ex = Res.ok (x.1, ex ++ x.2)) ∧
      (∀ m, m ∈ x.1 ↔ Candidate sc blocked l.path l.text m) ∧
      (∀ t, t ∈ x.2 ↔ ∃ r rule f, Applies sc blocked l.path true r rule ∧
        rule.run l.text l.path true = Res.ok f ∧ t ∈ f.inserted) := by
    intro l
    by_cases hl : l ∈ leaves
    · obtain ⟨hp, hc, hv⟩ := hvisit l
      obtain ⟨ms, ins, h1, h2, h3⟩ := runVisit_spec hok blocked (visit l) hv
        (fun rule hr ex => by rw [hp, hc]; exact htot rule hr l hl ex)
      rw [hp, hc] at h2 h3
      exact ⟨(ms, ins), fun _ => ⟨h1, h2, h3⟩⟩
    · exact ⟨([], []), fun h => absurd h hl⟩
  obtain ⟨sel, hsel⟩ : ∃ sel : Leaf → List M × List Str, ∀ l ∈ leaves,
      (∀ ex, runRules sc blocked (visit l) (visit l).rules ex = Res.ok ((sel l).1, ex ++ (sel l).2)) ∧
      (∀ m, m ∈ (sel l).1 ↔ Candidate sc blocked l.path l.text m) ∧
      (∀ t, t ∈ (sel l).2 ↔ ∃ r rule f, Applies sc blocked l.path true r rule ∧
        rule.run l.text l.path true = Res.ok f ∧ t ∈ f.inserted) :=
    ⟨fun l => (hsel0 l).choose, fun l => (hsel0 l).choose_spec⟩
  clear hsel0
  refine ⟨fun l => (sel l).1, leaves.flatMap fun l => (sel l).2, fun l hl m => (hsel l hl).2.1 m, fun t => ?_,
    fun l hl => ⟨_, (hsel l hl).1 []⟩, ?_⟩
  · rw [List.mem_flatMap]
    constructor
    · rintro ⟨l, hl, ht⟩
      exact ⟨l, hl, ((hsel l hl).2.2 t).1 ht⟩
    · rintro ⟨l, hl, h⟩
      exact ⟨l, hl, ((hsel l hl).2.2 t).2 h⟩
  · clear htot
    induction leaves with
    | nil => intro ex; simp [runVisits]
    | cons l ls ih =>
      intro ex
      simp only [List.map_cons, runVisits]
      rw [(hsel l List.mem_cons_self).1]
      simp only
      rw [ih (fun l hl => hsel l (List.mem_cons_of_mem _ hl))]
      simp only [List.flatMap_cons, List.append_assoc, Res.ok.injEq, Prod.mk.injEq, and_true]
      rw [List.filter_cons, (hvisit l).1, (hvisit l).2.1]
      cases (sel l).1.isEmpty <;> simp

/-- All visits. -/
theorem runVisits_spec {sc : Scanner} (hok : ScannerOk sc) (blocked : List Nat)
    (leaves : List Leaf) (htot : Returns sc leaves) (visit : Leaf → Visit)
    (hvisit : ∀ l, (visit l).path = l.path ∧ (visit l).content = l.text ∧ VisitOk sc (visit l)) :
      ∃ (ms : Leaf → List M) (ins : List Str),
        (∀ l ∈ leaves, ∀ m, m ∈ ms l ↔ Candidate sc blocked l.path l.text m) ∧
        (∀ t, t ∈ ins ↔ FoundInExcluded sc blocked leaves t) ∧
        ∀ ex, runVisits sc blocked (leaves.map visit) ex =
          Res.ok ((leaves.filter fun l => !(ms l).isEmpty).map fun l => ⟨l.path, l.text, sortBy startLe (ms l)⟩,
            ex ++ ins) := by
  obtain ⟨ms, ins, h1, h2, _, h3⟩ := runVisits_runRules hok blocked leaves htot visit hvisit
  exact ⟨ms, ins, h1, h2, h3⟩

/-! ## The second phase -/

theorem retainMatches_spec {sc : Scanner} (excluded : List Str) (c : Str) : ∀ (ms : List M),
    (∀ m ∈ ms, ∃ rule, sc.rules[m.rule]? = some rule) →
    (∀ m ∈ ms, m.st < m.en ∧ OnBoundary c m.st ∧ OnBoundary c m.en) →
    ∃ l, retainMatches sc excluded c ms = Res.ok l ∧
      ∀ m, m ∈ l ↔ m ∈ ms ∧ ¬ ∃ rule t, sc.rules[m.rule]? = some rule ∧ rule.multipass = true ∧
        TextAt c m.st m.en t ∧ t ∈ excluded := by
  intro ms
  induction ms with
  | nil => intro _ _; exact ⟨[], rfl, by simp⟩
  | cons m ms ih =>
    intro hr hb
    obtain ⟨l, h1, h2⟩ := ih (fun x hx => hr x (List.mem_cons_of_mem _ hx)) (fun x hx => hb x (List.mem_cons_of_mem _ hx))
    obtain ⟨rule, hrule⟩ := hr m List.mem_cons_self
    obtain ⟨hlt, hb1, hb2⟩ := hb m List.mem_cons_self
    obtain ⟨t, ht⟩ := textAt_of_boundaries hb1 hb2 (Nat.le_of_lt hlt)
    have hsl : slice c m.st m.en = some t := slice_textAt.2 ht
    rw [retainMatches, hrule]
    simp only
    by_cases hmp : rule.multipass = true
    · rw [if_pos hmp, hsl]
      simp only [h1]
      refine ⟨_, rfl, fun x => ?_⟩
      have huniq : ∀ t', TextAt c m.st m.en t' → t' = t := by
        intro t' ht'
        have := slice_textAt.2 ht'
        rw [hsl] at this
        exact (Option.some.inj this).symm
      by_cases hc : excluded.contains t = true
      · rw [if_pos hc, h2 x]
        have hc' : t ∈ excluded := by simpa using hc
        constructor
        · rintro ⟨a, b⟩; exact ⟨List.mem_cons_of_mem _ a, b⟩
        · rintro ⟨a, b⟩
          rcases List.mem_cons.1 a with rfl | a
          · exact absurd ⟨rule, t, hrule, hmp, ht, hc'⟩ b
          · exact ⟨a, b⟩
      · rw [if_neg hc, List.mem_cons, h2 x, List.mem_cons]
        have hc' : t ∉ excluded := by simpa using hc
        constructor
        · rintro (rfl | ⟨a, b⟩)
          · refine ⟨Or.inl rfl, ?_⟩
            rintro ⟨rule', t', _, _, ht', hin⟩
            rw [huniq t' ht'] at hin
            exact hc' hin
          · exact ⟨Or.inr a, b⟩
        · rintro ⟨rfl | a, b⟩
          · exact Or.inl rfl
          · exact Or.inr ⟨a, b⟩
    · rw [if_neg hmp, h1]
      refine ⟨_, rfl, fun x => ?_⟩
      rw [List.mem_cons, h2 x, List.mem_cons]
      constructor
      · rintro (rfl | ⟨a, b⟩)
        · refine ⟨Or.inl rfl, ?_⟩
          rintro ⟨rule', t', hr', hmp', _⟩
          rw [hrule] at hr'
          cases hr'
          exact hmp hmp'
        · exact ⟨Or.inr a, b⟩
      · rintro ⟨rfl | a, b⟩
        · exact Or.inl rfl
        · exact Or.inr ⟨a, b⟩

/-- The result for one string: the actions of the resolution of the kept candidates. -/
def LeafOut {E : Type} (impl : EventImpl E) (sc : Scanner) (blocked : List Nat) (leaves : List Leaf) (l : Leaf)
    (os : List RuleMatch) (new : Str) : Prop :=
  ∃ ks : List M, (∀ m, m ∈ ks ↔ Kept sc blocked leaves l.path l.text m) ∧
    applyMatchActions sc.fp impl.enc sc.returnMatches (sc.rules.map (·.info)) l.path l.text (resolve sc.redacts ks) =
      Res.ok (os, new)

theorem Spec.Candidate.bounds {sc : Scanner} (hok : ScannerOk sc) {blocked : List Nat} {p : Path} {c : Str} {m : M}
    (h : Candidate sc blocked p c m) : m.st < m.en ∧ OnBoundary c m.st ∧ OnBoundary c m.en := by
  obtain ⟨rule, f, ha, hf, hm⟩ := h
  exact (hok.at ha.2.1).ranges _ _ _ _ hf _ hm

theorem validRules_of_candidates {sc : Scanner} (hok : ScannerOk sc) {blocked : List Nat} {p : Path} {c : Str}
    {ms : List M} (h : ∀ m ∈ ms, Candidate sc blocked p c m) : ValidRules (sc.rules.map (·.info)) ms := by
  intro m hm
  obtain ⟨rule, f, ha, _⟩ := h m hm
  exact ⟨rule.info, by simp [List.getElem?_map, ha.2.1], (hok.at ha.2.1).action⟩

theorem leafOut_unique {E : Type} {impl : EventImpl E} {sc : Scanner} (hok : ScannerOk sc) {blocked : List Nat}
    {leaves leaves' : List Leaf} (hs : ∀ t, FoundInExcluded sc blocked leaves t ↔ FoundInExcluded sc blocked leaves' t)
    {l : Leaf} {os os' : List RuleMatch} {new new' : Str}
    (h : LeafOut impl sc blocked leaves l os new) (h' : LeafOut impl sc blocked leaves' l os' new') :
    os = os' ∧ new = new' := by
  obtain ⟨ks, h1, h2⟩ := h
  obtain ⟨ks', h1', h2'⟩ := h'
  have hk : ∀ m, Kept sc blocked leaves l.path l.text m ↔ Kept sc blocked leaves' l.path l.text m := by
    intro m
    unfold Kept Suppressed
    simp only [hs]
  have : resolve sc.redacts ks = resolve sc.redacts ks' :=
    Props.C03_order_independent (sortsBy_prio _) sortsBy_start (sortsBy_prio _) sortsBy_start ks ks'
      (fun m => by rw [h1, h1', hk]) (fun m hm => (((h1 m).1 hm).1.bounds hok).1)
  rw [this, h2'] at h2
  simp only [Res.ok.injEq, Prod.mk.injEq] at h2
  exact ⟨h2.1.symm, h2.2.symm⟩

theorem editLeaf_spec {E : Type} {impl : EventImpl E} (henc : LawfulEnc impl.enc) {sc : Scanner} (hok : ScannerOk sc)
    (blocked : List Nat) (leaves : List Leaf) {excluded : List Str}
    (hex : ∀ t, t ∈ excluded ↔ FoundInExcluded sc blocked leaves t) (l : Leaf) (ms : List M)
    (hms : ∀ m, m ∈ ms ↔ Candidate sc blocked l.path l.text m) :
    ∃ os new, LeafOut impl sc blocked leaves l os new ∧
      editLeaf sc impl.enc excluded ⟨l.path, l.text, sortBy startLe ms⟩ l.text = Res.ok (new, os) := by
  have hmem : ∀ m, m ∈ sortBy startLe ms ↔ Candidate sc blocked l.path l.text m := by
    intro m; rw [(sortBy_perm _ _).mem_iff, hms]
  have hstep : ∃ ks, (if sc.multipassEnabled then retainMatches sc excluded l.text (sortBy startLe ms)
        else Res.ok (sortBy startLe ms)) = Res.ok ks ∧ ∀ m, m ∈ ks ↔ Kept sc blocked leaves l.path l.text m := by
    cases hmp : sc.multipassEnabled with
    | false =>
      refine ⟨_, rfl, fun m => ?_⟩
      rw [hmem]
      unfold Kept Suppressed
      simp [hmp]
    | true =>
      obtain ⟨ks, h1, h2⟩ := retainMatches_spec (sc := sc) excluded l.text (sortBy startLe ms)
        (fun m hm => by obtain ⟨rule, f, ha, _⟩ := (hmem m).1 hm; exact ⟨rule, ha.2.1⟩)
        (fun m hm => ((hmem m).1 hm).bounds hok)
      refine ⟨ks, h1, fun m => ?_⟩
      rw [h2, hmem]
      unfold Kept Suppressed
      simp [hmp, hex]
  obtain ⟨ks, hks, hk⟩ := hstep
  have hcand : ∀ m ∈ ks, Candidate sc blocked l.path l.text m := fun m hm => ((hk m).1 hm).1
  obtain ⟨os, new, happ⟩ := Props.C06_no_panic sc.fp henc sc.returnMatches (sc.rules.map (·.info)) sc.redacts l.path l.text ks
    (fun m hm => (hcand m hm).bounds hok) (validRules_of_candidates hok hcand)
  refine ⟨os, new, ⟨ks, hk, happ⟩, ?_⟩
  unfold editLeaf
  rw [hks]
  simp only
  unfold applyMatchActions at happ
  cases hl : applyLoop sc.fp impl.enc sc.returnMatches (sc.rules.map (·.info)) l.path l.text (resolve sc.redacts ks)
      ⟨l.text, 0, 0⟩ with
  | ok x =>
    rw [hl] at happ
    obtain ⟨os', s⟩ := x
    have : (os', s.content) = (os, new) := Res.ok.inj happ
    simp only [Prod.mk.injEq] at this
    simp [this.1, this.2]
  | panic => rw [hl] at happ; cases happ
  | hang => rw [hl] at happ; cases happ

/-- A string without candidates stays as it is. -/
theorem leafOut_nil {E : Type} {impl : EventImpl E} {sc : Scanner} {blocked : List Nat} {leaves : List Leaf} {l : Leaf}
    (h : ∀ m, ¬ Candidate sc blocked l.path l.text m) : LeafOut impl sc blocked leaves l [] l.text :=
  ⟨[], fun m => by simp [Kept, h m], by rfl⟩

theorem editAll_spec {E : Type} {impl : EventImpl E} {wf : E → Prop} {leavesOf : E → List Leaf}
    {rew : (Path → Str → Str) → E → E} (hE : LawfulEvent impl wf leavesOf rew) {sc : Scanner} (hok : ScannerOk sc)
    (blocked : List Nat) (e : E) (hwf : wf e) {excluded : List Str}
    (hex : ∀ t, t ∈ excluded ↔ FoundInExcluded sc blocked (leavesOf e) t) (ms : Leaf → List M)
    (hms : ∀ l ∈ leavesOf e, ∀ m, m ∈ ms l ↔ Candidate sc blocked l.path l.text m) :
    ∀ (todo : List Leaf), (todo.map (·.path)).Nodup → (∀ l ∈ todo, l ∈ leavesOf e ∧ l.fixed = false) →
    ∀ g : Path → Str → Str, (∀ l ∈ todo, g l.path l.text = l.text) →
    ∃ (out : Leaf → List RuleMatch × Str) (G : Path → Str → Str),
      editAll impl sc excluded (todo.map fun l => ⟨l.path, l.text, sortBy startLe (ms l)⟩) (rew g e) =
        Res.ok (rew G e, todo.flatMap fun l => (out l).1) ∧
      (∀ l ∈ todo, LeafOut impl sc blocked (leavesOf e) l (out l).1 (out l).2 ∧ G l.path l.text = (out l).2) ∧
      ∀ q, q ∉ todo.map (·.path) → ∀ c, G q c = g q c := by
  intro todo
  induction todo with
  | nil => intro _ _ g _; exact ⟨fun _ => ([], []), g, by simp [editAll], by simp, fun _ _ _ => rfl⟩
  | cons l todo ih =>
    intro hnd hl g hg
    simp only [List.map_cons, List.nodup_cons] at hnd
    obtain ⟨hnot, hnd⟩ := hnd
    obtain ⟨hle, hfix⟩ := hl l List.mem_cons_self
    obtain ⟨os, new, hout, hedit⟩ := editLeaf_spec hE.enc hok blocked (leavesOf e) hex l (ms l) (hms l hle)
    have hl' : l ∈ leavesOf (rew g e) := by
      rw [hE.leaves_rew]
      refine List.mem_map.2 ⟨l, hle, ?_⟩
      rw [hfix, hg l List.mem_cons_self]
      obtain ⟨p, t, b⟩ := l
      simp only at hfix
      simp [hfix]
    have hmut := hE.edit (rew g e) (hE.wf_rew g e hwf) l hl' hfix
      (editLeaf sc impl.enc excluded ⟨l.path, l.text, sortBy startLe (ms l)⟩)
    rw [hedit] at hmut
    simp only [Res.mapFst, hE.rew_rew] at hmut
    obtain ⟨out, G, h1, h2, h3⟩ := ih hnd (fun x hx => hl x (List.mem_cons_of_mem _ hx))
      (fun p c => only l.path new p (g p c)) (fun x hx => by
        have : x.path ≠ l.path := fun h => hnot (h ▸ List.mem_map_of_mem hx)
        simp only [only, if_neg this]
        exact hg x (List.mem_cons_of_mem _ hx))
    have hne : ∀ x ∈ todo, x ≠ l := by
      rintro x hx rfl
      exact hnot (List.mem_map_of_mem hx)
    refine ⟨fun x => if x = l then (os, new) else out x, G, ?_, ?_, ?_⟩
    · simp only [List.map_cons, editAll]
      rw [hmut]
      simp only
      rw [h1]
      simp only [List.flatMap_cons, if_true, Res.ok.injEq, Prod.mk.injEq, true_and]
      congr 1
      simp only [List.flatMap]
      congr 1
      apply List.map_congr_left
      intro x hx
      simp [hne x hx]
    · intro x hx
      rcases List.mem_cons.1 hx with rfl | hx
      · simp only [if_true]
        refine ⟨hout, ?_⟩
        rw [h3 x.path hnot]
        simp [only]
      · simp only [if_neg (hne x hx)]
        exact h2 x hx
    · intro q hq c
      simp only [List.map_cons, List.mem_cons, not_or] at hq
      rw [h3 q hq.2]
      simp [only, hq.1]

/-- The whole scan. -/
theorem scan_leafOut {E : Type} {impl : EventImpl E} {wf : E → Prop} {leavesOf : E → List Leaf}
    {rew : (Path → Str → Str) → E → E} (hE : LawfulEvent impl wf leavesOf rew) {sc : Scanner} (hok : ScannerOk sc)
    (blocked : List Nat) (e : E) (hwf : wf e) (htot : Returns sc (leavesOf e))
    (hfix : ∀ l ∈ leavesOf e, l.fixed = true → ∀ m, ¬ Candidate sc blocked l.path l.text m) :
    ∃ (out : Leaf → List RuleMatch × Str) (G : Path → Str → Str),
      (∀ l ∈ leavesOf e, LeafOut impl sc blocked (leavesOf e) l (out l).1 (out l).2 ∧ G l.path l.text = (out l).2) ∧
        scan impl sc e blocked = Res.ok (rew G e, (leavesOf e).flatMap fun l => (out l).1) := by
  obtain ⟨rules, excl, hp, hv⟩ := Props.visits_spec (sc.rules.map (·.scope)) sc.wildcards
  have hvis := hv _ _ (hE.visits e hwf)
  rw [List.map_map] at hvis
  obtain ⟨ms, ins, hms, hins, hrun⟩ := runVisits_spec hok blocked (leavesOf e) htot
    (fun l => ⟨l.path, l.text, rules l.path, excl l.path⟩)
    (fun l => ⟨rfl, rfl, (hp l.path).2.1, (hp l.path).2.2⟩)
  have hout : ∀ l, ∃ x : List RuleMatch × Str, l ∈ leavesOf e → LeafOut impl sc blocked (leavesOf e) l x.1 x.2 := by
    intro l
    by_cases hl : l ∈ leavesOf e
    · obtain ⟨os, new, h, _⟩ := editLeaf_spec hE.enc hok blocked (leavesOf e) hins l (ms l) (hms l hl)
      exact ⟨(os, new), fun _ => h⟩
    · exact ⟨([], []), fun h => absurd h hl⟩
  obtain ⟨out, hout⟩ : ∃ out : Leaf → List RuleMatch × Str,
      ∀ l ∈ leavesOf e, LeafOut impl sc blocked (leavesOf e) l (out l).1 (out l).2 :=
    ⟨fun l => (hout l).choose, fun l => (hout l).choose_spec⟩
  have hnocand : ∀ l ∈ leavesOf e, (ms l).isEmpty = true → ∀ m, ¬ Candidate sc blocked l.path l.text m := by
    intro l hl0 hl m hm
    have := (hms l hl0 m).2 hm
    rw [List.isEmpty_iff.1 hl] at this
    cases this
  have hnil : ∀ l ∈ leavesOf e, (ms l).isEmpty = true → (out l).1 = [] ∧ (out l).2 = l.text := fun l hl0 hl =>
    leafOut_unique hok (fun _ => Iff.rfl) (hout l hl0) (leafOut_nil (hnocand l hl0 hl))
  have hsub : ((leavesOf e).filter fun l => !(ms l).isEmpty).Sublist (leavesOf e) := List.filter_sublist
  obtain ⟨out', G, h1, h2, h3⟩ := editAll_spec hE hok blocked e hwf hins ms hms
    ((leavesOf e).filter fun l => !(ms l).isEmpty) ((hsub.map _).nodup (hE.nodup e hwf)) (fun l hl => by
      obtain ⟨hl1, hl2⟩ := List.mem_filter.1 hl
      refine ⟨hl1, ?_⟩
      cases hf : l.fixed with
      | false => rfl
      | true =>
        exfalso
        cases hm : ms l with
        | nil => rw [hm] at hl2; cases hl2
        | cons m r => exact hfix l hl1 hf m ((hms l hl1 m).1 (by rw [hm]; exact List.mem_cons_self)))
    (fun _ c => c) (fun _ _ => rfl)
  rw [hE.rew_id] at h1
  refine ⟨out, G, fun l hl => ⟨hout l hl, ?_⟩, ?_⟩
  · cases hm : (ms l).isEmpty with
    | true =>
      rw [h3 l.path, (hnil l hl hm).2]
      intro hc
      obtain ⟨l', hl', hpath⟩ := List.mem_map.1 hc
      obtain ⟨hl1, hl2⟩ := List.mem_filter.1 hl'
      have : l' = l := by
        have hnd := hE.nodup e hwf
        exact eq_of_nodup_map hnd hl1 hl hpath
      rw [this, hm] at hl2
      cases hl2
    | false =>
      have hl' : l ∈ (leavesOf e).filter fun l => !(ms l).isEmpty := List.mem_filter.2 ⟨hl, by simp [hm]⟩
      rw [(h2 l hl').2]
      exact (leafOut_unique hok (fun _ => Iff.rfl) (h2 l hl').1 (hout l hl)).2
  · unfold scan
    rw [hvis]
    simp only [Function.comp_def]
    have hr := hrun []
    simp only [List.nil_append] at hr
    rw [hr]
    simp only
    rw [h1]
    simp only [Res.ok.injEq, Prod.mk.injEq, true_and]
    rw [flatMap_filter_nil (out := fun l => (out l).1)]
    · apply flatMap_congr'
      intro l hl
      exact (leafOut_unique hok (fun _ => Iff.rfl) (h2 l hl).1 (hout l (List.mem_filter.1 hl).1)).1
    · intro l hl hm
      exact (hnil l hl (by simpa using hm)).1


/-! ## Without model functions -/

theorem redacts_eq (sc : Scanner) : sc.redacts = redacting sc := by
  funext r
  unfold Scanner.redacts redacting infoOf
  cases sc.rules[r]? with
  | none => rfl
  | some rule => cases h : rule.info.action <;> simp [Action.isMutating, h]

theorem leafOut_result {E : Type} {impl : EventImpl E} (henc : LawfulEnc impl.enc) {sc : Scanner} (hok : ScannerOk sc)
    {blocked : List Nat} {leaves : List Leaf} {l : Leaf} {os : List RuleMatch} {new : Str}
    (h : LeafOut impl sc blocked leaves l os new) : LeafResult impl.enc sc blocked leaves l os new := by
  obtain ⟨ks, h1, h2⟩ := h
  have hcand : ∀ m ∈ ks, Candidate sc blocked l.path l.text m := fun m hm => ((h1 m).1 hm).1
  have hne : ∀ m ∈ ks, m.st < m.en := fun m hm => ((hcand m hm).bounds hok).1
  have hres : IsResolution sc.redacts ks (resolve sc.redacts ks) :=
    resolveWith_isResolution (sortsBy_prio _) sortsBy_start ks hne
  have hord : (resolve sc.redacts ks).Pairwise (fun a b => a.en ≤ b.st) :=
    Props.C01_reports_disjoint (sortsBy_prio _) sortsBy_start ks hne
  have hvr : ValidRanges l.text (resolve sc.redacts ks) := ⟨fun m hm => by
    have := (hcand m (hres.1 m hm)).bounds hok
    exact ⟨Nat.le_of_lt this.1, this.2⟩, hord⟩
  have hval : ValidRules (sc.rules.map (·.info)) (resolve sc.redacts ks) :=
    fun m hm => validRules_of_candidates hok hcand m (hres.1 m hm)
  obtain ⟨ps, tail, ht, hr⟩ := exists_pieces hvr
  refine ⟨ks, resolve sc.redacts ks, ps, tail, h1, redacts_eq sc ▸ hres, hord, ht, hr, ?_⟩
  have hspec := applyMatchActions_spec sc.fp henc sc.returnMatches (sc.rules.map (·.info)) (ruleAt (sc.rules.map (·.info)))
    l.path tail ps (rulesOk_of_valid (hr ▸ hval))
  rw [← ht, ← hr, h2] at hspec
  simp only [Res.ok.injEq, Prod.mk.injEq] at hspec
  have hi : ruleAt (sc.rules.map (·.info)) = infoOf sc := by
    funext r
    simp only [ruleAt, infoOf, List.getElem?_map]
    cases sc.rules[r]? <;> rfl
  rw [hi] at hspec
  exact hspec

/-- The whole scan, without model functions. -/
theorem scan_spec {E : Type} {impl : EventImpl E} {wf : E → Prop} {leavesOf : E → List Leaf}
    {rew : (Path → Str → Str) → E → E} (hE : LawfulEvent impl wf leavesOf rew) {sc : Scanner} (hok : ScannerOk sc)
    (blocked : List Nat) (e : E) (hwf : wf e) (htot : Returns sc (leavesOf e))
    (hfix : ∀ l ∈ leavesOf e, l.fixed = true → ∀ m, ¬ Candidate sc blocked l.path l.text m) :
    ∃ (out : Leaf → List RuleMatch × Str) (G : Path → Str → Str),
      (∀ l ∈ leavesOf e, LeafResult impl.enc sc blocked (leavesOf e) l (out l).1 (out l).2 ∧
        G l.path l.text = (out l).2) ∧
        scan impl sc e blocked = Res.ok (rew G e, (leavesOf e).flatMap fun l => (out l).1) := by
  obtain ⟨out, G, h1, h2⟩ := scan_leafOut hE hok blocked e hwf htot hfix
  exact ⟨out, G, fun l hl => ⟨leafOut_result hE.enc hok (h1 l hl).1, (h1 l hl).2⟩, h2⟩


/-! ## Matches in numbers and booleans -/

theorem editAll_fixed {E : Type} {impl : EventImpl E} {wf : E → Prop} {leavesOf : E → List Leaf}
    {rew : (Path → Str → Str) → E → E} (hE : LawfulEvent impl wf leavesOf rew) {sc : Scanner} (hok : ScannerOk sc)
    (blocked : List Nat) (e : E) (hwf : wf e) {excluded : List Str}
    (hex : ∀ t, t ∈ excluded ↔ FoundInExcluded sc blocked (leavesOf e) t) (ms : Leaf → List M)
    (hms : ∀ l ∈ leavesOf e, ∀ m, m ∈ ms l ↔ Candidate sc blocked l.path l.text m) :
    ∀ (todo : List Leaf), (todo.map (·.path)).Nodup → (∀ l ∈ todo, l ∈ leavesOf e) → (∃ l ∈ todo, l.fixed = true) →
    ∀ g : Path → Str → Str, (∀ l ∈ todo, g l.path l.text = l.text) →
      editAll impl sc excluded (todo.map fun l => ⟨l.path, l.text, sortBy startLe (ms l)⟩) (rew g e) = Res.panic := by
  intro todo
  induction todo with
  | nil => rintro _ _ ⟨_, h, _⟩; cases h
  | cons l todo ih =>
    intro hnd hl hfixed g hg
    simp only [List.map_cons, List.nodup_cons] at hnd
    obtain ⟨hnot, hnd⟩ := hnd
    have hle := hl l List.mem_cons_self
    have hl' : l ∈ leavesOf (rew g e) := by
      rw [hE.leaves_rew]
      refine List.mem_map.2 ⟨l, hle, ?_⟩
      rw [hg l List.mem_cons_self]
      obtain ⟨p, t, b⟩ := l
      simp
    simp only [List.map_cons, editAll]
    cases hfix : l.fixed with
    | true =>
      rw [hE.edit_fixed (rew g e) (hE.wf_rew g e hwf) l hl' hfix]
    | false =>
      obtain ⟨os, new, hout, hedit⟩ := editLeaf_spec hE.enc hok blocked (leavesOf e) hex l (ms l) (hms l hle)
      have hmut := hE.edit (rew g e) (hE.wf_rew g e hwf) l hl' hfix
        (editLeaf sc impl.enc excluded ⟨l.path, l.text, sortBy startLe (ms l)⟩)
      rw [hedit] at hmut
      simp only [Res.mapFst, hE.rew_rew] at hmut
      rw [hmut]
      simp only
      rw [ih hnd (fun x hx => hl x (List.mem_cons_of_mem _ hx)) (by
        obtain ⟨x, hx, hxf⟩ := hfixed
        rcases List.mem_cons.1 hx with rfl | hx
        · rw [hfix] at hxf; cases hxf
        · exact ⟨x, hx, hxf⟩) (fun p c => only l.path new p (g p c)) (fun x hx => by
        have : x.path ≠ l.path := fun h => hnot (h ▸ List.mem_map_of_mem hx)
        simp only [only, if_neg this]
        exact hg x (List.mem_cons_of_mem _ hx))]

theorem scan_fixed {E : Type} {impl : EventImpl E} {wf : E → Prop} {leavesOf : E → List Leaf}
    {rew : (Path → Str → Str) → E → E} (hE : LawfulEvent impl wf leavesOf rew) {sc : Scanner} (hok : ScannerOk sc)
    (blocked : List Nat) (e : E) (hwf : wf e) (htot : Returns sc (leavesOf e))
    (hfix : ∃ l ∈ leavesOf e, l.fixed = true ∧ ∃ m, Candidate sc blocked l.path l.text m) :
    scan impl sc e blocked = Res.panic := by
  obtain ⟨rules, excl, hp, hv⟩ := Props.visits_spec (sc.rules.map (·.scope)) sc.wildcards
  have hvis := hv _ _ (hE.visits e hwf)
  rw [List.map_map] at hvis
  obtain ⟨ms, ins, hms, hins, hrun⟩ := runVisits_spec hok blocked (leavesOf e) htot
    (fun l => ⟨l.path, l.text, rules l.path, excl l.path⟩)
    (fun l => ⟨rfl, rfl, (hp l.path).2.1, (hp l.path).2.2⟩)
  have hsub : ((leavesOf e).filter fun l => !(ms l).isEmpty).Sublist (leavesOf e) := List.filter_sublist
  have h1 := editAll_fixed hE hok blocked e hwf hins ms hms
    ((leavesOf e).filter fun l => !(ms l).isEmpty) ((hsub.map _).nodup (hE.nodup e hwf))
    (fun l hl => (List.mem_filter.1 hl).1) (by
      obtain ⟨l, hl, hf, m, hm⟩ := hfix
      refine ⟨l, List.mem_filter.2 ⟨hl, ?_⟩, hf⟩
      have := (hms l hl m).2 hm
      cases h : ms l with
      | nil => rw [h] at this; cases this
      | cons _ _ => rfl)
    (fun _ c => c) (fun _ _ => rfl)
  rw [hE.rew_id] at h1
  unfold scan
  rw [hvis]
  simp only [Function.comp_def]
  have hr := hrun []
  simp only [List.nil_append] at hr
  rw [hr]
  simp only
  rw [h1]

/-! ## Blocked rules -/

theorem silence_scopes (sc : Scanner) (blocked : List Nat) :
    (silence sc blocked).rules.map (·.scope) = sc.rules.map (·.scope) := by
  apply List.ext_getElem?
  intro i
  simp only [silence, List.getElem?_map, List.getElem?_mapIdx]
  cases sc.rules[i]? with
  | none => rfl
  | some rule => simp only [Option.map_some]; split <;> rfl

theorem silence_infos (sc : Scanner) (blocked : List Nat) :
    (silence sc blocked).rules.map (·.info) = sc.rules.map (·.info) := by
  apply List.ext_getElem?
  intro i
  simp only [silence, List.getElem?_map, List.getElem?_mapIdx]
  cases sc.rules[i]? with
  | none => rfl
  | some rule => simp only [Option.map_some]; split <;> rfl

theorem silence_redacts (sc : Scanner) (blocked : List Nat) : (silence sc blocked).redacts = sc.redacts := by
  funext r
  simp only [Scanner.redacts, silence, List.getElem?_mapIdx]
  cases sc.rules[r]? with
  | none => rfl
  | some rule => simp only [Option.map_some]; split <;> rfl

theorem silence_retain (sc : Scanner) (blocked : List Nat) (excluded : List Str) (c : Str) (ms : List M) :
    retainMatches (silence sc blocked) excluded c ms = retainMatches sc excluded c ms := by
  induction ms with
  | nil => rfl
  | cons m ms ih =>
    simp only [retainMatches]
    rw [ih]
    simp only [silence, List.getElem?_mapIdx]
    cases sc.rules[m.rule]? with
    | none => rfl
    | some rule => simp only [Option.map_some]; split <;> rfl

theorem silence_edit (sc : Scanner) (blocked : List Nat) (enc : Enc) (excluded : List Str) :
    editLeaf (silence sc blocked) enc excluded = editLeaf sc enc excluded := by
  funext pm c
  unfold editLeaf
  rw [silence_infos, silence_redacts, silence_retain]
  rfl

theorem silence_editAll {E : Type} (impl : EventImpl E) (sc : Scanner) (blocked : List Nat) (excluded : List Str)
    (l : List PathMatches) (e : E) : editAll impl (silence sc blocked) excluded l e = editAll impl sc excluded l e := by
  induction l generalizing e with
  | nil => rfl
  | cons pm l ih =>
    simp only [editAll]
    rw [silence_edit]
    simp only [ih]

theorem silence_runRules (sc : Scanner) (blocked : List Nat) (v : Visit) : ∀ (rs : List Nat) (ex : List Str),
    (∀ r ∈ rs, ∃ rule, sc.rules[r]? = some rule) →
    runRules (silence sc blocked) [] v rs ex = runRules sc blocked v rs ex := by
  intro rs
  induction rs with
  | nil => intro ex _; rfl
  | cons r rs ih =>
    intro ex h
    have ih := fun ex => ih ex (fun r hr => h r (List.mem_cons_of_mem _ hr))
    obtain ⟨rule, hr⟩ := h r List.mem_cons_self
    have hs : (silence sc blocked).rules[r]? =
        some (if r ∈ blocked then { rule with run := fun _ _ _ => Res.ok ⟨[], []⟩ } else rule) := by
      simp [silence, List.getElem?_mapIdx, hr]
    rw [runRules, runRules, if_neg (by simp), hs, hr]
    by_cases hb : r ∈ blocked
    · rw [if_pos hb, if_pos (by simpa using hb)]
      simp only [List.append_nil]
      rw [ih]
      cases runRules sc blocked v rs ex with
      | ok x => obtain ⟨a, b⟩ := x; simp
      | panic => rfl
      | hang => rfl
    · rw [if_neg hb, if_neg (by simpa using hb)]
      simp only [ih]

theorem silence_runVisits (sc : Scanner) (blocked : List Nat) : ∀ (vs : List Visit) (ex : List Str),
    (∀ v ∈ vs, ∀ r ∈ v.rules, ∃ rule, sc.rules[r]? = some rule) →
    runVisits (silence sc blocked) [] vs ex = runVisits sc blocked vs ex := by
  intro vs
  induction vs with
  | nil => intro ex _; rfl
  | cons v vs ih =>
    intro ex h
    have ih := fun ex => ih ex (fun x hx => h x (List.mem_cons_of_mem _ hx))
    rw [runVisits, runVisits, silence_runRules sc blocked v v.rules ex (h v List.mem_cons_self)]
    simp only [ih]

theorem scan_silence {E : Type} {impl : EventImpl E} {wf : E → Prop} {leavesOf : E → List Leaf}
    {rew : (Path → Str → Str) → E → E} (hE : LawfulEvent impl wf leavesOf rew) (sc : Scanner) (blocked : List Nat)
    (e : E) (hwf : wf e) : scan impl sc e blocked = scan impl (silence sc blocked) e [] := by
  obtain ⟨rules, excl, hp, hv⟩ := Props.visits_spec (sc.rules.map (·.scope)) sc.wildcards
  have hvis := hv _ _ (hE.visits e hwf)
  unfold scan
  rw [silence_scopes]
  have : (silence sc blocked).wildcards = sc.wildcards := rfl
  rw [this, hvis]
  simp only
  rw [silence_runVisits]
  · simp only [silence_editAll]
  · intro v hv r hr
    obtain ⟨x, _, rfl⟩ := List.mem_map.1 hv
    obtain ⟨s, hs, _⟩ := ((hp _).2.1 r).1 hr
    obtain ⟨rule, h, _⟩ := scope_at.1 hs
    exact ⟨rule, h⟩

end Sds
