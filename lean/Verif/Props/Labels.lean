import Verif.Spec.Labels
import Verif.Props.Metrics

/-! # C84: counters have the labels of their scanner and rule -/

namespace Sds
namespace Props
open Sds Spec

theorem recorded_nil (k : MetricKey) : recorded k [] = 0 := rfl

theorem recorded_cons (k : MetricKey) (i : Incr) (l : List Incr) :
    recorded k (i :: l) = (if i.1 = k then i.2 else 0) + recorded k l := by
  unfold recorded
  by_cases h : i.1 = k <;> simp [h]

theorem recorded_append (k : MetricKey) (a b : List Incr) : recorded k (a ++ b) = recorded k a + recorded k b := by
  simp [recorded]

theorem recorded_perm {k : MetricKey} {a b : List Incr} (h : a.Perm b) : recorded k a = recorded k b :=
  ((h.filter _).map _).sum_nat

theorem recorded_flatMap {α : Type} (k : MetricKey) (f : α → List Incr) (l : List α) :
    recorded k (l.flatMap f) = (l.map fun a => recorded k (f a)).sum := by
  induction l with
  | nil => rfl
  | cons a l ih => simp only [List.flatMap_cons, recorded_append, ih, List.map_cons, List.sum_cons]

theorem recorded_zero {k : MetricKey} {l : List Incr} (h : ∀ i ∈ l, i.1.name ≠ k.name) : recorded k l = 0 := by
  induction l with
  | nil => rfl
  | cons i l ih =>
    rw [recorded_cons, ih fun j hj => h j (List.mem_cons_of_mem _ hj), if_neg]
    intro hk
    exact h i List.mem_cons_self (by rw [hk])

theorem recorded_replicate (k k' : MetricKey) (n : Nat) :
    recorded k (List.replicate n (k', 1)) = if k' = k then n else 0 := by
  induction n with
  | zero => simp [recorded_nil]
  | succ n ih =>
    rw [List.replicate_succ, recorded_cons, ih]
    by_cases h : k' = k <;> simp [h]; omega

theorem sum_add {α : Type} (f g : α → Nat) : ∀ l : List α, (l.map fun a => f a + g a).sum = (l.map f).sum + (l.map g).sum
  | [] => rfl
  | a :: l => by simp only [List.map_cons, List.sum_cons, sum_add f g l]; omega

theorem sum_single (a n c : Nat) : ((List.range n).map fun r => if r = a then c else 0).sum = if a < n then c else 0 := by
  induction n with
  | zero => simp
  | succ n ih =>
    rw [List.range_succ, List.map_append, List.sum_append, ih]
    simp only [List.map_cons, List.map_nil, List.sum_cons, List.sum_nil]
    by_cases h1 : a < n
    · simp [h1, show ¬ n = a by omega, show a < n + 1 by omega]
    · by_cases h2 : n = a
      · subst h2; simp
      · simp [h1, h2, show ¬ a < n + 1 by omega]

theorem sum_map_count (n : Nat) (c : Nat → Nat) : ∀ l : List Nat, (∀ a ∈ l, n ≤ a → c a = 0) →
    (l.map c).sum = ((List.range n).map fun r => c r * l.count r).sum := by
  intro l
  induction l with
  | nil => intro _; induction n with
    | zero => rfl
    | succ n ih => rw [List.range_succ, List.map_append, List.sum_append, ← ih (by simp)]; simp
  | cons a l ih =>
    intro h
    have h1 : (fun r => c r * (a :: l).count r) = fun r => (if r = a then c a else 0) + c r * l.count r := by
      funext r
      by_cases hr : r = a
      · subst hr; simp [Nat.mul_add]; omega
      · rw [List.count_cons_of_ne (fun h => hr h.symm), if_neg hr]; omega
    rw [h1, sum_add, ← ih fun b hb => h b (List.mem_cons_of_mem _ hb), List.map_cons, List.sum_cons, sum_single]
    by_cases ha : a < n
    · simp [ha]
    · rw [if_neg ha, h a List.mem_cons_self (by omega)]

/-! ## The increments of a scan -/

theorem rulesIncs_name {sc : LScanner} {blocked : List Nat} {v : Visit} : ∀ (rs : List Nat), ∀ i ∈ rulesIncs sc blocked v rs,
    ∃ r : LRule, r ∈ sc.rules ∧ r.keywords.isSome = true ∧ i.1 = r.keywordKey sc.labels := by
  intro rs
  induction rs with
  | nil => intro i hi; cases hi
  | cons r rs ih =>
    intro i hi
    unfold rulesIncs at hi
    split at hi
    · exact ih i hi
    · split at hi
      · cases hi
      · next rule hr =>
        split at hi
        · exact ih i hi
        · next hits hk =>
          rcases List.mem_append.1 hi with h | h
          · obtain ⟨_, rfl⟩ := List.mem_replicate.1 h
            exact ⟨rule, List.mem_of_getElem? hr, by rw [hk]; rfl, rfl⟩
          · exact ih i h

theorem droppedIncs_name {sc : LScanner} : ∀ (l : List Nat), ∀ i ∈ droppedIncs sc l,
    ∃ r : LRule, r ∈ sc.rules ∧ i.1 = r.excludedMatchKey sc.labels := by
  intro l
  induction l with
  | nil => intro i hi; cases hi
  | cons r l ih =>
    intro i hi
    unfold droppedIncs at hi
    split at hi
    · exact ih i hi
    · next rule hr =>
      rcases List.mem_cons.1 hi with rfl | h
      · exact ⟨rule, List.mem_of_getElem? hr, rfl⟩
      · exact ih i h

/-- What the excluded keywords of a rule add to a counter for one string. -/
def share (sc : LScanner) (blocked : List Nat) (v : Visit) (k : MetricKey) (r : Nat) : Nat :=
  if blocked.contains r then 0
  else
    match sc.rules[r]? with
    | none => 0
    | some rule =>
      match rule.keywords with
      | none => 0
      | some hits => if rule.keywordKey sc.labels = k then hits v.content v.path (v.excluded.contains r) else 0

theorem recorded_rulesIncs (sc : LScanner) (blocked : List Nat) (v : Visit) (k : MetricKey) : ∀ (rs : List Nat),
    (∀ r ∈ rs, r < sc.rules.length) →
    recorded k (rulesIncs sc blocked v rs) = (rs.map (share sc blocked v k)).sum := by
  intro rs
  induction rs with
  | nil => intro _; rfl
  | cons r rs ih =>
    intro h
    have ih := ih fun s hs => h s (List.mem_cons_of_mem _ hs)
    obtain ⟨rule, hr⟩ : ∃ rule, sc.rules[r]? = some rule := ⟨_, List.getElem?_eq_getElem (h r List.mem_cons_self)⟩
    rw [List.map_cons, List.sum_cons, ← ih, rulesIncs]
    unfold share
    by_cases hb : blocked.contains r = true
    · rw [if_pos hb, if_pos hb, Nat.zero_add]
    · rw [if_neg hb, if_neg hb, hr]
      simp only
      cases rule.keywords with
      | none => simp only [Nat.zero_add]
      | some hits => simp only [recorded_append, recorded_replicate]

theorem recorded_droppedIncs (sc : LScanner) (k : MetricKey) : ∀ (l : List Nat),
    recorded k (droppedIncs sc l) = (l.map fun r =>
      if sc.rules[r]?.map (·.excludedMatchKey sc.labels) = some k then 1 else 0).sum := by
  intro l
  induction l with
  | nil => rfl
  | cons r l ih =>
    rw [List.map_cons, List.sum_cons, ← ih, droppedIncs]
    cases hr : sc.rules[r]? with
    | none => simp
    | some rule => simp only [Option.map_some, Option.some.injEq]; rw [recorded_cons]

section
variable {E : Type} {impl : EventImpl E} {wf : E → Prop} {leavesOf : E → List Leaf} {rew : (Path → Str → Str) → E → E}

theorem scanC_totals {sc : Scanner} {e : E} {blocked : List Nat} {x : E × List RuleMatch} {n : Counts}
    (h : scanC impl sc e blocked = Res.ok (x, n)) : n.scannedEvents = 1 ∧ n.matchCount = x.2.length := by
  unfold scanC at h
  split at h <;> try cases h
  split at h <;> try cases h
  split at h <;> cases h
  exact ⟨rfl, rfl⟩

theorem Spec.Done.Ok.parts {d : Done E} (h : d.Ok impl) : ∃ vs n,
    visitCombinations (RuleSet.new (d.sc.plain.rules.map (·.scope)) d.sc.wildcards) (impl.ops d.event) = Res.ok vs ∧
    scanC impl d.sc.plain d.event d.blocked = Res.ok ((d.after, d.out), n) ∧
    d.incs = vs.flatMap (fun v => rulesIncs d.sc d.blocked v v.rules) ++ droppedIncs d.sc n.excludedMatch ++
      [(⟨"scanning.duration".toList, d.sc.labels⟩, d.elapsed), (⟨"scanned_events".toList, d.sc.labels⟩, 1),
        (⟨"scanning.match_count".toList, d.sc.labels⟩, d.out.length)] := by
  unfold Done.Ok scanL at h
  split at h <;> try cases h
  next vs hvs =>
  cases hn : scanC impl d.sc.plain d.event d.blocked with
  | panic => rw [hn] at h; cases h
  | hang => rw [hn] at h; cases h
  | ok r =>
    obtain ⟨x, n⟩ := r
    rw [hn] at h
    simp only [Res.ok.injEq, Prod.mk.injEq] at h
    obtain ⟨rfl, h2⟩ := h
    obtain ⟨h3, h4⟩ := scanC_totals hn
    exact ⟨vs, n, hvs, rfl, by rw [← h2, h3, h4]⟩

theorem recorded_incs {d : Done E} (h : d.Ok impl) : ∃ vs n,
    visitCombinations (RuleSet.new (d.sc.plain.rules.map (·.scope)) d.sc.wildcards) (impl.ops d.event) = Res.ok vs ∧
    scanC impl d.sc.plain d.event d.blocked = Res.ok ((d.after, d.out), n) ∧
    ∀ k, recorded k d.incs = recorded k (vs.flatMap fun v => rulesIncs d.sc d.blocked v v.rules) +
      recorded k (droppedIncs d.sc n.excludedMatch) +
      ((if (⟨"scanning.duration".toList, d.sc.labels⟩ : MetricKey) = k then d.elapsed else 0) +
        ((if (⟨"scanned_events".toList, d.sc.labels⟩ : MetricKey) = k then 1 else 0) +
          (if (⟨"scanning.match_count".toList, d.sc.labels⟩ : MetricKey) = k then d.out.length else 0))) := by
  obtain ⟨vs, n, h1, h2, h3⟩ := Spec.Done.Ok.parts h
  refine ⟨vs, n, h1, h2, fun k => ?_⟩
  rw [h3, recorded_append, recorded_append, recorded_cons, recorded_cons, recorded_cons, recorded_nil]
  rfl

theorem kw_zero {sc : LScanner} {blocked : List Nat} {vs : List Visit} {k : MetricKey}
    (h : "false_positive.proximity_keywords".toList ≠ k.name) :
    recorded k (vs.flatMap fun v => rulesIncs sc blocked v v.rules) = 0 := by
  apply recorded_zero
  intro i hi
  obtain ⟨v, _, hv⟩ := List.mem_flatMap.1 hi
  obtain ⟨r, _, _, hr⟩ := rulesIncs_name _ i hv
  rw [hr]
  exact h

theorem ex_zero {sc : LScanner} {l : List Nat} {k : MetricKey}
    (h : "false_positive.multipass.excluded_match".toList ≠ k.name) : recorded k (droppedIncs sc l) = 0 := by
  apply recorded_zero
  intro i hi
  obtain ⟨r, _, hr⟩ := droppedIncs_name _ i hi
  rw [hr]
  exact h

theorem recorded_history {k : MetricKey} {ds : List (Done E)} {all : List Incr} (hall : all.Perm (ds.flatMap (·.incs))) :
    recorded k all = (ds.map fun d => recorded k d.incs).sum := by
  rw [recorded_perm hall, recorded_flatMap]

theorem key_eq_iff {n m : Str} {a b : Labels} : (⟨n, a⟩ : MetricKey) = ⟨m, b⟩ ↔ n = m ∧ a = b := by
  rw [MetricKey.mk.injEq]

theorem excludedMatchKey_eq {scanner L : Labels} {r : LRule} :
    r.excludedMatchKey scanner = ⟨"false_positive.multipass.excluded_match".toList, L⟩ ↔ scanner ++ r.labels = L :=
  key_eq_iff.trans (and_iff_right rfl)

theorem keywordKey_eq {scanner L : Labels} {r : LRule} :
    r.keywordKey scanner = ⟨"false_positive.proximity_keywords".toList, L⟩ ↔
      scanner ++ r.labels ++ [("type".toList, "excluded_keywords".toList)] = L :=
  key_eq_iff.trans (and_iff_right rfl)

/-- C84: after any scans by any scanners, in any order and at the same time, `scanned_events` with the labels `L` is the number
of scans by scanners with these labels. -/
theorem C84_scanned_events {ds : List (Done E)} (hd : ∀ d ∈ ds, d.Ok impl) {all : List Incr}
    (hall : all.Perm (ds.flatMap (·.incs))) (L : Labels) :
    recorded ⟨"scanned_events".toList, L⟩ all = (ds.filter fun d => d.sc.labels = L).length := by
  rw [recorded_history hall]
  induction ds generalizing all with
  | nil => rfl
  | cons d ds ih =>
    rw [List.map_cons, List.sum_cons, ih (fun x hx => hd x (List.mem_cons_of_mem _ hx)) (List.Perm.refl _)]
    obtain ⟨vs, n, _, _, h⟩ := recorded_incs (hd d List.mem_cons_self)
    rw [h, kw_zero (by dsimp only; decide), ex_zero (by dsimp only; decide)]
    simp only [key_eq_iff]
    by_cases hL : d.sc.labels = L
    · simp [hL]; omega
    · simp [hL]

/-- C84: `scanning.match_count` with the labels `L` is the number of matches these scans returned. -/
theorem C84_match_count {ds : List (Done E)} (hd : ∀ d ∈ ds, d.Ok impl) {all : List Incr}
    (hall : all.Perm (ds.flatMap (·.incs))) (L : Labels) : recorded ⟨"scanning.match_count".toList, L⟩ all =
      ((ds.filter fun d => d.sc.labels = L).map fun d => d.out.length).sum := by
  rw [recorded_history hall]
  induction ds generalizing all with
  | nil => rfl
  | cons d ds ih =>
    rw [List.map_cons, List.sum_cons, ih (fun x hx => hd x (List.mem_cons_of_mem _ hx)) (List.Perm.refl _)]
    obtain ⟨vs, n, _, _, h⟩ := recorded_incs (hd d List.mem_cons_self)
    rw [h, kw_zero (by dsimp only; decide), ex_zero (by dsimp only; decide)]
    simp only [key_eq_iff]
    by_cases hL : d.sc.labels = L <;> simp [hL]

/-- C84: `scanning.duration` with the labels `L` is the time these scans took. -/
theorem C84_duration {ds : List (Done E)} (hd : ∀ d ∈ ds, d.Ok impl) {all : List Incr}
    (hall : all.Perm (ds.flatMap (·.incs))) (L : Labels) : recorded ⟨"scanning.duration".toList, L⟩ all =
      ((ds.filter fun d => d.sc.labels = L).map fun d => d.elapsed).sum := by
  rw [recorded_history hall]
  induction ds generalizing all with
  | nil => rfl
  | cons d ds ih =>
    rw [List.map_cons, List.sum_cons, ih (fun x hx => hd x (List.mem_cons_of_mem _ hx)) (List.Perm.refl _)]
    obtain ⟨vs, n, _, _, h⟩ := recorded_incs (hd d List.mem_cons_self)
    rw [h, kw_zero (by dsimp only; decide), ex_zero (by dsimp only; decide)]
    simp only [key_eq_iff]
    by_cases hL : d.sc.labels = L <;> simp [hL]

/-- C84: a scan only adds to counters that building its scanner asked for. -/
theorem C84_registered {d : Done E} (hd : d.Ok impl) : ∀ i ∈ d.incs, i.1 ∈ d.sc.registered := by
  obtain ⟨vs, n, _, _, h⟩ := Spec.Done.Ok.parts hd
  intro i hi
  rw [h] at hi
  unfold LScanner.registered
  rcases List.mem_append.1 hi with h1 | h1
  · apply List.mem_append_left
    rcases List.mem_append.1 h1 with h2 | h2
    · obtain ⟨v, _, hv⟩ := List.mem_flatMap.1 h2
      obtain ⟨r, hr, hk, hi⟩ := rulesIncs_name _ i hv
      exact List.mem_flatMap.2 ⟨r, hr, by simp [hk, hi]⟩
    · obtain ⟨r, hr, hi⟩ := droppedIncs_name _ i h2
      exact List.mem_flatMap.2 ⟨r, hr, by simp [hi]⟩
  · apply List.mem_append_right
    simp only [List.mem_cons, List.not_mem_nil, or_false] at h1 ⊢
    rcases h1 with rfl | rfl | rfl <;> simp

theorem excluded_share {d : Done E} (h : d.Ok impl) (L : Labels) : ∃ n,
    scanC impl d.sc.plain d.event d.blocked = Res.ok ((d.after, d.out), n) ∧
    recorded ⟨"false_positive.multipass.excluded_match".toList, L⟩ d.incs =
      overRules d.sc fun r => if labelsOf d.sc r = some L then n.excludedMatch.count r else 0 := by
  obtain ⟨vs, n, _, h1, h2⟩ := recorded_incs h
  refine ⟨n, h1, ?_⟩
  rw [h2, kw_zero (by dsimp only; decide), recorded_droppedIncs, sum_map_count d.sc.rules.length]
  · unfold overRules labelsOf
    have e1 : "scanning.duration".toList ≠ "false_positive.multipass.excluded_match".toList := by decide
    have e2 : "scanned_events".toList ≠ "false_positive.multipass.excluded_match".toList := by decide
    have e3 : "scanning.match_count".toList ≠ "false_positive.multipass.excluded_match".toList := by decide
    simp only [key_eq_iff, e1, e2, e3, false_and, if_false, Nat.add_zero, Nat.zero_add]
    congr 1
    apply List.map_congr_left
    intro r _
    cases d.sc.rules[r]? with
    | none => simp
    | some rule =>
      simp only [Option.map_some, Option.some.injEq, excludedMatchKey_eq]
      by_cases hL : d.sc.labels ++ rule.labels = L
      · rw [if_pos hL, if_pos hL, Nat.one_mul]
      · rw [if_neg hL, if_neg hL, Nat.zero_mul]
  · intro a _ ha
    rw [List.getElem?_eq_none ha]
    simp

/-- C84: `false_positive.multipass.excluded_match` with the labels `L` is the number of dropped matches of the rules of these
scanners for which `L` is the labels of the scanner followed by the labels of the rule; for rules that emit each of their
matches once (C75). -/
theorem C84_excluded_match_partial (hE : LawfulEvent impl wf leavesOf rew) {ds : List (Done E)}
    (hd : ∀ d ∈ ds, d.Ok impl ∧ ScannerOk d.sc.plain ∧ Scannable wf leavesOf d.sc.plain d.blocked d.event ∧
      ∀ r, EmitsOnce d.sc.plain (leavesOf d.event) r) {all : List Incr} (hall : all.Perm (ds.flatMap (·.incs))) :
    ∃ K : Done E → Nat → Leaf → List M,
      (∀ d ∈ ds, ∀ r, ∀ l ∈ leavesOf d.event, DroppedHere d.sc.plain d.blocked (leavesOf d.event) r l (K d r l)) ∧
      ∀ L, recorded ⟨"false_positive.multipass.excluded_match".toList, L⟩ all = (ds.map fun d => overRules d.sc fun r =>
        if labelsOf d.sc r = some L then ((leavesOf d.event).map fun l => (K d r l).length).sum else 0).sum := by
  have hK : ∀ d : Done E, ∃ K : Nat → Leaf → List M, d ∈ ds →
      (∀ r, ∀ l ∈ leavesOf d.event, DroppedHere d.sc.plain d.blocked (leavesOf d.event) r l (K r l)) ∧
      ∀ L, recorded ⟨"false_positive.multipass.excluded_match".toList, L⟩ d.incs = overRules d.sc fun r =>
        if labelsOf d.sc r = some L then ((leavesOf d.event).map fun l => (K r l).length).sum else 0 := by
    intro d
    by_cases hm : d ∈ ds
    · obtain ⟨h1, h2, h3, h4⟩ := hd d hm
      obtain ⟨n, hn, -⟩ := excluded_share h1 []
      have := fun r => C75_excluded_match_partial hE h2 d.blocked d.event h3 (h4 r) hn
      refine ⟨fun r => (this r).choose, fun _ => ⟨fun r => (this r).choose_spec.1, fun L => ?_⟩⟩
      obtain ⟨n', hn', hL⟩ := excluded_share h1 L
      rw [hn] at hn'
      cases hn'
      rw [hL]
      simp only [fun r => ((this r).choose_spec.2).symm]
    · exact ⟨fun _ _ => [], fun h => absurd h hm⟩
  refine ⟨fun d => (hK d).choose, fun d hm => ((hK d).choose_spec hm).1, fun L => ?_⟩
  rw [recorded_history hall]
  congr 1
  apply List.map_congr_left
  intro d hm
  exact ((hK d).choose_spec hm).2 L

theorem share_ruledOut {sc : LScanner} {blocked : List Nat} {l : Leaf} {rules excl : List Nat}
    (hr : ∀ r, r ∈ rules ↔ ∃ s, (sc.plain.rules.map (·.scope))[r]? = some s ∧ Scans sc.wildcards l.path s)
    (he : ∀ r, r ∈ excl ↔ ∃ s, (sc.plain.rules.map (·.scope))[r]? = some s ∧ Excludes sc.wildcards l.path s) (r : Nat) :
    ∃ n, RuledOut sc blocked l r n ∧ ∀ L, (if r ∈ rules then
      share sc blocked ⟨l.path, l.text, rules, excl⟩ ⟨"false_positive.proximity_keywords".toList, L⟩ r else 0) =
      if (labelsOf sc r).map (· ++ [("type".toList, "excluded_keywords".toList)]) = some L then n else 0 := by
  have key : ∀ rule, sc.rules[r]? = some rule → (sc.plain.rules.map (·.scope))[r]? = some rule.rule.scope := by
    intro rule h
    simp [LScanner.plain, h]
  have rl : ∀ rule, sc.rules[r]? = some rule → sc.plain.rules[r]? = some rule.rule := by
    intro rule h
    simp [LScanner.plain, h]
  by_cases hex : ∃ rule hits ex, sc.rules[r]? = some rule ∧ rule.keywords = some hits ∧
      Applies sc.plain blocked l.path ex r rule.rule
  · obtain ⟨rule, hits, ex, h1, h2, h3⟩ := hex
    refine ⟨hits l.text l.path ex, ⟨?_, fun h => absurd ⟨rule, hits, ex, h1, h2, h3⟩ h⟩, fun L => ?_⟩
    · intro rule' hits' ex' h1' h2' h3'
      rw [h1] at h1'; cases h1'
      rw [h2] at h2'; cases h2'
      have : ex = ex' := Bool.eq_iff_iff.2 (h3.2.2.2.trans h3'.2.2.2.symm)
      rw [this]
    · have hm : r ∈ rules := (hr r).2 ⟨_, key rule h1, h3.2.2.1⟩
      have hx : excl.contains r = ex := by
        rw [Bool.eq_iff_iff, List.contains_iff_mem, he, h3.2.2.2]
        constructor
        · rintro ⟨s, hs, hs'⟩; rw [key rule h1] at hs; cases hs; exact hs'
        · exact fun h => ⟨_, key rule h1, h⟩
      have hb : blocked.contains r = false := by
        rw [Bool.eq_false_iff, ne_eq, List.contains_iff_mem]
        exact h3.1
      rw [if_pos hm]
      unfold share labelsOf
      rw [hb, h1]
      simp only [h2, hx, Option.map_some, keywordKey_eq, Option.some.injEq, Bool.false_eq_true, if_false]
  · refine ⟨0, ⟨fun rule hits ex h1 h2 h3 => absurd ⟨rule, hits, ex, h1, h2, h3⟩ hex, fun _ => rfl⟩, fun L => ?_⟩
    simp only [ite_self]
    split
    · next hm =>
      unfold share
      split
      · rfl
      · next hb =>
        split
        · rfl
        · next rule h1 =>
          split
          · rfl
          · next hits h2 =>
            exfalso
            obtain ⟨s, hs, hsc⟩ := (hr r).1 hm
            rw [key rule h1] at hs
            cases hs
            refine hex ⟨rule, hits, excl.contains r, h1, h2, fun h => hb (List.contains_iff_mem.2 h), rl rule h1, hsc, ?_⟩
            rw [List.contains_iff_mem, he]
            constructor
            · rintro ⟨s, hs, hs'⟩; rw [key rule h1] at hs; cases hs; exact hs'
            · exact fun h => ⟨_, key rule h1, h⟩
    · rfl

theorem keyword_share (hE : LawfulEvent impl wf leavesOf rew) {d : Done E} (h : d.Ok impl) (hwf : wf d.event) :
    ∃ H : Leaf → Nat → Nat, (∀ l ∈ leavesOf d.event, ∀ r, RuledOut d.sc d.blocked l r (H l r)) ∧
      ∀ L, recorded ⟨"false_positive.proximity_keywords".toList, L⟩ d.incs = ((leavesOf d.event).map fun l =>
        overRules d.sc fun r => if (labelsOf d.sc r).map (· ++ [("type".toList, "excluded_keywords".toList)]) = some L then
          H l r else 0).sum := by
  obtain ⟨vs, n, h1, _, h2⟩ := recorded_incs h
  obtain ⟨rules, excl, hp, hv⟩ := visits_spec (d.sc.plain.rules.map (·.scope)) d.sc.wildcards
  have hvis := hv _ _ (hE.visits d.event hwf)
  rw [h1, List.map_map] at hvis
  cases hvis
  have hsh := fun (l : Leaf) r => share_ruledOut (sc := d.sc) (blocked := d.blocked) (l := l) (hp l.path).2.1 (hp l.path).2.2 r
  refine ⟨fun l r => (hsh l r).choose, fun l _ r => (hsh l r).choose_spec.1, fun L => ?_⟩
  have e1 : "scanning.duration".toList ≠ "false_positive.proximity_keywords".toList := by decide
  have e2 : "scanned_events".toList ≠ "false_positive.proximity_keywords".toList := by decide
  have e3 : "scanning.match_count".toList ≠ "false_positive.proximity_keywords".toList := by decide
  rw [h2, ex_zero (by dsimp only; decide)]
  simp only [key_eq_iff, e1, e2, e3, false_and, if_false, Nat.add_zero]
  rw [recorded_flatMap, List.map_map]
  congr 1
  apply List.map_congr_left
  intro l _
  simp only [Function.comp_def]
  have hlen : ∀ r ∈ rules l.path, r < d.sc.rules.length := by
    intro r hr
    obtain ⟨s, hs, _⟩ := ((hp l.path).2.1 r).1 hr
    have := (List.getElem?_eq_some_iff.1 hs).1
    simpa [LScanner.plain] using this
  rw [recorded_rulesIncs _ _ _ _ _ hlen, sum_map_count d.sc.rules.length _ _
    (fun a ha hn => absurd (hlen a ha) (by omega))]
  unfold overRules
  congr 1
  apply List.map_congr_left
  intro r _
  rw [← (hsh l r).choose_spec.2 L, (hp l.path).1.count]
  split <;> simp

/-- C84: `false_positive.proximity_keywords` with the labels `L` is the number of matches ruled out by the excluded keywords
of the rules of these scanners for which `L` is the labels of the scanner, those of the rule and the label `type`.  What a rule
counts in one string is C75. -/
theorem C84_keywords (hE : LawfulEvent impl wf leavesOf rew) {ds : List (Done E)}
    (hd : ∀ d ∈ ds, d.Ok impl ∧ wf d.event) {all : List Incr} (hall : all.Perm (ds.flatMap (·.incs))) :
    ∃ H : Done E → Leaf → Nat → Nat,
      (∀ d ∈ ds, ∀ l ∈ leavesOf d.event, ∀ r, RuledOut d.sc d.blocked l r (H d l r)) ∧
      ∀ L, recorded ⟨"false_positive.proximity_keywords".toList, L⟩ all = (ds.map fun d => ((leavesOf d.event).map fun l =>
        overRules d.sc fun r => if (labelsOf d.sc r).map (· ++ [("type".toList, "excluded_keywords".toList)]) = some L then
          H d l r else 0).sum).sum := by
  have hH : ∀ d : Done E, ∃ H : Leaf → Nat → Nat, d ∈ ds →
      (∀ l ∈ leavesOf d.event, ∀ r, RuledOut d.sc d.blocked l r (H l r)) ∧
      ∀ L, recorded ⟨"false_positive.proximity_keywords".toList, L⟩ d.incs = ((leavesOf d.event).map fun l =>
        overRules d.sc fun r => if (labelsOf d.sc r).map (· ++ [("type".toList, "excluded_keywords".toList)]) = some L then
          H l r else 0).sum := by
    intro d
    by_cases hm : d ∈ ds
    · obtain ⟨H, hH⟩ := keyword_share hE (hd d hm).1 (hd d hm).2
      exact ⟨H, fun _ => hH⟩
    · exact ⟨fun _ _ => 0, fun h => absurd h hm⟩
  refine ⟨fun d => (hH d).choose, fun d hm => ((hH d).choose_spec hm).1, fun L => ?_⟩
  rw [recorded_history hall]
  congr 1
  apply List.map_congr_left
  intro d hm
  exact ((hH d).choose_spec hm).2 L

/-- C84: with the increments, a scan returns what it returns without them. -/
theorem C84_scan (hE : LawfulEvent impl wf leavesOf rew) {sc : LScanner} (hok : ScannerOk sc.plain) (blocked : List Nat)
    (e : E) (h : Scannable wf leavesOf sc.plain blocked e) (elapsed : Nat) : ∃ d : Done E, d.Ok impl ∧
      scan impl sc.plain e blocked = Res.ok (d.after, d.out) ∧
      d.sc = sc ∧ d.event = e ∧ d.blocked = blocked ∧ d.elapsed = elapsed := by
  obtain ⟨e', os, n, h1, h2, _, _⟩ := C75_scan_counters hE hok blocked e h
  obtain ⟨rules, excl, hp, hv⟩ := visits_spec (sc.plain.rules.map (·.scope)) sc.wildcards
  have hvis := hv _ _ (hE.visits e h.wf)
  obtain ⟨incs, hi⟩ : ∃ incs, scanL impl sc e blocked elapsed = Res.ok ((e', os), incs) := by
    unfold scanL
    rw [hvis]
    simp only
    rw [h2]
    exact ⟨_, rfl⟩
  exact ⟨⟨sc, e, blocked, elapsed, e', os, incs⟩, hi, h1, rfl, rfl, rfl, rfl⟩

end

/-- C84: building a scanner asks for three counters with the labels of the scanner, one for each rule with the labels of
the scanner and the rule, and one with the additional label `type` for each rule with excluded keywords. -/
theorem C84_counters (sc : LScanner) (k : MetricKey) : k ∈ sc.registered ↔
    (k.labels = sc.labels ∧ k.name ∈ ["scanned_events".toList, "scanning.duration".toList, "scanning.match_count".toList]) ∨
    ∃ r, (k.name = "false_positive.multipass.excluded_match".toList ∧ labelsOf sc r = some k.labels) ∨
      (k.name = "false_positive.proximity_keywords".toList ∧ (∃ rule, sc.rules[r]? = some rule ∧ rule.keywords.isSome = true) ∧
        (labelsOf sc r).map (· ++ [("type".toList, "excluded_keywords".toList)]) = some k.labels) := by
  obtain ⟨name, L⟩ := k
  unfold LScanner.registered labelsOf
  simp only [List.mem_append, List.mem_flatMap, List.mem_cons, List.not_mem_nil, or_false, key_eq_iff]
  constructor
  · rintro (⟨rule, hr, h⟩ | h)
    · obtain ⟨r, hr⟩ := List.getElem?_of_mem hr
      refine Or.inr ⟨r, ?_⟩
      rcases h with h | h
      · cases hk : rule.keywords.isSome with
        | false => rw [hk] at h; cases h
        | true =>
          rw [hk, if_pos rfl, List.mem_singleton] at h
          injection h with h1 h2
          exact Or.inr ⟨h1, ⟨rule, hr, hk⟩, by rw [hr, h2]; rfl⟩
      · injection h with h1 h2
        exact Or.inl ⟨h1, by rw [hr, h2]; rfl⟩
    · rcases h with ⟨h1, h2⟩ | ⟨h1, h2⟩ | ⟨h1, h2⟩ <;> exact Or.inl ⟨h2, by simp [h1]⟩
  · rintro (⟨h2, h1⟩ | ⟨r, h⟩)
    · refine Or.inr ?_
      rcases h1 with h1 | h1 | h1
      · exact Or.inl ⟨h1, h2⟩
      · exact Or.inr (Or.inl ⟨h1, h2⟩)
      · exact Or.inr (Or.inr ⟨h1, h2⟩)
    · refine Or.inl ?_
      rcases h with ⟨h1, h2⟩ | ⟨h1, ⟨rule, hr, hk⟩, h2⟩
      · cases hr : sc.rules[r]? with
        | none => rw [hr] at h2; cases h2
        | some rule =>
          rw [hr] at h2
          injection h2 with h2
          exact ⟨rule, List.mem_of_getElem? hr, Or.inr (key_eq_iff.2 ⟨h1, h2.symm⟩)⟩
      · rw [hr] at h2
        injection h2 with h2
        refine ⟨rule, List.mem_of_getElem? hr, Or.inl ?_⟩
        rw [hk, if_pos rfl]
        exact List.mem_singleton.2 (key_eq_iff.2 ⟨h1, h2.symm⟩)

/-- C84: a regex rule counts excluded keywords if it has some; without included keywords it counts the starts of matches that
are preceded by an excluded keyword and not inside a genuine match, each once. -/
theorem C84_regex_rule_partial {r : RegexRule} (hl : LawfulRx r.rx) (hne : NonEmptyRx r.rx) (hi : r.included = none)
    {info : RuleInfo} {scope : Scope} {kp : Bool} {fuel : Str → Nat} (hf : ∀ c, blen c < fuel c) {labels : Labels} :
    ((r.toLRule info scope kp fuel labels).keywords.isSome = true ↔ ∃ x, r.excluded = some x) ∧
    (r.toLRule info scope kp fuel labels).labels = labels ∧
    (r.toLRule info scope kp fuel labels).rule = r.toCRule info scope kp fuel ∧
    ∀ hits, (r.toLRule info scope kp fuel labels).keywords = some hits → ∀ c path ex, ChecksSafely r c →
      ∃ log l : List _, hits c path ex = log.length ∧ log.Pairwise (· < ·) ∧ Leftmost (Genuine r c) 0 l ∧
        ∀ p, p ∈ log ↔ KeywordHit r c p ∧ ¬ Inside l p := by
  refine ⟨?_, rfl, rfl, ?_⟩
  · unfold RegexRule.toLRule
    cases r.excluded <;> simp
  · intro hits hh c path ex hs
    unfold RegexRule.toLRule at hh
    simp only at hh
    cases hx : r.excluded with
    | none => rw [hx] at hh; cases hh
    | some x =>
      rw [hx] at hh
      simp only [Option.map_some, Option.some.injEq] at hh
      subst hh
      have hV : ∃ f log, stringMatchesV r kp ex c path (fuel c) = Res.ok (f, log) := by
        have h1 := collectTpV_erase r true ex c (fuel c) (fuel c) 0
        have h2 : ∃ f, stringMatches r kp ex c path (fuel c) = Res.ok f :=
          stringMatches_returns hl hne (by intro k hk; rw [hi] at hk; cases hk) kp ex (fun _ => hs) path (hf c)
        obtain ⟨f, h2⟩ := h2
        unfold stringMatches at h2
        rw [hi] at h2
        simp only at h2
        rw [h2] at h1
        unfold stringMatchesV
        rw [hi]
        simp only
        cases hc : collectTpV r true ex c (fuel c) (fuel c) 0 with
        | ok y => exact ⟨y.1, y.2, rfl⟩
        | panic => rw [hc] at h1; cases h1
        | hang => rw [hc] at h1; cases h1
      obtain ⟨f, log, hV⟩ := hV
      obtain ⟨_, h3, l, h4, h5⟩ := C75_keyword_counter_partial hl hne hi hs hV
      exact ⟨log, l, by simp only [hV], h3, h4, h5⟩

/-! ## Examples -/

private def fld (s : String) : Seg := .field s.toList

private def lab (k v : String) : Str × Str := (k.toList, v.toList)

private def notId : RegexRule := ⟨digitsRx, none, none, some ⟨fun a b => a == b, 10, ["id".toList]⟩⟩

/-- Digits without the word `id` in front, and digits. -/
private def exRules : List LRule :=
  [notId.toLRule ⟨.none, false⟩ (.incl [[fld "n"]] []) false (fun c => blen c + 1) [lab "rule" "a"],
    RegexRule.toLRule ⟨digitsRx, none, none, none⟩ ⟨.none, false⟩ (.excl [[fld "x"]]) false (fun c => blen c + 1)
      [lab "rule" "b"]]

private def exScanner : LScanner := ⟨exRules, [lab "team" "t"], false, true, true, ⟨fun _ => 0, fun _ => 0⟩⟩

private def exEv : Ev := .map (.cons "x".toList (.str "12".toList) (.cons "n".toList (.str "id 12 7".toList) .nil))

/-- Three keyword hits of the first rule, and a match of the second one that is dropped. -/
example : (scanL jsonEvent exScanner exEv [] 9).map (·.2) = Res.ok
    [(⟨"false_positive.proximity_keywords".toList, [lab "team" "t", lab "rule" "a", lab "type" "excluded_keywords"]⟩, 1),
      (⟨"false_positive.proximity_keywords".toList, [lab "team" "t", lab "rule" "a", lab "type" "excluded_keywords"]⟩, 1),
      (⟨"false_positive.proximity_keywords".toList, [lab "team" "t", lab "rule" "a", lab "type" "excluded_keywords"]⟩, 1),
      (⟨"false_positive.multipass.excluded_match".toList, [lab "team" "t", lab "rule" "b"]⟩, 1),
      (⟨"scanning.duration".toList, [lab "team" "t"]⟩, 9), (⟨"scanned_events".toList, [lab "team" "t"]⟩, 1),
      (⟨"scanning.match_count".toList, [lab "team" "t"]⟩, 1)] := by
  decide +kernel

/-- A scan as in the theorems; the counter of the second rule goes up, not the one of the first. -/
example : ∃ d : Done Ev, d.Ok jsonEvent ∧ d.out.length = 1 ∧ WellKeyed d.event ∧
    recorded ⟨"false_positive.multipass.excluded_match".toList, [lab "team" "t", lab "rule" "b"]⟩ (d.incs ++ d.incs) = 2 ∧
    recorded ⟨"false_positive.multipass.excluded_match".toList, [lab "team" "t", lab "rule" "a"]⟩ (d.incs ++ d.incs) = 0 := by
  obtain ⟨x, hx⟩ : ∃ x, scanL jsonEvent exScanner exEv [] 9 = Res.ok x := by
    have h : (scanL jsonEvent exScanner exEv [] 9).map (fun _ => ()) = Res.ok () := by decide +kernel
    cases hs : scanL jsonEvent exScanner exEv [] 9 with
    | ok x => exact ⟨x, rfl⟩
    | panic => rw [hs] at h; cases h
    | hang => rw [hs] at h; cases h
  have h : (scanL jsonEvent exScanner exEv [] 9).map (fun x => (x.1.2.length,
      recorded ⟨"false_positive.multipass.excluded_match".toList, [lab "team" "t", lab "rule" "b"]⟩ (x.2 ++ x.2),
      recorded ⟨"false_positive.multipass.excluded_match".toList, [lab "team" "t", lab "rule" "a"]⟩ (x.2 ++ x.2))) =
      Res.ok (1, 2, 0) := by decide +kernel
  rw [hx] at h
  simp only [Res.map, Res.ok.injEq, Prod.mk.injEq] at h
  exact ⟨⟨exScanner, exEv, [], 9, x.1.1, x.1.2, x.2⟩, hx, h.1, by simp [exEv, WellKeyed, WellKeyedFields, keys], h.2.1, h.2.2⟩

private def digitsRule : RegexRule := ⟨digitsRx, none, none, none⟩

private def exScanner2 : LScanner :=
  ⟨[digitsRule.toLRule ⟨.none, false⟩ (.excl [[fld "x"]]) false (fun c => blen c + 1) [lab "rule" "b"]], [lab "team" "t"],
    false, true, true, ⟨fun _ => 0, fun _ => 0⟩⟩

/-- The hypotheses of `C84_excluded_match_partial`, with a scan that drops a match. -/
example : (∃ d : Done Ev, d.Ok jsonEvent ∧ d.sc = exScanner2 ∧ d.event = exEv ∧ d.blocked = []) ∧
    ScannerOk exScanner2.plain ∧ Scannable WellKeyed (Ev.leaves false) exScanner2.plain [] exEv ∧
    (∀ r, EmitsOnce exScanner2.plain (Ev.leaves false exEv) r) ∧
    (scanC jsonEvent exScanner2.plain exEv []).map (·.2) = Res.ok ⟨1, 1, [0]⟩ := by
  have h1 : ScannerOk exScanner2.plain := by
    intro rule h
    simp only [exScanner2, LScanner.plain, List.map_cons, List.map_nil, List.mem_singleton] at h
    subst h
    exact regexRule_ok digitsRx_ok.1 digitsRx_ok.2 (by intro k hk; cases hk) (by intro c; omega) (by simp) _ false
  have h2 : Scannable WellKeyed (Ev.leaves false) exScanner2.plain [] exEv := by
    refine ⟨?_, ?_, ?_⟩
    · simp [exEv, WellKeyed, WellKeyedFields, keys]
    · intro rule h l _ ex
      simp only [exScanner2, LScanner.plain, List.map_cons, List.map_nil, List.mem_singleton] at h
      subst h
      exact stringMatches_returns (r := digitsRule) digitsRx_ok.1 digitsRx_ok.2
        (by intro k hk; cases hk) false ex (by intro _ x hx; cases hx) l.path (Nat.lt_succ_self _)
    · have : ∀ l ∈ Ev.leaves false exEv, l.fixed = false := by decide +kernel
      intro l hl hf
      rw [this l hl] at hf
      cases hf
  refine ⟨?_, h1, h2, ?_, by decide +kernel⟩
  · obtain ⟨d, hd, _, e1, e2, e3, _⟩ := C84_scan jsonEvent_lawful h1 [] exEv h2 9
    exact ⟨d, hd, e1, e2, e3⟩
  · intro r
    cases r with
    | zero => exact emitsOnce_regex (r := digitsRule) digitsRx_ok.1 digitsRx_ok.2 rfl rfl (by intro l _ x hx; cases hx)
                (by intro c; omega)
    | succ r => intro rule f hr; cases hr

end Props
end Sds
