import Verif.Spec.ParValidate
import Verif.Lemmas.ValidateGroups

/-! # The threads that validate matches: invariants -/

namespace Sds

open Spec

theorem traffic_append (log log' : List NetEvent) (k : CheckKey) :
    traffic (log ++ log') k = traffic log k ++ traffic log' k := by
  simp [traffic]

theorem traffic_one (e : NetEvent) (k : CheckKey) : traffic [e] k = if keyOf e = k then [e] else [] := by
  by_cases h : keyOf e = k <;> simp [traffic, h]

/-- The places a status is merged into. -/
def keyed (s : MatchStatus) : CheckKey → List (Nat × MatchStatus)
  | .http i _ => [(i, s)]
  | .aws i j => [(i, s), (j, s)]

theorem mergeKey_eq (ms : List RuleMatch) (s : MatchStatus) (k : CheckKey) : mergeKey ms s k = mergeSeq (keyed s k) ms := by
  cases k <;> rfl

theorem mergeSeq_append (a b : List (Nat × MatchStatus)) (ms : List RuleMatch) :
    mergeSeq (a ++ b) ms = mergeSeq b (mergeSeq a ms) := by
  simp [mergeSeq]

def doneEntries (jobs : CheckKey → Job) (k : CheckKey) : List (Nat × MatchStatus) :=
  match jobs k with
  | .done s => keyed s k
  | _ => []

/-- Where a check stands agrees with what was sent and received. -/
def JobOk (sg : Signer) (ins : List RuleMatch) (v : Validator) (log : List NetEvent) (k : CheckKey) : Job → Prop
  | .todo => traffic log k = []
  | .waiting => ∃ r, beginCheck sg ins v k = .send r ∧ traffic log k = [.sent k r]
  | .done s => (beginCheck sg ins v k = .known s ∧ traffic log k = []) ∨
      ∃ r a, beginCheck sg ins v k = .send r ∧ s = endCheck v a ∧ traffic log k = [.sent k r, .received k a]
  | .crashed => beginCheck sg ins v k = .panics ∧ traffic log k = []

def AllDone (g : Group) : Prop := ∀ k ∈ g.keys, ∃ s, g.jobs k = .done s

def PhaseOk (ins : List RuleMatch) (g : Group) : Phase → Prop
  | .waiting => g.matches_ = ins ∧ g.log = [] ∧ g.jobs = fun _ => .todo
  | .checking => g.matches_ = ins
  | .merging left => AllDone g ∧ ∃ pre, (pre ++ left).Perm g.keys ∧ g.matches_ = mergeSeq (pre.flatMap (doneEntries g.jobs)) ins
  | .finished => AllDone g ∧ ∃ order : List CheckKey, order.Perm g.keys ∧ g.matches_ = mergeSeq (order.flatMap (doneEntries g.jobs)) ins
  | .crashed => ∃ k ∈ g.keys, g.jobs k = .crashed

/-- What holds of a group with a validator at any time. -/
structure GroupOk (sg : Signer) (rules : List (Option VType)) (ins : List RuleMatch) (v : Validator) (g : Group) : Prop where
  val : g.validator = some v
  keys : g.phase = .waiting ∨ g.keys = jobKeys rules ins v
  jobs : ∀ k ∈ g.keys, JobOk sg ins v g.log k (g.jobs k)
  other : ∀ k, k ∉ g.keys → traffic g.log k = []
  phase : PhaseOk ins g g.phase

theorem setJob_same (jobs : CheckKey → Job) (k : CheckKey) (j : Job) : setJob jobs k j k = j := by simp [setJob]

theorem setJob_other (jobs : CheckKey → Job) {k k' : CheckKey} (h : k' ≠ k) (j : Job) : setJob jobs k j k' = jobs k' := by
  simp [setJob, h]

theorem jobOk_log {sg : Signer} {ins : List RuleMatch} {v : Validator} {log log' : List NetEvent} {k : CheckKey} {j : Job}
    (h : JobOk sg ins v log k j) (e : traffic log' k = traffic log k) : JobOk sg ins v log' k j := by
  cases j <;> simpa only [JobOk, e] using h

theorem traffic_snoc_other (log : List NetEvent) (e : NetEvent) {k : CheckKey} (h : keyOf e ≠ k) :
    traffic (log ++ [e]) k = traffic log k := by
  rw [traffic_append, traffic_one, if_neg h, List.append_nil]

theorem traffic_snoc_same (log : List NetEvent) (e : NetEvent) {k : CheckKey} (h : keyOf e = k) :
    traffic (log ++ [e]) k = traffic log k ++ [e] := by
  rw [traffic_append, traffic_one, if_pos h]

theorem groupOk_step {sg : Signer} {rules : List (Option VType)} {ins : List RuleMatch} {v : Validator} {g g' : Group}
    (h : GroupOk sg rules ins v g) (hs : GroupStep sg rules g g') : GroupOk sg rules ins v g' := by
  cases hs with
  | none hp hv => rw [h.val] at hv; cases hv
  | start v' hp hv =>
    rw [h.val] at hv
    cases hv
    have h0 := h.phase
    rw [hp] at h0
    obtain ⟨e1, e2, e3⟩ := h0
    refine ⟨h.val, .inr (by rw [e1]), fun k _ => ?_, fun k _ => ?_, e1⟩
    · show JobOk sg ins v g.log k (g.jobs k)
      rw [e2, e3]; rfl
    · show traffic g.log k = []
      rw [e2]; rfl
  | known v' k s hp hv hk hj hb =>
    rw [h.val] at hv
    cases hv
    have h0 := h.phase
    rw [hp] at h0
    have hjk := h.jobs k hk
    rw [hj] at hjk
    refine ⟨h.val, ?_, fun k' hk' => ?_, h.other, ?_⟩
    · exact h.keys
    · show JobOk sg ins v g.log k' (setJob g.jobs k (.done s) k')
      by_cases e : k' = k
      · subst e
        rw [setJob_same]
        exact .inl ⟨by rw [← hb]; exact congrArg (fun m => beginCheck sg m v k') h0.symm, hjk⟩
      · rw [setJob_other _ e]; exact h.jobs k' hk'
    · show PhaseOk ins _ g.phase
      rw [hp]; exact h0
  | send v' k r hp hv hk hj hb =>
    rw [h.val] at hv
    cases hv
    have h0 := h.phase
    rw [hp] at h0
    have hjk := h.jobs k hk
    rw [hj] at hjk
    refine ⟨h.val, h.keys, fun k' hk' => ?_, fun k' hk' => ?_, ?_⟩
    · show JobOk sg ins v (g.log ++ [.sent k r]) k' (setJob g.jobs k .waiting k')
      by_cases e : k' = k
      · subst e
        rw [setJob_same]
        refine ⟨r, by rw [← hb]; exact congrArg (fun m => beginCheck sg m v k') h0.symm, ?_⟩
        rw [traffic_snoc_same (k := k') _ _ rfl, show traffic g.log k' = [] from hjk, List.nil_append]
      · rw [setJob_other _ e]
        exact jobOk_log (h.jobs k' hk') (traffic_snoc_other _ _ (fun x => e x.symm))
    · show traffic (g.log ++ [.sent k r]) k' = []
      rw [traffic_snoc_other (k := k') _ (.sent k r) (fun (x : k = k') => hk' (x ▸ hk))]
      exact h.other k' hk'
    · show PhaseOk ins _ g.phase
      rw [hp]; exact h0
  | panic v' k hp hv hk hj hb =>
    rw [h.val] at hv
    cases hv
    have h0 := h.phase
    rw [hp] at h0
    have hjk := h.jobs k hk
    rw [hj] at hjk
    refine ⟨h.val, h.keys, fun k' hk' => ?_, h.other, ?_⟩
    · show JobOk sg ins v g.log k' (setJob g.jobs k .crashed k')
      by_cases e : k' = k
      · subst e
        rw [setJob_same]
        exact ⟨by rw [← hb]; exact congrArg (fun m => beginCheck sg m v k') h0.symm, hjk⟩
      · rw [setJob_other _ e]; exact h.jobs k' hk'
    · show PhaseOk ins _ g.phase
      rw [hp]; exact h0
  | receive v' k a hp hv hk hj =>
    rw [h.val] at hv
    cases hv
    have h0 := h.phase
    rw [hp] at h0
    have hjk := h.jobs k hk
    rw [hj] at hjk
    obtain ⟨r, hb, ht⟩ := hjk
    refine ⟨h.val, h.keys, fun k' hk' => ?_, fun k' hk' => ?_, ?_⟩
    · show JobOk sg ins v (g.log ++ [.received k a]) k' (setJob g.jobs k (.done (endCheck v a)) k')
      by_cases e : k' = k
      · subst e
        rw [setJob_same]
        exact .inr ⟨r, a, hb, rfl, by rw [traffic_snoc_same (k := k') _ _ rfl, ht]; rfl⟩
      · rw [setJob_other _ e]
        exact jobOk_log (h.jobs k' hk') (traffic_snoc_other _ _ (fun x => e x.symm))
    · show traffic (g.log ++ [.received k a]) k' = []
      rw [traffic_snoc_other (k := k') _ (.received k a) (fun (x : k = k') => hk' (x ▸ hk))]
      exact h.other k' hk'
    · show PhaseOk ins _ g.phase
      rw [hp]; exact h0
  | join order hp hd ho =>
    have h0 := h.phase
    rw [hp] at h0
    have hk : g.keys = jobKeys rules ins v := h.keys.resolve_left (by rw [hp]; simp)
    exact ⟨h.val, .inr hk, h.jobs, h.other, hd, [], by simpa using ho, h0⟩
  | crash k hp hk hj _ =>
    have hk' : g.keys = jobKeys rules ins v := h.keys.resolve_left (by rw [hp]; simp)
    exact ⟨h.val, .inr hk', h.jobs, h.other, k, hk, hj⟩
  | merge k left s hp hj =>
    have h0 := h.phase
    rw [hp] at h0
    have hk : g.keys = jobKeys rules ins v := h.keys.resolve_left (by rw [hp]; simp)
    obtain ⟨hd, pre, hpre, hm⟩ := h0
    refine ⟨h.val, .inr hk, h.jobs, h.other, hd, pre ++ [k], by simpa using hpre, ?_⟩
    show mergeKey g.matches_ s k = _
    rw [mergeKey_eq, hm, List.flatMap_append, mergeSeq_append]
    congr 1
    simp [doneEntries, hj]
  | finish hp =>
    have h0 := h.phase
    rw [hp] at h0
    have hk : g.keys = jobKeys rules ins v := h.keys.resolve_left (by rw [hp]; simp)
    obtain ⟨hd, pre, hpre, hm⟩ := h0
    exact ⟨h.val, .inr hk, h.jobs, h.other, hd, pre, by simpa using hpre, hm⟩

/-- What holds of a group without a validator. -/
structure IdleOk (ins : List RuleMatch) (g : Group) : Prop where
  val : g.validator = none
  same : g.matches_ = ins
  log : g.log = []
  phase : g.phase = .waiting ∨ g.phase = .finished

theorem idleOk_step {sg : Signer} {rules : List (Option VType)} {ins : List RuleMatch} {g g' : Group}
    (h : IdleOk ins g) (hs : GroupStep sg rules g g') : IdleOk ins g' := by
  have hp := h.phase
  have hv := h.val
  cases hs with
  | none => exact ⟨h.val, h.same, h.log, .inr rfl⟩
  | start _ _ hv' => rw [hv] at hv'; cases hv'
  | known _ _ _ _ hv' => rw [hv] at hv'; cases hv'
  | send _ _ _ _ hv' => rw [hv] at hv'; cases hv'
  | panic _ _ _ hv' => rw [hv] at hv'; cases hv'
  | receive _ _ _ _ hv' => rw [hv] at hv'; cases hv'
  | join _ hp' => rw [hp'] at hp; simp at hp
  | crash _ hp' => rw [hp'] at hp; simp at hp
  | merge _ _ _ hp' => rw [hp'] at hp; simp at hp
  | finish hp' => rw [hp'] at hp; simp at hp

/-- What holds of a group at any time; `o` is the group as it was given. -/
structure OneOk (sg : Signer) (rules : List (Option VType)) (vs : List (IType × Validator)) (o : IType × List RuleMatch)
    (g : Group) : Prop where
  type : g.type = o.1
  val : g.validator = vs.lookup o.1
  idle : vs.lookup o.1 = none → IdleOk o.2 g
  busy : ∀ v, vs.lookup o.1 = some v → GroupOk sg rules o.2 v g

theorem step_type {sg : Signer} {rules : List (Option VType)} {g g' : Group} (hs : GroupStep sg rules g g') :
    g'.type = g.type ∧ g'.validator = g.validator := by
  cases hs <;> exact ⟨rfl, rfl⟩

theorem oneOk_step {sg : Signer} {rules : List (Option VType)} {vs : List (IType × Validator)} {o : IType × List RuleMatch}
    {g g' : Group} (h : OneOk sg rules vs o g) (hs : GroupStep sg rules g g') : OneOk sg rules vs o g' :=
  ⟨(step_type hs).1.trans h.type, (step_type hs).2.trans h.val, fun e => idleOk_step (h.idle e) hs,
    fun v e => groupOk_step (h.busy v e) hs⟩

theorem oneOk_start (sg : Signer) (rules : List (Option VType)) (vs : List (IType × Validator)) (o : IType × List RuleMatch) :
    OneOk sg rules vs o { type := o.1, matches_ := o.2, validator := vs.lookup o.1 } :=
  ⟨rfl, rfl, fun e => ⟨e, rfl, rfl, .inl rfl⟩, fun _ e => ⟨e, .inl rfl, fun k hk => by simp at hk, fun _ _ => rfl, rfl, rfl, rfl⟩⟩

theorem all2_replace {α β : Type} {R : α → β → Prop} {as : List α} {b b' : β} {l r : List β}
    (h : All2 R as (l ++ b :: r)) (hb : ∀ a, R a b → R a b') : All2 R as (l ++ b' :: r) := by
  induction l generalizing as with
  | nil =>
    cases h with
    | cons h1 h2 => exact .cons (hb _ h1) h2
  | cons x l ih =>
    cases h with
    | cons h1 h2 => exact .cons h1 (ih h2)

theorem par_inv {sg : Signer} {rules : List (Option VType)} {vs : List (IType × Validator)}
    {gs : List (IType × List RuleMatch)} {groups : List Group} (h : ParRun sg rules (startGroups vs gs) groups) :
    All2 (OneOk sg rules vs) gs groups := by
  generalize hst : startGroups vs gs = start at h
  induction h with
  | refl =>
    subst hst
    induction gs with
    | nil => exact .nil
    | cons o gs ih => exact .cons (oneOk_start sg rules vs o) ih
  | tail _ hs ih =>
    cases hs with
    | mk a g g' b hg => exact all2_replace ih fun o ho => oneOk_step ho hg

end Sds
