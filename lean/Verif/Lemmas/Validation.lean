import Verif.Spec.Validation
import Verif.Lemmas.Overlap
import Verif.Lemmas.Validators

namespace Sds

open Spec

/-! ## The order of statuses -/

theorem strLt_irrefl (a : Str) : strLt a a = false := by
  induction a with
  | nil => rfl
  | cons x xs ih => simp [strLt, ih]

theorem strLt_trans {a b c : Str} (h : strLt a b = true) (h' : strLt b c = true) : strLt a c = true := by
  induction b generalizing a c with
  | nil => cases a <;> simp [strLt] at h
  | cons y ys ih =>
    cases c with
    | nil => simp [strLt] at h'
    | cons z zs =>
      cases a with
      | nil => simp [strLt]
      | cons x xs =>
        simp [strLt] at h h' ⊢
        rcases h with h | ⟨h, h2⟩ <;> rcases h' with h' | ⟨h', h2'⟩
        · omega
        · omega
        · omega
        · exact Or.inr ⟨by omega, ih h2 h2'⟩

theorem strLt_tri (a b : Str) : strLt a b = true ∨ a = b ∨ strLt b a = true := by
  induction a generalizing b with
  | nil => cases b with
    | nil => simp
    | cons => simp [strLt]
  | cons x xs ih =>
    cases b with
    | nil => simp [strLt]
    | cons y ys =>
      simp only [strLt, Bool.or_eq_true, Bool.and_eq_true, decide_eq_true_eq, beq_iff_eq, List.cons.injEq]
      rcases Nat.lt_trichotomy x.toNat y.toNat with h | h | h
      · exact Or.inl (Or.inl h)
      · rcases ih ys with h' | h' | h'
        · exact Or.inl (Or.inr ⟨h, h'⟩)
        · exact Or.inr (Or.inl ⟨char_eq_of_toNat h, h'⟩)
        · exact Or.inr (Or.inr (Or.inr ⟨h.symm, h'⟩))
      · exact Or.inr (Or.inr (Or.inl h))

theorem textLe_iff (a b : Str) : TextLe a b ↔ strLt b a = false := by
  induction a generalizing b with
  | nil => cases b <;> simp [TextLe, strLt]
  | cons x xs ih =>
    cases b with
    | nil =>
      simp only [strLt, reduceCtorEq, iff_false]
      rintro (h | ⟨p, x', y, a', b', -, h, -⟩)
      · simp at h
      · simp at h
    | cons y ys =>
      constructor
      · rintro (h | ⟨p, x', y', a', b', h1, h2, h3⟩)
        · rw [List.cons_prefix_cons] at h
          obtain ⟨rfl, h⟩ := h
          have := (ih ys).mp (Or.inl h)
          simp [strLt, this]
        · cases p with
          | nil =>
            simp at h1 h2
            obtain ⟨rfl, rfl⟩ := h1
            obtain ⟨rfl, rfl⟩ := h2
            simp [strLt]
            omega
          | cons z zs =>
            simp at h1 h2
            obtain ⟨rfl, h1⟩ := h1
            obtain ⟨rfl, h2⟩ := h2
            have := (ih ys).mp (Or.inr ⟨zs, x', y', a', b', h1, h2, h3⟩)
            simp [strLt, this]
      · intro h
        simp [strLt] at h
        obtain ⟨h1, h2⟩ := h
        rcases Nat.lt_or_eq_of_le h1 with h1 | h1
        · exact Or.inr ⟨[], x, y, xs, ys, rfl, rfl, h1⟩
        · obtain rfl := char_eq_of_toNat h1
          rcases (ih ys).mpr (h2 rfl) with h | ⟨p, x', y', a', b', e1, e2, e3⟩
          · exact Or.inl (List.cons_prefix_cons.mpr ⟨rfl, h⟩)
          · exact Or.inr ⟨x :: p, x', y', a', b', by simp [e1], by simp [e2], e3⟩

theorem statusLe_iff (a b : MatchStatus) : StatusLe a b ↔ b.lt a = false := by
  constructor
  · intro h
    cases h with
    | notChecked => cases b <;> simp [MatchStatus.lt, MatchStatus.variant]
    | notAvailable _ h => cases b <;> simp [MatchStatus.lt, MatchStatus.variant] at h ⊢
    | invalid _ h h' => cases b <;> simp [MatchStatus.lt, MatchStatus.variant] at h h' ⊢
    | error a b h => simpa [MatchStatus.lt] using (textLe_iff a b).mp h
    | valid => cases a <;> simp [MatchStatus.lt, MatchStatus.variant]
  · intro h
    cases a <;> cases b <;> simp [MatchStatus.lt, MatchStatus.variant] at h <;>
      first
      | exact .notChecked _
      | exact .valid _
      | exact .notAvailable _ (by simp)
      | exact .invalid _ (by simp) (by simp)
      | exact .error _ _ ((textLe_iff _ _).mpr h)

theorem lt_trans' {a b c : MatchStatus} (h : a.lt b = true) (h' : b.lt c = true) : a.lt c = true := by
  cases a <;> cases b <;> simp [MatchStatus.lt, MatchStatus.variant] at h <;> cases c <;>
    simp [MatchStatus.lt, MatchStatus.variant] at h' ⊢ <;> exact strLt_trans h h'

theorem lt_tri (a b : MatchStatus) : a.lt b = true ∨ a = b ∨ b.lt a = true := by
  cases a <;> cases b <;> simp [MatchStatus.lt, MatchStatus.variant] <;> exact strLt_tri _ _

theorem lt_irrefl' (a : MatchStatus) : a.lt a = false := by
  cases a <;> simp [MatchStatus.lt, MatchStatus.variant, strLt_irrefl]

theorem Spec.StatusLe.refl (a : MatchStatus) : StatusLe a a := (statusLe_iff a a).mpr (lt_irrefl' a)

theorem Spec.StatusLe.antisymm {a b : MatchStatus} (h : StatusLe a b) (h' : StatusLe b a) : a = b := by
  rw [statusLe_iff] at h h'
  rcases lt_tri a b with g | g | g
  · rw [g] at h'; cases h'
  · exact g
  · rw [g] at h; cases h

theorem Spec.StatusLe.trans {a b c : MatchStatus} (h : StatusLe a b) (h' : StatusLe b c) : StatusLe a c := by
  rw [statusLe_iff] at h h' ⊢
  rcases lt_tri a b with g | rfl | g
  · rcases lt_tri b c with k | rfl | k
    · have := lt_trans' g k
      cases hh : c.lt a
      · rfl
      · have := lt_trans' this hh
        rw [lt_irrefl'] at this; cases this
    · exact h
    · rw [k] at h'; cases h'
  · exact h'
  · rw [g] at h; cases h

theorem statusLe_of_lt {a b : MatchStatus} (h : a.lt b = true) : StatusLe a b := by
  rw [statusLe_iff]
  cases hh : b.lt a
  · rfl
  · have := lt_trans' h hh
    rw [lt_irrefl'] at this; cases this

theorem merge_spec (s t : MatchStatus) : Highest (fun x => x = s ∨ x = t) (s.merge t) := by
  unfold MatchStatus.merge
  split
  · rename_i h
    exact ⟨Or.inr rfl, fun x hx => hx.elim (fun e => e ▸ statusLe_of_lt h) (fun e => e ▸ .refl _)⟩
  · rename_i h
    refine ⟨Or.inl rfl, ?_⟩
    rintro x (rfl | rfl)
    · exact .refl _
    · rw [statusLe_iff]; simpa using h

theorem foldl_merge_spec (l : List MatchStatus) (s : MatchStatus) :
    Highest (fun x => x = s ∨ x ∈ l) (l.foldl MatchStatus.merge s) := by
  induction l generalizing s with
  | nil => exact ⟨by simp, fun x hx => hx.elim (fun e => e ▸ .refl _) (fun e => by simp at e)⟩
  | cons t l ih =>
    obtain ⟨h1, h2⟩ := ih (s.merge t)
    obtain ⟨g1, g2⟩ := merge_spec s t
    simp only [List.foldl_cons]
    refine ⟨?_, ?_⟩
    · rcases h1 with h1 | h1
      · rw [h1]
        rcases g1 with g1 | g1
        · exact Or.inl g1
        · exact Or.inr (by simp [g1])
      · exact Or.inr (by simp [h1])
    · rintro x (rfl | h)
      · exact (g2 _ (Or.inl rfl)).trans (h2 _ (Or.inl rfl))
      · rcases List.mem_cons.mp h with rfl | h
        · exact (g2 _ (Or.inr rfl)).trans (h2 _ (Or.inl rfl))
        · exact h2 _ (Or.inr h)

theorem Spec.Highest.unique {P : MatchStatus → Prop} {a b : MatchStatus} (h : Highest P a) (h' : Highest P b) : a = b :=
  (h'.2 _ h.1).antisymm (h.2 _ h'.1)

theorem Spec.Highest.congr {P Q : MatchStatus → Prop} {a : MatchStatus} (hpq : ∀ x, P x ↔ Q x) (h : Highest P a) :
    Highest Q a := ⟨(hpq _).mp h.1, fun x hx => h.2 x ((hpq x).mpr hx)⟩

/-! ## Parallel checks and merging -/

theorem runChecks_ok {K : Type} [DecidableEq K] (check : K → MatchStatus → Res MatchStatus) (f : K → MatchStatus)
    (ks : List K) (hn : ks.Nodup) (t : Table K) (ht : ∀ k ∈ ks, t k = some .notChecked)
    (hc : ∀ k ∈ ks, check k .notChecked = .ok (f k)) :
    ∃ t', runChecks check ks t = .ok t' ∧ ∀ k, t' k = if k ∈ ks then some (f k) else t k := by
  induction ks generalizing t with
  | nil => exact ⟨t, rfl, by simp⟩
  | cons k ks ih =>
    simp only [List.nodup_cons] at hn
    obtain ⟨t', h1, h2⟩ := ih hn.2 (fun k' => if k' = k then some (f k) else t k')
      (fun k' hk' => by
        have : k' ≠ k := fun e => hn.1 (e ▸ hk')
        simp [this, ht k' (by simp [hk'])])
      (fun k' hk' => hc k' (by simp [hk']))
    refine ⟨t', ?_, ?_⟩
    · simp [runChecks, ht k (by simp), hc k (by simp), h1]
    · intro k'
      rw [h2]
      by_cases e : k' = k
      · subst e; simp [hn.1]
      · simp [e]

theorem runChecks_panic {K : Type} [DecidableEq K] (check : K → MatchStatus → Res MatchStatus) (ks : List K)
    (hn : ks.Nodup) (t : Table K) (ht : ∀ k ∈ ks, t k = some .notChecked)
    (hh : ∀ k ∈ ks, check k .notChecked ≠ .hang) (hp : ∃ k ∈ ks, check k .notChecked = .panic) :
    runChecks check ks t = .panic := by
  induction ks generalizing t with
  | nil => obtain ⟨k, hk, -⟩ := hp; simp at hk
  | cons k ks ih =>
    simp only [List.nodup_cons] at hn
    simp only [runChecks, ht k (by simp)]
    cases hck : check k .notChecked with
    | panic => rfl
    | hang => exact absurd hck (hh k (by simp))
    | ok s =>
      refine ih hn.2 _ (fun k' hk' => ?_) (fun k' hk' => hh k' (by simp [hk'])) ?_
      · have : k' ≠ k := fun e => hn.1 (e ▸ hk')
        simp [this, ht k' (by simp [hk'])]
      · obtain ⟨k', hk', hp⟩ := hp
        rcases List.mem_cons.mp hk' with rfl | hk'
        · rw [hck] at hp; cases hp
        · exact ⟨k', hk', hp⟩

/-- A sequence of merges. -/
def mergeSeq (es : List (Nat × MatchStatus)) (ms : List RuleMatch) : List RuleMatch :=
  es.foldl (fun ms e => mergeAt ms e.1 e.2) ms

theorem mergeSeq_get (es : List (Nat × MatchStatus)) (ms : List RuleMatch) (i : Nat) :
    (mergeSeq es ms)[i]? = (ms[i]?).map fun m =>
      { m with status := ((es.filter (fun e => e.1 == i)).map (·.2)).foldl MatchStatus.merge m.status } := by
  induction es generalizing ms with
  | nil => simp [mergeSeq]
  | cons e es ih =>
    simp only [mergeSeq, List.foldl_cons] at ih ⊢
    rw [ih, mergeAt, List.getElem?_modify]
    cases ms[i]? with
    | none => simp
    | some m =>
      by_cases h : e.1 = i <;> simp [h]

theorem mergeSeq_length (es : List (Nat × MatchStatus)) (ms : List RuleMatch) : (mergeSeq es ms).length = ms.length := by
  induction es generalizing ms with
  | nil => rfl
  | cons e es ih =>
    simp only [mergeSeq, List.foldl_cons] at ih ⊢
    rw [ih]; simp [mergeAt]

theorem mergeSeq_updated (es : List (Nat × MatchStatus)) (ms : List RuleMatch) :
    Updated (fun i m s => Highest (fun x => x = m.status ∨ (i, x) ∈ es) s) ms (mergeSeq es ms) := by
  refine ⟨mergeSeq_length es ms, ?_⟩
  intro i a b ha hb
  rw [mergeSeq_get, ha] at hb
  simp at hb
  subst hb
  refine ⟨by simp [SameButStatus], ?_⟩
  refine Highest.congr (fun x => ?_) (foldl_merge_spec _ _)
  simp

theorem httpMergeLoop_eq (t : Table (Nat × Str)) (ks : List (Nat × Str)) (ms : List RuleMatch) :
    httpMergeLoop t ks ms = mergeSeq (ks.filterMap fun k => (t k).map fun s => (k.1, s)) ms := by
  induction ks generalizing ms with
  | nil => rfl
  | cons k ks ih =>
    rw [httpMergeLoop]
    cases h : t k with
    | none => simp [h, ih]
    | some s => simp [h, ih, mergeSeq]

theorem awsMergeLoop_eq (t : Table (Nat × Nat)) (ks : List (Nat × Nat)) (ms : List RuleMatch) :
    awsMergeLoop t ks ms = mergeSeq (ks.flatMap fun k => match t k with
      | some s => [(k.1, s), (k.2, s)]
      | none => []) ms := by
  induction ks generalizing ms with
  | nil => rfl
  | cons k ks ih =>
    rw [awsMergeLoop]
    cases h : t k with
    | none => simp [h, ih]
    | some s => simp [h, ih, mergeSeq]

/-! ## Replacing -/

theorem replaceGo_drop (pat b : Str) (n : Nat) (s : Str) : replaceGo pat b n s = replaceGo pat b 0 (s.drop n) := by
  induction n generalizing s with
  | zero => simp
  | succ n ih => cases s with
    | nil => simp [replaceGo]
    | cons c cs => simp [replaceGo, ih]

theorem not_occursIn_cons {pat : Str} {c : Char} {s : Str} (h : ¬ OccursIn pat (c :: s)) :
    ¬ pat <+: c :: s ∧ ¬ OccursIn pat s := by
  refine ⟨fun ⟨r, hr⟩ => h ⟨[], r, by simp [hr]⟩, fun ⟨a, b, hab⟩ => h ⟨c :: a, b, by simp [hab]⟩⟩

theorem containsStr_iff (pat : Str) (hp : pat ≠ []) (s : Str) : containsStr pat s = true ↔ OccursIn pat s := by
  induction s with
  | nil =>
    simp only [containsStr, Bool.false_eq_true, false_iff]
    rintro ⟨a, b, h⟩
    simp at h
    exact hp h.2.1
  | cons c cs ih =>
    simp only [containsStr, Bool.or_eq_true, List.isPrefixOf_iff_prefix, ih]
    constructor
    · rintro (⟨r, hr⟩ | ⟨a, b, h⟩)
      · exact ⟨[], r, by simp [hr]⟩
      · exact ⟨c :: a, b, by simp [h]⟩
    · intro h
      by_cases h1 : pat <+: c :: cs
      · exact Or.inl h1
      · right
        apply Classical.byContradiction
        intro h2
        obtain ⟨a, b, hab⟩ := h
        cases a with
        | nil => exact h1 ⟨b, by simpa using hab.symm⟩
        | cons x a =>
          simp at hab
          exact h2 ⟨a, b, by simp [hab.2]⟩

theorem replaceGo_none (pat b : Str) (s : Str) (h : ¬ OccursIn pat s) : replaceGo pat b 0 s = s := by
  induction s with
  | nil => rfl
  | cons c cs ih =>
    obtain ⟨h1, h2⟩ := not_occursIn_cons h
    have : pat.isPrefixOf (c :: cs) = false := by
      cases hh : pat.isPrefixOf (c :: cs)
      · rfl
      · exact absurd (List.isPrefixOf_iff_prefix.mp hh) h1
    simp [replaceGo, this, ih h2]

theorem replaceGo_piece {c : Char} {w : Str} (hc : c ∉ w) (b p r : Str) (h : ¬ OccursIn (c :: w) p) :
    replaceGo (c :: w) b 0 (p ++ (c :: w) ++ r) = p ++ b ++ replaceGo (c :: w) b 0 r := by
  induction p with
  | nil =>
    have : (c :: w).isPrefixOf (c :: (w ++ r)) = true := by
      rw [List.isPrefixOf_iff_prefix]; exact ⟨r, by simp⟩
    simp only [List.nil_append, List.cons_append]
    rw [replaceGo, if_pos this, replaceGo_drop]
    simp
  | cons x p ih =>
    obtain ⟨h1, h2⟩ := not_occursIn_cons h
    have : (c :: w).isPrefixOf (x :: (p ++ (c :: w) ++ r)) = false := by
      cases hh : (c :: w).isPrefixOf (x :: (p ++ (c :: w) ++ r))
      · rfl
      · exfalso
        rw [List.isPrefixOf_iff_prefix, List.cons_prefix_cons] at hh
        obtain ⟨rfl, hh⟩ := hh
        by_cases hl : w.length ≤ p.length
        · exact h1 (List.cons_prefix_cons.mpr ⟨rfl, List.prefix_of_prefix_length_le hh ⟨(c :: w) ++ r, by simp⟩ hl⟩)
        · have : p ++ [c] <+: w :=
            List.prefix_of_prefix_length_le (l₃ := p ++ (c :: w) ++ r) ⟨w ++ r, by simp⟩ hh (by simp; omega)
          exact hc (this.subset (by simp))
    show replaceGo (c :: w) b 0 (x :: (p ++ (c :: w) ++ r)) = x :: (p ++ b ++ replaceGo (c :: w) b 0 r)
    rw [replaceGo, if_neg (by rw [this]; simp), ih h2]

theorem substituted_iff {c : Char} {w : Str} (hc : c ∉ w) (b s out : Str) :
    Substituted (c :: w) b s out ↔ out = replaceStr (c :: w) b s := by
  constructor
  · rintro ⟨ps, h0, h1, rfl, rfl⟩
    unfold replaceStr
    induction ps with
    | nil => exact absurd rfl h0
    | cons p ps ih =>
      cases ps with
      | nil => simp [Spec.joinWith, replaceGo_none _ _ _ (h1 p (by simp))]
      | cons q ps =>
        simp only [Spec.joinWith] at ih ⊢
        rw [replaceGo_piece hc b p _ (h1 p (by simp)), ih (by simp) (fun p hp => h1 p (by simp [hp]))]
  · rintro rfl
    unfold replaceStr
    have : ∀ n (s : Str), s.length ≤ n → Substituted (c :: w) b s (replaceGo (c :: w) b 0 s) := by
      intro n
      induction n with
      | zero =>
        intro s hs
        cases s with
        | nil => exact ⟨[[]], by simp, by simp [OccursIn], rfl, rfl⟩
        | cons => simp at hs
      | succ n ih =>
        intro s hs
        cases s with
        | nil => exact ⟨[[]], by simp, by simp [OccursIn], rfl, rfl⟩
        | cons x cs =>
          rw [replaceGo]
          split
          · rename_i hh
            rw [List.isPrefixOf_iff_prefix] at hh
            obtain ⟨r, hr⟩ := hh
            simp at hr
            obtain ⟨rfl, rfl⟩ := hr
            rw [replaceGo_drop]
            obtain ⟨ps, h0, h1, h2, h3⟩ := ih r (by simp at hs; omega)
            have hd : (w ++ r).drop ((c :: w).length - 1) = r := by simp
            rw [hd]
            refine ⟨[] :: ps, by simp, ?_, ?_, ?_⟩
            · intro p hp
              rcases List.mem_cons.mp hp with rfl | hp
              · simp [OccursIn]
              · exact h1 p hp
            · cases ps with
              | nil => exact absurd rfl h0
              | cons => simp only [Spec.joinWith]; rw [h2]; simp
            · cases ps with
              | nil => exact absurd rfl h0
              | cons => simp only [Spec.joinWith]; rw [h3]; simp
          · rename_i hh
            rw [List.isPrefixOf_iff_prefix] at hh
            obtain ⟨ps, h0, h1, h2, h3⟩ := ih cs (by simp at hs; omega)
            cases ps with
            | nil => exact absurd rfl h0
            | cons p ps =>
              refine ⟨(x :: p) :: ps, by simp, ?_, ?_, ?_⟩
              · intro q hq
                rcases List.mem_cons.mp hq with rfl | hq
                · rintro ⟨a, d, had⟩
                  cases a with
                  | nil =>
                    have hp : p <+: cs := by
                      rw [h2]; cases ps <;> simp [Spec.joinWith]
                    obtain ⟨e, he⟩ := hp
                    apply hh
                    simp at had
                    exact ⟨d ++ e, by rw [← he, had.1, had.2]; simp⟩
                  | cons y a =>
                    simp at had
                    exact h1 p (by simp) ⟨a, d, by simp [had.2]⟩
                · exact h1 q (by simp [hq])
              · rw [h2]; cases ps <;> simp [Spec.joinWith]
              · rw [h3]; cases ps <;> simp [Spec.joinWith]
    exact this _ s (Nat.le_refl _)

end Sds
