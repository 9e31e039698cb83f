import Verif.Spec.Lines
import Verif.Props.Locality
import Verif.Props.Undo
import Verif.Props.Prefer

/-! # C111: lines can be scanned one by one -/

namespace Sds.Props
open Sds Spec Re

/-! ## The pieces of two texts -/

/-- The pieces of the second text, with a text in front of them. -/
private def behind (g : Str) : List Piece → List Piece
  | [] => []
  | p :: ps => { p with gap := g ++ p.gap } :: ps

private def tailBehind (g : Str) : List Piece → Str → Str
  | [], tail => g ++ tail
  | _ :: _, tail => tail

private theorem input_behind (g : Str) (ps : List Piece) (tail : Str) :
    input (behind g ps) (tailBehind g ps tail) = g ++ input ps tail := by
  cases ps <;> simp [behind, tailBehind, input, List.append_assoc]

private theorem output_behind (f : Nat → Str → Str) (g : Str) (ps : List Piece) (tail : Str) :
    output f (behind g ps) (tailBehind g ps tail) = g ++ output f ps tail := by
  cases ps <;> simp [behind, tailBehind, output, List.append_assoc]

private theorem ranges_behind (o : Nat) (g : Str) (ps : List Piece) : ranges o (behind g ps) = ranges (o + blen g) ps := by
  cases ps <;> simp [behind, ranges, Nat.add_assoc]

private theorem reports_behind {units : Str → Nat} {I : Nat → RuleInfo} {f : Nat → Str → Str} {rm : Bool} {path : Path}
    (inn out g : Str) (ps : List Piece) :
    reports units I f rm path inn out (behind g ps) = reports units I f rm path (inn ++ g) (out ++ g) ps := by
  cases ps <;> simp [behind, reports, List.append_assoc]

private theorem input_append (ps ps' : List Piece) (tail tail' : Str) :
    input (ps ++ behind (tail ++ g) ps') (tailBehind (tail ++ g) ps' tail') = input ps tail ++ g ++ input ps' tail' := by
  induction ps with
  | nil => simp [input_behind, input, List.append_assoc]
  | cons p ps ih => simp [input, ih, List.append_assoc]

private theorem output_append (f : Nat → Str → Str) (ps ps' : List Piece) (tail tail' : Str) :
    output f (ps ++ behind (tail ++ g) ps') (tailBehind (tail ++ g) ps' tail') = output f ps tail ++ g ++ output f ps' tail' := by
  induction ps with
  | nil => simp [output_behind, output, List.append_assoc]
  | cons p ps ih => simp [output, ih, List.append_assoc]

/-- A match that is `d` bytes further on. -/
private def onBy (d : Nat) (m : M) : M := ⟨m.rule, d + m.st, d + m.en⟩

private theorem ranges_onBy (d : Nat) (ps : List Piece) : ∀ o, ranges (d + o) ps = (ranges o ps).map (onBy d) := by
  induction ps with
  | nil => intro o; rfl
  | cons p ps ih =>
    intro o
    simp only [ranges, List.map_cons, onBy, ← ih, Nat.add_assoc]

private theorem ranges_append (ps ps' : List Piece) (g tail : Str) : ∀ o,
    ranges o (ps ++ behind (tail ++ g) ps') = ranges o ps ++ (ranges 0 ps').map (onBy (o + blen (input ps tail ++ g))) := by
  induction ps with
  | nil =>
    intro o
    simp only [List.nil_append, ranges, ranges_behind, input]
    exact ranges_onBy _ ps' 0
  | cons p ps ih =>
    intro o
    simp only [List.cons_append, ranges, ih, input, blen_append, Nat.add_assoc]

private theorem reports_onBy {units : Str → Nat} (happ : ∀ a b, units (a ++ b) = units a + units b)
    {I : Nat → RuleInfo} {f : Nat → Str → Str} {rm : Bool} {path : Path} (a b : Str) (ps : List Piece) : ∀ inn out,
    reports units I f rm path (a ++ inn) (b ++ out) ps =
      (reports units I f rm path inn out ps).map (furtherOn (units b) ((units b : Int) - units a)) := by
  induction ps with
  | nil => intro _ _; rfl
  | cons p ps ih =>
    intro inn out
    simp only [reports, List.map_cons, furtherOn, List.append_assoc]
    rw [ih]
    simp only [List.cons.injEq, RuleMatch.mk.injEq, true_and, and_true, happ]
    omega

private theorem reports_append {units : Str → Nat} {I : Nat → RuleInfo} {f : Nat → Str → Str} {rm : Bool} {path : Path}
    (ps ps' : List Piece) (g tail : Str) : ∀ inn out,
    reports units I f rm path inn out (ps ++ behind (tail ++ g) ps') =
      reports units I f rm path inn out ps ++
        reports units I f rm path (inn ++ input ps tail ++ g) (out ++ output f ps tail ++ g) ps' := by
  induction ps with
  | nil => intro inn out; simp [reports, reports_behind, input, output, List.append_assoc]
  | cons p ps ih => intro inn out; simp [reports, ih, input, output, List.append_assoc]

/-! ## Texts and ranges -/

private theorem textAt_left {x z t : Str} {s e : Nat} (he : e ≤ blen x) : TextAt (x ++ z) s e t ↔ TextAt x s e t := by
  constructor
  · rintro ⟨a, b, h1, h2, h3⟩
    rcases List.append_eq_append_iff.1 h1 with ⟨w, h4, h5⟩ | ⟨w, h4, h5⟩
    · have : blen (x ++ w) = blen (a ++ t) := by rw [h4]
      simp only [blen_append] at this
      have hw : w = [] := by
        cases w with
        | nil => rfl
        | cons c w => have := blen_pos (List.cons_ne_nil c w); omega
      subst hw
      exact ⟨a, [], by simpa using h4.symm, h2, h3⟩
    · exact ⟨a, w, h4, h2, h3⟩
  · rintro ⟨a, b, rfl, h2, h3⟩
    exact ⟨a, b ++ z, by simp, h2, h3⟩

private theorem textAt_right {w y t : Str} {s e : Nat} : TextAt (w ++ y) (blen w + s) (blen w + e) t ↔ TextAt y s e t := by
  constructor
  · rintro ⟨a, b, h1, h2, h3⟩
    rw [List.append_assoc] at h1
    rcases List.append_eq_append_iff.1 h1 with ⟨v, h4, h5⟩ | ⟨v, h4, h5⟩
    · subst h4
      rw [blen_append] at h2 h3
      exact ⟨v, b, by rw [h5, List.append_assoc], by omega, by omega⟩
    · subst h4
      rw [blen_append] at h2
      have hv : v = [] := by
        cases v with
        | nil => rfl
        | cons c v => have := blen_pos (List.cons_ne_nil c v); omega
      subst hv
      simp only [blen_nil, List.append_nil, List.nil_append] at h2 h3 h5
      exact ⟨[], b, by simp [← h5], by simp; omega, by simp; omega⟩
  · rintro ⟨a, b, rfl, h2, h3⟩
    exact ⟨w ++ a, b, by simp, by rw [blen_append]; omega, by rw [blen_append]; omega⟩

/-! ## The candidates of two texts, and their resolution -/

private theorem higher_onBy {mu : Nat → Bool} (d : Nat) (a b : M) : Higher mu (onBy d a) (onBy d b) ↔ Higher mu a b := by
  unfold Higher onBy
  refine or_congr Iff.rfl (and_congr Iff.rfl ?_)
  dsimp only
  omega

private theorem overlap_onBy (d : Nat) (a b : M) : Overlap (onBy d a) (onBy d b) ↔ Overlap a b := by
  unfold Overlap onBy
  dsimp only
  omega

private theorem resolution_append {mu : Nat → Bool} {ks ks' res res' : List M} {d : Nat} (h : IsResolution mu ks res)
    (h' : IsResolution mu ks' res') (hd : ∀ m ∈ ks, m.en ≤ d) :
    IsResolution mu (ks ++ ks'.map (onBy d)) (res ++ res'.map (onBy d)) := by
  have hapart : ∀ m ∈ ks, ∀ m', ¬ Overlap m (onBy d m') ∧ ¬ Overlap (onBy d m') m := by
    intro m hm m'
    have := hd m hm
    unfold Overlap onBy
    dsimp only
    omega
  constructor
  · intro m hm
    rcases List.mem_append.1 hm with hm | hm
    · exact List.mem_append_left _ (h.1 m hm)
    · obtain ⟨m', hm', rfl⟩ := List.mem_map.1 hm
      exact List.mem_append_right _ (List.mem_map_of_mem (h'.1 m' hm'))
  · intro m hm
    by_cases hin : m ∈ ks
    · have e1 : m ∈ res ++ res'.map (onBy d) ↔ m ∈ res := by
        rw [List.mem_append]
        refine ⟨?_, .inl⟩
        rintro (h1 | h1)
        · exact h1
        · obtain ⟨m', hm', rfl⟩ := List.mem_map.1 h1
          refine (h.2 _ hin).2 ?_
          rintro ⟨r, hr, _, ho⟩
          exact (hapart r (h.1 r hr) m').1 ho
      rw [e1, h.2 m hin]
      refine not_congr ⟨?_, ?_⟩
      · rintro ⟨r, hr, h1⟩
        exact ⟨r, List.mem_append_left _ hr, h1⟩
      · rintro ⟨r, hr, h1, h2⟩
        rcases List.mem_append.1 hr with hr | hr
        · exact ⟨r, hr, h1, h2⟩
        · obtain ⟨m', hm', rfl⟩ := List.mem_map.1 hr
          exact absurd h2 (hapart m hin m').2
    · rcases List.mem_append.1 hm with hm | hm
      · exact absurd hm hin
      · obtain ⟨m', hm', rfl⟩ := List.mem_map.1 hm
        have e1 : onBy d m' ∈ res ++ res'.map (onBy d) ↔ m' ∈ res' := by
          rw [List.mem_append, List.mem_map]
          constructor
          · rintro (h1 | ⟨m0, h1, h2⟩)
            · exact absurd (h.1 _ h1) hin
            · have : m0 = m' := by
                obtain ⟨_, _, _⟩ := m0
                obtain ⟨_, _, _⟩ := m'
                simp only [onBy, M.mk.injEq] at h2 ⊢
                omega
              exact this ▸ h1
          · exact fun h1 => .inr ⟨m', h1, rfl⟩
        rw [e1, h'.2 m' hm']
        refine not_congr ⟨?_, ?_⟩
        · rintro ⟨r, hr, h1, h2⟩
          exact ⟨onBy d r, List.mem_append_right _ (List.mem_map_of_mem hr), (higher_onBy d _ _).2 h1, (overlap_onBy d _ _).2 h2⟩
        · rintro ⟨r, hr, h1, h2⟩
          rcases List.mem_append.1 hr with hr | hr
          · exact absurd h2 (hapart r (h.1 r hr) m').1
          · obtain ⟨r0, hr0, rfl⟩ := List.mem_map.1 hr
            exact ⟨r0, hr0, (higher_onBy d _ _).1 h1, (overlap_onBy d _ _).1 h2⟩

/-- The rules of the scanner that are not blocked find apart what the separator keeps apart. -/
private def AllApart (sep : Char) (sc : Scanner) (blocked : List Nat) : Prop :=
  ∀ i rule, sc.rules[i]? = some rule → i ∉ blocked → FindsApart sep rule

section
variable {sc : Scanner} {blocked : List Nat} {sep : Char}

private theorem candidate_apart (hap : AllApart sep sc blocked) {path : Path} {x y : Str} {m : M} :
    Candidate sc blocked path (x ++ [sep] ++ y) m ↔
      Candidate sc blocked path x m ∨ ∃ m', Candidate sc blocked path y m' ∧ m = onBy (blen (x ++ [sep])) m' := by
  constructor
  · rintro ⟨rule, h0, ha, hrun, hm⟩
    obtain ⟨f, g, h, r1, r2, r3, r4⟩ := hap _ _ ha.2.1 ha.1 x y path
    rw [hrun] at r3
    cases r3
    rw [r4] at hm
    rcases List.mem_append.1 hm with hm | hm
    · exact .inl ⟨rule, f, ha, r1, hm⟩
    · obtain ⟨⟨s, e⟩, hm, he⟩ := List.mem_map.1 hm
      refine .inr ⟨⟨m.rule, s, e⟩, ⟨rule, g, ha, r2, hm⟩, ?_⟩
      obtain ⟨_, _, _⟩ := m
      simp only [Prod.mk.injEq] at he
      simp only [onBy, M.mk.injEq, true_and]
      exact ⟨he.1.symm, he.2.symm⟩
  · rintro (⟨rule, f0, ha, hrun, hm⟩ | ⟨m', ⟨rule, g0, ha, hrun, hm⟩, rfl⟩)
    · obtain ⟨f, g, h, r1, r2, r3, r4⟩ := hap _ _ ha.2.1 ha.1 x y path
      rw [hrun] at r1
      cases r1
      exact ⟨rule, h, ha, r3, by rw [r4]; exact List.mem_append_left _ hm⟩
    · obtain ⟨f, g, h, r1, r2, r3, r4⟩ := hap _ _ ha.2.1 ha.1 x y path
      rw [hrun] at r2
      cases r2
      exact ⟨rule, h, ha, r3, by rw [r4]; exact List.mem_append_right _ (List.mem_map.2 ⟨_, hm, rfl⟩)⟩

private theorem resultOf_append (hok : ScannerOk sc) {enc : Enc} (henc : LawfulEnc enc) (hap : AllApart sep sc blocked)
    {S : Str → Prop} {path : Path} {x y : Str} {r r' : List RuleMatch × Str} (h : ResultOf enc sc blocked S path x r)
    (h' : ResultOf enc sc blocked S path y r') :
    ResultOf enc sc blocked S path (x ++ [sep] ++ y)
      (r.1 ++ r'.1.map (furtherOn (enc.units (r.2 ++ [sep])) ((enc.units (r.2 ++ [sep]) : Int) - enc.units (x ++ [sep]))),
        r.2 ++ [sep] ++ r'.2) := by
  obtain ⟨ks, res, ps, tail, h1, h2, h3, h4, h5, h6, h7⟩ := h
  obtain ⟨ks', res', ps', tail', h1', h2', h3', h4', h5', h6', h7'⟩ := h'
  have hle : ∀ m, Candidate sc blocked path x m → m.en ≤ blen x := fun m hm => onBoundary_le (hm.bounds hok).2.2
  have hle' : ∀ m ∈ ks, m.en ≤ blen (x ++ [sep]) := by
    intro m hm
    have := hle m ((h1 m).1 hm).1
    rw [blen_append]
    omega
  refine ⟨ks ++ ks'.map (onBy (blen (x ++ [sep]))), res ++ res'.map (onBy (blen (x ++ [sep]))),
    ps ++ behind (tail ++ [sep]) ps', tailBehind (tail ++ [sep]) ps' tail', ?_, resolution_append h2 h2' hle', ?_, ?_, ?_, ?_, ?_⟩
  · intro m
    rw [List.mem_append, candidate_apart hap, h1, List.mem_map]
    have hl : Candidate sc blocked path x m → ∀ t, TextAt (x ++ [sep] ++ y) m.st m.en t ↔ TextAt x m.st m.en t := by
      intro hc t
      rw [List.append_assoc]
      exact textAt_left (hle m hc)
    constructor
    · rintro (⟨hc, hs⟩ | ⟨m', hm', rfl⟩)
      · refine ⟨.inl hc, ?_⟩
        rintro ⟨rule, t, q1, q2, q3, q4⟩
        exact hs ⟨rule, t, q1, q2, (hl hc t).1 q3, q4⟩
      · obtain ⟨hc, hs⟩ := (h1' m').1 hm'
        refine ⟨.inr ⟨m', hc, rfl⟩, ?_⟩
        rintro ⟨rule, t, q1, q2, q3, q4⟩
        exact hs ⟨rule, t, q1, q2, textAt_right.1 q3, q4⟩
    · rintro ⟨hc | ⟨m', hc, rfl⟩, hs⟩
      · refine .inl ⟨hc, ?_⟩
        rintro ⟨rule, t, q1, q2, q3, q4⟩
        exact hs ⟨rule, t, q1, q2, (hl hc t).2 q3, q4⟩
      · refine .inr ⟨m', (h1' m').2 ⟨hc, ?_⟩, rfl⟩
        rintro ⟨rule, t, q1, q2, q3, q4⟩
        exact hs ⟨rule, t, q1, q2, textAt_right.2 q3, q4⟩
  · rw [List.pairwise_append]
    refine ⟨h3, List.pairwise_map.2 (h3'.imp fun {a b} hab => ?_), ?_⟩
    · simp only [onBy]; omega
    · intro a ha b hb
      obtain ⟨m', _, rfl⟩ := List.mem_map.1 hb
      have := hle' a (h2.1 a ha)
      simp only [onBy]
      omega
  · rw [input_append, ← h4, ← h4']
  · rw [ranges_append, ← h4, Nat.zero_add, ← h5, ← h5']
  · dsimp only
    rw [reports_append, ← h6, ← h4, List.nil_append, List.nil_append, ← h7, h6']
    congr 1
    have := reports_onBy henc.units_append (I := infoOf sc) (f := fun r t => redacted sc.fp (infoOf sc r).action t)
      (rm := sc.returnMatches) (path := path) (x ++ [sep]) (r.2 ++ [sep]) ps' [] []
    simpa using this.symm
  · dsimp only
    rw [output_append, ← h7, ← h7']

end

/-! ## Cutting two texts -/

private theorem cut_first {x z : Str} {s : Nat} (hs : s ≤ blen x) :
    cut (x ++ z) s = (cut x s).map fun ab => (ab.1, ab.2 ++ z) := by
  cases hc : cut x s with
  | some ab =>
    obtain ⟨rfl, rfl⟩ := cut_eq_some.1 hc
    exact cut_eq_some.2 ⟨by simp, rfl⟩
  | none =>
    cases hc' : cut (x ++ z) s with
    | none => rfl
    | some ab =>
      obtain ⟨a, b⟩ := ab
      obtain ⟨h1, h2⟩ := cut_eq_some.1 hc'
      exfalso
      rcases List.append_eq_append_iff.1 h1 with ⟨w, h4, h5⟩ | ⟨w, h4, h5⟩
      · subst h4
        rw [blen_append] at h2
        have hw : w = [] := by
          cases w with
          | nil => rfl
          | cons c w => have := blen_pos (List.cons_ne_nil c w); omega
        subst hw
        have := cut_eq_some.2 (show x = x ++ [] ∧ blen x = s from ⟨by simp, by simpa using h2⟩)
        rw [hc] at this
        cases this
      · have := cut_eq_some.2 ⟨h4, h2⟩
        rw [hc] at this
        cases this

private theorem cut_second {w y : Str} {s : Nat} : cut (w ++ y) (blen w + s) = (cut y s).map fun ab => (w ++ ab.1, ab.2) := by
  cases hc : cut y s with
  | some ab =>
    obtain ⟨rfl, rfl⟩ := cut_eq_some.1 hc
    exact cut_eq_some.2 ⟨by simp, by simp⟩
  | none =>
    cases hc' : cut (w ++ y) (blen w + s) with
    | none => rfl
    | some ab =>
      obtain ⟨a, b⟩ := ab
      obtain ⟨h1, h2⟩ := cut_eq_some.1 hc'
      exfalso
      rcases List.append_eq_append_iff.1 h1 with ⟨v, h4, h5⟩ | ⟨v, h4, h5⟩
      · subst h4
        rw [blen_append] at h2
        have := cut_eq_some.2 ⟨h5, (by omega : blen v = s)⟩
        rw [hc] at this
        cases this
      · have h6 : blen w = blen a + blen v := by rw [h4, blen_append]
        have := cut_eq_some.2 (show y = [] ++ y ∧ blen ([] : Str) = s from ⟨rfl, by simp; omega⟩)
        rw [hc] at this
        cases this

/-! ## Rules -/

private theorem leftmost_onBy {P Q : Nat → Nat → Prop} {d : Nat} (h : ∀ s e, P (d + s) e ↔ ∃ e', e = d + e' ∧ Q s e')
    {st : Nat} {l : List (Nat × Nat)} (hl : Leftmost Q st l) : Leftmost P (d + st) (l.map fun m => (d + m.1, d + m.2)) := by
  induction hl with
  | @nil st hn =>
    refine .nil fun p e hp hP => ?_
    obtain ⟨k, rfl⟩ : ∃ k, p = d + k := ⟨p - d, by omega⟩
    obtain ⟨e', _, hQ⟩ := (h k e).1 hP
    exact hn k e' (by omega) hQ
  | @cons st s e l h1 h2 h3 _ ih =>
    refine .cons (by dsimp only; omega) ((h s _).2 ⟨e, rfl, h2⟩) (fun p q hp hps hP => ?_) ih
    obtain ⟨k, rfl⟩ : ∃ k, p = d + k := ⟨p - d, by omega⟩
    obtain ⟨e', _, hQ⟩ := (h k q).1 hP
    exact h3 k e' (by omega) (by omega) hQ

private theorem leftmost_lower {P : Nat → Nat → Prop} {st d : Nat} {l : List (Nat × Nat)} (hd : st ≤ d)
    (hno : ∀ p e, st ≤ p → p < d → ¬ P p e) (h : Leftmost P d l) : Leftmost P st l := by
  cases h with
  | nil hn =>
    refine .nil fun p e hp => ?_
    by_cases hpd : p < d
    · exact hno p e hp hpd
    · exact hn p e (by omega)
  | cons h1 h2 h3 h4 =>
    refine .cons (by omega) h2 (fun p q hp hps => ?_) h4
    by_cases hpd : p < d
    · exact hno p q hp hpd
    · exact h3 p q (by omega) hps

private theorem leftmost_append {P P' : Nat → Nat → Prop} {d st : Nat} {l l' : List (Nat × Nat)}
    (h : ∀ s e, s < d → (P s e ↔ P' s e)) (hlt : ∀ s e, P' s e → s < e ∧ e ≤ d) (hl' : Leftmost P d l') (hl : Leftmost P' st l)
    (hst : st ≤ d) : Leftmost P st (l ++ l') := by
  induction hl with
  | nil hn =>
    exact leftmost_lower hst (fun p e hp hpd hP => hn p e hp ((h p e hpd).1 hP)) hl'
  | @cons st s e l h1 h2 h3 _ ih =>
    have := hlt s e h2
    exact .cons h1 ((h s e (by omega)).2 h2) (fun p q hp hps hP => h3 p q hp hps ((h p q (by omega)).1 hP)) (ih this.2)

/-- C111: a rule without keywords whose regex matches apart finds apart. -/
theorem C111_rule {sep : Char} {r : RegexRule} (hl : LawfulRx r.rx) (hne : NonEmptyRx r.rx) (hi : r.included = none)
    (hx : r.excluded = none) (hap : MatchesApart sep r.rx) (info : RuleInfo) (scope : Scope) (kp : Bool) {fuel : Str → Nat}
    (hf : ∀ c, blen c < fuel c) : FindsApart sep (r.toCRule info scope kp fuel) := by
  intro x y path
  have hret : ∀ c, ∃ f, stringMatches r kp false c path (fuel c) = Res.ok f := fun c =>
    stringMatches_returns hl hne (fun k hk => by rw [hi] at hk; cases hk) kp false
      (fun _ k hk => by rw [hx] at hk; cases hk) path (hf c)
  obtain ⟨f, h1⟩ := hret x
  obtain ⟨g, h2⟩ := hret y
  obtain ⟨h, h3⟩ := hret (x ++ [sep] ++ y)
  refine ⟨f, g, h, h1, h2, h3, ?_⟩
  have l1 := (C20_leftmost hl hne hi h1 _).2 rfl
  have l2 := (C20_leftmost hl hne hi h2 _).2 rfl
  refine (C20_leftmost hl hne hi h3 _).1 ?_
  have hgen : ∀ c s e, Genuine r c s e ↔ Accepted r c s e :=
    fun c s e => and_iff_left fun k hk => by rw [hx] at hk; cases hk
  have hright : ∀ s e, Genuine r (x ++ [sep] ++ y) (blen (x ++ [sep]) + s) e ↔
      ∃ e', e = blen (x ++ [sep]) + e' ∧ Genuine r y s e' := by
    intro s e
    simp only [hgen, Accepted, hap.second, Option.map_eq_some_iff]
    constructor
    · rintro ⟨⟨e', he, rfl⟩, hv⟩
      refine ⟨e', rfl, he, fun v hv' => ?_⟩
      obtain ⟨m, hm, hm'⟩ := hv v hv'
      exact ⟨m, textAt_right.1 hm, hm'⟩
    · rintro ⟨e', rfl, he, hv⟩
      refine ⟨⟨e', he, rfl⟩, fun v hv' => ?_⟩
      obtain ⟨m, hm, hm'⟩ := hv v hv'
      exact ⟨m, textAt_right.2 hm, hm'⟩
  have hin : ∀ s e, Genuine r x s e → s < e ∧ e ≤ blen x := fun s e hg =>
    ⟨hne _ _ _ hg.1.1, onBoundary_le (hl _ _ _ hg.1.1).2.2⟩
  have hleft : ∀ s e, s < blen (x ++ [sep]) → (Genuine r (x ++ [sep] ++ y) s e ↔ Genuine r x s e) := by
    intro s e hs
    by_cases hsx : s ≤ blen x
    · simp only [hgen, Accepted, hap.first x y s hsx]
      refine and_congr_right fun he => ?_
      have hle := onBoundary_le (hl _ _ _ he).2.2
      have ht : ∀ m, TextAt (x ++ [sep] ++ y) s e m ↔ TextAt x s e m := by
        intro m
        rw [List.append_assoc]
        exact textAt_left hle
      simp only [ht]
    · constructor
      · intro hg
        obtain ⟨a, b, hab, ha⟩ := (hl _ _ _ hg.1.1).2.1
        exfalso
        rw [List.append_assoc] at hab
        rcases List.append_eq_append_iff.1 hab with ⟨w, h4, h5⟩ | ⟨w, h4, h5⟩
        · cases w with
          | nil =>
            rw [List.append_nil] at h4
            subst h4
            omega
          | cons c w =>
            simp only [List.cons_append, List.nil_append, List.cons.injEq] at h5
            obtain ⟨rfl, _⟩ := h5
            subst h4
            simp only [blen_append, blen_cons, blen_nil] at ha hs
            omega
        · subst h4
          rw [blen_append] at hsx
          omega
      · intro hg
        have := hin s e hg
        omega
  exact leftmost_append hleft (fun s e hg => ⟨(hin s e hg).1, by have := (hin s e hg).2; rw [blen_append]; omega⟩)
    (leftmost_onBy (st := 0) hright l2) l1 (Nat.zero_le _)

/-! ## Patterns -/

private theorem repTries_fuel {f : Str → Str → List Nat} (hf : ∀ p r, ∀ k ∈ f p r, k ≤ r.length) {g : Bool} :
    ∀ (fuel fuel' lo : Nat) (hi : Option Nat) (p r : Str), lo + hi.getD r.length + 1 ≤ fuel → lo + hi.getD r.length + 1 ≤ fuel' →
      repTries f g fuel lo hi p r = repTries f g fuel' lo hi p r := by
  intro fuel
  induction fuel with
  | zero => intro fuel' lo hi p r h; omega
  | succ fuel ih =>
    intro fuel' lo hi p r h h'
    match fuel', h' with
    | fuel' + 1, h' =>
      have hmore : (if hi = some 0 then [] else (f p r).flatMap fun k =>
          if k = 0 ∧ lo = 0 ∧ hi = none then [0]
          else (repTries f g fuel (lo - 1) (hi.map (· - 1)) (p ++ r.take k) (r.drop k)).map (k + ·)) =
          (if hi = some 0 then [] else (f p r).flatMap fun k =>
          if k = 0 ∧ lo = 0 ∧ hi = none then [0]
          else (repTries f g fuel' (lo - 1) (hi.map (· - 1)) (p ++ r.take k) (r.drop k)).map (k + ·)) := by
        split
        · rfl
        · next hne =>
          refine congrArg List.flatten (List.map_congr_left fun k hk => ?_)
          have hkr := hf p r k hk
          split
          · rfl
          · next hz =>
            have key : lo - 1 + (hi.map (· - 1)).getD (r.drop k).length + 1 ≤ lo + hi.getD r.length := by
              cases hi with
              | none =>
                simp only [Option.map_none, Option.getD_none, List.length_drop, and_true, not_and] at hz ⊢
                by_cases hk0 : k = 0
                · have := hz hk0; omega
                · omega
              | some n =>
                have : n ≠ 0 := fun e => hne (by rw [e])
                simp only [Option.map_some, Option.getD_some]
                omega
            rw [ih fuel' _ _ _ _ (by omega) (by omega)]
      rw [repTries, repTries, hmore]

private theorem tries_le {T : Tables} {n : Node} {p r : Str} {k : Nat} (h : k ∈ tries T n p r) : k ≤ r.length := by
  obtain ⟨m, q, rfl, rfl, _⟩ := (tries_lists n p r k).1 h
  simp

private theorem repTries_congr {f : Str → Str → List Nat} {g : Bool} (φ : Str → Str) (ψ : Str → Str)
    (hf : ∀ p r, f (φ p) (ψ r) = f p r) (hk : ∀ p r, ∀ k ∈ f p r, k ≤ r.length)
    (hφ : ∀ p r k, k ≤ r.length → φ p ++ (ψ r).take k = φ (p ++ r.take k)) (hψ : ∀ r k, k ≤ r.length → (ψ r).drop k = ψ (r.drop k)) :
    ∀ (fuel lo : Nat) (hi : Option Nat) (p r : Str),
      repTries f g fuel lo hi (φ p) (ψ r) = repTries f g fuel lo hi p r := by
  intro fuel
  induction fuel with
  | zero => intro _ _ _ _; rfl
  | succ fuel ih =>
    intro lo hi p r
    have hmore : (f (φ p) (ψ r)).flatMap (fun k =>
          if k = 0 ∧ lo = 0 ∧ hi = none then [0]
          else (repTries f g fuel (lo - 1) (hi.map (· - 1)) (φ p ++ (ψ r).take k) ((ψ r).drop k)).map (k + ·)) =
        (f p r).flatMap fun k =>
          if k = 0 ∧ lo = 0 ∧ hi = none then [0]
          else (repTries f g fuel (lo - 1) (hi.map (· - 1)) (p ++ r.take k) (r.drop k)).map (k + ·) := by
      rw [hf]
      refine congrArg List.flatten (List.map_congr_left fun k hk' => ?_)
      have := hk p r k hk'
      rw [hφ p r k this, hψ r k this, ih]
    rw [repTries, repTries, hmore]

section
variable {T : Tables} {sep : Char}

private theorem boundary_right {w : Char → Prop} (hw : ¬ w sep) (p r y : Str) :
    Boundary w p (r ++ [sep] ++ y) ↔ Boundary w p r := by
  unfold Boundary
  cases r with
  | nil => simp [hw]
  | cons c r => simp

private theorem boundary_left {w : Char → Prop} (hw : ¬ w sep) (x p r : Str) :
    Boundary w (x ++ [sep] ++ p) r ↔ Boundary w p r := by
  unfold Boundary
  rcases List.eq_nil_or_concat p with rfl | ⟨p, c, rfl⟩
  · simp [hw]
  · have e : x ++ [sep] ++ (p ++ [c]) = (x ++ [sep] ++ p) ++ [c] := by simp
    rw [List.concat_eq_append, e, List.getLast?_concat, List.getLast?_concat]

private theorem look_right {l : Look} (hl : LooksAtLine T sep l) (p r y : Str) :
    LookAt T l p (r ++ [sep] ++ y) ↔ LookAt T l p r := by
  cases l <;> simp only [LooksAtLine] at hl <;> simp only [LookAt]
  · subst hl
    cases r <;> simp
  · exact boundary_right hl p r y
  · exact not_congr (boundary_right hl p r y)
  · exact boundary_right hl p r y
  · exact not_congr (boundary_right hl p r y)

private theorem look_left {l : Look} (hl : LooksAtLine T sep l) (x p r : Str) :
    LookAt T l (x ++ [sep] ++ p) r ↔ LookAt T l p r := by
  cases l <;> simp only [LooksAtLine] at hl <;> simp only [LookAt]
  · subst hl
    rcases List.eq_nil_or_concat p with rfl | ⟨p, c, rfl⟩
    · simp
    · have e : x ++ ['\n'] ++ (p ++ [c]) = (x ++ ['\n'] ++ p) ++ [c] := by simp
      rw [List.concat_eq_append, e, List.getLast?_concat, List.getLast?_concat]
      simp
  · exact boundary_left hl x p r
  · exact not_congr (boundary_left hl x p r)
  · exact boundary_left hl x p r
  · exact not_congr (boundary_left hl x p r)

/-- Neither the text before a separator nor the one behind another matters, as long as these functions put them there. -/
private theorem tries_apart (φ ψ : Str → Str) (hset : ∀ P : Char → Prop, ¬ P sep → ∀ r, (∃ c ∈ (ψ r).head?, P c) ↔ ∃ c ∈ r.head?, P c)
    (hlook : ∀ l, LooksAtLine T sep l → ∀ p r, LookAt T l (φ p) (ψ r) ↔ LookAt T l p r)
    (hφ : ∀ p r k, k ≤ r.length → φ p ++ (ψ r).take k = φ (p ++ r.take k))
    (hψ : ∀ r k, k ≤ r.length → (ψ r).drop k = ψ (r.drop k)) (hlen : ∀ r, r.length ≤ (ψ r).length) {n : Node}
    (hn : StaysInLine T sep n) : ∀ p r, tries T n (φ p) (ψ r) = tries T n p r := by
  induction hn with
  | eps => intro p r; simp only [tries]
  | set P hP =>
    intro p r
    simp only [tries]
    by_cases h : ∃ c ∈ r.head?, P c
    · rw [if_pos h, if_pos ((hset P hP r).2 h)]
    · rw [if_neg h, if_neg fun h' => h ((hset P hP r).1 h')]
  | look l hl =>
    intro p r
    simp only [tries]
    by_cases h : LookAt T l p r
    · rw [if_pos h, if_pos ((hlook l hl p r).2 h)]
    · rw [if_neg h, if_neg fun h' => h ((hlook l hl p r).1 h')]
  | seq l hs ih =>
    intro p r
    rw [tries, tries]
    revert p r
    induction l with
    | nil => intro p r; simp only [triesSeq]
    | cons n l ihl =>
      intro p r
      rw [triesSeq, triesSeq, ih n List.mem_cons_self]
      refine congrArg List.flatten (List.map_congr_left fun k hk => ?_)
      have := tries_le hk
      rw [hφ p r k this, hψ r k this, ihl (fun m hm => hs m (List.mem_cons_of_mem _ hm)) fun m hm => ih m (List.mem_cons_of_mem _ hm)]
  | alt l hs ih =>
    intro p r
    rw [tries, tries]
    induction l with
    | nil => simp only [triesAlt]
    | cons n l ihl =>
      rw [triesAlt, triesAlt, ih n List.mem_cons_self, ihl (fun m hm => hs m (List.mem_cons_of_mem _ hm)) fun m hm => ih m (List.mem_cons_of_mem _ hm)]
  | rep lo hi g n _ ih =>
    intro p r
    rw [tries, tries, repTries_congr φ ψ ih (fun p r k => tries_le) hφ hψ]
    have := hlen r
    exact repTries_fuel (fun p r k => tries_le) _ _ _ _ _ _ (by cases hi <;> simp <;> omega) (by cases hi <;> simp <;> omega)
  | capture _ n _ ih => intro p r; rw [tries, tries, ih]

/-- C111: the leftmost-first search for a pattern that stays in a line matches apart. -/
theorem C111_patterns (T : Tables) {n : Node} (hn : StaysInLine T sep n) : MatchesApart sep (firstTry T n) where
  first := by
    intro x y s hs
    have key : ∀ p r, tries T n p (r ++ [sep] ++ y) = tries T n p r := by
      refine tries_apart (fun p => p) (fun r => r ++ [sep] ++ y) (fun P hP r => ?_) (fun l hl p r => look_right hl p r y)
        (fun p r k hk => ?_) (fun r k hk => ?_) (fun r => ?_) hn
      · cases r <;> simp [hP]
      · rw [List.append_assoc, List.take_append_of_le_length hk]
      · rw [List.append_assoc, List.drop_append_of_le_length hk, List.append_assoc]
      · simp only [List.length_append]; omega
    unfold firstTry
    rw [List.append_assoc, cut_first hs]
    cases hc : cut x s with
    | none => rfl
    | some ab =>
      simp only [Option.map_some]
      rw [← List.append_assoc, key]
      cases ht : (tries T n ab.1 ab.2).head? with
      | none => rfl
      | some k =>
        have : k ≤ ab.2.length := tries_le (List.mem_of_mem_head? ht)
        simp only [Option.map_some]
        rw [List.append_assoc, List.take_append_of_le_length this]
  second := by
    intro x y s
    have key : ∀ p r, tries T n (x ++ [sep] ++ p) r = tries T n p r :=
      tries_apart (fun p => x ++ [sep] ++ p) (fun r => r) (fun P _ r => Iff.rfl) (fun l hl p r => look_left hl x p r)
        (fun p r k _ => by simp) (fun r k _ => rfl) (fun r => Nat.le_refl _) hn
    unfold firstTry
    rw [cut_second]
    cases cut y s with
    | none => rfl
    | some ab =>
      simp only [Option.map_some]
      rw [key]
      cases (tries T n ab.1 ab.2).head? with
      | none => rfl
      | some k => simp [Nat.add_assoc]

end

/-! ## Scans -/

section
variable {sc : Scanner} {blocked : List Nat} {sep : Char}

/-- C111: a string of an event that consists of two texts with a separator between them gets the results that the two texts get at
the same path in other events, if no other texts are remembered there. -/
theorem C111_two_texts {E E' : Type} {impl : EventImpl E} {wf : E → Prop} {leavesOf : E → List Leaf}
    {rew : (Path → Str → Str) → E → E} {impl' : EventImpl E'} {wf' : E' → Prop} {leavesOf' : E' → List Leaf}
    {rew' : (Path → Str → Str) → E' → E'} (hE : LawfulEvent impl wf leavesOf rew) (hE' : LawfulEvent impl' wf' leavesOf' rew')
    (henc : impl'.enc = impl.enc) (hok : ScannerOk sc)
    (hap : ∀ i rule, sc.rules[i]? = some rule → i ∉ blocked → FindsApart sep rule)
    (e : E) (e₁ e₂ : E') (hs : Scannable wf leavesOf sc blocked e) (hs₁ : Scannable wf' leavesOf' sc blocked e₁)
    (hs₂ : Scannable wf' leavesOf' sc blocked e₂)
    (hm₁ : Remembered sc blocked (leavesOf' e₁) = Remembered sc blocked (leavesOf e))
    (hm₂ : Remembered sc blocked (leavesOf' e₂) = Remembered sc blocked (leavesOf e))
    {path : Path} {x y : Str} (hl : ⟨path, x ++ [sep] ++ y, false⟩ ∈ leavesOf e) (hl₁ : ⟨path, x, false⟩ ∈ leavesOf' e₁)
    (hl₂ : ⟨path, y, false⟩ ∈ leavesOf' e₂) :
    ∃ after os after₁ os₁ after₂ os₂ x' y', scan impl sc e blocked = Res.ok (after, os) ∧
      scan impl' sc e₁ blocked = Res.ok (after₁, os₁) ∧ scan impl' sc e₂ blocked = Res.ok (after₂, os₂) ∧
      ⟨path, x', false⟩ ∈ leavesOf' after₁ ∧ ⟨path, y', false⟩ ∈ leavesOf' after₂ ∧
      ⟨path, x' ++ [sep] ++ y', false⟩ ∈ leavesOf after ∧
      reportsAt os path = reportsAt os₁ path ++ (reportsAt os₂ path).map (furtherOn (impl.enc.units (x' ++ [sep]))
        ((impl.enc.units (x' ++ [sep]) : Int) - impl.enc.units (x ++ [sep]))) := by
  obtain ⟨out, G, h1, h2⟩ := C10_scan_result hE hok blocked e hs
  obtain ⟨out₁, G₁, h1₁, h2₁⟩ := C10_scan_result hE' hok blocked e₁ hs₁
  obtain ⟨out₂, G₂, h1₂, h2₂⟩ := C10_scan_result hE' hok blocked e₂ hs₂
  have hpath : ∀ {enc : Enc} {leaves : List Leaf} {l : Leaf} {o : List RuleMatch × Str},
      LeafResult enc sc blocked leaves l o.1 o.2 → ∀ m ∈ o.1, m.path = l.path := by
    intro enc leaves l o h m hm
    obtain ⟨_, _, ps, _, _, _, _, _, _, h6, _⟩ := h
    rw [h6] at hm
    exact reports_path ps _ _ m hm
  have r0 := resultOf_leaf (h2 _ hl).1
  have r1 := resultOf_leaf (h2₁ _ hl₁).1
  have r2 := resultOf_leaf (h2₂ _ hl₂).1
  rw [hm₁, henc] at r1
  rw [hm₂, henc] at r2
  have heq := resultOf_unique hok r0 (resultOf_append hok hE.enc hap r1 r2)
  refine ⟨_, _, _, _, _, _, (out₁ ⟨path, x, false⟩).2, (out₂ ⟨path, y, false⟩).2, h1, h1₁, h1₂, ?_, ?_, ?_, ?_⟩
  · rw [hE'.leaves_rew]
    exact List.mem_map.2 ⟨_, hl₁, by simp only [Bool.false_eq_true, if_false]; rw [← (h2₁ _ hl₁).2]⟩
  · rw [hE'.leaves_rew]
    exact List.mem_map.2 ⟨_, hl₂, by simp only [Bool.false_eq_true, if_false]; rw [← (h2₂ _ hl₂).2]⟩
  · rw [hE.leaves_rew]
    refine List.mem_map.2 ⟨_, hl, ?_⟩
    simp only [Bool.false_eq_true, if_false]
    have := (h2 _ hl).2
    dsimp only at this
    rw [this, heq]
  · rw [reportsAt_leaf (fun l hl => hpath (h2 l hl).1) (hE.nodup e hs.wf) _ hl,
      reportsAt_leaf (fun l hl => hpath (h2₁ l hl).1) (hE'.nodup e₁ hs₁.wf) _ hl₁,
      reportsAt_leaf (fun l hl => hpath (h2₂ l hl).1) (hE'.nodup e₂ hs₂.wf) _ hl₂, heq]

/-- C111: without the multi-pass heuristic, a text is redacted line by line. -/
theorem C111_lines (hok : ScannerOk sc) (hmp : sc.multipassEnabled = false)
    (hap : ∀ i rule, sc.rules[i]? = some rule → i ∉ blocked → FindsApart sep rule)
    (hret : ∀ t, Returns sc [⟨[], t, false⟩]) :
    ∃ new : Str → Str, (∀ t, ∃ os, scan stringEvent sc t blocked = Res.ok (new t, os)) ∧
      ∀ lines, lines ≠ [] → new (ofLines sep lines) = ofLines sep (lines.map new) := by
  have hscan : ∀ t, Scannable (fun _ => True) (fun s => [⟨[], s, false⟩]) sc blocked t := fun t =>
    ⟨trivial, hret t, fun l hl h => by simp only [List.mem_singleton] at hl; subst hl; cases h⟩
  have hall : ∀ t, ∃ r : Str × List RuleMatch, scan stringEvent sc t blocked = Res.ok r := by
    intro t
    obtain ⟨out, G, h1, _⟩ := C10_scan_result stringEvent_lawful hok blocked t (hscan t)
    exact ⟨_, h1⟩
  refine ⟨fun t => (Classical.choose (hall t)).1, fun t => ⟨_, Classical.choose_spec (hall t)⟩, ?_⟩
  have hnew : ∀ t r, scan stringEvent sc t blocked = Res.ok r → r = Classical.choose (hall t) := by
    intro t r h
    exact Res.ok.inj (h.symm.trans (Classical.choose_spec (hall t)))
  have hrem : ∀ leaves : List Leaf, Remembered sc blocked leaves = fun _ => False := by
    intro leaves
    funext t
    simp [Remembered, hmp]
  have hstep : ∀ x y, (Classical.choose (hall (x ++ [sep] ++ y))).1 =
      (Classical.choose (hall x)).1 ++ [sep] ++ (Classical.choose (hall y)).1 := by
    intro x y
    obtain ⟨after, os, after₁, os₁, after₂, os₂, x', y', h1, h2, h3, h4, h5, h6, _⟩ :=
      C111_two_texts stringEvent_lawful stringEvent_lawful rfl hok hap (x ++ [sep] ++ y) x y (hscan _) (hscan _) (hscan _)
        (by rw [hrem, hrem]) (by rw [hrem, hrem]) (path := []) (List.mem_singleton.2 rfl) (List.mem_singleton.2 rfl)
        (List.mem_singleton.2 rfl)
    rw [← hnew _ _ h1, ← hnew _ _ h2, ← hnew _ _ h3]
    simp only [List.mem_singleton, Leaf.mk.injEq, true_and, and_true] at h4 h5 h6
    rw [← h4, ← h5, ← h6]
  intro lines
  induction lines with
  | nil => intro h; exact absurd rfl h
  | cons l lines ih =>
    intro _
    cases lines with
    | nil => rfl
    | cons l' lines =>
      have := ih (by simp)
      dsimp only at this ⊢
      rw [ofLines, hstep, this]
      · rfl
      · simp

end

/-! ## Examples -/

private theorem textRx_apart {sep : Char} {t : Str} (ht : sep ∉ t) : MatchesApart sep (textRx t) where
  first := by
    intro x y s hs
    unfold textRx
    rw [List.append_assoc, cut_first hs]
    cases cut x s with
    | none => rfl
    | some ab =>
      simp only [Option.map_some]
      by_cases hlen : t.length ≤ ab.2.length
      · rw [List.take_append_of_le_length hlen]
      · have h1 : ab.2.take t.length ≠ t := by
          intro h
          have := congrArg List.length h
          rw [List.length_take] at this
          omega
        have h2 : (ab.2 ++ ([sep] ++ y)).take t.length ≠ t := by
          intro h
          refine ht ?_
          rw [← h, List.take_append, List.singleton_append]
          obtain ⟨k, hk⟩ : ∃ k, t.length - ab.2.length = k + 1 := ⟨t.length - ab.2.length - 1, by omega⟩
          rw [hk, List.take_succ_cons]
          simp
        rw [if_neg h1, if_neg h2]
  second := by
    intro x y s
    unfold textRx
    rw [cut_second]
    cases cut y s with
    | none => rfl
    | some ab =>
      simp only [Option.map_some]
      split <;> simp [Nat.add_assoc]

private def fp : Fingerprint := ⟨fun s => s.length, fun s => s.length⟩

private def rl (t : String) (a : Action) : CRule :=
  RegexRule.toCRule ⟨textRx t.toList, none, none, none⟩ ⟨a, false⟩ (.excl []) false (fun c => blen c + 1)

private def sc3 : Scanner := ⟨[rl "a@b" (.redact "####".toList), rl "é" (.redact [])], false, false, true, fp⟩

private theorem rl_ok {t : String} (ht : t.toList ≠ []) {a : Action} (ha : a ≠ .partialFirst 0 ∧ a ≠ .partialLast 0) :
    RuleOk (rl t a) :=
  regexRule_ok (textRx_ok _ ht).1 (textRx_ok _ ht).2 (by intro k hk; cases hk) (by intro c; omega) ha _ false

private theorem rl_apart {t : String} (ht : t.toList ≠ []) (hs : '\n' ∉ t.toList) (a : Action) : FindsApart '\n' (rl t a) :=
  C111_rule (r := ⟨textRx _, none, none, none⟩) (textRx_ok _ ht).1 (textRx_ok _ ht).2 rfl rfl (textRx_apart hs) _ _ _
    (fun _ => Nat.lt_succ_self _)

private theorem rl_returns {t : String} (ht : t.toList ≠ []) (a : Action) (c : Str) (p : Path) (ex : Bool) :
    ∃ f, (rl t a).run c p ex = Res.ok f :=
  stringMatches_returns (r := ⟨textRx _, none, none, none⟩) (textRx_ok _ ht).1 (textRx_ok _ ht).2
    (by intro k hk; cases hk) false ex (by intro _ x hx; cases hx) p (Nat.lt_succ_self _)

private def brief (r : Res (Str × List RuleMatch)) : Res (Str × List (Nat × Nat × Nat × Int)) :=
  r.map fun x => (x.1, x.2.map fun o => (o.rule, o.start, o.stop, o.shift))

/-- The hypotheses are met: a text of three lines and its redactions. -/
example : ScannerOk sc3 ∧ sc3.multipassEnabled = false ∧
    (∀ i rule, sc3.rules[i]? = some rule → i ∉ ([] : List Nat) → FindsApart '\n' rule) ∧
    (∀ t, Returns sc3 [⟨[], t, false⟩]) ∧
    brief (scan stringEvent sc3 "xa@bé".toList []) = Res.ok ("x####".toList, [(0, 1, 5, 1), (1, 5, 5, -1)]) ∧
    brief (scan stringEvent sc3 (ofLines '\n' ["xa@bé".toList, "a@".toList, "b a@b".toList]) []) =
      Res.ok (ofLines '\n' ["x####".toList, "a@".toList, "b ####".toList], [(0, 1, 5, 1), (1, 5, 5, -1), (0, 11, 15, 0)]) := by
  refine ⟨?_, rfl, ?_, ?_, by decide +kernel, by decide +kernel⟩
  · intro rule h
    simp only [sc3, List.mem_cons, List.not_mem_nil, or_false] at h
    rcases h with rfl | rfl
    · exact rl_ok (by decide) ⟨by simp, by simp⟩
    · exact rl_ok (by decide) ⟨by simp, by simp⟩
  · intro i rule h _
    have h := List.mem_of_getElem? h
    simp only [sc3, List.mem_cons, List.not_mem_nil, or_false] at h
    rcases h with rfl | rfl
    · exact rl_apart (by decide) (by decide) _
    · exact rl_apart (by decide) (by decide) _
  · intro t rule h l _ ex
    simp only [sc3, List.mem_cons, List.not_mem_nil, or_false] at h
    rcases h with rfl | rfl
    · exact rl_returns (by decide) _ _ _ _
    · exact rl_returns (by decide) _ _ _ _

private def js (s : String) : Ev := .map (.cons "n".toList (.str s.toList) .nil)

/-- The hypotheses of `C111_two_texts` are met: by a field of a JSON event. -/
example : ScannerOk sc3 ∧ (∀ i rule, sc3.rules[i]? = some rule → i ∉ ([] : List Nat) → FindsApart '\n' rule) ∧
    (∀ s ∈ ["xa@bé", "b a@b", "xa@bé\nb a@b"], Scannable WellKeyed (Ev.leaves false) sc3 [] (js s) ∧
      ⟨[.field "n".toList], s.toList, false⟩ ∈ (js s).leaves false) ∧
    (∀ l l', Remembered sc3 [] l = Remembered sc3 [] l') ∧
    (∀ r ∈ [("xa@bé", "x####", [(1, 5, 1), (5, 5, -1)]), ("b a@b", "b ####", [(2, 6, (1 : Int))]),
      ("xa@bé\nb a@b", "x####\nb ####", [(1, 5, 1), (5, 5, -1), (8, 12, 0)])],
      (scan jsonEvent sc3 (js r.1) []).map (fun x => ((x.1.leaves false).map (·.text), x.2.map fun o => (o.start, o.stop, o.shift))) =
        Res.ok ([r.2.1.toList], r.2.2)) := by
  have hok : ScannerOk sc3 := by
    intro rule h
    simp only [sc3, List.mem_cons, List.not_mem_nil, or_false] at h
    rcases h with rfl | rfl
    · exact rl_ok (by decide) ⟨by simp, by simp⟩
    · exact rl_ok (by decide) ⟨by simp, by simp⟩
  refine ⟨hok, ?_, ?_, ?_, by decide +kernel⟩
  · intro i rule h _
    have h := List.mem_of_getElem? h
    simp only [sc3, List.mem_cons, List.not_mem_nil, or_false] at h
    rcases h with rfl | rfl
    · exact rl_apart (by decide) (by decide) _
    · exact rl_apart (by decide) (by decide) _
  · intro s _
    have hl : (js s).leaves false = [⟨[.field "n".toList], s.toList, false⟩] := by simp [js, Ev.leaves, Fields.leaves, Leaf.under]
    refine ⟨⟨?_, ?_, ?_⟩, by rw [hl]; exact List.mem_singleton.2 rfl⟩
    · simp [js, WellKeyed, WellKeyedFields, keys]
    · intro rule h l _ ex
      simp only [sc3, List.mem_cons, List.not_mem_nil, or_false] at h
      rcases h with rfl | rfl
      · exact rl_returns (by decide) _ _ _ _
      · exact rl_returns (by decide) _ _ _ _
    · intro l h hf
      rw [hl, List.mem_singleton] at h
      subst h
      cases hf
  · intro l l'
    funext t
    simp [Remembered, sc3]

/-- The hypotheses of `C111_patterns` are met: by the pattern `\b[a-z]+$` in a mode in which `$` is the end of a line. -/
example (T : Tables) : StaysInLine T '\n' (.seq [.look .asciiWord, .rep 1 none true (.set (between 'a' 'z')), .look .lineEnd]) := by
  refine .seq _ fun n hn => ?_
  simp only [List.mem_cons, List.not_mem_nil, or_false] at hn
  rcases hn with rfl | rfl | rfl
  · exact .look _ (by simp only [LooksAtLine, AsciiWordChar]; decide)
  · exact .rep _ _ _ _ (.set _ (by unfold between; decide))
  · exact .look _ rfl

private def kw : IncKw := ⟨30, leftmostKw (fun a b => a == b) ["id".toList], fun _ => false⟩

private def sc4 : Scanner :=
  ⟨[RegexRule.toCRule ⟨textRx "a@b".toList, none, some kw, none⟩ ⟨.redact "#".toList, false⟩ (.excl []) false (fun c => blen c + 1)],
    false, false, true, fp⟩

/-- Finding (C111): a required keyword counts although a newline is between it and the match: the second line is redacted, alone it
is not. -/
theorem C111_keyword_in_another_line :
    brief (scan stringEvent sc4 (ofLines '\n' ["id".toList, "a@b".toList]) []) =
      Res.ok (ofLines '\n' ["id".toList, "#".toList], [(0, 3, 4, -2)]) ∧
    brief (scan stringEvent sc4 "id".toList []) = Res.ok ("id".toList, []) ∧
    brief (scan stringEvent sc4 "a@b".toList []) = Res.ok ("a@b".toList, []) :=
  ⟨by decide +kernel, by decide +kernel, by decide +kernel⟩

end Sds.Props
