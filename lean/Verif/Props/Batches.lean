import Verif.Spec.Batches
import Verif.Props.Revalidate

/-! # C118: matches in any order, and in several calls -/

namespace Sds.Props
open Sds Spec

open Classical in
/-- The match with the highest of its own status and those that satisfy `P`. -/
private noncomputable def settled (P : MatchStatus → Prop) (m : RuleMatch) : RuleMatch :=
  if h : ∃ s, Highest (fun x => x = m.status ∨ P x) s then { m with status := Classical.choose h } else m

private theorem settled_eq {P : MatchStatus → Prop} {m b : RuleMatch} (h : SameButStatus m b)
    (hs : Highest (fun x => x = m.status ∨ P x) b.status) : b = settled P m := by
  have he : ∃ s, Highest (fun x => x = m.status ∨ P x) s := ⟨_, hs⟩
  unfold settled
  rw [dif_pos he]
  have hc := Classical.choose_spec he
  have : Classical.choose he = b.status := StatusLe.antisymm (hs.2 _ hc.1) (hc.2 _ hs.1)
  rw [this]
  exact with_status h

private theorem group_map {net : Net} (hn : Steady net) {sch : Sched} (hf : Fair sch) {rules : List (Option VType)}
    {vs : List (IType × Validator)} {t : IType} {ms outs : List RuleMatch} (h : validateGroup net sch rules vs t ms = .ok outs) :
    outs = ms.map fun m => settled (SaysOf net rules vs t ms m) m := by
  have hu := group_steady hn hf h
  refine List.ext_getElem? fun i => ?_
  rw [List.getElem?_map]
  by_cases hi : i < ms.length
  · have h1 : i < outs.length := by rw [hu.len]; exact hi
    rw [List.getElem?_eq_getElem hi, List.getElem?_eq_getElem h1, Option.map_some]
    obtain ⟨e1, e2⟩ := hu.each i _ _ (List.getElem?_eq_getElem hi) (List.getElem?_eq_getElem h1)
    exact congrArg some (settled_eq e1 e2)
  · rw [List.getElem?_eq_none (Nat.le_of_not_lt hi), List.getElem?_eq_none (by rw [hu.len]; exact Nat.le_of_not_lt hi)]
    rfl

private theorem group_settles {net : Net} (hn : Steady net) {sch : Sched} (hf : Fair sch) {rules : List (Option VType)}
    {vs : List (IType × Validator)} {t : IType} {ms outs : List RuleMatch} (h : validateGroup net sch rules vs t ms = .ok outs) :
    ∀ m ∈ ms, Highest (fun x => x = m.status ∨ SaysOf net rules vs t ms m x) (settled (SaysOf net rules vs t ms m) m).status := by
  have hu := group_steady hn hf h
  intro m hm
  obtain ⟨i, hi, rfl⟩ := List.getElem_of_mem hm
  have h1 : i < outs.length := by rw [hu.len]; exact hi
  obtain ⟨e1, e2⟩ := hu.each i _ _ (List.getElem?_eq_getElem hi) (List.getElem?_eq_getElem h1)
  rw [← settled_eq e1 e2]
  exact e2

private theorem settled_same (P : MatchStatus → Prop) (m : RuleMatch) : settled P m = { m with status := (settled P m).status } := by
  unfold settled
  split <;> rfl

private theorem saysOf_subset (net : Net) {rules : List (Option VType)} (vs : List (IType × Validator)) (t : IType)
    {l l' : List RuleMatch} (h : ∀ b ∈ l, b ∈ l') {m : RuleMatch} {x : MatchStatus} (hx : SaysOf net rules vs t l m x) :
    SaysOf net rules vs t l' m x := by
  revert hx
  unfold SaysOf
  split
  · exact id
  · exact id
  · rintro (⟨h1, b, hb, h2⟩ | ⟨h1, b, hb, h2⟩)
    · exact Or.inl ⟨h1, b, h b hb, h2⟩
    · exact Or.inr ⟨h1, b, h b hb, h2⟩

private theorem saysOf_congr (net : Net) {rules : List (Option VType)} (vs : List (IType × Validator)) (t : IType)
    {l l' : List RuleMatch} {m : RuleMatch} (h1 : IsAwsId rules m → ∀ b, IsAwsSecret rules b → (b ∈ l ↔ b ∈ l'))
    (h2 : IsAwsSecret rules m → ∀ a, IsAwsId rules a → (a ∈ l ↔ a ∈ l')) :
    SaysOf net rules vs t l m = SaysOf net rules vs t l' m := by
  funext x
  unfold SaysOf
  split
  · rfl
  · rfl
  · refine propext (or_congr ?_ ?_)
    · refine and_congr_right fun hm => ?_
      constructor
      · rintro ⟨b, hb, hs, hx⟩
        exact ⟨b, (h1 hm b hs).1 hb, hs, hx⟩
      · rintro ⟨b, hb, hs, hx⟩
        exact ⟨b, (h1 hm b hs).2 hb, hs, hx⟩
    · refine and_congr_right fun hm => ?_
      constructor
      · rintro ⟨b, hb, hs, hx⟩
        exact ⟨b, (h2 hm b hs).1 hb, hs, hx⟩
      · rintro ⟨b, hb, hs, hx⟩
        exact ⟨b, (h2 hm b hs).2 hb, hs, hx⟩

section
variable {net : Net} {s1 s2 s3 : Sched} {rules : List (Option VType)} {vs : List (IType × Validator)}

private theorem matches_map (hn : Steady net) (hf : Fair s1) {ret : Bool} {ms outs : List RuleMatch}
    (h : validateMatches net s1 rules vs ret ms = .ok (some outs)) (t : IType) :
    (outs.filter (ofType rules t)).Perm
      ((ms.filter (ofType rules t)).map fun m => settled (SaysOf net rules vs t (ms.filter (ofType rules t)) m) m) := by
  obtain ⟨-, -, h1⟩ := validateMatches_ok net s1 hf rules vs ret _ outs h
  obtain ⟨G, g, p⟩ := h1 t
  simp only [typeOf_ofType] at g p
  rw [group_map hn hf g] at p
  exact p

private theorem matches_settle (hn : Steady net) (hf : Fair s1) {ret : Bool} {ms outs : List RuleMatch}
    (h : validateMatches net s1 rules vs ret ms = .ok (some outs)) (t : IType) :
    ∀ m ∈ ms.filter (ofType rules t), Highest (fun x => x = m.status ∨ SaysOf net rules vs t (ms.filter (ofType rules t)) m x)
      (settled (SaysOf net rules vs t (ms.filter (ofType rules t)) m) m).status := by
  obtain ⟨-, -, h1⟩ := validateMatches_ok net s1 hf rules vs ret _ outs h
  obtain ⟨G, g, p⟩ := h1 t
  simp only [typeOf_ofType] at g p
  exact group_settles hn hf g

/-- C118: the order of the matches does not matter. -/
theorem C118_order (hn : Steady net) (hf1 : Fair s1) (hf2 : Fair s2) {ret ret' : Bool} {ms ms' outs outs' : List RuleMatch}
    (hp : ms.Perm ms') (h1 : validateMatches net s1 rules vs ret ms = .ok (some outs))
    (h2 : validateMatches net s2 rules vs ret' ms' = .ok (some outs')) : outs.Perm outs' := by
  refine perm_of_types (all_typed hf1 h1) (all_typed hf2 h2) fun t => ?_
  refine (matches_map hn hf1 h1 t).trans (List.Perm.trans ?_ (matches_map hn hf2 h2 t).symm)
  refine ((hp.filter (ofType rules t)).map _).trans (List.Perm.of_eq (List.map_congr_left fun m _ => ?_))
  have hm : ∀ b, b ∈ ms.filter (ofType rules t) ↔ b ∈ ms'.filter (ofType rules t) := fun b => (hp.filter _).mem_iff
  rw [saysOf_congr net vs t (fun _ b _ => hm b) (fun _ b _ => hm b)]

/-- C118 (partial: only if no AWS id is in one call and an AWS secret in the other): validating matches in two calls gives what one
call gives.  Missing: an id and a secret in different calls are not tried together (`C118_pair_apart`). -/
theorem C118_batches_partial (hn : Steady net) (hf1 : Fair s1) (hf2 : Fair s2) (hf3 : Fair s3) {ret ret2 ret3 : Bool}
    {ms xs ys outs outsX outsY : List RuleMatch} (hp : ms.Perm (xs ++ ys)) (hx : NoPairApart rules xs ys)
    (h1 : validateMatches net s1 rules vs ret ms = .ok (some outs))
    (h2 : validateMatches net s2 rules vs ret2 xs = .ok (some outsX))
    (h3 : validateMatches net s3 rules vs ret3 ys = .ok (some outsY)) : outs.Perm (outsX ++ outsY) := by
  refine perm_of_types (all_typed hf1 h1) ?_ fun t => ?_
  · intro b hb
    rcases List.mem_append.1 hb with h | h
    · exact all_typed hf2 h2 b h
    · exact all_typed hf3 h3 b h
  rw [List.filter_append]
  refine (matches_map hn hf1 h1 t).trans (List.Perm.trans ?_
    ((matches_map hn hf2 h2 t).append (matches_map hn hf3 h3 t)).symm)
  refine ((hp.filter (ofType rules t)).map _).trans (List.Perm.of_eq ?_)
  have hm : ∀ b, b ∈ ms.filter (ofType rules t) ↔ b ∈ xs.filter (ofType rules t) ∨ b ∈ ys.filter (ofType rules t) := by
    intro b
    rw [(hp.filter _).mem_iff, List.filter_append, List.mem_append]
  rw [List.filter_append, List.map_append]
  congr 1
  · refine List.map_congr_left fun m hmx => ?_
    have hmx := (List.mem_filter.1 hmx).1
    rw [saysOf_congr net vs t (l' := xs.filter (ofType rules t))]
    · intro hi b hs
      rw [hm]
      exact ⟨fun h => h.resolve_right fun h => (hx m hmx b (List.mem_filter.1 h).1).1 ⟨hi, hs⟩, Or.inl⟩
    · intro hi b hs
      rw [hm]
      exact ⟨fun h => h.resolve_right fun h => (hx m hmx b (List.mem_filter.1 h).1).2 ⟨hi, hs⟩, Or.inl⟩
  · refine List.map_congr_left fun m hmy => ?_
    have hmy := (List.mem_filter.1 hmy).1
    rw [saysOf_congr net vs t (l' := ys.filter (ofType rules t))]
    · intro hi b hs
      rw [hm]
      exact ⟨fun h => h.resolve_left fun h => (hx b (List.mem_filter.1 h).1 m hmy).2 ⟨hs, hi⟩, Or.inr⟩
    · intro hi b hs
      rw [hm]
      exact ⟨fun h => h.resolve_left fun h => (hx b (List.mem_filter.1 h).1 m hmy).1 ⟨hs, hi⟩, Or.inr⟩

/-- C118, without condition: no match gets a lower status in one call than in two. -/
theorem C118_together (hn : Steady net) (hf1 : Fair s1) (hf2 : Fair s2) (hf3 : Fair s3) {ret ret2 ret3 : Bool}
    {ms xs ys outs outsX outsY : List RuleMatch} (hp : ms.Perm (xs ++ ys))
    (h1 : validateMatches net s1 rules vs ret ms = .ok (some outs))
    (h2 : validateMatches net s2 rules vs ret2 xs = .ok (some outsX))
    (h3 : validateMatches net s3 rules vs ret3 ys = .ok (some outsY)) (t : IType) :
    NotLower ((outsX ++ outsY).filter (ofType rules t)) (outs.filter (ofType rules t)) := by
  have hm : ∀ b, b ∈ ms.filter (ofType rules t) ↔ b ∈ xs.filter (ofType rules t) ∨ b ∈ ys.filter (ofType rules t) := by
    intro b
    rw [(hp.filter _).mem_iff, List.filter_append, List.mem_append]
  have k1 := matches_settle hn hf1 h1 t
  have k2 := matches_settle hn hf2 h2 t
  have k3 := matches_settle hn hf3 h3 t
  have p1 := matches_map hn hf1 h1 t
  have p2 := matches_map hn hf2 h2 t
  have p3 := matches_map hn hf3 h3 t
  have q := hp.filter (ofType rules t)
  rw [List.filter_append] at q
  rw [List.filter_append]
  generalize outs.filter (ofType rules t) = O at *
  generalize outsX.filter (ofType rules t) = OX at *
  generalize outsY.filter (ofType rules t) = OY at *
  generalize ms.filter (ofType rules t) = M at *
  generalize xs.filter (ofType rules t) = X at *
  generalize ys.filter (ofType rules t) = Y at *
  refine ⟨X.map (fun m => (m, (settled (SaysOf net rules vs t X m) m).status, (settled (SaysOf net rules vs t M m) m).status)) ++
    Y.map (fun m => (m, (settled (SaysOf net rules vs t Y m) m).status, (settled (SaysOf net rules vs t M m) m).status)), ?_, ?_, ?_⟩
  · rw [List.map_append, List.map_map, List.map_map]
    refine (p2.append p3).trans (List.Perm.of_eq ?_)
    congr 1
    · exact List.map_congr_left fun m _ => settled_same _ m
    · exact List.map_congr_left fun m _ => settled_same _ m
  · rw [List.map_append, List.map_map, List.map_map]
    refine (p1.trans (q.map _)).trans (List.Perm.of_eq ?_)
    rw [List.map_append]
    congr 1
    · exact List.map_congr_left fun m _ => settled_same _ m
    · exact List.map_congr_left fun m _ => settled_same _ m
  · have up : ∀ Z : List RuleMatch, (∀ b ∈ Z, b ∈ M) → (∀ m ∈ Z,
        Highest (fun x => x = m.status ∨ SaysOf net rules vs t Z m x) (settled (SaysOf net rules vs t Z m) m).status) →
        ∀ m ∈ Z, StatusLe (settled (SaysOf net rules vs t Z m) m).status (settled (SaysOf net rules vs t M m) m).status := by
      intro Z hz hk m hmz
      exact (k1 m (hz m hmz)).2 _ ((hk m hmz).1.imp id (saysOf_subset net vs t hz))
    intro x hx
    rcases List.mem_append.1 hx with h | h <;> obtain ⟨m, hmz, rfl⟩ := List.mem_map.1 h
    · exact up X (fun b hb => (hm b).2 (Or.inl hb)) k2 m hmz
    · exact up Y (fun b hb => (hm b).2 (Or.inr hb)) k3 m hmz

end

/-- Finding (C118): an id and its secret in one call are both found valid, in two calls neither is even checked. -/
theorem C118_pair_apart : ∃ (net : Net) (sch : Sched) (rules : List (Option VType)) (vs : List (IType × Validator))
    (id secret : RuleMatch), Steady net ∧ Fair sch ∧ buildValidators rules [] false = some (vs, true) ∧
    id.status = .notChecked ∧ secret.status = .notChecked ∧
    validateMatches net sch rules vs true [id, secret] =
      .ok (some [{ id with status := .valid }, { secret with status := .valid }]) ∧
    validateMatches net sch rules vs true [id] = .ok (some [id]) ∧
    validateMatches net sch rules vs true [secret] = .ok (some [secret]) :=
  ⟨someNet, inOrder, awsRules, [(.aws, .aws awsCfg)], aMatch 0 0 ['i'] .notChecked, aMatch 1 3 someKey .notChecked,
    ⟨fun _ _ _ => rfl, fun _ _ _ _ _ => rfl⟩, inOrder_fair, by decide +kernel, rfl, rfl, by decide +kernel, by decide +kernel,
    by decide +kernel⟩

private def bRules : List (Option VType) := awsRules ++ [some (.http (webCfg ['g']))]
private def bVs : List (IType × Validator) := [(.aws, .aws awsCfg), (.http [['u']], .http (webCfg ['g']))]
private def bX : List RuleMatch := [aMatch 2 5 ['b'] .notChecked, aMatch 0 0 ['i'] .notChecked, aMatch 1 3 someKey .notChecked]
private def bY : List RuleMatch := [aMatch 2 2 ['b'] .notChecked]

/-- The hypotheses of `C118_order`, `C118_together` and `C118_batches_partial` are met: the id and its secret are in the first call. -/
example : Steady someNet ∧ Fair inOrder ∧ Fair backwards ∧ (bY ++ bX).Perm (bX ++ bY) ∧ NoPairApart bRules bX bY ∧
    buildValidators bRules [] false = some (bVs, true) ∧
    validateMatches someNet inOrder bRules bVs true (bY ++ bX) = .ok (some
      [aMatch 0 0 ['i'] .valid, aMatch 2 2 ['b'] .valid, aMatch 1 3 someKey .valid, aMatch 2 5 ['b'] .valid]) ∧
    validateMatches someNet inOrder bRules bVs true (bX ++ bY) = .ok (some
      [aMatch 0 0 ['i'] .valid, aMatch 2 2 ['b'] .valid, aMatch 1 3 someKey .valid, aMatch 2 5 ['b'] .valid]) ∧
    validateMatches someNet backwards bRules bVs true bX = .ok (some
      [aMatch 0 0 ['i'] .valid, aMatch 1 3 someKey .valid, aMatch 2 5 ['b'] .valid]) ∧
    validateMatches someNet backwards bRules bVs true bY = .ok (some [aMatch 2 2 ['b'] .valid]) := by
  refine ⟨⟨fun _ _ _ => rfl, fun _ _ _ _ _ => rfl⟩, inOrder_fair, backwards_fair, List.perm_append_comm, ?_, by decide +kernel,
    by decide +kernel, by decide +kernel, by decide +kernel, by decide +kernel⟩
  intro a _ b hb
  simp only [bY, List.mem_cons, List.not_mem_nil, or_false] at hb
  subst hb
  constructor
  · rintro ⟨-, cfg, h⟩
    simp [bRules, awsRules, aMatch] at h
  · rintro ⟨-, h⟩
    simp [IsAwsId, bRules, awsRules, aMatch] at h

end Sds.Props
