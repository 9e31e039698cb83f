import Verif.Spec.Prefer
import Verif.Lemmas.RustParts

/-! # The tries of an expression are its matches, and do not depend on bracketing -/

namespace Sds.Re
open Sds Sds.Spec

variable {T : Tables}

/-- The list has exactly the lengths that the expression can match. -/
def Lists (T : Tables) (n : Node) (f : Str → Str → List Nat) : Prop :=
  ∀ p r k, k ∈ f p r ↔ ∃ m q, r = m ++ q ∧ m.length = k ∧ Spans T n p m q

private theorem take_append_len {m q : Str} : (m ++ q).take m.length = m := by simp
private theorem drop_append_len {m q : Str} : (m ++ q).drop m.length = q := by simp

private theorem rep_sound {n : Node} {f : Str → Str → List Nat} (hf : Lists T n f) {g : Bool} :
    ∀ (fuel lo : Nat) (hi : Option Nat) (p r : Str) (k : Nat), k ∈ repTries f g fuel lo hi p r →
      ∃ m q, r = m ++ q ∧ m.length = k ∧ Spans T (.rep lo hi g n) p m q := by
  intro fuel
  induction fuel with
  | zero => intro lo hi p r k h; cases h
  | succ fuel ih =>
    intro lo hi p r k h
    rw [repTries] at h
    have hmore : k ∈ (if hi = some 0 then [] else (f p r).flatMap fun k =>
        if k = 0 ∧ lo = 0 ∧ hi = none then [0]
        else (repTries f g fuel (lo - 1) (hi.map (· - 1)) (p ++ r.take k) (r.drop k)).map (k + ·)) →
        ∃ m q, r = m ++ q ∧ m.length = k ∧ Spans T (.rep lo hi g n) p m q := by
      intro h
      split at h
      · cases h
      · next hne =>
        obtain ⟨k1, h1, h2⟩ := List.mem_flatMap.1 h
        obtain ⟨m, q, rfl, rfl, hs⟩ := (hf p r k1).1 h1
        split at h2
        · next hz =>
          simp only [List.mem_singleton] at h2
          subst h2
          obtain ⟨hz, rfl, rfl⟩ := hz
          exact ⟨[], m ++ q, rfl, rfl, .repZero⟩
        · obtain ⟨k2, h3, rfl⟩ := List.mem_map.1 h2
          rw [take_append_len, drop_append_len] at h3
          obtain ⟨m', q', rfl, rfl, hs'⟩ := ih _ _ _ _ _ h3
          exact ⟨m ++ m', q', by simp, by simp, .repSucc hne hs hs'⟩
    have hzero : lo = 0 → k = 0 → ∃ m q, r = m ++ q ∧ m.length = k ∧ Spans T (.rep lo hi g n) p m q := by
      rintro rfl rfl
      exact ⟨[], r, rfl, rfl, .repZero⟩
    split at h
    · exact hmore h
    · split at h
      · rcases List.mem_append.1 h with h | h
        · exact hmore h
        · exact hzero (by omega) (by simpa using h)
      · rcases List.mem_cons.1 h with h | h
        · exact hzero (by omega) h
        · exact hmore h

/-- Enough fuel. -/
private def need (lo : Nat) (hi : Option Nat) (r : Str) : Nat :=
  match hi with
  | some h => h + 1
  | none => lo + r.length + 1

private theorem rep_complete {n : Node} {f : Str → Str → List Nat} (hf : Lists T n f) {g : Bool} {lo : Nat} {hi : Option Nat}
    {p m q : Str} (h : Spans T (.rep lo hi g n) p m q) :
    ∀ fuel, need lo hi (m ++ q) ≤ fuel → m.length ∈ repTries f g fuel lo hi p (m ++ q) := by
  generalize hr : Node.rep lo hi g n = x at h
  induction h generalizing lo hi with
  | @repZero hi' g' n' p q =>
    injection hr with e1 e2 e3 e4
    subst e1 e2 e3 e4
    intro fuel hfuel
    match fuel with
    | 0 => unfold need at hfuel; split at hfuel <;> omega
    | fuel + 1 =>
      rw [repTries]
      cases g <;> simp
  | @repSucc lo' hi' g' n' p m m' q hh h1 h2 _ ih =>
    injection hr with e1 e2 e3 e4
    subst e1 e2 e3 e4
    intro fuel hfuel
    by_cases hz : m = [] ∧ lo = 0 ∧ hi = none
    · obtain ⟨rfl, rfl, rfl⟩ := hz
      have := ih rfl fuel (by simpa [need] using hfuel)
      simpa using this
    · match fuel with
      | 0 => unfold need at hfuel; split at hfuel <;> omega
      | fuel + 1 =>
        have hmem : (m ++ m').length ∈ (f p (m ++ m' ++ q)).flatMap fun k =>
            if k = 0 ∧ lo = 0 ∧ hi = none then [0]
            else (repTries f g fuel (lo - 1) (hi.map (· - 1)) (p ++ (m ++ m' ++ q).take k) ((m ++ m' ++ q).drop k)).map (k + ·) := by
          refine List.mem_flatMap.2 ⟨m.length, (hf _ _ _).2 ⟨m, m' ++ q, by simp, rfl, h1⟩, ?_⟩
          rw [if_neg (by simpa using hz)]
          refine List.mem_map.2 ⟨m'.length, ?_, by simp⟩
          rw [List.append_assoc, take_append_len, drop_append_len]
          refine ih rfl fuel ?_
          cases hi with
          | some h =>
            have : h ≠ 0 := fun e => hh (by rw [e])
            simp only [need, Option.map_some] at hfuel ⊢
            omega
          | none =>
            simp only [need, Option.map_none, List.length_append] at hfuel ⊢
            simp only [and_true, not_and] at hz
            by_cases hm : m = []
            · have := hz hm; omega
            · have := List.length_pos_iff.2 hm; omega
        rw [repTries]
        simp only [if_neg hh]
        split
        · exact hmem
        · split
          · exact List.mem_append_left _ hmem
          · exact List.mem_cons_of_mem _ hmem
  | _ => cases hr

mutual

/-- `tries` lists the matches. -/
theorem tries_lists : ∀ n : Node, Lists T n (tries T n)
  | .eps => by
    intro p r k
    rw [tries]
    simp only [List.mem_singleton]
    constructor
    · rintro rfl
      exact ⟨[], r, rfl, rfl, .eps⟩
    · rintro ⟨m, q, _, rfl, h⟩
      cases h; rfl
  | .set P => by
    intro p r k
    rw [tries]
    constructor
    · intro h
      split at h
      · next hc =>
        obtain ⟨c, hc, hP⟩ := hc
        cases r with
        | nil => cases hc
        | cons x r =>
          simp only [List.head?_cons, Option.mem_def, Option.some.injEq] at hc
          subst hc
          simp only [List.mem_singleton] at h
          exact ⟨[x], r, rfl, h.symm, .set hP⟩
      · cases h
    · rintro ⟨m, q, rfl, rfl, h⟩
      cases h with
      | @set _ c _ _ h => rw [if_pos ⟨c, rfl, h⟩]; simp
  | .look l => by
    intro p r k
    rw [tries]
    constructor
    · intro h
      split at h
      · next hl =>
        simp only [List.mem_singleton] at h
        exact ⟨[], r, rfl, h.symm, .look hl⟩
      · cases h
    · rintro ⟨m, q, rfl, rfl, h⟩
      cases h with
      | look h => simp only [List.nil_append]; rw [if_pos h]; simp
  | .seq l => by
    intro p r k
    rw [tries]
    exact triesSeq_lists l p r k
  | .alt l => by
    intro p r k
    rw [tries]
    exact triesAlt_lists l p r k
  | .rep lo hi g n => by
    intro p r k
    rw [tries]
    constructor
    · exact rep_sound (tries_lists n) _ _ _ _ _ _
    · rintro ⟨m, q, rfl, rfl, h⟩
      refine rep_complete (tries_lists n) h _ ?_
      cases hi <;> simp [need] <;> omega
  | .capture name n => by
    intro p r k
    rw [tries, tries_lists n p r k]
    constructor
    · rintro ⟨m, q, h1, h2, h⟩
      exact ⟨m, q, h1, h2, .capture h⟩
    · rintro ⟨m, q, h1, h2, h⟩
      cases h with
      | capture h => exact ⟨m, q, h1, h2, h⟩

theorem triesSeq_lists : ∀ l : List Node, Lists T (.seq l) (triesSeq T l)
  | [] => by
    intro p r k
    rw [triesSeq]
    simp only [List.mem_singleton]
    constructor
    · rintro rfl
      exact ⟨[], r, rfl, rfl, .seqNil⟩
    · rintro ⟨m, q, _, rfl, h⟩
      cases h; rfl
  | n :: l => by
    intro p r k
    rw [triesSeq]
    constructor
    · intro h
      obtain ⟨k1, h1, h2⟩ := List.mem_flatMap.1 h
      obtain ⟨m, q, rfl, rfl, hs⟩ := (tries_lists n p r k1).1 h1
      obtain ⟨k2, h3, rfl⟩ := List.mem_map.1 h2
      rw [take_append_len, drop_append_len] at h3
      obtain ⟨m', q', rfl, rfl, hs'⟩ := (triesSeq_lists l _ _ _).1 h3
      exact ⟨m ++ m', q', by simp, by simp, .seqCons hs hs'⟩
    · rintro ⟨m, q, rfl, rfl, h⟩
      cases h with
      | @seqCons _ _ _ m m' q h1 h2 =>
        refine List.mem_flatMap.2 ⟨m.length, (tries_lists n _ _ _).2 ⟨m, m' ++ q, by simp, rfl, h1⟩, ?_⟩
        refine List.mem_map.2 ⟨m'.length, ?_, by simp⟩
        rw [List.append_assoc, take_append_len, drop_append_len]
        exact (triesSeq_lists l _ _ _).2 ⟨m', q, rfl, rfl, h2⟩

theorem triesAlt_lists : ∀ l : List Node, Lists T (.alt l) (triesAlt T l)
  | [] => by
    intro p r k
    rw [triesAlt]
    constructor
    · intro h; cases h
    · rintro ⟨m, q, _, _, h⟩
      cases h with | alt hn _ => cases hn
  | n :: l => by
    intro p r k
    rw [triesAlt, List.mem_append, tries_lists n p r k, triesAlt_lists l p r k]
    constructor
    · rintro (⟨m, q, h1, h2, h⟩ | ⟨m, q, h1, h2, h⟩)
      · exact ⟨m, q, h1, h2, .alt List.mem_cons_self h⟩
      · cases h with
        | alt hn h => exact ⟨m, q, h1, h2, .alt (List.mem_cons_of_mem _ hn) h⟩
    · rintro ⟨m, q, h1, h2, h⟩
      cases h with
      | alt hn h =>
        rcases List.mem_cons.1 hn with rfl | hn
        · exact .inl ⟨m, q, h1, h2, h⟩
        · exact .inr ⟨m, q, h1, h2, .alt hn h⟩

end

/-! ## Bracketing -/

theorem triesSeq_append (l l' : List Node) (p r : Str) : triesSeq T (l ++ l') p r =
    (triesSeq T l p r).flatMap fun k => (triesSeq T l' (p ++ r.take k) (r.drop k)).map (k + ·) := by
  induction l generalizing p r with
  | nil => simp [triesSeq]
  | cons n l ih =>
    simp only [List.cons_append, triesSeq, ih, List.flatMap_assoc, List.map_flatMap, List.flatMap_map, List.map_map,
      List.append_assoc, List.drop_drop, ← List.take_add]
    refine congrArg (fun f => List.flatMap f (tries T n p r)) (funext fun k => ?_)
    refine congrArg (fun f => List.flatMap f (triesSeq T l (p ++ r.take k) (r.drop k))) (funext fun k' => ?_)
    refine congrArg (fun f => List.map f (triesSeq T l' (p ++ r.take (k + k')) (r.drop (k + k')))) (funext fun x => ?_)
    simp [Nat.add_assoc]

theorem triesSeq_one (n : Node) (p r : Str) : triesSeq T [n] p r = tries T n p r := by
  simp [triesSeq]

theorem tries_joined (l : List Node) (p r : Str) : tries T (joined l) p r = triesSeq T l p r := by
  unfold joined
  split
  · rw [triesSeq_one]
  · rw [tries]

mutual

theorem tries_parts : ∀ (n : Node) (p r : Str), tries T n p r = triesSeq T (parts n) p r
  | .eps, p, r => by rw [tries, parts, triesSeq]
  | .set P, p, r => by rw [parts, triesSeq_one]
  | .look l, p, r => by rw [parts, triesSeq_one]
  | .seq l, p, r => by rw [parts, tries, triesSeq_parts l p r]
  | .alt l, p, r => by rw [parts, triesSeq_one, tries, tries, triesAlt_parts l p r]
  | .rep lo hi g n, p, r => by
    rw [parts, triesSeq_one, tries, tries]
    refine congrArg (fun f => repTries f g (lo + hi.getD 0 + r.length + 1) lo hi p r) (funext fun p => funext fun r => ?_)
    rw [tries_parts n p r, tries_joined]
  | .capture name n, p, r => by rw [parts, triesSeq_one, tries, tries, tries_joined, tries_parts n p r]

theorem triesSeq_parts : ∀ (l : List Node) (p r : Str), triesSeq T l p r = triesSeq T (partsAll l) p r
  | [], p, r => by rw [partsAll]
  | n :: l, p, r => by
    rw [partsAll, triesSeq_append, triesSeq, tries_parts n p r]
    refine congrArg (fun f => List.flatMap f (triesSeq T (parts n) p r)) (funext fun k => ?_)
    rw [triesSeq_parts l]

theorem triesAlt_parts : ∀ (l : List Node) (p r : Str), triesAlt T l p r = triesAlt T (joinedEach l) p r
  | [], p, r => by rw [joinedEach]
  | n :: l, p, r => by
    rw [joinedEach, triesAlt, triesAlt, tries_joined, ← tries_parts n p r, triesAlt_parts l p r]

end

end Sds.Re
