import Verif.Props.Codec

/-! # Lemmas: reports, and the size of a response -/

namespace Sds
open Sds Spec Props

theorem mem_reports_iff {units : Str → Nat} {rules : Nat → RuleInfo} {f : Nat → Str → Str} {rm : Bool} {path : Path}
    {o : RuleMatch} : ∀ (ps : List Piece) (inn out : Str), o ∈ reports units rules f rm path inn out ps ↔
      ∃ before q after, ps = before ++ q :: after ∧ o =
        { rule := q.rule, path := path, rtype := kindOf (rules q.rule).action,
          start := units (out ++ output f before q.gap), stop := units (out ++ output f (before ++ [q]) []),
          shift := (units (out ++ output f (before ++ [q]) []) : Int) - units (inn ++ input (before ++ [q]) []),
          value := if rm then some q.text else none,
          status := if (rules q.rule).hasValidation then .notChecked else .notAvailable }
  | [], inn, out => by simp [reports]
  | p :: ps, inn, out => by
    simp only [reports, List.mem_cons]
    rw [mem_reports_iff ps]
    constructor
    · rintro (rfl | ⟨before, q, after, rfl, rfl⟩)
      · exact ⟨[], p, ps, rfl, by simp [output, input]⟩
      · exact ⟨p :: before, q, after, rfl, by simp [output, input]⟩
    · rintro ⟨before, q, after, h, rfl⟩
      cases before with
      | nil =>
        obtain ⟨rfl, rfl⟩ := List.cons.inj h
        exact .inl (by simp [output, input])
      | cons b before =>
        obtain ⟨rfl, rfl⟩ := List.cons.inj h
        exact .inr ⟨before, q, after, rfl, by simp [output, input]⟩

/-- Sums over a list without duplicates and over a list that contains its elements. -/
theorem sum_le_of_subset {α : Type} (f : α → Nat) : ∀ {l k : List α}, l.Nodup → (∀ x ∈ l, x ∈ k) →
    (l.map f).sum ≤ (k.map f).sum
  | [], _, _, _ => by simp
  | x :: l, k, hn, hs => by
    obtain ⟨h1, h2⟩ := List.nodup_cons.1 hn
    obtain ⟨k1, k2, rfl⟩ := List.append_of_mem (hs x List.mem_cons_self)
    have := sum_le_of_subset f (k := k1 ++ k2) h2 (by
      intro y hy
      have hy' := hs y (List.mem_cons_of_mem _ hy)
      rw [List.mem_append, List.mem_cons] at hy'
      rw [List.mem_append]
      rcases hy' with h | rfl | h
      · exact .inl h
      · exact absurd hy h1
      · exact .inr h)
    simp at this ⊢
    omega

theorem encodeStorage_length (st : Storage) : (encodeStorage st).length =
    ((mutations st).map fun x => 6 + (encodePath x.1).length + blen x.2).sum := by
  induction st with
  | nil => rfl
  | cons x st ih =>
    obtain ⟨p, m, c⟩ := x
    cases m with
    | false => simpa [encodeStorage, mutations] using ih
    | true =>
      simp only [encodeStorage, if_true, List.length_append]
      rw [ih]
      simp [mutations, encodeMutation, encodeBytes, be32, utf8_length]
      omega

theorem encodeMatch_length (m : RuleMatch) : (encodeMatch m).length ≤ 42 + blen (displayPath m.path) := by
  have : (utf8 m.rtype.text).length ≤ 17 := by cases m.rtype <;> decide
  simp [encodeMatch, encodeBytes, be32, utf8_length] at this ⊢
  omega

theorem encodeMatches_length (k : Nat) : ∀ (ms : List RuleMatch), (∀ m ∈ ms, blen (displayPath m.path) ≤ k) →
    (encodeMatches ms).length ≤ ms.length * (42 + k)
  | [], _ => by simp [encodeMatches]
  | m :: ms, h => by
    have h1 := encodeMatch_length m
    have h2 := encodeMatches_length k ms (fun x hx => h x (List.mem_cons_of_mem _ hx))
    have h3 := h m List.mem_cons_self
    simp only [encodeMatches, List.length_append, List.length_cons, Nat.succ_mul]
    omega

theorem encodeMatches_append (a b : List RuleMatch) : encodeMatches (a ++ b) = encodeMatches a ++ encodeMatches b := by
  induction a with
  | nil => rfl
  | cons m a ih => simp [encodeMatches, ih]

/-- A bound on the size of the response, string by string. -/
theorem response_small {sc : Scanner} (hok : ScannerOk sc) (ev : GoFields) (hk : GoKeyed (.map ev))
    (hs : GoSized (.map ev)) (hu : KeysUtf8 (.map ev))
    (hret : ∀ rule ∈ sc.rules, ∀ p b, GoAt (.map ev) (goPath p) (.str b) → ∀ ex, ∃ f, rule.run (lossy b) p ex = Res.ok f)
    (cost : Leaf → Nat)
    (hcost : ∀ leaves, LeavesOf (.map ev) leaves → ∀ l ∈ leaves, ∀ os new, LeafResult Enc.utf8 sc [] leaves l os new →
      6 + (encodePath l.path).length + blen new + os.length * (42 + blen (displayPath l.path)) ≤ cost l)
    (hsum : ∀ leaves, LeavesOf (.map ev) leaves → (leaves.map cost).sum < 2147483648) :
    ∀ b, (GoVal.map ev).encode = some b → ResponseFits sc b := by
  have htot : Returns sc ((GoVal.map ev).toEv.leaves false) := by
    intro rule hr l hl ex
    obtain ⟨_, b, hb, ht⟩ := (mem_leaves_go hu).1 hl
    rw [ht]
    exact hret rule hr _ _ hb ex
  obtain ⟨bytes, out, st, henc, hscan, hout, hst, hmut⟩ := scanBinary_spec hok hk hs hu htot
  have hnd := jsonEvent_lawful.nodup _ ((GoVal.map ev).wellKeyed hk hu)
  have hleaves : LeavesOf (.map ev) ((GoVal.map ev).toEv.leaves false) := ⟨hnd, fun l => mem_leaves_go hu⟩
  have hres := fun l hl => leafOut_result jsonEvent_lawful.enc hok (hout l hl)
  generalize hL : (GoVal.map ev).toEv.leaves false = leaves at *
  have hpaths : ∀ l ∈ leaves, ∀ o ∈ (out l).1, o.path = l.path := by
    intro l hl o ho
    obtain ⟨ks, res, ps, tail, _, _, _, _, _, hos, _⟩ := hres l hl
    rw [hos] at ho
    obtain ⟨_, _, _, _, rfl⟩ := (mem_reports_iff ps [] []).1 ho
    rfl
  have hms : ∀ k : List Leaf, (∀ l ∈ k, l ∈ leaves) → (encodeMatches (k.flatMap fun l => (out l).1)).length ≤
      (k.map fun l => (out l).1.length * (42 + blen (displayPath l.path))).sum := by
    intro k
    induction k with
    | nil => intro _; simp [encodeMatches]
    | cons l k ih =>
      intro hk'
      have h1 := ih (fun x hx => hk' x (List.mem_cons_of_mem _ hx))
      have h2 := encodeMatches_length (blen (displayPath l.path)) (out l).1 (fun o ho => by
        rw [hpaths l (hk' l List.mem_cons_self) o ho]
        exact Nat.le_refl _)
      simp only [List.flatMap_cons, encodeMatches_append, List.length_append, List.map_cons, List.sum_cons]
      omega
  have hst' : (encodeStorage st).length ≤ (leaves.map fun l => 6 + (encodePath l.path).length + blen (out l).2).sum := by
    rw [encodeStorage_length]
    have hn : (mutations st).Nodup := by
      have := (mutations_keys st).nodup hst
      exact (List.pairwise_map.1 (show List.Pairwise (· ≠ ·) _ from this)).imp (fun h he => h (by rw [he]))
    refine Nat.le_trans (sum_le_of_subset _ (k := leaves.map fun l => (l.path, (out l).2)) hn ?_) ?_
    · rintro ⟨p, s⟩ hx
      obtain ⟨l, hl, rfl, _, rfl⟩ := (hmut p s).1 hx
      exact List.mem_map.2 ⟨l, hl, rfl⟩
    · rw [List.map_map]
      exact Nat.le_refl _
  have hle : (leaves.map fun l => 6 + (encodePath l.path).length + blen (out l).2).sum +
      (leaves.map fun l => (out l).1.length * (42 + blen (displayPath l.path))).sum ≤ (leaves.map cost).sum := by
    have : ∀ k : List Leaf, (∀ l ∈ k, l ∈ leaves) →
        (k.map fun l => 6 + (encodePath l.path).length + blen (out l).2).sum +
        (k.map fun l => (out l).1.length * (42 + blen (displayPath l.path))).sum ≤ (k.map cost).sum := by
      intro k
      induction k with
      | nil => intro _; simp
      | cons l k ih =>
        intro hk'
        have h1 := ih (fun x hx => hk' x (List.mem_cons_of_mem _ hx))
        have h2 := hcost leaves hleaves l (hk' l List.mem_cons_self) _ _ (hres l (hk' l List.mem_cons_self))
        simp only [List.map_cons, List.sum_cons]
        omega
    exact this leaves (fun _ h => h)
  intro b hb
  rw [henc] at hb
  cases hb
  intro st' ms r h3 h4
  rw [hscan] at h3
  cases h3
  unfold encodeResponse at h4
  split at h4
  · cases h4
  · cases h4
    have h1 := hms leaves (fun _ h => h)
    have h2 := hsum leaves hleaves
    rw [List.length_append]
    omega

end Sds
