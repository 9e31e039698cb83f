import Verif.Spec.Growth
import Verif.Props.Undo

/-! # C113: what a scan returns is bounded by what it is given -/

namespace Sds.Props
open Sds Spec

private theorem blen_stars' (n : Nat) : blen (List.replicate n '*') = n := by
  induction n with
  | zero => rfl
  | succ n ih => rw [List.replicate_succ, blen_cons, ih]; have : '*'.utf8Size = 1 := by decide
                 omega

private theorem hex_size : ∀ (fuel n : Nat) (cs : Str), (∀ c ∈ cs, c.utf8Size = 1) → ∀ c ∈ Nat.toDigitsCore 16 fuel n cs, c.utf8Size = 1
  | 0, _, _, h => h
  | fuel + 1, n, cs, h => by
    have hd : ∀ d < 16, (Nat.digitChar d).utf8Size = 1 := by decide +kernel
    have hcs : ∀ c ∈ Nat.digitChar (n % 16) :: cs, c.utf8Size = 1 := by
      intro c hc
      rcases List.mem_cons.1 hc with rfl | hc
      · exact hd _ (Nat.mod_lt _ (by omega))
      · exact h c hc
    intro c hc
    rw [Nat.toDigitsCore] at hc
    split at hc
    · exact hcs c hc
    · exact hex_size fuel _ _ hcs c hc

private theorem blen_hex {n : Nat} (h : n < 2 ^ 64) : blen (Nat.toDigits 16 n) ≤ 16 := by
  have h1 : (Nat.toDigits 16 n).length ≤ 16 := (Nat.length_toDigits_le_iff (by omega) (by omega)).2 (by omega)
  have h2 : ∀ l : Str, (∀ c ∈ l, c.utf8Size = 1) → blen l = l.length := by
    intro l
    induction l with
    | nil => intro _; rfl
    | cons c l ih =>
      intro h
      rw [blen_cons, ih fun x hx => h x (List.mem_cons_of_mem _ hx), h c List.mem_cons_self, List.length_cons]
      omega
  rw [h2 _ fun c hc => ?_]
  · exact h1
  · exact hex_size _ _ _ (fun c hc => by cases hc) c hc

private theorem redacted_le {fp : Fingerprint} (hfp : Bits64 fp) (a : Action) (t : Str) : blen (redacted fp a t) ≤ blen t + putsIn a ∧
    (t ≠ [] → ∀ K, 1 ≤ K → putsIn a ≤ K → blen (redacted fp a t) ≤ K * blen t) := by
  have key : ∀ x y : Nat, (x ≤ y ∨ x ≤ putsIn a) → y = blen t → x ≤ y + putsIn a ∧ (t ≠ [] → ∀ K, 1 ≤ K → putsIn a ≤ K → x ≤ K * y) := by
    intro x y hx hy
    refine ⟨by omega, fun ht K h1 hK => ?_⟩
    have hpos : 1 ≤ y := hy ▸ blen_pos ht
    rcases hx with hx | hx
    · exact Nat.le_trans hx (Nat.le_mul_of_pos_left _ h1)
    · exact Nat.le_trans (Nat.le_trans hx hK) (Nat.le_mul_of_pos_right _ hpos)
  refine key _ _ ?_ rfl
  cases a with
  | none => exact .inl (Nat.le_refl _)
  | redact r => exact .inr (Nat.le_refl _)
  | hash => exact .inr (blen_hex (hfp t).1)
  | utf16Hash => exact .inr (blen_hex (hfp t).2)
  | partialFirst n =>
    simp only [redacted, putsIn, blen_append, blen_stars']
    by_cases h : t.length ≤ n
    · right; rw [List.drop_eq_nil_of_le h]; simp
    · left
      have h1 := length_le_blen (t.take n)
      rw [List.length_take] at h1
      have h2 : blen t = blen (t.take n) + blen (t.drop n) := by rw [← blen_append, List.take_append_drop]
      omega
  | partialLast n =>
    simp only [redacted, putsIn, blen_append, blen_stars']
    by_cases h : t.length ≤ n
    · right; rw [Nat.sub_eq_zero_of_le h]; simp
    · left
      have h1 := length_le_blen (t.drop (t.length - n))
      rw [List.length_drop] at h1
      have h2 : blen t = blen (t.take (t.length - n)) + blen (t.drop (t.length - n)) := by
        rw [← blen_append, List.take_append_drop]
      omega

private theorem reports_length {units : Str → Nat} {I : Nat → RuleInfo} {f : Nat → Str → Str} {rm : Bool} {path : Path} :
    ∀ (ps : List Piece) (inn out : Str), (reports units I f rm path inn out ps).length = ps.length
  | [], _, _ => rfl
  | p :: ps, inn, out => by rw [reports, List.length_cons, List.length_cons, reports_length ps]

private theorem reports_values {units : Str → Nat} {I : Nat → RuleInfo} {f : Nat → Str → Str} {rm : Bool} {path : Path} (tail : Str) :
    ∀ (ps : List Piece) (inn out : Str), valueBytes (reports units I f rm path inn out ps) ≤ blen (input ps tail)
  | [], _, _ => Nat.zero_le _
  | p :: ps, inn, out => by
    have h := reports_values (units := units) (I := I) (f := f) (rm := rm) (path := path) tail ps (inn ++ p.gap ++ p.text)
      (out ++ p.gap ++ f p.rule p.text)
    simp only [valueBytes, reports, List.map_cons, List.sum_cons, input, blen_append] at h ⊢
    cases rm <;> simp at h ⊢ <;> omega

private theorem pieces_texts {ps : List Piece} : ∀ {o : Nat}, (∀ m ∈ ranges o ps, m.st < m.en) → ∀ p ∈ ps, p.text ≠ [] := by
  induction ps with
  | nil => intro _ _ p hp; cases hp
  | cons q ps ih =>
    intro o h p hp
    rcases List.mem_cons.1 hp with rfl | hp
    · intro he
      have := h _ List.mem_cons_self
      rw [he] at this
      simp at this
    · exact ih (fun m hm => h m (List.mem_cons_of_mem _ hm)) p hp

private theorem pieces_chars {ps : List Piece} {tail : Str} (h : ∀ p ∈ ps, p.text ≠ []) : ps.length ≤ (input ps tail).length := by
  induction ps with
  | nil => exact Nat.zero_le _
  | cons p ps ih =>
    have h1 := ih fun q hq => h q (List.mem_cons_of_mem _ hq)
    have h2 := List.length_pos_iff.2 (h p List.mem_cons_self)
    simp only [input, List.length_cons, List.length_append]
    omega

private theorem output_le {fp : Fingerprint} (hfp : Bits64 fp) {A : Nat → Action} {K : Nat} (hA : ∀ r, putsIn (A r) ≤ K) {ps : List Piece}
    {tail : Str} (h : ∀ p ∈ ps, p.text ≠ []) :
    blen (output (fun r t => redacted fp (A r) t) ps tail) ≤ blen (input ps tail) + K * ps.length ∧
    (1 ≤ K → blen (output (fun r t => redacted fp (A r) t) ps tail) ≤ K * blen (input ps tail)) := by
  induction ps with
  | nil => exact ⟨Nat.le_add_right _ _, fun hK => Nat.le_mul_of_pos_left _ hK⟩
  | cons p ps ih =>
    obtain ⟨h1, h2⟩ := ih fun q hq => h q (List.mem_cons_of_mem _ hq)
    obtain ⟨h3, h4⟩ := redacted_le hfp (A p.rule) p.text
    have hp := hA p.rule
    refine ⟨?_, fun hK => ?_⟩
    · simp only [input, output, List.length_cons, blen_append, Nat.mul_add, Nat.mul_one]
      omega
    · have h2 := h2 hK
      have h4 := h4 (h p List.mem_cons_self) K hK hp
      have h5 : blen p.gap ≤ K * blen p.gap := Nat.le_mul_of_pos_left _ hK
      simp only [input, output, blen_append, Nat.mul_add]
      omega

private theorem putsIn_infoOf {sc : Scanner} {K : Nat} (hK : ∀ rule ∈ sc.rules, putsIn rule.info.action ≤ K) (r : Nat) :
    putsIn (infoOf sc r).action ≤ K := by
  unfold infoOf
  cases h : sc.rules[r]? with
  | none => exact Nat.zero_le _
  | some rule => exact hK rule (List.mem_of_getElem? h)

private theorem sum_le {α : Type} {f g : α → Nat} : ∀ {l : List α}, (∀ a ∈ l, f a ≤ g a) → (l.map f).sum ≤ (l.map g).sum
  | [], _ => Nat.le_refl _
  | a :: l, h => by
    rw [List.map_cons, List.map_cons, List.sum_cons, List.sum_cons]
    exact Nat.add_le_add (h a List.mem_cons_self) (sum_le fun b hb => h b (List.mem_cons_of_mem _ hb))

private theorem sum_add {α : Type} (f g : α → Nat) : ∀ l : List α, (l.map fun a => f a + g a).sum = (l.map f).sum + (l.map g).sum
  | [] => rfl
  | a :: l => by
    simp only [List.map_cons, List.sum_cons, sum_add f g l]
    omega

private theorem sum_mul {α : Type} (K : Nat) (f : α → Nat) : ∀ l : List α, (l.map fun a => K * f a).sum = K * (l.map f).sum
  | [] => rfl
  | a :: l => by simp only [List.map_cons, List.sum_cons, sum_mul K f l, Nat.mul_add]

private theorem valueBytes_flatMap {α : Type} (f : α → List RuleMatch) : ∀ l : List α,
    valueBytes (l.flatMap f) = (l.map fun a => valueBytes (f a)).sum
  | [] => rfl
  | a :: l => by
    have := valueBytes_flatMap f l
    unfold valueBytes at this ⊢
    rw [List.flatMap_cons, List.map_append, List.sum_append, this, List.map_cons, List.sum_cons]

section
variable {E : Type} {impl : EventImpl E} {wf : E → Prop} {leavesOf : E → List Leaf} {rew : (Path → Str → Str) → E → E}

/-- C113: a scan reports at most one match per character of the event, returns no more bytes as values than there are in the event,
and the redacted event has at most `K` bytes more per reported match, and at most `K` times as many bytes in all, if no rule puts in
more than `K` bytes. -/
theorem C113_bounded (hE : LawfulEvent impl wf leavesOf rew) {sc : Scanner} (hok : ScannerOk sc) (hfp : Bits64 sc.fp) {K : Nat}
    (hK : ∀ rule ∈ sc.rules, putsIn rule.info.action ≤ K) (blocked : List Nat) (e : E) (hs : Scannable wf leavesOf sc blocked e) :
    ∃ after os, scan impl sc e blocked = Res.ok (after, os) ∧
      os.length ≤ charsOf (leavesOf e) ∧
      valueBytes os ≤ bytesOf (leavesOf e) ∧
      bytesOf (leavesOf after) ≤ bytesOf (leavesOf e) + K * os.length ∧
      (1 ≤ K → bytesOf (leavesOf after) ≤ K * bytesOf (leavesOf e)) := by
  obtain ⟨out, G, h1, h2⟩ := C10_scan_result hE hok blocked e hs
  have key : ∀ l ∈ leavesOf e, (out l).1.length ≤ l.text.length ∧ valueBytes (out l).1 ≤ blen l.text ∧
      blen (out l).2 ≤ blen l.text + K * (out l).1.length ∧ (1 ≤ K → blen (out l).2 ≤ K * blen l.text) := by
    intro l hl
    obtain ⟨ks, res, ps, tail, a1, a2, _, a4, a5, a6, a7⟩ := (h2 l hl).1
    have hne : ∀ p ∈ ps, p.text ≠ [] := by
      refine pieces_texts (o := 0) fun m hm => ?_
      rw [← a5] at hm
      exact (((a1 m).1 (a2.1 m hm)).1.bounds hok).1
    have hout := output_le hfp (A := fun r => (infoOf sc r).action) (putsIn_infoOf hK) (tail := tail) hne
    have hlen : (out l).1.length = ps.length := by rw [a6, reports_length]
    rw [hlen, a7, a4]
    refine ⟨pieces_chars hne, ?_, hout.1, hout.2⟩
    rw [a6]
    exact reports_values tail ps [] []
  have hafter : leavesOf (rew G e) = (leavesOf e).map fun l => if l.fixed then l else { l with text := (out l).2 } := by
    rw [hE.leaves_rew]
    refine List.map_congr_left fun l hl => ?_
    rw [(h2 l hl).2]
  have hbytes : bytesOf (leavesOf (rew G e)) = ((leavesOf e).map fun l => if l.fixed then blen l.text else blen (out l).2).sum := by
    rw [hafter, bytesOf, List.map_map]
    congr 1
    refine List.map_congr_left fun l _ => ?_
    show blen (if l.fixed then l else { l with text := (out l).2 }).text = _
    split <;> rfl
  refine ⟨_, _, h1, ?_, ?_, ?_, fun h => ?_⟩
  · rw [List.length_flatMap]
    exact sum_le fun l hl => (key l hl).1
  · rw [valueBytes_flatMap]
    exact sum_le fun l hl => (key l hl).2.1
  · rw [hbytes, List.length_flatMap, bytesOf, ← sum_mul, ← sum_add]
    refine sum_le fun l hl => ?_
    split
    · exact Nat.le_add_right _ _
    · exact (key l hl).2.2.1
  · rw [hbytes, bytesOf, ← sum_mul]
    refine sum_le fun l hl => ?_
    split
    · exact Nat.le_mul_of_pos_left _ h
    · exact (key l hl).2.2.2 h

end

/-! ## Example -/

private def fp : Fingerprint := ⟨fun s => s.length % 2 ^ 64, fun s => s.length % 2 ^ 64⟩

private theorem fp_bits : Bits64 fp := fun t => ⟨Nat.mod_lt _ (by decide), Nat.mod_lt _ (by decide)⟩

private def rl (t : String) (a : Action) : CRule :=
  RegexRule.toCRule ⟨textRx t.toList, none, none, none⟩ ⟨a, false⟩ (.excl []) false (fun c => blen c + 1)

private def sc4 : Scanner := ⟨[rl "a" (.redact "####".toList), rl "bb" (.partialFirst 3)], false, false, true, fp⟩

private theorem rl_ok {t : String} (ht : t.toList ≠ []) {a : Action} (ha : a ≠ .partialFirst 0 ∧ a ≠ .partialLast 0) :
    RuleOk (rl t a) :=
  regexRule_ok (textRx_ok _ ht).1 (textRx_ok _ ht).2 (by intro k hk; cases hk) (by intro c; omega) ha _ false

private theorem rl_returns {t : String} (ht : t.toList ≠ []) (a : Action) (c : Str) (p : Path) (ex : Bool) :
    ∃ f, (rl t a).run c p ex = Res.ok f :=
  stringMatches_returns (r := ⟨textRx _, none, none, none⟩) (textRx_ok _ ht).1 (textRx_ok _ ht).2
    (by intro k hk; cases hk) false ex (by intro _ x hx; cases hx) p (Nat.lt_succ_self _)

private theorem sc4_ok : ScannerOk sc4 := by
  intro rule h
  simp only [sc4, List.mem_cons, List.not_mem_nil, or_false] at h
  rcases h with rfl | rfl
  · exact rl_ok (by simp) (by simp)
  · exact rl_ok (by simp) (by simp)

private theorem sc4_scannable (s : String) : Scannable WellKeyed (Ev.leaves false) sc4 [] (.str s.toList) := by
  refine ⟨by simp [WellKeyed], ?_, ?_⟩
  · intro rule h l _ ex
    simp only [sc4, List.mem_cons, List.not_mem_nil, or_false] at h
    rcases h with rfl | rfl
    · exact rl_returns (by simp) _ _ _ _
    · exact rl_returns (by simp) _ _ _ _
  · intro l hl hf
    simp only [Ev.leaves, List.mem_singleton] at hl
    subst hl
    cases hf

private def sizes (r : Res (Ev × List RuleMatch)) : Res (Nat × Nat × Nat) :=
  r.map fun x => (bytesOf (x.1.leaves false), x.2.length, valueBytes x.2)

/-- The hypotheses are met, and every bound can be reached: five bytes become twenty, by five matches. -/
example : LawfulEvent jsonEvent WellKeyed (Ev.leaves false) rewrite ∧ ScannerOk sc4 ∧ Bits64 sc4.fp ∧
    (∀ rule ∈ sc4.rules, putsIn rule.info.action ≤ 4) ∧ Scannable WellKeyed (Ev.leaves false) sc4 [] (.str "aaaaa".toList) ∧
    sizes (scan jsonEvent sc4 (.str "aaaaa".toList) []) = Res.ok (20, 5, 5) := by
  refine ⟨jsonEvent_lawful, sc4_ok, fp_bits, ?_, sc4_scannable _, by decide +kernel⟩
  intro rule h
  simp only [sc4, List.mem_cons, List.not_mem_nil, or_false] at h
  rcases h with rfl | rfl <;> decide

/-- Finding (C113): partial redaction can make a text longer: a match of two characters becomes three asterisks, if the rule hides
the first three. -/
theorem C113_partial_grows : sizes (scan jsonEvent sc4 (.str "bb".toList) []) = Res.ok (3, 1, 2) := by
  decide +kernel

end Sds.Props
