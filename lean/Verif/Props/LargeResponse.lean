import Verif.Props.Codec

/-! # C94: large responses -/

namespace Sds.Props

open Spec

/-- C94 for responses shorter than 2^31 bytes: Go receives all of it. -/
theorem C94_whole_partial {sc : Scanner} {event : Bytes} {st : Storage} {ms : List RuleMatch} {r : Bytes}
    (h : scanBinary sc event = Res.ok (st, ms)) (hr : encodeResponse st ms = some r) (hlen : r.length < 2147483648) :
    lowLevelScan sc event = Res.ok (some r) := by
  unfold lowLevelScan
  rw [h]
  dsimp only
  rw [hr]
  dsimp only
  rw [goBytes_small hlen]
  rfl

/-- C94: what happens to every response: of `k * 2^32 + n` bytes, with `n` below 2^32, Go receives the first `n` bytes if `n`
is below 2^31; otherwise the call panics. -/
theorem C94_received {sc : Scanner} {event : Bytes} {st : Storage} {ms : List RuleMatch} {r : Bytes}
    (h : scanBinary sc event = Res.ok (st, ms)) (hr : encodeResponse st ms = some r) {k n : Nat}
    (hlen : r.length = k * 4294967296 + n) (hn : n < 4294967296) :
    (n < 2147483648 → ∃ a b, r = a ++ b ∧ a.length = n ∧ lowLevelScan sc event = Res.ok (some a)) ∧
    (2147483648 ≤ n → lowLevelScan sc event = Res.panic) := by
  have hm : r.length % 4294967296 = n := by omega
  unfold lowLevelScan
  rw [h]
  dsimp only
  rw [hr]
  dsimp only
  unfold goBytes
  rw [hm]
  constructor
  · intro hs
    have h2 : toI32 n = (n : Int) := by unfold toI32; rw [if_pos hs]
    refine ⟨r.take n, r.drop n, (List.take_append_drop _ _).symm, by rw [List.length_take]; omega, ?_⟩
    rw [h2, if_neg (by omega), Int.toNat_natCast]
    rfl
  · intro hs
    have h2 : toI32 n = (n : Int) - 4294967296 := by unfold toI32; rw [if_neg (by omega)]
    rw [h2, if_pos (by omega)]
    rfl

/-- C94: a response whose size is a multiple of 2^32 is lost: `Scan` returns the given text, no matches and no error. -/
theorem C94_lost {sc : Scanner} {text : Bytes} {st : Storage} {ms : List RuleMatch} {r : Bytes}
    (h : scanBinary sc (goEncodeString text) = Res.ok (st, ms)) (hr : encodeResponse st ms = some r) {k : Nat}
    (hlen : r.length = k * 4294967296) : scanString sc text = Res.ok (some ⟨false, text, []⟩) := by
  have h0 : lowLevelScan sc (goEncodeString text) = Res.ok (some []) := by
    obtain ⟨n, hn⟩ : ∃ n : Nat, n = 0 := ⟨0, rfl⟩
    have e1 : r.length = k * 4294967296 + n := by rw [hn, Nat.add_zero]; exact hlen
    have e2 : n < 2147483648 := by clear hlen e1; omega
    have e3 : n < 4294967296 := by clear hlen e1; omega
    obtain ⟨a, b, _, ha, h1⟩ := (C94_received h hr e1 e3).1 e2
    rw [hn] at ha
    rw [h1, List.length_eq_zero_iff.1 ha]
  unfold scanString
  rw [h0]
  rfl

/-! ## A scanner whose replacement is long -/

private def fp : Fingerprint := ⟨fun s => s.length, fun s => s.length⟩

private def seven : Rx := fun s i => if (s.drop i).head? = some '7' then some (i + 1) else none

private def exRule (value : Str) : CRule :=
  RegexRule.toCRule ⟨seven, none, none, none⟩ ⟨.redact value, false⟩ (.excl []) false (fun c => blen c + 1)

private def exLarge (value : Str) : Scanner := ⟨[exRule value], false, false, false, fp⟩

private theorem ops_seven : binaryOps (goEncodeString (utf8 "7".toList)) = Res.ok [.visit ['7']] := by decide +kernel

private theorem visits_seven : visitCombinations (RuleSet.new [.excl []] false) [.visit ['7']] = Res.ok [⟨[], ['7'], [0], []⟩] := by
  decide +kernel

private theorem run_seven (value : Str) : runVisits (exLarge value) [] [⟨[], ['7'], [0], []⟩] [] =
    Res.ok ([⟨[], ['7'], [⟨0, 0, 1⟩]⟩], []) := by
  rfl

private theorem edit_seven (value : Str) : editLeaf (exLarge value) Enc.utf8 [] ⟨[], ['7'], [⟨0, 0, 1⟩]⟩ ['7'] =
    Res.ok (value, [⟨0, [], .placeholder, 0, blen value, (blen value : Int) - 1, none, .notAvailable⟩]) := by
  have h1 : resolve (exLarge value).redacts [⟨0, 0, 1⟩] = [⟨0, 0, 1⟩] := by rfl
  have h2 : applyMutation fp Enc.utf8 (.redact value) ⟨0, 0, 1⟩ ⟨['7'], 0, 0⟩ =
      Res.ok ⟨value, blen value - 1, blen value - 1⟩ := by
    have h3 : applyMutation fp Enc.utf8 (.redact value) ⟨0, 0, 1⟩ ⟨['7'], 0, 0⟩ =
      Res.ok ⟨value ++ [], 0 + (blen value - 1), 0 + (blen value - 1)⟩ := by rfl
    rw [h3, List.append_nil, Int.zero_add]
  have h4 : toUsize (1 + (blen value - 1 : Int)) = Res.ok (blen value) := by
    unfold toUsize
    rw [if_pos (by omega)]
    congr 1
    omega
  have h5 : applyLoop fp Enc.utf8 false [⟨.redact value, false⟩] [] ['7'] [⟨0, 0, 1⟩] ⟨['7'], 0, 0⟩ =
      Res.ok ([⟨0, [], .placeholder, 0, blen value, (blen value : Int) - 1, none, .notAvailable⟩],
        ⟨value, blen value - 1, blen value - 1⟩) := by
    have : applyOne fp Enc.utf8 false [⟨.redact value, false⟩] [] ['7'] ⟨0, 0, 1⟩ ⟨['7'], 0, 0⟩ =
        Res.ok (⟨0, [], .placeholder, 0, blen value, (blen value : Int) - 1, none, .notAvailable⟩,
          ⟨value, blen value - 1, blen value - 1⟩) := by
      have e : applyOne fp Enc.utf8 false [⟨.redact value, false⟩] [] ['7'] ⟨0, 0, 1⟩ ⟨['7'], 0, 0⟩ =
          (applyMutation fp Enc.utf8 (.redact value) ⟨0, 0, 1⟩ ⟨['7'], 0, 0⟩).bind fun s' =>
            (toUsize (1 + s'.cdelta)).bind fun cend =>
              Res.ok (⟨0, [], .placeholder, 0, cend, s'.cdelta, none, .notAvailable⟩, s') := by rfl
      rw [e, h2]
      simp only [Res.bind]
      rw [h4]
    unfold applyLoop
    rw [this]
    rfl
  unfold editLeaf
  have e : (if (exLarge value).multipassEnabled = true then retainMatches (exLarge value) [] ['7'] [⟨0, 0, 1⟩] else
    Res.ok [⟨0, 0, 1⟩]) = Res.ok [⟨0, 0, 1⟩] := by rfl
  dsimp only
  rw [e]
  dsimp only
  rw [h1]
  have e2 : applyLoop (exLarge value).fp Enc.utf8 (exLarge value).returnMatches ((exLarge value).rules.map (·.info)) [] ['7']
      [⟨0, 0, 1⟩] ⟨['7'], 0, 0⟩ = applyLoop fp Enc.utf8 false [⟨.redact value, false⟩] [] ['7'] [⟨0, 0, 1⟩] ⟨['7'], 0, 0⟩ := by
    rfl
  rw [e2, h5]

private theorem scan_seven (value : Str) : scanBinary (exLarge value) (goEncodeString (utf8 "7".toList)) =
    Res.ok ([([], (true, value))], [⟨0, [], .placeholder, 0, blen value, (blen value : Int) - 1, none, .notAvailable⟩]) := by
  unfold scanBinary
  rw [ops_seven]
  dsimp only
  have : RuleSet.new ((exLarge value).rules.map (·.scope)) (exLarge value).wildcards = RuleSet.new [.excl []] false := rfl
  rw [this, visits_seven]
  dsimp only
  rw [run_seven]
  dsimp only
  have h : editLeafB (exLarge value) [] ⟨[], ['7'], [⟨0, 0, 1⟩]⟩ ['7'] = Res.ok (true, value,
      [⟨0, [], .placeholder, 0, blen value, (blen value : Int) - 1, none, .notAvailable⟩]) := by
    unfold editLeafB
    have e : (if (exLarge value).multipassEnabled = true then retainMatches (exLarge value) [] ['7'] [⟨0, 0, 1⟩] else
      Res.ok [⟨0, 0, 1⟩]) = Res.ok [⟨0, 0, 1⟩] := by rfl
    dsimp only
    rw [e]
    dsimp only
    rw [edit_seven]
    rfl
  have e : storageOf [⟨[], ['7'], [⟨0, 0, 1⟩]⟩] = [([], (false, ['7']))] := by rfl
  rw [e]
  unfold editAllB
  have e2 : Storage.get [([], (false, ['7']))] [] = some (false, ['7']) := by rfl
  dsimp only
  rw [e2]
  dsimp only
  rw [h]
  rfl

/-- C94, finding: the text `7` is replaced by the library, but the Go caller is told that nothing matched. -/
theorem C94_silently_lost : ∃ (sc : Scanner) (text : Bytes) (st : Storage) (ms : List RuleMatch) (new : Str),
    scanBinary sc (goEncodeString text) = Res.ok (st, ms) ∧ ms ≠ [] ∧ ([], new) ∈ mutations st ∧ utf8 new ≠ text ∧
    (∀ x ∈ mutations st, MutationFits x) ∧
    scanString sc text = Res.ok (some ⟨false, text, []⟩) := by
  obtain ⟨value, hv⟩ : ∃ value : Str, value = List.replicate 4294967254 '#' := ⟨_, rfl⟩
  have hlen : (utf8 value).length = 4294967254 := by
    have : ∀ n, (utf8 (List.replicate n '#')).length = n := by
      intro n
      induction n with
      | zero => rfl
      | succ n ih =>
        have e : utf8 (List.replicate (n + 1) '#') = 35 :: utf8 (List.replicate n '#') := rfl
        rw [e, List.length_cons, ih]
    rw [hv, this]
  have hmut : mutations [([], (true, value))] = [([], value)] := rfl
  refine ⟨exLarge value, utf8 "7".toList, _, _, value, scan_seven value, by simp, by rw [hmut]; exact List.mem_singleton.2 rfl,
    fun h => ?_, ?_, C94_lost (k := 1) (scan_seven value) rfl ?_⟩
  · rw [h] at hlen
    have : (utf8 "7".toList).length = 1 := by rfl
    omega
  · intro x hx
    rw [hmut, List.mem_singleton] at hx
    subst hx
    refine ⟨by dsimp only; omega, fun s hs => by cases hs⟩
  · rw [List.length_append]
    have h1 : (encodeMatches [⟨0, [], .placeholder, 0, blen value, (blen value : Int) - 1, none, .notAvailable⟩]).length = 36 := by
      rfl
    have h2 : (encodeStorage [([], (true, value))]).length = 6 + (utf8 value).length := by
      simp [encodeStorage, encodeMutation, encodePath, encodeBytes, be32]
      omega
    rw [h1, h2, hlen]

example : ∃ st ms r, scanBinary (exLarge "##".toList) (goEncodeString (utf8 "7".toList)) = Res.ok (st, ms) ∧
    encodeResponse st ms = some r ∧ r.length = 44 :=
  ⟨_, _, _, scan_seven _, rfl, by decide +kernel⟩

end Sds.Props
