import Verif.Lemmas.GoHeap
import Verif.Props.Codec
import Verif.Props.EndToEnd
import Verif.Props.Path

/-! # C97: events with shared parts -/

namespace Sds.Props
open Sds Spec

/-! ## The order of the mutations -/

private theorem insertNew_sorted {p : Path} {v : Bool × Str} : ∀ {st : Storage},
    st.Pairwise (fun x y => pathLt x.1 y.1 = true) → (Storage.insertNew st p v).Pairwise (fun x y => pathLt x.1 y.1 = true) ∧
      ∀ x ∈ Storage.insertNew st p v, x.1 = p ∨ x ∈ st
  | [], _ => ⟨by simp [Storage.insertNew], by simp [Storage.insertNew]⟩
  | (q, w) :: rest, h => by
    have ho := C58_path_order
    rw [Storage.insertNew]
    split
    · exact ⟨h, fun x hx => .inr hx⟩
    · next hne =>
      split
      · next hlt =>
        refine ⟨List.pairwise_cons.2 ⟨fun y hy => ?_, h⟩, fun x hx => ?_⟩
        · rcases List.mem_cons.1 hy with rfl | hy
          · exact hlt
          · exact ho.trans _ _ _ hlt ((List.pairwise_cons.1 h).1 y hy)
        · rcases List.mem_cons.1 hx with rfl | hx
          · exact .inl rfl
          · exact .inr hx
      · next hlt =>
        obtain ⟨h1, h2⟩ := List.pairwise_cons.1 h
        obtain ⟨i1, i2⟩ := insertNew_sorted (p := p) (v := v) h2
        refine ⟨List.pairwise_cons.2 ⟨fun y hy => ?_, i1⟩, fun x hx => ?_⟩
        · rcases i2 y hy with e | hy
          · rw [e]
            rcases ho.total q p with h3 | h3 | h3
            · exact h3
            · exact absurd h3.symm hne
            · exact absurd h3 hlt
          · exact h1 y hy
        · rcases List.mem_cons.1 hx with rfl | hx
          · exact .inr List.mem_cons_self
          · rcases i2 x hx with e | hx
            · exact .inl e
            · exact .inr (List.mem_cons_of_mem _ hx)

private theorem storageOf_sorted (pms : List PathMatches) :
    (storageOf pms).Pairwise (fun x y => pathLt x.1 y.1 = true) := by
  unfold storageOf
  suffices h : ∀ st : Storage, st.Pairwise (fun x y => pathLt x.1 y.1 = true) →
      (pms.foldl (fun st pm => Storage.insertNew st pm.path (false, pm.content)) st).Pairwise
        (fun x y => pathLt x.1 y.1 = true) from h [] .nil
  induction pms with
  | nil => exact fun st h => h
  | cons pm pms ih => exact fun st h => ih _ (insertNew_sorted h).1

private theorem editAllB_keys {sc : Scanner} {ex : List Str} : ∀ (pms : List PathMatches) (st st' : Storage) (os : List RuleMatch),
    editAllB sc ex pms st = Res.ok (st', os) → st'.map (·.1) = st.map (·.1)
  | [], st, st', os, h => by
    injection h with h
    injection h with h1 _
    rw [h1]
  | pm :: pms, st, st', os, h => by
    rw [editAllB] at h
    split at h
    · cases h
    · split at h
      · cases h
      · cases h
      · split at h
        · cases h
        · cases h
        · next h1 =>
          injection h with h
          injection h with h2 _
          rw [← h2, editAllB_keys pms _ _ _ h1, storage_set_keys]

private theorem scanBinary_sorted {sc : Scanner} {bytes : Bytes} {st : Storage} {os : List RuleMatch}
    (h : scanBinary sc bytes = Res.ok (st, os)) : (mutations st).Pairwise (fun x y => pathLt x.1 y.1 = true) := by
  unfold scanBinary at h
  split at h
  · cases h
  · cases h
  · split at h
    · cases h
    · cases h
    · split at h
      · cases h
      · cases h
      · next l _ _ =>
        have hk := editAllB_keys _ _ _ _ h
        have hs : (st.map (·.1)).Pairwise (fun x y => pathLt x y = true) := by
          rw [hk, List.pairwise_map]; exact storageOf_sorted l
        rw [← List.pairwise_map (f := fun x : Path × Str => x.1) (R := fun x y => pathLt x y = true)]
        exact hs.sublist (mutations_keys st)

/-! ## The scan -/

/-- The same string seen on two paths is treated alike, if the candidates are the same. -/
private theorem leafOut_move {sc : Scanner} (hok : ScannerOk sc) {leaves : List Leaf} {l l' : Leaf} {os os' : List RuleMatch}
    {new new' : Str} (h : LeafOut jsonEvent sc [] leaves l os new) (h' : LeafOut jsonEvent sc [] leaves l' os' new')
    (ht : l'.text = l.text) (hc : ∀ m, Candidate sc [] l.path l.text m ↔ Candidate sc [] l'.path l'.text m) :
    new' = new ∧ os'.map (·.rule) = os.map (·.rule) := by
  obtain ⟨ks, h1, h2⟩ := h
  have hk' : ∀ m, m ∈ ks ↔ Kept sc [] leaves l'.path l'.text m := fun m => by
    rw [h1 m, Kept, Kept, hc m, ht]
  have hcand : ∀ m ∈ ks, Candidate sc [] l.path l.text m := fun m hm => ((h1 m).1 hm).1
  have hne : ∀ m ∈ ks, m.st < m.en := fun m hm => ((hcand m hm).bounds hok).1
  have hres : IsResolution sc.redacts ks (resolve sc.redacts ks) :=
    resolveWith_isResolution (sortsBy_prio _) sortsBy_start ks hne
  have hord : (resolve sc.redacts ks).Pairwise (fun a b => a.en ≤ b.st) :=
    Props.C01_reports_disjoint (sortsBy_prio _) sortsBy_start ks hne
  have hvr : ValidRanges l.text (resolve sc.redacts ks) := ⟨fun m hm => by
    have := (hcand m (hres.1 m hm)).bounds hok
    exact ⟨Nat.le_of_lt this.1, this.2⟩, hord⟩
  have hval : ValidRules (sc.rules.map (·.info)) (resolve sc.redacts ks) :=
    fun m hm => validRules_of_candidates hok hcand m (hres.1 m hm)
  obtain ⟨ps, tail, hti, hr⟩ := exists_pieces hvr
  have hspec := fun path => applyMatchActions_spec sc.fp jsonEvent_lawful.enc sc.returnMatches (sc.rules.map (·.info))
    (ruleAt (sc.rules.map (·.info))) path tail ps (rulesOk_of_valid (hr ▸ hval))
  have e1 := hspec l.path
  rw [← hti, ← hr, h2] at e1
  have e2 := hspec l'.path
  rw [← hti, ← hr, ← ht] at e2
  obtain ⟨e3, e4⟩ := leafOut_unique hok (fun _ => Iff.rfl) h' ⟨ks, hk', e2⟩
  have hrules : ∀ {path : Path} {c : Str} {os : List RuleMatch} {new : Str},
      applyMatchActions sc.fp jsonEvent.enc sc.returnMatches (sc.rules.map (·.info)) path c (resolve sc.redacts ks) =
        Res.ok (os, new) → os.map (·.rule) = (resolve sc.redacts ks).map (·.rule) := by
    intro path c os new h
    unfold applyMatchActions at h
    cases hl : applyLoop sc.fp jsonEvent.enc sc.returnMatches (sc.rules.map (·.info)) path c (resolve sc.redacts ks) ⟨c, 0, 0⟩ with
    | panic => rw [hl] at h; cases h
    | hang => rw [hl] at h; cases h
    | ok x =>
      obtain ⟨os1, s⟩ := x
      rw [hl] at h
      injection h with h
      injection h with h _
      rw [← h]
      exact applyLoop_rules _ _ _ _ hl
  injection e1 with e1
  injection e1 with _ e5
  rw [e3, e4, e5]
  exact ⟨rfl, by rw [hrules e2, hrules h2]⟩

private theorem exists_last {α : Type} (P : α → Prop) : ∀ (l : List α), (∃ x ∈ l, P x) →
    ∃ pre x post, l = pre ++ x :: post ∧ P x ∧ ∀ y ∈ post, ¬ P y
  | [], h => by obtain ⟨x, hx, _⟩ := h; cases hx
  | a :: l, h => by
    by_cases hl : ∃ x ∈ l, P x
    · obtain ⟨pre, x, post, rfl, h1, h2⟩ := exists_last P l hl
      exact ⟨a :: pre, x, post, rfl, h1, h2⟩
    · obtain ⟨x, hx, hp⟩ := h
      rcases List.mem_cons.1 hx with rfl | hx
      · exact ⟨[], x, l, rfl, hp, fun y hy hpy => hl ⟨y, hy, hpy⟩⟩
      · exact absurd ⟨x, hx, hp⟩ hl

/-- A string of the event has a reported match of a redacting rule. -/
def Redacted (sc : Scanner) (out : Leaf → List RuleMatch × Str) (l : Leaf) : Prop :=
  ∃ o ∈ (out l).1, redacting sc o.rule = true

private theorem scanShared_spec {sc : Scanner} (hok : ScannerOk sc) {h : GoHeap} {root : Nat} {ev : GoFields}
    (hk : HeapKeyed h) (hun : Unfolds h (.map root) (.map ev)) (hs : GoSized (.map ev)) (hu : KeysUtf8 (.map ev))
    (hret : ∀ rule ∈ sc.rules, ∀ p b, RefAt h (.map root) (goPath p) (.str b) → ∀ ex, ∃ f, rule.run (lossy b) p ex = Res.ok f)
    (hresp : ∀ b, (GoVal.map ev).encode = some b → ResponseFits sc b) :
    ∃ (leaves : List Leaf) (out : Leaf → List RuleMatch × Str), LeavesOf (.map ev) leaves ∧
      (∀ l ∈ leaves, LeafOut jsonEvent sc [] leaves l (out l).1 (out l).2) ∧
      ((∀ l ∈ leaves, (utf8 (out l).2).length < 4294967296 ∧ ∀ o ∈ (out l).1, Fits o) →
        ∃ h' r, scanShared sc h root ev = Res.ok (some (h', r)) ∧
          r.matches_ = (leaves.flatMap fun l => (out l).1).map goMatch ∧
          (r.mutated = true ↔ ∃ l ∈ leaves, Redacted sc out l) ∧ SameShape h h' ∧
          (∀ c, (∀ l ∈ leaves, Redacted sc out l → ¬ PlaceAt h (.map root) (goPath l.path) c) → ∀ w, Holds h' c w ↔ Holds h c w) ∧
          ∀ c, (∃ l ∈ leaves, Redacted sc out l ∧ PlaceAt h (.map root) (goPath l.path) c) →
            ∃ l ∈ leaves, Redacted sc out l ∧ PlaceAt h (.map root) (goPath l.path) c ∧
              (∀ l' ∈ leaves, Redacted sc out l' → PlaceAt h (.map root) (goPath l'.path) c →
                l' = l ∨ pathLt l'.path l.path = true) ∧
              ∀ w, Holds h' c w ↔ w = .str (utf8 (out l).2)) := by
  have hkt := unfolds_keyed hk hun
  have hstr : ∀ p b, GoAt (.map ev) p (.str b) → RefAt h (.map root) p (.str b) := fun p b hp => by
    obtain ⟨w, hw, hwu⟩ := goAt_refAt hp hun
    cases hwu
    exact hw
  have htot : Returns sc ((GoVal.map ev).toEv.leaves false) := by
    intro rule hr l hl ex
    obtain ⟨_, b, hb, ht⟩ := (mem_leaves_go hu).1 hl
    rw [ht]
    exact hret rule hr _ _ (hstr _ _ hb) ex
  obtain ⟨bytes, out, st, henc, hscan, hout, hst, hmut⟩ := scanBinary_spec hok hkt hs hu htot
  have hnd := jsonEvent_lawful.nodup _ ((GoVal.map ev).wellKeyed hkt hu)
  refine ⟨(GoVal.map ev).toEv.leaves false, out, ⟨hnd, fun l => mem_leaves_go hu⟩, hout, fun hfit => ?_⟩
  generalize hL : (GoVal.map ev).toEv.leaves false = leaves at *
  have hany : ∀ l, ((out l).1.any (fun o => sc.redacts o.rule) = true) ↔ Redacted sc out l := by
    intro l
    rw [redacts_eq, List.any_eq_true]
    exact Iff.rfl
  have hmut' : ∀ x, x ∈ mutations st ↔ ∃ l ∈ leaves, Redacted sc out l ∧ x = (l.path, (out l).2) := by
    rintro ⟨p, s⟩
    rw [hmut]
    constructor
    · rintro ⟨l, hl, rfl, ha, rfl⟩
      exact ⟨l, hl, (hany l).1 ha, rfl⟩
    · rintro ⟨l, hl, ha, he⟩
      injection he with e1 e2
      exact ⟨l, hl, e1, (hany l).2 ha, e2⟩
  have hmuts : ∀ x ∈ mutations st, MutationFits x ∧ ∃ c b, PlaceAt h (.map root) (goPath x.1) c ∧ Holds h c (.str b) := by
    intro x hx
    obtain ⟨l, hl, _, rfl⟩ := (hmut' x).1 hx
    have hl' := hl
    rw [← hL] at hl'
    obtain ⟨_, b, hb, _⟩ := (mem_leaves_go hu).1 hl'
    obtain ⟨c, h1, h2⟩ := goAt_place hun hb
    exact ⟨path_fits (hfit l hl).1 hs hb, c, b, h1, h2⟩
  have hfits : ∀ m ∈ leaves.flatMap (fun l => (out l).1), Fits m := by
    intro m hm
    obtain ⟨l, hl, hm⟩ := List.mem_flatMap.1 hm
    exact (hfit l hl).2 m hm
  obtain ⟨h', hdec, -, hsh, hlast⟩ := decodeShared_response root _ hfits st _ h ⟨false, [], []⟩ (Nat.le_refl _) hk hmuts
  have hemp : (leaves.flatMap fun l => (out l).1).isEmpty = true → mutations st = [] := by
    intro hms
    cases hm : mutations st with
    | nil => rfl
    | cons x xs =>
      obtain ⟨l, hl, ⟨o, ho, _⟩, _⟩ := (hmut' x).1 (by rw [hm]; exact List.mem_cons_self)
      have : o ∈ leaves.flatMap (fun l => (out l).1) := List.mem_flatMap.2 ⟨l, hl, ho⟩
      rw [List.isEmpty_iff.1 hms] at this
      cases this
  have hgo : ∃ h'' r, scanShared sc h root ev = Res.ok (some (h'', r)) ∧
      r.matches_ = (leaves.flatMap fun l => (out l).1).map goMatch ∧ r.mutated = !(mutations st).isEmpty ∧
      SameShape h h'' ∧ LastWins h (.map root) (mutations st) h'' := by
    have henc' : ev.encode = some bytes := henc
    have hp := hresp _ henc
    unfold scanShared
    rw [henc']
    dsimp only
    unfold lowLevelScan
    rw [hscan]
    dsimp only
    cases hms : (leaves.flatMap fun l => (out l).1).isEmpty with
    | true =>
      rw [encodeResponse, if_pos hms]
      dsimp only
      rw [hemp hms, List.isEmpty_iff.1 hms]
      refine ⟨h, _, rfl, rfl, rfl, .refl h, fun c => ⟨fun _ _ => Iff.rfl, fun pre x post e => ?_⟩⟩
      simp at e
    | false =>
      have he : encodeResponse st (leaves.flatMap fun l => (out l).1) =
          some (encodeStorage st ++ encodeMatches (leaves.flatMap fun l => (out l).1)) := by
        rw [encodeResponse, if_neg (by rw [hms]; decide)]
      rw [he]
      dsimp only
      rw [goBytes_small (hp _ _ _ hscan he)]
      exact ⟨h', _, hdec, rfl, rfl, hsh, hlast⟩
  obtain ⟨h'', r, h1, h2, h3, h4, h5⟩ := hgo
  refine ⟨h'', r, h1, h2, ?_, h4, fun c hc => ?_, fun c hc => ?_⟩
  · rw [h3]
    constructor
    · intro he
      cases hm : mutations st with
      | nil => rw [hm] at he; cases he
      | cons x xs =>
        obtain ⟨l, hl, ha, _⟩ := (hmut' x).1 (by rw [hm]; exact List.mem_cons_self)
        exact ⟨l, hl, ha⟩
    · rintro ⟨l, hl, hr⟩
      have := (hmut' _).2 ⟨l, hl, hr, rfl⟩
      cases hm : mutations st with
      | nil => rw [hm] at this; cases this
      | cons x xs => rfl
  · refine (h5 c).1 (fun x hx => ?_)
    obtain ⟨l, hl, hr, rfl⟩ := (hmut' x).1 hx
    exact hc l hl hr
  · obtain ⟨pre, x, post, e, hx, hy⟩ := exists_last (fun x : Path × Str => PlaceAt h (.map root) (goPath x.1) c) (mutations st) (by
      obtain ⟨l, hl, hr, hp⟩ := hc
      exact ⟨_, (hmut' _).2 ⟨l, hl, hr, rfl⟩, hp⟩)
    have hxm : x ∈ mutations st := by rw [e]; simp
    obtain ⟨l, hl, hr, rfl⟩ := (hmut' x).1 hxm
    refine ⟨l, hl, hr, hx, fun l' hl' hr' hp' => ?_, (h5 c).2 pre _ post e hx hy⟩
    have hm' := (hmut' _).2 ⟨l', hl', hr', rfl⟩
    rw [e] at hm'
    rcases List.mem_append.1 hm' with hm' | hm'
    · have := scanBinary_sorted hscan
      rw [e, List.pairwise_append] at this
      exact .inr (this.2.2 _ hm' _ List.mem_cons_self)
    · rcases List.mem_cons.1 hm' with hm' | hm'
      · injection hm' with e1 _
        exact .inl (eq_of_nodup_map hnd hl' hl e1)
      · exact absurd hp' (hy _ hm')

/-- C97: a scan of an event of the Go caller in which maps and slices may be shared.  The matches are those of the
library for the event as it was read.  Which maps and arrays there are, their keys and lengths, and the references between
them stay the same.  A place of the memory where no redacted path ends keeps its value.  A place where one or more
redacted paths end has, after the call, the text prescribed for the greatest of these paths (fields by their bytes,
before indices, indices by number). -/
theorem C97_shared_texts {sc : Scanner} (hok : ScannerOk sc) {h : GoHeap} {root : Nat} {ev : GoFields}
    (hk : HeapKeyed h) (hun : Unfolds h (.map root) (.map ev)) (hs : GoSized (.map ev)) (hu : KeysUtf8 (.map ev))
    (hret : ∀ rule ∈ sc.rules, ∀ p b, RefAt h (.map root) (goPath p) (.str b) → ∀ ex, ∃ f, rule.run (lossy b) p ex = Res.ok f)
    (hresp : ∀ b, (GoVal.map ev).encode = some b → ResponseFits sc b) :
    ∃ (leaves : List Leaf) (out : Leaf → List RuleMatch × Str), LeavesOf (.map ev) leaves ∧
      (∀ l ∈ leaves, LeafResult Enc.utf8 sc [] leaves l (out l).1 (out l).2) ∧
      ((∀ l ∈ leaves, (utf8 (out l).2).length < 4294967296 ∧ ∀ o ∈ (out l).1, Fits o) →
        ∃ h' r, scanShared sc h root ev = Res.ok (some (h', r)) ∧
          r.matches_ = (leaves.flatMap fun l => (out l).1).map goMatch ∧
          (r.mutated = true ↔ ∃ l ∈ leaves, Redacted sc out l) ∧ SameShape h h' ∧
          (∀ c, (∀ l ∈ leaves, Redacted sc out l → ¬ PlaceAt h (.map root) (goPath l.path) c) → ∀ w, Holds h' c w ↔ Holds h c w) ∧
          ∀ c, (∃ l ∈ leaves, Redacted sc out l ∧ PlaceAt h (.map root) (goPath l.path) c) →
            ∃ l ∈ leaves, Redacted sc out l ∧ PlaceAt h (.map root) (goPath l.path) c ∧
              (∀ l' ∈ leaves, Redacted sc out l' → PlaceAt h (.map root) (goPath l'.path) c →
                l' = l ∨ pathLt l'.path l.path = true) ∧
              ∀ w, Holds h' c w ↔ w = .str (utf8 (out l).2)) := by
  obtain ⟨leaves, out, h1, h2, h3⟩ := scanShared_spec hok hk hun hs hu hret hresp
  exact ⟨leaves, out, h1, fun l hl => leafOut_result jsonEvent_lawful.enc hok (h2 l hl), h3⟩

/-- C97, all redactions: if the rules find the same on all the paths that lead to one place, then every string with a
reported match of a redacting rule has, on its path, the text prescribed for it, and every other string is unchanged.
Missing from the full claim: scanners that do not find the same on two such paths, where it is false
(`C97_shared_secret_restored`). -/
theorem C97_redaction_reaches_caller_partial {sc : Scanner} (hok : ScannerOk sc) {h : GoHeap} {root : Nat} {ev : GoFields}
    (hk : HeapKeyed h) (hun : Unfolds h (.map root) (.map ev)) (hs : GoSized (.map ev)) (hu : KeysUtf8 (.map ev))
    (hret : ∀ rule ∈ sc.rules, ∀ p b, RefAt h (.map root) (goPath p) (.str b) → ∀ ex, ∃ f, rule.run (lossy b) p ex = Res.ok f)
    (hresp : ∀ b, (GoVal.map ev).encode = some b → ResponseFits sc b)
    (hsame : ∀ p q, SamePlace h (.map root) (goPath p) (goPath q) → ∀ c m, Candidate sc [] p c m → Candidate sc [] q c m) :
    ∃ (leaves : List Leaf) (out : Leaf → List RuleMatch × Str), LeavesOf (.map ev) leaves ∧
      (∀ l ∈ leaves, LeafResult Enc.utf8 sc [] leaves l (out l).1 (out l).2) ∧
      ((∀ l ∈ leaves, (utf8 (out l).2).length < 4294967296 ∧ ∀ o ∈ (out l).1, Fits o) →
        ∃ h' r, scanShared sc h root ev = Res.ok (some (h', r)) ∧
          r.matches_ = (leaves.flatMap fun l => (out l).1).map goMatch ∧ SameShape h h' ∧
          ∀ l ∈ leaves, (Redacted sc out l → RefAt h' (.map root) (goPath l.path) (.str (utf8 (out l).2))) ∧
            (¬ Redacted sc out l → ∀ w, RefAt h (.map root) (goPath l.path) w → RefAt h' (.map root) (goPath l.path) w)) := by
  obtain ⟨leaves, out, h1, h2, h3⟩ := scanShared_spec hok hk hun hs hu hret hresp
  refine ⟨leaves, out, h1, fun l hl => leafOut_result jsonEvent_lawful.enc hok (h2 l hl), fun hfit => ?_⟩
  obtain ⟨h', r, d1, d2, -, d3, d4, d5⟩ := h3 hfit
  have hmove : ∀ l ∈ leaves, ∀ l' ∈ leaves, ∀ c, PlaceAt h (.map root) (goPath l.path) c →
      PlaceAt h (.map root) (goPath l'.path) c → (out l').2 = (out l).2 ∧ (Redacted sc out l' ↔ Redacted sc out l) := by
    intro l hl l' hl' c hp hp'
    obtain ⟨_, b, hb, ht⟩ := (h1.2 l).1 hl
    obtain ⟨_, b', hb', ht'⟩ := (h1.2 l').1 hl'
    obtain ⟨c1, e1, e2⟩ := goAt_place hun hb
    obtain ⟨c2, e3, e4⟩ := goAt_place hun hb'
    obtain rfl := placeAt_unique hk hp e1
    obtain rfl := placeAt_unique hk hp' e3
    have hbb := holds_unique hk e2 e4
    injection hbb with hbb
    have htt : l'.text = l.text := by rw [ht, ht', hbb]
    obtain ⟨m1, m2⟩ := leafOut_move hok (h2 l hl) (h2 l' hl') htt (fun m => by
      rw [htt]
      exact ⟨hsame _ _ ⟨c, hp, hp'⟩ _ m, hsame _ _ ⟨c, hp', hp⟩ _ m⟩)
    refine ⟨m1, ?_⟩
    have hiff : ∀ k : Leaf, Redacted sc out k ↔ ∃ x ∈ (out k).1.map (·.rule), redacting sc x = true := fun k => by
      simp only [Redacted, List.mem_map]
      exact ⟨fun ⟨o, ho, hr⟩ => ⟨_, ⟨o, ho, rfl⟩, hr⟩, fun ⟨_, ⟨o, ho, e⟩, hr⟩ => ⟨o, ho, e ▸ hr⟩⟩
    rw [hiff, hiff, m2]
  refine ⟨h', r, d1, d2, d3, fun l hl => ?_⟩
  obtain ⟨_, b, hb, ht⟩ := (h1.2 l).1 hl
  obtain ⟨c, e1, e2⟩ := goAt_place hun hb
  refine ⟨fun hr => ?_, fun hr w hw => ?_⟩
  · obtain ⟨l', hl', _, hp', _, hw⟩ := d5 c ⟨l, hl, hr, e1⟩
    refine place_refAt (d3.placeAt.2 e1) ((hw _).2 ?_)
    rw [(hmove l hl l' hl' c e1 hp').1]
  · have hne : goPath l.path ≠ [] := by
      intro e
      rw [e] at e1
      cases e1
    obtain ⟨c', e3, e4⟩ := refAt_place hw hne
    obtain rfl := placeAt_unique hk e1 e3
    refine place_refAt (d3.placeAt.2 e1) ((d4 c (fun l' hl' hr' hp' => ?_) w).2 e4)
    exact hr ((hmove l hl l' hl' c e1 hp').2.1 hr')

/-- C97, no sharing: if no two paths end at the same place, every redaction reaches the caller. -/
theorem C97_unshared {sc : Scanner} (hok : ScannerOk sc) {h : GoHeap} {root : Nat} {ev : GoFields}
    (hk : HeapKeyed h) (hun : Unfolds h (.map root) (.map ev)) (hs : GoSized (.map ev)) (hu : KeysUtf8 (.map ev))
    (hret : ∀ rule ∈ sc.rules, ∀ p b, RefAt h (.map root) (goPath p) (.str b) → ∀ ex, ∃ f, rule.run (lossy b) p ex = Res.ok f)
    (hresp : ∀ b, (GoVal.map ev).encode = some b → ResponseFits sc b)
    (hone : ∀ p q, SamePlace h (.map root) p q → p = q) :
    ∃ (leaves : List Leaf) (out : Leaf → List RuleMatch × Str), LeavesOf (.map ev) leaves ∧
      (∀ l ∈ leaves, LeafResult Enc.utf8 sc [] leaves l (out l).1 (out l).2) ∧
      ((∀ l ∈ leaves, (utf8 (out l).2).length < 4294967296 ∧ ∀ o ∈ (out l).1, Fits o) →
        ∃ h' r, scanShared sc h root ev = Res.ok (some (h', r)) ∧
          r.matches_ = (leaves.flatMap fun l => (out l).1).map goMatch ∧ SameShape h h' ∧
          ∀ l ∈ leaves, (Redacted sc out l → RefAt h' (.map root) (goPath l.path) (.str (utf8 (out l).2))) ∧
            (¬ Redacted sc out l → ∀ w, RefAt h (.map root) (goPath l.path) w → RefAt h' (.map root) (goPath l.path) w)) :=
  C97_redaction_reaches_caller_partial hok hk hun hs hu hret hresp (fun p q hpq c m hm => by
    rw [← goPath_inj (hone _ _ hpq)]; exact hm)

/-! ## Cycles -/

private theorem sizeOf_field {k : Bytes} {w : GoVal} : ∀ {m : GoFields}, GoFieldOf m k w → sizeOf w < sizeOf m
  | .nil, h => h.elim
  | .cons _ _ rest, h => by
    rcases h with ⟨_, rfl⟩ | h
    · simp; omega
    · have := sizeOf_field h
      simp; omega

private theorem sizeOf_item {w : GoVal} : ∀ {l : GoItems} {i : Nat}, GoItemOf l i w → sizeOf w < sizeOf l
  | .nil, _, h => h.elim
  | .cons v rest, 0, h => by
    obtain rfl : w = v := h
    simp; omega
  | .cons v rest, i + 1, h => by
    have := sizeOf_item (l := rest) (i := i) h
    simp; omega

/-- C97, cycles: an event that contains itself cannot be read; `encodeMapEvent` would never end. -/
theorem C97_cycle {h : GoHeap} {v : GoRef} {p : List GoSeg} (hp : p ≠ []) (hc : RefAt h v p v) (t : GoVal) : ¬ Unfolds h v t := by
  have hsize : ∀ {t u : GoVal} {p : List GoSeg}, GoAt t p u → (p = [] ∧ u = t) ∨ (p ≠ [] ∧ sizeOf u < sizeOf t) := by
    intro t u p hat
    induction hat with
    | here => exact .inl ⟨rfl, rfl⟩
    | field h1 _ ih =>
      have := sizeOf_field h1
      refine .inr ⟨by simp, ?_⟩
      rcases ih with ⟨-, rfl⟩ | ⟨-, hlt⟩ <;> simp <;> omega
    | item h1 _ ih =>
      have := sizeOf_item h1
      refine .inr ⟨by simp, ?_⟩
      rcases ih with ⟨-, rfl⟩ | ⟨-, hlt⟩ <;> simp <;> omega
  suffices hall : ∀ n (t : GoVal), sizeOf t < n → ¬ Unfolds h v t from hall _ t (Nat.lt_succ_self _)
  intro n
  induction n with
  | zero => exact fun t hlt => absurd hlt (Nat.not_lt_zero _)
  | succ n ih =>
    intro t hlt hu
    obtain ⟨u, hu1, hu2⟩ := refAt_goAt hc hu
    rcases hsize hu1 with ⟨e, -⟩ | ⟨-, hl⟩
    · exact hp e
    · exact ih u (by omega) hu2

/-! ## Witnesses -/

private def b (s : String) : Bytes := utf8 s.toList

private def exRule (t : String) (a : Action) (s : Scope) : CRule :=
  (RegexRule.mk (textRx t.toList) none none none).toCRule ⟨a, false⟩ s false (fun c => blen c + 1)

/-- `{"a": m, "b": m, "l": l}` with `m = {"x": "1 k"}` and `l` the last two elements of `["0", "1", m]`; the map `m` is
reached on three paths. -/
private def exHeap : GoHeap :=
  [.map [(b "a", .map 1), (b "b", .map 1), (b "l", .slice 2 1 2)], .map [(b "x", .str (b "1 k"))],
    .array [.str (b "0"), .str (b "1"), .map 1]]

private def exM : GoVal := .map (.cons (b "x") (.str (b "1 k")) .nil)

/-- One of the orders in which it can be read. -/
private def exRead : GoFields := .cons (b "b") exM (.cons (b "l") (.list (.cons (.str (b "1")) (.cons exM .nil))) (.cons (b "a") exM .nil))

private theorem keyed_of_all {h : GoHeap} (hk : ∀ o ∈ h, match o with | .map fs => (fs.map (·.1)).Nodup | .array _ => True) :
    HeapKeyed h := fun _ _ ha => hk _ (List.mem_of_getElem? ha)

private theorem exHeap_keyed : HeapKeyed exHeap := keyed_of_all (by
  intro o ho
  simp only [exHeap, List.mem_cons, List.not_mem_nil, or_false] at ho
  rcases ho with rfl | rfl | rfl
  · decide +kernel
  · decide +kernel
  · trivial)

private theorem exHeap_unfolds : Unfolds exHeap (.map 0) (.map exRead) := by
  have hm : Unfolds exHeap (.map 1) exM := .map rfl (List.Perm.refl _) (.cons (.str _) .nil)
  refine .map (order := [(b "b", .map 1), (b "l", .slice 2 1 2), (b "a", .map 1)]) rfl ?_ (.cons hm (.cons ?_ (.cons hm .nil)))
  · exact List.Perm.symm ((List.perm_middle (l₁ := [(b "b", GoRef.map 1), (b "l", .slice 2 1 2)]) (l₂ := [])).symm)
  · exact .slice rfl (by decide) (.cons (.str _) (.cons hm .nil))

private theorem keysUtf8_str (x : Bytes) : KeysUtf8 (.str x) := by
  intro p m k w hp; cases hp

private inductive Utf8Fields : GoFields → Prop
  | nil : Utf8Fields .nil
  | cons {k : String} {v : GoVal} {m : GoFields} : KeysUtf8 v → Utf8Fields m → Utf8Fields (.cons (b k) v m)

private theorem utf8Fields_mem {m : GoFields} (h : Utf8Fields m) {k : Bytes} {v : GoVal} (hf : GoFieldOf m k v) :
    IsUtf8 k ∧ KeysUtf8 v := by
  induction h with
  | nil => exact hf.elim
  | cons h1 _ ih =>
    rcases hf with ⟨rfl, rfl⟩ | hf
    · exact ⟨⟨_, rfl⟩, h1⟩
    · exact ih hf

private theorem keysUtf8_map {m : GoFields} (h : Utf8Fields m) : KeysUtf8 (.map m) := by
  intro p m' k w hp hw
  cases hp with
  | here => exact (utf8Fields_mem h hw).1
  | field h1 h2 => exact (utf8Fields_mem h h1).2 _ _ _ _ h2 hw

private theorem keysUtf8_list {l : GoItems} (h : ∀ i w, GoItemOf l i w → KeysUtf8 w) : KeysUtf8 (.list l) := by
  intro p m' k w hp hw
  cases hp with
  | item h1 h2 => exact h _ _ h1 _ _ _ _ h2 hw

private theorem keys_m : KeysUtf8 exM := keysUtf8_map (.cons (keysUtf8_str _) .nil)

/-- C97, finding: rule 0 redacts `1` in `a.x`, rule 1 redacts `k` in `b.x`.  In `{"a": m, "b": m}` with `m = {"x": "1 k"}`
both matches are reported as redacted, but the second mutation overwrites the first with the text it was computed from:
the event still has the `1` that was reported as redacted, on both paths. -/
theorem C97_shared_secret_restored :
    let sc : Scanner := ⟨[exRule "1" (.redact "#".toList) (.incl [[.field "a".toList, .field "x".toList]] []),
      exRule "k" (.redact "*".toList) (.incl [[.field "b".toList, .field "x".toList]] [])], false, false, false,
      ⟨List.length, List.length⟩⟩
    let h : GoHeap := [.map [(b "a", .map 1), (b "b", .map 1)], .map [(b "x", .str (b "1 k"))]]
    ∃ ev, Unfolds h (.map 0) (.map ev) ∧ HeapKeyed h ∧
      scanShared sc h 0 ev = Res.ok (some ([.map [(b "a", .map 1), (b "b", .map 1)], .map [(b "x", .str (b "1 *"))]],
        ⟨true, b "1 *", [⟨0, b "a.x", .placeholder, 0, 1, 0⟩, ⟨1, b "b.x", .placeholder, 2, 3, 0⟩]⟩)) := by
  have hm : ∀ o, Unfolds [o, .map [(b "x", .str (b "1 k"))]] (.map 1) exM := fun o =>
    .map rfl (List.Perm.refl _) (.cons (.str _) .nil)
  refine ⟨.cons (b "a") exM (.cons (b "b") exM .nil), .map rfl (List.Perm.refl _) (.cons (hm _) (.cons (hm _) .nil)),
    keyed_of_all ?_, by decide +kernel⟩
  intro o ho
  simp only [List.mem_cons, List.not_mem_nil, or_false] at ho
  rcases ho with rfl | rfl <;> decide +kernel

private def exScan : Scanner := ⟨[exRule "1" (.redact "#".toList) (.excl [])], false, false, false, ⟨List.length, List.length⟩⟩

private theorem exScan_same (p q : Path) (c : Str) (m : M) (h : Candidate exScan [] p c m) : Candidate exScan [] q c m := by
  obtain ⟨rule, f, ⟨h1, h2, h3, h4⟩, h5, h6⟩ := h
  have hr : rule = exRule "1" (.redact "#".toList) (.excl []) := by
    have := List.mem_of_getElem? h2
    exact List.mem_singleton.1 this
  subst hr
  refine ⟨_, f, ⟨h1, h2, ?_, ?_⟩, h5, h6⟩
  · simp [exRule, RegexRule.toCRule, Scans]
  · simp [exRule, RegexRule.toCRule, Excludes]

/-- The hypotheses of C97 are met by an event with a map reached on three paths and part of an array; the scan redacts the
shared text once and for all paths. -/
example : ScannerOk exScan ∧ HeapKeyed exHeap ∧ Unfolds exHeap (.map 0) (.map exRead) ∧ GoSized (.map exRead) ∧
    KeysUtf8 (.map exRead) ∧ (∀ rule ∈ exScan.rules, ∀ c p ex, ∃ f, rule.run c p ex = Res.ok f) ∧
    (∀ b, (GoVal.map exRead).encode = some b → ResponseFits exScan b) ∧
    SamePlace exHeap (.map 0) [.field (b "a"), .field (b "x")] [.field (b "l"), .index 1, .field (b "x")] ∧
    (∀ p q c m, Candidate exScan [] p c m → Candidate exScan [] q c m) ∧
    (scanShared exScan exHeap 0 exRead).map (fun r => r.map (·.1)) = Res.ok (some
      [.map [(b "a", .map 1), (b "b", .map 1), (b "l", .slice 2 1 2)], .map [(b "x", .str (b "# k"))],
        .array [.str (b "0"), .str (b "#"), .map 1]]) := by
  refine ⟨?_, exHeap_keyed, exHeap_unfolds, ?_, ?_, ?_, ?_, ?_, exScan_same, by decide +kernel⟩
  · intro rule h
    rw [List.mem_singleton.1 h]
    exact regexRule_ok (textRx_ok _ (by simp)).1 (textRx_ok _ (by simp)).2 (by intro k hk; cases hk)
      (by intro c; omega) (by simp) _ false
  · simp [exRead, exM, GoSized, GoSizedFields, GoSizedItems, goLength]
    decide +kernel
  · exact keysUtf8_map (.cons (keys_m) (.cons (keysUtf8_list fun i w hw => by
      match i, hw with
      | 0, hw => obtain rfl := hw; exact keysUtf8_str _
      | 1, hw => obtain rfl := hw; exact keys_m
      | _ + 2, hw => exact hw.elim) (.cons keys_m .nil)))
  · intro rule h c p ex
    rw [List.mem_singleton.1 h]
    exact stringMatches_returns (r := ⟨textRx _, none, none, none⟩) (textRx_ok _ (by simp)).1 (textRx_ok _ (by simp)).2
      (by intro k hk; cases hk) false ex (by intro _ x hx; cases hx) p (Nat.lt_succ_self _)
  · intro b hb st ms r h1 h2
    have : (GoVal.map exRead).encode.all (fun b => match scanBinary exScan b with
      | .ok (st, ms) => (encodeResponse st ms).all fun r => decide (r.length < 2147483648)
      | _ => true) = true := by decide +kernel
    rw [hb, Option.all_some, h1] at this
    dsimp only at this
    rw [h2] at this
    simpa using this
  · exact ⟨.entry 1 (b "x"), .field ⟨_, rfl, by simp⟩ (.entry _ _),
      .field (v := .slice 2 1 2) ⟨_, rfl, by simp⟩ (.item (by decide) ⟨_, rfl, rfl⟩ (.entry _ _))⟩

/-- A map that contains itself. -/
example : RefAt [.map [(b "self", .map 0), (b "x", .str (b "1"))]] (.map 0) [.field (b "self")] (.map 0) ∧
    [GoSeg.field (b "self")] ≠ [] :=
  ⟨.field ⟨_, rfl, by simp⟩ (.here _), by simp⟩

end Sds.Props
