import Verif.Spec.RuleOrder
import Verif.Props.EndToEnd

/-! # C104: the order of rules, and rules without redaction, do not matter for what is redacted -/

namespace Sds.Props
open Sds Spec

/-! ## Pieces and ranges -/

theorem ranges_ge (ps : List Piece) : ∀ o, ∀ m ∈ ranges o ps, o ≤ m.st := by
  induction ps with
  | nil => intro o m h; cases h
  | cons p ps ih =>
    intro o m h
    rcases List.mem_cons.1 h with rfl | h
    · simp
    · have := ih _ m h; omega

private theorem ranges_ordered (ps : List Piece) : ∀ o, (ranges o ps).Pairwise (fun a b => a.en ≤ b.st) := by
  induction ps with
  | nil => intro o; exact .nil
  | cons p ps ih => intro o; exact .cons (fun m hm => ranges_ge ps _ m hm) (ih _)

/-- A match with, in place of the number of its rule, whether the rule redacts. -/
def shape (mu : Nat → Bool) (m : M) : M := ⟨if mu m.rule then 0 else 1, m.st, m.en⟩

theorem shape_eq {mu mu' : Nat → Bool} {m m' : M} :
    shape mu m = shape mu' m' ↔ mu m.rule = mu' m'.rule ∧ m.st = m'.st ∧ m.en = m'.en := by
  unfold shape
  cases mu m.rule <;> cases mu' m'.rule <;> simp

private theorem shape_mu (mu : Nat → Bool) (m : M) : ((shape mu m).rule == 0) = mu m.rule := by
  unfold shape
  cases mu m.rule <;> rfl

/-- A resolution stays one if rules are told apart only by whether they redact. -/
private theorem resolution_shape {mu : Nat → Bool} {ks res : List M} (h : IsResolution mu ks res) :
    IsResolution (fun r => r == 0) (ks.map (shape mu)) (res.map (shape mu)) := by
  constructor
  · intro x hx
    obtain ⟨m, hm, rfl⟩ := List.mem_map.1 hx
    exact List.mem_map_of_mem (h.1 m hm)
  · intro x hx
    obtain ⟨m, hm, rfl⟩ := List.mem_map.1 hx
    have high : ∀ r m0, shape mu m0 = shape mu m → (Higher (fun r => r == 0) (shape mu r) (shape mu m) ↔
        Higher mu r m0 ∧ shape mu r ≠ shape mu m) := by
      intro r m0 h0
      rw [← h0]
      unfold Higher
      simp only [shape_mu, ne_eq, shape_eq]
      have hr : mu r.rule = mu m0.rule → (shape mu r).rule = (shape mu m0).rule := by
        intro h; unfold shape; rw [h]
      have e1 : ∀ m, (shape mu m).st = m.st := fun _ => rfl
      have e2 : ∀ m, (shape mu m).en = m.en := fun _ => rfl
      simp only [e1, e2]
      constructor
      · rintro (⟨a, b⟩ | ⟨a, b⟩)
        · exact ⟨.inl ⟨a, b⟩, fun h => by rw [h.1, b] at a; cases a⟩
        · have := hr a
          exact ⟨.inr ⟨a, by omega⟩, fun h => by omega⟩
      · rintro ⟨⟨a, b⟩ | ⟨a, b⟩, c⟩
        · exact .inl ⟨a, b⟩
        · have hne : ¬ (r.st = m0.st ∧ r.en = m0.en) := fun h => c ⟨a, h⟩
          exact .inr ⟨a, by omega⟩
    constructor
    · intro hin
      obtain ⟨m0, hm0, h0⟩ := List.mem_map.1 hin
      rintro ⟨y, hy, hh, ho⟩
      obtain ⟨r, hr, rfl⟩ := List.mem_map.1 hy
      refine ((h.2 m0 (h.1 m0 hm0)).1 hm0) ⟨r, hr, ((high r m0 h0).1 hh).1, ?_⟩
      have := (shape_eq.1 h0)
      unfold Overlap at ho ⊢
      simp only [shape] at ho
      omega
    · intro hno
      by_cases hin : m ∈ res
      · exact List.mem_map_of_mem hin
      · have hex : ∃ r ∈ res, Higher mu r m ∧ Overlap r m := by
          apply Classical.byContradiction
          intro hc
          exact hin ((h.2 m hm).2 hc)
        obtain ⟨r, hr, hh, ho⟩ := hex
        by_cases hs : shape mu r = shape mu m
        · rw [← hs]; exact List.mem_map_of_mem hr
        · exact absurd ⟨shape mu r, List.mem_map_of_mem hr, (high r m rfl).2 ⟨hh, hs⟩, ho⟩ hno

/-- The same pieces, with related rules. -/
def SamePieces (R : Nat → Nat → Prop) : List Piece → List Piece → Prop
  | [], [] => True
  | p :: ps, p' :: ps' => p.gap = p'.gap ∧ p.text = p'.text ∧ R p.rule p'.rule ∧ SamePieces R ps ps'
  | _, _ => False

theorem samePieces {mu mu' : Nat → Bool} {R : Nat → Nat → Prop} : ∀ {ps ps' : List Piece} {tail tail' : Str} {o : Nat},
    input ps tail = input ps' tail' → (ranges o ps).map (shape mu) = (ranges o ps').map (shape mu') →
    (∀ m ∈ ranges o ps, ∀ m' ∈ ranges o ps', m.st = m'.st → m.en = m'.en → mu m.rule = mu' m'.rule → R m.rule m'.rule) →
    SamePieces R ps ps' ∧ tail = tail'
  | [], [], _, _, _, h, _, _ => ⟨trivial, h⟩
  | [], _ :: _, _, _, _, _, h, _ => by cases h
  | _ :: _, [], _, _, _, _, h, _ => by cases h
  | p :: ps, p' :: ps', tail, tail', o, h, hr, hR => by
    simp only [ranges, List.map_cons, List.cons.injEq] at hr
    obtain ⟨h0, h4⟩ := hr
    obtain ⟨h1, h2, h3⟩ := shape_eq.1 h0
    simp only at h1 h2 h3
    have hrr := hR ⟨p.rule, o + blen p.gap, o + blen p.gap + blen p.text⟩ List.mem_cons_self
      ⟨p'.rule, o + blen p'.gap, o + blen p'.gap + blen p'.text⟩ List.mem_cons_self h2 h3 h1
    simp only [input, List.append_assoc] at h
    obtain ⟨e1, h⟩ := append_inj_blen h (by omega)
    obtain ⟨e2, h⟩ := append_inj_blen h (by omega)
    rw [h3] at h4
    obtain ⟨h5, h6⟩ := samePieces h h4 fun m hm m' hm' => hR m (by rw [ranges]; exact List.mem_cons_of_mem _ (h3 ▸ hm)) m'
      (by rw [ranges]; exact List.mem_cons_of_mem _ hm')
    exact ⟨⟨e1, e2, hrr, h5⟩, h6⟩

theorem output_same {R : Nat → Nat → Prop} {f f' : Nat → Str → Str} (hf : ∀ r r', R r r' → f r = f' r') (tail : Str) :
    ∀ {ps ps' : List Piece}, SamePieces R ps ps' → output f ps tail = output f' ps' tail
  | [], [], _ => rfl
  | [], _ :: _, h => h.elim
  | _ :: _, [], h => h.elim
  | p :: ps, p' :: ps', ⟨h1, h2, h3, h4⟩ => by
    simp only [output]
    rw [h1, h2, hf _ _ h3, output_same hf tail h4]

theorem reports_same {R : Nat → Nat → Prop} {units : Str → Nat} {I I' : Nat → RuleInfo} {f f' : Nat → Str → Str} {rm : Bool}
    {path : Path} {α : Type} {g g' : RuleMatch → α} (hf : ∀ r r', R r r' → f r = f' r' ∧ I r = I' r')
    (hg : ∀ r r' : Nat, R r r' → ∀ o : RuleMatch, g { o with rule := r } = g' { o with rule := r' }) :
    ∀ {ps ps' : List Piece} (inn out : Str), SamePieces R ps ps' →
      (reports units I f rm path inn out ps).map g = (reports units I' f' rm path inn out ps').map g'
  | [], [], _, _, _ => rfl
  | [], _ :: _, _, _, h => h.elim
  | _ :: _, [], _, _, h => h.elim
  | p :: ps, p' :: ps', inn, out, ⟨h1, h2, h3, h4⟩ => by
    simp only [reports, List.map_cons]
    rw [← h1, ← h2, ← (hf _ _ h3).1, ← (hf _ _ h3).2, reports_same hf hg _ _ h4]
    exact congrArg (· :: _) (hg _ _ h3 ⟨p.rule, path, _, _, _, _, _, _⟩)

/-! ## Another order -/

theorem _root_.Sds.Spec.Reordered.symm {sc sc' : Scanner} {σ τ : Nat → Nat} (h : Reordered sc sc' σ τ) : Reordered sc' sc τ σ :=
  ⟨h.back, h.to, h.wildcards.symm, h.multipass.symm, h.returnMatches.symm, h.fp.symm⟩

section
variable {sc sc' : Scanner} {σ τ : Nat → Nat} {blocked blocked' : List Nat}

private theorem blocked_symm (h : Reordered sc sc' σ τ) (hb : SameBlocked sc σ blocked blocked') :
    SameBlocked sc' τ blocked' blocked := by
  intro j rule hj
  obtain ⟨h1, h2⟩ := h.back j rule hj
  rw [hb _ _ h1, h2]

private theorem applies_to (h : Reordered sc sc' σ τ) (hb : SameBlocked sc σ blocked blocked') {p : Path} {ex : Bool} {r : Nat}
    {rule : CRule} (ha : Applies sc blocked p ex r rule) : Applies sc' blocked' p ex (σ r) rule := by
  obtain ⟨h1, h2, h3, h4⟩ := ha
  refine ⟨fun hc => h1 ((hb _ _ h2).2 hc), (h.to _ _ h2).1, ?_, ?_⟩
  · rw [h.wildcards]; exact h3
  · rw [h.wildcards]; exact h4

private theorem candidate_to (h : Reordered sc sc' σ τ) (hb : SameBlocked sc σ blocked blocked') {p : Path} {c : Str} {m : M}
    (hc : Candidate sc blocked p c m) : Candidate sc' blocked' p c ⟨σ m.rule, m.st, m.en⟩ := by
  obtain ⟨rule, f, h1, h2, h3⟩ := hc
  exact ⟨rule, f, applies_to h hb h1, h2, h3⟩

private theorem found_to (h : Reordered sc sc' σ τ) (hb : SameBlocked sc σ blocked blocked') {leaves : List Leaf} {t : Str}
    (hc : FoundInExcluded sc blocked leaves t) : FoundInExcluded sc' blocked' leaves t := by
  obtain ⟨l, hl, r, rule, f, h1, h2, h3⟩ := hc
  exact ⟨l, hl, σ r, rule, f, applies_to h hb h1, h2, h3⟩

private theorem kept_to (h : Reordered sc sc' σ τ) (hb : SameBlocked sc σ blocked blocked') {leaves : List Leaf} {p : Path} {c : Str}
    {m : M} (hk : Kept sc blocked leaves p c m) : Kept sc' blocked' leaves p c ⟨σ m.rule, m.st, m.en⟩ := by
  refine ⟨candidate_to h hb hk.1, fun hs => hk.2 ?_⟩
  obtain ⟨h1, rule, t, h2, h3, h4, h5⟩ := hs
  obtain ⟨rule0, f, ⟨_, hr, _⟩, _⟩ := hk.1
  have := (h.to _ _ hr).1
  rw [this] at h2
  cases h2
  exact ⟨h.multipass ▸ h1, _, t, hr, h3, h4, found_to h.symm (blocked_symm h hb) h5⟩

private theorem info_to (h : Reordered sc sc' σ τ) {r : Nat} {rule : CRule} (hr : sc.rules[r]? = some rule) :
    infoOf sc' (σ r) = infoOf sc r := by
  unfold infoOf
  rw [hr, (h.to _ _ hr).1]

private theorem kept_rule {leaves : List Leaf} {p : Path} {c : Str} {m : M} (hk : Kept sc blocked leaves p c m) :
    ∃ rule, sc.rules[m.rule]? = some rule := by
  obtain ⟨⟨rule, f, ⟨_, hr, _⟩, _⟩, _⟩ := hk
  exact ⟨rule, hr⟩

/-- The result of a string with the rules in another order. -/
private theorem leaf_reordered {enc : Enc} (hok : ScannerOk sc) (hok' : ScannerOk sc') (h : Reordered sc sc' σ τ)
    (hb : SameBlocked sc σ blocked blocked')
    {leaves : List Leaf} {R : Nat → Nat → Prop} (hR : Ties sc blocked leaves R) {l : Leaf} (hl : l ∈ leaves)
    {os os' : List RuleMatch} {new new' : Str}
    (hr : LeafResult enc sc blocked leaves l os new) (hr' : LeafResult enc sc' blocked' leaves l os' new') :
    ∃ ps ps' tail, SamePieces (fun r r' => R r (τ r') ∧ infoOf sc' r' = infoOf sc (τ r') ∧ σ (τ r') = r') ps ps' ∧
      os = reports enc.units (infoOf sc) (fun r t => redacted sc.fp (infoOf sc r).action t) sc.returnMatches l.path [] [] ps ∧
      new = output (fun r t => redacted sc.fp (infoOf sc r).action t) ps tail ∧
      os' = reports enc.units (infoOf sc') (fun r t => redacted sc.fp (infoOf sc' r).action t) sc.returnMatches l.path [] [] ps' ∧
      new' = output (fun r t => redacted sc.fp (infoOf sc' r).action t) ps' tail := by
  obtain ⟨ks, res, ps, tail, h1, h2, h3, h4, h5, h6, h7⟩ := hr
  obtain ⟨ks', res', ps', tail', h1', h2', h3', h4', h5', h6', h7'⟩ := hr'
  rw [h.fp, h.returnMatches] at h6'
  rw [h.fp] at h7'
  have hb' := blocked_symm h hb
  have redact : ∀ {m : M}, Kept sc blocked leaves l.path l.text m → redacting sc' (σ m.rule) = redacting sc m.rule := by
    intro m hm
    obtain ⟨rule, hr⟩ := kept_rule hm
    unfold redacting
    rw [info_to h hr]
  have redact' : ∀ {m : M}, Kept sc' blocked' leaves l.path l.text m → redacting sc (τ m.rule) = redacting sc' m.rule := by
    intro m hm
    obtain ⟨rule, hr⟩ := kept_rule hm
    unfold redacting
    rw [info_to h.symm hr]
  have hmem : ∀ x, x ∈ ks.map (shape (redacting sc)) ↔ x ∈ ks'.map (shape (redacting sc')) := by
    intro x
    constructor
    · intro hx
      obtain ⟨m, hm, rfl⟩ := List.mem_map.1 hx
      have hk := (h1 m).1 hm
      exact List.mem_map.2 ⟨_, (h1' _).2 (kept_to h hb hk), shape_eq.2 ⟨redact hk, rfl, rfl⟩⟩
    · intro hx
      obtain ⟨m, hm, rfl⟩ := List.mem_map.1 hx
      have hk := (h1' m).1 hm
      exact List.mem_map.2 ⟨_, (h1 _).2 (kept_to h.symm hb' hk), shape_eq.2 ⟨redact' hk, rfl, rfl⟩⟩
  have hsame := isResolution_unique hmem (resolution_shape h2) (resolution_shape h2')
  have hshape : (ranges 0 ps).map (shape (redacting sc)) = (ranges 0 ps').map (shape (redacting sc')) := by
    rw [← h5, ← h5']
    refine ordered_ext ?_ ?_ ?_ ?_ hsame
    · intro x hx
      obtain ⟨m, hm, rfl⟩ := List.mem_map.1 hx
      exact (((h1 m).1 (h2.1 m hm)).1.bounds hok).1
    · intro x hx
      obtain ⟨m, hm, rfl⟩ := List.mem_map.1 hx
      exact (((h1' m).1 (h2'.1 m hm)).1.bounds hok').1
    · exact List.pairwise_map.2 h3
    · exact List.pairwise_map.2 h3'
  obtain ⟨hp, rfl⟩ := samePieces (R := fun r r' => R r (τ r') ∧ infoOf sc' r' = infoOf sc (τ r') ∧ σ (τ r') = r')
    (h4.symm.trans h4') hshape fun m hm m' hm' e1 e2 e3 => by
      rw [← h5] at hm
      rw [← h5'] at hm'
      have hk := (h1 m).1 (h2.1 m hm)
      have hk' := (h1' m').1 (h2'.1 m' hm')
      obtain ⟨rule', hr'⟩ := kept_rule hk'
      refine ⟨hR l hl m ⟨τ m'.rule, m'.st, m'.en⟩ hk (kept_to h.symm hb' hk') e1 e2 (e3.trans (redact' hk').symm),
        (info_to h.symm hr').symm, (h.back _ _ hr').2⟩
  exact ⟨ps, ps', tail, hp, h6, h7, h6', h7'⟩

private theorem ok_reordered (h : Reordered sc sc' σ τ) (hok : ScannerOk sc) : ScannerOk sc' := by
  intro rule hr
  obtain ⟨j, hj⟩ := List.mem_iff_getElem?.1 hr
  exact hok rule (List.mem_of_getElem? (h.back j rule hj).1)

variable {E : Type} {impl : EventImpl E} {wf : E → Prop} {leavesOf : E → List Leaf} {rew : (Path → Str → Str) → E → E}

private theorem scannable_reordered (h : Reordered sc sc' σ τ) (hb : SameBlocked sc σ blocked blocked') {e : E}
    (hs : Scannable wf leavesOf sc blocked e) : Scannable wf leavesOf sc' blocked' e where
  wf := hs.wf
  returns := by
    intro rule hr
    obtain ⟨j, hj⟩ := List.mem_iff_getElem?.1 hr
    exact hs.returns rule (List.mem_of_getElem? (h.back j rule hj).1)
  strings := fun l hl hf _ hc => hs.strings l hl hf _ (candidate_to h.symm (blocked_symm h hb) hc)

theorem flatMap_congr {α β : Type} {l : List α} {f g : α → List β} (h : ∀ a ∈ l, f a = g a) : l.flatMap f = l.flatMap g :=
  congrArg List.flatten (List.map_congr_left h)

/-- C104: the scanner with its rules in another order makes the same event of an event, and reports the same but for the numbers
of the rules, provided that rules which match the same range have the same action (and both or none are validated). -/
theorem C104_reordered (hE : LawfulEvent impl wf leavesOf rew) (hok : ScannerOk sc) (h : Reordered sc sc' σ τ)
    (hb : SameBlocked sc σ blocked blocked') (e : E) (hs : Scannable wf leavesOf sc blocked e)
    (hties : Ties sc blocked (leavesOf e) fun r r' => infoOf sc r = infoOf sc r') :
    ∃ after os os', scan impl sc e blocked = Res.ok (after, os) ∧ scan impl sc' e blocked' = Res.ok (after, os') ∧
      os.map unnumbered = os'.map unnumbered := by
  have hok' := ok_reordered h hok
  obtain ⟨out, G, h1, h2⟩ := C10_scan_result hE hok blocked e hs
  obtain ⟨out', G', h1', h2'⟩ := C10_scan_result hE hok' blocked' e (scannable_reordered h hb hs)
  have key : ∀ l ∈ leavesOf e, (out l).2 = (out' l).2 ∧ (out l).1.map unnumbered = (out' l).1.map unnumbered := by
    intro l hl
    obtain ⟨ps, ps', tail, hp, e1, e2, e3, e4⟩ := leaf_reordered hok hok' h hb hties hl (h2 l hl).1 (h2' l hl).1
    rw [e1, e2, e3, e4]
    refine ⟨output_same (fun r r' hr => ?_) tail hp, reports_same (fun r r' hr => ?_) (fun r r' _ o => rfl) _ _ hp⟩
    · rw [hr.1, hr.2.1]
    · rw [hr.1, hr.2.1]; exact ⟨rfl, rfl⟩
  have hG : rew G' e = rew G e := hE.rew_congr _ _ e hs.wf fun l hl _ => by rw [(h2 l hl).2, (h2' l hl).2, (key l hl).1]
  rw [hG] at h1'
  refine ⟨_, _, _, h1, h1', ?_⟩
  rw [List.map_flatMap, List.map_flatMap]
  exact flatMap_congr fun l hl => (key l hl).2

/-- C104: if no two rules (both with redaction or both without) match the same range, the reports are the same, with the new
numbers of the rules. -/
theorem C104_renumbered (hE : LawfulEvent impl wf leavesOf rew) (hok : ScannerOk sc) (h : Reordered sc sc' σ τ)
    (hb : SameBlocked sc σ blocked blocked') (e : E) (hs : Scannable wf leavesOf sc blocked e)
    (hties : Ties sc blocked (leavesOf e) fun r r' => r = r') :
    ∃ after os, scan impl sc e blocked = Res.ok (after, os) ∧
      scan impl sc' e blocked' = Res.ok (after, os.map fun o => { o with rule := σ o.rule }) := by
  have hok' := ok_reordered h hok
  obtain ⟨out, G, h1, h2⟩ := C10_scan_result hE hok blocked e hs
  obtain ⟨out', G', h1', h2'⟩ := C10_scan_result hE hok' blocked' e (scannable_reordered h hb hs)
  have key : ∀ l ∈ leavesOf e, (out l).2 = (out' l).2 ∧ (out l).1.map (fun o => { o with rule := σ o.rule }) = (out' l).1.map id := by
    intro l hl
    obtain ⟨ps, ps', tail, hp, e1, e2, e3, e4⟩ := leaf_reordered hok hok' h hb hties hl (h2 l hl).1 (h2' l hl).1
    rw [e1, e2, e3, e4]
    refine ⟨output_same (fun r r' hr => ?_) tail hp, reports_same (fun r r' hr => ?_) (fun r r' hr o => ?_) _ _ hp⟩
    · rw [hr.1, hr.2.1]
    · rw [hr.1, hr.2.1]; exact ⟨rfl, rfl⟩
    · simp only [id, hr.1, hr.2.2]
  have hG : rew G' e = rew G e := hE.rew_congr _ _ e hs.wf fun l hl _ => by rw [(h2 l hl).2, (h2' l hl).2, (key l hl).1]
  rw [hG] at h1'
  refine ⟨_, _, h1, ?_⟩
  rw [h1', List.map_flatMap]
  exact congrArg (fun x => Res.ok (rew G e, x)) (flatMap_congr fun l hl => ((key l hl).2.trans (List.map_id _)).symm)

end

/-! ## One more rule without redaction -/

/-- The matches of the rules with redaction do not depend on the others. -/
private theorem resolution_filter {mu : Nat → Bool} {ks res : List M} (h : IsResolution mu ks res) :
    IsResolution mu (ks.filter fun m => mu m.rule) (res.filter fun m => mu m.rule) := by
  constructor
  · intro m hm
    obtain ⟨h1, h2⟩ := List.mem_filter.1 hm
    exact List.mem_filter.2 ⟨h.1 m h1, h2⟩
  · intro m hm
    obtain ⟨h1, h2⟩ := List.mem_filter.1 hm
    have hmem : m ∈ res.filter (fun m => mu m.rule) ↔ m ∈ res := by rw [List.mem_filter]; exact ⟨And.left, fun h => ⟨h, h2⟩⟩
    rw [hmem, h.2 m h1]
    refine not_congr ⟨?_, ?_⟩
    · rintro ⟨r, hr, hh, ho⟩
      refine ⟨r, List.mem_filter.2 ⟨hr, ?_⟩, hh, ho⟩
      rcases hh with ⟨a, _⟩ | ⟨a, _⟩
      · exact a
      · exact a.trans h2
    · rintro ⟨r, hr, hh, ho⟩
      exact ⟨r, (List.mem_filter.1 hr).1, hh, ho⟩

/-- The pieces of the rules with redaction; the others become part of the gaps.  `g` is the gap so far. -/
def onlyRedacted (mu : Nat → Bool) (tail : Str) : Str → List Piece → List Piece × Str
  | g, [] => ([], g ++ tail)
  | g, p :: ps =>
    if mu p.rule then (⟨g ++ p.gap, p.text, p.rule⟩ :: (onlyRedacted mu tail [] ps).1, (onlyRedacted mu tail [] ps).2)
    else onlyRedacted mu tail (g ++ p.gap ++ p.text) ps

theorem onlyRedacted_spec (mu : Nat → Bool) (tail : Str) (f : Nat → Str → Str) (hf : ∀ r t, mu r = false → f r t = t)
    (units : Str → Nat) (I : Nat → RuleInfo) (rm : Bool) (path : Path) : ∀ (ps : List Piece) (g : Str),
    let q := onlyRedacted mu tail g ps
    input q.1 q.2 = g ++ input ps tail ∧ output f q.1 q.2 = g ++ output f ps tail ∧
      (∀ o, ranges o q.1 = (ranges (o + blen g) ps).filter fun m => mu m.rule) ∧
      ∀ inn out, reports units I f rm path inn out q.1 =
        (reports units I f rm path (inn ++ g) (out ++ g) ps).filter fun o => mu o.rule
  | [], g => ⟨rfl, rfl, fun _ => rfl, fun _ _ => rfl⟩
  | p :: ps, g => by
    dsimp only
    rw [onlyRedacted]
    by_cases hp : mu p.rule = true
    · rw [if_pos hp]
      obtain ⟨h1, h2, h3, h4⟩ := onlyRedacted_spec mu tail f hf units I rm path ps []
      refine ⟨by simp [input, h1], by simp [output, h2], fun o => ?_, fun inn out => ?_⟩
      · simp only [ranges, List.filter_cons, hp, h3, blen_append, blen_nil, Nat.add_zero, if_true, Nat.add_assoc]
      · simp only [reports, List.filter_cons, hp, h4, List.append_assoc, List.append_nil, if_true]
    · rw [if_neg hp]
      obtain ⟨h1, h2, h3, h4⟩ := onlyRedacted_spec mu tail f hf units I rm path ps (g ++ p.gap ++ p.text)
      have e := hf p.rule p.text (by simpa using hp)
      refine ⟨by rw [h1]; simp [input], by rw [h2]; simp [output, e], fun o => ?_, fun inn out => ?_⟩
      · rw [h3]
        simp only [ranges, List.filter_cons, hp, blen_append, Bool.false_eq_true, if_false, Nat.add_assoc]
      · rw [h4]
        simp only [reports, List.filter_cons, hp, List.append_assoc, Bool.false_eq_true, if_false, e]

theorem same_start : ∀ {l : List M}, l.Pairwise (fun a b => a.en ≤ b.st) → (∀ m ∈ l, m.st < m.en) →
    ∀ m ∈ l, ∀ m' ∈ l, m.st = m'.st → m = m'
  | [], _, _, _, h, _, _, _ => by cases h
  | a :: l, hp, hne, m, hm, m', hm', he => by
    obtain ⟨h1, h2⟩ := List.pairwise_cons.1 hp
    have ha := hne a List.mem_cons_self
    rcases List.mem_cons.1 hm with e | k <;> rcases List.mem_cons.1 hm' with e' | k'
    · rw [e, e']
    · have := h1 m' k'; rw [e] at he; omega
    · have := h1 m k; rw [e'] at he; omega
    · exact same_start h2 (fun x hx => hne x (List.mem_cons_of_mem _ hx)) m k m' k' he

theorem redacted_none {sc : Scanner} {r : Nat} (h : redacting sc r = false) (t : Str) :
    redacted sc.fp (infoOf sc r).action t = t := by
  unfold redacting at h
  have : (infoOf sc r).action = .none := by simpa using h
  rw [this]
  rfl

/-- The result of a string by the rules with redaction alone. -/
theorem leaf_redacted {enc : Enc} {sc : Scanner} {blocked : List Nat} {leaves : List Leaf} {l : Leaf} {os : List RuleMatch}
    {new : Str} (hr : LeafResult enc sc blocked leaves l os new) :
    ∃ (ks res : List M) (ps : List Piece) (tail : Str),
      (∀ m, m ∈ ks ↔ Kept sc blocked leaves l.path l.text m ∧ redacting sc m.rule = true) ∧
      IsResolution (redacting sc) ks res ∧ res.Pairwise (fun a b => a.en ≤ b.st) ∧ l.text = input ps tail ∧ res = ranges 0 ps ∧
      (os.filter fun o => redacting sc o.rule) =
        reports enc.units (infoOf sc) (fun r t => redacted sc.fp (infoOf sc r).action t) sc.returnMatches l.path [] [] ps ∧
      new = output (fun r t => redacted sc.fp (infoOf sc r).action t) ps tail := by
  obtain ⟨ks, res, ps, tail, h1, h2, h3, h4, h5, h6, h7⟩ := hr
  obtain ⟨q1, q2, q3, q4⟩ := onlyRedacted_spec (redacting sc) tail (fun r t => redacted sc.fp (infoOf sc r).action t)
    (fun r t h => redacted_none h t) enc.units (infoOf sc) sc.returnMatches l.path ps []
  refine ⟨_, _, _, _, fun m => ?_, resolution_filter h2, h3.filter _, h4.trans q1.symm, ?_, ?_, h7.trans q2.symm⟩
  · rw [List.mem_filter, h1]
  · rw [h5]; exact (q3 0).symm
  · rw [h6]; exact (q4 [] []).symm

section
variable {sc : Scanner} {rule : CRule} {blocked : List Nat}

theorem withRule_lt {r : Nat} {x : CRule} (h : sc.rules[r]? = some x) : (withRule sc rule).rules[r]? = some x := by
  obtain ⟨hl, _⟩ := List.getElem?_eq_some_iff.1 h
  show (sc.rules ++ [rule])[r]? = _
  rw [List.getElem?_append_left hl, h]

theorem withRule_cases {r : Nat} {x : CRule} (h : (withRule sc rule).rules[r]? = some x) :
    sc.rules[r]? = some x ∨ (sc.rules[r]? = none ∧ x = rule) := by
  have h : (sc.rules ++ [rule])[r]? = some x := h
  by_cases hl : r < sc.rules.length
  · rw [List.getElem?_append_left hl] at h; exact .inl h
  · rw [List.getElem?_append_right (by omega)] at h
    refine .inr ⟨List.getElem?_eq_none (by omega), ?_⟩
    have := List.mem_of_getElem? h
    simpa using this

private theorem withRule_info (hnone : rule.info.action = .none) (r : Nat) :
    (infoOf (withRule sc rule) r).action = (infoOf sc r).action := by
  unfold infoOf
  cases h : sc.rules[r]? with
  | some x => rw [withRule_lt h]
  | none =>
    cases h' : (withRule sc rule).rules[r]? with
    | none => rfl
    | some y =>
      rcases withRule_cases h' with h2 | ⟨_, rfl⟩
      · rw [h] at h2; cases h2
      · exact hnone

private theorem withRule_redacting (hnone : rule.info.action = .none) : redacting (withRule sc rule) = redacting sc := by
  funext r
  unfold redacting
  rw [withRule_info hnone]

private theorem redacting_rule {r : Nat} (h : redacting sc r = true) : ∃ x, sc.rules[r]? = some x := by
  unfold redacting infoOf at h
  cases hr : sc.rules[r]? with
  | none => rw [hr] at h; simp at h
  | some x => exact ⟨x, rfl⟩

private theorem found_withRule {leaves : List Leaf} (hrec : RecordsNothing sc.wildcards rule leaves) (t : Str) :
    FoundInExcluded (withRule sc rule) blocked leaves t ↔ FoundInExcluded sc blocked leaves t := by
  constructor
  · rintro ⟨l, hl, r, x, f, ⟨a, b, c, d⟩, h2, h3⟩
    rcases withRule_cases b with b' | ⟨_, rfl⟩
    · exact ⟨l, hl, r, x, f, ⟨a, b', c, d⟩, h2, h3⟩
    · rw [hrec l hl (d.1 rfl) f h2] at h3; cases h3
  · rintro ⟨l, hl, r, x, f, ⟨a, b, c, d⟩, h2, h3⟩
    exact ⟨l, hl, r, x, f, ⟨a, withRule_lt b, c, d⟩, h2, h3⟩

private theorem kept_withRule {leaves : List Leaf} (hrec : sc.multipassEnabled = true → RecordsNothing sc.wildcards rule leaves)
    {p : Path} {c : Str} {m : M} {x : CRule} (hx : sc.rules[m.rule]? = some x) :
    Kept (withRule sc rule) blocked leaves p c m ↔ Kept sc blocked leaves p c m := by
  have hx' := withRule_lt (rule := rule) hx
  have hc : Candidate (withRule sc rule) blocked p c m ↔ Candidate sc blocked p c m := by
    unfold Candidate Applies
    simp only [hx, hx']
    exact Iff.rfl
  have hs : Suppressed (withRule sc rule) blocked leaves c m ↔ Suppressed sc blocked leaves c m := by
    unfold Suppressed
    simp only [hx, hx']
    refine and_congr_right fun hm => ?_
    simp only [found_withRule (hrec hm)]
  unfold Kept
  rw [hc, hs]

variable {E : Type} {impl : EventImpl E} {wf : E → Prop} {leavesOf : E → List Leaf} {rew : (Path → Str → Str) → E → E}

/-- C104: a rule without redaction changes neither the event nor the reports of the rules with redaction, unless it records texts
in fields that are excluded for it (which the multi-pass heuristic then suppresses for all rules). -/
theorem C104_detect_only_partial (hE : LawfulEvent impl wf leavesOf rew) (hok : ScannerOk (withRule sc rule))
    (hnone : rule.info.action = .none) (e : E) (hs : Scannable wf leavesOf (withRule sc rule) blocked e)
    (hrec : sc.multipassEnabled = true → RecordsNothing sc.wildcards rule (leavesOf e)) :
    ∃ after os os', scan impl sc e blocked = Res.ok (after, os) ∧ scan impl (withRule sc rule) e blocked = Res.ok (after, os') ∧
      os'.filter (fun o => redacting sc o.rule) = os.filter (fun o => redacting sc o.rule) := by
  have hok0 : ScannerOk sc := fun x hx => hok x (List.mem_append_left _ hx)
  have hs0 : Scannable wf leavesOf sc blocked e :=
    ⟨hs.wf, fun x hx => hs.returns x (List.mem_append_left _ hx), fun l hl hf m ⟨x, f, ⟨a, b, c⟩, h⟩ =>
      hs.strings l hl hf m ⟨x, f, ⟨a, withRule_lt b, c⟩, h⟩⟩
  obtain ⟨out, G, h1, h2⟩ := C10_scan_result hE hok0 blocked e hs0
  obtain ⟨out', G', h1', h2'⟩ := C10_scan_result hE hok blocked e hs
  have key : ∀ l ∈ leavesOf e, (out' l).2 = (out l).2 ∧
      (out' l).1.filter (fun o => redacting sc o.rule) = (out l).1.filter (fun o => redacting sc o.rule) := by
    intro l hl
    obtain ⟨ks, res, ps, tail, a1, a2, a3, a4, a5, a6, a7⟩ := leaf_redacted (h2 l hl).1
    obtain ⟨ks', res', ps', tail', b1, b2, b3, b4, b5, b6, b7⟩ := leaf_redacted (h2' l hl).1
    rw [withRule_redacting hnone] at b1 b2 b6
    have hsame : ∀ m, m ∈ ks' ↔ m ∈ ks := by
      intro m
      rw [a1, b1]
      refine ⟨fun ⟨h, hr⟩ => ?_, fun ⟨h, hr⟩ => ?_⟩
      · obtain ⟨x, hx⟩ := redacting_rule hr
        exact ⟨(kept_withRule hrec hx).1 h, hr⟩
      · obtain ⟨x, hx⟩ := redacting_rule hr
        exact ⟨(kept_withRule hrec hx).2 h, hr⟩
    have hne : ∀ m ∈ ks, m.st < m.en := fun m hm => (((a1 m).1 hm).1.1.bounds hok0).1
    have hres := ordered_ext (fun m hm => hne m ((hsame m).1 (b2.1 m hm))) (fun m hm => hne m (a2.1 m hm)) b3 a3
      (isResolution_unique hsame b2 a2)
    rw [a5, b5] at hres
    obtain ⟨hp, rfl⟩ := samePieces (R := fun r r' => r = r' ∧ ∃ x, sc.rules[r]? = some x) (mu := redacting sc) (mu' := redacting sc)
      (b4.symm.trans a4) (by rw [hres]) fun m hm m' hm' e1 e2 e3 => by
        rw [hres, ← a5] at hm
        rw [← a5] at hm'
        exact ⟨congrArg M.rule (same_start a3 (fun m hm => hne m (a2.1 m hm)) m hm m' hm' e1),
          redacting_rule ((a1 m).1 (a2.1 m hm)).2⟩
    have hinfo : ∀ r r', (r = r' ∧ ∃ x, sc.rules[r]? = some x) → infoOf (withRule sc rule) r = infoOf sc r' := by
      rintro r _ ⟨rfl, x, hx⟩
      unfold infoOf
      rw [hx, withRule_lt hx]
    have hf : ∀ r r', (r = r' ∧ ∃ x, sc.rules[r]? = some x) →
        (fun t => redacted (withRule sc rule).fp (infoOf (withRule sc rule) r).action t) = fun t => redacted sc.fp (infoOf sc r').action t := fun r r' h => by rw [hinfo r r' h]; rfl
    rw [a6, b6, a7, b7]
    refine ⟨output_same hf _ hp, ?_⟩
    have := reports_same (units := impl.enc.units) (rm := sc.returnMatches) (path := l.path) (g := id) (g' := id)
      (I := infoOf (withRule sc rule)) (I' := infoOf sc)
      (fun r r' h => ⟨hf r r' h, hinfo r r' h⟩) (fun _ _ h _ => by rw [h.1]) [] [] hp
    rw [List.map_id, List.map_id] at this
    exact this
  have hG : rew G' e = rew G e := hE.rew_congr _ _ e hs.wf fun l hl _ => by rw [(h2 l hl).2, (h2' l hl).2, (key l hl).1]
  rw [hG] at h1'
  refine ⟨_, _, _, h1, h1', ?_⟩
  rw [List.filter_flatMap, List.filter_flatMap]
  exact flatMap_congr fun l hl => (key l hl).2

end

/-! ## Where order and rules without redaction matter -/

private def fld (s : String) : Seg := .field s.toList

private def fs : List (String × Ev) → Fields
  | [] => .nil
  | (k, v) :: r => .cons k.toList v (fs r)

private def fp : Fingerprint := ⟨fun s => s.length, fun s => s.length⟩

private def rl (t : String) (a : Action) (s : Scope) : CRule :=
  RegexRule.toCRule ⟨textRx t.toList, none, none, none⟩ ⟨a, false⟩ s false (fun c => blen c + 1)

private def ev (s id : String) : Ev := .map (fs [("n", .str s.toList), ("id", .str id.toList)])

private def texts (r : Res (Ev × List RuleMatch)) : Res (List Str × List Nat) :=
  r.map fun x => ((x.1.leaves false).map (·.text), x.2.map (·.rule))

/-- C104, finding: two rules with redaction that match the same text.  The first in the list decides what the text becomes. -/
theorem C104_tie_depends_on_order :
    let a := rl "a@b" (.redact "#".toList) (.excl [])
    let b := rl "a@b" (.partialLast 1) (.excl [])
    texts (scan jsonEvent ⟨[a, b], false, false, true, fp⟩ (ev "x a@b" "") []) = Res.ok (["x #".toList, []], [0]) ∧
    texts (scan jsonEvent ⟨[b, a], false, false, true, fp⟩ (ev "x a@b" "") []) = Res.ok (["x a@*".toList, []], [0]) := by
  decide +kernel

/-- C104, finding: with the multi-pass heuristic a rule without redaction that excludes the field `id` keeps another rule from
redacting what occurs there. -/
theorem C104_detect_only_suppresses :
    let sc : Scanner := ⟨[rl "a@b" (.redact "#".toList) (.incl [[fld "n"]] [])], false, true, true, fp⟩
    let rule := rl "a@b" .none (.excl [[fld "id"]])
    rule.info.action = .none ∧
    texts (scan jsonEvent sc (ev "x a@b" "a@b") []) = Res.ok (["x #".toList, "a@b".toList], [0]) ∧
    texts (scan jsonEvent (withRule sc rule) (ev "x a@b" "a@b") []) = Res.ok (["x a@b".toList, "a@b".toList], []) := by
  decide +kernel

/-- C104, finding: one more rule with redaction can uncover a text that was redacted without it. -/
theorem C104_redacting_uncovers :
    let sc : Scanner := ⟨[rl "b:c" (.redact "#".toList) (.excl [])], false, false, true, fp⟩
    texts (scan jsonEvent sc (ev "a@b:c" "") []) = Res.ok (["a@#".toList, []], [0]) ∧
    texts (scan jsonEvent (withRule sc (rl "a@b" (.redact "#".toList) (.excl []))) (ev "a@b:c" "") []) =
      Res.ok (["#:c".toList, []], [1]) := by
  decide +kernel

/-! ## Example -/

private def r0 := rl "a@b" (.redact "#".toList) (.excl [])
private def r1 := rl "b:c" (.redact "##".toList) (.excl [])
private def r2 := rl "@" .none (.excl [[fld "id"]])
private def sc012 : Scanner := ⟨[r0, r1, r2], false, false, true, fp⟩
private def sc210 : Scanner := ⟨[r2, r1, r0], false, false, true, fp⟩

private theorem rl_ok {t : String} (ht : t.toList ≠ []) {a : Action} (ha : a ≠ .partialFirst 0 ∧ a ≠ .partialLast 0) (s : Scope) :
    RuleOk (rl t a s) :=
  regexRule_ok (textRx_ok _ ht).1 (textRx_ok _ ht).2 (by intro k hk; cases hk) (by intro c; omega) ha _ false

private theorem rl_returns {t : String} (ht : t.toList ≠ []) (a : Action) (s : Scope) (c : Str) (p : Path) (ex : Bool) :
    ∃ f, (rl t a s).run c p ex = Res.ok f :=
  stringMatches_returns (r := ⟨textRx _, none, none, none⟩) (textRx_ok _ ht).1 (textRx_ok _ ht).2
    (by intro k hk; cases hk) false ex (by intro _ x hx; cases hx) p (Nat.lt_succ_self _)

private theorem sc012_ok : ScannerOk sc012 := by
  intro rule h
  simp only [sc012, List.mem_cons, List.not_mem_nil, or_false] at h
  rcases h with rfl | rfl | rfl
  · exact rl_ok (by simp) (by simp) _
  · exact rl_ok (by simp) (by simp) _
  · exact rl_ok (by simp) (by simp) _

private theorem sc012_scannable : Scannable WellKeyed (Ev.leaves false) sc012 [] (ev "a@b:c @" "@") where
  wf := by simp [ev, fs, WellKeyed, WellKeyedFields, keys]
  returns := by
    intro rule h l _ ex
    simp only [sc012, List.mem_cons, List.not_mem_nil, or_false] at h
    rcases h with rfl | rfl | rfl
    · exact rl_returns (by simp) _ _ _ _ _
    · exact rl_returns (by simp) _ _ _ _ _
    · exact rl_returns (by simp) _ _ _ _ _
  strings := by
    intro l hl hf
    have hall : ∀ l ∈ Ev.leaves false (ev "a@b:c @" "@"), l.fixed = false := by decide +kernel
    rw [hall l hl] at hf
    cases hf

private theorem reordered : Reordered sc012 sc210 (2 - ·) (2 - ·) := by
  have h : ∀ i rule, sc012.rules[i]? = some rule → sc210.rules[2 - i]? = some rule ∧ 2 - (2 - i) = i := by
    rintro (_ | _ | _ | i) rule h <;> first | exact ⟨h, rfl⟩ | cases h
  have h' : ∀ i rule, sc210.rules[i]? = some rule → sc012.rules[2 - i]? = some rule ∧ 2 - (2 - i) = i := by
    rintro (_ | _ | _ | i) rule h <;> first | exact ⟨h, rfl⟩ | cases h
  exact ⟨h, h', rfl, rfl, rfl, rfl⟩

private def matchesOf (r : Nat) (l : Leaf) : List (Nat × Nat) :=
  match sc012.rules[r]? with
  | none => []
  | some rule => match rule.run l.text l.path false with
    | .ok f => f.matches_
    | _ => []

private theorem kept_matches {leaves : List Leaf} {l : Leaf} {m : M} (hk : Kept sc012 [] leaves l.path l.text m) :
    m.rule < 3 ∧ (m.st, m.en) ∈ matchesOf m.rule l := by
  obtain ⟨⟨rule, f, ⟨_, h1, _⟩, h2, h3⟩, _⟩ := hk
  refine ⟨(List.getElem?_eq_some_iff.1 h1).1, ?_⟩
  unfold matchesOf
  rw [h1]
  simp only [h2]
  exact h3

private theorem no_ties : Ties sc012 [] ((ev "a@b:c @" "@").leaves false) fun r r' => r = r' := by
  have h : ((ev "a@b:c @" "@").leaves false).all (fun l => [0, 1, 2].all fun r => [0, 1, 2].all fun r' =>
      (matchesOf r l).all fun x => !(matchesOf r' l).contains x || r == r') = true := by decide +kernel
  intro l hl m m' hk hk' e1 e2 _
  obtain ⟨h1, h2⟩ := kept_matches hk
  obtain ⟨h3, h4⟩ := kept_matches hk'
  rw [← e1, ← e2] at h4
  have mem : ∀ r, r < 3 → r ∈ [0, 1, 2] := by decide
  have := List.all_eq_true.1 (List.all_eq_true.1 (List.all_eq_true.1 (List.all_eq_true.1 h l hl) _ (mem _ h1)) _ (mem _ h3)) _ h2
  rw [List.contains_iff_mem.2 h4] at this
  simpa using this

/-- The hypotheses of the theorems on the order are met: the order of three rules is reversed, two of which overlap.  The reports
have the new numbers. -/
example : LawfulEvent jsonEvent WellKeyed (Ev.leaves false) rewrite ∧ ScannerOk sc012 ∧
    Scannable WellKeyed (Ev.leaves false) sc012 [] (ev "a@b:c @" "@") ∧ Reordered sc012 sc210 (2 - ·) (2 - ·) ∧
    SameBlocked sc012 (2 - ·) [] [] ∧ Ties sc012 [] ((ev "a@b:c @" "@").leaves false) (fun r r' => r = r') ∧
    Ties sc012 [] ((ev "a@b:c @" "@").leaves false) (fun r r' => infoOf sc012 r = infoOf sc012 r') ∧
    texts (scan jsonEvent sc012 (ev "a@b:c @" "@") []) = Res.ok (["#:c @".toList, "@".toList], [0, 2]) ∧
    texts (scan jsonEvent sc210 (ev "a@b:c @" "@") []) = Res.ok (["#:c @".toList, "@".toList], [2, 0]) :=
  ⟨jsonEvent_lawful, sc012_ok, sc012_scannable, reordered, fun _ _ _ => ⟨nofun, nofun⟩, no_ties,
    fun l hl m m' a b c d e => congrArg _ (no_ties l hl m m' a b c d e), by decide +kernel⟩

private def sc01 : Scanner := ⟨[r0, r1], false, false, true, fp⟩

/-- The hypotheses of the theorem on a rule without redaction are met. -/
example : ScannerOk (withRule sc01 r2) ∧ r2.info.action = .none ∧
    Scannable WellKeyed (Ev.leaves false) (withRule sc01 r2) [] (ev "a@b:c @" "@") ∧
    texts (scan jsonEvent sc01 (ev "a@b:c @" "@") []) = Res.ok (["#:c @".toList, "@".toList], [0]) ∧
    texts (scan jsonEvent (withRule sc01 r2) (ev "a@b:c @" "@") []) = Res.ok (["#:c @".toList, "@".toList], [0, 2]) ∧
    RecordsNothing false r2 ((ev "a@b:c @" "x").leaves false) := by
  refine ⟨sc012_ok, rfl, sc012_scannable, by decide +kernel, by decide +kernel, ?_⟩
  intro l hl ⟨q, hq, pre, rest, hp, hpre⟩ f hf
  cases List.mem_singleton.1 hq
  have hpre : pre = [fld "id"] := hpre
  subst hpre
  have hall : ∀ l ∈ (ev "a@b:c @" "x").leaves false, l.path.head? = some (fld "id") → l.text = "x".toList ∧ l.path = [fld "id"] := by
    decide +kernel
  obtain ⟨h1, h2⟩ := hall l hl (by rw [hp]; rfl)
  rw [h1, h2] at hf
  have hrun : (r2.run "x".toList [fld "id"] true).map (·.inserted) = Res.ok [] := by decide +kernel
  rw [hf] at hrun
  exact Res.ok.inj hrun

end Sds.Props
