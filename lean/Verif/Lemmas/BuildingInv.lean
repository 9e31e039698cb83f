import Verif.Lemmas.Building

/-! # Invariants of a process that builds scanners -/

namespace Sds
open Spec Props

variable {V : Type} {E : Factories V} {A : List RuleCfg → Prop}

/-- A change of one call of `build`. -/
private theorem set_cases {l : List Build} {i j : Nat} {b b' x : Build} (_ : l[i]? = some b) (h : (l.set i b')[j]? = some x) :
    (j = i ∧ x = b') ∨ (j ≠ i ∧ l[j]? = some x) := by
  rcases getElem?_set_cases h with ⟨h1, h2⟩ | ⟨h1, h2⟩
  · exact .inl ⟨h1, h2⟩
  · exact .inr ⟨h1, h2⟩

private theorem append_cases {l : List Build} {j : Nat} {b x : Build} (h : (l ++ [b])[j]? = some x) :
    (j < l.length ∧ l[j]? = some x) ∨ (j = l.length ∧ x = b) := by
  by_cases hj : j < l.length
  · rw [List.getElem?_append_left hj] at h
    exact .inl ⟨hj, h⟩
  · rw [List.getElem?_append_right (by omega)] at h
    cases hk : j - l.length with
    | zero =>
      rw [hk] at h
      cases h
      exact .inr ⟨by omega, rfl⟩
    | succ k =>
      rw [hk] at h
      cases h

/-- Only the state of one call of `build` changes. -/
private theorem procInv_pc {s : Builders V} (hi : ProcInv E A s) {i : Nat} {b : Build} (hb : s.builds[i]? = some b) {pc : BuildPc}
    (hp : PlainInv E s.world { b with pc := pc }) : ProcInv E A { s with builds := s.builds.set i { b with pc := pc } } where
  world := hi.world
  calls := by
    intro j x hx
    rcases set_cases hb hx with ⟨rfl, rfl⟩ | ⟨_, hx⟩
    · exact hi.calls j b hb
    · exact hi.calls j x hx
  apart := by
    intro j k x y hx hy hjk
    rcases set_cases hb hx with ⟨rfl, rfl⟩ | ⟨_, hx'⟩
    · rcases set_cases hb hy with ⟨rfl, rfl⟩ | ⟨_, hy⟩
      · exact absurd rfl hjk
      · exact hi.apart j k b y hb hy hjk
    · rcases set_cases hb hy with ⟨rfl, rfl⟩ | ⟨_, hy⟩
      · exact hi.apart j k x b hx' hb hjk
      · exact hi.apart j k x y hx' hy hjk
  allowed := by
    intro j x hx
    rcases set_cases hb hx with ⟨rfl, rfl⟩ | ⟨_, hx⟩
    · exact hi.allowed j b hb
    · exact hi.allowed j x hx
  plain := by
    intro j x hx
    rcases set_cases hb hx with ⟨rfl, rfl⟩ | ⟨_, hx⟩
    · exact hp
    · exact hi.plain j x hx

/-- A build that waits for calls that are still what they were. -/
private theorem plain_world {w w' : World V} {b : Build} (h : PlainInv E w b)
    (hw : ∀ c ∈ b.calls, ∀ pc p f, w.threads[c]? = some pc → pc.For p f → ∃ pc', w'.threads[c]? = some pc' ∧ pc'.For p f) :
    PlainInv E w' b := by
  unfold PlainInv at *
  split
  · rename_i prog hpc
    rw [hpc] at h
    exact h
  · rename_i c kind p k hpc
    rw [hpc] at h
    obtain ⟨h1, h2, pc, h3, h4⟩ := h
    exact ⟨h1, h2, hw c h1 pc p _ h3 h4⟩
  · rename_i hpc
    rw [hpc] at h
    exact h
  · trivial

private theorem over_plain {w w' : World V} {b : Build} (h : b.over) (hp : PlainInv E w b) : PlainInv E w' b := by
  obtain ⟨rules, calls, pc⟩ := b
  cases pc with
  | running prog => exact absurd h id
  | waiting c kind p k => exact absurd h id
  | returned r => exact trivial
  | panicked => exact hp
  | dropped => exact trivial

theorem procInv_step {s s' : Builders V} (hi : ProcInv E A s) (hs : BuildStep E A s s') : ProcInv E A s' := by
  cases hs with
  | create rules ha =>
    refine ⟨hi.world, ?_, ?_, ?_, ?_⟩
    · intro j x hx
      rcases append_cases hx with ⟨_, hx⟩ | ⟨_, rfl⟩
      · exact hi.calls j x hx
      · intro c hc; cases hc
    · intro j k x y hx hy hjk
      rcases append_cases hx with ⟨_, hx⟩ | ⟨_, rfl⟩
      · rcases append_cases hy with ⟨_, hy⟩ | ⟨_, rfl⟩
        · exact hi.apart j k x y hx hy hjk
        · intro c _ hc; cases hc
      · intro c hc; cases hc
    · intro j x hx
      rcases append_cases hx with ⟨_, hx⟩ | ⟨_, rfl⟩
      · exact hi.allowed j x hx
      · exact ha
    · intro j x hx
      rcases append_cases hx with ⟨_, hx⟩ | ⟨_, rfl⟩
      · exact hi.plain j x hx
      · exact buildProg_only rules
  | ask i b kind p k hb hpc =>
    have hpl := hi.plain i b hb
    unfold PlainInv at hpl
    rw [hpc] at hpl
    have hask : AskedBy b.rules kind p := by
      cases hpl with
      | ask _ _ _ h _ => exact h
    have hold : ∀ {x : Build} {j : Nat}, s.builds[j]? = some x → PlainInv E { s.world with threads := s.world.threads ++ [Pc.start p (E.of kind)] } x := by
      intro x j hx
      refine plain_world (hi.plain j x hx) fun c hc pc q f h1 h2 => ⟨pc, ?_, h2⟩
      show (s.world.threads ++ _)[c]? = _
      rw [List.getElem?_append_left (List.getElem?_eq_some_iff.mp h1).1]
      exact h1
    refine ⟨.step hi.world (.spawn _ _ _ ⟨b.rules, kind, hi.allowed i b hb, hask, rfl⟩), ?_, ?_, ?_, ?_⟩
    · intro j x hx c hc
      show c < (s.world.threads ++ _).length
      rw [List.length_append]
      rcases set_cases hb hx with ⟨rfl, rfl⟩ | ⟨_, hx⟩
      · rcases List.mem_cons.mp hc with rfl | hc
        · simp
        · have := hi.calls j b hb c hc
          omega
      · have := hi.calls j x hx c hc
        omega
    · intro j l x y hx hy hjl c hc hc'
      rcases set_cases hb hx with ⟨rfl, rfl⟩ | ⟨_, hx'⟩
      · rcases set_cases hb hy with ⟨rfl, rfl⟩ | ⟨_, hy⟩
        · exact absurd rfl hjl
        · rcases List.mem_cons.mp hc with rfl | hc
          · exact absurd (hi.calls l y hy _ hc') (Nat.lt_irrefl _)
          · exact hi.apart j l b y hb hy hjl c hc hc'
      · rcases set_cases hb hy with ⟨rfl, rfl⟩ | ⟨_, hy⟩
        · rcases List.mem_cons.mp hc' with rfl | hc'
          · exact absurd (hi.calls j x hx' _ hc) (Nat.lt_irrefl _)
          · exact hi.apart j l x b hx' hb hjl c hc hc'
        · exact hi.apart j l x y hx' hy hjl c hc hc'
    · intro j x hx
      rcases set_cases hb hx with ⟨rfl, rfl⟩ | ⟨_, hx⟩
      · exact hi.allowed j b hb
      · exact hi.allowed j x hx
    · intro j x hx
      rcases set_cases hb hx with ⟨rfl, rfl⟩ | ⟨_, hx⟩
      · refine ⟨List.mem_cons_self, hpl, Pc.start p (E.of kind), ?_, rfl, rfl⟩
        show (s.world.threads ++ _)[_]? = _
        rw [List.getElem?_append_right (Nat.le_refl _), Nat.sub_self]
        rfl
      · exact hold hx
  | store w' hint =>
    refine ⟨.step hi.world (internal_step hint), ?_, hi.apart, hi.allowed, ?_⟩
    · intro j x hx c hc
      show c < w'.threads.length
      rw [hint.calls]
      exact hi.calls j x hx c hc
    · intro j x hx
      exact plain_world (hi.plain j x hx) fun c _ pc p f h1 h2 => internal_for hint h1 h2
  | answer i b c kind p k h hb hpc ht =>
    refine procInv_pc hi hb ?_
    have hpl := hi.plain i b hb
    unfold PlainInv at hpl
    rw [hpc] at hpl
    cases hpl.2.1 with
    | ask _ _ _ _ hk => exact hk c
  | refuse i b c p k e hb hpc ht he => exact procInv_pc hi hb trivial
  | crash i b c p k hb hpc ht =>
    refine procInv_pc hi hb ?_
    have hpl := hi.plain i b hb
    unfold PlainInv at hpl
    rw [hpc] at hpl
    obtain ⟨_, ho, pc, hpc', hf⟩ := hpl
    rw [ht] at hpc'
    cases hpc'
    cases ho with
    | ask _ _ _ h _ => exact ⟨p, h, hf.2⟩
  | panic i b hb hpc =>
    have hpl := hi.plain i b hb
    unfold PlainInv at hpl
    rw [hpc] at hpl
    cases hpl
  | finish i b r hb hpc => exact procInv_pc hi hb trivial
  | drop i b sc hb hpc => exact procInv_pc hi hb trivial
  | release i b c p h hb ho hc ht =>
    refine ⟨.step hi.world (.drop _ c p h ht), ?_, hi.apart, hi.allowed, ?_⟩
    · intro j x hx d hd
      show d < (s.world.threads.set c Pc.done).length
      rw [List.length_set]
      exact hi.calls j x hx d hd
    · intro j x hx
      by_cases hj : j = i
      · subst hj
        rw [hb] at hx
        cases hx
        exact over_plain ho (hi.plain j b hb)
      · refine plain_world (hi.plain j x hx) fun d hd pc q f h1 h2 => ⟨pc, ?_, h2⟩
        have hne : c ≠ d := by
          rintro rfl
          exact hi.apart i j b x hb hx (fun e => hj e.symm) c hc hd
        show (s.world.threads.set c Pc.done)[d]? = _
        rw [List.getElem?_set_ne hne]
        exact h1

theorem procInv {s : Builders V} (h : BuildReach E A s) : ProcInv E A s := by
  induction h with
  | init =>
    have hn : ∀ (i : Nat) b, (Builders.init V).builds[i]? = some b → False := by intro i b h; cases h
    exact ⟨.init, fun i b h => (hn i b h).elim, fun i j b b' h => (hn i b h).elim, fun i b h => (hn i b h).elim,
      fun i b h => (hn i b h).elim⟩
  | step _ hs ih => exact procInv_step ih hs

/-! ## With factories that agree -/

private theorem replays_world {w w' : World V} {b : Build} {prog : Prog Nat (StoredScanner Nat)} (h : Replays E w b prog)
    (hw : ∀ c ∈ b.calls, ∀ v, regexOfCall w c = some v → regexOfCall w' c = some v) : Replays E w' b prog := by
  obtain ⟨cs, vs, h1, h2, h3, h4⟩ := h
  refine ⟨cs, vs, h1, ?_, h3, h4⟩
  rw [← h2]
  refine List.map_congr_left fun c hc => ?_
  have : regexOfCall w c ∈ vs.map some := by
    rw [← h2]
    exact List.mem_map_of_mem hc
  obtain ⟨v, _, hv⟩ := List.mem_map.mp this
  rw [← hv, hw c (h1 c hc) v hv.symm]

private theorem buildInv_world {w w' : World V} {b : Build} (h : BuildInv E w b)
    (hw : ∀ c ∈ b.calls, ∀ v, regexOfCall w c = some v → regexOfCall w' c = some v) : BuildInv E w' b := by
  obtain ⟨rules, calls, pc⟩ := b
  cases pc with
  | running prog => exact replays_world h hw
  | waiting c kind p k => exact ⟨h.1, replays_world h.2 hw⟩
  | returned r =>
    cases r with
    | ok sc => exact replays_world h hw
    | error e => exact h
  | panicked => exact trivial
  | dropped => exact trivial

/-- The answers so far make the same program with regexes in place of calls. -/
private theorem replays_ask {w : World V} {b : Build} {kind : AskKind} {p : Str} {k : Nat → Prog Nat (StoredScanner Nat)}
    {cs : List Nat} {vs : List V} (h2 : cs.map (regexOfCall w) = vs.map some)
    (h3 : (buildProg b.rules).resume cs = .ask kind p k) :
    ∃ k', (buildProg (H := V) b.rules).resume vs = .ask kind p k' := by
  have i1 := (buildProg_image (regexOfCall w) b.rules).resume cs
  have i2 := (buildProg_image (some : V → Option V) b.rules).resume vs
  rw [h3, h2] at i1
  generalize hq : (buildProg (H := Option V) b.rules).resume (vs.map some) = q at i1 i2
  generalize hr : (buildProg (H := V) b.rules).resume vs = r at i2
  cases i1 with
  | ask _ _ _ k1 _ =>
    cases i2 with
    | ask _ _ k2 _ _ => exact ⟨k2, rfl⟩

private theorem replays_done {w : World V} {b : Build} {sc : StoredScanner Nat} (h : Replays E w b (.done (.ok sc))) :
    ∃ t : StoredScanner V, (buildProg b.rules).run E = .ok (.ok t) ∧ sc.map (regexOfCall w) = t.map some := by
  obtain ⟨cs, vs, _, h2, h3, h4⟩ := h
  have i1 := (buildProg_image (regexOfCall w) b.rules).resume cs
  have i2 := (buildProg_image (some : V → Option V) b.rules).resume vs
  rw [h3, h2] at i1
  generalize hq : (buildProg (H := Option V) b.rules).resume (vs.map some) = q at i1 i2
  generalize hr : (buildProg (H := V) b.rules).resume vs = r at i2 h4
  generalize hx : sc.map (regexOfCall w) = x at i1
  cases i1 with
  | ok _ =>
    generalize hy : (Prog.done (Except.ok (sc.map (regexOfCall w))) : Prog (Option V) (StoredScanner (Option V))) = y at i2
    cases i2 with
    | ok t =>
      refine ⟨t, h4.symm, ?_⟩
      rw [← hx]
      injection hy with hy
      injection hy
    | error => injection hy with hy; cases hy
    | ask => cases hy
    | panic => cases hy

private theorem replays_error {w : World V} {b : Build} {e : CreateErr} (h : Replays E w b (.done (.error e))) :
    (buildProg b.rules).run E = .ok (.error e) := by
  obtain ⟨cs, vs, _, h2, h3, h4⟩ := h
  have i1 := (buildProg_image (regexOfCall w) b.rules).resume cs
  have i2 := (buildProg_image (some : V → Option V) b.rules).resume vs
  rw [h3, h2] at i1
  generalize hq : (buildProg (H := Option V) b.rules).resume (vs.map some) = q at i1 i2
  generalize hr : (buildProg (H := V) b.rules).resume vs = r at i2 h4
  cases i1 with
  | error _ =>
    cases i2 with
    | error _ => exact h4.symm

theorem buildInv_step (hc : NoClash E A) {s s' : Builders V} (hi : ProcInv E A s)
    (hb : ∀ (i : Nat) b, s.builds[i]? = some b → BuildInv E s.world b) (hs : BuildStep E A s s') :
    ∀ (i : Nat) b, s'.builds[i]? = some b → BuildInv E s'.world b := by
  cases hs with
  | create rules ha =>
    intro j x hx
    rcases append_cases hx with ⟨_, hx⟩ | ⟨_, rfl⟩
    · exact hb j x hx
    · refine ⟨[], [], by simp, rfl, ?_, ?_⟩
      · show (buildProg rules).resume [] = buildProg rules
        cases buildProg (H := Nat) rules <;> rfl
      · show ((buildProg rules).resume []).run E = (buildProg rules).run E
        cases buildProg (H := V) rules <;> rfl
  | ask i b kind p k hbi hpc =>
    have hw : ∀ {x : Build} {j : Nat}, s.builds[j]? = some x → ∀ (c : Nat), c ∈ x.calls →
        (s.world.threads ++ [Pc.start p (E.of kind)])[c]? = s.world.threads[c]? := by
      intro x j hx c hc
      rw [List.getElem?_append_left (hi.calls j x hx c hc)]
    have hrc : ∀ {x : Build} {j : Nat}, s.builds[j]? = some x → ∀ c ∈ x.calls, ∀ v, regexOfCall s.world c = some v →
        regexOfCall { s.world with threads := s.world.threads ++ [Pc.start p (E.of kind)] } c = some v := by
      intro x j hx c hc v hv
      refine regexOfCall_kept (w := s.world) (l := []) (List.append_nil _).symm (fun q h ht => ?_) hv
      exact (hw hx c hc).trans ht
    intro j x hx
    rcases set_cases hbi hx with ⟨rfl, rfl⟩ | ⟨_, hx⟩
    · have h0 := hb j b hbi
      unfold BuildInv at h0
      rw [hpc] at h0
      obtain ⟨cs, vs, h1, h2, h3, h4⟩ := replays_world h0 (hrc hbi)
      exact ⟨List.mem_cons_self, cs, vs, fun c hc => List.mem_cons_of_mem _ (h1 c hc), h2, h3, h4⟩
    · exact buildInv_world (hb j x hx) (hrc hx)
  | store w' hint =>
    intro j x hx
    obtain ⟨l, hl⟩ := step_regs hint.step
    refine buildInv_world (hb j x hx) fun c _ v hv => ?_
    exact regexOfCall_kept hl (fun p h ht => hint.kept c p h ht) hv
  | answer i b c kind p k h hbi hpc ht =>
    intro j x hx
    rcases set_cases hbi hx with ⟨rfl, rfl⟩ | ⟨_, hx⟩
    · have h0 := hb j b hbi
      unfold BuildInv at h0
      rw [hpc] at h0
      obtain ⟨hcc, cs, vs, h1, h2, h3, h4⟩ := h0
      obtain ⟨k', hk'⟩ := replays_ask h2 h3
      have hpl := hi.plain j b hbi
      unfold PlainInv at hpl
      rw [hpc] at hpl
      have hask : AskedBy b.rules kind p := by
        cases hpl.2.1 with
        | ask _ _ _ h _ => exact h
      obtain ⟨v, f, hv, hf, hfp⟩ := (C42_one_regex_per_pattern hi.world (i := c) ht).2
      have hEv : E.of kind p = some v := by
        rw [← hfp]
        exact uses_agree hc ⟨b.rules, kind, hi.allowed j b hbi, hask, rfl⟩ hf
      refine ⟨cs ++ [c], vs ++ [v], ?_, ?_, Prog.resume_append _ _ _ h3, ?_⟩
      · intro d hd
        rcases List.mem_append.mp hd with hd | hd
        · exact h1 d hd
        · rw [List.mem_singleton.mp hd]
          exact hcc
      · rw [List.map_append, List.map_append, h2]
        congr 1
        show [regexOfCall s.world c] = [some v]
        rw [regexOfCall_holds ht hv]
      · show ((buildProg b.rules).resume (vs ++ [v])).run E = _
        rw [Prog.resume_append _ _ _ hk', ← h4, hk']
        cases kind with
        | rule =>
          simp only [Prog.run]
          simp only [Factories.of] at hEv
          cases he : E.rule p with
          | ok v' => rw [he] at hEv; cases hEv; rfl
          | error e => rw [he] at hEv; cases hEv
        | keyword =>
          simp only [Prog.run]
          simp only [Factories.of] at hEv
          rw [hEv]
    · exact hb j x hx
  | refuse i b c p k e hbi hpc ht he =>
    intro j x hx
    rcases set_cases hbi hx with ⟨rfl, rfl⟩ | ⟨_, hx⟩
    · have h0 := hb j b hbi
      unfold BuildInv at h0
      rw [hpc] at h0
      obtain ⟨hcc, cs, vs, h1, h2, h3, h4⟩ := h0
      obtain ⟨k', hk'⟩ := replays_ask h2 h3
      show (buildProg b.rules).run E = _
      rw [← h4, hk']
      simp only [Prog.run, he]
    · exact hb j x hx
  | crash i b c p k hbi hpc ht =>
    intro j x hx
    rcases set_cases hbi hx with ⟨rfl, rfl⟩ | ⟨_, hx⟩
    · exact trivial
    · exact hb j x hx
  | panic i b hbi hpc =>
    intro j x hx
    rcases set_cases hbi hx with ⟨rfl, rfl⟩ | ⟨_, hx⟩
    · exact trivial
    · exact hb j x hx
  | finish i b r hbi hpc =>
    intro j x hx
    rcases set_cases hbi hx with ⟨rfl, rfl⟩ | ⟨_, hx⟩
    · have h0 := hb j b hbi
      unfold BuildInv at h0
      rw [hpc] at h0
      cases r with
      | ok sc => exact h0
      | error e => exact replays_error h0
    · exact hb j x hx
  | drop i b sc hbi hpc =>
    intro j x hx
    rcases set_cases hbi hx with ⟨rfl, rfl⟩ | ⟨_, hx⟩
    · exact trivial
    · exact hb j x hx
  | release i b c p h hbi ho hcb ht =>
    intro j x hx
    by_cases hj : j = i
    · subst hj
      rw [hbi] at hx
      cases hx
      have h0 := hb j b hbi
      obtain ⟨rules, calls, pc⟩ := b
      cases pc with
      | running prog => exact absurd ho id
      | waiting c kind p k => exact absurd ho id
      | returned r =>
        cases r with
        | ok sc => exact absurd ho id
        | error e => exact h0
      | panicked => exact trivial
      | dropped => exact trivial
    · have hne : ∀ d ∈ x.calls, (s.world.threads.set c Pc.done)[d]? = s.world.threads[d]? := by
        intro d hd
        rw [List.getElem?_set_ne]
        rintro rfl
        exact hi.apart i j b x hbi hx (fun e => hj e.symm) c hcb hd
      refine buildInv_world (hb j x hx) fun d hd v hv => ?_
      exact regexOfCall_kept (w := s.world) (l := []) (List.append_nil _).symm (fun q h ht => (hne d hd).trans ht) hv

theorem buildInv (hc : NoClash E A) {s : Builders V} (h : BuildReach E A s) :
    ∀ (i : Nat) b, s.builds[i]? = some b → BuildInv E s.world b := by
  induction h with
  | init => intro i b h; cases h
  | step hr hs ih => exact buildInv_step hc (procInv hr) ih hs

/-- How a build ends is what its program gives with the factories alone. -/
theorem outcome_run (hc : NoClash E A) {s : Builders V} (h : BuildReach E A s) {b : Build} (hb : b ∈ s.builds)
    {o : Except CreateErr (StoredScanner V)} (ho : Outcome s b o) : (buildProg b.rules).run E = .ok o := by
  obtain ⟨i, hi⟩ := List.getElem?_of_mem hb
  have h0 := buildInv hc h i b hi
  unfold BuildInv at h0
  cases o with
  | error e =>
    have ho : b.pc = .returned (.error e) := ho
    rw [ho] at h0
    exact h0
  | ok t =>
    obtain ⟨sc, hp, hm⟩ := ho
    rw [hp] at h0
    obtain ⟨t', h1, h2⟩ := replays_done h0
    rw [h2] at hm
    have : t' = t := by
      obtain ⟨rs, vs, ret⟩ := t
      obtain ⟨rs', vs', ret'⟩ := t'
      simp only [StoredScanner.map, StoredScanner.mk.injEq] at hm
      obtain ⟨hm, rfl, rfl⟩ := hm
      congr 1
      have hinj : ∀ a b : StoredRule V, a.map some = b.map some → a = b := by
        rintro ⟨i1, r1, a1, n1, x1, v1, t1⟩ ⟨i2, r2, a2, n2, x2, v2, t2⟩ h
        simp only [StoredRule.map, StoredRule.mk.injEq, Option.some.injEq] at h
        obtain ⟨rfl, rfl, rfl, hn, hx, rfl, rfl⟩ := h
        have hopt : ∀ a b : Option (V × V), a.map (fun x => (some x.1, some x.2)) = b.map (fun x => (some x.1, some x.2)) → a = b := by
          intro a b h
          cases a with
          | none => cases b with
            | none => rfl
            | some y => cases h
          | some x => cases b with
            | none => cases h
            | some y =>
              obtain ⟨x1, x2⟩ := x
              obtain ⟨y1, y2⟩ := y
              simpa using h
        rw [hopt _ _ hn, hopt _ _ hx]
      clear h1 h2 hp h0
      induction rs' generalizing rs with
      | nil => cases rs with
        | nil => rfl
        | cons => cases hm
      | cons a l ih => cases rs with
        | nil => cases hm
        | cons b l' =>
          obtain ⟨e1, e2⟩ := List.cons.inj hm
          rw [hinj _ _ e1, ih _ e2]
    rw [h1, this]

/-- A scanner that has been returned and not been dropped has all of its regexes. -/
theorem returned_outcome (hc : NoClash E A) {s : Builders V} (h : BuildReach E A s) {b : Build} (hb : b ∈ s.builds)
    {r : Except CreateErr (StoredScanner Nat)} (hp : b.pc = .returned r) : ∃ o, Outcome s b o := by
  cases r with
  | error e => exact ⟨.error e, hp⟩
  | ok sc =>
    obtain ⟨i, hi⟩ := List.getElem?_of_mem hb
    have h0 := buildInv hc h i b hi
    unfold BuildInv at h0
    rw [hp] at h0
    obtain ⟨t, _, h2⟩ := replays_done h0
    exact ⟨.ok t, sc, hp, h2⟩

end Sds
