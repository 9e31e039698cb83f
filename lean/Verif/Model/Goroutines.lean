import Verif.Model.Ffi

/-! # Goroutines that share scanners

The functions of the Go package as programs whose native calls are interleaved with those of other goroutines.  A scan reads the
scanner many times before it returns; all other calls touch a shared object at one moment.  The field `Id` is read and written
in one order that all goroutines see (a race on it is not given the freedom of Go's memory model). -/

namespace Sds
section
variable {C S D E : Type}

/-- What a goroutine does with the package.  `x` names a `*Scanner`; `reads` is how often a scan reads the scanner before
its result is there. -/
inductive GoOp (C E : Type) where
  | create (x : Nat) (jsons : List (Option C))
  | scan (x : Nat) (e : E) (reads : Nat)
  | delete (x : Nat)

/-- The beginnings and ends of these operations, with their results. -/
inductive GoEvent (C D E : Type) where
  | createBegins (x : Nat)
  | createEnds (x : Nat) (jsons : List (Option C)) (error : Option (Option Int))
  | scanBegins (x : Nat) (e : E)
  | scanEnds (x : Nat) (e : E) (r : GoScanned D)
  | deleteBegins (x : Nat)
  | deleteEnds (x : Nat)

/-- The rest of what a goroutine does. -/
inductive GoProg (C D E : Type) where
  | done
  | event (ev : GoEvent C D E) (p : GoProg C D E)
  /-- Reading `Id`. -/
  | load (x : Nat) (k : Addr → GoProg C D E)
  /-- Writing `Id`. -/
  | store (x : Nat) (a : Addr) (p : GoProg C D E)
  /-- A native call; the arguments are the addresses given out during the call. -/
  | call (f : Addr → Addr → Call C E) (k : Out → GoProg C D E)
  /-- A running scan reads its scanner. -/
  | read (s : Addr) (p : GoProg C D E)
  /-- `C.GoBytes`. -/
  | copy (b : Addr) (k : D → GoProg C D E)

/-- The loop of `CreateScanner` (scanner.go 60-67), as `goAddRules`. -/
def progAddRules (l : Addr) : List (Option C) → (Bool → GoProg C D E) → GoProg C D E
  | [], k => k true
  | json :: rest, k =>
    .call (fun a b => .createRule json a b) fun o =>
      if o.ret < 0 then k false
      else .call (fun _ _ => .append o.ret.toNat l) fun _ =>
        .call (fun _ _ => .freeRule o.ret.toNat) fun _ => progAddRules l rest k

/-- `CreateScanner` (scanner.go 56-100), as `goCreateScanner`. -/
def progCreate (jsons : List (Option C)) (k : Except (Option Int) Addr → GoProg C D E) : GoProg C D E :=
  .call (fun a _ => .createList a) fun o =>
    progAddRules o.ret.toNat jsons fun ok =>
      if ok then
        .call (fun a _ => .createScanner o.ret.toNat a) fun o3 =>
          if o3.ret < 0 then
            match o3.error with
            | some m => .call (fun _ _ => .freeString m) fun _ =>
              .call (fun _ _ => .freeList o.ret.toNat) fun _ => k (.error (some o3.ret))
            | none => .call (fun _ _ => .freeList o.ret.toNat) fun _ => k (.error (some o3.ret))
          else .call (fun _ _ => .freeList o.ret.toNat) fun _ => k (.ok o3.ret.toNat)
      else .call (fun _ _ => .freeList o.ret.toNat) fun _ => k (.error none)

/-- The reads of a running scan. -/
def progReads (s : Addr) : Nat → GoProg C D E → GoProg C D E
  | 0, p => p
  | n + 1, p => .read s (progReads s n p)

/-- `lowLevelScan` (scanner.go 111-139), as `goLowLevelScan`. -/
def progScan (x : Nat) (e : E) (reads : Nat) (k : GoScanned D → GoProg C D E) : GoProg C D E :=
  .load x fun s => progReads s reads <| .call (fun a _ => .scan s e a) fun o =>
    match o.error with
    | some m => .call (fun _ _ => .freeString m) fun _ => k .failed
    | none =>
      match o.buffer with
      | none => k .nothing
      | some b => .copy b fun d => .call (fun _ _ => .freeVec b) fun _ => k (.data d)

/-- `Delete` (scanner.go 104-108). -/
def progDelete (x : Nat) (k : GoProg C D E) : GoProg C D E :=
  .load x fun s => .call (fun _ _ => .deleteScanner s) fun _ => .store x 0 k

/-- An operation and what follows it. -/
def GoOp.prog (p : GoProg C D E) : GoOp C E → GoProg C D E
  | .create x jsons => .event (.createBegins x) <| progCreate jsons fun r =>
    match r with
    | .ok id => .store x id <| .event (.createEnds x jsons none) p
    | .error err => .event (.createEnds x jsons (some err)) p
  | .scan x e reads => .event (.scanBegins x e) <| progScan x e reads fun r => .event (.scanEnds x e r) p
  | .delete x => .event (.deleteBegins x) <| progDelete x <| .event (.deleteEnds x) p

/-- The operations of a goroutine, one after the other. -/
def goProg : List (GoOp C E) → GoProg C D E
  | [] => .done
  | o :: os => o.prog (goProg os)

/-- The memory behind the interface, the fields `Id`, and the goroutines. -/
structure GoConf (C S D E : Type) where
  heap : Heap C S D
  ids : Nat → Addr
  threads : Nat → GoProg C D E

/-- Goroutine `i` goes on with `p`. -/
def GoConf.goOn (c : GoConf C S D E) (i : Nat) (p : GoProg C D E) : GoConf C S D E :=
  { c with threads := fun j => if j = i then p else c.threads j }

/-- Two addresses that the allocator may give out. -/
def Fresh2 (h : Heap C S D) (a b : Addr) : Prop := a ≠ 0 ∧ b ≠ 0 ∧ a ≠ b ∧ h.get a = none ∧ h.get b = none

/-- A step of goroutine `i`, with the event if it is one. -/
inductive GoStep (lib : Lib C S D E) (i : Nat) : GoConf C S D E → List (Nat × GoEvent C D E) → GoConf C S D E → Prop where
  | event {c : GoConf C S D E} {ev : GoEvent C D E} {p : GoProg C D E} : c.threads i = .event ev p →
      GoStep lib i c [(i, ev)] (c.goOn i p)
  | load {c : GoConf C S D E} {x : Nat} {k : Addr → GoProg C D E} : c.threads i = .load x k →
      GoStep lib i c [] (c.goOn i (k (c.ids x)))
  | store {c : GoConf C S D E} {x : Nat} {a : Addr} {p : GoProg C D E} : c.threads i = .store x a p →
      GoStep lib i c [] { c.goOn i p with ids := fun y => if y = x then a else c.ids y }
  | call {c : GoConf C S D E} {f : Addr → Addr → Call C E} {k : Out → GoProg C D E} {a b : Addr} {h : Heap C S D} {o : Out} :
      c.threads i = .call f k → Fresh2 c.heap a b → ffiStep lib c.heap (f a b) = some (h, o) →
      GoStep lib i c [] { c.goOn i (k o) with heap := h }
  | read {c : GoConf C S D E} {s : Addr} {p : GoProg C D E} {n : Nat} {sc : S} : c.threads i = .read s p →
      c.heap.get s = some (.scanner n sc) → GoStep lib i c [] (c.goOn i p)
  | copy {c : GoConf C S D E} {b : Addr} {k : D → GoProg C D E} {d : D} : c.threads i = .copy b k →
      c.heap.get b = some (.vec d) → GoStep lib i c [] (c.goOn i (k d))

/-- The next step of a goroutine is undefined behaviour. -/
def GoUndefined (lib : Lib C S D E) (c : GoConf C S D E) (i : Nat) : Prop :=
  match c.threads i with
  | .call f _ => ∃ a b, Fresh2 c.heap a b ∧ ffiStep lib c.heap (f a b) = none
  | .read s _ => ∀ n sc, c.heap.get s ≠ some (.scanner n sc)
  | .copy b _ => ∀ d, c.heap.get b ≠ some (.vec d)
  | _ => False

/-- The configurations that goroutines with the given operations can reach, and the events on the way. -/
inductive GoRun (lib : Lib C S D E) (ops : Nat → List (GoOp C E)) : GoConf C S D E → List (Nat × GoEvent C D E) → Prop where
  | start : GoRun lib ops ⟨[], fun _ => 0, fun i => goProg (ops i)⟩ []
  | step {c c' : GoConf C S D E} {tr evs : List (Nat × GoEvent C D E)} {i : Nat} : GoRun lib ops c tr → GoStep lib i c evs c' →
      GoRun lib ops c' (tr ++ evs)

end
end Sds
