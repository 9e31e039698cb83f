import Verif.Model.Building

/-! # The locks of the library

The mutexes of the library and what native calls do with them.  There are two kinds of mutexes: the one of the regex store
(regex_store.rs 61) and the one of each rule list (sds-go/rust/src/native/rule.rs 43).  `create_scanner` holds the mutex of its
list while the scanner is built, and building takes and releases the mutex of the store for each regex.

The pool of caches (shared_pool.rs) is a crate's and not modelled here; it is used by scans only.  The calls of
`regex_factory` end (they may panic); `slotmap`, `ahash` and the statistics do not panic, and the `unwrap` of `gc` (regex_store.rs
85) does not either (`C41_calls_return`).  A list is named by the `Arc` it is, not by its address, which may be used again. -/

namespace Sds

/-- The mutexes. -/
inductive Mtx where
  | store
  | list (l : Nat)
deriving DecidableEq, Repr

/-- What is left of a call, as far as locks go.  `H` are the regexes. -/
inductive LockProg (H : Type) where
  /-- The call has returned; whether by a panic. -/
  | done (panicked : Bool)
  /-- `lock().unwrap()`. -/
  | lock (m : Mtx) (p : LockProg H)
  /-- The guard is dropped. -/
  | unlock (m : Mtx) (p : LockProg H)
  /-- `regex_factory` is called (regex_store.rs 50). -/
  | compile (p : LockProg H)
  /-- One or the other, depending on what the store holds. -/
  | either (p q : LockProg H)
  /-- The store gives a regex. -/
  | pick (k : H → LockProg H)
  /-- A panic. -/
  | panic

/-- What a call of `regex_factory` does. -/
inductive FacRes where
  | built
  | rejected
  | panics
deriving DecidableEq, Repr

/-- `get_memoized_regex_with_custom_store` (regex_store.rs 37-54), with what follows it; `no` follows an error of the factory. -/
def memoLocks {H : Type} (f : FacRes) (no : LockProg H) (yes : H → LockProg H) : LockProg H :=
  /- lines 42-48: the guard lives to the end of the block; on a hit, the function returns out of the block -/
  .lock .store (.either
    (.pick fun h => .unlock .store (yes h))
    (.unlock .store (.compile
      (match f with
        | .panics => .panic
        | .rejected => no
        /- lines 52-53 -/
        | .built => .lock .store (.pick fun h => .unlock .store (yes h))))))

/-- The guards of a function are dropped when it returns. -/
def LockProg.leave {H : Type} (m : Option Mtx) : LockProg H :=
  match m with
  | none => .done false
  | some m => .unlock m (.done false)

/-- `ScannerBuilder::build` (scanner/mod.rs 650-715; see `buildProg`), called with a lock held or without.
`fac` is what the factories do. -/
def buildLocks {H α : Type} (fac : AskKind → Str → FacRes) (m : Option Mtx) : Prog H α → LockProg H
  | .done _ => .leave m
  | .panic => .panic
  | .ask kind p k =>
    memoLocks (fac kind p)
      /- `?` for a rule (regex_rule/config.rs 99), `unwrap` for keywords (proximity_keywords/mod.rs 232-235) -/
      (match kind with
        | .rule => .leave m
        | .keyword => .panic)
      fun h => buildLocks fac m (k h)

/-- The calls; `b` is the program of `ScannerBuilder::build` for what is in the list when it is locked. -/
inductive LockCall (H α : Type) where
  /-- `append_rule_to_list` (sds-go/rust/src/native/rule.rs 50-59) -/
  | append (l : Nat)
  /-- `create_scanner` (create_scanner.rs 9-35) -/
  | createScanner (l : Nat) (b : Prog H α)
  /-- `ScannerBuilder::build` called from Rust -/
  | build (b : Prog H α)
  /-- every other call -/
  | other

/-- What a call does with locks. -/
def LockCall.locks {H α : Type} (fac : AskKind → Str → FacRes) : LockCall H α → LockProg H
  | .append l => .lock (.list l) (.unlock (.list l) (.done false))
  | .createScanner l b => .lock (.list l) (buildLocks fac (some (.list l)) b)
  | .build b => buildLocks fac none b
  | .other => .done false

/-- A call being executed by a thread, with the guards it has. -/
structure LockThread (H α : Type) where
  call : LockCall H α
  prog : LockProg H
  held : List Mtx

/-- The calls so far, and the poisoned mutexes. -/
structure LockConf (H α : Type) where
  threads : List (LockThread H α)
  poisoned : List Mtx

/-- Nobody holds the mutex. -/
def LockConf.Free {H α : Type} (c : LockConf H α) (m : Mtx) : Prop := ∀ t ∈ c.threads, m ∉ t.held

/-- Call `i` goes on. -/
def LockConf.goOn {H α : Type} (c : LockConf H α) (i : Nat) (t : LockThread H α) (p : LockProg H) (held : List Mtx) : LockConf H α :=
  { c with threads := c.threads.set i { t with prog := p, held := held } }

/-- Unwinding up to `catch_unwind` (sds-go/rust/src/native/mod.rs 62-76): all guards are dropped, which poisons their mutexes. -/
def LockConf.unwind {H α : Type} (c : LockConf H α) (i : Nat) (t : LockThread H α) : LockConf H α :=
  { c.goOn i t (.done true) [] with poisoned := t.held ++ c.poisoned }

/-- A step of call `i`. -/
inductive LockStep {H α : Type} (i : Nat) : LockConf H α → LockConf H α → Prop where
  | lock {c : LockConf H α} {t m p} : c.threads[i]? = some t → t.prog = .lock m p → c.Free m → m ∉ c.poisoned →
      LockStep i c (c.goOn i t p (m :: t.held))
  /-- `lock` gets a poisoned mutex, and `unwrap` panics -/
  | poisoned {c : LockConf H α} {t m p} : c.threads[i]? = some t → t.prog = .lock m p → c.Free m → m ∈ c.poisoned →
      LockStep i c (c.unwind i t)
  | unlock {c : LockConf H α} {t m p} : c.threads[i]? = some t → t.prog = .unlock m p →
      LockStep i c (c.goOn i t p (t.held.erase m))
  | compile {c : LockConf H α} {t p} : c.threads[i]? = some t → t.prog = .compile p → LockStep i c (c.goOn i t p t.held)
  | left {c : LockConf H α} {t p q} : c.threads[i]? = some t → t.prog = .either p q → LockStep i c (c.goOn i t p t.held)
  | right {c : LockConf H α} {t p q} : c.threads[i]? = some t → t.prog = .either p q → LockStep i c (c.goOn i t q t.held)
  | pick {c : LockConf H α} {t k h} : c.threads[i]? = some t → t.prog = .pick k → LockStep i c (c.goOn i t (k h) t.held)
  | panic {c : LockConf H α} {t} : c.threads[i]? = some t → t.prog = .panic → LockStep i c (c.unwind i t)

/-- States the process can reach: any calls, begun at any time, by any number of threads. -/
inductive LockReach {H α : Type} (fac : AskKind → Str → FacRes) : LockConf H α → Prop where
  | init : LockReach fac ⟨[], []⟩
  | call {c : LockConf H α} : LockReach fac c → (x : LockCall H α) →
      LockReach fac { c with threads := c.threads ++ [⟨x, x.locks fac, []⟩] }
  | step {c c' : LockConf H α} {i : Nat} : LockReach fac c → LockStep i c c' → LockReach fac c'

end Sds
