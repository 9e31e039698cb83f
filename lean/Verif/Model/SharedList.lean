/-! # A rule list shared by threads

`append_rule_to_list` (sds-go/rust/src/native/rule.rs 50-58) and `create_scanner` (create_scanner.rs 10-35) on one rule list, an
`Arc<Mutex<Vec<..>>>`, called by any number of threads.  What is in the list is seen and changed step by step.  The list lives during
all calls (C65, C67), pushing does not fail for lack of memory, and the mutex is that of Rust's library: one guard at a time,
poisoned by a panic while there is a guard. -/

namespace Sds

/-- The calls. -/
inductive ListCall (R : Type) where
  | append (r : R)
  | create
deriving DecidableEq, Repr

/-- How a call ends. -/
inductive ListRes (R : Type) where
  | appended
  /-- rule.rs 51: the panic is caught and dropped -/
  | dropped
  /-- a scanner, or an error other than a panic, is made of these rules -/
  | built (rules : List R)
  /-- native/mod.rs 57: `ERR_PANIC` -/
  | failed
deriving DecidableEq, Repr

/-- Where a call is. -/
inductive ListPc (R : Type) where
  /-- in front of `lock` -/
  | begun
  /-- has the guard -/
  | locked
  /-- has the guard and has read the list -/
  | loaded (rules : List R)
  /-- has the guard and has pushed -/
  | stored
  | returned (res : ListRes R)
deriving DecidableEq, Repr

/-- A call being executed. -/
structure ListThread (R : Type) where
  call : ListCall R
  pc : ListPc R
deriving DecidableEq, Repr

/-- The call has the guard. -/
def ListThread.holds {R : Type} (t : ListThread R) : Bool :=
  match t.pc with
  | .begun | .returned _ => false
  | .locked | .loaded _ | .stored => true

/-- What can be seen from outside: calls begin and end. -/
inductive ListEvent (R : Type) where
  | begins (i : Nat) (call : ListCall R)
  | ends (i : Nat) (res : ListRes R)
deriving DecidableEq, Repr

/-- The list, its calls, and what has been seen of them. -/
structure ListConf (R : Type) where
  rules : List R
  poisoned : Bool
  threads : List (ListThread R)
  trace : List (ListEvent R)
deriving DecidableEq, Repr

namespace ListConf
variable {R : Type}

/-- `Mutex::new(Vec::new())` (rule.rs 43). -/
def init : ListConf R := ⟨[], false, [], []⟩

/-- Nobody has the guard. -/
def Free (c : ListConf R) : Prop := ∀ t ∈ c.threads, t.holds = false

/-- Call `i` goes on. -/
def goOn (c : ListConf R) (i : Nat) (t : ListThread R) (pc : ListPc R) : ListConf R :=
  { c with threads := c.threads.set i { t with pc := pc } }

/-- Call `i` returns, without the guard. -/
def return_ (c : ListConf R) (i : Nat) (t : ListThread R) (res : ListRes R) : ListConf R :=
  { c.goOn i t (.returned res) with trace := c.trace ++ [.ends i res] }

/-- A call begins. -/
def begin_ (c : ListConf R) (x : ListCall R) : ListConf R :=
  { c with threads := c.threads ++ [⟨x, .begun⟩], trace := c.trace ++ [.begins c.threads.length x] }

end ListConf

/-- `unwrap` of a poisoned mutex panics (rule.rs 56, create_scanner.rs 17). -/
def ListCall.refused {R : Type} : ListCall R → ListRes R
  | .append _ => .dropped
  | .create => .failed

/-- A step of call `i`. -/
inductive ListStep {R : Type} (i : Nat) : ListConf R → ListConf R → Prop where
  /-- rule.rs 56, create_scanner.rs 17: `lock` -/
  | lock {c t} : c.threads[i]? = some t → t.pc = .begun → c.Free → c.poisoned = false → ListStep i c (c.goOn i t .locked)
  | refuse {c t} : c.threads[i]? = some t → t.pc = .begun → c.Free → c.poisoned = true →
      ListStep i c (c.return_ i t t.call.refused)
  /-- `push` and `build` read the list -/
  | load {c t} : c.threads[i]? = some t → t.pc = .locked → ListStep i c (c.goOn i t (.loaded c.rules))
  /-- rule.rs 56: `push` writes the list -/
  | store {c t r l} : c.threads[i]? = some t → t.call = .append r → t.pc = .loaded l →
      ListStep i c { c.goOn i t .stored with rules := l ++ [r] }
  /-- rule.rs 56: the guard is dropped -/
  | unlock {c t} : c.threads[i]? = some t → t.pc = .stored → ListStep i c (c.return_ i t .appended)
  /-- create_scanner.rs 26, 27 and 33: the guard is dropped -/
  | made {c t l} : c.threads[i]? = some t → t.call = .create → t.pc = .loaded l → ListStep i c (c.return_ i t (.built l))
  /-- create_scanner.rs 20-22 panics: the guard is dropped, the mutex is poisoned -/
  | panic {c t l} : c.threads[i]? = some t → t.call = .create → t.pc = .loaded l →
      ListStep i c { c.return_ i t .failed with poisoned := true }

/-- The states that calls by any number of threads can lead to. -/
inductive ListReach {R : Type} : ListConf R → Prop where
  | init : ListReach .init
  | call {c} (x : ListCall R) : ListReach c → ListReach (c.begin_ x)
  | step {c c' i} : ListReach c → ListStep i c c' → ListReach c'

end Sds
