/-! # The native interface used by the Go package: objects behind raw pointers

Reference counted objects (`Arc`) are entries of a heap; a call that touches memory which is not an object of the
expected type is undefined behaviour, `none`.  Every call is one step: a handle is not given to another call while a
call that frees it is running (calls of several goroutines that overlap are in `Model/Goroutines.lean`).  Weak references are not used by the code. -/

namespace Sds

/-- A pointer. -/
abbrev Addr := Nat

/-- The objects that cross the interface (native/mod.rs 15-17): `C` are rule configurations, `S` scanners and `D` the
bytes of a response.  The numbers are strong counts. -/
inductive Obj (C S D : Type) where
  /-- The allocation of a `RulePtr`, an `Arc<dyn RuleConfig>`. -/
  | config (strong : Nat) (c : C)
  /-- The allocation of a `RuleDoublePtr`, an `Arc<RulePtr>`. -/
  | rule (strong : Nat) (config : Addr)
  /-- The allocation of a `RuleList`, an `Arc<Mutex<Vec<RulePtr>>>`. -/
  | list (strong : Nat) (poisoned : Bool) (items : List Addr)
  | scanner (strong : Nat) (s : S)
  | vec (d : D)
  | cstring
deriving DecidableEq

/-- The live allocations. -/
abbrev Heap (C S D : Type) := List (Addr × Obj C S D)

section
variable {C S D E : Type}

def Heap.get : Heap C S D → Addr → Option (Obj C S D)
  | [], _ => none
  | (b, o) :: h, a => if b = a then some o else Heap.get h a

def Heap.del (h : Heap C S D) (a : Addr) : Heap C S D := h.filter (fun e => e.1 != a)

def Heap.put (h : Heap C S D) (a : Addr) (o : Obj C S D) : Heap C S D := (a, o) :: h.del a

/-- The configuration behind a `RulePtr`. -/
def cfgAt (h : Heap C S D) (i : Addr) : Option C :=
  match h.get i with
  | some (.config _ c) => some c
  | _ => none

/-- What `Scanner::builder(..).build()` does: a scanner, an error code, or a panic. -/
inductive Built (S : Type) where
  | ok (s : S)
  | error (code : Int)
  | panic

/-- What `Scanner::scan` and `encode_response` do: no response, a response, or a panic. -/
inductive Scanned (D : Type) where
  | nothing
  | data (d : D)
  | panic

/-- The library behind the interface. -/
structure Lib (C S D E : Type) where
  build : List C → Built S
  scan : S → E → Scanned D

/-- What a call hands back: the returned number, the error message and the response. -/
structure Out where
  ret : Int
  error : Option Addr
  buffer : Option Addr
deriving DecidableEq

/-- The calls; the last addresses are the ones the allocator gives out during the call. -/
inductive Call (C E : Type) where
  | createRule (json : Option C) (a b : Addr)
  | freeRule (p : Addr)
  | createList (a : Addr)
  | append (rule list : Addr)
  | freeList (p : Addr)
  | createScanner (list : Addr) (a : Addr)
  | scan (scanner : Addr) (e : E) (a : Addr)
  | deleteScanner (p : Addr)
  | freeVec (p : Addr)
  | freeString (p : Addr)

/-- Drop of a `RulePtr`. -/
def dropConfig (h : Heap C S D) (i : Addr) : Option (Heap C S D) :=
  match h.get i with
  | some (.config (n + 1) c) => if n = 0 then some (h.del i) else some (h.put i (.config n c))
  | _ => none

/-- Drop of a `Vec<RulePtr>`. -/
def dropConfigs (h : Heap C S D) : List Addr → Option (Heap C S D)
  | [] => some h
  | i :: is => (dropConfig h i).bind (fun h' => dropConfigs h' is)

/-- `ERR_PANIC` (native/mod.rs 13). -/
def ffiPanic : Int := -5

/-- One call. -/
def ffiStep (lib : Lib C S D E) (h : Heap C S D) : Call C E → Option (Heap C S D × Out)
  /- `create_regex_rule` (rule.rs 10-26); `json` is the parsed document, `none` if it cannot be parsed. -/
  | .createRule none _ _ => some (h, ⟨ffiPanic, none, none⟩)
  | .createRule (some c) a b => some ((h.put a (.config 1 c)).put b (.rule 1 a), ⟨b, none, none⟩)
  /- `free_any_rule` (28-36). -/
  | .freeRule p =>
    match h.get p with
    | some (.rule (n + 1) i) =>
      if n = 0 then (dropConfig (h.del p) i).map (fun h' => (h', ⟨0, none, none⟩))
      else some (h.put p (.rule n i), ⟨0, none, none⟩)
    | _ => none
  /- `create_rule_list` (39-47). -/
  | .createList a => some (h.put a (.list 1 false []), ⟨a, none, none⟩)
  /- `append_rule_to_list` (50-59): the pointer is cloned, then the lock is taken; if that panics, the clone is
  dropped again and the error is discarded. -/
  | .append r l =>
    match h.get l, h.get r with
    | some (.list n p items), some (.rule _ i) =>
      match h.get i with
      | some (.config k c) =>
        if p then some (h, ⟨0, none, none⟩)
        else some ((h.put i (.config (k + 1) c)).put l (.list n p (items ++ [i])), ⟨0, none, none⟩)
      | _ => none
    | _, _ => none
  /- `free_rule_list` (62-68). -/
  | .freeList p =>
    match h.get p with
    | some (.list (n + 1) q items) =>
      if n = 0 then (dropConfigs (h.del p) items).map (fun h' => (h', ⟨0, none, none⟩))
      else some (h.put p (.list n q items), ⟨0, none, none⟩)
    | _ => none
  /- `create_scanner` (create_scanner.rs 9-35).  A panic while the lock is held poisons the mutex. -/
  | .createScanner l a =>
    match h.get l with
    | some (.list n p items) =>
      match items.mapM (cfgAt h) with
      | none => none
      | some cs =>
        if p then some (h.put a .cstring, ⟨ffiPanic, some a, none⟩)
        else match lib.build cs with
          | .ok s => some (h.put a (.scanner 1 s), ⟨a, none, none⟩)
          | .error code => some (h, ⟨code, none, none⟩)
          | .panic => some ((h.put l (.list n true items)).put a .cstring, ⟨ffiPanic, some a, none⟩)
    | _ => none
  /- `scan` (scan.rs 10-65). -/
  | .scan s e a =>
    match h.get s with
    | some (.scanner _ sc) =>
      match lib.scan sc e with
      | .nothing => some (h, ⟨0, none, none⟩)
      | .data d => some (h.put a (.vec d), ⟨0, none, some a⟩)
      | .panic => some (h.put a .cstring, ⟨0, some a, none⟩)
    | _ => none
  /- `delete_scanner` (delete_scanner.rs 5-11). -/
  | .deleteScanner p =>
    match h.get p with
    | some (.scanner (n + 1) s) =>
      if n = 0 then some (h.del p, ⟨0, none, none⟩) else some (h.put p (.scanner n s), ⟨0, none, none⟩)
    | _ => none
  /- `free_vec` (scan.rs 67-77). -/
  | .freeVec p =>
    match h.get p with
    | some (.vec _) => some (h.del p, ⟨0, none, none⟩)
    | _ => none
  /- `free_string` (scan.rs 79-84). -/
  | .freeString p =>
    match h.get p with
    | some .cstring => some (h.del p, ⟨0, none, none⟩)
    | _ => none

/-! ## Go -/

/-- The loop of `CreateScanner` (scanner.go 60-67); `true` if all rules were created.  `alloc` is the allocator. -/
def goAddRules (lib : Lib C S D E) (alloc : Heap C S D → Addr) (l : Addr) :
    Heap C S D → List (Option C) → Option (Heap C S D × Bool)
  | h, [] => some (h, true)
  | h, json :: rest =>
    let a := alloc h
    let b := alloc (h.put a .cstring)
    (ffiStep lib h (.createRule json a b)).bind fun (h1, o) =>
      if o.ret < 0 then some (h1, false)
      else
        (ffiStep lib h1 (.append o.ret.toNat l)).bind fun (h2, _) =>
          (ffiStep lib h2 (.freeRule o.ret.toNat)).bind fun (h3, _) =>
            goAddRules lib alloc l h3 rest

/-- `CreateScanner` (scanner.go 56-100): the address of the scanner, or the error code (`none` for a rule that was
not created).  The list is deleted in all cases (`defer`), an error message is read and freed. -/
def goCreateScanner (lib : Lib C S D E) (alloc : Heap C S D → Addr) (h : Heap C S D) (jsons : List (Option C)) :
    Option (Heap C S D × Except (Option Int) Addr) :=
  (ffiStep lib h (.createList (alloc h))).bind fun (h1, o) =>
    let l := o.ret.toNat
    (goAddRules lib alloc l h1 jsons).bind fun (h2, ok) =>
      if ok then
        (ffiStep lib h2 (.createScanner l (alloc h2))).bind fun (h3, o3) =>
          if o3.ret < 0 then
            (match o3.error with
              | some e => ffiStep lib h3 (.freeString e)
              | none => some (h3, o3)).bind fun (h4, _) =>
                (ffiStep lib h4 (.freeList l)).bind fun (h5, _) => some (h5, .error (some o3.ret))
          else (ffiStep lib h3 (.freeList l)).bind fun (h4, _) => some (h4, .ok o3.ret.toNat)
      else (ffiStep lib h2 (.freeList l)).bind fun (h3, _) => some (h3, .error none)

/-- What `lowLevelScan` returns: an error, no response, or a copy of the response. -/
inductive GoScanned (D : Type) where
  | failed
  | nothing
  | data (d : D)
deriving DecidableEq

/-- `lowLevelScan` (scanner.go 111-139).  A response is never empty, so its size is not 0. -/
def goLowLevelScan (lib : Lib C S D E) (alloc : Heap C S D → Addr) (h : Heap C S D) (s : Addr) (e : E) :
    Option (Heap C S D × GoScanned D) :=
  (ffiStep lib h (.scan s e (alloc h))).bind fun (h1, o) =>
    match o.error with
    | some m => (ffiStep lib h1 (.freeString m)).bind fun (h2, _) => some (h2, .failed)
    | none =>
      match o.buffer with
      | none => some (h1, .nothing)
      | some b =>
        match h1.get b with
        | some (.vec d) => (ffiStep lib h1 (.freeVec b)).bind fun (h2, _) => some (h2, .data d)
        | _ => none

/-- `Scanner.Delete` (scanner.go 104-108) on a scanner object that holds the address `id`; the result is the new
value of the field `Id`. -/
def goDeleteScanner (lib : Lib C S D E) (h : Heap C S D) (id : Addr) : Option (Heap C S D × Addr) :=
  (ffiStep lib h (.deleteScanner id)).bind fun (h1, _) => some (h1, 0)

end
end Sds
