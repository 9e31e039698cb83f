import Verif.Model.Store

/-! # What the regex store should do -/

namespace Sds.Spec

open Sds

/-- Pattern index and slot map are in bijection: a pattern has one key, a key stands for an occupied slot, and an
occupied slot has exactly one pattern. -/
def Bijection (st : RegexStore) : Prop :=
  (st.index.map (·.1)).Nodup ∧
  (∀ p k, (p, k) ∈ st.index → ∃ r, st.slots[k.1]? = some (k.2, some r)) ∧
  (∀ s v r, st.slots[s]? = some (v, some r) → ∃ p, (p, (s, v)) ∈ st.index ∧ ∀ q, (q, (s, v)) ∈ st.index → q = p)

variable {V : Type}

/-- Client `i` owns a regex it got for pattern `p`. -/
def Owns (w : World V) (i : Nat) (p : Str) (h : Handle) : Prop := w.threads[i]? = some (.holds p h)

/-- The client is still inside `get_memoized_regex`. -/
def Pending (w : World V) (i : Nat) : Prop :=
  ∃ pc, w.threads[i]? = some pc ∧
    match pc with
    | .holds _ _ => False
    | .failed _ => False
    | .done => False
    | _ => True

/-- Any number of steps. -/
inductive Run (F : Str → (Str → Option V) → Prop) : World V → World V → Prop where
  | refl (w) : Run F w w
  | step {a b c} : Run F a b → StoreStep F b c → Run F a c

/-- Whatever happened before and happens meanwhile, a request ends with the regex its own factory makes of its
pattern, or with its factory's refusal. -/
def HistoryFree (F : Str → (Str → Option V) → Prop) : Prop :=
  ∀ (w w' : World V) (i : Nat) (p : Str) (f : Str → Option V), StoreReach F w → w.threads[i]? = some (.start p f) →
    Run F w w' →
    (∀ h, Owns w' i p h → ∃ v, w'.regs[h.reg]? = some (p, v) ∧ f p = some v) ∧
    (w'.threads[i]? = some (.failed p) → f p = none)

/-- The part of the log since the start of the last collection (the log is newest first). -/
def SinceCollection (log l : List StoreEv) : Prop :=
  StoreEv.collect ∉ l ∧ (log = l ∨ ∃ older, log = l ++ StoreEv.collect :: older)

/-- The entries a collection found in use. -/
def keptIn (l : List StoreEv) : List Str := l.filterMap (fun e => match e with | .kept p => some p | _ => none)

/-- The entries added. -/
def addedIn (l : List StoreEv) : List Str := l.filterMap (fun e => match e with | .added p => some p | _ => none)

end Sds.Spec
