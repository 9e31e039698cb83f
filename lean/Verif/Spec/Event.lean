import Verif.Spec.Apply
import Verif.Spec.Scope
import Verif.Model.Event

/-! # Specification: events -/

namespace Sds.Spec

/-- `v` is stored under the key `k`. -/
def FieldOf : Fields → Str → Ev → Prop
  | .nil, _, _ => False
  | .cons k' v' rest, k, v => (k = k' ∧ v = v') ∨ FieldOf rest k v

/-- `v` is the element number `i`. -/
def ItemOf : Items → Nat → Ev → Prop
  | .nil, _, _ => False
  | .cons v' _, 0, v => v = v'
  | .cons _ rest, i + 1, v => ItemOf rest i v

/-- The value found by following a path. -/
inductive At : Ev → Path → Ev → Prop
  | here (e : Ev) : At e [] e
  | field {m : Fields} {k : Str} {v w : Ev} {p : Path} : FieldOf m k v → At v p w → At (.map m) (.field k :: p) w
  | item {l : Items} {i : Nat} {v w : Ev} {p : Path} : ItemOf l i v → At v p w → At (.list l) (.index i :: p) w

/-- The keys of a map. -/
def keys : Fields → List Str
  | .nil => []
  | .cons k _ rest => k :: keys rest

mutual
/-- Maps have no key twice, at any depth. -/
def WellKeyed : Ev → Prop
  | .list l => WellKeyedItems l
  | .map m => WellKeyedFields m
  | _ => True
def WellKeyedItems : Items → Prop
  | .nil => True
  | .cons v rest => WellKeyed v ∧ WellKeyedItems rest
def WellKeyedFields : Fields → Prop
  | .nil => True
  | .cons k v rest => k ∉ keys rest ∧ WellKeyed v ∧ WellKeyedFields rest
end

mutual
/-- The event with the string at every path `p` replaced by `g p` of it; everything else is the same. -/
def rewrite (g : Path → Str → Str) : Ev → Ev
  | .null => .null
  | .scalar t => .scalar t
  | .str s => .str (g [] s)
  | .list l => .list (rewriteItems g 0 l)
  | .map m => .map (rewriteFields g m)
def rewriteItems (g : Path → Str → Str) : Nat → Items → Items
  | _, .nil => .nil
  | i, .cons v rest => .cons (rewrite (fun p => g (.index i :: p)) v) (rewriteItems g (i + 1) rest)
def rewriteFields (g : Path → Str → Str) : Fields → Fields
  | .nil => .nil
  | .cons k v rest => .cons k (rewrite (fun p => g (.field k :: p)) v) (rewriteFields g rest)
end

/-- Replace the text at one path only. -/
def only (p : Path) (t : Str) : Path → Str → Str := fun q c => if q = p then t else c

/-- The string at `x` is below some other key and the string at `y` below the key `message` of the same map. -/
def WrongOrder (x y : Path) : Prop :=
  ∃ pre k a b, k ≠ "message".toList ∧ x = pre ++ .field k :: a ∧ y = pre ++ .field "message".toList :: b

/-- A visited text.  `fixed` means that it cannot be rewritten (numbers and booleans). -/
structure Leaf where
  path : Path
  text : Str
  fixed : Bool
deriving DecidableEq, Repr

/-- The contract between an event and the scanner: `leaves` are the texts in the order in which they are
visited, `rew` rewrites them. -/
structure LawfulEvent {E : Type} (impl : EventImpl E) (wf : E → Prop) (leaves : E → List Leaf)
    (rew : (Path → Str → Str) → E → E) : Prop where
  enc : LawfulEnc impl.enc
  visits : ∀ e, wf e → located [] (impl.ops e) = some ((leaves e).map fun l => (l.path, l.text))
  nodup : ∀ e, wf e → ((leaves e).map (·.path)).Nodup
  edit : ∀ e, wf e → ∀ l ∈ leaves e, l.fixed = false → ∀ f,
    impl.mutAt e l.path f = (f l.text).mapFst fun t => rew (only l.path t) e
  edit_fixed : ∀ e, wf e → ∀ l ∈ leaves e, l.fixed = true → ∀ f, impl.mutAt e l.path f = Res.panic
  leaves_rew : ∀ g e, leaves (rew g e) =
    (leaves e).map fun l => if l.fixed then l else { l with text := g l.path l.text }
  rew_rew : ∀ g h e, rew g (rew h e) = rew (fun p c => g p (h p c)) e
  rew_congr : ∀ g h e, wf e → (∀ l ∈ leaves e, l.fixed = false → g l.path l.text = h l.path l.text) → rew g e = rew h e
  rew_id : ∀ e, rew (fun _ c => c) e = e
  wf_rew : ∀ g e, wf e → wf (rew g e)

/-- The path at the end of a sequence of calls. -/
def endsAt : Path → List Op → Option Path
  | p, [] => some p
  | p, .push s :: ops => endsAt (p ++ [s]) ops
  | p, .pop :: ops => if p = [] then none else endsAt p.dropLast ops
  | p, .visit _ :: ops => endsAt p ops

end Sds.Spec
