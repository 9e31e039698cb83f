import Verif.Model.Apply
import Verif.Model.Scope

/-! # Events

Model of `sds/src/event.rs`, `sds/src/simple_event.rs` and `sds/src/event_json.rs`. -/

namespace Sds

mutual
/-- Nested events.  `SimpleEvent` (simple_event.rs 9-14) uses `str`, `list` and `map`; `serde_json::Value`
uses all of them: `scalar` stands for booleans and numbers, given by the text of `to_string()`. -/
inductive Ev where
  | null
  | scalar (text : Str)
  | str (s : Str)
  | list (items : Items)
  | map (fields : Fields)
/-- `Vec<..>` -/
inductive Items where
  | nil
  | cons (v : Ev) (rest : Items)
/-- `BTreeMap`, `serde_json::Map` or `HashMap` in iteration order. -/
inductive Fields where
  | nil
  | cons (key : Str) (v : Ev) (rest : Fields)
end

/-- `FIRST_VISIT_KEY` (simple_event.rs 5). -/
def firstKey : Str := "message".toList

mutual
/-- `SimpleEvent::visit_event` (simple_event.rs 19-50) as the calls made on the visitor.  `null` and `scalar`
do not exist in `SimpleEvent`. -/
def Ev.simpleOps : Ev → List Op
  | .null => []
  | .scalar _ => []
  | .str s => [.visit s]
  | .list l => l.simpleOps 0
  | .map m => m.simpleOps true ++ m.simpleOps false
/-- The loop over a list (simple_event.rs 24-30). -/
def Items.simpleOps : Items → Nat → List Op
  | .nil, _ => []
  | .cons v rest, i => .push (.index i) :: (v.simpleOps ++ .pop :: rest.simpleOps (i + 1))
/-- The loops over a map (simple_event.rs 31-48): `first = true` is the loop which visits the first key and
puts the others aside, `first = false` the loop over those. -/
def Fields.simpleOps : Fields → Bool → List Op
  | .nil, _ => []
  | .cons k v rest, first =>
    if (k == firstKey) = first then .push (.field k) :: (v.simpleOps ++ .pop :: rest.simpleOps first)
    else rest.simpleOps first
end

mutual
/-- `serde_json::Value::visit_event` (event_json.rs 10-37). -/
def Ev.jsonOps : Ev → List Op
  | .null => []
  | .scalar t => [.visit t]
  | .str s => [.visit s]
  | .list l => l.jsonOps 0
  | .map m => m.jsonOps
def Items.jsonOps : Items → Nat → List Op
  | .nil, _ => []
  | .cons v rest, i => .push (.index i) :: (v.jsonOps ++ .pop :: rest.jsonOps (i + 1))
/-- Also `HashMap::visit_event` (event_json.rs 67-73). -/
def Fields.jsonOps : Fields → List Op
  | .nil => []
  | .cons k v rest => .push (.field k) :: (v.jsonOps ++ .pop :: rest.jsonOps)
end

/-- The closure given to `visit_string_mut`: the new content and the matches reported for it.  (The returned
flag `will_mutate` is not used by these events.) -/
abbrev Edit := Str → Res (Str × List RuleMatch)

/-- Apply a constructor to the event part of a result. -/
def Res.mapFst {α β γ : Type} (f : α → β) : Res (α × γ) → Res (β × γ)
  | .ok (a, c) => Res.ok (f a, c)
  | .panic => Res.panic
  | .hang => Res.hang

mutual
/-- `visit_string_mut` (simple_event.rs 52-66, event_json.rs 39-61): a missing key or index, a container of
the wrong kind, or a target that is not a string panics. -/
def Ev.mutAt (f : Edit) : Ev → Path → Res (Ev × List RuleMatch)
  | .str s, [] => (f s).mapFst Ev.str
  | .map m, .field k :: p => (m.mutAt f k p).mapFst Ev.map
  | .list l, .index i :: p => (l.mutAt f i p).mapFst Ev.list
  | _, _ => Res.panic
/-- `get_mut(i).unwrap()` and the rest of the loop. -/
def Items.mutAt (f : Edit) : Items → Nat → Path → Res (Items × List RuleMatch)
  | .nil, _, _ => Res.panic
  | .cons v rest, 0, p => (v.mutAt f p).mapFst fun v' => .cons v' rest
  | .cons v rest, i + 1, p => (rest.mutAt f i p).mapFst fun r' => .cons v r'
/-- `get_mut(key).unwrap()` and the rest of the loop. -/
def Fields.mutAt (f : Edit) : Fields → Str → Path → Res (Fields × List RuleMatch)
  | .nil, _, _ => Res.panic
  | .cons k v rest, key, p =>
    if k = key then (v.mutAt f p).mapFst fun v' => .cons k v' rest
    else (rest.mutAt f key p).mapFst fun r' => .cons k v r'
end

/-- `HashMap::visit_string_mut` (event_json.rs 75-83): the empty path panics; a path beginning with an index
is silently ignored. -/
def Fields.mutAtPath (f : Edit) (m : Fields) : Path → Res (Fields × List RuleMatch)
  | [] => Res.panic
  | .field k :: p => m.mutAt f k p
  | .index _ :: _ => Res.ok (m, [])

/-- What the scanner uses of an `Event` (event.rs 8-19). -/
structure EventImpl (E : Type) where
  enc : Enc
  ops : E → List Op
  mutAt : E → Path → Edit → Res (E × List RuleMatch)

/-- `impl Event for String` (event.rs 34-44): the path is ignored. -/
def stringEvent : EventImpl Str :=
  ⟨Enc.utf8, fun s => [.visit s], fun s _ f => f s⟩

/-- `impl Event for SimpleEvent` (simple_event.rs 16-67). -/
def simpleEvent : EventImpl Ev := ⟨Enc.utf8, Ev.simpleOps, fun e p f => e.mutAt f p⟩

/-- `impl Event for serde_json::Value` (event_json.rs 7-62). -/
def jsonEvent : EventImpl Ev := ⟨Enc.utf8, Ev.jsonOps, fun e p f => e.mutAt f p⟩

/-- `impl Event for HashMap<String, Value>` (event_json.rs 64-84). -/
def hashMapEvent : EventImpl Fields := ⟨Enc.utf8, Fields.jsonOps, fun m p f => m.mutAtPath f p⟩

end Sds
