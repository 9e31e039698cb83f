import Verif.Lemmas.Event

/-! # C55: traversal of events -/

namespace Sds.Props
open Sds Spec

private def fs : List (String × Ev) → Fields
  | [] => .nil
  | (k, v) :: r => .cons k.toList v (fs r)

/-- `{a: ["x", {z: "y", message: "w"}], message: "m", n: 5}` -/
private def ev : Ev := .map (fs [("a", .list (.cons (.str "x".toList)
    (.cons (.map (fs [("z", .str "y".toList), ("message", .str "w".toList)])) .nil))),
  ("message", .str "m".toList), ("n", .scalar "5".toList)])

private theorem ev_wf : WellKeyed ev := by
  simp [ev, fs, WellKeyed, WellKeyedFields, WellKeyedItems, keys]

/-- C55: traversing a simple event does not leave its root, visits no path twice, and visits exactly the
strings of the event at their own paths. -/
theorem C55_simple_visits_each_string_once (e : Ev) (h : WellKeyed e) :
    ∃ l, located [] (simpleEvent.ops e) = some l ∧ (l.map (·.1)).Nodup ∧
      ∀ p s, (p, s) ∈ l ↔ At e p (.str s) := by
  refine ⟨_, simpleEvent_lawful.visits e h, ?_, fun p s => ?_⟩
  · have := simpleEvent_lawful.nodup e h
    simpa [List.map_map, Function.comp_def] using this
  · rw [← Ev.mem_str true]
    constructor
    · intro hm
      obtain ⟨⟨q, t, b⟩, hl, he⟩ := List.mem_map.1 hm
      have hf := Ev.simple_fixed e _ hl
      simp only [Prod.mk.injEq] at he hf
      obtain ⟨rfl, rfl⟩ := he
      subst hf
      exact hl
    · intro hm
      exact List.mem_map.2 ⟨_, hm, rfl⟩

/-- C55: in every map, at any depth, the strings below the key `message` are visited before the strings
below the other keys. -/
theorem C55_simple_message_first (e : Ev) (h : WellKeyed e) :
    ∃ l, located [] (simpleEvent.ops e) = some l ∧
      l.Pairwise (fun x y => ¬ WrongOrder x.1 y.1) := by
  refine ⟨_, simpleEvent_lawful.visits e h, ?_⟩
  rw [List.pairwise_map]
  exact Ev.first_first e h

/-- C55 for JSON values: exactly the strings, numbers and booleans are visited, each once. -/
theorem C55_json_visits_each_leaf_once (e : Ev) (h : WellKeyed e) :
    ∃ l, located [] (jsonEvent.ops e) = some l ∧ (l.map (·.1)).Nodup ∧
      ∀ p s, (p, s) ∈ l ↔ At e p (.str s) ∨ At e p (.scalar s) := by
  refine ⟨_, jsonEvent_lawful.visits e h, ?_, fun p s => ?_⟩
  · have := jsonEvent_lawful.nodup e h
    simpa [List.map_map, Function.comp_def] using this
  · rw [← Ev.mem_str false, ← Ev.mem_scalar]
    constructor
    · intro hm
      obtain ⟨⟨q, t, b⟩, hl, he⟩ := List.mem_map.1 hm
      simp only [Prod.mk.injEq] at he
      obtain ⟨rfl, rfl⟩ := he
      cases b
      · exact Or.inl hl
      · exact Or.inr hl
    · rintro (hm | hm)
      · exact List.mem_map.2 ⟨_, hm, rfl⟩
      · exact List.mem_map.2 ⟨_, hm, rfl⟩

/-- C55 for maps of JSON values, whatever the iteration order of the map. -/
theorem C55_hashmap_visits_each_leaf_once (m : Fields) (h : WellKeyedFields m) :
    ∃ l, located [] (hashMapEvent.ops m) = some l ∧ (l.map (·.1)).Nodup ∧
      ∀ p s, (p, s) ∈ l ↔ At (.map m) p (.str s) ∨ At (.map m) p (.scalar s) := by
  have := C55_json_visits_each_leaf_once (.map m) (by simpa [WellKeyed] using h)
  simpa [jsonEvent, hashMapEvent, Ev.jsonOps] using this

/-- C55: every traversal ends where it started: each segment that is pushed is popped again. -/
theorem C55_returns_to_root (e : Ev) (m : Fields) :
    endsAt [] (simpleEvent.ops e) = some [] ∧ endsAt [] (jsonEvent.ops e) = some [] ∧
    endsAt [] (hashMapEvent.ops m) = some [] := by
  have h1 := e.simple_returning [] []
  have h2 := e.json_returning [] []
  have h3 := m.json_returning [] []
  simp only [List.append_nil] at h1 h2 h3
  exact ⟨h1, h2, h3⟩

/-- C55: editing at the path of a string hands exactly this string to the callback, puts the new text in its
place and changes nothing else; a panic of the callback is passed on. -/
theorem C55_edit_addresses_the_string (e : Ev) (h : WellKeyed e) (p : Path) (s : Str) (hp : At e p (.str s))
    (f : Edit) :
    simpleEvent.mutAt e p f = (f s).mapFst (fun t => rewrite (only p t) e) ∧
    jsonEvent.mutAt e p f = (f s).mapFst (fun t => rewrite (only p t) e) :=
  ⟨simpleEvent_lawful.edit e h ⟨p, s, false⟩ ((Ev.mem_str true e p s).2 hp) rfl f,
   jsonEvent_lawful.edit e h ⟨p, s, false⟩ ((Ev.mem_str false e p s).2 hp) rfl f⟩

/-- The same for maps of JSON values. -/
theorem C55_hashmap_edit (m : Fields) (h : WellKeyedFields m) (p : Path) (s : Str)
    (hp : At (.map m) p (.str s)) (f : Edit) :
    hashMapEvent.mutAt m p f = (f s).mapFst (fun t => rewriteFields (only p t) m) :=
  hashMapEvent_lawful.edit m h ⟨p, s, false⟩
    ((Ev.mem_map_leaves m _).1 ((Ev.mem_str false _ p s).2 hp)) rfl f

/-- `rewrite` does what it should: the strings of the new event are the rewritten strings of the old one, at
the same paths; the other values are the same. -/
theorem C55_rewrite_at (g : Path → Str → Str) (e : Ev) (p : Path) (t : Str) :
    (At (rewrite g e) p (.str t) ↔ ∃ s, At e p (.str s) ∧ t = g p s) ∧
    (At (rewrite g e) p (.scalar t) ↔ At e p (.scalar t)) := by
  constructor
  · rw [← Ev.mem_str false, Ev.leaves_rew]
    constructor
    · intro hm
      obtain ⟨⟨q, s, b⟩, hl, he⟩ := List.mem_map.1 hm
      cases b
      · simp only [Leaf.rew, Bool.false_eq_true, if_false, Leaf.mk.injEq] at he
        obtain ⟨rfl, rfl, _⟩ := he
        exact ⟨s, (Ev.mem_str false e q s).1 hl, rfl⟩
      · simp [Leaf.rew] at he
    · rintro ⟨s, hs, rfl⟩
      exact List.mem_map.2 ⟨⟨p, s, false⟩, (Ev.mem_str false e p s).2 hs, by simp [Leaf.rew]⟩
  · rw [← Ev.mem_scalar, ← Ev.mem_scalar, Ev.leaves_rew]
    constructor
    · intro hm
      obtain ⟨⟨q, s, b⟩, hl, he⟩ := List.mem_map.1 hm
      cases b
      · simp [Leaf.rew] at he
      · simp only [Leaf.rew, if_true, Leaf.mk.injEq] at he
        obtain ⟨rfl, rfl, _⟩ := he
        exact hl
    · intro hm
      exact List.mem_map.2 ⟨_, hm, by simp [Leaf.rew]⟩

private def fld (s : String) : Seg := .field s.toList

example : WellKeyed ev ∧ located [] (simpleEvent.ops ev) =
    some [([fld "message"], "m".toList), ([fld "a", .index 0], "x".toList),
      ([fld "a", .index 1, fld "message"], "w".toList), ([fld "a", .index 1, fld "z"], "y".toList)] :=
  ⟨ev_wf, by decide⟩

example : located [] (jsonEvent.ops ev) =
    some [([fld "a", .index 0], "x".toList), ([fld "a", .index 1, fld "z"], "y".toList),
      ([fld "a", .index 1, fld "message"], "w".toList), ([fld "message"], "m".toList),
      ([fld "n"], "5".toList)] := by decide

example : At ev [fld "a", .index 1, fld "z"] (.str "y".toList) := by
  rw [← Ev.mem_str true]
  decide

end Sds.Props
