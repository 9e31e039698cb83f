import Verif.Model.Path

/-! # Scopes: which rules run on which strings

Model of `sds/src/scoped_ruleset/mod.rs`, `bool_set.rs` and `sds/src/scanner/scope.rs`. -/

namespace Sds

/-- `Scope` (scanner/scope.rs 6-14). -/
inductive Scope where
  | incl (inc exc : List Path)
  | excl (paths : List Path)
deriving DecidableEq, Repr

/-- `RuleChange` (scoped_ruleset/mod.rs 334-338). -/
inductive Change where
  | add (rule : Nat)
  | remove (rule : Nat)
deriving DecidableEq, Repr

mutual
/-- `RuleTree` (mod.rs 340-344). -/
inductive Tree where
  | node (changes : List Change) (children : Forest)
/-- The hash map `children` as an association list; only `get`, `entry` and a map over all values are used,
so the order is not observable. -/
inductive Forest where
  | nil
  | cons (seg : Seg) (tree : Tree) (rest : Forest)
end

/-- `RuleTree::new` (mod.rs 347-352). -/
def Tree.empty : Tree := .node [] .nil

def Tree.changes : Tree → List Change
  | .node cs _ => cs

def Tree.children : Tree → Forest
  | .node _ f => f

/-- `children.get(segment)`. -/
def Forest.get : Forest → Seg → Option Tree
  | .nil, _ => none
  | .cons s t rest, x => if s = x then some t else rest.get x

/-- Replace or insert the value of a key. -/
def Forest.set : Forest → Seg → Tree → Forest
  | .nil, x, v => .cons x v .nil
  | .cons s t rest, x, v => if s = x then .cons s v rest else .cons s t (rest.set x v)

mutual
/-- `recursively_remove` (mod.rs 381-386). -/
def Tree.recursivelyRemove (c : Change) : Tree → Tree
  | .node cs f => .node (cs.filter (fun x => x != c)) (f.recursivelyRemove c)
def Forest.recursivelyRemove (c : Change) : Forest → Forest
  | .nil => .nil
  | .cons s t rest => .cons s (t.recursivelyRemove c) (rest.recursivelyRemove c)
end

/-- `insert_rule_inner` (mod.rs 362-377). -/
def Tree.insert (t : Tree) (path : Path) (c : Change) : Tree :=
  if t.changes.contains c then t
  else
    match path with
    | s :: rest =>
      .node t.changes (t.children.set s (((t.children.get s).getD Tree.empty).insert rest c))
    | [] =>
      let t' := t.recursivelyRemove c
      .node (t'.changes ++ [c]) t'.children
termination_by structural path

/-- The insertions of one rule in `ScopedRuleSet::new` (mod.rs 28-44). -/
def insertScope (t : Tree) (rule : Nat) : Scope → Tree
  | .incl inc exc =>
    let t := exc.foldl (fun t p => t.insert p (.remove rule)) t
    inc.foldl (fun t p => t.insert p (.add rule)) t
  | .excl ps =>
    let t := t.insert [] (.add rule)
    ps.foldl (fun t p => t.insert p (.remove rule)) t

/-- The loop of `ScopedRuleSet::new` (mod.rs 27-45), rules numbered from `i`. -/
def insertScopes (t : Tree) : Nat → List Scope → Tree
  | _, [] => t
  | i, s :: ss => insertScopes (insertScope t i s) (i + 1) ss

/-- `ScopedRuleSet` (mod.rs 14-20); `should_keywords_match_event_paths` is not read there. -/
structure RuleSet where
  tree : Tree
  numRules : Nat
  wildcards : Bool

/-- `ScopedRuleSet::new(..).with_implicit_index_wildcards(w)` (mod.rs 24-57). -/
def RuleSet.new (scopes : List Scope) (wildcards : Bool) : RuleSet :=
  ⟨insertScopes Tree.empty 0 scopes, scopes.length, wildcards⟩

/-- `PathSegment::is_index` (path.rs 101-103). -/
def Seg.isIndex : Seg → Bool
  | .field _ => false
  | .index _ => true

/-- `ActiveRuleTree` (mod.rs 136-141). -/
structure Active where
  tree : Tree
  wild : Bool

/-- State of `ScopedRuledSetEventVisitor` (mod.rs 155-182): `tree_nodes` (same order as the vector),
`active_node_counter` (top of the stack first), `path`, `bool_set`.  The true-positive counters are always
0 and empty (mod.rs 221-252) and left out. -/
structure Walk where
  nodes : List Active
  counts : List Nat
  path : Path
  boolSet : Option (List Bool)

/-- Initial visitor (mod.rs 69-90). -/
def Walk.init (rs : RuleSet) : Walk :=
  ⟨[⟨rs.tree, false⟩], [1], [], if rs.wildcards then some (List.replicate rs.numRules false) else none⟩

/-- The trees pushed for one active tree (mod.rs 197-213). -/
def pushFor (wildcards : Bool) (seg : Seg) (a : Active) : List Active :=
  (if !a.wild || !seg.isIndex then
    match a.tree.children.get seg with
    | some child => [⟨child, false⟩]
    | none => []
   else []) ++
  (if wildcards && seg.isIndex then [⟨a.tree, true⟩] else [])

/-- `push_segment` (mod.rs 188-261).  `unwrap` of the counter panics on an empty stack, and so does the
subtraction of the range start. -/
def Walk.push (rs : RuleSet) (w : Walk) (seg : Seg) : Res Walk :=
  match w.counts with
  | [] => Res.panic
  | n :: _ =>
    if n ≤ w.nodes.length then
      let active := w.nodes.drop (w.nodes.length - n)
      let new := active.flatMap (pushFor rs.wildcards seg)
      Res.ok { w with nodes := w.nodes ++ new, counts := new.length :: w.counts, path := w.path ++ [seg] }
    else Res.panic

/-- `pop_segment` (mod.rs 263-276). -/
def Walk.pop (w : Walk) : Res Walk :=
  match w.counts with
  | [] => Res.panic
  | n :: rest =>
    Res.ok { w with nodes := w.nodes.take (w.nodes.length - n), counts := rest, path := w.path.dropLast }

/-- `BoolSet::get_and_set` (bool_set.rs 15-19). -/
def getAndSet (set : List Bool) (i : Nat) : Res (Bool × List Bool) :=
  match set[i]? with
  | some b => Res.ok (b, set.set i true)
  | none => Res.panic

/-- The rule indices of the `Add` changes of the non-wildcard nodes, in order (mod.rs 311-329). -/
def addsOf (nodes : List Active) : List Nat :=
  nodes.flatMap fun a =>
    if a.wild then [] else
      a.tree.changes.filterMap fun
        | .add r => some r
        | .remove _ => none

/-- De-duplication with the bool set (mod.rs 319-325): the visited rules and the set afterwards. -/
def dedupe : List Bool → List Nat → Res (List Nat × List Bool)
  | set, [] => Res.ok ([], set)
  | set, r :: rs =>
    match getAndSet set r with
    | .ok (used, set') =>
      match dedupe set' rs with
      | .ok (l, set'') => Res.ok (if used then l else r :: l, set'')
      | .panic => Res.panic
      | .hang => Res.hang
    | .panic => Res.panic
    | .hang => Res.hang

/-- `visit_rule_indices` (mod.rs 309-331): the rule indices passed to the callback, and the bool set
afterwards. -/
def visitRuleIndices (w : Walk) : Res (List Nat × Option (List Bool)) :=
  match w.boolSet with
  | some set =>
    match dedupe set (addsOf w.nodes) with
    | .ok (l, set') => Res.ok (l, some set')
    | .panic => Res.panic
    | .hang => Res.hang
  | none => Res.ok (addsOf w.nodes, none)

/-- `BoolSet::reset` (bool_set.rs 21-25). -/
def resetSet (set : List Bool) : List Bool := set.map fun _ => false

/-- The rules for which `ExclusionCheck::is_excluded` is true (mod.rs 100-116). -/
def removedOf (nodes : List Active) : List Nat :=
  nodes.flatMap fun a =>
    a.tree.changes.filterMap fun
      | .add _ => none
      | .remove r => some r

/-- What the content visitor receives for one string (mod.rs 278-298). -/
structure Visit where
  path : Path
  content : Str
  rules : List Nat
  excluded : List Nat
deriving DecidableEq, Repr

/-- `visit_string` (mod.rs 278-298). -/
def Walk.visit (w : Walk) (content : Str) : Res (Visit × Walk) :=
  match visitRuleIndices w with
  | .ok (rules, set) =>
    Res.ok (⟨w.path, content, rules, removedOf w.nodes⟩, { w with boolSet := set.map resetSet })
  | .panic => Res.panic
  | .hang => Res.hang

/-- The calls an `Event` makes on its visitor (event.rs 21-25). -/
inductive Op where
  | push (s : Seg)
  | pop
  | visit (content : Str)
deriving DecidableEq, Repr

/-- Run the visitor on a sequence of calls; collects the visits in order. -/
def runOps (rs : RuleSet) : Walk → List Op → Res (List Visit × Walk)
  | w, [] => Res.ok ([], w)
  | w, .push s :: ops =>
    match w.push rs s with
    | .ok w' => runOps rs w' ops
    | .panic => Res.panic
    | .hang => Res.hang
  | w, .pop :: ops =>
    match w.pop with
    | .ok w' => runOps rs w' ops
    | .panic => Res.panic
    | .hang => Res.hang
  | w, .visit c :: ops =>
    match w.visit c with
    | .ok (v, w') =>
      match runOps rs w' ops with
      | .ok (vs, w'') => Res.ok (v :: vs, w'')
      | .panic => Res.panic
      | .hang => Res.hang
    | .panic => Res.panic
    | .hang => Res.hang

/-- `visit_string_rule_combinations` (mod.rs 64-93) on the calls made by an event. -/
def visitCombinations (rs : RuleSet) (ops : List Op) : Res (List Visit) :=
  match runOps rs (Walk.init rs) ops with
  | .ok (vs, _) => Res.ok vs
  | .panic => Res.panic
  | .hang => Res.hang

end Sds
