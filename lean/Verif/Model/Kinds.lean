import Verif.Model.Scan

/-! # Rule kinds with shared data

Model of the traits `CompiledRuleDyn` and `CompiledRule` (sds/src/scanner/mod.rs 60-262), of the group
configuration made by `ScannerBuilder::build` (684-687), and of `Scanner::scan` (316-386) with the maps
`group_data` and `rule_scan_caches` (718-805).  A rule kind is written by a user of the library: its functions
are arbitrary, except that it may only add texts to `excluded_matches`.  The caches of the regex engine, the
labels passed to `create_group_data` (fixed for a scanner), the indices of true positive rules (always empty in a
scan, C69) and `on_excluded_match_multipass_v0` (metrics) are left out. -/

namespace Sds

section
variable {V : Nat → Type}

/-- `Box<dyn Any>`: a value of some type.  A `TypeId` is a number, and `V t` is the type with this number. -/
abbrev AnyVal (V : Nat → Type) : Type := (t : Nat) × V t

/-- `downcast_mut`, `downcast_ref`. -/
def AnyVal.downcast (t : Nat) (a : AnyVal V) : Option (V t) :=
  if h : a.1 = t then some (h ▸ a.2) else none

/-- `AHashMap<TypeId, Box<dyn Any>>`. -/
abbrev AnyMap (V : Nat → Type) : Type := List (Nat × AnyVal V)

/-- `map.entry(TypeId::of::<T>()).or_insert_with(|| Box::new(new))`: the map afterwards. -/
def AnyMap.entry (m : AnyMap V) (t : Nat) (new : V t) : AnyMap V :=
  match m.lookup t with
  | some _ => m
  | none => (t, ⟨t, new⟩) :: m

/-- The value of the type in the map; `none` where the code calls `unwrap` on `None`. -/
def AnyMap.value (m : AnyMap V) (t : Nat) : Option (V t) :=
  match m.lookup t with
  | none => none
  | some a => a.downcast t

/-- The map after an assignment through `&mut T` obtained for the entry of `t`. -/
def AnyMap.put (m : AnyMap V) (t : Nat) (v : V t) : AnyMap V :=
  m.map fun x => if x.1 = t then (x.1, ⟨t, v⟩) else x

/-- `CompiledRule` (mod.rs 194-262).  `dataT`, `configT`, `cacheT` are the types `GroupData`, `GroupConfig`,
`RuleScanCache`; `run` is `get_string_matches` for a content, a path, and whether the path is excluded, with the
data and the cache afterwards. -/
structure KRule (V : Nat → Type) where
  info : RuleInfo
  scope : Scope
  multipass : Bool
  dataT : Nat
  configT : Nat
  cacheT : Nat
  createData : V dataT
  createConfig : V configT
  createCache : V cacheT
  process : V configT → V configT
  run : Str → Path → Bool → V dataT → V configT → V cacheT → Res (Found × V dataT × V cacheT)

/-- `CompiledRuleDyn::process_scanner_config` (mod.rs 180-190). -/
def KRule.processDyn (r : KRule V) (configs : AnyMap V) : Res (AnyMap V) :=
  let configs := configs.entry r.configT r.createConfig
  match configs.value r.configT with
  | none => Res.panic
  | some g => Res.ok (configs.put r.configT (r.process g))

/-- `CompiledRuleDyn::get_string_matches` (mod.rs 119-160). -/
def KRule.runDyn (r : KRule V) (content : Str) (path : Path) (excluded : Bool) (datas configs caches : AnyMap V) :
    Res (Found × AnyMap V × AnyMap V) :=
  let datas := datas.entry r.dataT r.createData
  match datas.value r.dataT with
  | none => Res.panic
  | some d =>
    match configs.value r.configT with
    | none => Res.panic
    | some g =>
      let caches := caches.entry r.cacheT r.createCache
      match caches.value r.cacheT with
      | none => Res.panic
      | some k =>
        match r.run content path excluded d g k with
        | .panic => Res.panic
        | .hang => Res.hang
        | .ok (f, d', k') => Res.ok (f, datas.put r.dataT d', caches.put r.cacheT k')

/-- The loop of `build` (mod.rs 684-687). -/
def groupConfigs : List (KRule V) → AnyMap V → Res (AnyMap V)
  | [], configs => Res.ok configs
  | r :: rs, configs =>
    match r.processDyn configs with
    | .ok configs' => groupConfigs rs configs'
    | .panic => Res.panic
    | .hang => Res.hang

/-- The parts of `Scanner` (mod.rs 294-304) used by `scan`. -/
structure KScanner (V : Nat → Type) where
  rules : List (KRule V)
  wildcards : Bool
  multipassEnabled : Bool
  returnMatches : Bool
  fp : Fingerprint
  configs : AnyMap V

/-- The end of `ScannerBuilder::build` (mod.rs 684-714). -/
def KScanner.build (rules : List (KRule V)) (wildcards multipassEnabled returnMatches : Bool) (fp : Fingerprint) :
    Res (KScanner V) :=
  match groupConfigs rules [] with
  | .ok configs => Res.ok ⟨rules, wildcards, multipassEnabled, returnMatches, fp, configs⟩
  | .panic => Res.panic
  | .hang => Res.hang

/-- The loop over the rules of one string (mod.rs 744-781): matches, `rule_scan_caches`, `excluded_matches`. -/
def runRulesK (sc : KScanner V) (blocked : List Nat) (v : Visit) :
    List Nat → AnyMap V → AnyMap V → List Str → Res (List M × AnyMap V × List Str)
  | [], _, caches, ex => Res.ok ([], caches, ex)
  | r :: rs, datas, caches, ex =>
    if blocked.contains r then runRulesK sc blocked v rs datas caches ex
    else
      match sc.rules[r]? with
      | none => Res.panic
      | some rule =>
        match rule.runDyn v.content v.path (v.excluded.contains r) datas sc.configs caches with
        | .panic => Res.panic
        | .hang => Res.hang
        | .ok (f, datas', caches') =>
          match runRulesK sc blocked v rs datas' caches' (ex ++ f.inserted) with
          | .panic => Res.panic
          | .hang => Res.hang
          | .ok (ms, caches'', ex') => Res.ok (f.matches_.map (fun m => ⟨r, m.1, m.2⟩) ++ ms, caches'', ex')

/-- `visit_content` for all strings in order (mod.rs 729-805).  The map `group_data` is new for each string. -/
def runVisitsK (sc : KScanner V) (blocked : List Nat) :
    List Visit → AnyMap V → List Str → Res (List PathMatches × List Str)
  | [], _, ex => Res.ok ([], ex)
  | v :: vs, caches, ex =>
    match runRulesK sc blocked v v.rules [] caches ex with
    | .panic => Res.panic
    | .hang => Res.hang
    | .ok (ms, caches', ex') =>
      match runVisitsK sc blocked vs caches' ex' with
      | .panic => Res.panic
      | .hang => Res.hang
      | .ok (l, ex'') =>
        Res.ok (if ms.isEmpty then l else ⟨v.path, v.content, sortBy startLe ms⟩ :: l, ex'')

/-- What the second phase of a scan uses of the scanner: the rules are not run any more. -/
def KScanner.frame (sc : KScanner V) : Scanner :=
  ⟨sc.rules.map fun r => ⟨r.info, r.scope, r.multipass, fun _ _ _ => Res.panic⟩, sc.wildcards, sc.multipassEnabled,
    sc.returnMatches, sc.fp⟩

/-- `Scanner::scan` (mod.rs 316-386).  The map `rule_scan_caches` is new for each scan (335). -/
def scanK {E : Type} (impl : EventImpl E) (sc : KScanner V) (e : E) (blocked : List Nat) : Res (E × List RuleMatch) :=
  match visitCombinations (RuleSet.new (sc.rules.map (·.scope)) sc.wildcards) (impl.ops e) with
  | .panic => Res.panic
  | .hang => Res.hang
  | .ok vs =>
    match runVisitsK sc blocked vs [] [] with
    | .panic => Res.panic
    | .hang => Res.hang
    | .ok (l, excluded) => editAll impl sc.frame excluded l e

end

end Sds
