/- `config/*.go`: the configuration file before it is resolved. -/
import Verif.Model.Key
import Verif.Model.Path

set_option autoImplicit false

namespace Hiera

open Value

/-- `api.FunctionKind` (`api/function.go:18-25`). -/
inductive FnKind
  | dataDig
  | dataHash
  | lookupKey
  deriving DecidableEq

/-- `api.Location` (`config/path.go:16-20`, `config/glob.go:16`, `config/uri.go:14-17`, `config/mappedpaths.go:16-25`). -/
inductive Loc
  | path (original resolved : Str) (exists_ : Bool)
  | glob (pattern : Str)
  | uri (original resolved : Str)
  | mapped (sourceVar key template : Str)
  deriving DecidableEq

/-- `Location.Exists` (`config/path.go:63-65`, `config/glob.go:47-49`, `config/uri.go:58-60`,
`config/mappedpaths.go:66-68`). -/
def Loc.exists_ : Loc → Bool
  | .path _ _ e => e
  | .uri _ _ => true
  | _ => false

/-- `Location.Resolved` (`config/path.go:86-88`, `config/uri.go:79-81`); a glob or mapped paths never get here once resolved
(`config/glob.go:74-77`, `config/mappedpaths.go:114-117` panic). -/
def Loc.resolved : Loc → Str
  | .path _ r _ => r
  | .uri _ r => r
  | _ => []

/-- `entry` (`config/entry.go:16-26`); `root` stands for the `cfg` pointer, of which only `root` is used. -/
structure Entry where
  root : Str
  dataDir : Str := []
  pluginDir : Str := []
  pluginFile : Str := []
  options : Option Entries := none
  function : Option (FnKind × Str) := none
  name : Str := []
  locations : Option (List Loc) := none
  deriving DecidableEq

/-- `hieraCfg` (`config/config.go:19-25`). -/
structure Cfg where
  root : Str
  path : Str
  defaults : Entry
  hierarchy : List Entry
  defaultHierarchy : List Entry

/-- `FunctionKeys` (`config/entry.go:29`). -/
def functionKey (k : Str) : Option FnKind :=
  if k = "data_dig".toList then some .dataDig
  else if k = "data_hash".toList then some .dataHash
  else if k = "lookup_key".toList then some .lookupKey
  else none

/-- `LocationKeys` (`config/entry.go:32-36`). -/
def locationKeys : List Str :=
  ["path".toList, "paths".toList, "glob".toList, "globs".toList, "uri".toList, "uris".toList, "mapped_paths".toList]

/-- `ReservedOptionKeys` (`config/entry.go:39`). -/
def reservedOptionKeys : List Str := ["path".toList, "uri".toList]

/-- What the configuration needs from the outside: `String()` of values that are not strings, and the process
environment (used in `config/config.go:127-141` and `config/entry.go:96-155`). -/
structure CfgEnv where
  toStr : Value → Str
  lookupEnv : Str → Option Str

/-- `defaultDataDir` (`config/config.go:127-133`). -/
def CfgEnv.defaultDataDir (E : CfgEnv) : Str := (E.lookupEnv "HIERA_DATADIR".toList).getD "data".toList

/-- `defaultPluginDir` (`config/config.go:135-141`). -/
def CfgEnv.defaultPluginDir (E : CfgEnv) : Str := (E.lookupEnv "HIERA_PLUGINDIR".toList).getD "plugin".toList

/-- The check for reserved option keys in `initialize` (`config/entry.go:66-71`). -/
def checkOptionKeys (E : CfgEnv) (name : Str) : Entries → Res Unit
  | [] => .ok ()
  | (k, _) :: es =>
    if E.toStr k ∈ reservedOptionKeys then .panic (.reservedOption (E.toStr k) name) else checkOptionKeys E name es

/-- `entry.initialize` (`config/entry.go:61-80`). -/
def Entry.initialize (E : CfgEnv) (name : Str) : Entry → Entries → Res Entry
  | e, [] => .ok e
  | e, (k, v) :: es =>
    let ks := E.toStr k
    if ks = "options".toList then
      match v with
      | .map os => (checkOptionKeys E name os).bind (fun _ => Entry.initialize E name { e with options := some os } es)
      | _ => .panic .typeAssertion
    else match functionKey ks with
      | some fk => if e.function.isSome then .panic (.manyFunctions name)
        else Entry.initialize E name { e with function := some (fk, E.toStr v) } es
      | none => Entry.initialize E name e es

/-- The inner switch of `createEntry` (`config/config.go:215-237`). -/
def createLocations (E : CfgEnv) (ks : Str) (v : Value) : Res (List Loc) :=
  if ks = "path".toList then .ok [.path (E.toStr v) [] false]
  else if ks = "glob".toList then .ok [.glob (E.toStr v)]
  else if ks = "uri".toList then .ok [.uri (E.toStr v) []]
  else match v with
    | .arr es =>
      if ks = "paths".toList then .ok (es.map (fun p => .path (E.toStr p) [] false))
      else if ks = "globs".toList then .ok (es.map (fun p => .glob (E.toStr p)))
      else if ks = "uris".toList then .ok (es.map (fun p => .uri (E.toStr p) []))
      else match es with
        | a :: b :: c :: _ => .ok [.mapped (E.toStr a) (E.toStr b) (E.toStr c)]
        | _ => .panic .nilDeref
    | _ => .panic .typeAssertion

/-- The loop of `createEntry` (`config/config.go:201-239`). -/
def createEntryLoop (E : CfgEnv) (name : Str) : Entry → Entries → Res Entry
  | e, [] => .ok e
  | e, (k, v) :: es =>
    let ks := E.toStr k
    if ks = "datadir".toList then createEntryLoop E name { e with dataDir := E.toStr v } es
    else if ks = "plugindir".toList then createEntryLoop E name { e with pluginDir := E.toStr v } es
    else if ks = "pluginfile".toList then createEntryLoop E name { e with pluginFile := E.toStr v } es
    else if ks ∈ locationKeys then
      if e.locations.isSome then .panic (.manyLocations name)
      else (createLocations E ks v).bind (fun ls => createEntryLoop E name { e with locations := some ls } es)
    else createEntryLoop E name e es

/-- `createEntry` (`config/config.go:198-241`). -/
def createEntry (E : CfgEnv) (root : Str) (name : Str) (es : Entries) : Res Entry :=
  (Entry.initialize E name { root := root, name := name } es).bind (fun e => createEntryLoop E name e es)

/-- The loop of `createHierarchy` (`config/config.go:180-196`); `seen` is `uniqueNames`. -/
def createHierarchyLoop (E : CfgEnv) (root : Str) (seen : List Str) : List Value → Res (List Entry)
  | [] => .ok []
  | .map hh :: vs =>
    let name := match Entries.getS hh "name".toList with | some nv => E.toStr nv | none => []
    if name ∈ seen then .panic (.duplicateName name)
    else (createEntry E root name hh).bind (fun e =>
      (createHierarchyLoop E root (name :: seen) vs).bind (fun es => .ok (e :: es)))
  | _ :: _ => .panic .typeAssertion

/-- `createHierarchy` (`config/config.go:180-196`). -/
def createHierarchy (E : CfgEnv) (root : Str) : Value → Res (List Entry)
  | .arr vs => createHierarchyLoop E root [] vs
  | _ => .panic .typeAssertion

/-- `makeDefaultConfig` (`config/config.go:143-150`). -/
def makeDefaultConfig (E : CfgEnv) (root : Str) : Entry :=
  { root := root, dataDir := E.defaultDataDir, pluginDir := E.defaultPluginDir,
    function := some (.dataHash, "yaml_data".toList) }

/-- `makeDefaultHierarchy` (`config/config.go:152-158`). -/
def makeDefaultHierarchy (root : Str) : List Entry :=
  [{ root := root, dataDir := ['.'], name := "Root".toList, locations := some [.path "data.yaml".toList [] false] },
   { root := root, name := "Common".toList, locations := some [.path "common.yaml".toList [] false] }]

/-- `createConfig` (`config/config.go:105-125`). -/
def createConfig (E : CfgEnv) (path : Str) (hash : Entries) : Res Cfg :=
  let root := dir path
  Res.bind (match Entries.getS hash "defaults".toList with
    | some (.map dv) => createEntry E root "defaults".toList dv
    | some _ => .panic .typeAssertion
    | none => .ok (makeDefaultConfig E root)) fun defaults =>
  Res.bind (match Entries.getS hash "hierarchy".toList with
    | some hv => createHierarchy E root hv
    | none => .ok (makeDefaultHierarchy root)) fun hierarchy =>
  Res.bind (match Entries.getS hash "default_hierarchy".toList with
    | some hv => createHierarchy E root hv
    | none => .ok []) fun defaultHierarchy =>
  .ok { root := root, path := path, defaults := defaults, hierarchy := hierarchy, defaultHierarchy := defaultHierarchy }

/-! ### The schema (`config/config.go:28-63`), as `cfgType.Instance` checks it -/

/-- The type `rstring=string[1]` (`config/config.go:30`). -/
def isRString : Value → Bool
  | .str s => !s.isEmpty
  | _ => false

mutual
/-- The dgo type `data`: no sensitive values, and string keys, at every depth. Simplification: all `opaque` values count
as data (used in `config/config.go:29`). -/
def isData : Value → Bool
  | .arr es => isDataList es
  | .map es => isDataMap es
  | .sensitive _ => false
  | _ => true
/-- `isData` for all elements (`config/config.go:29`). -/
def isDataList : List Value → Bool
  | [] => true
  | v :: vs => isData v && isDataList vs
/-- `isData` for all values, under string keys (`config/config.go:29`). -/
def isDataMap : List (Value × Value) → Bool
  | [] => true
  | (k, v) :: es => (match k with | .str _ => true | _ => false) && isData v && isDataMap es
end

/-- Letters (`config/config.go:29`). -/
def isAlpha (c : Char) : Bool := ('a' ≤ c && c ≤ 'z') || ('A' ≤ c && c ≤ 'Z')
/-- Letters and digits (`config/config.go:29`). -/
def isAlnum (c : Char) : Bool := isAlpha c || ('0' ≤ c && c ≤ '9')

/-- `[0-9A-Za-z_-]*[0-9A-Za-z]` matched against the whole string (`config/config.go:29`). -/
def isOptionTail : Str → Bool
  | [] => false
  | [c] => isAlnum c
  | c :: cs => (isAlnum c || c == '_' || c == '-') && isOptionTail cs

/-- The regular expression of option keys, `\A[A-Za-z](:?[0-9A-Za-z_-]*[0-9A-Za-z])?\z` (`config/config.go:29`; `(:?` is
an optional colon). -/
def isOptionKey : Value → Bool
  | .str (c :: cs) => isAlpha c && (cs.isEmpty || isOptionTail cs ||
      (match cs with | ':' :: ds => isOptionTail ds | _ => false))
  | _ => false

/-- The type `options` (`config/config.go:29`). -/
def isOptions : Value → Bool
  | .map es => es.all (fun e => isOptionKey e.1 && isData e.2)
  | _ => false

/-- An array type of `rstring` with a minimum and possibly a maximum length (`config/config.go:49,51,53,54`). -/
def isRStrings (min : Nat) (max : Option Nat) : Value → Bool
  | .arr es => decide (min ≤ es.length) && (match max with | some m => decide (es.length ≤ m) | none => true) && es.all isRString
  | _ => false

/-- The optional members of the struct types `defaults` and `entry`, by key (`config/config.go:31-55`). -/
def memberOK (inEntry : Bool) (k : Str) (v : Value) : Bool :=
  if k = "options".toList then isOptions v
  else if k ∈ ["data_dig".toList, "data_hash".toList, "lookup_key".toList, "datadir".toList, "plugindir".toList] then isRString v
  else if inEntry then
    if k ∈ ["name".toList, "pluginfile".toList, "path".toList, "glob".toList, "uri".toList] then isRString v
    else if k ∈ ["paths".toList, "globs".toList, "uris".toList] then isRStrings 1 none v
    else if k = "mapped_paths".toList then isRStrings 3 (some 3) v
    else false
  else false

/-- A struct type: every key is known, and its value is of the type given for the key (`config/config.go:31-63`). -/
def isStruct (inEntry : Bool) : Value → Bool
  | .map es => es.all (fun e => match e.1 with | .str k => memberOK inEntry k e.2 | _ => false) &&
      (!inEntry || (Entries.getS es "name".toList).isSome)
  | _ => false

/-- An array of entries (`config/config.go:61-62`). -/
def isEntryArray : Value → Bool
  | .arr es => es.all (isStruct true)
  | _ => false

/-- `cfgType.Instance` (`config/config.go:57-63`, `98`). -/
def isCfg (es : Entries) : Bool :=
  (match Entries.getS es "version".toList with | some (.int i) => i == 5 | _ => false) &&
  es.all (fun e => match e.1 with
    | .str k =>
      if k = "version".toList then true
      else if k = "defaults".toList then isStruct false e.2
      else if k ∈ ["hierarchy".toList, "default_hierarchy".toList] then isEntryArray e.2
      else false
    | _ => false)

/-- What reading and parsing a file gives (`config/config.go:78-97`). -/
inductive FileRes
  /-- the file does not exist -/
  | missing
  /-- reading or parsing fails -/
  | err (e : Err)
  | value (v : Value)

/-- `config.New` (`config/config.go:77-103`), given what reading the file gives. -/
def newCfg (E : CfgEnv) (path : Str) : FileRes → Res Cfg
  | .missing => .ok { root := dir path, path := [], defaults := makeDefaultConfig E (dir path),
                      hierarchy := makeDefaultHierarchy (dir path), defaultHierarchy := [] }
  | .err e => .panic e
  | .value (.map es) => if isCfg es then createConfig E path es else .panic .schema
  | .value _ => .panic .typeAssertion

end Hiera
