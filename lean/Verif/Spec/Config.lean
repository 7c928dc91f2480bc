/-
  Specifications for configurations: which ones are ambiguous, and what an entry of the file says.
-/
import Verif.Model.Config

set_option autoImplicit false

namespace Hiera.Spec
open Value

/-- The map has an entry for the string `k`. -/
def Has (es : Entries) (k : Str) : Prop := ∃ v, (Value.str k, v) ∈ es

/-- The map has entries for two of the strings. -/
def TwoOf (ks : List Str) (es : Entries) : Prop := ∃ k ∈ ks, ∃ k' ∈ ks, k ≠ k' ∧ Has es k ∧ Has es k'

/-- The keys for functions. -/
def functionNames : List Str := ["data_dig".toList, "data_hash".toList, "lookup_key".toList]

/-- The keys for locations. -/
def locationNames : List Str :=
  ["path".toList, "paths".toList, "glob".toList, "globs".toList, "uri".toList, "uris".toList, "mapped_paths".toList]

/-- The entry has an option whose name is reserved. -/
def ReservedOption (es : Entries) : Prop :=
  ∃ os, (Value.str "options".toList, Value.map os) ∈ es ∧ (Has os "path".toList ∨ Has os "uri".toList)

/-- The entry is ambiguous. -/
def BadEntry (es : Entries) : Prop := TwoOf functionNames es ∨ TwoOf locationNames es ∨ ReservedOption es

/-- The entry has this name. -/
def Named (v : Value) (n : Str) : Prop := ∃ es, v = .map es ∧ (Value.str "name".toList, Value.str n) ∈ es

/-- A hierarchy with an ambiguous entry, or with two entries of the same name. -/
def BadHierarchy (vs : List Value) : Prop :=
  (∃ es, Value.map es ∈ vs ∧ BadEntry es) ∨ ¬vs.Pairwise (fun v w => ∀ n, Named v n → ¬Named w n)

/-- An ambiguous configuration. -/
def Ambiguous (es : Entries) : Prop :=
  (∃ d, (Value.str "defaults".toList, Value.map d) ∈ es ∧ BadEntry d) ∨
  ∃ h ∈ ["hierarchy".toList, "default_hierarchy".toList], ∃ vs, (Value.str h, Value.arr vs) ∈ es ∧ BadHierarchy vs

/-- The locations that an entry of the file with key `k` and value `v` stands for. -/
inductive LocsOf : Str → Value → List Loc → Prop
  | path {s} : LocsOf "path".toList (.str s) [.path s [] false]
  | glob {s} : LocsOf "glob".toList (.str s) [.glob s]
  | uri {s} : LocsOf "uri".toList (.str s) [.uri s []]
  | paths {ss : List Str} : LocsOf "paths".toList (.arr (ss.map .str)) (ss.map (fun s => .path s [] false))
  | globs {ss : List Str} : LocsOf "globs".toList (.arr (ss.map .str)) (ss.map .glob)
  | uris {ss : List Str} : LocsOf "uris".toList (.arr (ss.map .str)) (ss.map (fun s => .uri s []))
  | mapped {a b c} : LocsOf "mapped_paths".toList (.arr [.str a, .str b, .str c]) [.mapped a b c]

/-- What a setting that may be missing is. -/
def Setting {α : Type} (es : Entries) (k : Str) (of : Value → α → Prop) (absent x : α) : Prop :=
  (∀ v, (Value.str k, v) ∈ es → of v x) ∧ (¬Has es k → x = absent)

/-- `e` is the entry that the map of the file describes. -/
structure Describes (root name : Str) (es : Entries) (e : Entry) : Prop where
  root : e.root = root
  name : e.name = name
  dataDir : Setting es "datadir".toList (fun v x => v = .str x) [] e.dataDir
  pluginDir : Setting es "plugindir".toList (fun v x => v = .str x) [] e.pluginDir
  pluginFile : Setting es "pluginfile".toList (fun v x => v = .str x) [] e.pluginFile
  options : Setting es "options".toList (fun v x => ∃ os, v = .map os ∧ x = some os) none e.options
  dataDig : ∀ n, (Value.str "data_dig".toList, Value.str n) ∈ es → e.function = some (.dataDig, n)
  dataHash : ∀ n, (Value.str "data_hash".toList, Value.str n) ∈ es → e.function = some (.dataHash, n)
  lookupKey : ∀ n, (Value.str "lookup_key".toList, Value.str n) ∈ es → e.function = some (.lookupKey, n)
  noFunction : (∀ k ∈ functionNames, ¬Has es k) → e.function = none
  locations : ∀ k ∈ locationNames, ∀ v, (Value.str k, v) ∈ es → ∃ ls, LocsOf k v ls ∧ e.locations = some ls
  noLocations : (∀ k ∈ locationNames, ¬Has es k) → e.locations = none

/-- `cs` are the entries that a hierarchy of the file describes, in order. -/
inductive DescribesAll (root : Str) : List Value → List Entry → Prop
  | nil : DescribesAll root [] []
  | cons {es n e vs cs} : (Value.str "name".toList, Value.str n) ∈ es → Describes root n es e → DescribesAll root vs cs →
      DescribesAll root (.map es :: vs) (e :: cs)

/-- The defaults when the file has none: files in YAML, and the directories of the environment or `data` and `plugin`. -/
structure BuiltIn (env : Str → Option Str) (root : Str) (e : Entry) : Prop where
  root : e.root = root
  function : e.function = some (.dataHash, "yaml_data".toList)
  dataDir : (∀ d, env "HIERA_DATADIR".toList = some d → e.dataDir = d) ∧
    (env "HIERA_DATADIR".toList = none → e.dataDir = "data".toList)
  pluginDir : (∀ d, env "HIERA_PLUGINDIR".toList = some d → e.pluginDir = d) ∧
    (env "HIERA_PLUGINDIR".toList = none → e.pluginDir = "plugin".toList)
  pluginFile : e.pluginFile = []
  options : e.options = none
  locations : e.locations = none

/-- The hierarchy when the file has none: `data.yaml` in the directory of the file, then `common.yaml` in the data
directory, everything else from the defaults. -/
def builtInHierarchy (root : Str) : List Entry :=
  [⟨root, ".".toList, [], [], none, none, "Root".toList, some [.path "data.yaml".toList [] false]⟩,
   ⟨root, [], [], [], none, none, "Common".toList, some [.path "common.yaml".toList [] false]⟩]

/-- `c` is the configuration that the map of the file describes. -/
structure DescribesCfg (env : Str → Option Str) (root path : Str) (es : Entries) (c : Cfg) : Prop where
  rootIs : c.root = root
  pathIs : c.path = path
  defaults : ∀ d, (Value.str "defaults".toList, Value.map d) ∈ es → Describes root "defaults".toList d c.defaults
  noDefaults : ¬Has es "defaults".toList → BuiltIn env root c.defaults
  hierarchy : ∀ vs, (Value.str "hierarchy".toList, Value.arr vs) ∈ es → DescribesAll root vs c.hierarchy
  noHierarchy : ¬Has es "hierarchy".toList → c.hierarchy = builtInHierarchy root
  defaultHierarchy : ∀ vs, (Value.str "default_hierarchy".toList, Value.arr vs) ∈ es → DescribesAll root vs c.defaultHierarchy
  noDefaultHierarchy : ¬Has es "default_hierarchy".toList → c.defaultHierarchy = []

end Hiera.Spec
