import Verif.Spec.Ordinary

/-!
# Without a configuration file

What `hiera` looks at if there is no configuration file: `data.yaml` in the directory where the configuration file would be, and
`common.yaml` in the data directory, in this order.
-/

set_option autoImplicit false

namespace Hiera.Spec

open Value

/-- A configuration file that says in so many words what is looked at without one. -/
def spelledOut : Value :=
  .map [(.str "version".toList, .int 5), (.str "hierarchy".toList, .arr
    [.map [(.str "name".toList, .str "Root".toList), (.str "datadir".toList, .str ".".toList), (.str "path".toList, .str "data.yaml".toList)],
     .map [(.str "name".toList, .str "Common".toList), (.str "path".toList, .str "common.yaml".toList)]])]

/-- A configuration file that says nothing. -/
def sayingNothing : Value := .map [(.str "version".toList, .int 5)]

/-- The two files. -/
def rootFile (E : Env) : Str := join (seenFrom (dir E.configPath) ".".toList) "data.yaml".toList
def commonFile (E : Env) : Str := join (seenFrom (dir E.configPath) (theDataDir E)) "common.yaml".toList

/-- A file is there and has data, or is not there. -/
def FileHas (E : Env) (f : Str) : Option Entries → Prop
  | some es => E.stat f = true ∧ E.readYaml f = .value (.map es) ∧ WF (.map es)
  | none => E.stat f = false

/-- There is no configuration file; `d` is in `data.yaml`, and `d'` in `common.yaml`. -/
structure NoConfig (E : Env) (d d' : Option Entries) : Prop where
  config : E.readYaml E.configPath = .missing
  dataDir : ¬Marked (theDataDir E)
  pluginDir : ¬Marked (thePluginDir E)
  root : FileHas E (rootFile E) d
  common : FileHas E (commonFile E) d'

/-- The data, as two levels. -/
def twoLevels (d d' : Option Entries) : List Level := [⟨"Root".toList, [], d⟩, ⟨"Common".toList, [], d'⟩]

end Hiera.Spec
