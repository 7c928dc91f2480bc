import Verif.Model.Api
import Verif.Model.AsValues
import Verif.Model.Cache
import Verif.Model.Cli
import Verif.Model.Command
import Verif.Model.Conc
import Verif.Model.ConcHash
import Verif.Model.Config
import Verif.Model.Eval
import Verif.Model.Explain
import Verif.Model.ExplainData
import Verif.Model.ExplainText
import Verif.Model.Heap
import Verif.Model.Interp
import Verif.Model.Key
import Verif.Model.Loader
import Verif.Model.Merge
import Verif.Model.Module
import Verif.Model.Monad
import Verif.Model.Path
import Verif.Model.Plugin
import Verif.Model.PluginCall
import Verif.Model.PluginGo
import Verif.Model.Recursion
import Verif.Model.Rest
import Verif.Model.RestVars
import Verif.Model.Session
import Verif.Model.Value
import Verif.Model.Yaml2Json
import Verif.Spec.Acyclic
import Verif.Spec.Apart
import Verif.Spec.Api
import Verif.Spec.Below
import Verif.Spec.Broken
import Verif.Spec.BuiltIn
import Verif.Spec.Calls
import Verif.Spec.Cli
import Verif.Spec.Config
import Verif.Spec.Conversions
import Verif.Spec.DigTold
import Verif.Spec.Eval
import Verif.Spec.ExplainedLines
import Verif.Spec.Files
import Verif.Spec.Found
import Verif.Spec.Grouped
import Verif.Spec.History
import Verif.Spec.Interp
import Verif.Spec.Kept
import Verif.Spec.Key
import Verif.Spec.Loader
import Verif.Spec.Lookup
import Verif.Spec.Merge
import Verif.Spec.Modular
import Verif.Spec.Moved
import Verif.Spec.Ordinary
import Verif.Spec.Place
import Verif.Spec.PluginCall
import Verif.Spec.Printed
import Verif.Spec.Provider
import Verif.Spec.Reference
import Verif.Spec.Referring
import Verif.Spec.Renamed
import Verif.Spec.Reordered
import Verif.Spec.Repeated
import Verif.Spec.Rungs
import Verif.Spec.RungsFound
import Verif.Spec.RungsKept
import Verif.Spec.Schema
import Verif.Spec.Separate
import Verif.Spec.Session
import Verif.Spec.Shell
import Verif.Spec.Sources
import Verif.Spec.Spelled
import Verif.Spec.StrategySaid
import Verif.Spec.Telling
import Verif.Spec.Told
import Verif.Spec.TopProvider
import Verif.Spec.TrueTold
import Verif.Spec.Unresolved
import Verif.Spec.Variables
import Verif.Lemmas.Below
import Verif.Lemmas.Coherent
import Verif.Lemmas.Config
import Verif.Lemmas.Does
import Verif.Lemmas.Fuel
import Verif.Lemmas.Grouped
import Verif.Lemmas.Grouped2
import Verif.Lemmas.Halts
import Verif.Lemmas.Holds
import Verif.Lemmas.Interp
import Verif.Lemmas.InterpCalls
import Verif.Lemmas.InterpEval
import Verif.Lemmas.KeepsIc
import Verif.Lemmas.Key
import Verif.Lemmas.Loader
import Verif.Lemmas.Lookup
import Verif.Lemmas.Map
import Verif.Lemmas.Merge
import Verif.Lemmas.MergeEqual
import Verif.Lemmas.Modular
import Verif.Lemmas.Mono
import Verif.Lemmas.Moved
import Verif.Lemmas.NonInterf
import Verif.Lemmas.Occurs
import Verif.Lemmas.Ordinary
import Verif.Lemmas.Path
import Verif.Lemmas.Place
import Verif.Lemmas.PluginCall
import Verif.Lemmas.Quiet
import Verif.Lemmas.Reference
import Verif.Lemmas.ReferenceMono
import Verif.Lemmas.ReferenceSite
import Verif.Lemmas.Referring
import Verif.Lemmas.Rel
import Verif.Lemmas.Reordered
import Verif.Lemmas.Repeated
import Verif.Lemmas.Replaced
import Verif.Lemmas.Replay
import Verif.Lemmas.Resolve
import Verif.Lemmas.Returns
import Verif.Lemmas.Rungs
import Verif.Lemmas.Separate
import Verif.Lemmas.Shape
import Verif.Lemmas.Sim
import Verif.Lemmas.Snapshot
import Verif.Lemmas.Spelled
import Verif.Lemmas.Steady
import Verif.Lemmas.Strategy
import Verif.Lemmas.Termination
import Verif.Lemmas.Termination2
import Verif.Lemmas.TopProvider
import Verif.Lemmas.Unlocked
import Verif.Lemmas.Value
import Verif.Lemmas.Variables
import Verif.Lemmas.World
import Verif.Props.Apart
import Verif.Props.Api
import Verif.Props.AsValues
import Verif.Props.Below
import Verif.Props.BelowModules
import Verif.Props.Broken
import Verif.Props.BuiltIn
import Verif.Props.Cache
import Verif.Props.Calls
import Verif.Props.Cli
import Verif.Props.Command
import Verif.Props.Conc
import Verif.Props.ConcHash
import Verif.Props.Concurrent
import Verif.Props.Config
import Verif.Props.Conversions
import Verif.Props.DataDir
import Verif.Props.DefaultHierarchy
import Verif.Props.DigTold
import Verif.Props.Dotted
import Verif.Props.Explain
import Verif.Props.ExplainData
import Verif.Props.ExplainPage
import Verif.Props.ExplainShell
import Verif.Props.ExplainText
import Verif.Props.ExplainTold
import Verif.Props.Explained
import Verif.Props.ExplainedLines
import Verif.Props.Files
import Verif.Props.Found
import Verif.Props.Grouped
import Verif.Props.Heap
import Verif.Props.History
import Verif.Props.Interp
import Verif.Props.Kept
import Verif.Props.Key
import Verif.Props.Loader
import Verif.Props.Lookup
import Verif.Props.Merge
import Verif.Props.Modular
import Verif.Props.Moved
import Verif.Props.Nested
import Verif.Props.NestedTold
import Verif.Props.Ordinary
import Verif.Props.Plugin
import Verif.Props.PluginCall
import Verif.Props.PluginGo
import Verif.Props.PluginOffers
import Verif.Props.PluginRetry
import Verif.Props.Presets
import Verif.Props.Printed
import Verif.Props.Provider
import Verif.Props.Recursion
import Verif.Props.Reference
import Verif.Props.Referring
import Verif.Props.ReferringOne
import Verif.Props.Refused
import Verif.Props.Renamed
import Verif.Props.Reordered
import Verif.Props.Repeated
import Verif.Props.Rest
import Verif.Props.Rungs
import Verif.Props.RungsFound
import Verif.Props.RungsKept
import Verif.Props.RungsReferring
import Verif.Props.RungsReordered
import Verif.Props.RungsShell
import Verif.Props.SamePrinted
import Verif.Props.Schema
import Verif.Props.Separate
import Verif.Props.Session
import Verif.Props.Shared
import Verif.Props.Shell
import Verif.Props.Sources
import Verif.Props.Spelled
import Verif.Props.Strategy
import Verif.Props.StrategySaid
import Verif.Props.Telling
import Verif.Props.Termination
import Verif.Props.TopProvider
import Verif.Props.TrueTold
import Verif.Props.Unresolved
import Verif.Props.Untold
import Verif.Props.Variables
import Verif.Props.Yaml2Json
