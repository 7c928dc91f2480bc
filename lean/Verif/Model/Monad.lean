/- The state of a lookup, and the computations that the evaluator (`Model/Eval.lean`) is made of.

Simplification: one goroutine. Concurrent use of a session is modelled separately (`Model/Conc.lean`). -/
import Verif.Model.Explain
import Verif.Model.Interp

set_option autoImplicit false

namespace Hiera

/-- `dgo.Keyed` as used for scopes: an object with a method `Get`. Simplification: `Get` has no effects and does not change
over time (session scopes are frozen, `session/session.go:81-89`). -/
@[ext] structure Scope where
  get : Str → Option Value

/-- A map as a scope: `dgo.Map.Get` (dgo; used in `session/interpolate.go:163`). -/
def Scope.map (es : Entries) : Scope := ⟨fun k => Entries.getS es k⟩

/-- `nestedScope` and its `Get` (`session/invocation.go:44-47`, `59-64`). -/
def Scope.nested (parent inner : Scope) : Scope := ⟨fun k => match inner.get k with
  | some v => some v
  | none => parent.get k⟩

/-- `scopeWithVar` and its `Get` (`config/mappedpaths.go:119-123`, `125-130`). -/
def Scope.withVar (s : Scope) (k' : Str) (v : Value) : Scope := ⟨fun k => if k' = k then some v else s.get k⟩

/-- `invocationMode` (`session/invocation.go:24-30`). -/
inductive Mode
  | top
  | lookupOptions
  | data
  deriving DecidableEq

/-- The fields of `ivContext` that a copy of the struct has for itself (`session/invocation.go:32-42`).
`nameStack` is left out: only `WithKey` uses it, which nothing calls. -/
structure Ic where
  scope : Scope
  luOpts : Option Entries := none
  strategy : Option Strategy := none
  mode : Mode := .top
  redacted : Bool := false

/-- A data provider (`internal/datahashprovider.go:14-19`, `internal/datadigprovider.go:12-15`,
`internal/lookupkeyprovider.go:13-16`):
a resolved entry with an identity, under which the state holds its memory (`hashes`, `providerFunc`). -/
structure Prov where
  id : Nat
  entry : Entry
  deriving DecidableEq

/-- `resolvedConfig` (`session/resolvedconfig.go:13-19`). -/
structure RCfg where
  providers : List Prov
  defaultProviders : List Prov
  lookupOptions : Option Entries
  moduleName : Str

/-- Uses of things outside the process, recorded in the order in which they happen. The record has no counterpart in the
code (the uses are those of `provider/environment.go:29`, `config/config.go:78`, `provider/yamldata.go:22` and the
like). -/
inductive Ev
  /-- a configuration file was read -/
  | config (path : Str)
  /-- the function of a `data_hash` entry was called with these options -/
  | hash (name : Str) (opts : Entries)
  /-- the function of a `data_dig` entry was called with these key parts -/
  | dig (name : Str) (parts : List Part)
  /-- the function of a `lookup_key` entry was called with these options and key -/
  | key (name : Str) (opts : Entries) (k : Str)

/-- Everything but the explainer (`session/invocation.go:32-42`, `session/session.go:29-36,92-97`). -/
structure View where
  ic : Ic
  /-- `ivContext.configs`, shared by the copies of an `ivContext` -/
  configs : List (Str × RCfg) := []
  /-- identity of the next provider -/
  nextId : Nat := 0
  /-- `dataHashProvider.hashes`, by provider and location -/
  hashes : List ((Prov × Str) × Entries) := []
  /-- the providers whose `providerFunc` is set -/
  loaded : List Nat := []
  /-- the parsed configurations in `Session.SharedCache` -/
  parsed : List (Str × Cfg) := []
  /-- the configuration paths whose lock in `Session.SharedCache` is held forever -/
  locked : List Str := []
  /-- `Session.TopProviderCache` -/
  cache : List (Str × Value) := []
  trace : List Ev := []
  /-- whether another invocation of the session, which runs at the same time, has parsed a configuration file and put the
  result into `Session.SharedCache` when this one, having done what is given, looks there -/
  ahead : List Ev → Str → Bool := fun _ _ => false

/-- `NewExplainer`'s arguments (`explain/explainer.go:809`). -/
structure ExplOpts where
  options : Bool
  onlyOptions : Bool
  deriving DecidableEq

/-- The state. `on` tells whether the current `ivContext` has an explainer; `tree` is that explainer
(`session/invocation.go:39`). -/
structure St where
  v : View
  on : Option ExplOpts := none
  tree : Tree := .new

/-- Computations: `none` stands for not terminating (within the given fuel), `Res.panic` for a panic, after which the
state remains as it was left (infrastructure for all of `session/invocation.go`). -/
def M (α : Type) : Type := St → Option (Res α × St)

/-- Sequencing (infrastructure for all of `session/invocation.go`). -/
instance : Monad M where
  pure a := fun s => some (.ok a, s)
  bind m f := fun s => match m s with
    | none => none
    | some (.ok a, s') => f a s'
    | some (.panic e, s') => some (.panic e, s')

/-- Go `panic` (as in `session/invocation.go:263`). -/
def panic {α : Type} (e : Err) : M α := fun s => some (.panic e, s)

/-- Waiting forever (as in `session/invocation.go:96`). -/
def hang {α : Type} : M α := fun _ => none

/-- Code that uses no state (infrastructure for all of `session/invocation.go`). -/
def lift {α : Type} (r : Res α) : M α := fun s => some (r, s)

/-- Read the state (but not the explainer) (infrastructure for all of `session/invocation.go`). -/
def view : M View := fun s => some (.ok s.v, s)

/-- Change the state (but not the explainer) (infrastructure for all of `session/invocation.go`). -/
def update (f : View → View) : M Unit := fun s => some (.ok (), { s with v := f s.v })

/-- Run on a changed copy of the `ivContext`; the original is as it was afterwards (Go: `lic := *ic`)
(`session/invocation.go:381-424`). -/
def withCopy {α : Type} (f : Ic → Ic) (g : Option ExplOpts → Option ExplOpts) (m : M α) : M α := fun s =>
  match m { s with v := { s.v with ic := f s.v.ic }, on := g s.on } with
  | none => none
  | some (r, s') => some (r, { s' with v := { s'.v with ic := s.v.ic }, on := s.on })

/-- `ForConfig` (`session/invocation.go:381-388`): a copy without explainer, but no copy if there is none. -/
def forConfig {α : Type} (m : M α) : M α := fun s =>
  if s.on.isNone then m s else withCopy id (fun _ => none) m s

/-- Which explainer `ForData` keeps (`session/invocation.go:395-397`). -/
def explForData : Option ExplOpts → Option ExplOpts
  | some o => if o.onlyOptions then none else some o
  | none => none

/-- `ForData` (`session/invocation.go:390-400`). -/
def forData {α : Type} (m : M α) : M α := do
  let v ← view
  if v.ic.mode = .data then m else withCopy (fun ic => { ic with mode := .data }) explForData m

/-- Which explainer `ForLookupOptions` keeps (`session/invocation.go:415-417`). -/
def explForOptions : Option ExplOpts → Option ExplOpts
  | some o => if o.options || o.onlyOptions then some o else none
  | none => none

/-- `ForLookupOptions` (`session/invocation.go:410-420`). -/
def forLookupOptions {α : Type} (m : M α) : M α := do
  let v ← view
  if v.ic.mode = .lookupOptions then m else withCopy (fun ic => { ic with mode := .lookupOptions }) explForOptions m

/-- The `With` methods that push a node (`session/invocation.go:300-379`): push, run, and pop even on panic (`defer`). -/
def withNode {α : Type} (n : Node) (m : M α) : M α := fun s =>
  if s.on.isNone then m s
  else match s.tree.push n with
    | none => some (.panic .nilDeref, { s with tree := s.tree.pop })
    | some t => match m { s with tree := t } with
      | none => none
      | some (r, s') => some (r, { s' with tree := s'.tree.pop })

/-- The `Report` methods (`session/invocation.go:422-462`). -/
def report (f : Node → Node) : M Unit := fun s =>
  if s.on.isNone then some (.ok (), s)
  else match s.tree.accept f with
    | none => some (.panic .nilDeref, s)
    | some t => some (.ok (), { s with tree := t })

/-- Record a use of the outside (infrastructure, see `Ev`; used for `provider/environment.go:29` and the like). -/
def emit (e : Ev) : M Unit := update (fun v => { v with trace := v.trace ++ [e] })

/-- Set `scope` and run, restoring it unless there is a panic (`DoWithScope`, `session/invocation.go:284-289`). -/
def doWithScope {α : Type} (sc : Scope) (m : M α) : M α := do
  let v ← view
  update (fun w => { w with ic := { w.ic with scope := sc } })
  let a ← m
  update (fun w => { w with ic := { w.ic with scope := v.ic.scope } })
  pure a

/-- `DoRedacted` (`session/invocation.go:272-282`): sets `redacted` while `m` runs, also resetting it on panic. -/
def doRedacted {α : Type} (m : M α) : M α := fun s =>
  if s.v.ic.redacted then m s
  else match m { s with v := { s.v with ic := { s.v.ic with redacted := true } } } with
    | none => none
    | some (r, s') => some (r, { s' with v := { s'.v with ic := { s'.v.ic with redacted := false } } })

end Hiera
