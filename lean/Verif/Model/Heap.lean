/- `entry.Resolve` (`config/entry.go:96-184`) once more, with the memory that it works on: entries are structs that are
copied and assigned to, and their locations are slices of arrays that the copies share.

The rest of the model treats entries as values. That this is right is `C60_resolve_refines` in `Props/Heap.lean`.

Simplification: functions, locations and options are values here, as nothing assigns to their fields or elements once
they are made (`config/function.go`, `config/path.go`, `config/uri.go`, `config/glob.go`, `config/mappedpaths.go`; interpolation makes new maps,
`session/interpolate.go:35-66`). -/
import Verif.Model.Eval

set_option autoImplicit false

namespace Hiera

/-- A Go slice of locations: an array, and how much of it is used. The capacity is the array's length (as used in
`config/entry.go:164-170`). -/
structure LocSlice where
  arr : Nat
  len : Nat

/-- The struct `entry` (`config/entry.go:16-25`). -/
structure EntryCell where
  root : Str
  dataDir : Str := []
  pluginDir : Str := []
  pluginFile : Str := []
  options : Option Entries := none
  function : Option (FnKind × Str) := none
  name : Str := []
  locations : Option LocSlice := none

/-- The memory: the structs and the arrays at addresses below `next` (as used in `config/entry.go:96-184`). -/
structure Heap where
  cells : Nat → EntryCell
  arrays : Nat → List Loc
  next : Nat

/-- The elements of a slice (as used in `config/entry.go:164-170`). -/
def Heap.elems (h : Heap) (s : LocSlice) : List Loc := (h.arrays s.arr).take s.len

/-- The value of an entry (`config/entry.go:16-25`). -/
def Heap.entry (h : Heap) (a : Nat) : Entry :=
  let c := h.cells a
  { root := c.root, dataDir := c.dataDir, pluginDir := c.pluginDir, pluginFile := c.pluginFile, options := c.options,
    function := c.function, name := c.name, locations := c.locations.map h.elems }

/-- Computations with a memory, which stays as it was left if there is a panic (infrastructure for
`config/entry.go:96-184`). -/
def HM (α : Type) : Type := Heap → St → Option ((Res α × St) × Heap)

/-- Sequencing (infrastructure for `config/entry.go:96-184`). -/
instance : Monad HM where
  pure a := fun h s => some ((.ok a, s), h)
  bind m f := fun h s => match m h s with
    | none => none
    | some ((.ok a, s'), h') => f a h' s'
    | some ((.panic e, s'), h') => some ((.panic e, s'), h')

/-- What does not touch the memory: interpolation in the configuration, where methods (and with them lookups) are not
allowed (as used in `config/entry.go:96-184`). -/
def HM.of {α : Type} (m : M α) : HM α := fun h s => (m s).map (fun x => (x, h))

/-- The struct at an address (infrastructure for `config/entry.go:96-184`). -/
def HM.read {α : Type} (f : Heap → α) : HM α := fun h s => some ((.ok (f h), s), h)

/-- Assign to fields of the struct at an address (infrastructure for `config/entry.go:96-184`). -/
def HM.assign (a : Nat) (f : EntryCell → EntryCell) : HM Unit := fun h s =>
  some ((.ok (), s), { h with cells := fun b => if b = a then f (h.cells a) else h.cells b })

/-- A new struct (`config/entry.go:83,175`). -/
def HM.newCell (c : EntryCell) : HM Nat := fun h s =>
  some ((.ok h.next, s), { h with cells := fun b => if b = h.next then c else h.cells b, next := h.next + 1 })

/-- `make([]api.Location, 0, n)` (`config/entry.go:165`). -/
def HM.makeSlice (n : Nat) : HM LocSlice := fun h s =>
  some ((.ok ⟨h.next, 0⟩, s),
    { h with arrays := fun b => if b = h.next then List.replicate n (.glob []) else h.arrays b, next := h.next + 1 })

/-- `append(s, ls...)`: into the array, if there is room, and otherwise into a new one. Simplification: a new array has
just the room that is needed (Go; used in `config/entry.go:167`). -/
def HM.append (s : LocSlice) (ls : List Loc) : HM LocSlice := fun h st =>
  if s.len + ls.length ≤ (h.arrays s.arr).length then
    some ((.ok ⟨s.arr, s.len + ls.length⟩, st),
      { h with arrays := fun b => if b = s.arr then
          (h.arrays s.arr).take s.len ++ ls ++ (h.arrays s.arr).drop (s.len + ls.length) else h.arrays b })
  else
    some ((.ok ⟨h.next, s.len + ls.length⟩, st),
      { h with arrays := fun b => if b = h.next then (h.arrays s.arr).take s.len ++ ls else h.arrays b, next := h.next + 1 })

/-- `resolveFunction` (`config/entry.go:96-110`). `d` is the address of the defaults. -/
def resolveFunctionH (E : Env) (rec : Rec) (d : Option Nat) (e : Nat) : HM Unit := do
  let c ← HM.read (fun h => h.cells e)
  match c.function with
  | none => match d with
    | none => HM.assign e (fun c => { c with function := some (.dataHash, "yaml_data".toList) })
    | some d => do
      let dc ← HM.read (fun h => h.cells d)
      match dc.function with
      | some f => HM.assign e (fun c => { c with function := some f })
      | none => HM.of (panic (.other 1))
  | some (k, n) => do
    let n' ← HM.of (interpCfg E rec n)
    HM.assign e (fun c => { c with function := some (k, n') })

/-- `resolveDataDir` (`config/entry.go:112-125`). -/
def resolveDataDirH (E : Env) (rec : Rec) (d : Option Nat) (e : Nat) : HM Unit := do
  resolveFunctionH E rec d e
  let c ← HM.read (fun h => h.cells e)
  if c.dataDir = [] then
    match d with
    | none => HM.assign e (fun c => { c with dataDir := E.cfg.defaultDataDir })
    | some d => do
      let dc ← HM.read (fun h => h.cells d)
      HM.assign e (fun c => { c with dataDir := dc.dataDir })
  else do
    let s ← HM.of (interpCfg E rec c.dataDir)
    HM.assign e (fun c => { c with dataDir := s })

/-- The first part of `resolvePluginDir` (`config/entry.go:128-138`). -/
def pluginDirH (E : Env) (rec : Rec) (d : Option Nat) (e : Nat) : HM Unit := do
  let c ← HM.read (fun h => h.cells e)
  if c.pluginDir = [] then
    match d with
    | none => HM.assign e (fun c => { c with pluginDir := E.cfg.defaultPluginDir })
    | some d => do
      let dc ← HM.read (fun h => h.cells d)
      HM.assign e (fun c => { c with pluginDir := dc.pluginDir })
  else do
    let s ← HM.of (interpCfg E rec c.pluginDir)
    HM.assign e (fun c => { c with pluginDir := s })

/-- `resolvePluginDir` (`config/entry.go:127-142`). -/
def resolvePluginDirH (E : Env) (rec : Rec) (d : Option Nat) (e : Nat) : HM Unit := do
  pluginDirH E rec d e
  let c ← HM.read (fun h => h.cells e)
  if isAbs c.pluginDir then pure ()
  else HM.assign e (fun c => { c with pluginDir := join c.root c.pluginDir })

/-- The first part of `resolveOptions` (`config/entry.go:145-151`). -/
def optionsH (E : Env) (rec : Rec) (d : Option Nat) (e : Nat) : HM Unit := do
  let c ← HM.read (fun h => h.cells e)
  match c.options with
  | none => match d with
    | some d => do
      let dc ← HM.read (fun h => h.cells d)
      HM.assign e (fun c => { c with options := dc.options })
    | none => pure ()
  | some [] => pure ()
  | some (o :: os) => do
    let r ← HM.of (interpolate E rec false (.map (o :: os)))
    match r with
    | some (.map os') => HM.assign e (fun c => { c with options := some os' })
    | _ => HM.of (panic .typeAssertion)

/-- `resolveOptions` (`config/entry.go:144-155`). -/
def resolveOptionsH (E : Env) (rec : Rec) (d : Option Nat) (e : Nat) : HM Unit := do
  optionsH E rec d e
  let c ← HM.read (fun h => h.cells e)
  match c.options with
  | none => HM.assign e (fun c => { c with options := some [] })
  | some _ => pure ()

/-- The loop of `resolveLocations` (`config/entry.go:166-168`), over the elements `ls` that are left. -/
def resolveLocsH (E : Env) (rec : Rec) (dataRoot : Str) (ne : LocSlice) : List Loc → HM LocSlice
  | [] => pure ne
  | l :: ls => do
    let r ← HM.of (l.resolve E rec dataRoot)
    let ne ← HM.append ne r
    resolveLocsH E rec dataRoot ne ls

/-- `resolveLocations` (`config/entry.go:157-171`). Simplification: the loop reads the elements when it starts; nothing
assigns to them while it runs, as `ne` has its own array. -/
def resolveLocationsH (E : Env) (rec : Rec) (e : Nat) : HM Unit := do
  let c ← HM.read (fun h => h.cells e)
  match c.locations with
  | none => pure ()
  | some ls => do
    let old ← HM.read (fun h => h.elems ls)
    let ne ← HM.makeSlice ls.len
    let ne ← resolveLocsH E rec (if isAbs c.dataDir then c.dataDir else join c.root c.dataDir) ne old
    HM.assign e (fun c => { c with locations := some ne })

/-- `Resolve` (`config/entry.go:173-184`): the address of a new, resolved entry. -/
def resolveH (E : Env) (rec : Rec) (d : Option Nat) (e : Nat) : HM Nat := do
  let c ← HM.read (fun h => h.cells e)
  let ce ← HM.newCell c
  resolveFunctionH E rec d ce
  resolveDataDirH E rec d ce
  resolvePluginDirH E rec d ce
  resolveOptionsH E rec d ce
  resolveLocationsH E rec ce
  pure ce

/-- The loop of `CreateProviders` (`session/resolvedconfig.go:87-89`): the addresses of the resolved entries. -/
def resolveAllH (E : Env) (rec : Rec) (d : Nat) : List Nat → HM (List Nat)
  | [] => pure []
  | e :: es => do
    let r ← resolveH E rec (some d) e
    let rs ← resolveAllH E rec d es
    pure (r :: rs)

/-- `CreateProviders` (`session/resolvedconfig.go:84-91`), without the providers. -/
def createH (E : Env) (rec : Rec) (defaults : Nat) (hierarchy : List Nat) : HM (List Nat) := do
  let d ← resolveH E rec none defaults
  resolveAllH E rec d hierarchy

end Hiera
