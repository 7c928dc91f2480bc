/- Plugin processes and the registry of a session (`session/pluginloader.go`, `session/session.go:144-150,266-298`).

The methods of the registry hold its lock from their beginning to their end (lines 47-48 and 140-141, also when they panic),
so that what goroutines do with it is some sequence of complete calls. -/
import Verif.Model.Value

set_option autoImplicit false

namespace Hiera.Plugin

/-- The kind of function that a dispatch makes (`session/pluginloader.go:269-276`). -/
inductive Kind
  | dataDig
  | dataHash
  | lookupKey
  deriving DecidableEq

/-- The meta-data that a plugin writes on its standard output: the fields that `initialize` reads
(`session/pluginloader.go:243-261`), `none` where they are missing or not of the type expected. Of the functions, the same
holds for the values (`v.([]interface{})`) and for the names in those (`x.(string)`). -/
structure Meta where
  version : Option Int
  address : Option Str
  network : Option Str
  functions : Option (List (Str × Option (List (Option Str))))
  deriving DecidableEq

/-- What happens when a plugin is started (`session/pluginloader.go:148-195`). -/
inductive Answer
  /-- a pipe cannot be created -/
  | noPipe
  /-- `cmd.Start` fails -/
  | noStart
  /-- no meta-data within three seconds -/
  | timeout
  /-- the output is not JSON, or not an object -/
  | garbage
  /-- meta-data -/
  | answered (m : Meta)
  deriving DecidableEq

/-- A process that the session has started (`os.Process`, `session/pluginloader.go:32`). -/
structure Proc where
  path : Str
  live : Bool
  deriving DecidableEq

/-- `plugin` (`session/pluginloader.go:29-37`). `locked` tells whether a `kill` has returned without releasing the lock, and
`kills` counts the calls of `kill`. `process` is an index into the list of processes. -/
structure Plugin where
  locked : Bool
  process : Option Nat
  path : Str
  addr : Str
  network : Str
  functions : List (Str × Option (List (Option Str)))
  kills : Nat
  deriving DecidableEq

/-- All processes and plugins that there ever were, and `pluginRegistry.plugins` (`session/pluginloader.go:40-43`), with
indices of plugins as pointers. A nil map is an empty one. -/
structure World where
  procs : List Proc
  plugins : List Plugin
  reg : List (Str × Nat)
  deriving DecidableEq

/-- A session that has not started any plugin (`session/session.go:92-97`). -/
def World.init : World := { procs := [], plugins := [], reg := [] }

/-- Ends a process (`session/pluginloader.go:158,207-240`). -/
def endProc (ps : List Proc) (pid : Nat) : List Proc := ps.modify pid (fun p => { p with live := false })

/-- `hiera.ProtoVersion` (hierasdk; used in `session/pluginloader.go:243-261`). -/
def protoVersion : Int := 1

/-- What is wrong with a plugin (the panics of `session/pluginloader.go:56-285`). -/
inductive Problem
  | pipe | start | timeout | garbage | protocol | address | noFunctions | names
  deriving DecidableEq

/-- `initialize` (`session/pluginloader.go:243-261`). -/
def initPlugin (p : Plugin) (m : Meta) : Except Problem Plugin :=
  if m.version ≠ some protoVersion then .error .protocol else
  match m.address with
  | none => .error .address
  | some a =>
    let n := match m.network with
      | some n => n
      | none => "tcp".toList
    match m.functions with
    | none => .error .noFunctions
    | some f => .ok { p with addr := a, network := n, functions := f }

/-- The kind of a function type (`session/pluginloader.go:269-276`). -/
def kindOf (k : Str) : Kind :=
  if k = "data_dig".toList then .dataDig else if k = "data_hash".toList then .dataHash else .lookupKey

/-- The functions of one type (`session/pluginloader.go:278-281`). -/
def named (k : Kind) : List (Option Str) → Except Problem (List (Str × Kind))
  | [] => .ok []
  | none :: _ => .error .names
  | some n :: l => match named k l with
    | .error e => .error e
    | .ok r => .ok ((n, k) :: r)

/-- `functionMap` (`session/pluginloader.go:265-284`): the functions in the order in which they are put into the map.
Simplification: the order is that of the list, where Go's is unspecified. -/
def functionMap : List (Str × Option (List (Option Str))) → Except Problem (List (Str × Kind))
  | [] => .ok []
  | (_, none) :: _ => .error .names
  | (k, some names) :: l => match named (kindOf k) names with
    | .error e => .error e
    | .ok r => match functionMap l with
      | .error e => .error e
      | .ok r' => .ok (r ++ r')

/-- `r.plugins[path]` (`session/pluginloader.go:144`). -/
def lookupReg (path : Str) : List (Str × Nat) → Option Nat
  | [] => none
  | (p, i) :: r => if path = p then some i else lookupReg path r

/-- Lines 165-194 of `startPlugin`, after the process has been started: what it gives, and the plugin if it has been
registered (`session/pluginloader.go:163-194`). -/
def started (path : Str) (pid : Nat) (a : Answer) : Except Problem (List (Str × Kind)) × Option Plugin :=
  let p : Plugin := { locked := false, process := some pid, path := path, addr := [], network := [], functions := [], kills := 0 }
  match a with
  | .timeout => (.error .timeout, none)
  | .garbage => (.error .garbage, none)
  | .answered m => match initPlugin p m with
    | .error e => (.error e, none)
    | .ok p => (functionMap p.functions, some p)
  | _ => (.error .start, none)

/-- `startPlugin` (`session/pluginloader.go:139-195`). The deferred function of lines 156-161 ends the process if there is a
panic after it has been started. -/
def startPlugin (path : Str) (a : Answer) (w : World) : Except Problem (List (Str × Kind)) × World :=
  match (lookupReg path w.reg).bind (fun i => w.plugins[i]?) with
  | some p => (functionMap p.functions, w)
  | none => match a with
    | .noPipe => (.error .pipe, w)
    | .noStart => (.error .start, w)
    | a =>
      let pid := w.procs.length
      let procs := w.procs ++ [{ path := path, live := true }]
      let (r, reg) := started path pid a
      let w : World := match reg with
        | none => { w with procs := procs }
        | some p => { procs := procs, plugins := w.plugins ++ [p], reg := (path, w.plugins.length) :: w.reg }
      match r with
      | .ok m => (.ok m, w)
      | .error e => (.error e, { w with procs := endProc w.procs pid })

/-- What happens when a process is told to end (`session/pluginloader.go:221-239`). -/
inductive Ending
  /-- it cannot be told: it is killed -/
  | refused
  /-- it ends in time -/
  | graceful
  /-- it does not: it is killed -/
  | late
  deriving DecidableEq

/-- `kill` (`session/pluginloader.go:207-240`); `none` if it never returns. Simplification: `os.Process.Kill` works, and the
goroutines that read the output of a process end when the process has ended. -/
def kill (i : Nat) (how : Ending) (w : World) : Option World :=
  match w.plugins[i]? with
  | none => some w
  | some p =>
    if p.locked then none else
    match p.process with
    | none => some { w with plugins := w.plugins.set i { p with locked := true, kills := p.kills + 1 } }
    | some pid =>
      let procs := match how with
        | .refused => endProc w.procs pid
        | .graceful => endProc w.procs pid
        | .late => endProc w.procs pid
      some { w with procs := procs, plugins := w.plugins.set i { p with process := none, kills := p.kills + 1 } }

/-- The loop of `stopAll` (`session/pluginloader.go:50-52`). -/
def killAll (how : Nat → Ending) : List (Str × Nat) → World → Option World
  | [], w => some w
  | (_, i) :: r, w => match kill i (how i) w with
    | none => none
    | some w => killAll how r w

/-- `stopAll` (`session/pluginloader.go:46-54`), which is `KillPlugins` (`session/session.go:146-150`). -/
def stopAll (how : Nat → Ending) (w : World) : Option World :=
  match killAll how w.reg w with
  | none => none
  | some w => some { w with reg := [] }

/-- What can happen in a session: functions of a plugin are wanted (`session/session.go:266-298`), the plugins are stopped,
or a process ends by itself. -/
inductive Op
  | start (path : Str) (a : Answer)
  | stop (how : Nat → Ending)
  | exit (pid : Nat)

/-- The world after something has happened; `none` if it never comes to an end
(`session/pluginloader.go:46-54,139-195`). -/
def Op.run (w : World) : Op → Option World
  | .start path a => some (startPlugin path a w).2
  | .stop how => stopAll how w
  | .exit pid => some { w with procs := endProc w.procs pid }

/-- The world after all that has happened (`session/pluginloader.go:46-54,139-195`). -/
def World.after (w : World) : List Op → Option World
  | [] => some w
  | op :: l => match op.run w with
    | none => none
    | some w => w.after l

/-- `TryWithParent` and `DoWithParent` (`hiera/hiera.go:188-205`): whatever the consumer does, also if it panics, the plugins
are stopped at last. Simplification: nothing that the consumer has begun goes on after it has returned. -/
def withSession (ops : List Op) (how : Nat → Ending) : Option World := (World.init.after ops).bind (stopAll how)

end Hiera.Plugin
