/- The goroutines that serve one plugin, from its start to its stop (`session/pluginloader.go:64-105,139-240`).

Simplifications: the process ends as soon as it is killed (`os.Process.Kill`), and reading its output gives end-of-file when
it has ended (so its children, if any, do not keep the pipes open). What the process writes, and when, is left open. -/
import Mathlib.Logic.Basic

set_option autoImplicit false

namespace Hiera.PluginGo

/-- `awaitMetaData` (`session/pluginloader.go:84-94`): decoding; sending what it has got (line 90 or 92), where the flag tells
whether it is meta-data; or ended. -/
inductive Reader
  | decoding
  | sending (good : Bool)
  | ended
  deriving DecidableEq

/-- A goroutine that reads until the end of the output (`session/pluginloader.go:65-82,96-105`). -/
inductive Drain
  | absent
  | reading
  | ended
  deriving DecidableEq

/-- The goroutine in `kill` that waits for the process (`session/pluginloader.go:227-230`): waiting; sending on `done`; or
ended. -/
inductive Waiter
  | absent
  | waiting
  | sending
  | ended
  deriving DecidableEq

/-- Where the goroutine is that calls `startPlugin`, and later `kill` (`session/pluginloader.go:139-240`). -/
inductive Caller
  /-- in the `select` of lines 174-183 -/
  | awaiting
  /-- has meta-data (line 181) -/
  | informed
  /-- `startPlugin` has panicked, and the deferred function has killed the process (lines 156-161) -/
  | failed
  /-- `startPlugin` has returned, or stopped with a problem of the functions that is told each time (line 194) -/
  | running
  /-- in the `select` of lines 231-235 -/
  | stopping
  /-- in the deferred function of `kill` (lines 214-218) -/
  | draining
  /-- `kill` has returned -/
  | stopped
  deriving DecidableEq

/-- The process, the goroutine that uses it, and those that serve it. -/
structure State where
  /-- has the process not ended? -/
  live : Bool
  /-- has somebody waited for it, so that the operating system has forgotten it? -/
  reaped : Bool
  caller : Caller
  reader : Reader
  stderr : Drain
  stdout : Drain
  waiter : Waiter
  deriving DecidableEq

/-- The process has been started, and the goroutines of lines 163-169 (`session/pluginloader.go:151-169`). -/
def init : State := { live := true, reaped := false, caller := .awaiting, reader := .decoding, stderr := .reading, stdout := .absent, waiter := .absent }

/-- What can happen. -/
inductive Act
  /-- the process ends by itself -/
  | exit
  /-- the decoder gives meta-data, or an error (`session/pluginloader.go:88`) -/
  | decode (good : Bool)
  /-- nothing has been received for three seconds (`session/pluginloader.go:175-176`) -/
  | startTimeout
  /-- the result is received (`session/pluginloader.go:177-181`) -/
  | receive
  /-- `initialize` (`session/pluginloader.go:191,243-261`): is everything there? -/
  | check (good : Bool)
  /-- the end of the standard error output (`session/pluginloader.go:71-76`) -/
  | eofErr
  /-- the end of the standard output (`session/pluginloader.go:100-103`) -/
  | eofOut
  /-- `kill` is called; can the process be told to end (`session/pluginloader.go:207-223`)? -/
  | stop (told : Bool)
  /-- `process.Wait` returns (`session/pluginloader.go:228`) -/
  | waited
  /-- `done` is received (`session/pluginloader.go:232`) -/
  | done
  /-- it is not received for three seconds (`session/pluginloader.go:233-234`) -/
  | stopTimeout
  /-- `wGroup.Wait` returns (`session/pluginloader.go:215`) -/
  | drained
  deriving DecidableEq

/-- The state after something has happened, `none` if it cannot happen (`session/pluginloader.go:64-105,139-240`). Channels are
without buffer (lines 167, 226): who sends waits for somebody who receives. -/
def step (s : State) : Act → Option State
  | .exit => if s.live then some { s with live := false } else none
  | .decode good => if s.reader = .decoding then some { s with reader := .sending good } else none
  | .startTimeout => if s.caller = .awaiting then some { s with caller := .failed, live := false } else none
  | .receive =>
    if s.caller = .awaiting then
      match s.reader with
      | .sending true => some { s with caller := .informed, reader := .ended, stdout := .reading }
      | .sending false => some { s with caller := .failed, reader := .ended, live := false }
      | _ => none
    else none
  | .check good =>
    if s.caller = .informed then
      if good then some { s with caller := .running } else some { s with caller := .failed, live := false }
    else none
  | .eofErr => if s.stderr = .reading ∧ s.live = false then some { s with stderr := .ended } else none
  | .eofOut => if s.stdout = .reading ∧ s.live = false then some { s with stdout := .ended } else none
  | .stop told =>
    if s.caller = .running then
      if told then some { s with caller := .stopping, waiter := .waiting } else some { s with caller := .draining, live := false }
    else none
  | .waited => if s.waiter = .waiting ∧ s.live = false then some { s with waiter := .sending, reaped := true } else none
  | .done => if s.caller = .stopping ∧ s.waiter = .sending then some { s with caller := .draining, waiter := .ended } else none
  | .stopTimeout => if s.caller = .stopping then some { s with caller := .draining, live := false } else none
  | .drained =>
    if s.caller = .draining ∧ s.reader = .ended ∧ s.stderr = .ended ∧ s.stdout = .ended then some { s with caller := .stopped }
    else none

/-- What has happened, one after the other. -/
def run (s : State) : List Act → Option State
  | [] => some s
  | a :: as => match step s a with
    | some s' => run s' as
    | none => none

end Hiera.PluginGo
