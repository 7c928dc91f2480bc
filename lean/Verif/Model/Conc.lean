/- Invocations of one session that load configurations at the same time: `Config` (`session/invocation.go:66-111`) as a
transition system. Each goroutine does one step at a time; the steps are what the code does between accesses to the shared
cache and the locks, so that every interleaving of the code is one of the steps here.

Simplifications: `sync.Map` and `sync.RWMutex` are taken to be linearizable. One goroutine makes one call of `Config`. The
lock that a goroutine makes for itself is named by the goroutine. Of a lock only the writer is kept, as nobody but its maker,
who locks it before anyone else can, ever locks it for writing. Giving the lock back that was not stored is one step with
finding that out, as no one else knows it; so are taking the read lock's value and releasing it. -/
import Verif.Model.Value

set_option autoImplicit false

namespace Hiera.Conc

/-- Where a goroutine is in `Config`. `C` are the configurations, `n` the number of goroutines
(`session/invocation.go:66-111`). -/
inductive PC (C : Type) (n : Nat)
  /-- before line 77: `sc.Load(cp)` -/
  | start
  /-- before line 89: `sc.LoadOrStore(lc, &myLock)`, with `myLock` locked -/
  | locked
  /-- before line 104: `config.New` -/
  | owner
  /-- before line 105: `sc.Store(cp, conf)` -/
  | loaded (c : C)
  /-- before line 106: `myLock.Unlock()` -/
  | stored (c : C)
  /-- before line 96: `lock.RLock()` on the lock of another -/
  | waiting (o : Fin n)
  /-- before line 97: `sc.Load(cp)`, with the read lock -/
  | reading (o : Fin n)
  /-- after line 107, with this configuration -/
  | done (c : C)
  /-- `config.New` panicked -/
  | failed
  /-- the type assertion in line 98 panicked -/
  | crashed

/-- The goroutines and what they share: the two kinds of entries in the cache (`Load(cp)` and `Load(lc)`, by path), the
locks that are locked for writing, and the number of times that `config.New` was called, by path (which the code does not
count) (`session/invocation.go:66-111`). -/
structure Sys (C : Type) (n : Nat) where
  pc : Fin n → PC C n
  conf : Str → Option C
  lock : Str → Option (Fin n)
  held : Fin n → Bool
  runs : Str → Nat

/-- Assign (infrastructure for `session/invocation.go:66-111`). -/
def upd {κ α : Type} [DecidableEq κ] (f : κ → α) (k : κ) (a : α) : κ → α := fun x => if x = k then a else f x

/-- A session in which nothing has happened (`session/invocation.go:66-111`). -/
def Sys.init {C : Type} {n : Nat} : Sys C n where
  pc := fun _ => .start
  conf := fun _ => none
  lock := fun _ => none
  held := fun _ => false
  runs := fun _ => 0

/-- The next step of goroutine `i`, which wants the configuration `path i`; `none` if it has to wait or is at an end. `out`
is what `config.New` gives this time, where `none` is a panic (`session/invocation.go:66-111`). -/
def Sys.step {C : Type} {n : Nat} (path : Fin n → Str) (s : Sys C n) (i : Fin n) (out : Option C) : Option (Sys C n) :=
  match s.pc i with
  | .start => match s.conf (path i) with
    | some c => some { s with pc := upd s.pc i (.done c) }
    | none => some { s with pc := upd s.pc i .locked, held := upd s.held i true }
  | .locked => match s.lock (path i) with
    | some o => some { s with pc := upd s.pc i (.waiting o), held := upd s.held i false }
    | none => some { s with pc := upd s.pc i .owner, lock := upd s.lock (path i) (some i) }
  | .owner => match out with
    | some c => some { s with pc := upd s.pc i (.loaded c), runs := upd s.runs (path i) (s.runs (path i) + 1) }
    | none => some { s with pc := upd s.pc i .failed, runs := upd s.runs (path i) (s.runs (path i) + 1) }
  | .loaded c => some { s with pc := upd s.pc i (.stored c), conf := upd s.conf (path i) (some c) }
  | .stored c => some { s with pc := upd s.pc i (.done c), held := upd s.held i false }
  | .waiting o => if s.held o then none else some { s with pc := upd s.pc i (.reading o) }
  | .reading _ => match s.conf (path i) with
    | some c => some { s with pc := upd s.pc i (.done c) }
    | none => some { s with pc := upd s.pc i .crashed }
  | .done _ => none
  | .failed => none
  | .crashed => none

/-- The states that some schedule leads to (goroutines in `session/invocation.go:66-111`). -/
inductive Sys.Reach {C : Type} {n : Nat} (path : Fin n → Str) (s : Sys C n) : Sys C n → Prop
  | refl : Reach path s s
  | step {t u : Sys C n} (i : Fin n) (out : Option C) : Reach path s t → t.step path i out = some u → Reach path s u

end Hiera.Conc
