/- Goroutines that look things up through one `data_hash` provider: `dataHash` (`internal/datahashprovider.go:76-101`) as a
transition system.

Simplifications: `sync.RWMutex` behaves as documented: a goroutine that wants to write gets in line behind other writers,
keeps new readers out from then on, and waits for the readers that are in. Of a function that looks something up through
the same provider (it can: the context that it is given is an `api.ServerContext`, with `Interpolate` and `Invocation`, see
`session/serverctx.go:14-16,52-54`) only the beginning of that nested lookup is modelled. -/
import Verif.Model.Conc

set_option autoImplicit false

namespace Hiera.ConcHash
open Hiera.Conc (upd)

/-- Where a goroutine is in `dataHash`. `H` are the data, `n` the number of goroutines
(`internal/datahashprovider.go:76-101`). -/
inductive PC (H : Type)
  /-- before line 85: `RLock` -/
  | start
  /-- before line 86: `hashes.Get(key)`, with the read lock -/
  | reading
  /-- before line 92: `Lock` -/
  | want
  /-- in `Lock`, first in line, waiting for the readers -/
  | first
  /-- before line 95: `hashes.Get(key)` once more, with the lock -/
  | inside
  /-- before line 98: the call of the function -/
  | calling
  /-- in the function, before line 85 of a nested lookup -/
  | nested
  /-- after the end, with these data -/
  | done (h : H)
  /-- the function panicked -/
  | failed
  deriving DecidableEq

/-- The goroutines and the provider: its memory, the readers and the writer that is in or first in line. `runs` counts the
calls of the function that succeeded, by location (`internal/datahashprovider.go:76-101`). -/
structure Sys (H : Type) (n : Nat) where
  pc : Fin n → PC H
  hashes : Str → Option H
  readers : Fin n → Bool
  writer : Option (Fin n)
  runs : Str → Nat

/-- A provider that has not been used yet (`internal/datahashprovider.go:108-111`). -/
def Sys.init {H : Type} {n : Nat} : Sys H n where
  pc := fun _ => .start
  hashes := fun _ => none
  readers := fun _ => false
  writer := none
  runs := fun _ => 0

/-- The next step of goroutine `i`, which wants the data for `loc i`; `none` if it has to wait or is at an end. `out` is what
the function gives this time, where `none` is a panic; the lock is released then, too (line 93, `defer`). `again` tells for
which locations the function begins with a lookup through the same provider (`internal/datahashprovider.go:76-101`). -/
def Sys.step {H : Type} {n : Nat} (loc : Fin n → Str) (again : Str → Bool) (s : Sys H n) (i : Fin n) (out : Option H) : Option (Sys H n) :=
  match s.pc i with
  | .start => match s.writer with
    | none => some { s with pc := upd s.pc i .reading, readers := upd s.readers i true }
    | some _ => none
  | .reading => match s.hashes (loc i) with
    | some h => some { s with pc := upd s.pc i (.done h), readers := upd s.readers i false }
    | none => some { s with pc := upd s.pc i .want, readers := upd s.readers i false }
  | .want => match s.writer with
    | none => some { s with pc := upd s.pc i .first, writer := some i }
    | some _ => none
  | .first => if ∃ j, s.readers j = true then none else some { s with pc := upd s.pc i .inside }
  | .inside => match s.hashes (loc i) with
    | some h => some { s with pc := upd s.pc i (.done h), writer := none }
    | none => some { s with pc := upd s.pc i .calling }
  | .calling => if again (loc i) then some { s with pc := upd s.pc i .nested } else match out with
    | some h => some { s with pc := upd s.pc i (.done h), hashes := upd s.hashes (loc i) (some h),
                              runs := upd s.runs (loc i) (s.runs (loc i) + 1), writer := none }
    | none => some { s with pc := upd s.pc i .failed, writer := none }
  | .nested => match s.writer with
    | none => some { s with pc := upd s.pc i .failed }
    | some _ => none
  | .done _ => none
  | .failed => none

/-- The states that some schedule leads to (goroutines in `internal/datahashprovider.go:76-101`). -/
inductive Sys.Reach {H : Type} {n : Nat} (loc : Fin n → Str) (again : Str → Bool) (s : Sys H n) : Sys H n → Prop
  | refl : Reach loc again s s
  | step {t u : Sys H n} (i : Fin n) (out : Option H) :
    Reach loc again s t → t.step loc again i out = some u → Reach loc again s u

end Hiera.ConcHash
