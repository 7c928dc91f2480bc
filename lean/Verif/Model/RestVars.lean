/- `opts.Variables = append(opts.Variables, params["var"]...)` in concurrent requests (`hieraserver/rest/rest.go:129`, `136`)
and the loop that reads the slice (`hiera/hiera.go:293-300`), as a transition system.

All requests copy the slice header of the one `cmdOpts.Variables`. `append` writes into the array that the copies share if it
has room for the new elements, and else into a new array. Steps are the accesses to single elements; they are atomic
(simplification: an unsynchronised access to a string in Go is not even that). -/
import Verif.Model.Cli
import Mathlib.Logic.Function.Basic

set_option autoImplicit false

namespace Hiera

/-- How far a request has come (`hieraserver/rest/rest.go:129,136`). -/
inductive Phase
  | start
  /-- `append` in the shared array: so many elements written -/
  | writing (j : Nat)
  /-- the loop of `createScope`, over the shared array (`none`) or an array of its own; the variables that it has got -/
  | reading (own : Option (List Str)) (got : List Str)
  | done (got : List Str)

/-- The server (`hieraserver/rest/rest.go:129,136`). -/
structure RestState where
  /-- the shared array, all of its capacity -/
  cells : List Str
  phase : Nat → Phase

/-- Steps of request `i`. `n` is the length of `cmdOpts.Variables` and `vars i` are the parameters of the requests
(`hieraserver/rest/rest.go:129,136`). -/
inductive RestStep (n : Nat) (vars : Nat → List Str) (i : Nat) : RestState → RestState → Prop
  | grow {s} : s.phase i = .start → n + (vars i).length > s.cells.length →
      RestStep n vars i s { s with phase := Function.update s.phase i (.reading (some (s.cells.take n ++ vars i)) []) }
  | fits {s} : s.phase i = .start → n + (vars i).length ≤ s.cells.length →
      RestStep n vars i s { s with phase := Function.update s.phase i (.writing 0) }
  | write {s j x} : s.phase i = .writing j → (vars i)[j]? = some x →
      RestStep n vars i s { cells := s.cells.set (n + j) x, phase := Function.update s.phase i (.writing (j + 1)) }
  | written {s j} : s.phase i = .writing j → (vars i).length ≤ j →
      RestStep n vars i s { s with phase := Function.update s.phase i (.reading none []) }
  | read {s own got x} : s.phase i = .reading own got → got.length < n + (vars i).length → (own.getD s.cells)[got.length]? = some x →
      RestStep n vars i s { s with phase := Function.update s.phase i (.reading own (got ++ [x])) }
  | finish {s own got} : s.phase i = .reading own got → n + (vars i).length ≤ got.length →
      RestStep n vars i s { s with phase := Function.update s.phase i (.done got) }

/-- Any number of steps of any requests, in any order (`hieraserver/rest/rest.go:129,136`). -/
inductive RestRun (n : Nat) (vars : Nat → List Str) : RestState → RestState → Prop
  | refl {s} : RestRun n vars s s
  | step {s t u} (i : Nat) : RestRun n vars s t → RestStep n vars i t u → RestRun n vars s u

/-- The server at its start: variables of its own, and room for more (`hieraserver/rest/rest.go:129,136`). -/
def restStart (base spare : List Str) : RestState := { cells := base ++ spare, phase := fun _ => .start }

end Hiera
