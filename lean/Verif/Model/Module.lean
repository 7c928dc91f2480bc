/- The memory of `ModuleLookupKey` (`provider/modulelookupkey.go`), with a file system that changes over time. In
`Model/Eval.lean` files do not change, and the memory cannot be observed. -/
import Verif.Model.Eval

set_option autoImplicit false

namespace Hiera

/-- The map `hiera::moduleproviders` in the cache (`provider/modulelookupkey.go:48-57`): per module the configuration file
of its function, or none for `notFoundLookupKeyFunc`. -/
abbrev Modules := List (Str × Option Str)

/-- The part of `ModuleLookupKey` that finds the function of a module (`provider/modulelookupkey.go:27-35`, `61-73`), in the
environment that there is at the time. If the search fails nothing is remembered. -/
def moduleFunction (E : Env) (mpm : Modules) (name : Str) : Res (Option Str) × Modules :=
  match assoc name mpm with
  | some f => (.ok f, mpm)
  | none => match findModule E name (E.modulePath.getD []) with
    | .ok f => (.ok f, (name, f) :: mpm)
    | .panic e => (.panic e, mpm)

/-- A sequence of such searches, each in its own environment, and their outcomes (`provider/modulelookupkey.go:61-73`).
-/
def moduleFunctions : List (Env × Str) → Modules → List (Res (Option Str))
  | [], _ => []
  | (E, name) :: rest, mpm =>
    let r := moduleFunction E mpm name
    r.1 :: moduleFunctions rest r.2

end Hiera
