/- The guard against endless recursion, which nothing uses. -/
import Verif.Model.Value

set_option autoImplicit false

namespace Hiera

/-- `WithKey` (`session/invocation.go:261-270`), on the name stack. The deferred function cuts off the last name whether
`actor` panics or not. No code in the repository calls it. -/
def withKey {α : Type} (source : Str) (actor : List Str → Option (Res α × List Str)) (stack : List Str) : Option (Res α × List Str) :=
  if source ∈ stack then some (.panic (.recursiveLookup stack), stack)
  else match actor (stack ++ [source]) with
    | none => none
    | some (r, s) => some (r, s.dropLast)

end Hiera
