/- What a path means: the place that it leads to. -/
import Verif.Model.Value

set_option autoImplicit false

namespace Hiera.Spec

/-- A place of the file system: the names on the way from the root. -/
abbrev Place := List Str

/-- One step: nothing, up or down. There is nothing above the root. -/
def go (at_ : Place) (e : Str) : Place :=
  if e = [] ∨ e = ['.'] then at_ else if e = ['.', '.'] then at_.dropLast else at_ ++ [e]

/-- Where the steps of a path lead from a place. -/
def walk (at_ : Place) (p : Str) : Place := (p.splitOn '/').foldl go at_

/-- The place that a path means, seen from a place. -/
def place (at_ : Place) (p : Str) : Place := if p.head? = some '/' then walk [] p else walk at_ p

/-- The name of a place. -/
def named (at_ : Place) : Str := '/' :: List.intercalate ['/'] at_

end Hiera.Spec
