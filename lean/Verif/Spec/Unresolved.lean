/- What an explanation says of a function that is not there. -/
import Verif.Spec.Found

set_option autoImplicit false

namespace Hiera.Spec

/-- A text is in an explanation, at any depth. -/
inductive Tells (m : Str) : Node → Prop
  | here {n : Node} : m ∈ n.texts → Tells m n
  | under {n b : Node} : b ∈ n.branches → Tells m b → Tells m n

/-- What is said of a function that is not there. -/
def unresolvedText (n : Str) : Str := "unresolved function '".toList ++ n ++ "'".toList

/-- A level has not been asked for anything in this invocation. -/
def Unasked (p : Prov) (s : St) : Prop := p.id ∉ s.v.loaded ∧ ∀ key, assoc (p, key) s.v.hashes = none

end Hiera.Spec
