/- Answers that are the same but for the order of the keys of hashes, and values that a level has which another one has as well. -/
import Verif.Spec.Below

set_option autoImplicit false

namespace Hiera.Spec
open Value

/-- Both found nothing, or both found the same but for the order of the keys of hashes. -/
def SameButOrder (a b : Option Value) : Prop := (a = none ∧ b = none) ∨ ∃ x y, a = some x ∧ b = some y ∧ equals x y = true

/-- All that the level has for a key, one of the levels has for it as well. -/
def Repeats (l : Level) (ls : List Level) (key : Str) : Prop := ∀ v ∈ valuesOf [l] key, v ∈ valuesOf ls key

end Hiera.Spec
