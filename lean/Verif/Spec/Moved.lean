/- Values that may be merged in parts. -/
import Verif.Spec.Modular
import Verif.Spec.Grouped

set_option autoImplicit false

namespace Hiera.Spec
open Value

/-- Values that give the same, whether they are merged all at once or in two parts that are merged then: no value keeps apart two others
that would be merged without it, and a value that is alone has nothing twice. -/
structure InParts (st : Str) (vs : List Value) : Prop where
  hash : st = "hash".toList → ∀ a b c, [a, b, c].Sublist vs → IsMap a → IsMap c → IsMap b
  deep : st = "deep".toList → ∀ a b c, [a, b, c].Sublist vs → Between a b c
  alone : st = "unique".toList → ∀ v, vs = [v] → ∀ xs, Leaves v xs → xs.Pairwise (fun a b => equals a b = false)

end Hiera.Spec
