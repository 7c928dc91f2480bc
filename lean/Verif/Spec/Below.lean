/- What it means that nothing of a value is lost in another one, in which there may be more. -/
import Verif.Spec.Ordinary

set_option autoImplicit false

namespace Hiera.Spec
open Value

/-- The second value has everything that the first one has, and may have more. A hash has all keys with values that have everything
that the values had, and the elements of an array come first and in their order, as they are or each once. Other values are the same. -/
inductive Extends : Value → Value → Prop
  | same {a : Value} : Extends a a
  | maps {as bs : Entries} : (∀ k x, WF k → Entries.get as k = some x → Entries.get bs k ≠ none) →
      (∀ k x y, WF k → Entries.get as k = some x → Entries.get bs k = some y → Extends x y) → Extends (.map as) (.map bs)
  | arrays {as ns bs : List Value} : (ns = as ∨ IsNub as ns) → ns <+: bs → Extends (.arr as) (.arr bs)

/-- Whatever is found, more is found. -/
def ExtendsO (a b : Option Value) : Prop := ∀ x, a = some x → ∃ y, b = some y ∧ Extends x y

/-- The strategy `unique` takes a value that is found alone as it is, and else makes a flat array without duplicates. The condition
says that it is one already. -/
def ArrayIfAlone (st : Str) (vs : List Value) : Prop :=
  st = "unique".toList → ∀ v, vs = [v] → ∃ es, v = .arr es ∧ (∀ e ∈ es, ∀ xs, e ≠ .arr xs) ∧ es.Pairwise (fun a b => equals a b = false)

end Hiera.Spec
