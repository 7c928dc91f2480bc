/- Values that are the same but for the order in which the entries of hashes are written. -/
import Mathlib.Data.Option.Defs
import Verif.Spec.Ordinary

set_option autoImplicit false

namespace Hiera.Spec
open Value

/-- The same value, with entries of hashes in another order, at any depth. -/
inductive Reordered : Value → Value → Prop
  | same {v} : Reordered v v
  | also {a b c} : Reordered a b → Reordered b c → Reordered a c
  | moved {es fs : Entries} : es.Perm fs → Reordered (.map es) (.map fs)
  | element {xs ys v w} : Reordered v w → Reordered (.arr (xs ++ v :: ys)) (.arr (xs ++ w :: ys))
  | value {es fs k v w} : Reordered v w → Reordered (.map (es ++ (k, v) :: fs)) (.map (es ++ (k, w) :: fs))
  | key {es fs k l v} : Reordered k l → Reordered (.map (es ++ (k, v) :: fs)) (.map (es ++ (l, v) :: fs))
  | hidden {v w} : Reordered v w → Reordered (.sensitive v) (.sensitive w)

/-- Levels whose files have the same data, but for the order of the entries: neither has a file, or both have one. -/
def SameButOrderData (l m : Level) : Prop := Option.Rel (fun es fs => Reordered (.map es) (.map fs)) l.data m.data

end Hiera.Spec
