import Verif.Spec.Ordinary
import Verif.Spec.Lookup
import Verif.Spec.Merge

/-!
# Conversions in an ordinary set-up

The lookup options of the levels may say, for a key, to which type its value is converted.
-/

set_option autoImplicit false

namespace Hiera.Spec

open Value

/-- Lookup options; those of the key are a hash, if there are any. -/
def OptionsSay (key : Str) (v : Value) : Prop := ∃ es, v = .map es ∧ ∀ o, Entries.getS es key = some o → ∃ os, o = .map os

/-- What they say about a matter, like `merge` or `convert_to`. -/
def saidIn (matter key : Str) (v : Value) : Option Value := valueAt [.str key, .str matter] v

/-- What the levels say about it, the highest level first. -/
def saidOf (matter key : Str) (ls : List Level) : List Value := (valuesOf ls "lookup_options".toList).filterMap (saidIn matter key)

/-- The levels do not say it with more than one array, or with more than one hash. -/
def SaidOnce (vs : List Value) : Prop := vs.Pairwise (fun a b => ¬SameContainer a b)

/-- The type and the arguments that a `convert_to` stands for: the name of a type, or an array of the name and the arguments. -/
inductive TypeSaid (E : Env) : Option Value → Option (Nat × Option (List Value)) → Prop
  | asIs : TypeSaid E none none
  | empty : TypeSaid E (some (.arr [])) none
  | type {n t} : E.parseType n = .ok t → TypeSaid E (some (.str n)) (some (t, none))
  | typeIn {n t} : E.parseType n = .ok t → TypeSaid E (some (.arr [.str n])) (some (t, none))
  | args {n t a as} : E.parseType n = .ok t → TypeSaid E (some (.arr (.str n :: a :: as))) (some (t, some (a :: as)))

/-- A field of what a value was converted to. -/
def fieldOfMade (fs : List Str) : Res (Option Value) → Res (Option Value)
  | .ok v => .ok (v.bind (fieldOf fs))
  | .panic e => .panic e

end Hiera.Spec
