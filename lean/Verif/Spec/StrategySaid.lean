import Verif.Spec.Conversions

/-!
# Merge options that are a hash

How values are merged may be said with the name of a strategy, or with a hash that has the name under `strategy`, and options.
-/

set_option autoImplicit false

namespace Hiera.Spec

open Value

/-- The strategy that is named in a hash. -/
def strategyIn (v : Value) : Option Value := valueAt [.str "strategy".toList] v

/-- How the values of a key are merged. It is as the caller says, by name or with a hash. Else it is as the highest level says that
says something about it; if this is a hash, then the strategy is the one of the highest level that names one in a hash. Else the
first value is taken. -/
inductive StrategySaid (ls : List Level) (key : Str) (opts : Entries) : Str → Prop
  | asked {st} : Entries.getS opts "merge".toList = some (.str st) → StrategySaid ls key opts st
  | askedWith {m st} : Entries.getS opts "merge".toList = some (.map m) → Entries.getS m "strategy".toList = some (.str st) →
      StrategySaid ls key opts st
  | said {st} : Entries.getS opts "merge".toList = none → (saidOf "merge".toList key ls).head? = some (.str st) → StrategySaid ls key opts st
  | saidWith {m st} : Entries.getS opts "merge".toList = none → (saidOf "merge".toList key ls).head? = some (.map m) →
      (∀ v ∈ saidOf "merge".toList key ls, ∀ x, strategyIn v = some x → ∃ n, x = .str n) →
      (saidOf "merge".toList key ls).findSome? strategyIn = some (.str st) → StrategySaid ls key opts st
  | default : Entries.getS opts "merge".toList = none → saidOf "merge".toList key ls = [] → StrategySaid ls key opts "first".toList

/-- It is said with a hash, and there is no strategy in it. -/
inductive NoStrategy (ls : List Level) (key : Str) (opts : Entries) : Prop
  | asked {m} : Entries.getS opts "merge".toList = some (.map m) → Entries.getS m "strategy".toList = none → NoStrategy ls key opts
  | said {m} : Entries.getS opts "merge".toList = none → (saidOf "merge".toList key ls).head? = some (.map m) →
      (∀ v ∈ saidOf "merge".toList key ls, strategyIn v = none) → NoStrategy ls key opts

end Hiera.Spec
