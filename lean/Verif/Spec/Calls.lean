/- What a program gets from the functions of package `hiera`, in terms of the answers that keys have. -/
import Verif.Spec.Printed

set_option autoImplicit false

namespace Hiera.Spec

/-- The value of the source of the highest rank: the overrides, the data, the hash of defaults, the default value, the default
function. `data` says what the data has for the names. -/
inductive Chosen (data : Res (Option Value) → Prop) (names : List Str) (override defaults : Option Entries) (dv : Option Value)
    (df : Option (Res Value)) : Res (Option Value) → Prop
  | override {v} : FirstIn names override v → Chosen data names override defaults dv df (.ok (some v))
  | data {v} : NoneIn names override → data (.ok (some v)) → Chosen data names override defaults dv df (.ok (some v))
  | failed {e} : NoneIn names override → data (.panic e) → Chosen data names override defaults dv df (.panic e)
  | hash {v} : NoneIn names override → data (.ok none) → FirstIn names defaults v → Chosen data names override defaults dv df (.ok (some v))
  | value {v} : NoneIn names override → data (.ok none) → NoneIn names defaults → dv = some v →
      Chosen data names override defaults dv df (.ok (some v))
  | func {v} : NoneIn names override → data (.ok none) → NoneIn names defaults → dv = none → df = some (.ok v) →
      Chosen data names override defaults dv df (.ok (some v))
  | funcFails {e} : NoneIn names override → data (.ok none) → NoneIn names defaults → dv = none → df = some (.panic e) →
      Chosen data names override defaults dv df (.panic e)
  | nothing : NoneIn names override → data (.ok none) → NoneIn names defaults → dv = none → df = none →
      Chosen data names override defaults dv df (.ok none)

/-- The hash that an argument represents. -/
inductive Represents : Option Value → Entries → Prop
  | absent : Represents none []
  | nil : Represents (some .null) []
  | hash {es} : Represents (some (.map es)) es

end Hiera.Spec
