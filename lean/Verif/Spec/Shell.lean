/- From the shell to the files and back: what is shown for names, in a set-up whose data refers to variables and other keys. -/
import Verif.Spec.Referring
import Verif.Spec.Printed

set_option autoImplicit false

namespace Hiera.Spec
open Value

/-- What is told for a name: what the answer for its first segment has in the place that the others lead to. -/
inductive Promised (E : Env) (sc : Scope) (ls : List Sheet) (opts : Entries) : Str → Option Value → Prop
  | field {root : Str} {fs : List Str} {v : Option Value} : Answered E sc ls root opts v → Promised E sc ls opts (joinDots (root :: fs)) (v.bind (fieldOf fs))

/-- A name that leads to a key in reach, whose values can be merged in the way that the options or the lookup options say. -/
def Askable (E : Env) (sc : Scope) (ls : List Sheet) (K : Str → Prop) (opts : Entries) (name : Str) : Prop :=
  ∃ root fs st, name = joinDots (root :: fs) ∧ K root ∧ (∀ f ∈ fs, KeyPart f) ∧ MergedBy (ls.map Sheet.level) root opts st ∧
    ∀ vs, MeantL E sc ls (templatesOf ls root) vs → Mergeable st vs

/-- The first of the values that there are. -/
def firstOne : List (Option Value) → Option Value
  | [] => none
  | some v :: _ => some v
  | none :: vs => firstOne vs

/-- The names with their values, without those that have none. -/
def allOfThem : List Str → List (Option Value) → Entries
  | n :: ns, some v :: vs => (.str n, v) :: allOfThem ns vs
  | _ :: ns, none :: vs => allOfThem ns vs
  | _, _ => []

/-- What is shown: all names with their values, or the first value, or else the default value. -/
def shown (all : Bool) (args : List Str) (vs : List (Option Value)) (dv : Option Value) : Option Value :=
  match all, firstOne vs with
  | true, _ => some (.map (allOfThem args vs))
  | false, some v => some v
  | false, none => dv

end Hiera.Spec
